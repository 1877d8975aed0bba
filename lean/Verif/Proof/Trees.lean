import Verif.Proof.Sentence
import Verif.Proof.Terminates
import Verif.Spec.Steps
/-
Sentences of the grammar a type registers are matches of the type.
-/
namespace Teleparse
variable {m n : Nat} {I : Type}

theorem All2.mono {α β : Type} {R Q : α → β → Prop} (h : ∀ a b, R a b → Q a b) {l k} (ha : All2 R l k) :
    All2 Q l k := by
  induction ha with
  | nil => exact .nil
  | cons h1 _ ih => exact .cons (h _ _ h1) ih

theorem All2.append_inv {α β : Type} {R : α → β → Prop} {l1 l2 : List α} {k : List β} (h : All2 R (l1 ++ l2) k) :
    ∃ k1 k2, k = k1 ++ k2 ∧ All2 R l1 k1 ∧ All2 R l2 k2 := by
  induction l1 generalizing k with
  | nil => exact ⟨[], k, rfl, .nil, h⟩
  | cons a l1 ih =>
    cases h with
    | cons h1 h2 =>
      obtain ⟨k1, k2, rfl, h3, h4⟩ := ih h2
      exact ⟨_ :: k1, k2, rfl, .cons h1 h3, h4⟩

theorem All2.append {α β : Type} {R : α → β → Prop} {l1 l2 : List α} {k1 k2 : List β} (h1 : All2 R l1 k1)
    (h2 : All2 R l2 k2) : All2 R (l1 ++ l2) (k1 ++ k2) := by
  induction h1 with
  | nil => exact h2
  | cons h _ ih => exact .cons h ih

/-- Derivation trees of height at most `h`. -/
def Tr (G : Grammar I n) : Nat → I → List (TokenSrc n) → Prop
  | 0, _, _ => False
  | h + 1, i, w =>
    ((i, Rule.eps) ∈ G ∧ w = []) ∨
    (∃ t tok, (i, Rule.term t) ∈ G ∧ t.Matches tok ∧ w = [tok]) ∨
    (∃ l ws, (i, Rule.seq l) ∈ G ∧ All2 (Tr G h) l ws ∧ w = ws.flatten) ∨
    (∃ l j, (i, Rule.alt l) ∈ G ∧ j ∈ l ∧ Tr G h j w)

variable {G : Grammar I n}

theorem Tr.succ {h : Nat} : ∀ {i : I} {w}, Tr G h i w → Tr G (h + 1) i w := by
  induction h with
  | zero => intro i w h; exact h.elim
  | succ h ih =>
    intro i w ht
    rcases ht with ht | ht | ⟨l, ws, h1, h2, h3⟩ | ⟨l, j, h1, h2, h3⟩
    · exact .inl ht
    · exact .inr (.inl ht)
    · exact .inr (.inr (.inl ⟨l, ws, h1, h2.mono fun _ _ => ih, h3⟩))
    · exact .inr (.inr (.inr ⟨l, j, h1, h2, ih h3⟩))

theorem Tr.mono {h h' : Nat} (hh : h ≤ h') {i : I} {w} (ht : Tr G h i w) : Tr G h' i w := by
  induction hh with
  | refl => exact ht
  | step _ ih => exact ih.succ

def SymTr (G : Grammar I n) (h : Nat) : Sym I n → List (TokenSrc n) → Prop
  | .tok t, u => u = [t]
  | .nt i, u => Tr G h i u

theorem SymTr.mono {h h' : Nat} (hh : h ≤ h') (s : Sym I n) (w) (ht : SymTr G h s w) : SymTr G h' s w := by
  cases s with
  | tok t => exact ht
  | nt i => exact Tr.mono hh ht

theorem all2_nt {h : Nat} {l : List I} {ws} (ha : All2 (SymTr G h) (l.map .nt) ws) : All2 (Tr G h) l ws := by
  induction l generalizing ws with
  | nil => cases ha; exact .nil
  | cons i l ih =>
    cases ha with
    | cons h1 h2 => exact .cons h1 (ih h2)

theorem Derives.trees {α β : List (Sym I n)} (hd : Derives G α β) : ∀ w : List (TokenSrc n), β = w.map .tok →
    ∃ h ws, All2 (SymTr G h) α ws ∧ ws.flatten = w := by
  induction hd with
  | refl α =>
    rintro w rfl
    refine ⟨0, w.map fun t => [t], ?_, ?_⟩
    · induction w with
      | nil => exact .nil
      | cons t w ih => exact .cons rfl ih
    · induction w with
      | nil => rfl
      | cons t w ih => simpa using ih
  | @step α β γ δ i he _ ih =>
    intro w hw
    obtain ⟨h, ws, h1, h2⟩ := ih w hw
    obtain ⟨wa, wb, rfl, h3, h4⟩ := h1.append_inv
    obtain ⟨wx, wg, rfl, h5, h6⟩ := h3.append_inv
    refine ⟨h + 1, wx ++ wg.flatten :: wb, (h5.mono (SymTr.mono (Nat.le_succ h))).append
      (.cons ?_ (h4.mono (SymTr.mono (Nat.le_succ h)))), by simpa using h2⟩
    cases he with
    | eps hi => cases h6; exact .inl ⟨hi, rfl⟩
    | term hi ht =>
      cases h6 with
      | cons g1 g2 => cases g2; cases g1; exact .inr (.inl ⟨_, _, hi, ht, rfl⟩)
    | seq hi => exact .inr (.inr (.inl ⟨_, wg, hi, all2_nt h6, rfl⟩))
    | alt hi hj =>
      cases h6 with
      | cons g1 g2 =>
        cases g2
        refine .inr (.inr (.inr ⟨_, _, hi, hj, ?_⟩))
        simpa [SymTr] using g1

theorem Der.tree {i : I} {w : List (TokenSrc n)} (h : Der G i w) : ∃ k, Tr G k i w := by
  obtain ⟨k, ws, h1, rfl⟩ := Derives.trees h w rfl
  cases h1 with
  | cons h1 h2 => cases h2; exact ⟨k, by simpa [SymTr] using h1⟩

/-! ### Trees of the productions of a schema -/

section
variable {S : Schema m n} {root : Ty m n} {G : Grammar (PId m n) n} (E : Rules S root G)
include E

theorem Tr.seq_inv {h : Nat} {i : PId m n} {l w} (hl : S.rule i = .seq l) (ht : Tr G h i w) :
    ∃ k ws, h = k + 1 ∧ All2 (Tr G k) l ws ∧ w = ws.flatten := by
  cases h with
  | zero => exact ht.elim
  | succ h =>
    rcases ht with ⟨h1, _⟩ | ⟨t, tok, h1, _⟩ | ⟨l', ws, h1, h2, h3⟩ | ⟨l', j, h1, h2, h3⟩ <;>
      have := E.rule h1 <;> rw [hl] at this <;> cases this
    exact ⟨h, ws, rfl, h2, h3⟩

theorem Tr.alt_inv {h : Nat} {i : PId m n} {l w} (hl : S.rule i = .alt l) (ht : Tr G h i w) :
    ∃ k j, h = k + 1 ∧ j ∈ l ∧ Tr G k j w := by
  cases h with
  | zero => exact ht.elim
  | succ h =>
    rcases ht with ⟨h1, _⟩ | ⟨t, tok, h1, _⟩ | ⟨l', ws, h1, h2, h3⟩ | ⟨l', j, h1, h2, h3⟩ <;>
      have := E.rule h1 <;> rw [hl] at this <;> cases this
    exact ⟨h, j, rfl, h2, h3⟩

theorem Tr.term_inv {h : Nat} {i : PId m n} {t w} (hl : S.rule i = .term t) (ht : Tr G h i w) :
    ∃ tok, t.Matches tok ∧ w = [tok] := by
  cases h with
  | zero => exact ht.elim
  | succ h =>
    rcases ht with ⟨h1, _⟩ | ⟨t, tok, h1, h2⟩ | ⟨l', ws, h1, h2, h3⟩ | ⟨l', j, h1, h2, h3⟩ <;>
      have := E.rule h1 <;> rw [hl] at this <;> cases this
    exact ⟨tok, h2⟩

theorem Tr.eps_inv {h : Nat} {w} (ht : Tr G h .eps w) : w = [] := by
  have hl : S.rule .eps = .eps := rfl
  cases h with
  | zero => exact ht.elim
  | succ h =>
    rcases ht with ⟨h1, h2⟩ | ⟨t, tok, h1, _⟩ | ⟨l', ws, h1, h2, h3⟩ | ⟨l', j, h1, h2, h3⟩ <;>
      have := E.rule h1 <;> rw [hl] at this <;> cases this
    exact h2

theorem Tr.opt_inv {h : Nat} {i : PId m n} {w} (ht : Tr G h (.opt i) w) :
    w = [] ∨ ∃ k, h = k + 1 ∧ Tr G k i.id w := by
  obtain ⟨k, j, rfl, hj, h1⟩ := Tr.alt_inv E rfl ht
  simp only [List.mem_cons, List.not_mem_nil, or_false] at hj
  rcases hj with rfl | rfl
  · exact .inr ⟨k, rfl, h1⟩
  · exact .inl (Tr.eps_inv E h1)

theorem Tr.seq2_inv {h : Nat} {i a b : PId m n} {w} (hl : S.rule i = .seq [a, b]) (ht : Tr G h i w) :
    ∃ k u v, h = k + 1 ∧ Tr G k a u ∧ Tr G k b v ∧ w = u ++ v := by
  obtain ⟨k, ws, rfl, h1, rfl⟩ := Tr.seq_inv E hl ht
  cases h1 with
  | cons h1 h2 =>
    cases h2 with
    | cons h2 h3 => cases h3; exact ⟨k, _, _, rfl, h1, h2, by simp⟩

theorem Tr.plus_inv {i : PId m n} : ∀ {h : Nat} {w}, Tr G h (.plus i) w →
    ∃ k ws, All2 (Tr G (h - 1)) (List.replicate (k + 1) i.id) ws ∧ w = ws.flatten := by
  intro h
  induction h using Nat.strongRecOn with
  | ind h ih =>
    intro w ht
    obtain ⟨k, u, v, rfl, h1, h2, rfl⟩ := Tr.seq2_inv E rfl ht
    rcases Tr.opt_inv E h2 with rfl | ⟨k', rfl, h3⟩
    · exact ⟨0, [u], .cons h1 .nil, by simp⟩
    · obtain ⟨q, ws, h4, rfl⟩ := ih k' (by omega) h3
      exact ⟨q + 1, u :: ws, .cons h1 (h4.mono fun _ _ => Tr.mono (by omega)), by simp⟩

theorem Tr.split_inv {i j : PId m n} {h : Nat} {w} (ht : Tr G h (.tup2 i (.opt (.plus (.tup2 j i)))) w) :
    ∃ k ws, All2 (Tr G (h - 1)) (alternate i.id j.id (k + k + 1)) ws ∧ w = ws.flatten := by
  obtain ⟨k, u, v, rfl, h1, h2, rfl⟩ := Tr.seq2_inv E rfl ht
  rcases Tr.opt_inv E h2 with rfl | ⟨k', rfl, h3⟩
  · exact ⟨0, [u], .cons h1 .nil, by simp⟩
  · obtain ⟨q, ws, h4, rfl⟩ := Tr.plus_inv E h3
    have key : ∀ q ws, All2 (Tr G (k' - 1)) (List.replicate q (PId.tup2 j i)) ws →
        ∃ vs, All2 (Tr G k') (alternate j.id i.id (q + q)) vs ∧ ws.flatten = vs.flatten := by
      intro q
      induction q with
      | zero => intro ws h; cases h; exact ⟨[], .nil, rfl⟩
      | succ q ih =>
        intro ws h
        cases h with
        | cons g1 g2 =>
          obtain ⟨vs, g3, g4⟩ := ih _ g2
          obtain ⟨k2, a, b, hk, g5, g6, rfl⟩ := Tr.seq2_inv E rfl g1
          rw [show q + 1 + (q + 1) = q + q + 1 + 1 by omega]
          exact ⟨a :: b :: vs, .cons (g5.mono (by omega)) (.cons (g6.mono (by omega)) g3), by simp [g4]⟩
    obtain ⟨vs, g1, g2⟩ := key _ _ h4
    exact ⟨q + 1, u :: vs, .cons h1 (g1.mono fun _ _ => Tr.mono (by omega)), by simp [g2]⟩

theorem Tr.punct_inv {i j : PId m n} : ∀ {h : Nat} {w}, Tr G h (.punct i j) w →
    ∃ k ws, All2 (Tr G (h - 1)) (alternate i.id j.id (k + 1)) ws ∧ w = ws.flatten := by
  intro h
  induction h using Nat.strongRecOn with
  | ind h ih =>
    intro w ht
    obtain ⟨k, u, v, rfl, h1, h2, rfl⟩ := Tr.seq2_inv E rfl ht
    rcases Tr.opt_inv E h2 with rfl | ⟨k', rfl, h3⟩
    · exact ⟨0, [u], .cons h1 .nil, by simp⟩
    · obtain ⟨k2, a, b, rfl, h4, h5, rfl⟩ := Tr.seq2_inv E rfl h3
      rcases Tr.opt_inv E h5 with rfl | ⟨k3, rfl, h6⟩
      · exact ⟨1, [u, a], .cons h1 (.cons (h4.mono (by simp)) .nil), by simp⟩
      · obtain ⟨q, ws, h7, rfl⟩ := ih k3 (by omega) h6
        exact ⟨q + 2, u :: a :: ws, .cons h1 (.cons (h4.mono (by omega)) (h7.mono fun _ _ => Tr.mono (by omega))),
          by simp⟩

end

/-! ### Matches -/

theorem unleave {α : Type} (xs : List α) : ∃ es ps, xs = interleave es ps ∧
    xs.length = es.length + ps.length ∧ (es.length = ps.length ∨ es.length = ps.length + 1) := by
  induction xs with
  | nil => exact ⟨[], [], by simp [interleave], rfl, .inl rfl⟩
  | cons x xs ih =>
    obtain ⟨es, ps, rfl, h1, h2⟩ := ih
    refine ⟨x :: ps, es, by rw [interleave], by simp only [List.length_cons]; omega, ?_⟩
    simp only [List.length_cons]
    omega

section
variable {S : Schema m n} {root : Ty m n} {G : Grammar (PId m n) n} {source : Str}

/-- The tokens with these words match `t`. -/
def HasMatch (S : Schema m n) (source : Str) (t : Ty m n) (w : List (TokenSrc n)) : Prop :=
  ∀ (ts : List (Token n)) (pos : Nat), ts.map (·.word source) = w →
    ∃ c x, Parses S source pos t c x ∧ c.map (·.token) = ts

theorem matches_seq {ts : List (Ty m n)} {ws : List (List (TokenSrc n))} (h : All2 (HasMatch S source) ts ws) :
    ∀ (l : List (Token n)) (pos : Nat), l.map (·.word source) = ws.flatten →
      ∃ cs xs, ParsesSeq S source pos ts cs xs ∧ cs.flatten.map (·.token) = l := by
  induction h with
  | nil =>
    intro l pos hl
    cases l with
    | nil => exact ⟨[], [], .nil, rfl⟩
    | cons => cases hl
  | cons h1 _ ih =>
    intro l pos hl
    rw [List.flatten_cons] at hl
    obtain ⟨l1, l2, rfl, hl1, hl2⟩ := List.map_eq_append_iff.1 hl
    obtain ⟨c, x, g1, rfl⟩ := h1 l1 pos hl1
    obtain ⟨cs, xs, g2, rfl⟩ := ih l2 (endOf pos c) hl2
    exact ⟨c :: cs, x :: xs, .cons g1 g2, by simp⟩

theorem all2_map {ts : List (Ty m n)} {ws} {R : PId m n → List (TokenSrc n) → Prop}
    (h : All2 R (ts.map Ty.pid) ws) (hm : ∀ t ∈ ts, ∀ w, R t.pid w → HasMatch S source t w) :
    All2 (HasMatch S source) ts ws := by
  induction ts generalizing ws with
  | nil => cases h; exact .nil
  | cons t ts ih =>
    cases h with
    | cons h1 h2 =>
      exact .cons (hm t (by simp) _ h1) (ih h2 fun u hu => hm u (by simp [hu]))

theorem addAll_toks {cs : List (List (Cell n))} {sems : List (Option (LSet n))} (h : cs.length = sems.length) :
    (addAll cs sems).map (·.token) = cs.flatten.map (·.token) := addAll_tokens _ _ h

theorem Tr.matches (E : Rules S root G) : ∀ h, ∀ t : Ty m n, PReach S root t.pid → ∀ w, Tr G h t.pid w →
    HasMatch S source t w := by
  intro h
  induction h using Nat.strongRecOn with
  | ind h IH =>
    have seqs : ∀ (k : Nat) (ts : List (Ty m n)) ws, k < h → (∀ t ∈ ts, PReach S root t.pid) →
        All2 (Tr G k) (ts.map Ty.pid) ws → ∀ (l : List (Token n)) (pos : Nat),
        l.map (·.word source) = ws.flatten →
        ∃ cs xs, ParsesSeq S source pos ts cs xs ∧ cs.flatten.map (·.token) = l := by
      intro k ts ws hk hp h1
      exact matches_seq (all2_map h1 fun t ht w hw => IH k hk t (hp t ht) w hw)
    have tuple : ∀ (t : Ty m n) (ts : List (Ty m n)), t.isTuple ts → PReach S root t.pid → ∀ w, Tr G h t.pid w →
        HasMatch S source t w := by
      intro t ts ht hp w hw l pos hl
      obtain ⟨k, ws, rfl, h1, rfl⟩ := Tr.seq_inv E (tuple_pid ht) hw
      obtain ⟨cs, xs, h2, h3⟩ := seqs k ts ws (by omega)
        (fun u hu => hp.part (by rw [tuple_pid ht]; exact List.mem_map.2 ⟨u, hu, rfl⟩)) h1 l pos hl
      exact ⟨_, _, .tuple ht h2, h3⟩
    have reps : ∀ (t : Ty m n) (h' : Nat), h' ≤ h → PReach S root (.plus t.prod) → ∀ w, Tr G h' (.plus t.prod) w →
        ∀ (l : List (Token n)) (pos : Nat), l.map (·.word source) = w →
        ∃ k cs xs, ParsesSeq S source pos (List.replicate (k + 1) t) cs xs ∧ cs.flatten.map (·.token) = l := by
      intro t h' hh hp w hw l pos hl
      have h0 : 0 < h' := by
        cases h' with
        | zero => exact hw.elim
        | succ => omega
      obtain ⟨k, ws, h1, rfl⟩ := Tr.plus_inv E hw
      have hpt : PReach S root t.pid := hp.part (by simp [Ty.pid, Schema.rule, Rule.parts])
      obtain ⟨cs, xs, h2, h3⟩ := seqs (h' - 1) (List.replicate (k + 1) t) ws (by omega)
        (fun u hu => (List.mem_replicate.1 hu).2 ▸ hpt) (by rw [List.map_replicate]; exact h1) l pos hl
      exact ⟨k, cs, xs, h2, h3⟩
    intro t
    induction t with
    | term i k =>
      intro hp w hw l pos hl
      obtain ⟨tok, h1, rfl⟩ := Tr.term_inv E rfl hw
      cases l with
      | nil => cases hl
      | cons a l =>
        cases l with
        | cons => cases hl
        | nil =>
          simp only [List.map_cons, List.map_nil, List.cons.injEq, and_true] at hl
          subst hl
          exact ⟨_, _, .term h1, rfl⟩
    | user k =>
      intro hp w hw l pos hl
      cases hk : S k with
      | struct f fs =>
        have hrule : S.rule (.user k) = .seq (((f :: fs).map (·.1)).map Ty.pid) := by
          simp only [Schema.rule, hk, List.map_map]; rfl
        obtain ⟨q, ws, rfl, h1, rfl⟩ := Tr.seq_inv E hrule hw
        obtain ⟨cs, xs, h2, h3⟩ := seqs q ((f :: fs).map (·.1)) ws (by omega)
          (fun u hu => hp.part (by
            rw [show (Ty.user k : Ty m n).pid = PId.user k from rfl, hrule]
            exact List.mem_map.2 ⟨u, hu, rfl⟩)) h1 l pos hl
        refine ⟨_, _, .struct hk h2, ?_⟩
        rw [addAll_toks (by rw [h2.lengths.1]; simp), h3]
      | enum f fs =>
        have hrule : S.rule (.user k) = .alt ((f :: fs).map fun f => f.1.pid) := by simp only [Schema.rule, hk]
        obtain ⟨q, j, rfl, hj, h1⟩ := Tr.alt_inv E hrule hw
        obtain ⟨g, hg, rfl⟩ := List.mem_map.1 hj
        obtain ⟨i, hi⟩ := List.mem_iff_getElem?.1 hg
        obtain ⟨c, x, h2, h3⟩ := IH q (by omega) g.1 (hp.part (by
            rw [show (Ty.user k : Ty m n).pid = PId.user k from rfl, hrule]; exact hj)) _ h1 l pos hl
        refine ⟨_, _, .enum (i := i) (sem := g.2) hk hi h2, ?_⟩
        rw [add_tokens, h3]
    | box t ih =>
      intro hp w hw l pos hl
      obtain ⟨c, x, h1, h2⟩ := ih hp w hw l pos hl
      exact ⟨_, _, .box h1, h2⟩
    | quote t ih =>
      intro hp w hw l pos hl
      obtain ⟨c, x, h1, h2⟩ := ih hp w hw l pos hl
      exact ⟨_, _, .quote h1, h2⟩
    | parse t ih =>
      intro hp w hw l pos hl
      obtain ⟨c, x, h1, h2⟩ := ih hp w hw l pos hl
      exact ⟨_, _, .parse h1, h2⟩
    | option t _ =>
      intro hp w hw l pos hl
      rcases Tr.opt_inv E (i := t.prod) hw with rfl | ⟨k, rfl, h1⟩
      · exact ⟨[], _, .optNone, by simpa using hl.symm⟩
      · obtain ⟨c, x, h2, h3⟩ := IH k (by omega) t
          (hp.part (by simp [Ty.pid, Ty.prod, PId.id, Schema.rule, Rule.parts])) w h1 l pos hl
        exact ⟨_, _, .optSome h2, h3⟩
    | exist t _ =>
      intro hp w hw l pos hl
      rcases Tr.opt_inv E (i := t.prod) hw with rfl | ⟨k, rfl, h1⟩
      · exact ⟨[], _, .existNone, by simpa using hl.symm⟩
      · obtain ⟨c, x, h2, h3⟩ := IH k (by omega) t
          (hp.part (by simp [Ty.pid, Ty.prod, PId.id, Schema.rule, Rule.parts])) w h1 l pos hl
        exact ⟨_, _, .existSome h2, h3⟩
    | star t _ =>
      intro hp w hw l pos hl
      rcases Tr.opt_inv E (i := .plus t.prod) hw with rfl | ⟨k, rfl, h1⟩
      · exact ⟨[], _, .starNone, by simpa using hl.symm⟩
      · obtain ⟨q, cs, xs, h2, h3⟩ := reps t k (by omega)
          (hp.part (by simp [Ty.pid, Ty.prod, PId.id, Schema.rule, Rule.parts])) w h1 l pos hl
        exact ⟨_, _, .starSome h2, h3⟩
    | plus t _ =>
      intro hp w hw l pos hl
      obtain ⟨q, cs, xs, h2, h3⟩ := reps t h (Nat.le_refl _) hp w hw l pos hl
      exact ⟨_, _, .plus h2, h3⟩
    | loop t _ =>
      intro hp w hw l pos hl
      obtain ⟨q, cs, xs, h2, h3⟩ := reps t h (Nat.le_refl _) hp w hw l pos hl
      exact ⟨_, _, .loopSome h2, h3⟩
    | split t p _ _ =>
      intro hp w hw l pos hl
      have h0 : 0 < h := by
        cases h with
        | zero => exact hw.elim
        | succ => omega
      obtain ⟨k, ws, h1, rfl⟩ := Tr.split_inv E (i := t.prod) (j := p.prod) hw
      have hrt : PReach S root t.pid := hp.part (by simp [Ty.pid, Ty.prod, PId.id, Schema.rule, Rule.parts])
      have hrp : PReach S root p.pid := by
        refine Reach.step (i := .tup2 p.prod t.prod) (.step (i := .plus (.tup2 p.prod t.prod))
          (.step (i := .opt (.plus (.tup2 p.prod t.prod))) (.step hp ?_) ?_) ?_) ?_ <;>
          simp [Ty.pid, Ty.prod, PId.id, Schema.rule, Rule.parts]
      obtain ⟨cs, xs, h2, h3⟩ := seqs (h - 1) (alternate t p (k + k + 1)) ws (by omega)
        (fun u hu => (mem_alternate hu).elim (fun e => e ▸ hrt) (fun e => e ▸ hrp))
        (by rw [alternate_map]; exact h1) l pos hl
      obtain ⟨es, ps, rfl, g1, g2⟩ := unleave xs
      have g3 : (interleave es ps).length = k + k + 1 := by
        rw [h2.lengths.2, alternate_length]
      refine ⟨_, _, .split (es := es) (ps := ps) (by omega) ?_, h3⟩
      rw [show es.length + ps.length = k + k + 1 by omega]
      exact h2
    | punct t p _ _ =>
      intro hp w hw l pos hl
      have h0 : 0 < h := by
        cases h with
        | zero => exact hw.elim
        | succ => omega
      obtain ⟨k, ws, h1, rfl⟩ := Tr.punct_inv E (i := t.prod) (j := p.prod) hw
      have hrt : PReach S root t.pid := hp.part (by simp [Ty.pid, Ty.prod, PId.id, Schema.rule, Rule.parts])
      have hrp : PReach S root p.pid := by
        refine Reach.step (i := .tup2 p.prod (.opt (.punct t.prod p.prod)))
          (.step (i := .opt (.tup2 p.prod (.opt (.punct t.prod p.prod)))) (.step hp ?_) ?_) ?_ <;>
          simp [Ty.pid, Ty.prod, PId.id, Schema.rule, Rule.parts]
      obtain ⟨cs, xs, h2, h3⟩ := seqs (h - 1) (alternate t p (k + 1)) ws (by omega)
        (fun u hu => (mem_alternate hu).elim (fun e => e ▸ hrt) (fun e => e ▸ hrp))
        (by rw [alternate_map]; exact h1) l pos hl
      obtain ⟨es, ps, rfl, g1, g2⟩ := unleave xs
      have g3 : (interleave es ps).length = k + 1 := by
        rw [h2.lengths.2, alternate_length]
      refine ⟨_, _, .punct (es := es) (ps := ps) (by rintro rfl; simp at g2; simp [g2] at g1; omega) (by omega) ?_, h3⟩
      rw [show es.length + ps.length = k + 1 by omega]
      exact h2
    | recover t r _ _ =>
      intro hp w hw l pos hl
      obtain ⟨k, ws, rfl, h1, rfl⟩ := Tr.seq_inv E (l := [t.pid, r.pid]) rfl hw
      obtain ⟨cs, xs, h2, h3⟩ := seqs k [t, r] ws (by omega)
        (fun u hu => hp.part (by
          simp only [List.mem_cons, List.not_mem_nil, or_false] at hu
          rcases hu with rfl | rfl <;> simp [Ty.pid, Ty.prod, PId.id, Schema.rule, Rule.parts])) h1 l pos hl
      cases h2 with
      | cons a1 a2 =>
        cases a2 with
        | cons b1 b2 =>
          cases b2
          exact ⟨_, _, .recover (.cons a1 (.cons b1 .nil)), h3⟩
    | tup2 a b _ _ => exact tuple _ [a, b] (.inl ⟨a, b, rfl, rfl⟩)
    | tup3 a b c _ _ _ => exact tuple _ [a, b, c] (.inr (.inl ⟨a, b, c, rfl, rfl⟩))
    | tup4 a b c d _ _ _ _ => exact tuple _ [a, b, c, d] (.inr (.inr (.inl ⟨a, b, c, d, rfl, rfl⟩)))
    | tup5 a b c d e _ _ _ _ _ => exact tuple _ [a, b, c, d, e] (.inr (.inr (.inr ⟨a, b, c, d, e, rfl, rfl⟩)))

/-- The tokens of a sentence of a type match it. -/
theorem Der.matches (hG : S.IsGrammar root G) {t : Ty m n} (hp : PReach S root t.pid) {w} (h : Der G t.pid w) :
    HasMatch S source t w := by
  obtain ⟨k, hk⟩ := h.tree
  exact hk.matches ⟨hG⟩ k t hp w

end

end Teleparse

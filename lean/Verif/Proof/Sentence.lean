import Verif.Proof.Fits
import Verif.Proof.Grammar
import Verif.Proof.Accept
/-
Matches are sentences of the grammar a type registers.
-/
namespace Teleparse
variable {m n : Nat} {S : Schema m n}

section
variable {I : Type} {G : Grammar I n}

/-- `i` derives the tokens. -/
def Der (G : Grammar I n) (i : I) (w : List (TokenSrc n)) : Prop := Derives G [.nt i] (w.map .tok)

inductive DerAll (G : Grammar I n) : List I → List (List (TokenSrc n)) → Prop
  | nil : DerAll G [] []
  | cons {i l w ws} : Der G i w → DerAll G l ws → DerAll G (i :: l) (w :: ws)

theorem DerAll.derives {l : List I} {ws : List (List (TokenSrc n))} (h : DerAll G l ws) :
    Derives G (l.map .nt) (ws.flatten.map .tok) := by
  induction h with
  | nil => exact .refl _
  | cons h1 _ ih =>
    rw [List.flatten_cons, List.map_append]
    exact h1.append ih

theorem Der.seq {i : I} {l : List I} {ws : List (List (TokenSrc n))} (hi : (i, Rule.seq l) ∈ G)
    (h : DerAll G l ws) : Der G i ws.flatten := (Derives.one (.seq hi)).trans h.derives

theorem Der.alt {i j : I} {l : List I} {w : List (TokenSrc n)} (hi : (i, Rule.alt l) ∈ G) (hj : j ∈ l)
    (h : Der G j w) : Der G i w := (Derives.one (.alt hi hj)).trans h

theorem Der.eps {i : I} (hi : (i, Rule.eps) ∈ G) : Der G i [] := Derives.one (.eps hi)

theorem Der.term {i : I} {t : Terminal n} {tok : TokenSrc n} (hi : (i, Rule.term t) ∈ G) (ht : t.Matches tok) :
    Der G i [tok] := Derives.one (.term hi ht)

theorem Der.seq1 {i a b : I} {u v : List (TokenSrc n)} (hi : (i, Rule.seq [a, b]) ∈ G)
    (h1 : Der G a u) (h2 : Der G b v) : Der G i (u ++ v) := by
  have := Der.seq hi (.cons h1 (.cons h2 .nil))
  simpa using this

end

/-- All productions reachable from the root are in the grammar. -/
theorem IsGrammar.mem {root : Ty m n} {G : Grammar (PId m n) n} (hG : S.IsGrammar root G) {i : PId m n}
    (h : Reach (fun t => (S.rule t).parts) root.pid i) : (i, S.rule i) ∈ G := (hG.2 _ _).2 ⟨h, rfl⟩

abbrev PReach (S : Schema m n) (root : Ty m n) (i : PId m n) : Prop :=
  Reach (fun t => (S.rule t).parts) root.pid i

theorem PReach.part {root : Ty m n} {i j : PId m n} (h : PReach S root i) (hj : j ∈ (S.rule i).parts) :
    PReach S root j := .step h hj

section
variable {root : Ty m n} {G : Grammar (PId m n) n} (hG : S.IsGrammar root G)

theorem der_opt_none {i : PId m n} (h : PReach S root (.opt i)) (hG : S.IsGrammar root G) :
    Der G (.opt i) [] := by
  have he : PReach S root .eps := h.part (by simp [Schema.rule, Rule.parts])
  exact Der.alt (IsGrammar.mem hG h) (j := .eps) (by simp) (Der.eps (IsGrammar.mem hG he))

theorem der_opt_some {i : PId m n} (h : PReach S root (.opt i)) (hG : S.IsGrammar root G) {w}
    (hw : Der G i.id w) : Der G (.opt i) w := Der.alt (IsGrammar.mem hG h) (by simp) hw

theorem der_plus {i : PId m n} (hG : S.IsGrammar root G) (h : PReach S root (.plus i)) : ∀ (k : Nat) ws,
    DerAll G (List.replicate (k + 1) i.id) ws → Der G (.plus i) ws.flatten := by
  have ho : PReach S root (.opt (.plus i)) := h.part (by simp [Schema.rule, Rule.parts])
  intro k
  induction k with
  | zero =>
    intro ws hd
    cases hd with
    | cons h1 h2 =>
      cases h2
      exact Der.seq1 (IsGrammar.mem hG h) h1 (der_opt_none ho hG)
  | succ k ih =>
    intro ws hd
    cases hd with
    | cons h1 h2 =>
      rw [List.flatten_cons]
      exact Der.seq1 (IsGrammar.mem hG h) h1 (der_opt_some ho hG (ih _ h2))

theorem der_split {i j : PId m n} (hG : S.IsGrammar root G)
    (h : PReach S root (.tup2 i (.opt (.plus (.tup2 j i))))) (k : Nat) (ws)
    (hd : DerAll G (alternate i.id j.id (k + 1 + k)) ws) :
    Der G (.tup2 i (.opt (.plus (.tup2 j i)))) ws.flatten := by
  have ho : PReach S root (.opt (.plus (.tup2 j i))) := h.part (by simp [Schema.rule, Rule.parts, PId.id])
  have hp : PReach S root (.plus (.tup2 j i)) := ho.part (by simp [Schema.rule, Rule.parts, PId.id])
  have ht : PReach S root (.tup2 j i) := hp.part (by simp [Schema.rule, Rule.parts, PId.id])
  have key : ∀ k ws, DerAll G (alternate j.id i.id (k + k)) ws →
      ∃ ws', DerAll G (List.replicate k (.tup2 j i)) ws' ∧ ws.flatten = ws'.flatten := by
    intro k
    induction k with
    | zero => intro ws h; cases h; exact ⟨[], .nil, rfl⟩
    | succ k ih =>
      intro ws h
      rw [show k + 1 + (k + 1) = k + k + 1 + 1 by omega] at h
      cases h with
      | @cons _ _ w1 _ h1 h2 =>
        cases h2 with
        | @cons _ _ w2 _ h2 h3 =>
          obtain ⟨ws', h4, h5⟩ := ih _ h3
          exact ⟨(w1 ++ w2) :: ws', .cons (Der.seq1 (IsGrammar.mem hG ht) h1 h2) h4, by simp [h5]⟩
  rw [show k + 1 + k = k + k + 1 by omega] at hd
  cases hd with
  | cons h1 h2 =>
    rw [List.flatten_cons]
    obtain ⟨ws', h4, h5⟩ := key k _ h2
    rw [h5]
    refine Der.seq1 (IsGrammar.mem hG h) h1 ?_
    cases k with
    | zero => cases h4; exact der_opt_none ho hG
    | succ k => exact der_opt_some ho hG (der_plus hG hp k _ h4)

theorem der_punct {i j : PId m n} (hG : S.IsGrammar root G) (h : PReach S root (.punct i j)) :
    ∀ (k : Nat) ws, DerAll G (alternate i.id j.id (k + 1)) ws → Der G (.punct i j) ws.flatten := by
  have ho : PReach S root (.opt (.tup2 j (.opt (.punct i j)))) :=
    h.part (by simp [Schema.rule, Rule.parts])
  have ht : PReach S root (.tup2 j (.opt (.punct i j))) :=
    ho.part (by simp [Schema.rule, Rule.parts, PId.id])
  have ho2 : PReach S root (.opt (.punct i j)) := ht.part (by simp [Schema.rule, Rule.parts, PId.id])
  intro k
  induction k using Nat.strongRecOn with
  | ind k ih =>
    intro ws hd
    match k, hd with
    | 0, hd =>
      cases hd with
      | cons h1 h2 =>
        cases h2
        exact Der.seq1 (IsGrammar.mem hG h) h1 (der_opt_none ho hG)
    | 1, hd =>
      cases hd with
      | cons h1 h2 =>
        cases h2 with
        | cons h2 h3 =>
          cases h3
          rw [List.flatten_cons]
          refine Der.seq1 (IsGrammar.mem hG h) h1 (der_opt_some ho hG ?_)
          exact Der.seq1 (IsGrammar.mem hG ht) h2 (der_opt_none ho2 hG)
    | k + 2, hd =>
      cases hd with
      | cons h1 h2 =>
        cases h2 with
        | cons h2 h3 =>
          rw [List.flatten_cons]
          refine Der.seq1 (IsGrammar.mem hG h) h1 (der_opt_some ho hG ?_)
          rw [List.flatten_cons]
          exact Der.seq1 (IsGrammar.mem hG ht) h2 (der_opt_some ho2 hG (ih k (by omega) _ h3))

end

theorem wordOf_congr (source : Str) {a b : List (Cell n)} (h : a.map (·.token) = b.map (·.token)) :
    wordOf source a = wordOf source b := by
  have : ∀ l : List (Cell n), wordOf source l =
      (l.map (·.token)).map fun d => ⟨d.ty, textOf source d.span⟩ := by
    intro l; unfold wordOf; rw [List.map_map]; rfl
  rw [this, this, h]

theorem wordOf_flatten (source : Str) (cs : List (List (Cell n))) :
    wordOf source cs.flatten = (cs.map (wordOf source)).flatten := by
  unfold wordOf
  rw [List.map_flatten]

theorem alternate_map {α β : Type} (f : α → β) (a b : α) (k : Nat) :
    (alternate a b k).map f = alternate (f a) (f b) k := by
  induction k generalizing a b with
  | zero => rfl
  | succ k ih => simp [alternate, ih]

theorem mem_alternate {α : Type} {a b x : α} {k : Nat} (h : x ∈ alternate a b k) : x = a ∨ x = b := by
  induction k generalizing a b with
  | zero => cases h
  | succ k ih =>
    rcases List.mem_cons.1 h with rfl | h
    · exact .inl rfl
    · exact (ih h).symm

theorem quote_pid (t : Ty m n) : (Ty.quote t).pid = t.pid := rfl

theorem tuple_pid {t : Ty m n} {ts : List (Ty m n)} (ht : t.isTuple ts) :
    S.rule t.pid = .seq (ts.map Ty.pid) := by
  rcases ht with ⟨_, _, rfl, rfl⟩ | ⟨_, _, _, rfl, rfl⟩ | ⟨_, _, _, _, rfl, rfl⟩ | ⟨_, _, _, _, _, rfl, rfl⟩ <;> rfl

theorem isTuple_parts {t : Ty m n} {ts : List (Ty m n)} (ht : t.isTuple ts) : S.tyParts t = ts := by
  rcases ht with ⟨_, _, rfl, rfl⟩ | ⟨_, _, _, rfl, rfl⟩ | ⟨_, _, _, _, rfl, rfl⟩ | ⟨_, _, _, _, _, rfl, rfl⟩ <;> rfl

/-- `r` contains `t` and its production is reachable from the root. -/
structure Within (S : Schema m n) (r root t : Ty m n) : Prop where
  ty : Reach S.tyParts r t
  pid : PReach S root t.pid

theorem Parses.der {source : Str} {r root : Ty m n} {G : Grammar (PId m n) n} (hG : S.IsGrammar root G)
    (hloop : LoopFree S r) {pos : Nat} {t : Ty m n} {c : List (Cell n)} {x : Tree n}
    (h : Parses S source pos t c x) : Within S r root t → Der G t.pid (wordOf source c) := by
  have mem : ∀ {i q}, PReach S root i → S.rule i = q → (i, q) ∈ G := by
    intro i q hi hr; subst hr; exact IsGrammar.mem hG hi
  refine Parses.rec (S := S) (source := source)
    (motive_1 := fun pos t c x _ => Within S r root t → Der G t.pid (wordOf source c))
    (motive_2 := fun pos ts cs l _ => (∀ t ∈ ts, Within S r root t) →
      DerAll G (ts.map Ty.pid) (cs.map (wordOf source)))
    ?term ?struct ?enum ?tuple ?box ?optNone ?optSome ?existNone ?existSome ?quote ?parse ?plus ?starNone
    ?starSome ?loopNone ?loopSome ?split ?punct ?recover ?nil ?cons h
  case term =>
    intro pos i k t hm hr
    exact Der.term (mem hr.pid rfl) hm
  case struct =>
    intro pos k f fs cs l hk hs ih hr
    have hrule : S.rule (.user k) = .seq ((f :: fs).map fun f => f.1.pid) := by simp only [Schema.rule, hk]
    have hlen := hs.lengths
    rw [wordOf_congr source (addAll_tokens cs ((f :: fs).map (·.2)) (by rw [hlen.1]; simp)), wordOf_flatten]
    refine Der.seq (mem hr.pid hrule) ?_
    have := ih (fun t ht => ⟨.step hr.ty (by simp only [Schema.tyParts, hk]; exact ht),
      hr.pid.part (by
        rw [show (Ty.user k).pid = PId.user k from rfl, hrule]
        obtain ⟨g, hg, rfl⟩ := List.mem_map.1 ht
        exact List.mem_map.2 ⟨g, hg, rfl⟩)⟩)
    rw [List.map_map] at this
    exact this
  case enum =>
    intro pos k f fs i t sem c x hk hi _ ih hr
    have hrule : S.rule (.user k) = .alt ((f :: fs).map fun f => f.1.pid) := by simp only [Schema.rule, hk]
    have hm : t.pid ∈ (f :: fs).map fun f => f.1.pid := List.mem_map.2 ⟨_, List.mem_of_getElem? hi, rfl⟩
    rw [wordOf_congr source (add_tokens sem c)]
    refine Der.alt (mem hr.pid hrule) hm (ih ⟨.step hr.ty ?_, hr.pid.part ?_⟩)
    · simp only [Schema.tyParts, hk]; exact List.mem_map.2 ⟨_, List.mem_of_getElem? hi, rfl⟩
    · rw [show (Ty.user k).pid = PId.user k from rfl, hrule]; exact hm
  case tuple =>
    intro pos t ts cs l ht hs ih hr
    rw [wordOf_flatten]
    refine Der.seq (mem hr.pid (tuple_pid ht)) (ih fun u hu => ⟨.step hr.ty ?_, hr.pid.part ?_⟩)
    · rw [isTuple_parts ht]; exact hu
    · rw [tuple_pid ht]; exact List.mem_map.2 ⟨u, hu, rfl⟩
  case box =>
    intro pos t c x _ ih hr
    exact ih ⟨.step hr.ty (by simp [Schema.tyParts]), hr.pid⟩
  case optNone => intro pos t hr; exact der_opt_none hr.pid hG
  case existNone => intro pos t hr; exact der_opt_none hr.pid hG
  case starNone => intro pos t hr; exact der_opt_none hr.pid hG
  case optSome =>
    intro pos t c x _ ih hr
    exact der_opt_some hr.pid hG (ih ⟨.step hr.ty (by simp [Schema.tyParts]),
      hr.pid.part (by simp [Ty.pid, Ty.prod, PId.id, Schema.rule, Rule.parts])⟩)
  case existSome =>
    intro pos t c x _ ih hr
    exact der_opt_some hr.pid hG (ih ⟨.step hr.ty (by simp [Schema.tyParts]),
      hr.pid.part (by simp [Ty.pid, Ty.prod, PId.id, Schema.rule, Rule.parts])⟩)
  case quote =>
    intro pos t c x _ ih hr
    exact ih ⟨.step hr.ty (by simp [Schema.tyParts]), hr.pid⟩
  case parse =>
    intro pos t c x _ ih hr
    exact ih ⟨.step hr.ty (by simp [Schema.tyParts]), hr.pid⟩
  case plus =>
    intro pos t k cs l hs ih hr
    rw [wordOf_flatten]
    have hrt : Within S r root t := ⟨.step hr.ty (by simp [Schema.tyParts]),
      hr.pid.part (by simp [Ty.pid, Ty.prod, PId.id, Schema.rule, Rule.parts])⟩
    have := ih (fun u hu => (List.mem_replicate.1 hu).2 ▸ hrt)
    rw [List.map_replicate] at this
    exact der_plus hG hr.pid k _ this
  case starSome =>
    intro pos t k cs l hs ih hr
    rw [wordOf_flatten]
    have hrp : PReach S root (.plus t.prod) :=
      hr.pid.part (by simp [Ty.pid, Ty.prod, PId.id, Schema.rule, Rule.parts])
    have hrt : Within S r root t := ⟨.step (.step hr.ty (j := .plus t) (by simp [Schema.tyParts]))
      (by simp [Schema.tyParts]), hrp.part (by simp [Ty.pid, Schema.rule, Rule.parts])⟩
    have := ih (fun u hu => (List.mem_replicate.1 hu).2 ▸ hrt)
    rw [List.map_replicate] at this
    exact der_opt_some hr.pid hG (der_plus hG hrp k _ this)
  case loopNone => intro pos t hr; exact absurd rfl (hloop _ hr.ty t)
  case loopSome => intro pos t k cs l _ _ hr; exact absurd rfl (hloop _ hr.ty t)
  case split =>
    intro pos t p cs es ps hl hs ih hr
    rw [wordOf_flatten]
    have hrt : Within S r root t := ⟨.step hr.ty (by simp [Schema.tyParts]),
      hr.pid.part (by simp [Ty.pid, Ty.prod, PId.id, Schema.rule, Rule.parts])⟩
    have hrp : PReach S root p.pid := by
      refine Reach.step (i := .tup2 p.prod t.prod) (.step (i := .plus (.tup2 p.prod t.prod))
        (.step (i := .opt (.plus (.tup2 p.prod t.prod))) (.step hr.pid ?_) ?_) ?_) ?_ <;>
        simp [Ty.pid, Ty.prod, PId.id, Schema.rule, Rule.parts]
    have := ih (fun u hu => by
      rcases mem_alternate hu with rfl | rfl
      · exact hrt
      · exact ⟨.step hr.ty (by simp [Schema.tyParts]), hrp⟩)
    rw [alternate_map, hl] at this
    exact der_split hG hr.pid ps.length _ this
  case punct =>
    intro pos t p cs es ps he hl hs ih hr
    rw [wordOf_flatten]
    have hrt : Within S r root t := ⟨.step hr.ty (by simp [Schema.tyParts]),
      hr.pid.part (by simp [Ty.pid, Ty.prod, PId.id, Schema.rule, Rule.parts])⟩
    have hrp : PReach S root p.pid := by
      refine Reach.step (i := .tup2 p.prod (.opt (.punct t.prod p.prod)))
        (.step (i := .opt (.tup2 p.prod (.opt (.punct t.prod p.prod)))) (.step hr.pid ?_) ?_) ?_ <;>
        simp [Ty.pid, Ty.prod, PId.id, Schema.rule, Rule.parts]
    have := ih (fun u hu => by
      rcases mem_alternate hu with rfl | rfl
      · exact hrt
      · exact ⟨.step hr.ty (by simp [Schema.tyParts]), hrp⟩)
    rw [alternate_map] at this
    refine der_punct hG hr.pid (es.length + ps.length - 1) _ ?_
    rw [Nat.sub_add_cancel (by have := List.length_pos_iff.2 he; omega)]
    exact this
  case recover =>
    intro pos t u cs x y hs ih hr
    rw [wordOf_flatten]
    refine Der.seq (l := [t.pid, u.pid]) (mem hr.pid rfl) (ih fun u hu => ⟨.step hr.ty ?_, hr.pid.part ?_⟩)
    · simpa [Schema.tyParts] using hu
    · simp only [List.mem_cons, List.not_mem_nil, or_false] at hu
      rcases hu with rfl | rfl <;> simp [Ty.pid, Ty.prod, PId.id, Schema.rule, Rule.parts]
  case nil => intro pos _; exact .nil
  case cons =>
    intro pos t ts c cs x xs _ _ i1 i2 hr
    exact .cons (i1 (hr t (List.mem_cons_self ..))) (i2 fun u hu => hr u (List.mem_cons_of_mem _ hu))

end Teleparse

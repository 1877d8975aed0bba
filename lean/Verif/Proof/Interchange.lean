import Verif.Proof.Bisim
import Verif.Proof.Transfer
/-
Types that differ only in how they are written have corresponding productions, and produce the same.
-/
set_option linter.unusedSectionVars false
namespace Teleparse

section
variable {I I' : Type} {n : Nat} [DecidableEq I] [DecidableEq I']

/-- Corresponding symbols. -/
inductive SymAlike (R : I → I' → Prop) : Sym I n → Sym I' n → Prop
  | nt {i i'} : R i i' → SymAlike R (.nt i) (.nt i')
  | tok (t) : SymAlike R (.tok t) (.tok t)

theorem pointwise_append {α β : Type} {R : α → β → Prop} {a b : List α} {a' b' : List β} (h : Pointwise R a a')
    (h' : Pointwise R b b') : Pointwise R (a ++ b) (a' ++ b') := by
  induction h with
  | nil => exact h'
  | cons hr _ ih => exact .cons hr ih

theorem Bisim.expands {G : Grammar I n} {G' : Grammar I' n} {R : I → I' → Prop} {root : I} {root' : I'}
    (h : Bisim G G' R root root') {i : I} {γ : List (Sym I n)} (he : Expands G i γ) {i' : I'} (hr : R i i') :
    ∃ γ', Expands G' i' γ' ∧ Pointwise (SymAlike R) γ γ' := by
  cases he with
  | eps hm =>
    obtain ⟨r', h1, h2⟩ := h.right hr hm
    cases h2
    exact ⟨_, .eps h1, .nil⟩
  | term hm ht =>
    obtain ⟨r', h1, h2⟩ := h.right hr hm
    cases h2
    exact ⟨_, .term h1 ht, .cons (.tok _) .nil⟩
  | seq hm =>
    obtain ⟨r', h1, h2⟩ := h.right hr hm
    cases h2 with
    | seq hp => exact ⟨_, .seq h1, hp.map fun _ _ h => .nt h⟩
  | alt hm hj =>
    obtain ⟨r', h1, h2⟩ := h.right hr hm
    cases h2 with
    | alt hp =>
      obtain ⟨j', hj', hr'⟩ := hp.mem hj
      exact ⟨_, .alt h1 hj', .cons (.nt hr') .nil⟩

theorem Bisim.derives {G : Grammar I n} {G' : Grammar I' n} {R : I → I' → Prop} {root : I} {root' : I'}
    (h : Bisim G G' R root root') {α β : List (Sym I n)} (hd : Derives G α β) : ∀ {α'}, Pointwise (SymAlike R) α α' →
    ∃ β', Derives G' α' β' ∧ Pointwise (SymAlike R) β β' := by
  induction hd with
  | refl => intro α' ha; exact ⟨α', .refl _, ha⟩
  | step he _ ih =>
    intro α' ha
    obtain ⟨a', b', rfl, h1, h2⟩ := ha.break
    cases h2 with
    | cons hs h2 =>
      cases hs with
      | nt hr =>
        obtain ⟨γ', he', hg⟩ := h.expands he hr
        obtain ⟨β', hd', hb⟩ := ih (pointwise_append (pointwise_append h1 hg) h2)
        exact ⟨β', .step he' hd', hb⟩

theorem symAlike_toks {R : I → I' → Prop} {w : List (TokenSrc n)} : ∀ {β' : List (Sym I' n)},
    Pointwise (SymAlike R) (w.map .tok) β' → β' = w.map .tok := by
  induction w with
  | nil => intro β' h; cases h; rfl
  | cons t w ih =>
    intro β' h
    cases h with
    | cons hs h =>
      cases hs
      rw [ih h]; rfl

/-- Corresponding grammars have the same sentences. -/
theorem Bisim.sentence {G : Grammar I n} {G' : Grammar I' n} {R : I → I' → Prop} {root : I} {root' : I'}
    (h : Bisim G G' R root root') {i : I} {i' : I'} (hr : R i i') (w : List (TokenSrc n)) :
    Derives G [.nt i] (w.map .tok) ↔ Derives G' [.nt i'] (w.map .tok) := by
  constructor
  · intro hd
    obtain ⟨β', h1, h2⟩ := h.derives hd (.cons (.nt hr) .nil)
    rwa [symAlike_toks h2] at h1
  · intro hd
    obtain ⟨β', h1, h2⟩ := h.flip.derives hd (.cons (.nt hr) .nil)
    rwa [symAlike_toks h2] at h1

end

variable {m m' n : Nat}

theorem rule_pid (S : Schema m n) : ∀ p : PId m n, S.rule p.id = S.rule p
  | .box p => rule_pid S p
  | .term _ _ | .eps | .user _ | .opt _ | .plus _ | .punct _ _ | .tup2 _ _ | .tup3 _ _ _ | .tup4 _ _ _ _
  | .tup5 _ _ _ _ _ => rfl

section
variable {S : Schema m n} {S' : Schema m' n} {R : Ty m n → Ty m' n → Prop}

theorem FieldAlike.flip {f : Field m n} {f' : Field m' n} (h : FieldAlike R f f') :
    FieldAlike (fun b a => R a b) f' f := ⟨h.1, h.2.symm⟩

theorem SameForm.flip {a : Ty m n} {b : Ty m' n} (h : SameForm S S' R a b) :
    SameForm S' S (fun b a => R a b) b a := by
  induction h with
  | boxL _ ih => exact .boxR ih
  | boxR _ ih => exact .boxL ih
  | term k k' t => exact .term k' k t
  | fields h1 h2 h3 => exact .fields h2 h1 (h3.flip.mono fun _ _ h => h.flip)
  | variants h1 h2 h3 => exact .variants h2 h1 (h3.flip.mono fun _ _ h => h.flip)
  | option h => exact .option h
  | exist h => exact .exist h
  | quote h => exact .quote h
  | parse h => exact .parse h
  | plus h => exact .plus h
  | star h => exact .star h
  | loop h => exact .loop h
  | split h h' => exact .split h h'
  | punct h h' => exact .punct h h'
  | recover h h' => exact .recover h h'

theorem Interchange.flip (h : Interchange S S' R) : Interchange S' S (fun b a => R a b) :=
  fun b a hr => (h a b hr).flip

/-- Corresponding productions. -/
inductive PAlike (R : Ty m n → Ty m' n → Prop) : PId m n → PId m' n → Prop
  | ty {a b} : R a b → PAlike R a.prod b.prod
  | eps : PAlike R .eps .eps
  | opt {p q} : PAlike R p q → PAlike R (.opt p) (.opt q)
  | plus {p q} : PAlike R p q → PAlike R (.plus p) (.plus q)
  | tup2 {p q p' q'} : PAlike R p q → PAlike R p' q' → PAlike R (.tup2 p p') (.tup2 q q')
  | punct {p q p' q'} : PAlike R p q → PAlike R p' q' → PAlike R (.punct p p') (.punct q q')

/-- Corresponding ids. -/
def IAlike (R : Ty m n → Ty m' n → Prop) (i : PId m n) (i' : PId m' n) : Prop :=
  ∃ p q, PAlike R p q ∧ i = p.id ∧ i' = q.id

theorem PAlike.flip {p : PId m n} {q : PId m' n} (h : PAlike R p q) : PAlike (fun b a => R a b) q p := by
  induction h with
  | ty h => exact .ty h
  | eps => exact .eps
  | opt _ ih => exact .opt ih
  | plus _ ih => exact .plus ih
  | tup2 _ _ ih ih' => exact .tup2 ih ih'
  | punct _ _ ih ih' => exact .punct ih ih'

theorem PAlike.i {p : PId m n} {q : PId m' n} (h : PAlike R p q) : IAlike R p.id q.id := ⟨p, q, h, rfl, rfl⟩

theorem fields_rule {a : Ty m n} {l : List (Field m n)} (h : S.fields? a = some l) :
    S.rule a.prod = .seq (l.map fun f => f.1.pid) := by
  cases a with
  | user k =>
    cases hS : S k with
    | struct f fs => simp only [Schema.fields?, hS] at h; cases h; simp [Ty.prod, Schema.rule, hS]
    | enum f fs => simp only [Schema.fields?, hS] at h; cases h
  | tup2 => cases h; rfl
  | tup3 => cases h; rfl
  | tup4 => cases h; rfl
  | tup5 => cases h; rfl
  | _ => cases h

theorem fields_alike {l : List (Field m n)} {l' : List (Field m' n)} (h : Pointwise (FieldAlike R) l l') :
    Pointwise (IAlike R) (l.map fun f => f.1.pid) (l'.map fun f => f.1.pid) :=
  h.map fun _ _ h => (PAlike.ty h.1).i

theorem SameForm.rule (hI : Interchange S S' R) : ∀ (s : Nat) {a : Ty m n} {b : Ty m' n},
    sizeOf a + sizeOf b ≤ s → SameForm S S' R a b → RuleAlike (IAlike R) (S.rule a.prod) (S'.rule b.prod) := by
  intro s
  induction s with
  | zero =>
    intro a b hs
    have : 0 < sizeOf a := by cases a <;> simp <;> omega
    omega
  | succ s ih =>
    intro a b hs h
    have one {α β : Type} {R : α → β → Prop} {a b} (h : R a b) : Pointwise R [a] [b] := .cons h .nil
    cases h with
    | boxL h => have h' := fun hs => ih hs h; exact h' (by simp at hs; omega)
    | boxR h => have h' := fun hs => ih hs h; exact h' (by simp at hs; omega)
    | term k k' t => exact .term t
    | fields h1 h2 h3 => rw [fields_rule h1, fields_rule h2]; exact .seq (fields_alike h3)
    | variants h1 h2 h3 =>
      simp only [Ty.prod, Schema.rule, h1, h2]
      exact .alt (fields_alike h3)
    | option h => exact .alt (.cons (PAlike.ty h).i (one (PAlike.eps).i))
    | exist h => exact .alt (.cons (PAlike.ty h).i (one (PAlike.eps).i))
    | quote h => have h' := fun hs => ih hs (hI _ _ h); exact h' (by simp at hs; omega)
    | parse h => have h' := fun hs => ih hs (hI _ _ h); exact h' (by simp at hs; omega)
    | plus h => exact .seq (.cons (PAlike.ty h).i (one (PAlike.opt (.plus (.ty h))).i))
    | loop h => exact .seq (.cons (PAlike.ty h).i (one (PAlike.opt (.plus (.ty h))).i))
    | star h => exact .alt (.cons (PAlike.plus (.ty h)).i (one (PAlike.eps).i))
    | split h h' =>
      exact .seq (.cons (PAlike.ty h).i (one (PAlike.opt (.plus (.tup2 (.ty h') (.ty h)))).i))
    | punct h h' =>
      exact .seq (.cons (PAlike.ty h).i (one (PAlike.opt (.tup2 (.ty h') (.opt (.punct (.ty h) (.ty h'))))).i))
    | recover h h' => exact .seq (.cons (PAlike.ty h).i (one (PAlike.ty h').i))

theorem PAlike.rule (hI : Interchange S S' R) {p : PId m n} {q : PId m' n} (h : PAlike R p q) :
    RuleAlike (IAlike R) (S.rule p) (S'.rule q) := by
  have one {α β : Type} {R : α → β → Prop} {a b} (h : R a b) : Pointwise R [a] [b] := .cons h .nil
  cases h with
  | ty h => exact SameForm.rule hI _ (Nat.le_refl _) (hI _ _ h)
  | eps => exact .eps
  | opt h => exact .alt (.cons h.i (one (PAlike.eps).i))
  | plus h => exact .seq (.cons h.i (one (PAlike.opt (.plus h)).i))
  | tup2 h h' => exact .seq (.cons h.i (one h'.i))
  | punct h h' => exact .seq (.cons h.i (one (PAlike.opt (.tup2 h' (.opt (.punct h h')))).i))

theorem IAlike.rule (hI : Interchange S S' R) {i : PId m n} {i' : PId m' n} (h : IAlike R i i') :
    RuleAlike (IAlike R) (S.rule i) (S'.rule i') := by
  obtain ⟨p, q, h, rfl, rfl⟩ := h
  rw [rule_pid, rule_pid]
  exact h.rule hI

theorem RuleAlike.mono {I I' : Type} {R Q : I → I' → Prop} {r : Rule I n} {r' : Rule I' n} (h : RuleAlike R r r')
    (hq : ∀ a ∈ r.parts, ∀ b ∈ r'.parts, R a b → Q a b) : RuleAlike Q r r' := by
  have key : ∀ (l : List I) (l' : List I'), (∀ a ∈ l, ∀ b ∈ l', R a b → Q a b) → Pointwise R l l' → Pointwise Q l l' := by
    intro l l' hq h
    induction h with
    | nil => exact .nil
    | cons hr _ ih =>
      exact .cons (hq _ (List.mem_cons_self ..) _ (List.mem_cons_self ..) hr)
        (ih fun a ha b hb => hq a (List.mem_cons_of_mem _ ha) b (List.mem_cons_of_mem _ hb))
  cases h with
  | eps => exact .eps
  | term t => exact .term t
  | seq h => exact .seq (key _ _ hq h)
  | alt h => exact .alt (key _ _ hq h)

variable {root : Ty m n} {root' : Ty m' n}

theorem preach_alike (hI : Interchange S S' R) (hr : R root root') {i : PId m n} (h : PReach S root i) :
    ∃ i', IAlike R i i' ∧ PReach S' root' i' := by
  induction h with
  | refl => exact ⟨_, (PAlike.ty hr).i, .refl⟩
  | step _ hj ih =>
    obtain ⟨i', h1, h2⟩ := ih
    obtain ⟨j', hj', h3⟩ := (h1.rule hI).parts.mem hj
    exact ⟨j', h3, .step h2 hj'⟩

/-- The grammars of two roots that differ only in how they are written correspond. -/
theorem bisim_of_interchange (hI : Interchange S S' R) (hr : R root root') {G : Grammar (PId m n) n}
    {G' : Grammar (PId m' n) n} (hG : S.IsGrammar root G) (hG' : S'.IsGrammar root' G') :
    Bisim G G' (fun i i' => IAlike R i i' ∧ PReach S root i ∧ PReach S' root' i') root.pid root'.pid where
  right := by
    rintro i i' r ⟨h1, h2, h3⟩ hm
    obtain ⟨_, rfl⟩ := (hG.2 _ _).1 hm
    exact ⟨_, (hG'.2 _ _).2 ⟨h3, rfl⟩, (h1.rule hI).mono fun a ha b hb h => ⟨h, .step h2 ha, .step h3 hb⟩⟩
  left := by
    rintro i i' r ⟨h1, h2, h3⟩ hm
    obtain ⟨_, rfl⟩ := (hG'.2 _ _).1 hm
    exact ⟨_, (hG.2 _ _).2 ⟨h2, rfl⟩, (h1.rule hI).mono fun a ha b hb h => ⟨h, .step h2 ha, .step h3 hb⟩⟩
  total := by
    intro i r hm
    obtain ⟨h, -⟩ := (hG.2 _ _).1 hm
    obtain ⟨i', h1, h2⟩ := preach_alike hI hr h
    exact ⟨i', h1, h, h2⟩
  onto := by
    intro i r hm
    obtain ⟨h, -⟩ := (hG'.2 _ _).1 hm
    obtain ⟨i', ⟨p, q, h1, e1, e2⟩, h2⟩ := preach_alike hI.flip (root := root') (root' := root) hr h
    exact ⟨i', ⟨q, p, h1.flip, e2, e1⟩, h2, h⟩
  root := ⟨(PAlike.ty hr).i, .refl, .refl⟩

variable {fuel fuel' : Nat} {md : Metadata (PId m n) n} {md' : Metadata (PId m' n) n}

theorem metadata_alike (hI : Interchange S S' R) (hr : R root root') (h : S.metadata fuel root = some (.ok md))
    {r : Except (GErr (PId m' n)) (Metadata (PId m' n) n)} (h' : S'.metadata fuel' root' = some r) :
    ∃ md', r = .ok md' := by
  obtain ⟨G, hG, _, hb⟩ := metadata_build h
  unfold Schema.metadata buildFor at h'
  cases hreg : registerFrom S'.rule fuel' root'.pid with
  | none => rw [hreg] at h'; cases h'
  | some G' =>
    rw [hreg] at h'
    have hG' : S'.IsGrammar root' G' := registerFrom_spec hreg
    exact build_alike (bisim_of_interchange hI hr hG hG') hG.1 hG'.1
      (fun i i' hi => (reach_iff_schema hG i).2 hi.2.1) hb h'

theorem metadata_alike_first (hI : Interchange S S' R) (hr : R root root')
    (h : S.metadata fuel root = some (.ok md)) (h' : S'.metadata fuel' root' = some (.ok md')) {i : PId m n}
    {i' : PId m' n} (hi : IAlike R i i') (hp : PReach S root i) (hp' : PReach S' root' i') :
    (md.first.get i).SemEq (md'.first.get i') := by
  obtain ⟨G, hG, _, hb⟩ := metadata_build h
  obtain ⟨G', hG', _, hb'⟩ := metadata_build h'
  intro x
  rw [Bool.eq_iff_iff]
  have e1 := buildFirst_den (build_ok hb).1 i x
  have e2 := buildFirst_den (build_ok hb').1 i' x
  rw [← (bisim_of_interchange hI hr hG hG').firstFam ⟨hi, hp, hp'⟩, ← e1] at e2
  exact e2.symm

theorem metadata_alike_follow (hI : Interchange S S' R) (hr : R root root')
    (h : S.metadata fuel root = some (.ok md)) (h' : S'.metadata fuel' root' = some (.ok md')) {i : PId m n}
    {x : Option (TokenSrc n)} (hf : (md.follow.get i).contains x = true) :
    ∃ i', IAlike R i i' ∧ PReach S' root' i' ∧ (md'.follow.get i').contains x = true := by
  obtain ⟨G, hG, _, hb⟩ := metadata_build h
  obtain ⟨G', hG', _, hb'⟩ := metadata_build h'
  obtain ⟨i', ⟨h1, -, h2⟩, h3⟩ := (bisim_of_interchange hI hr hG hG').followC ((build_follow_den hb i x).1 hf)
  exact ⟨i', h1, h2, (build_follow_den hb' i' x).2 h3⟩

theorem metadata_alike_jump (hI : Interchange S S' R) (hr : R root root')
    (h : S.metadata fuel root = some (.ok md)) (h' : S'.metadata fuel' root' = some (.ok md')) {i : PId m n}
    {i' : PId m' n} (hp : PReach S root i) (hp' : PReach S' root' i') {l : List (PId m n)}
    {l' : List (PId m' n)} (hl : S.rule i = .alt l) (hl' : S'.rule i' = .alt l') (hll : Pointwise (IAlike R) l l')
    (x : Option (TokenSrc n)) : md.jump.lookUp i x = md'.jump.lookUp i' x := by
  obtain ⟨G, hG, _, hb⟩ := metadata_build h
  obtain ⟨G', hG', _, hb'⟩ := metadata_build h'
  obtain ⟨a1, a2, _⟩ := metadata_jump h hG ((reach_iff_schema hG i).2 hp) hl x
  obtain ⟨b1, b2, _⟩ := metadata_jump h' hG' ((reach_iff_schema hG' i').2 hp') hl' x
  have hs : ∀ (j : Nat) c c', l[j]? = some c → l'[j]? = some c' → IAlike R c c' → (Starts G c x ↔ Starts G' c' x) := by
    intro j c c' hc hc' hR
    rw [← metadata_first h hG, ← metadata_first h' hG']
    have q : PReach S root c := .step hp (by
      show c ∈ (S.rule i).parts
      rw [hl]; exact List.mem_of_getElem? hc)
    have q' : PReach S' root' c' := .step hp' (by
      show c' ∈ (S'.rule i').parts
      rw [hl']; exact List.mem_of_getElem? hc')
    rw [metadata_alike_first hI hr h h' hR q q' x]
  cases ha : md.jump.lookUp i x with
  | some j =>
    obtain ⟨c, hc, hst⟩ := a1 j ha
    obtain ⟨c', hc', hR⟩ := hll.getElem? j hc
    exact (b2 j c' hc' ((hs j c c' hc hc' hR).1 hst)).symm
  | none =>
    cases hb : md'.jump.lookUp i' x with
    | none => rfl
    | some j =>
      obtain ⟨c', hc', hst⟩ := b1 j hb
      obtain ⟨c, hc, hR⟩ := hll.flip.getElem? j hc'
      rw [a2 j c hc ((hs j c c' hc hc' hR).2 hst)] at ha
      cases ha

/-! ### Parsing -/

section
variable {σ : Type} {o : Ops σ n}

theorem Tfer.trans_mono {α : Type} {D : α → Prop} {x y z : M σ α} (h : Tfer D x y) (hm : ∀ s, y s ≠ .fuel → z s = y s) :
    Tfer D x z := by
  intro s a s' hx
  rcases h s a s' hx with hd | hy
  · exact .inl hd
  · exact .inr (by rw [hm s (by rw [hy]; simp), hy])

theorem Tfer.more {x : P σ n} {S : Schema m n} {md : Metadata (PId m n) n} {f g : Nat} {t : Ty m n}
    (h : Tfer DR x (produce o S md f t)) (hg : f ≤ g) : Tfer DR x (produce o S md g t) :=
  h.trans_mono fun s hs => produce_mono o S md hg t s hs

/-- Fuel for loops and fuel for parts are combined. -/
theorem Tfer.raise {x : P σ n} {S : Schema m n} {md : Metadata (PId m n) n} {f g : Nat} {t : Ty m n}
    (h : Tfer DR x (produceStep o S md f (produce o S md g) t)) : Tfer DR x (produce o S md (max f g + 1) t) := by
  obtain ⟨k, hk⟩ := Nat.exists_eq_add_of_le (Nat.le_max_left f g)
  have hg := Nat.le_max_right f g
  refine h.trans_mono ?_
  have hr : ∀ t s, produce o S md g t s ≠ .fuel → produce o S md (max f g) t s = produce o S md g t s :=
    fun t s hs => produce_mono o S md hg t s hs
  exact (mono_closed o k).core.step S md hk hr (fun t => (mono_closed o k).text (hr t)) t

theorem applyFields_none : ∀ (l : List (Tree n)) (k : List (Option (LSet n))), (∀ x ∈ k, x = none) →
    applyFields o (l.zip k) = pure ()
  | [], _, _ => rfl
  | _ :: _, [], _ => rfl
  | a :: l, x :: k, h => by
    have : x = none := h x (List.mem_cons_self ..)
    subst this
    exact applyFields_none l k fun y hy => h y (List.mem_cons_of_mem _ hy)

theorem tuple_struct (ps : List (P σ n)) : produceTuple ps = produceStruct o (ps.map fun p => (p, none)) := by
  unfold produceTuple produceStruct
  rw [List.map_map, show ((fun x : P σ n × Option (LSet n) => x.1) ∘ fun p => (p, none)) = id from rfl, List.map_id]
  congr 1
  funext r
  rcases r with e | ⟨l, e⟩
  · rfl
  · simp only
    rw [applyFields_none _ _ (by intro x hx; simp at hx; exact hx.2.symm)]
    rfl

theorem fields_step {S : Schema m n} {md : Metadata (PId m n) n} {f : Nat} {rec : Ty m n → P σ n} {a : Ty m n}
    {l : List (Field m n)} (h : S.fields? a = some l) :
    produceStep o S md f rec a = produceStruct o (l.map fun f => (rec f.1, f.2)) := by
  cases a with
  | user k =>
    cases hS : S k with
    | struct f fs => simp only [Schema.fields?, hS] at h; cases h; simp only [produceStep, hS]
    | enum f fs => simp only [Schema.fields?, hS] at h; cases h
  | tup2 => cases h; exact tuple_struct _
  | tup3 => cases h; exact tuple_struct _
  | tup4 => cases h; exact tuple_struct _
  | tup5 => cases h; exact tuple_struct _
  | _ => cases h

theorem fields_parts {a : Ty m n} {l : List (Field m n)} (h : S.fields? a = some l) :
    S.tyParts a = l.map (·.1) := by
  cases a with
  | user k =>
    cases hS : S k with
    | struct f fs => simp only [Schema.fields?, hS] at h; cases h; simp only [Schema.tyParts, hS]
    | enum f fs => simp only [Schema.fields?, hS] at h; cases h
  | tup2 => cases h; rfl
  | tup3 => cases h; rfl
  | tup4 => cases h; rfl
  | tup5 => cases h; rfl
  | _ => cases h

theorem fields_tr {rec : Ty m n → P σ n} {rec' : Nat → Ty m' n → P σ n}
    (hmono : ∀ {x : P σ n} {g g' t}, Tfer DR x (rec' g t) → g ≤ g' → Tfer DR x (rec' g' t))
    {l : List (Field m n)} {l' : List (Field m' n)} (h : Pointwise (FieldAlike R) l l') :
    (∀ a b, a ∈ l.map (·.1) → b ∈ l'.map (·.1) → R a b → ∃ g, Tfer DR (rec a) (rec' g b)) →
    ∃ g, Core.Forall2 (fun a b => Tfer DR a.1 b.1 ∧ a.2 = b.2) (l.map fun f => (rec f.1, f.2))
      (l'.map fun f => (rec' g f.1, f.2)) := by
  have up : ∀ {g g' : Nat} {l : List (Field m n)} {l' : List (Field m' n)}, g ≤ g' →
      Core.Forall2 (fun a b => Tfer DR a.1 b.1 ∧ a.2 = b.2) (l.map fun f => (rec f.1, f.2))
        (l'.map fun f => (rec' g f.1, f.2)) →
      Core.Forall2 (fun a b => Tfer DR a.1 b.1 ∧ a.2 = b.2) (l.map fun f => (rec f.1, f.2))
        (l'.map fun f => (rec' g' f.1, f.2)) := by
    intro g g' l l' hg
    induction l generalizing l' with
    | nil => intro h; cases l' with
      | nil => exact .nil
      | cons => cases h
    | cons a l ih => intro h; cases l' with
      | nil => cases h
      | cons b l' => cases h with
        | cons h1 h2 => exact .cons ⟨hmono h1.1 hg, h1.2⟩ (ih h2)
  induction h with
  | nil => intro _; exact ⟨0, .nil⟩
  | cons hr _ ih =>
    intro hp
    obtain ⟨g, h1⟩ := hp _ _ (List.mem_cons_self ..) (List.mem_cons_self ..) hr.1
    obtain ⟨g', h2⟩ := ih fun a b ha hb => hp a b (List.mem_cons_of_mem _ ha) (List.mem_cons_of_mem _ hb)
    exact ⟨max g g', .cons ⟨hmono h1 (Nat.le_max_left ..), hr.2⟩ (up (Nat.le_max_right ..) h2)⟩

/-- Everything the parser consults for corresponding types is the same, except that the FOLLOW sets of `Punct` may
be larger on the right. -/
structure AgreeX (S : Schema m n) (S' : Schema m' n) (R : Ty m n → Ty m' n → Prop) (md : Metadata (PId m n) n)
    (md' : Metadata (PId m' n) n) (root : Ty m n) (root' : Ty m' n) : Prop where
  first : ∀ i i', IAlike R i i' → PReach S root i → PReach S' root' i' → (md.first.get i).SemEq (md'.first.get i')
  jump : ∀ k k' v vs v' vs', PReach S root (.user k) → PReach S' root' (.user k') → S k = .enum v vs →
    S' k' = .enum v' vs' → Pointwise (FieldAlike R) (v :: vs) (v' :: vs') →
    ∀ x, md.jump.lookUp (.user k) x = md'.jump.lookUp (.user k') x
  punct : ∀ a b a' b', R a a' → R b b' → Reach S.tyParts root (.punct a b) → Reach S'.tyParts root' (.punct a' b') →
    ∀ tok, (md.follow.get (Ty.punct a b).pid).contains (some tok) = true →
      (md'.follow.get (Ty.punct a' b').pid).contains (some tok) = true

theorem AgreeX.produce (hI : Interchange S S' R) (h : AgreeX S S' R md md' root root')
    (he : ∀ fuel u, SilentEnd o (produce o S md fuel u)) : ∀ (f : Nat) {a : Ty m n} {b : Ty m' n},
    SameForm S S' R a b → Reach S.tyParts root a → Reach S'.tyParts root' b →
    ∃ g, Tfer DR (produce o S md f a) (produce o S' md' g b)
  | 0, _, _, _, _, _ => ⟨0, Dies.tr Dies.fuel⟩
  | f + 1, a, b, hab, ha, hb => by
    have ih {a : Ty m n} {b : Ty m' n} (hr : R a b) (ha : Reach S.tyParts root a) (hb : Reach S'.tyParts root' b) :
        ∃ g, Tfer DR (Teleparse.produce o S md f a) (Teleparse.produce o S' md' g b) :=
      h.produce hI he f (hI a b hr) ha hb
    have fst {a : Ty m n} {b : Ty m' n} (hr : R a b) (ha : Reach S.tyParts root a) (hb : Reach S'.tyParts root' b) :
        (md.first.get a.pid).SemEq (md'.first.get b.pid) := h.first _ _ (PAlike.ty hr).i (reach_pid ha) (reach_pid hb)
    have more {x : P σ n} {g g' : Nat} {t : Ty m' n} (hx : Tfer DR x (Teleparse.produce o S' md' g t)) (hg : g ≤ g') :
        Tfer DR x (Teleparse.produce o S' md' g' t) := hx.more hg
    induction hab with
    | boxL hab _ =>
      exact h.produce hI he f hab (.step ha (by simp [Schema.tyParts])) hb
    | boxR _ ih' =>
      obtain ⟨g, hg⟩ := ih' ha (.step hb (by simp [Schema.tyParts]))
      exact ⟨g + 1, hg⟩
    | term k k' t => exact ⟨1, term_tr _ _ _⟩
    | @fields a b l l' h1 h2 h3 =>
      obtain ⟨g, hg⟩ := fields_tr (rec' := Teleparse.produce o S' md') more h3 fun u v hu hv hr =>
        ih hr (.step ha (by rw [fields_parts h1]; exact hu)) (.step hb (by rw [fields_parts h2]; exact hv))
      refine ⟨_, Tfer.raise (f := f) (g := g) ?_⟩
      rw [fields_step h2]
      show Tfer DR (produceStep o S md f (Teleparse.produce o S md f) a) _
      rw [fields_step h1]
      exact struct_tr hg
    | variants h1 h2 h3 =>
      obtain ⟨g, hg⟩ := fields_tr (rec' := Teleparse.produce o S' md') more h3 fun u v hu hv hr =>
        ih hr (.step ha (by simp only [Schema.tyParts, h1]; exact hu))
          (.step hb (by simp only [Schema.tyParts, h2]; exact hv))
      refine ⟨_, Tfer.raise (f := f) (g := g) ?_⟩
      simp only [Teleparse.produce, produceStep, h1, h2]
      exact enum_tr (h.jump _ _ _ _ _ _ (reach_pid ha) (reach_pid hb) h1 h2 h3) hg
    | option hr =>
      have ra := Reach.step ha (show _ ∈ S.tyParts _ by simp [Schema.tyParts]; rfl)
      have rb := Reach.step hb (show _ ∈ S'.tyParts _ by simp [Schema.tyParts]; rfl)
      obtain ⟨g, hg⟩ := ih hr ra rb
      exact ⟨_, Tfer.raise (f := f) (g := g) (option_tr (fst hr ra rb) hg _)⟩
    | exist hr =>
      have ra := Reach.step ha (show _ ∈ S.tyParts _ by simp [Schema.tyParts]; rfl)
      have rb := Reach.step hb (show _ ∈ S'.tyParts _ by simp [Schema.tyParts]; rfl)
      obtain ⟨g, hg⟩ := ih hr ra rb
      exact ⟨_, Tfer.raise (f := f) (g := g) (option_tr (fst hr ra rb) hg _)⟩
    | quote hr =>
      obtain ⟨g, hg⟩ := ih hr (.step ha (by simp [Schema.tyParts])) (.step hb (by simp [Schema.tyParts]))
      exact ⟨_, Tfer.raise (f := f) (g := g) (text_tr hg)⟩
    | parse hr =>
      obtain ⟨g, hg⟩ := ih hr (.step ha (by simp [Schema.tyParts])) (.step hb (by simp [Schema.tyParts]))
      exact ⟨_, Tfer.raise (f := f) (g := g) (text_tr hg)⟩
    | plus hr =>
      obtain ⟨g, hg⟩ := ih hr (.step ha (by simp [Schema.tyParts])) (.step hb (by simp [Schema.tyParts]))
      exact ⟨_, Tfer.raise (f := f) (g := g)
        (plus_tr (h.first _ _ (PAlike.plus (.ty hr)).i (reach_pid ha) (reach_pid hb)) hg _)⟩
    | @star a b hr =>
      have ra : Reach S.tyParts root (.plus a) := .step ha (by simp [Schema.tyParts])
      have rb : Reach S'.tyParts root' (.plus b) := .step hb (by simp [Schema.tyParts])
      obtain ⟨g, hg⟩ := ih hr (.step ra (by simp [Schema.tyParts])) (.step rb (by simp [Schema.tyParts]))
      have hf := h.first _ _ (PAlike.plus (.ty hr)).i (reach_pid ra) (reach_pid rb)
      exact ⟨_, Tfer.raise (f := f) (g := g) (option_tr hf (plus_tr hf hg _) _)⟩
    | loop hr =>
      obtain ⟨g, hg⟩ := ih hr (.step ha (by simp [Schema.tyParts])) (.step hb (by simp [Schema.tyParts]))
      exact ⟨_, Tfer.raise (f := f) (g := g)
        (loop_tr (h.first _ _ (PAlike.plus (.ty hr)).i (reach_pid ha) (reach_pid hb)) hg _)⟩
    | @split a b c d hr hs =>
      have ra : Reach S.tyParts root a := .step ha (by simp [Schema.tyParts])
      have rb : Reach S'.tyParts root' b := .step hb (by simp [Schema.tyParts])
      have rc : Reach S.tyParts root c := .step ha (by simp [Schema.tyParts])
      have rd : Reach S'.tyParts root' d := .step hb (by simp [Schema.tyParts])
      obtain ⟨g, hg⟩ := ih hr ra rb
      obtain ⟨g', hg'⟩ := ih hs rc rd
      exact ⟨_, Tfer.raise (f := f) (g := max g g') (split_tr _ _ (fst hr ra rb) (fst hs rc rd)
        (more hg (Nat.le_max_left ..)) (more hg' (Nat.le_max_right ..)) (he _ _) _)⟩
    | @punct a b c d hr hs =>
      have ra : Reach S.tyParts root a := .step ha (by simp [Schema.tyParts])
      have rb : Reach S'.tyParts root' b := .step hb (by simp [Schema.tyParts])
      have rc : Reach S.tyParts root c := .step ha (by simp [Schema.tyParts])
      have rd : Reach S'.tyParts root' d := .step hb (by simp [Schema.tyParts])
      obtain ⟨g, hg⟩ := ih hr ra rb
      obtain ⟨g', hg'⟩ := ih hs rc rd
      exact ⟨_, Tfer.raise (f := f) (g := max g g') (punct_tr (fst hr ra rb) (fst hs rc rd)
        (h.punct a c b d hr hs ha hb) (more hg (Nat.le_max_left ..)) (more hg' (Nat.le_max_right ..)) (he _ _) _)⟩
    | @recover a b c d hr hs =>
      have ra : Reach S.tyParts root a := .step ha (by simp [Schema.tyParts])
      have rb : Reach S'.tyParts root' b := .step hb (by simp [Schema.tyParts])
      have rc : Reach S.tyParts root c := .step ha (by simp [Schema.tyParts])
      have rd : Reach S'.tyParts root' d := .step hb (by simp [Schema.tyParts])
      obtain ⟨g, hg⟩ := ih hr ra rb
      obtain ⟨g', hg'⟩ := ih hs rc rd
      exact ⟨_, Tfer.raise (f := f) (g := max g g') (recover_tr (fst hr ra rb) (fst hs rc rd)
        (more hg (Nat.le_max_left ..)) (more hg' (Nat.le_max_right ..)) _)⟩

end

theorem agreeX (hI : Interchange S S' R) (hr : R root root') (h : S.metadata fuel root = some (.ok md))
    (h' : S'.metadata fuel' root' = some (.ok md'))
    (hp : ∀ a b a' b', R a a' → R b b' → Reach S.tyParts root (.punct a b) → Reach S'.tyParts root' (.punct a' b') →
      ∀ tok, (md.follow.get (Ty.punct a b).pid).contains (some tok) = true →
        (md'.follow.get (Ty.punct a' b').pid).contains (some tok) = true) :
    AgreeX S S' R md md' root root' where
  first := fun _ _ hi h1 h2 => metadata_alike_first hI hr h h' hi h1 h2
  jump := fun k k' v vs v' vs' h1 h2 e1 e2 hv => metadata_alike_jump hI hr h h' h1 h2
    (l := (v :: vs).map fun v => v.1.pid) (l' := (v' :: vs').map fun v => v.1.pid) (by simp [Schema.rule, e1])
    (by simp [Schema.rule, e2]) (fields_alike hv)
  punct := hp

theorem AgreeX.yields (hI : Interchange S S' R) (h : AgreeX S S' R md md' root root') {ext : Fin n → Bool}
    {p p' : Parser n} {a : Ty m n} {b : Ty m' n} (hab : R a b) (ha : Reach S.tyParts root a)
    (hb : Reach S'.tyParts root' b) {r : Res n (Tree n)} (hr : r.errs = []) (hy : Yields ext S md a p r p') :
    Yields ext S' md' b p r p' := by
  obtain ⟨f, hy⟩ := hy
  obtain ⟨g, hg⟩ := h.produce (o := Parser.ops ext) hI (silentEnd_parser ext) f (hI a b hab) ha hb
  rcases hg p r p' hy with hd | hd
  · exact absurd hr hd
  · exact ⟨g, hd⟩

end

end Teleparse

import Verif.Spec.Corrected
import Verif.Proof.Tokens
import Verif.Proof.Viable
/-
Trees of results are trees of corrected inputs.
-/
namespace Teleparse
variable {m n : Nat} {S : Schema m n} {source : Str}

theorem keptOf_append (a b : List (Leaf n)) : keptOf (a ++ b) = keptOf a ++ keptOf b := by
  simp [keptOf]

theorem putsOf_append (a b : List (Leaf n)) : putsOf (a ++ b) = putsOf a + putsOf b := by
  simp [putsOf]

theorem leavesAll_append : ∀ a b : List (Form n), leavesAll (a ++ b) = leavesAll a ++ leavesAll b
  | [], b => by simp [leavesAll]
  | x :: a, b => by simp [leavesAll, leavesAll_append a b]

theorem leavesAll_one (f : Form n) : leavesAll [f] = f.leaves := by simp [leavesAll]

theorem HasAll.append {R : Token n → Leaf n → Prop} {gaps : Prop} : ∀ {l l' : List (Tree n)} {fs fs'},
    HasAll R gaps l fs → HasAll R gaps l' fs' → HasAll R gaps (l ++ l') (fs ++ fs')
  | _, _, _, _, .nil, h => h
  | _, _, _, _, .cons h1 h2, h => .cons h1 (h2.append h)

theorem HasAll.length {R : Token n → Leaf n → Prop} {gaps : Prop} : ∀ {l : List (Tree n)} {fs},
    HasAll R gaps l fs → fs.length = l.length
  | _, _, .nil => rfl
  | _, _, .cons _ h2 => by simp [h2.length]

theorem FormsOf.length : ∀ {ts : List (Ty m n)} {fs}, FormsOf S source ts fs → fs.length = ts.length
  | _, _, .nil => rfl
  | _, _, .cons _ h2 => by simp [h2.length]

theorem NoGaps.part {t u : Ty m n} (h : NoGaps S t) (hu : u ∈ S.tyParts t) : NoGaps S u :=
  fun _ hv => h _ (.head hu hv)

theorem Fillable.part {t u : Ty m n} (h : Fillable S source t) (hu : u ∈ S.tyParts t) : Fillable S source u :=
  fun _ hv => h _ (.head hu hv)

/-- The trees `l` are trees of `ts`, with at most `k` words put in. -/
def Fix (S : Schema m n) (source : Str) (v v' : View n) (ts : List (Ty m n)) (l : List (Tree n)) (k : Nat) : Prop :=
  ∃ fs, FormsOf S source ts fs ∧ HasAll StandsFor True l fs ∧ Got v v' (keptOf (leavesAll fs)) ∧
    ((∀ t ∈ ts, NoGaps S t) → putsOf (leavesAll fs) ≤ k)

/-- Elements and separators of `Split` after the first element. -/
def Fix2 (S : Schema m n) (source : Str) (v v' : View n) (t p : Ty m n) (es ps : List (Tree n)) (k : Nat) : Prop :=
  ∃ fs gs, HasAll StandsFor True es fs ∧ HasAll StandsFor True ps gs ∧ gs.length = fs.length ∧
    FormsOf S source (alternate p t (gs.length + fs.length)) (interleave gs fs) ∧
    Got v v' (keptOf (leavesAll (interleave gs fs))) ∧
    (NoGaps S t → NoGaps S p → putsOf (leavesAll (interleave gs fs)) ≤ k)

/-- Elements and separators of `Punct` after the first element. -/
def FixGap (S : Schema m n) (source : Str) (v v' : View n) (t p : Ty m n) (es ps : List (Tree n)) : Prop :=
  ∃ fs' fs gs, HasAll StandsFor True es fs' ∧ fs'.Sublist fs ∧ HasAll StandsFor True ps gs ∧
    (gs.length = fs.length ∨ gs.length = fs.length + 1) ∧
    FormsOf S source (alternate p t (gs.length + fs.length)) (interleave gs fs) ∧
    Got v v' (keptOf (leavesAll (interleave gs fs)))

section
variable {v v1 v2 v' : View n}

theorem Fix.nil {k : Nat} (h : Adv v v') : Fix S source v v' [] [] k :=
  ⟨[], .nil, .nil, by simp only [leavesAll]; exact .adv h, by simp [leavesAll, putsOf]⟩

theorem Fix.one {t : Ty m n} {x k} (h : Fix S source v v' [t] [x] k) :
    ∃ f, FormOf S source t f ∧ x.Has StandsFor True f ∧ Got v v' (keptOf f.leaves) ∧
      (NoGaps S t → putsOf f.leaves ≤ k) := by
  obtain ⟨fs, h1, h2, h3, h4⟩ := h
  cases h1 with
  | @cons _ _ f _ a b =>
    cases b
    cases h2 with
    | cons c _ =>
      rw [leavesAll_one] at h3 h4
      exact ⟨f, a, c, h3, fun hn => h4 (by simpa using hn)⟩

theorem Fix.cons {t : Ty m n} {ts x l k k'} (h : Fix S source v v1 [t] [x] k) (h' : Fix S source v1 v' ts l k') :
    Fix S source v v' (t :: ts) (x :: l) (k + k') := by
  obtain ⟨_, h1, h2, h3, h4⟩ := h.one
  obtain ⟨fs, h5, h6, h7, h8⟩ := h'
  refine ⟨_ :: fs, .cons h1 h5, .cons h2 h6, ?_, fun hn => ?_⟩
  · simp only [leavesAll, keptOf_append]
    exact h3.trans h7
  · simp only [leavesAll, putsOf_append]
    exact Nat.add_le_add (h4 (hn _ (by simp))) (h8 fun u hu => hn u (by simp [hu]))

theorem Fix.before {ts : List (Ty m n)} {l k} (h : Adv v v1) (h' : Fix S source v1 v' ts l k) :
    Fix S source v v' ts l k := by
  obtain ⟨fs, h5, h6, h7, h8⟩ := h'
  exact ⟨fs, h5, h6, h7.before h, h8⟩

theorem Fix.mono {ts : List (Ty m n)} {l k k'} (h : Fix S source v v' ts l k) (hk : k ≤ k') :
    Fix S source v v' ts l k' := by
  obtain ⟨fs, h5, h6, h7, h8⟩ := h
  exact ⟨fs, h5, h6, h7, fun hn => Nat.le_trans (h8 hn) hk⟩

/-- A tree put together from others. -/
theorem Fix.map {ts : List (Ty m n)} {l k} {t : Ty m n} {x : Tree n} (h : Fix S source v v1 ts l k) (ha : Adv v1 v')
    (hn : NoGaps S t → ∀ u ∈ ts, NoGaps S u)
    (hf : ∀ fs, FormsOf S source ts fs → HasAll StandsFor True l fs →
      ∃ f, FormOf S source t f ∧ x.Has StandsFor True f ∧ f.leaves = leavesAll fs) :
    Fix S source v v' [t] [x] k := by
  obtain ⟨fs, h1, h2, h3, h4⟩ := h
  obtain ⟨f, h5, h6, h7⟩ := hf fs h1 h2
  refine ⟨[f], .cons h5 .nil, .cons h6 .nil, ?_, fun hg => ?_⟩
  · rw [leavesAll_one, h7]; exact h3.after ha
  · rw [leavesAll_one, h7]; exact h4 (hn (hg t (by simp)))

/-- A tree of nothing. -/
theorem Fix.none {t : Ty m n} {x : Tree n} {f : Form n} {k} (ha : Adv v v') (h1 : FormOf S source t f)
    (h2 : x.Has StandsFor True f) (h3 : f.leaves = []) : Fix S source v v' [t] [x] k :=
  ⟨[f], .cons h1 .nil, .cons h2 .nil, by rw [leavesAll_one, h3]; exact .adv ha,
    fun _ => by rw [leavesAll_one, h3]; simp [putsOf]⟩

/-- A tree made from another one. -/
theorem Fix.wrap {t t' : Ty m n} {x x' : Tree n} {k} (h : Fix S source v v1 [t] [x] k) (ha : Adv v1 v')
    (hp : t ∈ S.tyParts t') (hf : ∀ f, FormOf S source t f → x.Has StandsFor True f →
      ∃ f', FormOf S source t' f' ∧ x'.Has StandsFor True f' ∧ f'.leaves = f.leaves) :
    Fix S source v v' [t'] [x'] k := by
  refine h.map ha (fun hn u hu => ?_) ?_
  · simp at hu; subst hu; exact hn.part hp
  · intro fs h1 h2
    obtain ⟨h3, h4⟩ : ∃ f, fs = [f] ∧ FormOf S source t f ∧ x.Has StandsFor True f := by
      cases h1 with
      | cons a b => cases b; cases h2 with | cons c d => exact ⟨_, rfl, a, c⟩
    obtain ⟨rfl, h5, h6⟩ := h4
    rw [leavesAll_one]
    exact hf _ h5 h6

theorem Fix2.nil {t p : Ty m n} {k : Nat} (h : Adv v v') : Fix2 S source v v' t p [] [] k :=
  ⟨[], [], .nil, .nil, rfl, by simp [interleave, alternate]; exact .nil,
    by simp only [interleave, leavesAll]; exact .adv h, by simp [interleave, leavesAll, putsOf]⟩

theorem Fix2.before {t p : Ty m n} {es ps k} (h : Adv v v1) (h' : Fix2 S source v1 v' t p es ps k) :
    Fix2 S source v v' t p es ps k := by
  obtain ⟨fs, gs, h1, h2, h3, h4, h5, h6⟩ := h'
  exact ⟨fs, gs, h1, h2, h3, h4, h5.before h, h6⟩

theorem Fix2.mono {t p : Ty m n} {es ps k k'} (h : Fix2 S source v v' t p es ps k) (hk : k ≤ k') :
    Fix2 S source v v' t p es ps k' := by
  obtain ⟨fs, gs, h1, h2, h3, h4, h5, h6⟩ := h
  exact ⟨fs, gs, h1, h2, h3, h4, h5, fun a b => Nat.le_trans (h6 a b) hk⟩

theorem Fix2.cons {t p : Ty m n} {q x es ps k1 k2 k} (hq : Fix S source v v1 [p] [q] k1)
    (hx : Fix S source v1 v2 [t] [x] k2) (h : Fix2 S source v2 v' t p es ps k) :
    Fix2 S source v v' t p (x :: es) (q :: ps) (k1 + k2 + k) := by
  obtain ⟨g, a1, a2, a3, a4⟩ := Fix.one <| hq
  obtain ⟨f, b1, b2, b3, b4⟩ := Fix.one <| hx
  obtain ⟨fs, gs, h1, h2, h3, h4, h5, h6⟩ := h
  refine ⟨f :: fs, g :: gs, .cons b2 h1, .cons a2 h2, by simp [h3], ?_, ?_, fun h7 h8 => ?_⟩
  · rw [interleave_cons, interleave_cons,
      show (g :: gs).length + (f :: fs).length = (gs.length + fs.length) + 1 + 1 by simp; omega]
    exact .cons a1 (.cons b1 h4)
  · rw [interleave_cons, interleave_cons]
    simp only [leavesAll, keptOf_append]
    exact a3.trans (b3.trans h5)
  · rw [interleave_cons, interleave_cons]
    simp only [leavesAll, putsOf_append]
    have := a4 h8
    have := b4 h7
    have := h6 h7 h8
    omega

theorem FixGap.nil {t p : Ty m n} (h : Adv v v') : FixGap S source v v' t p [] [] :=
  ⟨[], [], [], .nil, .slnil, .nil, .inl rfl, by simp [interleave, alternate]; exact .nil,
    by simp only [interleave, leavesAll]; exact .adv h⟩

theorem FixGap.last {t p : Ty m n} {q k1} (hq : Fix S source v v1 [p] [q] k1) (h : Adv v1 v') :
    FixGap S source v v' t p [] [q] := by
  obtain ⟨g, a1, a2, a3, a4⟩ := Fix.one <| hq
  refine ⟨[], [], [g], .nil, .slnil, .cons a2 .nil, .inr rfl, ?_, ?_⟩
  · simp only [interleave_cons, interleave]
    exact .cons a1 .nil
  · simp only [interleave_cons, interleave, leavesAll_one]
    exact a3.after h

theorem FixGap.cons {t p : Ty m n} {q x es ps k1 k2} (hq : Fix S source v v1 [p] [q] k1)
    (hx : Fix S source v1 v2 [t] [x] k2) (h : FixGap S source v2 v' t p es ps) :
    FixGap S source v v' t p (x :: es) (q :: ps) := by
  obtain ⟨g, a1, a2, a3, a4⟩ := Fix.one <| hq
  obtain ⟨f, b1, b2, b3, b4⟩ := Fix.one <| hx
  obtain ⟨fs', fs, gs, h1, hs, h2, h3, h4, h5⟩ := h
  refine ⟨f :: fs', f :: fs, g :: gs, .cons b2 h1, hs.cons_cons f, .cons a2 h2, by simpa using h3, ?_, ?_⟩
  · rw [interleave_cons, interleave_cons,
      show (g :: gs).length + (f :: fs).length = (gs.length + fs.length) + 1 + 1 by simp; omega]
    exact .cons a1 (.cons b1 h4)
  · rw [interleave_cons, interleave_cons]
    simp only [leavesAll, keptOf_append]
    exact a3.trans (b3.trans h5)

theorem FixGap.fill {t p : Ty m n} {q es ps k1} {f : Form n} (hq : Fix S source v v1 [p] [q] k1)
    (hx : FormOf S source t f) (hf : keptOf f.leaves = []) (ha : Adv v1 v2) (h : FixGap S source v2 v' t p es ps) :
    FixGap S source v v' t p es (q :: ps) := by
  obtain ⟨g, a1, a2, a3, a4⟩ := Fix.one <| hq
  obtain ⟨fs', fs, gs, h1, hs, h2, h3, h4, h5⟩ := h
  refine ⟨fs', f :: fs, g :: gs, h1, hs.cons f, .cons a2 h2, by simpa using h3, ?_, ?_⟩
  · rw [interleave_cons, interleave_cons,
      show (g :: gs).length + (f :: fs).length = (gs.length + fs.length) + 1 + 1 by simp; omega]
    exact .cons a1 (.cons hx h4)
  · rw [interleave_cons, interleave_cons]
    simp only [leavesAll, keptOf_append, hf, List.nil_append]
    exact a3.trans (h5.before ha)

end

/-- What holds of the results of a step. -/
def Judg.Fixed (S : Schema m n) (source : Str) : Judg m n → Prop
  | .ty t v r v' => Fillable S source t → ∀ x e, r.Gives x e → Fix S source v v' [t] [x] e.length
  | .seq ts v acc errs r v' => (∀ t ∈ ts, Fillable S source t) → ∀ l e, r = .ok (l, e) →
      ∃ l' e', l = acc ++ l' ∧ e = errs ++ e' ∧ Fix S source v v' ts l' e'.length
  | .iter t v acc errs _ l errs' _ v' => Fillable S source t →
      ∃ l' e', l = acc ++ l' ∧ errs' = errs ++ e' ∧ Fix S source v v' (List.replicate l'.length t) l' e'.length
  | .loop t v acc errs l errs' v' => Fillable S source t →
      ∃ l' e', l = acc ++ l' ∧ errs' = errs ++ e' ∧ Fix S source v v' (List.replicate l'.length t) l' e'.length
  | .inner t q v a _ _ a' v' => Fillable S source t → ∃ e, a'.errs = a.errs ++ e ∧
      ((a'.elems = a.elems ∧ a'.puncts = a.puncts) ∨
      ∃ x, a'.elems = a.elems ++ [x] ∧ a'.puncts = a.puncts ++ [q] ∧ Fix S source v v' [t] [x] e.length)
  | .outer t p v a a' v' => Fillable S source t → Fillable S source p → ∃ es ps e, a'.elems = a.elems ++ es ∧
      a'.puncts = a.puncts ++ ps ∧ a'.errs = a.errs ++ e ∧ Fix2 S source v v' t p es ps e.length
  | .pinner t v a _ _ a' v' => Fillable S source t → a'.puncts = a.puncts ∧
      (a'.elems = a.elems ∨ ∃ x k, a'.elems = a.elems ++ [x] ∧ Fix S source v v' [t] [x] k)
  | .pouter t p v a a' v' => Fillable S source t → Fillable S source p →
      (∃ f, FormOf S source t f ∧ keptOf f.leaves = []) → ∃ es ps, a'.elems = a.elems ++ es ∧
      a'.puncts = a.puncts ++ ps ∧ FixGap S source v v' t p es ps
  | .head t v h v' => Fillable S source t → ∀ x, h.head = some x → ∃ k, Fix S source v v' [t] [x] k
  | .tail t v _ _ x _ _ v' => Fillable S source t → ∀ y, x = some y → ∃ k, Fix S source v v' [t] [y] k

theorem RunX.fixed {j : Judg m n} (h : Run S j) : Ready source j.pre → j.Fixed S source := by
  induction h with
  | @tok i k v t l hr hty hlit =>
    intro hv _ x e hg
    cases hg
    refine ⟨[.leaf (.kept t)], .cons (.term ⟨hty, fun lit hk => ?_⟩) .nil,
      .cons (.tok ⟨rfl, hv.pos (by show t ∈ v.rest; rw [hr]; simp)⟩) .nil, ?_, ?_⟩
    · have := get?_textOf (hlit lit hk)
      rw [show source = v.source from hv.inSource.src.symm]
      exact this.symm
    · simp only [leavesAll, Form.leaves, keptOf, List.append_nil]
      exact ⟨[t], by simp [View.skip, View.consume, hr], List.Sublist.refl _⟩
    · simp [leavesAll, Form.leaves, putsOf]
  | @tokRecovered i k v lit sp s hl hsp =>
    intro hv _ x e hg
    cases hg
    refine ⟨[.leaf (.put ⟨k.ty, lit⟩)], .cons (.term ⟨rfl, fun l' hk => ?_⟩) .nil,
      .cons (.tok ⟨rfl, ?_⟩) .nil, ?_, ?_⟩
    · rw [hl] at hk; cases hk; rfl
    · rcases hsp with rfl | ⟨_, rfl⟩ <;> rfl
    · exact .adv (.refl _)
    · simp [leavesAll, Form.leaves, putsOf]
  | tokPanic => intro _ _ x e hg; cases hg
  | seqNil => intro _ _ l e h; cases h; exact ⟨[], [], by simp, by simp, .nil (.refl _)⟩
  | @seqGive t ts v acc errs r x e v1 res v' h1 hg h2 i1 i2 =>
    intro hv hf l e' hl
    obtain ⟨l', e2, h3, h4, h5⟩ := i2 (hv.adv h1.adv) (fun u hu => hf u (by simp [hu])) l e' hl
    exact ⟨x :: l', e ++ e2, by simp [h3], by simp [h4],
      (Fix.cons (i1 hv (hf t (by simp)) x e hg) h5).mono (by simp)⟩
  | seqPanic => intro _ _ l e h; cases h
  | @struct k f fs v l errs v1 hk _ i =>
    intro hv hf x e hg
    obtain ⟨rfl, rfl⟩ := gives_ofPair hg
    have hp : S.tyParts (.user k) = (f :: fs).map (·.1) := by simp [Schema.tyParts, hk]
    obtain ⟨l', e', h1, h2, h3⟩ := i hv (fun t ht => hf.part (by rw [hp]; exact ht)) _ _ rfl
    rw [List.nil_append] at h1 h2
    subst h1 h2
    exact h3.map (.applyAll _ _) (fun hn u hu => hn.part (by rw [hp]; exact hu))
      fun fs h4 h5 => ⟨.node fs, .struct hk h4, .seq h5, by simp [Form.leaves]⟩
  | structPanic => intro _ _ x e hg; cases hg
  | @tuple t ts v l errs v1 ht _ i =>
    intro hv hf x e hg
    obtain ⟨rfl, rfl⟩ := gives_ofPair hg
    have hp : S.tyParts t = ts := tupLike_parts ht
    obtain ⟨l', e', h1, h2, h3⟩ := i hv (fun t ht => hf.part (by rw [hp]; exact ht)) _ _ rfl
    rw [List.nil_append] at h1 h2
    subst h1 h2
    exact h3.map (.refl _) (fun hn u hu => hn.part (by rw [hp]; exact hu))
      fun fs h4 h5 => ⟨.node fs, .tuple (isTuple_of ht) h4, .seq h5, by simp [Form.leaves]⟩
  | tuplePanic => intro _ _ x e hg; cases hg
  | @enumSuccess k f fs i t sem v x v1 hk hi _ ih =>
    intro hv hf y e hg
    cases hg
    have hp : t ∈ S.tyParts (.user k) := by
      simp only [Schema.tyParts, hk]; exact List.mem_map.2 ⟨_, List.mem_of_getElem? hi, rfl⟩
    exact (ih hv (hf.part hp) _ _ (.success _)).wrap (.applyAll _ _) hp fun f h1 h2 =>
      ⟨.variant i f, .enum hk hi h1, .variant h2, by simp [Form.leaves]⟩
  | @enumRecovered k f fs i t sem v x e v1 hk hi _ ih =>
    intro hv hf y e hg
    cases hg
    have hp : t ∈ S.tyParts (.user k) := by
      simp only [Schema.tyParts, hk]; exact List.mem_map.2 ⟨_, List.mem_of_getElem? hi, rfl⟩
    exact (ih hv (hf.part hp) _ _ (.recovered _ _)).wrap (.applyAll _ _) hp fun f h1 h2 =>
      ⟨.variant i f, .enum hk hi h1, .variant h2, by simp [Form.leaves]⟩
  | enumPanic => intro _ _ x e hg; cases hg
  | enumNone => intro _ _ x e hg; cases hg
  | box _ i =>
    intro hv hf x e hg
    have hp : ∀ t, t ∈ S.tyParts (.box t) := by simp [Schema.tyParts]
    exact (i hv (hf.part (hp _)) x e hg).wrap (.refl _) (hp _) fun f h1 h2 => ⟨f, .box h1, h2, rfl⟩
  | @optNone t' t mk v ho =>
    intro hv _ x e hg
    cases hg
    cases ho with
    | option => exact .none (.refl _) .optNone .optNone (by simp [Form.leaves])
    | exist => exact .none (.refl _) .existNone .existNone (by simp [Form.leaves])
    | star => exact .none (.refl _) (.star (k := 0) .nil) (.list .nil) (by simp [Form.leaves, leavesAll])
  | @optSuccess t' t mk v x v1 ho h1 i =>
    intro hv hf y e hg
    cases hg
    cases ho with
    | option =>
      exact (i hv (hf.part (by simp [Schema.tyParts])) _ _ (.success _)).wrap (.refl _) (by simp [Schema.tyParts])
        fun f h1 h2 => ⟨.present f, .optSome h1, .optSome h2, by simp [Form.leaves]⟩
    | exist =>
      exact (i hv (hf.part (by simp [Schema.tyParts])) _ _ (.success _)).wrap (.refl _) (by simp [Schema.tyParts])
        fun f h1 h2 => ⟨.present f, .existSome h1, .existSome, by simp [Form.leaves]⟩
    | star =>
      unfold mkStar
      split
      · rename_i h
        cases h
        refine (i hv (hf.part (by simp [Schema.tyParts])) _ _ (.success _)).wrap (.refl _) (by simp [Schema.tyParts])
          fun f h1 h2 => ?_
        cases h2
        cases h1 with
        | tuple ht => simp [Ty.isTuple] at ht
        | plus h1 => exact ⟨_, .star h1, .list ‹_›, rfl⟩
      · exact .none h1.adv (.star (k := 0) .nil) (.list .nil) (by simp [Form.leaves, leavesAll])
  | @optRecovered t' t mk v x e v1 ho h1 i =>
    intro hv hf y e hg
    cases hg
    cases ho with
    | option =>
      exact (i hv (hf.part (by simp [Schema.tyParts])) _ _ (.recovered _ _)).wrap (.refl _) (by simp [Schema.tyParts])
        fun f h1 h2 => ⟨.present f, .optSome h1, .optSome h2, by simp [Form.leaves]⟩
    | exist =>
      exact (i hv (hf.part (by simp [Schema.tyParts])) _ _ (.recovered _ _)).wrap (.refl _) (by simp [Schema.tyParts])
        fun f h1 h2 => ⟨.present f, .existSome h1, .existSome, by simp [Form.leaves]⟩
    | star =>
      unfold mkStar
      split
      · rename_i h
        cases h
        refine (i hv (hf.part (by simp [Schema.tyParts])) _ _ (.recovered _ _)).wrap (.refl _)
          (by simp [Schema.tyParts]) fun f h1 h2 => ?_
        cases h2
        cases h1 with
        | tuple ht => simp [Ty.isTuple] at ht
        | plus h1 => exact ⟨_, .star h1, .list ‹_›, rfl⟩
      · exact .none h1.adv (.star (k := 0) .nil) (.list .nil) (by simp [Form.leaves, leavesAll])
  | optPanic ho h1 _ =>
    intro hv _ y e hg
    cases hg
    cases ho with
    | option => exact .none h1.adv .optNone .optNone (by simp [Form.leaves])
    | exist => exact .none h1.adv .existNone .existNone (by simp [Form.leaves])
    | star => exact .none h1.adv (.star (k := 0) .nil) (.list .nil) (by simp [Form.leaves, leavesAll])
  | textSuccess ho h1 _ i =>
    intro hv hf y e hg
    cases hg
    cases ho with
    | quote =>
      exact (i hv (hf.part (by simp [Schema.tyParts])) _ _ (.success _)).wrap (.refl _) (by simp [Schema.tyParts])
        fun f h1 h2 => ⟨f, .quote h1, .text, rfl⟩
    | parse =>
      exact (i hv (hf.part (by simp [Schema.tyParts])) _ _ (.success _)).wrap (.refl _) (by simp [Schema.tyParts])
        fun f h1 h2 => ⟨f, .parse h1, .text, rfl⟩
  | textRecovered ho h1 _ i =>
    intro hv hf y e hg
    cases hg
    cases ho with
    | quote =>
      exact (i hv (hf.part (by simp [Schema.tyParts])) _ _ (.recovered _ _)).wrap (.refl _) (by simp [Schema.tyParts])
        fun f h1 h2 => ⟨f, .quote h1, .text, rfl⟩
    | parse =>
      exact (i hv (hf.part (by simp [Schema.tyParts])) _ _ (.recovered _ _)).wrap (.refl _) (by simp [Schema.tyParts])
        fun f h1 h2 => ⟨f, .parse h1, .text, rfl⟩
  | textPanic => intro _ _ x e hg; cases hg
  | @plus t v r x e v1 l errs hi v' h1 hg _ i1 i2 =>
    intro hv hf y e' hg'
    obtain ⟨rfl, rfl⟩ := gives_ofPair hg'
    have hp : t ∈ S.tyParts (.plus t) := by simp [Schema.tyParts]
    obtain ⟨l', e2, h3, h4, h5⟩ := i2 (hv.adv h1.adv) (hf.part hp)
    rw [h3, h4]
    refine ((Fix.cons (i1 hv (hf.part hp) x e hg) h5).mono (k' := (e ++ e2).length) (by simp)).map (.refl _)
      (fun hn u hu => ?_) fun fs h6 h7 => ⟨.node fs, .plus (k := l'.length) h6, .list h7, by simp [Form.leaves]⟩
    have : u = t := by
      rcases List.mem_cons.1 hu with h | h
      · exact h
      · exact (List.mem_replicate.1 h).2
    subst this
    exact hn.part hp
  | plusPanic => intro _ _ x e hg; cases hg
  | iterStop => intro _ _; exact ⟨[], [], by simp, by simp, .nil (.refl _)⟩
  | iterGive _ h1 hg _ i1 i2 =>
    intro hv hf
    obtain ⟨l', e2, h3, h4, h5⟩ := i2 (hv.adv h1.adv) hf
    rw [List.append_assoc] at h4
    exact ⟨_ :: l', _, by simp [h3], h4, (Fix.cons (i1 hv hf _ _ hg) h5).mono (by simp)⟩
  | iterPanic h1 _ => intro _ _; exact ⟨[], _, by simp, rfl, .nil h1.adv⟩
  | loopEmpty h1 _ =>
    intro hv _ y e' hg'
    obtain ⟨rfl, rfl⟩ := gives_ofPair hg'
    exact .none h1.adv (.loop (k := 0) .nil) (.list .nil) (by simp [Form.leaves, leavesAll])
  | @loopList t v out errs v' h1 _ i =>
    intro hv hf y e' hg'
    obtain ⟨rfl, rfl⟩ := gives_ofPair hg'
    have hp : t ∈ S.tyParts (.loop t) := by simp [Schema.tyParts]
    obtain ⟨l', e2, h3, h4, h5⟩ := i hv (hf.part hp)
    rw [List.nil_append] at h3 h4
    subst h3 h4
    refine h5.map (.refl _) (fun hn u hu => ?_) fun fs h6 h7 =>
      ⟨.node fs, .loop (k := _) h6, .list h7, by simp [Form.leaves]⟩
    rw [(List.mem_replicate.1 hu).2]
    exact hn.part hp
  | loopStop => intro _ _; exact ⟨[], [], by simp, by simp, .nil (.refl _)⟩
  | loopSkip hs _ i =>
    intro hv hf
    obtain ⟨l', e2, h3, h4, h5⟩ := i (hv.adv hs.adv) hf
    rw [List.append_assoc] at h4
    exact ⟨l', _, h3, h4, (h5.before hs.adv).mono (by simp)⟩
  | loopGive h1 hg _ i1 i2 =>
    intro hv hf
    obtain ⟨l', e2, h3, h4, h5⟩ := i2 (hv.adv h1.adv) hf
    rw [List.append_assoc] at h4
    exact ⟨_ :: l', _, by simp [h3], h4, (Fix.cons (i1 hv hf _ _ hg) h5).mono (by simp)⟩
  | loopPanic h1 _ _ i2 =>
    intro hv hf
    obtain ⟨l', e2, h3, h4, h5⟩ := i2 (hv.adv h1.adv) hf
    rw [List.append_assoc] at h4
    exact ⟨l', _, h3, h4, (h5.before h1.adv).mono (by simp)⟩
  | loopGiveStuck h1 hg i =>
    intro hv hf
    exact ⟨[_], _, rfl, by rw [List.append_assoc], (i hv hf _ _ hg).mono (by simp)⟩
  | loopPanicStuck h1 _ => intro _ _; exact ⟨[], _, by simp, by rw [List.append_assoc], .nil h1.adv⟩
  | @split t p v r x e v1 a v' h1 hg _ i1 i2 =>
    intro hv hf y e' hg'
    obtain ⟨rfl, rfl⟩ := gives_ofPair hg'
    have hp : t ∈ S.tyParts (.split t p) := by simp [Schema.tyParts]
    have hq : p ∈ S.tyParts (.split t p) := by simp [Schema.tyParts]
    obtain ⟨es, ps, e2, h3, h4, h5, fs, gs, h6, h7, h8, h9, h10, h11⟩ := i2 (hv.adv h1.adv) (hf.part hp) (hf.part hq)
    obtain ⟨f, b1, b2, b3, b4⟩ := Fix.one <| i1 hv (hf.part hp) _ _ hg
    refine ⟨[.node (interleave (f :: fs) gs)], .cons (.split (k := fs.length) ?_) .nil,
      .cons (.split (fs' := f :: fs) ?_ (.inl rfl) ?_ (.inl ?_)) .nil, ?_, fun hn => ?_⟩
    · rw [interleave_cons, show 2 * fs.length + 1 = (gs.length + fs.length) + 1 by omega]
      exact .cons b1 h9
    · rw [h3]; exact .cons b2 h6
    · rw [h4]; exact h7
    · simp [h8]
    · rw [leavesAll_one, Form.leaves, interleave_cons]
      simp only [leavesAll, keptOf_append]
      exact b3.trans h10
    · rw [leavesAll_one, Form.leaves, interleave_cons]
      simp only [leavesAll, putsOf_append]
      have hn := hn (.split t p) (by simp)
      have := b4 (hn.part hp)
      have := h11 (hn.part hp) (hn.part hq)
      rw [h5]
      simp only [List.length_append]
      omega
  | splitPanic => intro _ _ x e hg; cases hg
  | outerStop => intro _ _ _; exact ⟨[], [], [], by simp, by simp, by simp, .nil (.refl _)⟩
  | outerPanic h1 _ => intro _ _ _; exact ⟨[], [], _, by simp, by simp, rfl, .nil h1.adv⟩
  | @outerGo t p v a r q e v1 a1 v2 a' v' _ h1 hg h2 _ i1 i2 i3 =>
    intro hv hf hf'
    have hv1 := hv.adv h1.adv
    obtain ⟨es, ps, e3, h3, h4, h5, h6⟩ := i3 (hv1.adv h2.adv) hf hf'
    obtain ⟨e2, g1, ⟨g2, g3⟩ | ⟨x, g2, g3, g4⟩⟩ := i2 hv1 hf
    · refine ⟨es, ps, e ++ e2 ++ e3, by rw [h3, g2], by rw [h4, g3], by rw [h5, g1]; simp, ?_⟩
      exact (h6.before (h1.adv.trans h2.adv)).mono (by simp; omega)
    · refine ⟨[x] ++ es, [q] ++ ps, e ++ e2 ++ e3, by rw [h3, g2, List.append_assoc],
        by rw [h4, g3, List.append_assoc], by rw [h5, g1]; simp, ?_⟩
      exact (Fix2.cons (i1 hv hf' _ _ hg) g4 h6).mono (by simp; omega)
  | @outerBreak t p v a r q e v1 a1 v2 _ h1 hg h2 i1 i2 =>
    intro hv hf hf'
    obtain ⟨e2, g1, ⟨g2, g3⟩ | ⟨x, g2, g3, g4⟩⟩ := i2 (hv.adv h1.adv) hf
    · exact ⟨[], [], e ++ e2, by simp [g2], by simp [g3], by rw [g1]; simp, .nil (h1.adv.trans h2.adv)⟩
    · exact ⟨[x], [_], e ++ e2, g2, g3, by rw [g1]; simp,
        (Fix2.cons (i1 hv hf' _ _ hg) g4 (.nil (k := 0) (.refl _))).mono (by simp)⟩
  | innerGive _ hg i =>
    intro hv hf
    exact ⟨_, by rw [List.append_assoc], .inr ⟨_, rfl, rfl, (i hv hf _ _ hg).mono (by simp)⟩⟩
  | innerFailLeave => intro _ _; exact ⟨_, rfl, .inl ⟨rfl, rfl⟩⟩
  | innerFailGo h1 _ _ i2 =>
    intro hv hf
    have ha := h1.adv.trans (.skip _)
    obtain ⟨e, g1, h | ⟨x, h6, h7, h8⟩⟩ := i2 (hv.adv ha) hf
    · exact ⟨e, g1, .inl h⟩
    · exact ⟨e, g1, .inr ⟨x, h6, h7, h8.before ha⟩⟩
  | innerNoteLeave => intro _ _; exact ⟨_, rfl, .inl ⟨rfl, rfl⟩⟩
  | innerNoteGo _ _ i =>
    intro hv hf
    obtain ⟨e, g1, h | ⟨x, h6, h7, h8⟩⟩ := i (hv.adv (.skip _)) hf
    · exact ⟨e, g1, .inl h⟩
    · exact ⟨e, g1, .inr ⟨x, h6, h7, h8.before (.skip _)⟩⟩
  | @punct t p v r x e v1 a v' h1 hg _ i1 i2 =>
    intro hv hf y e' hg'
    obtain ⟨rfl, rfl⟩ := gives_ofPair hg'
    have hp : t ∈ S.tyParts (.punct t p) := by simp [Schema.tyParts]
    have hq : p ∈ S.tyParts (.punct t p) := by simp [Schema.tyParts]
    obtain ⟨es, ps, h3, h4, fs', fs, gs, h6, hs, h7, h8, h9, h10⟩ := i2 (hv.adv h1.adv) (hf.part hp) (hf.part hq)
      (hf _ .refl _ _ (.inl rfl))
    obtain ⟨f, b1, b2, b3, b4⟩ := Fix.one <| i1 hv (hf.part hp) _ _ hg
    refine ⟨[.node (interleave (f :: fs) gs)], .cons (.punct (k := gs.length + fs.length) ?_) .nil,
      .cons (.split (fs' := f :: fs') ?_ (.inr ⟨trivial, hs.cons_cons f⟩) ?_ ?_) .nil, ?_, fun hn => ?_⟩
    · rw [interleave_cons]
      exact .cons b1 h9
    · rw [h3]; exact .cons b2 h6
    · rw [h4]; exact h7
    · simp only [List.length_cons]; omega
    · rw [leavesAll_one, Form.leaves, interleave_cons]
      simp only [leavesAll, keptOf_append]
      exact b3.trans h10
    · exact absurd rfl (hn _ (by simp) _ .refl t p).1
  | punctPanic => intro _ _ x e hg; cases hg
  | pouterStop => intro _ _ _ _; exact ⟨[], [], by simp, by simp, .nil (.refl _)⟩
  | pouterPanic h1 _ => intro _ _ _ _; exact ⟨[], [], by simp, by simp, .nil h1.adv⟩
  | @pouterGo t p v a r q e v1 a1 v2 a' v' _ h1 hg h2 _ i1 i2 i3 =>
    intro hv hf hf' hw
    have hv1 := hv.adv h1.adv
    obtain ⟨es, ps, h3, h4, h5⟩ := i3 (hv1.adv h2.adv) hf hf' hw
    obtain ⟨g3, g2 | ⟨x, k, g2, g4⟩⟩ := i2 hv1 hf
    · obtain ⟨f, w1, w2⟩ := hw
      exact ⟨es, [q] ++ ps, by rw [h3, g2], by rw [h4, g3, List.append_assoc],
        .fill (i1 hv hf' _ _ hg) w1 w2 h2.adv h5⟩
    · exact ⟨[x] ++ es, [q] ++ ps, by rw [h3, g2, List.append_assoc], by rw [h4, g3, List.append_assoc],
        .cons (i1 hv hf' _ _ hg) g4 h5⟩
  | @pouterBreak t p v a r q e v1 a1 v2 _ h1 hg h2 i1 i2 =>
    intro hv hf hf' hw
    obtain ⟨g3, g2 | ⟨x, k, g2, g4⟩⟩ := i2 (hv.adv h1.adv) hf
    · exact ⟨[], [_], by simp [g2], g3, .last (i1 hv hf' _ _ hg) h2.adv⟩
    · exact ⟨[x], [_], g2, g3, .cons (i1 hv hf' _ _ hg) g4 (.nil (.refl _))⟩
  | pinnerGive _ hg i => intro hv hf; exact ⟨rfl, .inr ⟨_, _, rfl, i hv hf _ _ hg⟩⟩
  | pinnerStop => intro _ _; exact ⟨rfl, .inl rfl⟩
  | pinnerFailLeave => intro _ _; exact ⟨rfl, .inl rfl⟩
  | pinnerFailGo h1 _ _ i2 =>
    intro hv hf
    have ha := h1.adv.trans (.skip _)
    obtain ⟨g3, g2 | ⟨x, k, g2, g4⟩⟩ := i2 (hv.adv ha) hf
    · exact ⟨g3, .inl g2⟩
    · exact ⟨g3, .inr ⟨x, k, g2, g4.before ha⟩⟩
  | pinnerNoteLeave => intro _ _; exact ⟨rfl, .inl rfl⟩
  | pinnerNoteGo _ _ i =>
    intro hv hf
    obtain ⟨g3, g2 | ⟨x, k, g2, g4⟩⟩ := i (hv.adv (.skip _)) hf
    · exact ⟨g3, .inl g2⟩
    · exact ⟨g3, .inr ⟨x, k, g2, g4.before (.skip _)⟩⟩
  | @recover t r v h v1 x errs panic v' h1 _ i1 i2 =>
    intro hv hf y e' hg'
    obtain ⟨rfl, rfl⟩ := gives_ofPair hg'
    have hp : t ∈ S.tyParts (.recover t r) := by simp [Schema.tyParts]
    have hq : r ∈ S.tyParts (.recover t r) := by simp [Schema.tyParts]
    have hno : ∀ k : Nat, ∀ w : List (Leaf n), (∀ u ∈ [Ty.recover t r], NoGaps S u) → putsOf w ≤ k :=
      fun _ _ hn => absurd rfl (hn _ (by simp) _ .refl t r).2
    obtain ⟨k2, hone⟩ := i2 (hv.adv h1.adv) (hf.part hq) x rfl
    obtain ⟨g, c1, c2, c3, c4⟩ := hone.one
    unfold mkRecover
    cases hh : h.head with
    | none =>
      obtain ⟨f, w1, w2⟩ := hf _ .refl _ _ (.inr rfl)
      refine ⟨[.node [f, g]], .cons (.recover (.cons w1 (.cons c1 .nil))) .nil, .cons (.recoverNone trivial c2) .nil,
        ?_, hno _ _⟩
      simp only [leavesAll, Form.leaves, keptOf_append, w2, List.append_nil, List.nil_append]
      exact c3.before h1.adv
    | some z =>
      obtain ⟨k1, hone⟩ := i1 hv (hf.part hp) z hh
      obtain ⟨f, b1, b2, b3, b4⟩ := hone.one
      refine ⟨[.node [f, g]], .cons (.recover (.cons b1 (.cons c1 .nil))) .nil, .cons (.recover b2 c2) .nil,
        ?_, hno _ _⟩
      simp only [leavesAll, Form.leaves, keptOf_append, List.append_nil]
      exact b3.trans c3
  | recoverPanic => intro _ _ x e hg; cases hg
  | headGive _ hg i => intro hv hf y hy; cases hy; exact ⟨_, i hv hf _ _ hg⟩
  | headPanic => intro _ _ y hy; cases hy
  | headNone => intro _ _ y hy; cases hy
  | tailGive _ hg i => intro hv hf y hy; cases hy; exact ⟨_, i hv hf _ _ hg⟩
  | tailPanic => intro _ _ y hy; cases hy
  | tailNote h => cases h
  | tailStop => intro _ _ y hy; cases hy
  | tailFail _ h1 _ _ _ i2 =>
    intro hv hf y hy
    have ha := h1.adv.trans (.skip _)
    obtain ⟨k, h2⟩ := i2 (hv.adv ha) hf y hy
    exact ⟨k, h2.before ha⟩
  | tailSkip _ _ _ i =>
    intro hv hf y hy
    obtain ⟨k, h2⟩ := i (hv.adv (.skip _)) hf y hy
    exact ⟨k, h2.before (.skip _)⟩

/-! ### Forms and matches -/

theorem HasAll.unleave {R : Token n → Leaf n → Prop} {gaps : Prop} {xs : List (Tree n)} : ∀ {l : List (Form n)},
    HasAll R gaps xs l → ∃ es ps fs gs, xs = interleave es ps ∧ l = interleave fs gs ∧ HasAll R gaps es fs ∧
      HasAll R gaps ps gs ∧ (fs.length = gs.length ∨ fs.length = gs.length + 1) ∧
      xs.length = es.length + ps.length := by
  induction xs with
  | nil =>
    intro l h
    cases h
    exact ⟨[], [], [], [], by simp [interleave], by simp [interleave], .nil, .nil, .inl rfl, rfl⟩
  | cons x xs ih =>
    intro l h
    cases h with
    | @cons _ _ f l h1 h2 =>
      obtain ⟨es, ps, fs, gs, rfl, rfl, h3, h4, h5, h6⟩ := ih h2
      refine ⟨x :: ps, es, f :: gs, fs, by rw [interleave_cons], by rw [interleave_cons], .cons h1 h4, h3, ?_, ?_⟩
      · simp only [List.length_cons]; omega
      · simp only [List.length_cons]; omega

theorem HasAll.interleave {R : Token n → Leaf n → Prop} {gaps : Prop} : ∀ (k : Nat) (es ps : List (Tree n))
    (l : List (Form n)), es.length + ps.length = k → (es.length = ps.length + 1 ∨ es.length = ps.length) →
    HasAll R gaps (Teleparse.interleave es ps) l →
    ∃ fs gs, l = Teleparse.interleave fs gs ∧ HasAll R gaps es fs ∧ HasAll R gaps ps gs := by
  intro k
  induction k with
  | zero =>
    intro es ps l hk _ h
    obtain ⟨rfl, rfl⟩ : es = [] ∧ ps = [] := by
      constructor <;> apply List.eq_nil_of_length_eq_zero <;> omega
    unfold Teleparse.interleave at h
    cases h
    exact ⟨[], [], by simp [Teleparse.interleave], .nil, .nil⟩
  | succ k ih =>
    intro es ps l hk hl h
    cases es with
    | nil => simp only [List.length_nil] at hk hl; omega
    | cons x es =>
      unfold Teleparse.interleave at h
      cases h with
      | @cons _ _ f fs h1 h2 =>
        simp only [List.length_cons] at hk hl
        obtain ⟨fs, gs, rfl, h4, h5⟩ := ih ps es _ (by omega) (by omega) h2
        exact ⟨f :: gs, fs, by rw [interleave_cons], .cons h1 h5, h4⟩

theorem Tree.Has.weaken {R : Token n → Leaf n → Prop} {x : Tree n} {f : Form n} (h : x.Has R False f) : x.Has R True f := by
  refine Tree.Has.rec (R := R) (gaps := False) (motive_1 := fun x f _ => x.Has R True f)
    (motive_2 := fun l fs _ => HasAll R True l fs) .tok (fun _ => .seq) (fun _ => .variant) .optNone (fun _ => .optSome)
    .existNone .existSome .text (fun _ => .list) ?_ (fun _ _ => .recover) (fun h => h.elim) .nil (fun _ _ => .cons) h
  intro sp es ps fs' fs gs _ h1 _ h2 h3 h4
  exact .split h3 (h1.imp id fun h => h.1.elim) h4 h2

theorem leaves_split {source' : Str} {f : Form n} {fs : List (Form n)} {l : List (Token n)}
    (h : (f.leaves ++ leavesAll fs).map (Leaf.word source) = l.map (·.word source')) :
    ∃ l1 l2, l = l1 ++ l2 ∧ f.leaves.map (Leaf.word source) = l1.map (·.word source') ∧
      (leavesAll fs).map (Leaf.word source) = l2.map (·.word source') := by
  rw [List.map_append] at h
  obtain ⟨l1, l2, rfl, h1, h2⟩ := List.map_eq_append_iff.1 h.symm
  exact ⟨l1, l2, rfl, h1.symm, h2.symm⟩

/-- Tokens with the words of a form match the type, and the tree has the form. -/
theorem FormOf.parses {t : Ty m n} {f : Form n} (h : FormOf S source t f) (source' : Str) :
    ∀ (l : List (Token n)) (pos : Nat), f.leaves.map (Leaf.word source) = l.map (·.word source') →
      ∃ c x, Parses S source' pos t c x ∧ c.map (·.token) = l ∧ x.Has (SameWord source source') False f := by
  have list : ∀ {R : Token n → Leaf n → Prop} {k : Nat} {t : Ty m n} {fs : List (Form n)} {cs : List (List (Cell n))}
      {xs : List (Tree n)} {pos : Nat}, FormsOf S source (List.replicate k t) fs →
      ParsesSeq S source' pos (List.replicate k t) cs xs → HasAll R False xs fs → (xs = [] ∧ cs = [] ∧ fs = []) ∨ 0 < k := by
    intro R k t fs cs xs pos h1 h2 h3
    cases k with
    | zero => cases h1; cases h2; exact .inl ⟨rfl, rfl, rfl⟩
    | succ k => exact .inr (by omega)
  refine FormOf.rec (S := S) (source := source)
    (motive_1 := fun t f _ => ∀ (l : List (Token n)) (pos : Nat),
      f.leaves.map (Leaf.word source) = l.map (·.word source') →
      ∃ c x, Parses S source' pos t c x ∧ c.map (·.token) = l ∧ x.Has (SameWord source source') False f)
    (motive_2 := fun ts fs _ => ∀ (l : List (Token n)) (pos : Nat),
      (leavesAll fs).map (Leaf.word source) = l.map (·.word source') →
      ∃ cs xs, ParsesSeq S source' pos ts cs xs ∧ cs.flatten.map (·.token) = l ∧
        HasAll (SameWord source source') False xs fs)
    ?term ?struct ?enum ?tuple ?box ?quote ?parse ?optNone ?optSome ?existNone ?existSome ?plus ?star ?loop ?split ?punct
    ?recover ?nil ?cons h
  case term =>
    intro i k l hk ts pos hl
    rw [Form.leaves, List.map_singleton] at hl
    cases ts with
    | nil => cases hl
    | cons t ts =>
      cases ts with
      | cons => simp at hl
      | nil =>
        have hl : l.word source = t.word source' := by simpa using hl
        exact ⟨_, _, .term (t := t) (by rw [hl] at hk; exact hk), rfl, .tok hl⟩
  case struct =>
    intro k f fs l hk hs ih ts pos hl
    obtain ⟨cs, xs, h1, h2, h3⟩ := ih ts pos (by rw [Form.leaves] at hl; exact hl)
    exact ⟨_, _, .struct hk h1, by rw [addAll_tokens cs _ (by rw [h1.lengths.1]; simp)]; exact h2, .seq h3⟩
  case enum =>
    intro k f fs i t sem x hk hi _ ih ts pos hl
    obtain ⟨c, y, h1, h2, h3⟩ := ih ts pos (by rw [Form.leaves] at hl; exact hl)
    exact ⟨_, _, .enum hk hi h1, by rw [add_tokens]; exact h2, .variant h3⟩
  case tuple =>
    intro t tys l ht _ ih ts pos hl
    obtain ⟨cs, xs, h1, h2, h3⟩ := ih ts pos (by rw [Form.leaves] at hl; exact hl)
    exact ⟨_, _, .tuple ht h1, h2, .seq h3⟩
  case box =>
    intro t x _ ih ts pos hl
    obtain ⟨c, y, h1, h2, h3⟩ := ih ts pos hl
    exact ⟨_, _, .box h1, h2, h3⟩
  case quote =>
    intro t x _ ih ts pos hl
    obtain ⟨c, y, h1, h2, h3⟩ := ih ts pos hl
    exact ⟨_, _, .quote h1, h2, .text⟩
  case parse =>
    intro t x _ ih ts pos hl
    obtain ⟨c, y, h1, h2, h3⟩ := ih ts pos hl
    exact ⟨_, _, .parse h1, h2, .text⟩
  case optNone =>
    intro t ts pos hl
    cases ts with
    | cons => cases hl
    | nil => exact ⟨_, _, .optNone, rfl, .optNone⟩
  case existNone =>
    intro t ts pos hl
    cases ts with
    | cons => cases hl
    | nil => exact ⟨_, _, .existNone, rfl, .existNone⟩
  case optSome =>
    intro t x _ ih ts pos hl
    obtain ⟨c, y, h1, h2, h3⟩ := ih ts pos (by rw [Form.leaves] at hl; exact hl)
    exact ⟨_, _, .optSome h1, h2, .optSome h3⟩
  case existSome =>
    intro t x _ ih ts pos hl
    obtain ⟨c, y, h1, h2, h3⟩ := ih ts pos (by rw [Form.leaves] at hl; exact hl)
    exact ⟨_, _, .existSome h1, h2, .existSome⟩
  case plus =>
    intro t l k _ ih ts pos hl
    obtain ⟨cs, xs, h1, h2, h3⟩ := ih ts pos (by rw [Form.leaves] at hl; exact hl)
    exact ⟨_, _, .plus h1, h2, .list h3⟩
  case star =>
    intro t l k hf ih ts pos hl
    obtain ⟨cs, xs, h1, h2, h3⟩ := ih ts pos (by rw [Form.leaves] at hl; exact hl)
    rcases list hf h1 h3 with ⟨rfl, rfl, rfl⟩ | hk
    · exact ⟨_, _, .starNone, h2, .list .nil⟩
    · obtain ⟨k, rfl⟩ : ∃ j, k = j + 1 := ⟨k - 1, by omega⟩
      exact ⟨_, _, .starSome h1, h2, .list h3⟩
  case loop =>
    intro t l k hf ih ts pos hl
    obtain ⟨cs, xs, h1, h2, h3⟩ := ih ts pos (by rw [Form.leaves] at hl; exact hl)
    rcases list hf h1 h3 with ⟨rfl, rfl, rfl⟩ | hk
    · exact ⟨_, _, .loopNone, h2, .list .nil⟩
    · obtain ⟨k, rfl⟩ : ∃ j, k = j + 1 := ⟨k - 1, by omega⟩
      exact ⟨_, _, .loopSome h1, h2, .list h3⟩
  case split =>
    intro t p l k hf ih ts pos hl
    obtain ⟨cs, xs, h1, h2, h3⟩ := ih ts pos (by rw [Form.leaves] at hl; exact hl)
    have hlen := h1.lengths.2
    obtain ⟨es, ps, fs, gs, rfl, rfl, h4, h5, h6, h7⟩ := h3.unleave
    have h8 := h4.length
    have h9 := h5.length
    rw [alternate_length] at hlen
    rw [show 2 * k + 1 = es.length + ps.length by omega] at h1
    exact ⟨_, _, .split (by omega) h1, h2, .split h4 (.inl rfl) h5 (by omega)⟩
  case punct =>
    intro t p l k hf ih ts pos hl
    obtain ⟨cs, xs, h1, h2, h3⟩ := ih ts pos (by rw [Form.leaves] at hl; exact hl)
    have hlen := h1.lengths.2
    obtain ⟨es, ps, fs, gs, rfl, rfl, h4, h5, h6, h7⟩ := h3.unleave
    have h8 := h4.length
    have h9 := h5.length
    rw [alternate_length] at hlen
    rw [show k + 1 = es.length + ps.length by omega] at h1
    refine ⟨_, _, .punct ?_ (by omega) h1, h2, .split h4 (.inl rfl) h5 (by omega)⟩
    intro he
    rw [he] at h8 hlen h7
    simp at h8 hlen h7
    subst h8
    simp at h6
    omega
  case recover =>
    intro t r l hf ih ts pos hl
    obtain ⟨cs, xs, h1, h2, h3⟩ := ih ts pos (by rw [Form.leaves] at hl; exact hl)
    cases h1 with
    | cons a1 a2 =>
      cases a2 with
      | cons a2 a3 =>
        cases a3
        cases h3 with
        | cons b1 b2 =>
          cases b2 with
          | cons b2 b3 =>
            cases b3
            exact ⟨_, _, .recover (.cons a1 (.cons a2 .nil)), h2, .recover b1 b2⟩
  case nil =>
    intro ts pos hl
    cases ts with
    | cons => cases hl
    | nil => exact ⟨[], [], .nil, rfl, .nil⟩
  case cons =>
    intro t tys x l _ _ ih1 ih2 ts pos hl
    rw [leavesAll] at hl
    obtain ⟨l1, l2, rfl, g1, g2⟩ := leaves_split hl
    obtain ⟨c, y, h1, rfl, h3⟩ := ih1 l1 pos g1
    obtain ⟨cs, ys, h4, rfl, h6⟩ := ih2 l2 (endOf pos c) g2
    exact ⟨c :: cs, y :: ys, .cons h1 h4, by simp, .cons h3 h6⟩

/-- A match is a form in which nothing was put in. -/
theorem Parses.form {pos : Nat} {t : Ty m n} {c : List (Cell n)} {x : Tree n} (h : Parses S source pos t c x) :
    Solid (c.map (·.token)) → ∃ f, FormOf S source t f ∧ x.Has StandsFor False f ∧
      f.leaves = (c.map (·.token)).map .kept := by
  refine Parses.rec (S := S) (source := source)
    (motive_1 := fun pos t c x _ => Solid (c.map (·.token)) → ∃ f, FormOf S source t f ∧ x.Has StandsFor False f ∧
      f.leaves = (c.map (·.token)).map .kept)
    (motive_2 := fun pos ts cs l _ => Solid (cs.flatten.map (·.token)) → ∃ fs, FormsOf S source ts fs ∧
      HasAll StandsFor False l fs ∧ leavesAll fs = (cs.flatten.map (·.token)).map .kept)
    ?term ?struct ?enum ?tuple ?box ?optNone ?optSome ?existNone ?existSome ?quote ?parse ?plus ?starNone
    ?starSome ?loopNone ?loopSome ?split ?punct ?recover ?nil ?cons h
  case term =>
    intro pos i k t hk hs
    exact ⟨.leaf (.kept t), .term hk, .tok ⟨rfl, hs t (by simp [Cell.ofToken])⟩, rfl⟩
  case struct =>
    intro pos k f fs cs l hk hs ih hso
    rw [addAll_tokens cs _ (by rw [hs.lengths.1]; simp)] at hso ⊢
    obtain ⟨fs, h1, h2, h3⟩ := ih hso
    exact ⟨.node fs, .struct hk h1, .seq h2, by rw [Form.leaves, h3]⟩
  case enum =>
    intro pos k f fs i t sem c x hk hi _ ih hso
    rw [add_tokens] at hso ⊢
    obtain ⟨f, h1, h2, h3⟩ := ih hso
    exact ⟨.variant i f, .enum hk hi h1, .variant h2, by rw [Form.leaves, h3]⟩
  case tuple =>
    intro pos t ts cs l ht hs ih hso
    obtain ⟨fs, h1, h2, h3⟩ := ih hso
    exact ⟨.node fs, .tuple ht h1, .seq h2, by rw [Form.leaves, h3]⟩
  case box =>
    intro pos t c x _ ih hso
    obtain ⟨f, h1, h2, h3⟩ := ih hso
    exact ⟨f, .box h1, h2, h3⟩
  case optNone => intro pos t _; exact ⟨.absent, .optNone, .optNone, rfl⟩
  case optSome =>
    intro pos t c x _ ih hso
    obtain ⟨f, h1, h2, h3⟩ := ih hso
    exact ⟨.present f, .optSome h1, .optSome h2, by rw [Form.leaves, h3]⟩
  case existNone => intro pos t _; exact ⟨.absent, .existNone, .existNone, rfl⟩
  case existSome =>
    intro pos t c x _ ih hso
    obtain ⟨f, h1, h2, h3⟩ := ih hso
    exact ⟨.present f, .existSome h1, .existSome, by rw [Form.leaves, h3]⟩
  case quote =>
    intro pos t c x _ ih hso
    obtain ⟨f, h1, h2, h3⟩ := ih hso
    exact ⟨f, .quote h1, .text, h3⟩
  case parse =>
    intro pos t c x _ ih hso
    obtain ⟨f, h1, h2, h3⟩ := ih hso
    exact ⟨f, .parse h1, .text, h3⟩
  case plus =>
    intro pos t k cs l _ ih hso
    obtain ⟨fs, h1, h2, h3⟩ := ih hso
    exact ⟨.node fs, .plus h1, .list h2, by rw [Form.leaves, h3]⟩
  case starNone => intro pos t _; exact ⟨.node [], .star (k := 0) .nil, .list .nil, rfl⟩
  case starSome =>
    intro pos t k cs l _ ih hso
    obtain ⟨fs, h1, h2, h3⟩ := ih hso
    exact ⟨.node fs, .star h1, .list h2, by rw [Form.leaves, h3]⟩
  case loopNone => intro pos t _; exact ⟨.node [], .loop (k := 0) .nil, .list .nil, rfl⟩
  case loopSome =>
    intro pos t k cs l _ ih hso
    obtain ⟨fs, h1, h2, h3⟩ := ih hso
    exact ⟨.node fs, .loop h1, .list h2, by rw [Form.leaves, h3]⟩
  case split =>
    intro pos t p cs es ps hl _ ih hso
    obtain ⟨fs, h1, h2, h3⟩ := ih hso
    obtain ⟨fs, gs, rfl, h6, h7⟩ := HasAll.interleave _ es ps _ rfl (.inl hl) h2
    exact ⟨_, .split (k := ps.length) (by rw [show 2 * ps.length + 1 = es.length + ps.length by omega]; exact h1),
      .split h6 (.inl rfl) h7 (.inl (by rw [h6.length, h7.length, hl])), by rw [Form.leaves, h3]⟩
  case punct =>
    intro pos t p cs es ps hne hl _ ih hso
    obtain ⟨fs, h1, h2, h3⟩ := ih hso
    obtain ⟨fs, gs, rfl, h6, h7⟩ := HasAll.interleave _ es ps _ rfl hl h2
    have : es.length ≠ 0 := fun h => hne (List.eq_nil_of_length_eq_zero h)
    exact ⟨_, .punct (k := es.length + ps.length - 1)
      (by rw [show es.length + ps.length - 1 + 1 = es.length + ps.length by omega]; exact h1),
      .split h6 (.inl rfl) h7 (by rw [h6.length, h7.length]; exact hl), by rw [Form.leaves, h3]⟩
  case recover =>
    intro pos t r cs x y _ ih hso
    obtain ⟨fs, h1, h2, h3⟩ := ih hso
    cases h2 with
    | cons b1 b2 =>
      cases b2 with
      | cons b2 b3 =>
        cases b3
        exact ⟨_, .recover h1, .recover b1 b2, by rw [Form.leaves, h3]⟩
  case nil => intro pos _; exact ⟨[], .nil, .nil, rfl⟩
  case cons =>
    intro pos t ts c cs x xs _ _ ih1 ih2 hso
    rw [List.flatten_cons, List.map_append] at hso ⊢
    obtain ⟨f, h1, h2, h3⟩ := ih1 fun a ha => hso a (List.mem_append_left _ ha)
    obtain ⟨fs, h4, h5, h6⟩ := ih2 fun a ha => hso a (List.mem_append_right _ ha)
    exact ⟨f :: fs, .cons h1 h4, .cons h2 h5, by rw [leavesAll, h3, h6, List.map_append]⟩

/-! ### Words for what is missing -/

theorem textOf_here (a s b : Str) : textOf (a ++ s ++ b) ⟨a.length, a.length + s.length⟩ = s := by
  simp [textOf]

/-- There is a text with these words. -/
theorem exists_text (ws : List (TokenSrc n)) : ∀ a : Str, ∃ (b : Str) (l : List (Token n)),
    ∀ b', l.map (·.word (a ++ b ++ b')) = ws := by
  induction ws with
  | nil => intro a; exact ⟨[], [], fun _ => rfl⟩
  | cons w ws ih =>
    intro a
    obtain ⟨b, l, h⟩ := ih (a ++ w.src)
    refine ⟨w.src ++ b, ⟨⟨a.length, a.length + w.src.length⟩, w.ty⟩ :: l, fun b' => ?_⟩
    have e : a ++ (w.src ++ b) ++ b' = a ++ w.src ++ (b ++ b') := by simp
    have e' : a ++ (w.src ++ b) ++ b' = a ++ w.src ++ b ++ b' := by simp
    rw [List.map_cons, e']
    refine List.cons_eq_cons.2 ⟨?_, h b'⟩
    rw [← e', e]
    show (⟨w.ty, _⟩ : TokenSrc n) = w
    rw [textOf_here]

/-- A match in some text is a form of words that are put in. -/
theorem Parses.fill {source' : Str} {pos : Nat} {t : Ty m n} {c : List (Cell n)} {x : Tree n}
    (h : Parses S source' pos t c x) : ∃ f, FormOf S source t f ∧ keptOf f.leaves = [] := by
  refine Parses.rec (S := S) (source := source')
    (motive_1 := fun pos t c x _ => ∃ f, FormOf S source t f ∧ keptOf f.leaves = [])
    (motive_2 := fun pos ts cs l _ => ∃ fs, FormsOf S source ts fs ∧ keptOf (leavesAll fs) = [])
    ?term ?struct ?enum ?tuple ?box ?optNone ?optSome ?existNone ?existSome ?quote ?parse ?plus ?starNone
    ?starSome ?loopNone ?loopSome ?split ?punct ?recover ?nil ?cons h
  case term => intro pos i k t hk; exact ⟨.leaf (.put ⟨t.ty, textOf source' t.span⟩), .term hk, rfl⟩
  case struct =>
    rintro pos k f fs cs l hk - ⟨fs, h1, h2⟩
    exact ⟨.node fs, .struct hk h1, by rw [Form.leaves, h2]⟩
  case enum =>
    rintro pos k f fs i t sem c x hk hi - ⟨f, h1, h2⟩
    exact ⟨.variant i f, .enum hk hi h1, by rw [Form.leaves, h2]⟩
  case tuple =>
    rintro pos t ts cs l ht - ⟨fs, h1, h2⟩
    exact ⟨.node fs, .tuple ht h1, by rw [Form.leaves, h2]⟩
  case box => rintro pos t c x - ⟨f, h1, h2⟩; exact ⟨f, .box h1, h2⟩
  case optNone => intro pos t; exact ⟨.absent, .optNone, rfl⟩
  case optSome => rintro pos t c x - ⟨f, h1, h2⟩; exact ⟨.present f, .optSome h1, by rw [Form.leaves, h2]⟩
  case existNone => intro pos t; exact ⟨.absent, .existNone, rfl⟩
  case existSome => rintro pos t c x - ⟨f, h1, h2⟩; exact ⟨.present f, .existSome h1, by rw [Form.leaves, h2]⟩
  case quote => rintro pos t c x - ⟨f, h1, h2⟩; exact ⟨f, .quote h1, h2⟩
  case parse => rintro pos t c x - ⟨f, h1, h2⟩; exact ⟨f, .parse h1, h2⟩
  case plus => rintro pos t k cs l - ⟨fs, h1, h2⟩; exact ⟨.node fs, .plus h1, by rw [Form.leaves, h2]⟩
  case starNone => intro pos t; exact ⟨.node [], .star (k := 0) .nil, rfl⟩
  case starSome => rintro pos t k cs l - ⟨fs, h1, h2⟩; exact ⟨.node fs, .star h1, by rw [Form.leaves, h2]⟩
  case loopNone => intro pos t; exact ⟨.node [], .loop (k := 0) .nil, rfl⟩
  case loopSome => rintro pos t k cs l - ⟨fs, h1, h2⟩; exact ⟨.node fs, .loop h1, by rw [Form.leaves, h2]⟩
  case split =>
    rintro pos t p cs es ps hl - ⟨fs, h1, h2⟩
    exact ⟨.node fs, .split (k := ps.length)
      (by rw [show 2 * ps.length + 1 = es.length + ps.length by omega]; exact h1), by rw [Form.leaves, h2]⟩
  case punct =>
    rintro pos t p cs es ps hne hl - ⟨fs, h1, h2⟩
    have : es.length ≠ 0 := fun h => hne (List.eq_nil_of_length_eq_zero h)
    exact ⟨.node fs, .punct (k := es.length + ps.length - 1)
      (by rw [show es.length + ps.length - 1 + 1 = es.length + ps.length by omega]; exact h1),
      by rw [Form.leaves, h2]⟩
  case recover => rintro pos t r cs x y - ⟨fs, h1, h2⟩; exact ⟨.node fs, .recover h1, by rw [Form.leaves, h2]⟩
  case nil => intro pos; exact ⟨[], .nil, rfl⟩
  case cons =>
    rintro pos t ts c cs x xs - - ⟨f, h1, h2⟩ ⟨fs, h3, h4⟩
    exact ⟨f :: fs, .cons h1 h3, by rw [leavesAll, keptOf_append, h2, h4]; rfl⟩

/-- Types of productive symbols can be filled in. -/
theorem fill_of_der {root : Ty m n} {G : Grammar (PId m n) n} (hG : S.IsGrammar root G) {t : Ty m n}
    (hp : PReach S root t.pid) (h : Productive G t.pid) : ∃ f, FormOf S source t f ∧ keptOf f.leaves = [] := by
  obtain ⟨w, hw⟩ := h
  obtain ⟨b, l, hl⟩ := exists_text w []
  obtain ⟨c, x, h1, -⟩ := Der.matches (source := [] ++ b ++ []) hG hp hw l 0 (hl [])
  exact h1.fill

end Teleparse

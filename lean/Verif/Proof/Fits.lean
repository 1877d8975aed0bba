import Verif.Spec.Parses
import Verif.Props.TokenStore
import Verif.Proof.Good
/-
Facts about `Parses`: spans of trees, and which tokens lie in them.
-/
namespace Teleparse
variable {m n : Nat}

/-- Sorted tokens after a position. -/
structure After (pos : Nat) (c : List (Cell n)) : Prop where
  sorted : SortedStore c
  ge : ∀ d ∈ c, pos ≤ d.token.span.lo

theorem endOf_nil (pos : Nat) : endOf pos ([] : List (Cell n)) = pos := rfl

theorem endOf_append (pos : Nat) (a b : List (Cell n)) : endOf pos (a ++ b) = endOf (endOf pos a) b := by
  unfold endOf
  rw [List.getLast?_append]
  cases b.getLast? <;> simp

theorem endOf_congr {a b : List (Cell n)} (h : a.map (·.token) = b.map (·.token)) (pos : Nat) :
    endOf pos a = endOf pos b := by
  have : ∀ l : List (Cell n), endOf pos l = ((l.map (·.token)).getLast?.map (·.span.hi)).getD pos := by
    intro l; unfold endOf; rw [List.getLast?_map]; simp [Function.comp_def]
  rw [this, this, h]

theorem After.congr {a b : List (Cell n)} {pos : Nat} (ha : After pos a)
    (h : a.map (·.token) = b.map (·.token)) : After pos b := by
  refine ⟨by unfold SortedStore; rw [← h]; exact ha.sorted, ?_⟩
  intro d hd
  have : d.token ∈ a.map (·.token) := by rw [h]; exact List.mem_map_of_mem hd
  obtain ⟨d', h1, h2⟩ := List.mem_map.1 this
  rw [← h2]; exact ha.ge d' h1

theorem After.left {pos : Nat} {a b : List (Cell n)} (h : After pos (a ++ b)) : After pos a := by
  obtain ⟨⟨h1, h2⟩, h3⟩ := h
  rw [List.map_append] at h1 h2
  exact ⟨⟨fun t ht => h1 t (List.mem_append_left _ ht), (List.pairwise_append.1 h2).1⟩,
    fun d hd => h3 d (List.mem_append_left _ hd)⟩

theorem endOf_mem {pos : Nat} {c : List (Cell n)} (h : c ≠ []) : ∃ d ∈ c, endOf pos c = d.token.span.hi := by
  unfold endOf
  cases hc : c.getLast? with
  | none => exact absurd (List.getLast?_eq_none_iff.1 hc) h
  | some d => exact ⟨d, List.mem_of_getLast? hc, rfl⟩

theorem After.right {pos : Nat} {a b : List (Cell n)} (h : After pos (a ++ b)) : After (endOf pos a) b := by
  obtain ⟨⟨h1, h2⟩, h3⟩ := h
  rw [List.map_append] at h1 h2
  refine ⟨⟨fun t ht => h1 t (List.mem_append_right _ ht), (List.pairwise_append.1 h2).2.1⟩, ?_⟩
  intro d hd
  by_cases ha : a = []
  · subst ha; exact h3 d hd
  · obtain ⟨e, he, heq⟩ := endOf_mem (pos := pos) ha
    rw [heq]
    exact (List.pairwise_append.1 h2).2.2 _ (List.mem_map_of_mem he) _ (List.mem_map_of_mem hd)

theorem After.mem_le {pos : Nat} {c : List (Cell n)} (h : After pos c) {d : Cell n} (hd : d ∈ c) :
    d.token.span.hi ≤ endOf pos c := by
  induction c generalizing pos with
  | nil => cases hd
  | cons a c ih =>
    have hr : After (endOf pos [a]) c := After.right (a := [a]) h
    have e : endOf pos (a :: c) = endOf (endOf pos [a]) c := endOf_append pos [a] c
    rw [e]
    rcases List.mem_cons.1 hd with rfl | hd
    · by_cases hc : c = []
      · subst hc; exact Nat.le_refl _
      · obtain ⟨f, hf, hfe⟩ := endOf_mem (pos := endOf pos [d]) hc
        rw [hfe]
        have h1 : d.token.span.hi ≤ f.token.span.lo := hr.ge f hf
        have h2 := hr.sorted.1 _ (List.mem_map_of_mem hf)
        omega
    · exact ih hr hd

theorem After.end_ge {pos : Nat} {c : List (Cell n)} (h : After pos c) : pos ≤ endOf pos c := by
  by_cases hc : c = []
  · subst hc; exact Nat.le_refl _
  · obtain ⟨d, hd, he⟩ := endOf_mem (pos := pos) hc
    have h1 := h.ge d hd
    have h2 := h.sorted.1 _ (List.mem_map_of_mem hd)
    omega

/-- The span starts not before `pos`, not after the first token, and ends with the last token. -/
structure Fits (pos : Nat) (c : List (Cell n)) (sp : Span) : Prop where
  ge : pos ≤ sp.lo
  hi : sp.hi = endOf pos c
  le : ∀ d ∈ c, sp.lo ≤ d.token.span.lo
  nil : c = [] → sp.lo = pos

theorem Fits.congr {pos : Nat} {a b : List (Cell n)} {sp : Span} (h : Fits pos a sp)
    (hab : a.map (·.token) = b.map (·.token)) : Fits pos b sp := by
  refine ⟨h.ge, by rw [h.hi, endOf_congr hab], ?_, ?_⟩
  · intro d hd
    have : d.token ∈ a.map (·.token) := by rw [hab]; exact List.mem_map_of_mem hd
    obtain ⟨d', h1, h2⟩ := List.mem_map.1 this
    rw [← h2]; exact h.le d' h1
  · rintro rfl
    exact h.nil (by simpa using hab)

theorem Fits.lo_le {pos : Nat} {c : List (Cell n)} {sp : Span} (h : Fits pos c sp) (ha : After pos c) :
    sp.lo ≤ sp.hi := by
  by_cases hc : c = []
  · rw [h.hi, h.nil hc, hc]; exact Nat.le_refl _
  · obtain ⟨d, hd, he⟩ := endOf_mem (pos := pos) hc
    have h1 := h.le d hd
    have h2 := ha.sorted.1 _ (List.mem_map_of_mem hd)
    rw [h.hi, he]; omega

inductive FitsSeq : Nat → List (List (Cell n)) → List (Tree n) → Prop
  | nil {pos} : FitsSeq pos [] []
  | cons {pos c cs x xs} : Fits pos c x.span → FitsSeq (endOf pos c) cs xs → FitsSeq pos (c :: cs) (x :: xs)

theorem FitsSeq.length {pos : Nat} {cs : List (List (Cell n))} {l : List (Tree n)} (h : FitsSeq pos cs l) :
    cs.length = l.length := by
  induction h with
  | nil => rfl
  | cons _ _ ih => simp [ih]

theorem spanOf_one (x : Tree n) : spanOf [x] = x.span := rfl

theorem spanOf_cons (x : Tree n) {l : List (Tree n)} (h : l ≠ []) :
    spanOf (x :: l) = ⟨x.span.lo, (spanOf l).hi⟩ := by
  cases l with
  | nil => exact absurd rfl h
  | cons y l => simp [spanOf]

theorem FitsSeq.spanOf {pos : Nat} {cs : List (List (Cell n))} {l : List (Tree n)} (h : FitsSeq pos cs l)
    (hl : l ≠ []) (ha : After pos cs.flatten) : Fits pos cs.flatten (Teleparse.spanOf l) := by
  induction h with
  | nil => exact absurd rfl hl
  | @cons pos c cs x xs h1 h2 ih =>
    rw [List.flatten_cons] at ha ⊢
    by_cases hx : xs = []
    · subst hx
      cases h2
      simpa [spanOf_one] using h1
    · have ih := ih hx ha.right
      rw [spanOf_cons x hx]
      refine ⟨h1.ge, ?_, ?_, ?_⟩
      · simp only; rw [ih.hi, endOf_append]
      · intro d hd
        rcases List.mem_append.1 hd with hd | hd
        · exact h1.le d hd
        · have := ha.right.ge d hd
          have h3 := h1.lo_le ha.left
          rw [h1.hi] at h3
          simp only; omega
      · intro he
        exact h1.nil (by simp at he; exact he.1)

theorem FitsSeq.mem_le {pos : Nat} {cs : List (List (Cell n))} {l : List (Tree n)} (h : FitsSeq pos cs l)
    (ha : After pos cs.flatten) {x : Tree n} (hx : x ∈ l) : x.span.hi ≤ endOf pos cs.flatten := by
  induction h with
  | nil => cases hx
  | @cons pos c cs y xs h1 h2 ih =>
    rw [List.flatten_cons] at ha ⊢
    rw [endOf_append]
    rcases List.mem_cons.1 hx with rfl | hx
    · rw [h1.hi]; exact ha.right.end_ge
    · exact ih ha.right hx

theorem add_tokens (sem : Option (LSet n)) (c : List (Cell n)) :
    (c.map (Cell.add sem)).map (·.token) = c.map (·.token) := by
  rw [List.map_map]
  apply List.map_congr_left
  intro d _
  cases sem <;> rfl

theorem addAll_tokens : ∀ (cs : List (List (Cell n))) (sems : List (Option (LSet n))),
    cs.length = sems.length → (addAll cs sems).map (·.token) = cs.flatten.map (·.token) := by
  intro cs
  induction cs with
  | nil => intro sems _; rfl
  | cons c cs ih =>
    intro sems h
    cases sems with
    | nil => cases h
    | cons s sems =>
      simp only [addAll, List.flatten_cons, List.map_append]
      rw [ih sems (by simpa using h), add_tokens]

theorem ParsesSeq.lengths {S : Schema m n} {source : Str} {pos : Nat} {ts : List (Ty m n)}
    {cs : List (List (Cell n))} {l : List (Tree n)} (h : ParsesSeq S source pos ts cs l) :
    cs.length = ts.length ∧ l.length = ts.length := by
  induction ts generalizing pos cs l with
  | nil => cases h; exact ⟨rfl, rfl⟩
  | cons t ts ih =>
    cases h with
    | cons _ h2 =>
      obtain ⟨h3, h4⟩ := ih h2
      simp [h3, h4]

theorem interleave_length {α : Type} : ∀ (a b : List α), a.length = b.length + 1 ∨ a.length = b.length →
    (interleave a b).length = a.length + b.length := by
  intro a b
  induction a, b using interleave.induct with
  | case1 b => intro h; simp at h; simp [interleave, h]
  | case2 b x a ih =>
    intro h
    rw [interleave]
    simp only [List.length_cons] at h ⊢
    rw [ih (by omega)]
    omega

theorem alternate_length {α : Type} (a b : α) (k : Nat) : (alternate a b k).length = k := by
  induction k generalizing a b with
  | zero => rfl
  | succ k ih => simp [alternate, ih]

theorem interleave_ne {α : Type} {a b : List α} (h : a ≠ []) : interleave a b ≠ [] := by
  cases a with
  | nil => exact absurd rfl h
  | cons x a => rw [interleave]; simp

/-- Spans of matching trees. -/
theorem Parses.fits {S : Schema m n} {source : Str} {pos : Nat} {t : Ty m n} {c : List (Cell n)} {x : Tree n}
    (h : Parses S source pos t c x) : After pos c → Fits pos c x.span := by
  refine Parses.rec (S := S) (source := source)
    (motive_1 := fun pos t c x _ => After pos c → Fits pos c x.span)
    (motive_2 := fun pos ts cs l _ => After pos cs.flatten → FitsSeq pos cs l)
    ?term ?struct ?enum ?tuple ?box ?optNone ?optSome ?existNone ?existSome ?quote ?parse ?plus ?starNone
    ?starSome ?loopNone ?loopSome ?split ?punct ?recover ?nil ?cons h
  case term =>
    intro pos i k t _ ha
    refine ⟨ha.ge _ (List.mem_singleton.2 rfl), rfl, ?_, by simp⟩
    intro d hd
    rw [List.mem_singleton.1 hd]
    exact Nat.le_refl _
  case struct =>
    intro pos k f fs cs l hk hs ih ha
    have hlen := hs.lengths
    have ht := addAll_tokens cs ((f :: fs).map (·.2)) (by rw [hlen.1]; simp)
    have ha' := ha.congr ht
    exact ((ih ha').spanOf (by intro hl; simp [hl] at hlen) ha').congr ht.symm
  case enum =>
    intro pos k f fs i t sem c x hk hi _ ih ha
    have ht := add_tokens sem c
    exact (ih (ha.congr ht)).congr ht.symm
  case tuple =>
    intro pos t ts cs l ht hs ih ha
    have hlen := hs.lengths
    refine (ih ha).spanOf ?_ ha
    rintro rfl
    rcases ht with ⟨_, _, _, rfl⟩ | ⟨_, _, _, _, rfl⟩ | ⟨_, _, _, _, _, rfl⟩ | ⟨_, _, _, _, _, _, rfl⟩ <;>
      simp at hlen
  case box => intro pos t c x _ ih ha; exact ih ha
  case optNone => intro pos t ha; exact ⟨Nat.le_refl _, rfl, by simp, fun _ => rfl⟩
  case optSome => intro pos t c x _ ih ha; exact ih ha
  case existNone => intro pos t ha; exact ⟨Nat.le_refl _, rfl, by simp, fun _ => rfl⟩
  case existSome => intro pos t c x _ ih ha; exact ih ha
  case quote => intro pos t c x _ ih ha; exact ih ha
  case parse => intro pos t c x _ ih ha; exact ih ha
  case plus =>
    intro pos t k cs l hs ih ha
    have hlen := hs.lengths
    exact (ih ha).spanOf (by rintro rfl; simp at hlen) ha
  case starNone => intro pos t ha; exact ⟨Nat.le_refl _, rfl, by simp, fun _ => rfl⟩
  case starSome =>
    intro pos t k cs l hs ih ha
    have hlen := hs.lengths
    exact (ih ha).spanOf (by rintro rfl; simp at hlen) ha
  case loopNone => intro pos t ha; exact ⟨Nat.le_refl _, rfl, by simp, fun _ => rfl⟩
  case loopSome =>
    intro pos t k cs l hs ih ha
    have hlen := hs.lengths
    exact (ih ha).spanOf (by rintro rfl; simp at hlen) ha
  case split =>
    intro pos t p cs es ps hl hs ih ha
    exact (ih ha).spanOf (interleave_ne (by rintro rfl; simp at hl)) ha
  case punct =>
    intro pos t p cs es ps he hl hs ih ha
    exact (ih ha).spanOf (interleave_ne he) ha
  case recover =>
    intro pos t r cs x y hs ih ha
    exact (ih ha).spanOf (by simp) ha
  case nil => intro pos _; exact .nil
  case cons =>
    intro pos t ts c cs x xs _ _ i1 i2 ha
    rw [List.flatten_cons] at ha
    exact .cons (i1 ha.left) (i2 ha.right)

theorem ParsesSeq.fits {S : Schema m n} {source : Str} {pos : Nat} {ts : List (Ty m n)}
    {cs : List (List (Cell n))} {l : List (Tree n)} (h : ParsesSeq S source pos ts cs l)
    (ha : After pos cs.flatten) : FitsSeq pos cs l := by
  induction ts generalizing pos cs l with
  | nil => cases h; exact .nil
  | cons t ts ih =>
    cases h with
    | cons h1 h2 =>
      rw [List.flatten_cons] at ha
      exact .cons (h1.fits ha.left) (ih h2 ha.right)

/-! ### Semantic types -/

theorem apply_group {pre c post : List (Cell n)} (hs : SortedStore (pre ++ c ++ post)) {pos : Nat} {sp : Span}
    (hpos : endOf 0 pre = pos) (hf : Fits pos c sp) (s : LSet n) :
    TokenVec.applySemanticInside (pre ++ c ++ post) sp s = pre ++ c.map (Cell.add (some s)) ++ post := by
  have ha : After 0 (pre ++ c ++ post) := ⟨hs, fun d _ => Nat.zero_le _⟩
  have hc : After pos c := by rw [← hpos]; exact (After.right ha.left)
  have hp : After (endOf pos c) post := by
    have := ha.right; rw [endOf_append, hpos] at this; exact this
  have hpre : ∀ d ∈ pre, d.token.span.hi ≤ pos := by
    intro d hd; rw [← hpos]; exact ha.left.left.mem_le hd
  rw [C14_apply hs, List.map_append, List.map_append]
  congr 1
  · congr 1
    · conv => rhs; rw [← List.map_id pre]
      apply List.map_congr_left
      intro d hd
      unfold addIfInside
      rw [if_neg]; rfl
      intro hin
      have h1 := hpre d hd
      have h2 := ha.left.left.sorted.1 _ (List.mem_map_of_mem hd)
      have h3 := hf.ge
      have h4 := hin.1
      omega
    · apply List.map_congr_left
      intro d hd
      unfold addIfInside
      rw [if_pos]; rfl
      exact ⟨hf.le d hd, by rw [hf.hi]; exact hc.mem_le hd⟩
  · conv => rhs; rw [← List.map_id post]
    apply List.map_congr_left
    intro d hd
    unfold addIfInside
    rw [if_neg]; rfl
    intro hin
    have h1 := hp.ge d hd
    have h2 := hp.sorted.1 _ (List.mem_map_of_mem hd)
    have h3 := hin.2
    rw [hf.hi] at h3
    omega

theorem applyAll_groups {l : List (Tree n)} : ∀ {cs : List (List (Cell n))} {sems : List (Option (LSet n))}
    {pre : List (Cell n)} {pos : Nat} {v : View n}, v.cells = pre ++ cs.flatten → SortedStore v.cells →
    endOf 0 pre = pos → FitsSeq pos cs l → cs.length = sems.length →
    v.applyAll (l.zip sems) = { v with cells := pre ++ addAll cs sems } := by
  induction l with
  | nil =>
    intro cs sems pre pos v hv hs hpos hf hlen
    cases hf
    cases sems with
    | nil => simp only [List.zip_nil_left, View.applyAll]; rw [show pre ++ addAll [] [] = v.cells by simp [hv, addAll]]
    | cons => cases hlen
  | cons x l ih =>
    intro cs sems pre pos v hv hs hpos hf hlen
    cases hf with
    | @cons _ c cs _ _ h1 h2 =>
      cases sems with
      | nil => cases hlen
      | cons sem sems =>
        have hlen' : cs.length = sems.length := by simpa using hlen
        rw [List.flatten_cons] at hv
        cases sem with
        | none =>
          simp only [List.zip_cons_cons, View.applyAll, addAll]
          rw [ih (pre := pre ++ c) (pos := endOf pos c) (by rw [hv]; simp) hs
            (by rw [endOf_append, hpos]) h2 hlen']
          have : c.map (Cell.add none) = c := by
            conv => rhs; rw [← List.map_id c]
            apply List.map_congr_left; intro d _; rfl
          rw [this, List.append_assoc]
        | some s =>
          simp only [List.zip_cons_cons, View.applyAll, addAll]
          have hap : (v.apply x.span s).cells = pre ++ c.map (Cell.add (some s)) ++ cs.flatten := by
            unfold View.apply
            simp only
            rw [hv, ← List.append_assoc]
            exact apply_group (by rw [List.append_assoc, ← hv]; exact hs) hpos h1 s
          rw [ih (pre := pre ++ c.map (Cell.add (some s))) (pos := endOf pos c) hap
            (by unfold SortedStore; unfold View.apply; simp only; rw [apply_tokens]; exact hs)
            (by rw [endOf_append, hpos, endOf_congr (add_tokens (some s) c)]) h2 hlen']
          rw [List.append_assoc]
          rfl

end Teleparse

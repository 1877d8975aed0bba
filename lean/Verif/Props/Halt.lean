import Verif.Proof.Halt
import Verif.Props.Cost
import Verif.Props.Depth
import Verif.Props.Exact
import Verif.Props.Safety
/-
Property C131: whether parsing returns can be found out.
-/
namespace Teleparse
variable {m n : Nat}

/-- Rounds of a loop and calls inside of each other to wait for, when there are `tokens` tokens left. -/
def Schema.patience (S : Schema m n) (t : Ty m n) (tokens : Nat) : Nat :=
  (CostRun.perToken S t + (S.written t).length + 1) * (tokens + 1)

/-- Producing a type returns if and only if it does with no more than `patience` calls inside of each other and
`patience` rounds of every loop. The number depends on the types and the number of tokens left only. -/
theorem C131_limits (ext : Fin n → Bool) (S : Schema m n) (md : Metadata (PId m n) n) (t : Ty m n) (p p' : Parser n)
    (r : Res n (Tree n)) : Yields ext S md t p r p' ↔
      nested (Parser.ops ext) S md (S.patience t (p.view ext).rest.length) (S.patience t (p.view ext).rest.length) t p
        = .ok r p' := by
  constructor
  · intro hy
    obtain ⟨i, hi⟩ := C108_linear hy
    generalize hD : (S.written t).length * ((p.view ext).rest.length + 1) = D at hi
    have h1 := Halt.nested_counted (Parser.ops ext) S md i D t p 0
    rw [hi] at h1
    cases hc : nested (Parser.ops ext).counted S md i D t (p, 0) with
    | fuel => rw [hc] at h1; cases h1
    | crash => rw [hc] at h1; cases h1
    | ok a s =>
      obtain ⟨q, k⟩ := s
      rw [hc] at h1
      cases h1
      have hk : k ≤ CostRun.perToken S t * ((p.view ext).rest.length + 1) := by
        have h2 := Depth.nested_produce (S := S) (md := md) (Parser.ops ext).counted D (Nat.le_refl (i + D)) t (p, 0)
          (by rw [hc]; simp)
        rw [hc] at h2
        have h3 := (counted_view_closed ext).produce S md (i + D) t p 0
        rw [h2] at h3
        have h4 := CostRun.linear h3
        refine Nat.le_trans h4 ?_
        rw [Nat.zero_add]
        exact Nat.mul_le_mul_left _ (by unfold View.len; omega)
      have hP : S.patience t (p.view ext).rest.length =
          CostRun.perToken S t * ((p.view ext).rest.length + 1) + D + ((p.view ext).rest.length + 1) := by
        rw [← hD]
        unfold Schema.patience
        rw [Nat.add_mul, Nat.add_mul, Nat.one_mul]
      generalize S.patience t (p.view ext).rest.length = P at hP
      have h5 := (Halt.rounds (o := Parser.ops ext) (B := k) (j := P) S md i D t).2 (p, 0) (by simp only; omega) _ _ hc
        (Nat.le_refl _)
      have h6 := Halt.nested_counted (Parser.ops ext) S md P D t p 0
      rw [h5] at h6
      rw [Depth.nested_more _ (Nat.le_refl P) (show D ≤ P by omega) t p (by rw [h6]; simp [Out.mapState]), h6]
      rfl
  · exact fun h => C108_sound ⟨_, h⟩

/-- A run that exceeds these limits never returns, whatever stack and time it is given. -/
theorem C131_never (ext : Fin n → Bool) (S : Schema m n) (md : Metadata (PId m n) n) (t : Ty m n) {source : Str}
    {items : List (Item n)} (hw : ItemsWF source items) {p : Parser n} (hp : Reached ext source items p)
    (h : nested (Parser.ops ext) S md (S.patience t (p.view ext).rest.length) (S.patience t (p.view ext).rest.length) t p
      = .fuel) (fuel : Nat) : produce (Parser.ops ext) S md fuel t p = .fuel := by
  cases hq : produce (Parser.ops ext) S md fuel t p with
  | fuel => rfl
  | crash => exact absurd hq (C52_produce ext source items hw p hp S md fuel t)
  | ok r p' =>
    rw [(C131_limits ext S md t p p' r).1 ⟨fuel, hq⟩] at h
    cases h

/-- Whether producing a type returns is decided by one run with limits. -/
instance C131.decide (ext : Fin n → Bool) (S : Schema m n) (md : Metadata (PId m n) n) (t : Ty m n) (p : Parser n) :
    Decidable (∃ r p', Yields ext S md t p r p') :=
  match h : nested (Parser.ops ext) S md (S.patience t (p.view ext).rest.length) (S.patience t (p.view ext).rest.length) t p with
  | .ok r p' => .isTrue ⟨r, p', (C131_limits ext S md t p p' r).2 h⟩
  | .fuel => .isFalse fun ⟨r, p', hy⟩ => by rw [(C131_limits ext S md t p p' r).1 hy] at h; cases h
  | .crash => .isFalse fun ⟨r, p', hy⟩ => by rw [(C131_limits ext S md t p p' r).1 hy] at h; cases h

/-- `T::parse` on a text, for a root that is accepted. -/
theorem C131_parse (ext : Fin n → Bool) (S : Schema m n) (root : Ty m n) (md : Metadata (PId m n) n) {f : Nat}
    (hmd : S.metadata f root = some (.ok md)) (source : Str) (items : List (Item n)) :
    (∃ fuel x p', rootParse ext S fuel root source items = .ok (.ok x) p') ↔
      ∃ r p', nested (Parser.ops ext) S md (S.patience root (streamOf ext items).length)
        (S.patience root (streamOf ext items).length) root (Parser.new source items) = .ok r p' := by
  have key : (∃ fuel x p', rootParse ext S fuel root source items = .ok (.ok x) p') ↔
      ∃ r p', Yields ext S md root (Parser.new source items) r p' := by
    constructor
    · rintro ⟨fuel, x, p', h⟩
      obtain ⟨md', r, q, h1, hq, -⟩ := syntaxErrors_parse h
      have : md' = md := by
        have a := metadata_more h1 (Nat.le_max_left fuel f)
        rw [metadata_more hmd (Nat.le_max_right fuel f)] at a
        cases a; rfl
      subst this
      exact ⟨r, q, fuel, hq⟩
    · rintro ⟨r, p', fuel, h⟩
      have h1 := metadata_more hmd (Nat.le_max_right fuel f)
      have h2 := produce_more h (Nat.le_max_left fuel f)
      refine ⟨max fuel f, ?_⟩
      simp only [rootParse, Parser.parse, h1, Parser.parseWithMeta, h2]
      cases r with
      | success x => exact ⟨_, _, rfl⟩
      | recovered x e => exact ⟨_, _, rfl⟩
      | panic e => exact ⟨_, _, rfl⟩
  rw [key]
  exact ⟨fun ⟨r, p', h⟩ => ⟨r, p', (C131_limits ext S md root _ p' r).1 h⟩,
    fun ⟨r, p', h⟩ => ⟨r, p', (C131_limits ext S md root _ p' r).2 h⟩⟩

/-- A loop of expressions stays within the limits on every text. -/
example (source : Str) (items : List (Item 3)) (hw : ItemsWF source items) :
    ∃ r p', nested (Parser.ops exExt) txS txMd (txS.patience txT ((Parser.new source items).view exExt).rest.length)
      (txS.patience txT ((Parser.new source items).view exExt).rest.length) txT (Parser.new source items) = .ok r p' := by
  obtain ⟨K, h⟩ := C76_text_returns txS 40 txT txMd txG txMd_ok txG_ok
    (fun _ => productive_left txMd_ok txG_ok (productive_of_check txG_ok 10 (by decide +kernel)))
    (fun i hi => (productive_of_check txG_ok 10 (by decide +kernel) i hi).not_needs txG_ok.1) (by
      intro k v vs hk hn
      have h := (metadata_first txMd_ok txG_ok (.user k) none).2 hn
      have hno : ∀ k : Fin 2, (txMd.first.get (.user k)).contains none = false := by decide +kernel
      rw [hno k] at h
      cases h)
  obtain ⟨r, p', k, h1, -⟩ := h exExt source items hw
  exact ⟨r, p', (C131_limits exExt txS txMd txT _ p' r).1 ((C76_defined _ _ _ _ _ _ _).2 ⟨k, h1⟩)⟩

/-- The type of C38 that hangs on a number exceeds the limits there. -/
example : ¬ ∃ r p', nested (Parser.ops fun _ => false) ndxS ndxMd
    (ndxS.patience ndxT (ndxP.view fun _ => false).rest.length) (ndxS.patience ndxT (ndxP.view fun _ => false).rest.length)
    ndxT ndxP = .ok r p' := by
  rintro ⟨r, p', h⟩
  obtain ⟨k, hk⟩ := (C76_defined _ _ _ _ _ _ _).1 ((C131_limits _ _ _ _ _ _ _).2 h)
  exact C76_no_return.2.2 r p' k hk

end Teleparse

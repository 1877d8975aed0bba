import Verif.Proof.CostRun
import Verif.Props.Termination
/-
Property C76: parsing takes linear time.
-/
namespace Teleparse
variable {m n : Nat}

/-- Counting does not change what is produced: the counted run has the same outcome. -/
theorem C76_same (ext : Fin n → Bool) (S : Schema m n) (md : Metadata (PId m n) n) (fuel : Nat) (t : Ty m n)
    (p : Parser n) (k : Nat) :
    (produce (Parser.ops ext).counted S md fuel t (p, k)).mapState Prod.fst =
      produce (Parser.ops ext) S md fuel t p :=
  ((erase_closed (Parser.ops ext)).produce S md fuel t p k).symm

/-- Producing takes some number of operations whenever it ends. -/
theorem C76_defined (ext : Fin n → Bool) (S : Schema m n) (md : Metadata (PId m n) n) (t : Ty m n)
    (p p' : Parser n) (r : Res n (Tree n)) : Yields ext S md t p r p' ↔ ∃ k, Takes ext S md t p r p' k := by
  constructor
  · rintro ⟨fuel, h⟩
    have h1 := C76_same ext S md fuel t p 0
    rw [h] at h1
    cases h2 : produce (Parser.ops ext).counted S md fuel t (p, 0) with
    | fuel => rw [h2] at h1; cases h1
    | crash => rw [h2] at h1; cases h1
    | ok x s =>
      rw [h2] at h1
      obtain ⟨q, k⟩ := s
      cases h1
      exact ⟨k, fuel, fun f hf => produce_more h2 hf⟩
  · rintro ⟨k, fuel, h⟩
    refine ⟨fuel, ?_⟩
    rw [← C76_same ext S md fuel t p 0, h fuel (Nat.le_refl _)]
    rfl

/-- The number of operations is determined by the input. -/
theorem C76_unique (ext : Fin n → Bool) (S : Schema m n) (md : Metadata (PId m n) n) (t : Ty m n)
    (p p1 p2 : Parser n) (r1 r2 : Res n (Tree n)) (k1 k2 : Nat) (h1 : Takes ext S md t p r1 p1 k1)
    (h2 : Takes ext S md t p r2 p2 k2) : r1 = r2 ∧ p1 = p2 ∧ k1 = k2 := by
  obtain ⟨f1, h1⟩ := h1
  obtain ⟨f2, h2⟩ := h2
  have a := h1 (max f1 f2) (by omega)
  rw [h2 (max f1 f2) (by omega)] at a
  cases a
  exact ⟨rfl, rfl, rfl⟩

/-- Whenever producing a type returns, it has made at most `K * (c + 1)` calls of `peek_token`, `consume_token` and
`apply_semantic`, where `c` is the number of tokens consumed. `K` depends on the types only: the bound holds for any
tables, texts and states of the parser. -/
theorem C76_linear (S : Schema m n) (t : Ty m n) : ∃ K, ∀ (md : Metadata (PId m n) n) (ext : Fin n → Bool)
    (p p' : Parser n) (r : Res n (Tree n)) (k : Nat), Takes ext S md t p r p' k → k ≤ K * (p.consumedSince p' + 1) := by
  refine ⟨CostRun.perToken S t, fun md ext p p' r k ht => ?_⟩
  have hy := (C76_defined ext S md t p p' r).2 ⟨k, ht⟩
  obtain ⟨f, hk⟩ := ht
  have h1 := (counted_view_closed ext).produce S md f t p 0
  rw [hk f (Nat.le_refl _)] at h1
  have h2 := CostRun.linear h1
  obtain ⟨ts, h3, h4⟩ := hy.run.adv.cons
  have h3' : (p.view ext).rest = ts ++ (p'.view ext).rest := h3
  have h4' : p'.info.tokens.map (·.token) = p.info.tokens.map (·.token) ++ ts := h4
  have h5 : (p.view ext).len - (p'.view ext).len = ts.length := by
    unfold View.len; rw [h3']; simp
  have h6 : p.consumedSince p' = ts.length := by
    have := congrArg List.length h4'
    simp only [List.length_map, List.length_append] at this
    unfold Parser.consumedSince
    omega
  rw [h5] at h2
  rw [h6]
  omega

theorem consumed_le {ext : Fin n → Bool} {S : Schema m n} {md : Metadata (PId m n) n} {t : Ty m n} {source : Str}
    {items : List (Item n)} {r : Res n (Tree n)} {p' : Parser n} (hy : Yields ext S md t (Parser.new source items) r p') :
    (Parser.new source items).consumedSince p' ≤ (streamOf ext items).length := by
  obtain ⟨ts, h3, h4⟩ := hy.run.adv.cons
  have h3' : streamOf ext items = ts ++ (p'.view ext).rest := h3
  have h4' : p'.info.tokens.map (·.token) = [] ++ ts := h4
  have h6 := congrArg List.length h4'
  simp only [List.length_map, List.nil_append] at h6
  unfold Parser.consumedSince
  rw [h3', List.length_append, h6]
  omega

/-- A whole text: the number of calls is linear in the number of its tokens (those that are not extracted). -/
theorem C76_text (S : Schema m n) (t : Ty m n) : ∃ K, ∀ (md : Metadata (PId m n) n) (ext : Fin n → Bool)
    (source : Str) (items : List (Item n)) (p' : Parser n) (r : Res n (Tree n)) (k : Nat),
    Takes ext S md t (Parser.new source items) r p' k → k ≤ K * ((streamOf ext items).length + 1) := by
  obtain ⟨K, h⟩ := C76_linear S t
  refine ⟨K, fun md ext source items p' r k ht => Nat.le_trans (h md ext _ p' r k ht) (Nat.mul_le_mul_left _ ?_)⟩
  have := consumed_le ((C76_defined ext S md t _ p' r).2 ⟨k, ht⟩)
  omega

theorem Ctx.takes {ext : Fin n → Bool} {S : Schema m n} {root : Ty m n} {md : Metadata (PId m n) n}
    {G : Grammar (PId m n) n} (E : Ctx S md root G) {source : Str} {items : List (Item n)} (hw : ItemsWF source items)
    {p : Parser n} (hp : Reached ext source items p) :
    ∃ r p' k, Takes ext S md root p r p' k ∧ k ≤ opsPerToken S G * (p.consumedSince p' + 1) := by
  obtain ⟨r, p', hy⟩ := E.yields hw hp
  obtain ⟨k, f, hk⟩ := (C76_defined ext S md root p p' r).1 hy
  refine ⟨r, p', k, ⟨f, hk⟩, ?_⟩
  have h1 := (counted_view_closed ext).produce S md f root p 0
  rw [hk f (Nat.le_refl _)] at h1
  have h2 := E.linear .refl h1
  obtain ⟨ts, h3, h4⟩ := hy.run.adv.cons
  have h3' : (p.view ext).rest = ts ++ (p'.view ext).rest := h3
  have h4' : p'.info.tokens.map (·.token) = p.info.tokens.map (·.token) ++ ts := h4
  have h5 : (p.view ext).len - (p'.view ext).len = ts.length := by
    unfold View.len; rw [h3']; simp
  have h6 : p.consumedSince p' = ts.length := by
    have := congrArg List.length h4'
    simp only [List.length_map, List.length_append] at this
    unfold Parser.consumedSince
    omega
  rw [h5] at h2
  rw [h6]
  omega

/-- Under the conditions of C38 the root of an accepted grammar is produced on every input, with at most `K * (c + 1)`
calls. -/
theorem C76_returns (S : Schema m n) (fuel : Nat) (root : Ty m n) (md : Metadata (PId m n) n)
    (G : Grammar (PId m n) n) (hmd : S.metadata fuel root = some (.ok md)) (hG : S.IsGrammar root G)
    (hleft : ∀ i, Reachable G root.pid i → ¬ LeftDerives G i i)
    (hneeds : ∀ i, Reachable G root.pid i → ¬ Needs G i i)
    (henum : ∀ k v vs, S k = .enum v vs → Nullable G (.user k) → ∀ i tok rest, Reachable G root.pid i →
      ¬ Derives G [.nt i] (.nt (.user k) :: .tok tok :: rest)) :
    ∃ K, ∀ (ext : Fin n → Bool) (source : Str) (items : List (Item n)), ItemsWF source items →
      ∀ p : Parser n, Reached ext source items p →
        ∃ r p' k, Takes ext S md root p r p' k ∧ k ≤ K * (p.consumedSince p' + 1) := by
  refine ⟨opsPerToken S G, fun ext source items hw p hp => ?_⟩
  exact Ctx.takes (.of_metadata hmd hG hleft hneeds henum) hw hp

/-- The same for a whole text. -/
theorem C76_text_returns (S : Schema m n) (fuel : Nat) (root : Ty m n) (md : Metadata (PId m n) n)
    (G : Grammar (PId m n) n) (hmd : S.metadata fuel root = some (.ok md)) (hG : S.IsGrammar root G)
    (hleft : ∀ i, Reachable G root.pid i → ¬ LeftDerives G i i)
    (hneeds : ∀ i, Reachable G root.pid i → ¬ Needs G i i)
    (henum : ∀ k v vs, S k = .enum v vs → Nullable G (.user k) → ∀ i tok rest, Reachable G root.pid i →
      ¬ Derives G [.nt i] (.nt (.user k) :: .tok tok :: rest)) :
    ∃ K, ∀ (ext : Fin n → Bool) (source : Str) (items : List (Item n)), ItemsWF source items →
        ∃ r p' k, Takes ext S md root (Parser.new source items) r p' k ∧
          k ≤ K * ((streamOf ext items).length + 1) := by
  obtain ⟨K, h⟩ := C76_returns S fuel root md G hmd hG hleft hneeds henum
  refine ⟨K, fun ext source items hw => ?_⟩
  obtain ⟨r, p', k, h1, h2⟩ := h ext source items hw _ .new
  refine ⟨r, p', k, h1, Nat.le_trans h2 (Nat.mul_le_mul_left _ ?_)⟩
  have := consumed_le ((C76_defined ext S md root _ p' r).2 ⟨k, h1⟩)
  omega

/-- The example of C38: the grammar `E = num | L`, `L = word E* "x"`, read by `Loop<E>`. -/
example : ∃ K, ∀ (source : Str) (items : List (Item 3)), ItemsWF source items →
    ∃ r p' k, Takes exExt txS txMd txT (Parser.new source items) r p' k ∧
      k ≤ K * ((streamOf exExt items).length + 1) := by
  obtain ⟨K, h⟩ := C76_text_returns txS 40 txT txMd txG txMd_ok txG_ok
    (fun _ => productive_left txMd_ok txG_ok (productive_of_check txG_ok 10 (by decide +kernel)))
    (fun i hi => (productive_of_check txG_ok 10 (by decide +kernel) i hi).not_needs txG_ok.1) (by
      intro k v vs hk hn
      have h := (metadata_first txMd_ok txG_ok (.user k) none).2 hn
      have hno : ∀ k : Fin 2, (txMd.first.get (.user k)).contains none = false := by decide +kernel
      rw [hno k] at h
      cases h)
  exact ⟨K, h exExt⟩

/-- Without the conditions producing may never return: the type of `C38_false_needs` never returns on a number. -/
theorem C76_no_return : ndxS.metadata 60 ndxT = some (.ok ndxMd) ∧ ItemsWF [49] [.token (⟨⟨0, 1⟩, 1⟩ : Token 3)] ∧
    ∀ r p' k, ¬ Takes (fun _ => false) ndxS ndxMd ndxT ndxP r p' k := by
  refine ⟨rfl, C38_false_needs.2.2.2.1, fun r p' k h => ?_⟩
  obtain ⟨fuel, h⟩ := (C76_defined (fun _ => false) ndxS ndxMd ndxT ndxP p' r).2 ⟨k, h⟩
  rw [C38_false_needs.2.2.2.2 fuel] at h
  cases h

/-- A count: on two numbers the loop of the example makes 13 calls. -/
example : (match produce (Parser.ops exExt).counted txS txMd 12 txT
    (Parser.new [49, 50] [.token ⟨⟨0, 1⟩, 1⟩, .token ⟨⟨1, 2⟩, 1⟩], 0) with
    | .ok _ s => some s.2
    | _ => none) = some 13 := by rfl

end Teleparse

import Verif.Spec.Sized
import Verif.Proof.Infer
import Verif.Proof.Parser
import Verif.Proof.Yields
/-
Boxes around fields: the grammar, the lexicons and what is parsed stay the same.
-/
namespace Teleparse
variable {m n : Nat} {S S' : Schema m n}

/-! ### Sizes -/

theorem mem_holds {j : Fin m} : ∀ t : Ty m n, j ∈ t.holds ↔ Inside j t
  | .term _ _ => ⟨fun h => (by cases h), fun h => (by cases h)⟩
  | .user k => by
    simp only [Ty.holds, List.mem_singleton]
    exact ⟨fun h => h ▸ .user, fun h => (by cases h; rfl)⟩
  | .box _ => ⟨fun h => (by cases h), fun h => (by cases h)⟩
  | .option t => by
    simp only [Ty.holds, mem_holds t]
    exact ⟨.option, fun h => (by cases h; assumption)⟩
  | .exist _ | .quote _ | .parse _ => ⟨fun h => (by cases h), fun h => (by cases h)⟩
  | .plus _ | .star _ | .loop _ => ⟨fun h => (by cases h), fun h => (by cases h)⟩
  | .split _ _ | .punct _ _ => ⟨fun h => (by cases h), fun h => (by cases h)⟩
  | .recover a b => by
    simp only [Ty.holds, List.mem_append, mem_holds a, mem_holds b]
    constructor
    · rintro (h | h) <;> exact .recover (by simp) h
    · intro h
      cases h with
      | recover hu h =>
        simp only [List.mem_cons, List.not_mem_nil, or_false] at hu
        rcases hu with rfl | rfl <;> simp [h]
  | .tup2 a b => by
    simp only [Ty.holds, List.mem_append, mem_holds a, mem_holds b]
    constructor
    · rintro (h | h) <;> exact .tup2 (by simp) h
    · intro h
      cases h with
      | tup2 hu h =>
        simp only [List.mem_cons, List.not_mem_nil, or_false] at hu
        rcases hu with rfl | rfl <;> simp [h]
  | .tup3 a b c => by
    simp only [Ty.holds, List.mem_append, mem_holds a, mem_holds b, mem_holds c]
    constructor
    · rintro ((h | h) | h) <;> exact .tup3 (by simp) h
    · intro h
      cases h with
      | tup3 hu h =>
        simp only [List.mem_cons, List.not_mem_nil, or_false] at hu
        rcases hu with rfl | rfl | rfl <;> simp [h]
  | .tup4 a b c d => by
    simp only [Ty.holds, List.mem_append, mem_holds a, mem_holds b, mem_holds c, mem_holds d]
    constructor
    · rintro (((h | h) | h) | h) <;> exact .tup4 (by simp) h
    · intro h
      cases h with
      | tup4 hu h =>
        simp only [List.mem_cons, List.not_mem_nil, or_false] at hu
        rcases hu with rfl | rfl | rfl | rfl <;> simp [h]
  | .tup5 a b c d e => by
    simp only [Ty.holds, List.mem_append, mem_holds a, mem_holds b, mem_holds c, mem_holds d, mem_holds e]
    constructor
    · rintro ((((h | h) | h) | h) | h) <;> exact .tup5 (by simp) h
    · intro h
      cases h with
      | tup5 hu h =>
        simp only [List.mem_cons, List.not_mem_nil, or_false] at hu
        rcases hu with rfl | rfl | rfl | rfl | rfl <;> simp [h]

theorem holds_iff {k j : Fin m} : j ∈ S.holds k ↔ ∃ f, HasPart (S k) f ∧ Inside j f.1 := by
  unfold Schema.holds
  rw [List.mem_flatMap]
  constructor
  · rintro ⟨f, h1, h2⟩
    refine ⟨f, ?_, (mem_holds _).1 h2⟩
    cases hk : S k with
    | struct g gs => rw [hk] at h1; exact .field h1
    | enum g gs => rw [hk] at h1; exact .variant h1
  · rintro ⟨f, h1, h2⟩
    refine ⟨f, ?_, (mem_holds _).2 h2⟩
    generalize S k = d at h1
    cases h1 with
    | field h => exact h
    | variant h => exact h

theorem Stores.of {k j : Fin m} (h : j ∈ S.holds k) : Stores S k j := by
  obtain ⟨f, h1, h2⟩ := holds_iff.1 h
  exact .one h1 h2

/-- The computation of the size ends. -/
inductive SizeEnds (S : Schema m n) : Fin m → Prop
  | intro {k} : (∀ j ∈ S.holds k, SizeEnds S j) → SizeEnds S k

theorem SizeEnds.not_self {k : Fin m} (h : SizeEnds S k) : ¬ Stores S k k := by
  have key : ∀ p q, Stores S p q → ∃ r, r ∈ S.holds p ∧ (r = q ∨ Stores S r q) := by
    intro p q h
    induction h with
    | one h1 h2 => exact ⟨_, holds_iff.2 ⟨_, h1, h2⟩, .inl rfl⟩
    | trans h1 h2 ih1 _ =>
      obtain ⟨r, h3, rfl | h4⟩ := ih1
      · exact ⟨_, h3, .inr h2⟩
      · exact ⟨r, h3, .inr (.trans h4 h2)⟩
  induction h with
  | @intro p _ ih =>
    intro hs
    obtain ⟨r, h1, rfl | h2⟩ := key _ _ hs
    · exact ih _ h1 hs
    · exact ih r h1 (.trans h2 (.of h1))

theorem sizeEnds_of_within : ∀ fuel (k : Fin m), S.sizedWithin fuel k = true → SizeEnds S k := by
  intro fuel
  induction fuel with
  | zero => intro p h; cases h
  | succ fuel ih =>
    intro p h
    exact .intro fun q hq => ih q (List.all_eq_true.1 h q hq)

theorem sized_within (h : S.Sized) : ∀ k : Fin m, S.sizedWithin (m + 1) k = true := by
  have key : ∀ d (k : Fin m) (seen : List (Fin m)), seen.length + d = m → seen.Nodup →
      (∀ s ∈ seen, Stores S s k) → S.sizedWithin (d + 1) k = true := by
    intro d
    induction d with
    | zero =>
      intro k seen hl hn hs
      have hk : k ∉ seen := fun hk => h k (hs k hk)
      have h1 := Depth.nodup_length (l := k :: seen) (T := List.finRange m) (List.nodup_cons.2 ⟨hk, hn⟩)
        (fun a _ => List.mem_finRange a)
      simp at h1
      omega
    | succ d ih =>
      intro k seen hl hn hs
      refine List.all_eq_true.2 fun u hu => ?_
      refine ih u (k :: seen) (by simp; omega) (List.nodup_cons.2 ⟨fun hk => h k (hs k hk), hn⟩) ?_
      intro s hs'
      rcases List.mem_cons.1 hs' with rfl | hs'
      · exact .of hu
      · exact .trans (hs s hs') (.of hu)
  intro k
  exact key m k [] (by simp) .nil (by simp)

theorem sized_of_within (fuel : Nat) (h : ∀ k : Fin m, S.sizedWithin fuel k = true) : S.Sized :=
  fun k => (sizeEnds_of_within fuel k (h k)).not_self

/-! ### The grammar -/

theorem Ty.bare_pid : ∀ t : Ty m n, t.bare.pid = t.pid
  | .box t => t.bare_pid
  | .term _ _ | .user _ | .option _ | .exist _ | .quote _ | .parse _ | .plus _ | .star _ | .loop _ | .split _ _
  | .punct _ _ | .recover _ _ | .tup2 _ _ | .tup3 _ _ _ | .tup4 _ _ _ _ | .tup5 _ _ _ _ _ => rfl

theorem pid_of_bare {a b : Ty m n} (h : a.bare = b.bare) : a.pid = b.pid := by
  rw [← a.bare_pid, ← b.bare_pid, h]

theorem FieldsBoxed.pids {l l' : List (Field m n)} (h : FieldsBoxed l l') :
    l.map (fun f => f.1.pid) = l'.map fun f => f.1.pid := by
  induction h with
  | nil => rfl
  | cons h1 _ _ ih => rw [List.map_cons, List.map_cons, ih, pid_of_bare h1]

theorem FieldsBoxed.symm {l l' : List (Field m n)} (h : FieldsBoxed l l') : FieldsBoxed l' l := by
  induction h with
  | nil => exact .nil
  | cons h1 h2 _ ih => exact .cons h1.symm h2.symm ih

theorem same_symm (h : S.SameButBoxes S') : S'.SameButBoxes S := by
  intro k
  have := h k
  generalize S k = d, S' k = d' at this
  cases this with
  | struct h => exact .struct h.symm
  | enum h => exact .enum h.symm

theorem same_rule (h : S.SameButBoxes S') (p : PId m n) : S.rule p = S'.rule p := by
  induction p with
  | user k =>
    have hk := h k
    unfold Schema.rule
    generalize S k = d, S' k = d' at hk
    cases hk with
    | struct h => exact congrArg _ h.pids
    | enum h => exact congrArg _ h.pids
  | box p ih => exact ih
  | _ => rfl

/-! ### The lexicons -/

theorem resolves_bare (t : Ty m n) : Resolves S t.prod ↔ Resolves S t.bare.prod := by
  induction t with
  | box t ih =>
    refine ⟨fun h => ih.1 (h.sub (by simp [Ty.prod, Schema.asks])), fun h => .intro ?_⟩
    intro q hq
    have : q = t.prod := by simpa [Ty.prod, Schema.asks] using hq
    subst this
    exact ih.2 h
  | _ => exact Iff.rfl

theorem same_head (h : S.SameButBoxes S') (k : Fin m) : ∃ a b : Ty m n, a.bare = b.bare ∧ S.asks (.user k) = [a.prod] ∧
    S'.asks (.user k) = [b.prod] := by
  have hk := h k
  rw [asks_head, asks_head]
  generalize S k = d, S' k = d' at hk
  cases hk with
  | struct h => cases h with | cons h => exact ⟨_, _, h, rfl, rfl⟩
  | enum h => cases h with | cons h => exact ⟨_, _, h, rfl, rfl⟩

theorem same_resolves (h : S.SameButBoxes S') {p : PId m n} (hp : Resolves S p) : Resolves S' p := by
  induction hp with
  | @intro p _ ih =>
    cases p with
    | user k =>
      obtain ⟨a, b, h1, h2, h3⟩ := same_head h k
      refine .intro fun q hq => ?_
      rw [h3] at hq
      rw [List.mem_singleton.1 hq, resolves_bare, ← h1, ← resolves_bare]
      exact ih _ (by rw [h2]; simp)
    | _ => exact .intro ih

/-! ### Parsing -/

/-- The number of boxes around a type. -/
def Ty.boxes : Ty m n → Nat
  | .box t => t.boxes + 1
  | _ => 0

variable {σ : Type} {o : Ops σ n} {md : Metadata (PId m n) n}

theorem produce_bare (f : Nat) (t : Ty m n) (s : σ) (h : produce o S md f t s ≠ .fuel) :
    produce o S md f t.bare s = produce o S md f t s := by
  induction t generalizing f with
  | box t ih =>
    cases f with
    | zero => exact absurd rfl h
    | succ f =>
      have h' : produce o S md f t s ≠ .fuel := h
      have := ih f h'
      show produce o S md (f + 1) t.bare s = produce o S md f t s
      rw [← this]
      exact produce_mono o S md (Nat.le_succ f) _ _ (by rw [this]; exact h')
  | _ => rfl

theorem produce_boxes (f : Nat) (t : Ty m n) (s : σ) :
    produce o S md (f + t.boxes) t s = produce o S md f t.bare s := by
  induction t with
  | box t ih => exact ih
  | _ => rfl

theorem boxes_bound (S : Schema m n) : ∃ D, ∀ k, ∀ f ∈ (S k).parts, f.1.boxes ≤ D := by
  have h1 : ∀ l : List (Field m n), ∃ D, ∀ f ∈ l, f.1.boxes ≤ D := by
    intro l
    induction l with
    | nil => exact ⟨0, by simp⟩
    | cons a l ih =>
      obtain ⟨D, h⟩ := ih
      refine ⟨max D a.1.boxes, fun f hf => ?_⟩
      rcases List.mem_cons.1 hf with rfl | hf
      · omega
      · have := h f hf; omega
  obtain ⟨D, h⟩ := h1 ((List.finRange m).flatMap fun k => (S k).parts)
  exact ⟨D, fun k f hf => h f (List.mem_flatMap.2 ⟨k, List.mem_finRange k, hf⟩)⟩

/-- The relation of `mono_closed`. -/
def Refines {α : Type} (x y : M σ α) : Prop := ∀ s, x s ≠ .fuel → y s = x s

theorem same_produce (h : S.SameButBoxes S') (o : Ops σ n) (md : Metadata (PId m n) n) {D : Nat}
    (hD : ∀ k, ∀ f ∈ (S' k).parts, f.1.boxes ≤ D) : ∀ (f : Nat) (t : Ty m n),
    Refines (produce o S md f t) (produce o S' md (f * (D + 1)) t) := by
  intro f
  induction f with
  | zero => intro t s h; exact absurd rfl h
  | succ f ih =>
    intro t
    have hsucc : (f + 1) * (D + 1) = f * (D + 1) + D + 1 := by rw [Nat.add_mul]; omega
    have hle : f ≤ f * (D + 1) := Nat.le_mul_of_pos_right f (by omega)
    have ih' : ∀ t : Ty m n, Refines (produce o S md f t) (produce o S' md (f * (D + 1) + D) t) := by
      intro t s hs
      rw [← ih t s hs]
      exact produce_mono o S' md (by omega) t s (by rw [ih t s hs]; exact hs)
    have hb : ∀ a b : Ty m n, a.bare = b.bare → b.boxes ≤ D →
        Refines (produce o S md f a) (produce o S' md (f * (D + 1) + D) b) := by
      intro a b hab hbD s hs
      have h1 := produce_bare f a s hs
      have h2 : produce o S md f a.bare s ≠ .fuel := by rw [h1]; exact hs
      have h3 := ih a.bare s h2
      have h4 : produce o S' md (f * (D + 1) + b.boxes) b s = produce o S md f a s := by
        rw [produce_boxes, ← hab, h3, h1]
      rw [← h4]
      exact produce_mono o S' md (by omega) b s (by rw [h4]; exact hs)
    have hC := (mono_closed o (f * (D + 1) + D - f)).core
    have hfs : ∀ {l l' : List (Field m n)}, FieldsBoxed l l' → (∀ f ∈ l', f.1.boxes ≤ D) →
        Core.Forall2 (fun a b => (∀ s, a.1 s ≠ .fuel → b.1 s = a.1 s) ∧ a.2 = b.2)
          (l.map fun g => (produce o S md f g.1, g.2))
          (l'.map fun g => (produce o S' md (f * (D + 1) + D) g.1, g.2)) := by
      intro l l' hl
      induction hl with
      | nil => intro _; exact .nil
      | cons h1 h2 _ ih =>
        intro hl'
        exact .cons ⟨hb _ _ h1 (hl' _ (by simp)), h2⟩ (ih fun g hg => hl' g (by simp [hg]))
    rw [hsucc]
    have hother : (∀ k, t ≠ .user k) → Refines (produce o S md (f + 1) t) (produce o S' md (f * (D + 1) + D + 1) t) := by
      intro hu
      have e : produceStep o S md f (produce o S md f) t = produceStep o S' md f (produce o S md f) t := by
        cases t with
        | user k => exact absurd rfl (hu k)
        | _ => rfl
      show ∀ s, produceStep o S md f (produce o S md f) t s ≠ .fuel →
        produceStep o S' md (f * (D + 1) + D) (produce o S' md (f * (D + 1) + D)) t s =
          produceStep o S md f (produce o S md f) t s
      rw [e]
      exact hC.step S' md (by omega) ih' (fun t => (mono_closed o (f * (D + 1) + D - f)).text (ih' t)) t
    cases t with
    | user k =>
      have hk := h k
      have hDk := hD k
      show ∀ s, produceStep o S md f (produce o S md f) (.user k) s ≠ .fuel →
        produceStep o S' md (f * (D + 1) + D) (produce o S' md (f * (D + 1) + D)) (.user k) s =
          produceStep o S md f (produce o S md f) (.user k) s
      unfold produceStep
      dsimp only
      generalize S k = d, S' k = d' at hk hDk
      cases hk with
      | struct h => exact hC.struct (hfs h hDk)
      | enum h => exact hC.enum _ _ (hfs h hDk)
    | _ => exact hother (fun k h => by cases h)

/-- What is produced does not depend on boxes, around the fields and around the type. -/
theorem same_result (h : S.SameButBoxes S') {t t' : Ty m n} (ht : t.bare = t'.bare) {f : Nat} {s s' : σ}
    {r : Res n (Tree n)} (hp : produce o S md f t s = .ok r s') :
    ∃ N, ∀ g ≥ N, produce o S' md g t' s = .ok r s' := by
  obtain ⟨D, hD⟩ := boxes_bound S'
  have h1 := produce_bare f t s (by rw [hp]; intro h; cases h)
  have h2 := same_produce h o md hD f t.bare s (by rw [h1, hp]; intro h; cases h)
  rw [h1, hp, ht, ← produce_boxes] at h2
  exact ⟨_, fun g hg => produce_more h2 hg⟩

end Teleparse

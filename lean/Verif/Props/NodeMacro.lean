import Verif.Model.NodeMacro
/-
Property C87: wrappers of nodes made with `derive(Node)`.
-/
namespace Teleparse.Syn
variable {α V D : Type}

/-! ## C87: `derive(Node)` makes a wrapper around the node in the first field -/

/-- The first field of a struct. -/
def DataD.firstField {τ : Type} : DataD τ → Option (FieldD τ)
  | .struct (.named l) => l.head?
  | .struct (.unnamed l) => l.head?
  | _ => none

/-- Exactly the structs whose first field has a type with arguments in angle brackets are accepted. -/
theorem C87_accepted (d : DataD (NodeTy α)) :
    (∃ g, expandNode d = .ok g) ↔ ∃ f args, d.firstField = some f ∧ f.ty = .path (some args) := by
  have key : ∀ (f : FieldD (NodeTy α)) (k : List α → NodeGen α),
      (∃ g, (nodeType f.ty >>= fun ty => Except.ok (k ty)) = .ok g) ↔ ∃ args, f.ty = .path (some args) := by
    intro f k
    cases h : f.ty with
    | other => exact ⟨(by rintro ⟨g, hg⟩; cases hg), by rintro ⟨a, ha⟩; cases ha⟩
    | path args =>
      cases args with
      | none => exact ⟨(by rintro ⟨g, hg⟩; cases hg), by rintro ⟨a, ha⟩; cases ha⟩
      | some a => exact ⟨fun _ => ⟨a, rfl⟩, fun _ => ⟨k a, rfl⟩⟩
  cases d with
  | struct fs =>
    cases fs with
    | unit => exact ⟨(by rintro ⟨g, hg⟩; cases hg), by rintro ⟨f, a, hf, _⟩; cases hf⟩
    | named l =>
      cases l with
      | nil => exact ⟨(by rintro ⟨g, hg⟩; cases hg), by rintro ⟨f, a, hf, _⟩; cases hf⟩
      | cons f l =>
        refine (key f fun ty => ⟨ty, .named f.ident, .name f.ident⟩).trans ?_
        exact ⟨fun ⟨a, h⟩ => ⟨f, a, rfl, h⟩, fun ⟨f', a, hf, h⟩ => by cases hf; exact ⟨a, h⟩⟩
    | unnamed l =>
      cases l with
      | nil => exact ⟨(by rintro ⟨g, hg⟩; cases hg), by rintro ⟨f, a, hf, _⟩; cases hf⟩
      | cons f l =>
        refine (key f fun ty => ⟨ty, .tuple l.length, .idx 0⟩).trans ?_
        exact ⟨fun ⟨a, h⟩ => ⟨f, a, rfl, h⟩, fun ⟨f', a, hf, h⟩ => by cases hf; exact ⟨a, h⟩⟩
  | enum _ => exact ⟨(by rintro ⟨g, hg⟩; cases hg), by rintro ⟨f, a, hf, _⟩; cases hf⟩
  | union => exact ⟨(by rintro ⟨g, hg⟩; cases hg), by rintro ⟨f, a, hf, _⟩; cases hf⟩

/-- The message for a rejected declaration names its first defect: it is not a struct; or it is one, without a field; or
the type of its first field is not a path; or it is one, without arguments. -/
theorem C87_rejected (d : DataD (NodeTy α)) :
    (expandNode d = .error .notStruct ↔ ∀ fs, d ≠ .struct fs) ∧
    (expandNode d = .error .noField ↔ (∃ fs, d = .struct fs) ∧ d.firstField = none) ∧
    (expandNode d = .error .notPath ↔ ∃ f, d.firstField = some f ∧ f.ty = .other) ∧
    (expandNode d = .error .noGeneric ↔ ∃ f, d.firstField = some f ∧ f.ty = .path none) := by
  cases d with
  | struct fs =>
    cases fs with
    | unit => simp [expandNode, DataD.firstField]
    | named l =>
      cases l with
      | nil => simp [expandNode, DataD.firstField]
      | cons f l =>
        simp only [expandNode, DataD.firstField, nodeType]
        cases h : f.ty with
        | other => simp [bind, Except.bind, h]
        | path a => cases a <;> simp [bind, Except.bind, pure, Except.pure, h]
    | unnamed l =>
      cases l with
      | nil => simp [expandNode, DataD.firstField]
      | cons f l =>
        simp only [expandNode, DataD.firstField, nodeType]
        cases h : f.ty with
        | other => simp [bind, Except.bind, h]
        | path a => cases a <;> simp [bind, Except.bind, pure, Except.pure, h]
  | enum l => simp [expandNode, DataD.firstField]
  | union => simp [expandNode, DataD.firstField]

/-- Tuple structs `struct T(Node<V>, ..)`: the generated code compiles. The wrapper made from a node has the node in it
and as many fields as declared, derefs and unwraps to the value, keeps the span (`derive(ToSpan)` takes the first field),
and an assignment through `DerefMut` changes the value and nothing else. Missing: structs with named fields, see
`C87_false`. -/
theorem C87_tuple_partial (f : FieldD (NodeTy α)) (fs : List (FieldD (NodeTy α))) (a : α)
    (hf : f.ty = .path (some [a])) (default : D) :
    ∃ g c, expandNode (.struct (.unnamed (f :: fs))) = .ok g ∧ (g.compile default : Option (NodeCode V D)) = some c ∧
      g.target = [a] ∧ expandSpan (.struct (.unnamed (f :: fs))) = .ok (.struct g.field) ∧
      (∀ x, (c.from' x).node = x ∧ (c.from' x).rest.length = fs.length ∧ ∀ y ∈ (c.from' x).rest, y = default) ∧
      (∀ x, c.deref (c.from' x) = x.value ∧ c.intoInner (c.from' x) = x.value) ∧
      (∀ w v, c.deref (c.assign w v) = v ∧ (c.assign w v).node.span = w.node.span ∧
        (c.assign w v).rest = w.rest) := by
  refine ⟨⟨[a], .tuple fs.length, .idx 0⟩, _, ?_, rfl, rfl, rfl, ?_, ?_, ?_⟩
  · simp only [expandNode, hf]; rfl
  · intro x
    exact ⟨rfl, by simp, fun y hy => (List.mem_replicate.1 hy).2⟩
  · intro x; exact ⟨rfl, rfl⟩
  · intro w v; exact ⟨rfl, rfl, rfl⟩

/-- The property is false for structs with named fields: every one with a node as its first field is accepted by the
macro, and the generated code never compiles. -/
theorem C87_false (f : FieldD (NodeTy α)) (fs : List (FieldD (NodeTy α))) (a : α) (hf : f.ty = .path (some [a]))
    (default : D) : ∃ g, expandNode (.struct (.named (f :: fs))) = .ok g ∧
      (g.compile default : Option (NodeCode V D)) = none := by
  refine ⟨⟨[a], .named f.ident, .name f.ident⟩, ?_, rfl⟩
  simp only [expandNode, hf]; rfl

/-- `struct Quote<S, T>(Node<S>, PhantomData<T>)`, tp_impl/string.rs:12 -/
example : expandNode (.struct (.unnamed [⟨[], .path (some ["S"]), []⟩, ⟨[], .path (some ["T"]), []⟩])) =
    .ok ⟨["S"], .tuple 1, .idx 0⟩ := rfl
/-- Rejected: an enum, no field, a reference. -/
example : expandNode (α := Nat) (.enum []) = .error .notStruct ∧ expandNode (α := Nat) (.struct .unit) = .error .noField ∧
    expandNode (α := Nat) (.struct (.unnamed [⟨[], .other, []⟩])) = .error .notPath ∧
    expandNode (α := Nat) (.struct (.unnamed [⟨[], .path none, []⟩])) = .error .noGeneric := ⟨rfl, rfl, rfl, rfl⟩

end Teleparse.Syn

import Verif.Model.SyntaxMacro
/-
Model of `tp::Node` (tp_impl/node.rs) and of `derive(Node)` (macros/src/node.rs): from the declaration, as parsed by
`syn`, to the generated code, and from the generated code to what it does. Left out: generics of the struct (passed on
as they are), visibilities, spans of error messages.
-/
namespace Teleparse.Syn

/-- `tp::Node`, tp_impl/node.rs:5-10 -/
structure NodeV (V : Type) where
  span : Span
  value : V
  deriving DecidableEq

/-- The type of a field: a path with the generic arguments of its last segment, if there are any, or something else.
`α` are the arguments. -/
inductive NodeTy (α : Type) where
  | path (args : Option (List α))
  | other
  deriving DecidableEq

/-- The `syn_error!`s of macros/src/node.rs. -/
inductive NodeErr where
  | notStruct | noField | notPath | noGeneric
  deriving DecidableEq

/-- An expression in the generated `from`. -/
inductive FromBody where
  /-- `Self(node, ::core::default::Default::default(), ..)`: the number of defaults -/
  | tuple (defaults : Nat)
  /-- `Self { #ident, ::core::default::Default::default() }` -/
  | named (ident : Str)
  deriving DecidableEq

/-- The generated code, node.rs:56-87. -/
structure NodeGen (α : Type) where
  /-- `#target_ty`: the arguments as written between the angle brackets -/
  target : List α
  /-- `#from_body` -/
  body : FromBody
  /-- `#field_expr` is `self.` and this -/
  field : Accessor
  deriving DecidableEq

variable {α : Type}

/-- `parse_node_type`, node.rs:92-112 -/
def nodeType : NodeTy α → Except NodeErr (List α)
  | .path (some args) => .ok args
  | .path none => .error .noGeneric
  | .other => .error .notPath

/-- `expand`, node.rs:3-90 -/
def expandNode : DataD (NodeTy α) → Except NodeErr (NodeGen α)
  | .struct (.named (f :: _)) => do
    let ty ← nodeType f.ty
    return ⟨ty, .named f.ident, .name f.ident⟩
  | .struct (.named []) => .error .noField
  | .struct (.unnamed (f :: fs)) => do
    let ty ← nodeType f.ty
    return ⟨ty, .tuple fs.length, .idx 0⟩
  | .struct (.unnamed []) => .error .noField
  | .struct .unit => .error .noField
  | .enum _ => .error .notStruct
  | .union => .error .notStruct

/-- A value of the struct: the node in the first field, and the other fields. -/
structure Wrapped (V D : Type) where
  node : NodeV V
  rest : List D

/-- The functions of the generated `impl`s. -/
structure NodeCode (V D : Type) where
  /-- `From<Node<V>>` -/
  from' : NodeV V → Wrapped V D
  /-- `into_inner` -/
  intoInner : Wrapped V D → V
  /-- `Deref` -/
  deref : Wrapped V D → V
  /-- an assignment through `DerefMut` -/
  assign : Wrapped V D → V → Wrapped V D

/-- What rustc makes of the generated code, for a struct whose first field is a `Node`. `none` is a compile error:
`From<Node<..>>` and `type Target` need exactly one type; in a struct expression with braces every part is a field name
with or without a value, so that `::core::default::Default::default()` is a syntax error there (and `#ident` is not the
name of the parameter). `default` is the value of `Default::default()` for the other fields. -/
def NodeGen.compile {V D : Type} (default : D) (g : NodeGen α) : Option (NodeCode V D) :=
  match g.target, g.body with
  | [_], .tuple k => some {
      from' := fun x => ⟨x, List.replicate k default⟩
      intoInner := fun w => w.node.value
      deref := fun w => w.node.value
      assign := fun w v => ⟨⟨w.node.span, v⟩, w.rest⟩ }
  | _, _ => none

end Teleparse.Syn

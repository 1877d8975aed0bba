import Verif.Model.Produce
/-
Model of the attribute macro `derive_syntax`, macros/src/syntax.rs, and of `derive(ToSpan)`,
macros/src/to_span.rs: from the declaration, as parsed by `syn`, to the generated code, and from the
generated code to what it does (names resolved as rustc does). Left out: visibilities, generics (not
passed on by `derive_syntax`, so rustc rejects them), spans of error messages, and `crate_ident`.
-/
namespace Teleparse.Syn

/-- One `syn::Meta` inside `#[teleparse(..)]` on a field or variant; the arguments are `none` if they do not
parse (syntax.rs:426-431, 438). -/
inductive FMeta where
  | semantic (args : Option (List Str))
  | hook (args : Option Str)
  /-- a list with another name -/
  | list (name : Str)
  /-- a path or `name = value` -/
  | other
  deriving DecidableEq

/-- The `teleparse` attributes of a field or variant (`strip_take_attrs`, prelude.rs:64-80); `none` if the
content does not parse (prelude.rs:57-61). -/
abbrev Attrs := List (Option (List FMeta))

/-- A field of a struct or of a variant. `ident` is only meaningful for named fields. -/
structure FieldD (τ : Type) where
  ident : Str
  ty : τ
  attrs : Attrs

/-- `syn::Fields` -/
inductive FieldsD (τ : Type) where
  | unnamed (l : List (FieldD τ))
  | named (l : List (FieldD τ))
  | unit

/-- `syn::Variant` -/
structure VariantD (τ : Type) where
  ident : Str
  discriminant : Bool
  fields : FieldsD τ
  attrs : Attrs

/-- `syn::Data` -/
inductive DataD (τ : Type) where
  | struct (fields : FieldsD τ)
  | enum (variants : List (VariantD τ))
  | union

/-- One `syn::Meta` inside the root attribute, syntax.rs:373-386. -/
inductive RMeta where
  | root
  | noTest
  /-- another path -/
  | path
  /-- a list or `name = value` -/
  | other
  deriving DecidableEq

/-- The item the macro is applied to. -/
structure DeclD (τ : Type) where
  ident : Str
  /-- the root `teleparse` attributes; `none` if the arguments do not parse -/
  attrs : List (Option (List RMeta))
  data : DataD τ

/-- The `syn_error!`s. -/
inductive SErr where
  | multipleRoot | parse | rootAttr | noTest | notStructOrEnum | unitStruct | noFields
  | discriminant (v : Str) | variantFields (v : Str) | noVariants
  | multipleAttrs | duplicateSemantic | duplicateHook | format
  deriving DecidableEq

/-- How a field is written after a dot, and in the struct expression. -/
inductive Accessor where
  | idx (i : Nat)
  | name (s : Str)
  deriving DecidableEq

/-- The code generated for a struct, syntax.rs:99-138, 188-228. -/
structure StructGen (τ : Type) where
  /-- the types in `register_sequence!` -/
  register : List τ
  /-- the parts of the expression that builds `result`, in the order written -/
  build : List (Accessor × τ)
  /-- the calls of `apply_semantic`: `&result.accessor` and the names in `token_set!` -/
  apply : List (Accessor × List Str)
  lo : Accessor
  hi : Accessor

/-- `Some(#i) => { <#pt_ty>::produce(..).map(|inner| { #apply_semantic_impl Self::#pt_ident(inner) }) }`,
syntax.rs:334-339 -/
structure Arm (τ : Type) where
  index : Nat
  ty : τ
  apply : Option (List Str)
  ident : Str

/-- The code generated for an enum, syntax.rs:307-351. -/
structure EnumGen (τ : Type) where
  /-- the types in `register_union!` -/
  register : List τ
  arms : List (Arm τ)

inductive Body (τ : Type) where
  | struct (g : StructGen τ)
  | enum (g : EnumGen τ)

/-- The output of the macro. -/
structure Gen (τ : Type) where
  /-- `Production::debug` -/
  debug : Str
  body : Body τ
  /-- `impl Root`, root.rs:5-31 -/
  root : Bool
  /-- the test module, root.rs:33-51 -/
  test : Bool
  /-- `#[derive(ToSpan)]` on the item, syntax.rs:16 -/
  toSpan : Bool

variable {τ : Type}

/-- The loop of `parse_root_attributes`, syntax.rs:372-387; the state is `(root, no_test)` -/
def rootMetas : List RMeta → Bool → Bool → Except SErr (Bool × Bool)
  | [], r, t => .ok (r, t)
  | .root :: ms, _, t => rootMetas ms true t
  | .noTest :: ms, r, _ => rootMetas ms r true
  | .path :: _, _, _ => .error .rootAttr
  | .other :: _, _, _ => .error .rootAttr

/-- syntax.rs:389-392 -/
def rootCheck (r : Bool × Bool) : Except SErr (Bool × Bool) :=
  if r.2 && !r.1 then .error .noTest else .ok r

/-- `parse_root_attributes`, syntax.rs:367-393, with `parse_strip_root_meta_optional`, prelude.rs:111-125 -/
def rootAttributes : List (Option (List RMeta)) → Except SErr (Bool × Bool)
  | [] => rootCheck (false, false)
  | [none] => .error .parse
  | [some ms] => do rootCheck (← rootMetas ms false false)
  | _ => .error .multipleRoot

/-- The loop of `parse_field_attributes`, syntax.rs:415-444; the state is `(semantic, hook)` -/
def fieldMetas : List FMeta → Option (List Str) → Option Str → Except SErr (Option (List Str))
  | [], sem, _ => .ok sem
  | .semantic args :: ms, sem, hook =>
    if sem.isSome then .error .duplicateSemantic
    else match args with
      | none => .error .parse
      | some l => fieldMetas ms (some l) hook
  | .hook args :: ms, sem, hook =>
    if hook.isSome then .error .duplicateHook
    else match args with
      | none => .error .parse
      | some h => fieldMetas ms sem (some h)
  | .list _ :: ms, sem, hook => fieldMetas ms sem hook
  | .other :: _, _, _ => .error .format

/-- `parse_field_attributes`, syntax.rs:400-447 -/
def fieldAttributes : Attrs → Except SErr (Option (List Str))
  | [] => .ok none
  | [none] => .error .parse
  | [some ms] => fieldMetas ms none none
  | _ => .error .multipleAttrs

/-- syntax.rs:74-90; the first argument is the index of the next field -/
def applyUnnamed : Nat → List (FieldD τ) → Except SErr (List (Accessor × List Str))
  | _, [] => .ok []
  | i, f :: fs => do
    let sem ← fieldAttributes f.attrs
    let rest ← applyUnnamed (i + 1) fs
    match sem with
    | some l => return (.idx i, l) :: rest
    | none => return rest

/-- syntax.rs:162-176 -/
def applyNamed : List (FieldD τ) → Except SErr (List (Accessor × List Str))
  | [] => .ok []
  | f :: fs => do
    let sem ← fieldAttributes f.attrs
    let rest ← applyNamed fs
    match sem with
    | some l => return (.name f.ident, l) :: rest
    | none => return rest

/-- `Self( #( .. ),* )`: the `i`-th expression is the field `i` -/
def buildUnnamed : Nat → List (FieldD τ) → List (Accessor × τ)
  | _, [] => []
  | i, f :: fs => (.idx i, f.ty) :: buildUnnamed (i + 1) fs

/-- `expand_struct_unnamed`, syntax.rs:56-141 -/
def expandUnnamed (fs : List (FieldD τ)) : Except SErr (StructGen τ) :=
  match fs.head? with
  | none => .error .noFields
  | some _ => do
    let apply ← applyUnnamed 0 fs
    return { register := fs.map FieldD.ty, build := buildUnnamed 0 fs, apply := apply,
             lo := .idx 0, hi := .idx (fs.length - 1) }

/-- `expand_struct_named`, syntax.rs:143-230 -/
def expandNamed (fs : List (FieldD τ)) : Except SErr (StructGen τ) :=
  match fs.head?, fs.getLast? with
  | some f, some l => do
    let apply ← applyNamed fs
    return { register := fs.map FieldD.ty, build := fs.map fun f => (.name f.ident, f.ty), apply := apply,
             lo := .name f.ident, hi := .name l.ident }
  | _, _ => .error .noFields

/-- The loop syntax.rs:247-275, filling `pt_ident` and `pt_ty` -/
def variantTypes : List (VariantD τ) → Except SErr (List Str × List τ)
  | [] => .ok ([], [])
  | v :: vs =>
    if v.discriminant then .error (.discriminant v.ident)
    else match v.fields with
      | .unnamed [f] => do
        let (is, ts) ← variantTypes vs
        return (v.ident :: is, f.ty :: ts)
      | _ => .error (.variantFields v.ident)

/-- The loop syntax.rs:281-296 -/
def variantApply : List (VariantD τ) → Except SErr (List (Option (List Str)))
  | [] => .ok []
  | v :: vs => do
    let sem ← fieldAttributes v.attrs
    let rest ← variantApply vs
    return sem :: rest

/-- The repetition syntax.rs:333-340 over `i`, `pt_ty`, `apply_semantic_impl`, `pt_ident`, which stops at the
end of the shortest list -/
def arms : Nat → List τ → List (Option (List Str)) → List Str → List (Arm τ)
  | i, t :: ts, a :: as, v :: vs => ⟨i, t, a, v⟩ :: arms (i + 1) ts as vs
  | _, _, _, _ => []

/-- `expand_enum`, syntax.rs:232-354 -/
def expandEnum (vs : List (VariantD τ)) : Except SErr (EnumGen τ) := do
  let (is, ts) ← variantTypes vs
  match ts.head? with
  | none => .error .noVariants
  | some _ => do
    let as ← variantApply vs
    return { register := ts, arms := arms 0 ts as is }

/-- `expand_struct` and the choice in `expand`, syntax.rs:10-23, 41-54 -/
def expandData : DataD τ → Except SErr (Body τ)
  | .struct (.unnamed fs) => (expandUnnamed fs).map .struct
  | .struct (.named fs) => (expandNamed fs).map .struct
  | .struct .unit => .error .unitStruct
  | .enum vs => (expandEnum vs).map .enum
  | .union => .error .notStructOrEnum

def DataD.isEnum : DataD τ → Bool
  | .enum _ => true
  | _ => false

/-- `expand`, syntax.rs:5-39 -/
def expand (d : DeclD τ) : Except SErr (Gen τ) := do
  let (root, noTest) ← rootAttributes d.attrs
  let body ← expandData d.data
  return { debug := d.ident, body := body, root := root, test := !(!root || noTest), toSpan := d.data.isEnum }

/-! ## What the generated code does -/

variable {m n : Nat}

/-- `token_set!(L { a | b })`, lex/set.rs:143-147: an unknown name or an empty list (`let b = ;`) does not
compile. `resolve` finds the variant of the lexicon with a name. -/
def tokenSet (resolve : Str → Option (Fin n)) (ids : List Str) : Option (LSet n) :=
  match ids.mapM resolve with
  | some (t :: ts) => some ⟨ts.foldl (fun b t => b ||| toBit t) (toBit t)⟩
  | _ => none

/-- The place of a field in the struct. -/
def place (build : List (Accessor × τ)) (a : Accessor) : Option Nat := build.findIdx? fun e => e.1 = a

/-- A struct after name resolution. -/
structure StructCode (m n : Nat) where
  register : List (Ty m n)
  tys : List (Ty m n)
  apply : List (Nat × LSet n)
  lo : Nat
  hi : Nat

/-- Name resolution in one call of `apply_semantic`; `none` is a compile error. -/
def resolveCall (resolve : Str → Option (Fin n)) (build : List (Accessor × τ)) (e : Accessor × List Str) :
    Option (Nat × LSet n) := do
  let i ← place build e.1
  let s ← tokenSet resolve e.2
  return (i, s)

/-- Name resolution. -/
def StructGen.compile (resolve : Str → Option (Fin n)) (g : StructGen (Ty m n)) : Option (StructCode m n) := do
  let apply ← g.apply.mapM (resolveCall resolve g.build)
  let lo ← place g.build g.lo
  let hi ← place g.build g.hi
  return ⟨g.register, g.build.map (·.2), apply, lo, hi⟩

/-- An enum after name resolution: index in the jump table, type, semantic types, variant. -/
structure EnumCode (m n : Nat) where
  register : List (Ty m n)
  arms : List (Nat × Ty m n × Option (LSet n) × Nat)

/-- Name resolution in one arm; `idents` are the variants of the enum. -/
def resolveArm (resolve : Str → Option (Fin n)) (idents : List Str) (a : Arm (Ty m n)) :
    Option (Nat × Ty m n × Option (LSet n) × Nat) := do
  let sem ← (match a.apply with
    | none => some none
    | some ids => (tokenSet resolve ids).map some)
  let v ← idents.findIdx? fun i => i = a.ident
  return (a.index, a.ty, sem, v)

/-- Name resolution. -/
def EnumGen.compile (resolve : Str → Option (Fin n)) (idents : List Str) (g : EnumGen (Ty m n)) :
    Option (EnumCode m n) := do
  let arms ← g.arms.mapM (resolveArm resolve idents)
  return ⟨g.register, arms⟩

inductive Code (m n : Nat) where
  | struct (c : StructCode m n)
  | enum (c : EnumCode m n)

def DataD.idents : DataD τ → List Str
  | .enum vs => vs.map VariantD.ident
  | _ => []

/-- Name resolution for the output of the macro. -/
def Gen.compile (resolve : Str → Option (Fin n)) (d : DeclD (Ty m n)) (g : Gen (Ty m n)) : Option (Code m n) :=
  match g.body with
  | .struct s => (s.compile resolve).map .struct
  | .enum e => (e.compile resolve d.data.idents).map .enum

/-- The generated `register`: `register_sequence!` and `register_union!`, syntax/ast.rs:66-88 -/
def Code.rule : Code m n → Rule (PId m n) n
  | .struct c => .seq (c.register.map Ty.pid)
  | .enum c => .alt (c.register.map Ty.pid)

variable {σ : Type} (o : Ops σ n)

/-- The calls of `apply_semantic` on the fields of `result`. -/
def applyCalls (l : List (Tree n)) : List (Nat × LSet n) → M σ Unit
  | [] => pure ()
  | (i, s) :: cs =>
    match l[i]? with
    | some t => do
      o.mApply t.span s
      applyCalls l cs
    | none => M.crash

/-- `fn lo(&self)`, `fn hi(&self)`: syntax.rs:116-117, 206-207. (The fields exist, see `C63_span`.) -/
def StructCode.span (c : StructCode m n) (l : List (Tree n)) : Span :=
  ⟨(l[c.lo]?.map (·.span.lo)).getD 0, (l[c.hi]?.map (·.span.hi)).getD 0⟩

/-- `produce` of a struct, syntax.rs:122-135, 212-225; `rec` is `produce` of the types of the fields -/
def StructCode.produce (c : StructCode m n) (rec : Ty m n → P σ n) : P σ n := do
  match ← seqLoop (c.tys.map rec) [] [] with
  | .error e => pure (.panic e)
  | .ok (l, errs) => do
    applyCalls o l c.apply
    pure (Res.ofPair (.seq (c.span l) l) errs)

/-- `produce` of an enum, syntax.rs:325-348 -/
def EnumCode.produce (c : EnumCode m n) (look : Option (TokenSrc n) → Option Nat) (first : TSet n)
    (rec : Ty m n → P σ n) : P σ n := do
  let tok ← o.mPeekSrc
  match (look tok).bind fun i => c.arms.find? fun a => a.1 = i with
  | some (_, ty, sem, v) => do
    let r ← rec ty
    mapVariant o v sem r
  | none => do
    let e ← o.mExpecting first
    pure (.panic [e])

/-- The generated `produce`. -/
def Code.produce (c : Code m n) (look : Option (TokenSrc n) → Option Nat) (first : TSet n)
    (rec : Ty m n → P σ n) : P σ n :=
  match c with
  | .struct c => c.produce o rec
  | .enum c => c.produce o look first rec

/-! ## `derive(ToSpan)` -/

/-- `to_span.rs`; the argument `expr` (`lo()` or `hi()`) is a parameter of the generated code -/
inductive SpanGen where
  /-- `self.#ident.#expr`, to_span.rs:37-60 -/
  | struct (a : Accessor)
  /-- the arms `Self::#ident(x, ..) => x.#expr`, to_span.rs:62-98 -/
  | enum (arms : List (Str × Accessor))
  deriving DecidableEq

/-- The two `syn_error!`s of to_span.rs. -/
inductive SpanErr where
  | union | empty
  deriving DecidableEq

/-- to_span.rs:39-59, 67-89 -/
def spanField : FieldsD τ → Except SpanErr Accessor
  | .named (f :: _) => .ok (.name f.ident)
  | .named [] => .error .empty
  | .unnamed _ => .ok (.idx 0)
  | .unit => .error .empty

/-- The loop to_span.rs:65-90 -/
def spanArms : List (VariantD τ) → Except SpanErr (List (Str × Accessor))
  | [] => .ok []
  | v :: vs => do
    let a ← spanField v.fields
    let rest ← spanArms vs
    return (v.ident, a) :: rest

/-- `expand`, to_span.rs:3-35 -/
def expandSpan : DataD τ → Except SpanErr SpanGen
  | .struct fs => (spanField fs).map .struct
  | .enum vs => (spanArms vs).map .enum
  | .union => .error .union

/-- A value of the type: the variant (none for structs) and the fields. -/
structure Value (α : Type) where
  variant : Option Str
  fields : List (Accessor × α)

/-- The generated `lo`/`hi`; `none` if the code does not compile for the type of the value (no such field or
no arm). -/
def SpanGen.eval {α β : Type} (expr : α → β) (g : SpanGen) (v : Value α) : Option β :=
  match g, v.variant with
  | .struct a, none => (v.fields.find? fun e => e.1 = a).map fun e => expr e.2
  | .enum arms, some i => do
    let arm ← arms.find? fun e => e.1 = i
    let f ← v.fields.find? fun e => e.1 = arm.2
    return expr f.2
  | _, _ => none

end Teleparse.Syn

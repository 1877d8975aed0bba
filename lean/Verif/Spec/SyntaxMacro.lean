import Verif.Model.SyntaxMacro
/-
Specification of `derive_syntax`: how a declaration is to be read.
-/
namespace Teleparse.Syn
variable {τ : Type} {m n : Nat}

/-- Everything written inside the `teleparse` attributes of a field or variant. -/
def Attrs.metas (a : Attrs) : List FMeta := (a.filterMap id).flatten

def FMeta.semantic? : FMeta → Option (List Str)
  | .semantic args => args
  | _ => none

def FMeta.isSemantic : FMeta → Bool
  | .semantic _ => true
  | _ => false

def FMeta.isHook : FMeta → Bool
  | .hook _ => true
  | _ => false

/-- The names in the `semantic(..)` attribute. -/
def Attrs.semantic (a : Attrs) : Option (List Str) := (Attrs.metas a).findSome? FMeta.semantic?

/-- The fields of a struct or variant. -/
def FieldsD.list : FieldsD τ → List (FieldD τ)
  | .unnamed l => l
  | .named l => l
  | .unit => []

/-- The parts of a declaration: the fields of a struct, or the variants of an enum with the type of their
field; with the names of the semantic types written on them. -/
def DeclD.parts (d : DeclD τ) : List (τ × Option (List Str)) :=
  match d.data with
  | .struct fs => fs.list.map fun f => (f.ty, f.attrs.semantic)
  | .enum vs => vs.flatMap fun v => v.fields.list.map fun f => (f.ty, v.attrs.semantic)
  | .union => []

/-- What a part means in a lexicon: the names must exist, and there must be one. -/
def declared (resolve : Str → Option (Fin n)) (p : Ty m n × Option (List Str)) : Option (Field m n) :=
  match p.2 with
  | none => some (p.1, none)
  | some [] => none
  | some ids => (ids.mapM resolve).map fun ts => (p.1, some (ts.foldl LSet.insert LSet.new))

/-- The user-defined type a declaration stands for. -/
def DeclD.def (d : DeclD (Ty m n)) (resolve : Str → Option (Fin n)) : Option (Def m n) :=
  match d.parts.mapM (declared resolve), d.data with
  | some (f :: fs), .struct _ => some (.struct f fs)
  | some (v :: vs), .enum _ => some (.enum v vs)
  | _, _ => none

/-- What it means for code to implement a user-defined type. -/
def Implements (c : Code m n) (D : Def m n) : Prop :=
  ∀ (S : Schema m n) (k : Fin m), S k = D → c.rule = S.rule (.user k) ∧
    ∀ (σ : Type) (o : Ops σ n) (md : Metadata (PId m n) n) (fuel : Nat) (rec : Ty m n → P σ n),
      c.produce o (md.jump.lookUp (.user k)) (md.first.get (.user k)) rec = produceStep o S md fuel rec (.user k)

/-- Names are distinct (rustc checks this). -/
def DeclD.Distinct (d : DeclD τ) : Prop :=
  match d.data with
  | .struct (.named l) => (l.map FieldD.ident).Nodup
  | .enum vs => (vs.map VariantD.ident).Nodup
  | _ => True

/-- What the macro accepts on a field or variant. -/
structure Attrs.OK (a : Attrs) : Prop where
  one : a.length ≤ 1
  parses : none ∉ a
  format : .other ∉ Attrs.metas a
  semantics : .semantic none ∉ Attrs.metas a
  hooks : .hook none ∉ Attrs.metas a
  oneSemantic : (Attrs.metas a).countP FMeta.isSemantic ≤ 1
  oneHook : (Attrs.metas a).countP FMeta.isHook ≤ 1

/-- The metas of the root attribute. -/
def DeclD.metas (d : DeclD τ) : List RMeta := (d.attrs.filterMap id).flatten

/-- A variant with exactly one unnamed field. -/
def VariantD.single (v : VariantD τ) : Bool :=
  match v.fields with
  | .unnamed [_] => true
  | _ => false

def DataD.OK : DataD τ → Prop
  | .struct .unit => False
  | .struct fs => fs.list ≠ [] ∧ ∀ f ∈ fs.list, f.attrs.OK
  | .enum vs => vs ≠ [] ∧ ∀ v ∈ vs, v.discriminant = false ∧ v.single = true ∧ v.attrs.OK
  | .union => False

/-- What the macro accepts. -/
structure DeclD.OK (d : DeclD τ) : Prop where
  oneAttr : d.attrs.length ≤ 1
  parses : none ∉ d.attrs
  path : .path ∉ d.metas
  other : .other ∉ d.metas
  noTest : .noTest ∈ d.metas → .root ∈ d.metas
  data : d.data.OK

/-- The attributes of all fields of a struct or of all variants of an enum. -/
def DeclD.allAttrs (d : DeclD τ) : List Attrs :=
  match d.data with
  | .struct fs => fs.list.map FieldD.attrs
  | .enum vs => vs.map VariantD.attrs
  | .union => []

/-- What is wrong with a declaration according to an error message. -/
def SErr.Cause (d : DeclD τ) : SErr → Prop
  | .multipleRoot => 2 ≤ d.attrs.length
  | .parse => none ∈ d.attrs ∨ ∃ a ∈ d.allAttrs,
      none ∈ a ∨ .semantic none ∈ Attrs.metas a ∨ .hook none ∈ Attrs.metas a
  | .rootAttr => .path ∈ d.metas ∨ .other ∈ d.metas
  | .noTest => .noTest ∈ d.metas ∧ .root ∉ d.metas
  | .notStructOrEnum => d.data = .union
  | .unitStruct => d.data = .struct .unit
  | .noFields => d.data = .struct (.unnamed []) ∨ d.data = .struct (.named [])
  | .discriminant i => ∃ vs, d.data = .enum vs ∧ ∃ v ∈ vs, v.ident = i ∧ v.discriminant = true
  | .variantFields i => ∃ vs, d.data = .enum vs ∧ ∃ v ∈ vs, v.ident = i ∧
      ¬ ∃ f, v.fields = .unnamed [f]
  | .noVariants => d.data = .enum []
  | .multipleAttrs => ∃ a ∈ d.allAttrs, 2 ≤ a.length
  | .duplicateSemantic => ∃ a ∈ d.allAttrs, 2 ≤ (Attrs.metas a).countP FMeta.isSemantic
  | .duplicateHook => ∃ a ∈ d.allAttrs, 2 ≤ (Attrs.metas a).countP FMeta.isHook
  | .format => ∃ a ∈ d.allAttrs, .other ∈ Attrs.metas a

/-- The fields of a value in the order of declaration fit the declared fields. -/
def Fits {α : Type} : FieldsD τ → List (Accessor × α) → Prop
  | .unnamed l, vs => vs.map Prod.fst = (List.range l.length).map Accessor.idx
  | .named l, vs => vs.map Prod.fst = l.map fun f => Accessor.name f.ident
  | .unit, vs => vs = []

/-- A value of the declared type. -/
def Value.Of {α : Type} (v : Value α) : DataD τ → Prop
  | .struct fs => v.variant = none ∧ Fits fs v.fields
  | .enum vs => ∃ x ∈ vs, v.variant = some x.ident ∧ Fits x.fields v.fields
  | .union => False

end Teleparse.Syn

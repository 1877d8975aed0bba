import Verif.Model.Program
import Verif.Spec.SyntaxMacro
import Verif.Spec.Scanning
import Verif.Spec.Parses
/-
Specification of a whole program: what its declarations mean, read without the macros. `vs` are the variants of the
lexicon.
-/
namespace Teleparse.Prog
open Macro Syn

/-- The terminals of a lexicon in the order of declaration, with the numbers of their variants. -/
def terminalsOf (vs : List Variant) : List (Nat × TMeta) :=
  vs.zipIdx.flatMap fun e => e.1.terms.map fun t => (e.2, t)

/-- rustc refuses programs in which two items, two variants or two fields have the same name. -/
structure Program.Distinct (P : Program) (vs : List Variant) : Prop where
  items : (P.types.map (fun d => some d.ident) ++ (terminalsOf vs).map fun e => e.2.ident).Nodup
  variants : (vs.map Variant.ident).Nodup
  fields : ∀ d ∈ P.types, d.Distinct

/-- The syntax type that a type as written means: names are those of the terminals and of the types of the
program. -/
inductive Means (P : Program) (vs : List Variant) : TyE → Ty P.types.length vs.length → Prop
  | term {s i t} {k : Fin vs.length} : (terminalsOf vs)[(i : Nat)]? = some (k.val, t) → t.ident = some s →
      Means P vs (.name s) (.term i ⟨k, t.lit⟩)
  | user (k : Fin P.types.length) : Means P vs (.name P.types[k].ident) (.user k)
  | box {e t} : Means P vs e t → Means P vs (.box e) (.box t)
  | option {e t} : Means P vs e t → Means P vs (.option e) (.option t)
  | exist {e t} : Means P vs e t → Means P vs (.exist e) (.exist t)
  | quote {e t} : Means P vs e t → Means P vs (.quote e) (.quote t)
  | parse {e t} : Means P vs e t → Means P vs (.parse e) (.parse t)
  | plus {e t} : Means P vs e t → Means P vs (.plus e) (.plus t)
  | star {e t} : Means P vs e t → Means P vs (.star e) (.star t)
  | loop {e t} : Means P vs e t → Means P vs (.loop e) (.loop t)
  | split {e t f p} : Means P vs e t → Means P vs f p → Means P vs (.split e f) (.split t p)
  | punct {e t f p} : Means P vs e t → Means P vs f p → Means P vs (.punct e f) (.punct t p)
  | recover {e t f p} : Means P vs e t → Means P vs f p → Means P vs (.recover e f) (.recover t p)
  | tup2 {a b a' b'} : Means P vs a a' → Means P vs b b' → Means P vs (.tup2 a b) (.tup2 a' b')
  | tup3 {a b c a' b' c'} : Means P vs a a' → Means P vs b b' → Means P vs c c' →
      Means P vs (.tup3 a b c) (.tup3 a' b' c')
  | tup4 {a b c d a' b' c' d'} : Means P vs a a' → Means P vs b b' → Means P vs c c' → Means P vs d d' →
      Means P vs (.tup4 a b c d) (.tup4 a' b' c' d')
  | tup5 {a b c d e a' b' c' d' e'} : Means P vs a a' → Means P vs b b' → Means P vs c c' → Means P vs d d' →
      Means P vs e e' → Means P vs (.tup5 a b c d e) (.tup5 a' b' c' d' e')

/-- What a field or variant with the names of semantic types means: the set has the types of these names. -/
inductive PartMeans (P : Program) (vs : List Variant) :
    TyE × Option (List Str) → Field P.types.length vs.length → Prop
  | plain {e t} : Means P vs e t → PartMeans P vs (e, none) (t, none)
  | semantic {e t ids xs} : Means P vs e t → ids ≠ [] → All2 (fun i (x : Fin vs.length) => vs[x.val].ident = i) ids xs →
      PartMeans P vs (e, some ids) (t, some (xs.foldl LSet.insert LSet.new))

/-- The definition that a declaration means: structs are structs, enums are enums, and the parts are in the order of
declaration. -/
inductive DefMeans (P : Program) (vs : List Variant) : DeclD TyE → Def P.types.length vs.length → Prop
  | struct {d fs f l} : d.data = .struct fs → All2 (PartMeans P vs) d.parts (f :: l) → DefMeans P vs d (.struct f l)
  | enum {d us f l} : d.data = .enum us → All2 (PartMeans P vs) d.parts (f :: l) → DefMeans P vs d (.enum f l)

/-- The user-defined types that the program declares. -/
def Program.Declares (P : Program) (vs : List Variant) (S : Schema P.types.length vs.length) : Prop :=
  ∀ k, DefMeans P vs P.types[k] (S k)

/-- What is needed for the program to compile: declarations that `derive_syntax` accepts, types made of known names,
and at least one name in every `semantic(..)`, all of them of token types. -/
def Program.Good (P : Program) (vs : List Variant) : Prop :=
  ∀ d ∈ P.types, d.OK ∧ ∀ p ∈ d.parts, (∃ t, Means P vs p.1 t) ∧
    ∀ ids, p.2 = some ids → ids ≠ [] ∧ ∀ i ∈ ids, ∃ v ∈ vs, v.ident = i

/-! ## The declared language -/

/-- The parts of a tuple type. -/
def TyE.isTuple (e : TyE) (es : List TyE) : Prop :=
  (∃ a b, e = .tup2 a b ∧ es = [a, b]) ∨ (∃ a b c, e = .tup3 a b c ∧ es = [a, b, c]) ∨
  (∃ a b c d, e = .tup4 a b c d ∧ es = [a, b, c, d]) ∨
  (∃ a b c d f, e = .tup5 a b c d f ∧ es = [a, b, c, d, f])

mutual
/-- The sequences of tokens that a type as written stands for. -/
inductive Sent (P : Program) (vs : List Variant) : TyE → List (TokenSrc vs.length) → Prop
  /-- a token of the variant the terminal is declared on, with the text given there -/
  | term {s tok t} : t ∈ vs[tok.ty.val].terms → t.ident = some s → (∀ lit, t.lit = some lit → tok.src = lit) →
      Sent P vs (.name s) [tok]
  /-- all fields, in the order of declaration -/
  | struct {d fs w} : d ∈ P.types → d.data = .struct fs → SentSeq P vs (fs.list.map FieldD.ty) w →
      Sent P vs (.name d.ident) w
  /-- any one of the variants -/
  | enum {d us u f w} : d ∈ P.types → d.data = .enum us → u ∈ us → f ∈ u.fields.list → Sent P vs f.ty w →
      Sent P vs (.name d.ident) w
  | tuple {e es w} : e.isTuple es → SentSeq P vs es w → Sent P vs e w
  | box {e w} : Sent P vs e w → Sent P vs (.box e) w
  | quote {e w} : Sent P vs e w → Sent P vs (.quote e) w
  | parse {e w} : Sent P vs e w → Sent P vs (.parse e) w
  | optNone {e} : Sent P vs (.option e) []
  | optSome {e w} : Sent P vs e w → Sent P vs (.option e) w
  | existNone {e} : Sent P vs (.exist e) []
  | existSome {e w} : Sent P vs e w → Sent P vs (.exist e) w
  | plus {e k w} : SentSeq P vs (List.replicate (k + 1) e) w → Sent P vs (.plus e) w
  | star {e k w} : SentSeq P vs (List.replicate k e) w → Sent P vs (.star e) w
  | loop {e k w} : SentSeq P vs (List.replicate k e) w → Sent P vs (.loop e) w
  /-- elements with punctuation between them -/
  | split {e p k w} : SentSeq P vs (alternate e p (2 * k + 1)) w → Sent P vs (.split e p) w
  /-- and after the last one, if wanted -/
  | punct {e p k w} : SentSeq P vs (alternate e p (k + 1)) w → Sent P vs (.punct e p) w
  | recover {e r w} : SentSeq P vs [e, r] w → Sent P vs (.recover e r) w

/-- One after the other. -/
inductive SentSeq (P : Program) (vs : List Variant) : List TyE → List (TokenSrc vs.length) → Prop
  | nil : SentSeq P vs [] []
  | cons {e es w w'} : Sent P vs e w → SentSeq P vs es w' → SentSeq P vs (e :: es) (w ++ w')
end

end Teleparse.Prog

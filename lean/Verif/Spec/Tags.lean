import Verif.Spec.Parses
/-
Specification: the values of fields and variants declared with `#[teleparse(semantic(..))]`.
-/
namespace Teleparse
variable {m n : Nat}

/-- The fields of a struct or the variants of an enum as declared. -/
def Def.declared : Def m n → List (Field m n)
  | .struct f fs => f :: fs
  | .enum f fs => f :: fs

/-- In the tree `x` of the type `t`, at any depth, `y` is the value of a field or a variant declared with the
semantic types `sem`. The values inside `Quote`, `Parse` and `Exists` are not part of the tree. -/
inductive Tagged (S : Schema m n) : Ty m n → Tree n → LSet n → Tree n → Prop
  | field {k f fs sp l i t sem y} : S k = .struct f fs → (f :: fs)[(i : Nat)]? = some (t, some sem) → l[i]? = some y →
      Tagged S (.user k) (.seq sp l) sem y
  | inField {k f fs sp l i t s z sem y} : S k = .struct f fs → (f :: fs)[(i : Nat)]? = some (t, s) → l[i]? = some z →
      Tagged S t z sem y → Tagged S (.user k) (.seq sp l) sem y
  | variant {k f fs i t sem y} : S k = .enum f fs → (f :: fs)[(i : Nat)]? = some (t, some sem) →
      Tagged S (.user k) (.variant i y) sem y
  | inVariant {k f fs i t s z sem y} : S k = .enum f fs → (f :: fs)[(i : Nat)]? = some (t, s) →
      Tagged S t z sem y → Tagged S (.user k) (.variant i z) sem y
  | tuple {t ts sp l i u z sem y} : t.isTuple ts → ts[(i : Nat)]? = some u → l[i]? = some z → Tagged S u z sem y →
      Tagged S t (.seq sp l) sem y
  | box {t x sem y} : Tagged S t x sem y → Tagged S (.box t) x sem y
  | option {t sp x sem y} : Tagged S t x sem y → Tagged S (.option t) (.optSome sp x) sem y
  | plus {t sp l z sem y} : z ∈ l → Tagged S t z sem y → Tagged S (.plus t) (.list sp l) sem y
  | star {t sp l z sem y} : z ∈ l → Tagged S t z sem y → Tagged S (.star t) (.list sp l) sem y
  | loop {t sp l z sem y} : z ∈ l → Tagged S t z sem y → Tagged S (.loop t) (.list sp l) sem y
  | splitElem {t p sp es ps z sem y} : z ∈ es → Tagged S t z sem y → Tagged S (.split t p) (.split sp es ps) sem y
  | splitPunct {t p sp es ps z sem y} : z ∈ ps → Tagged S p z sem y → Tagged S (.split t p) (.split sp es ps) sem y
  | punctElem {t p sp es ps z sem y} : z ∈ es → Tagged S t z sem y → Tagged S (.punct t p) (.split sp es ps) sem y
  | punctPunct {t p sp es ps z sem y} : z ∈ ps → Tagged S p z sem y → Tagged S (.punct t p) (.split sp es ps) sem y
  | head {t r hs x z sem y} : Tagged S t x sem y → Tagged S (.recover t r) (.recover hs x z) sem y
  | tail {t r hs x z sem y} : Tagged S r z sem y → Tagged S (.recover t r) (.recover hs x z) sem y
  | tailOnly {t r hs z sem y} : Tagged S r z sem y → Tagged S (.recover t r) (.recoverNone hs z) sem y

/-- Some field or variant in the type, at any depth, is declared with the semantic type. -/
def Declares (S : Schema m n) (t : Ty m n) (V : Fin n) : Prop :=
  ∃ k g sem, Reach S.tyParts t (.user k) ∧ g ∈ (S k).declared ∧ g.2 = some sem ∧ sem.contains V = true

/-- `Quote`, `Parse` and `Exists`, which do not keep the tree of what they are about. -/
def Ty.hidden : Ty m n → Option (Ty m n)
  | .quote t | .parse t | .exist t => some t
  | _ => none

/-- The tree shows all that is declared: no semantic types are declared inside `Quote`, `Parse` or `Exists`. -/
def TreeShows (S : Schema m n) (t : Ty m n) : Prop :=
  ∀ u v, Reach S.tyParts t u → u.hidden = some v → ∀ V, ¬ Declares S v V

end Teleparse

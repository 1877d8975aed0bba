import Verif.Model.Sized
/-
When all types of a program have a finite size, and when two programs differ only in boxes around fields.
-/
namespace Teleparse
variable {m n : Nat}

/-- The memory of a value of the type has place for a value of the struct or enum `j`: it is this type; or there is place
for it in the content of an option, in one of the two parts of a `Recover`, or in an element of a tuple. Boxes and lists
have their content elsewhere, and the other types have no content. -/
inductive Inside (j : Fin m) : Ty m n → Prop
  | user : Inside j (.user j)
  | option {t} : Inside j t → Inside j (.option t)
  | recover {t r u} : u ∈ [t, r] → Inside j u → Inside j (.recover t r)
  | tup2 {a b u} : u ∈ [a, b] → Inside j u → Inside j (.tup2 a b)
  | tup3 {a b c u} : u ∈ [a, b, c] → Inside j u → Inside j (.tup3 a b c)
  | tup4 {a b c d u} : u ∈ [a, b, c, d] → Inside j u → Inside j (.tup4 a b c d)
  | tup5 {a b c d e u} : u ∈ [a, b, c, d, e] → Inside j u → Inside j (.tup5 a b c d e)

/-- The struct has the field, or the enum the variant. -/
inductive HasPart : Def m n → Field m n → Prop
  | field {f fs g} : g ∈ f :: fs → HasPart (.struct f fs) g
  | variant {v vs g} : g ∈ v :: vs → HasPart (.enum v vs) g

/-- Values of the type `k` have values of the type `j` in them, not behind a pointer. -/
inductive Stores (S : Schema m n) : Fin m → Fin m → Prop
  | one {k j f} : HasPart (S k) f → Inside j f.1 → Stores S k j
  | trans {k j i} : Stores S k j → Stores S j i → Stores S k i

/-- No type stores itself. -/
def Schema.Sized (S : Schema m n) : Prop := ∀ k : Fin m, ¬ Stores S k k

/-- A type without the boxes around it. -/
def Ty.bare : Ty m n → Ty m n
  | .box t => t.bare
  | t => t

/-- The same fields up to boxes around them. -/
inductive FieldsBoxed : List (Field m n) → List (Field m n) → Prop
  | nil : FieldsBoxed [] []
  | cons {a b : Field m n} {l l'} : a.1.bare = b.1.bare → a.2 = b.2 → FieldsBoxed l l' → FieldsBoxed (a :: l) (b :: l')

/-- The same struct or enum up to boxes around fields. -/
inductive DefBoxed : Def m n → Def m n → Prop
  | struct {f fs f' fs'} : FieldsBoxed (f :: fs) (f' :: fs') → DefBoxed (.struct f fs) (.struct f' fs')
  | enum {f fs f' fs'} : FieldsBoxed (f :: fs) (f' :: fs') → DefBoxed (.enum f fs) (.enum f' fs')

/-- The same program up to boxes around fields. -/
def Schema.SameButBoxes (S S' : Schema m n) : Prop := ∀ k : Fin m, DefBoxed (S k) (S' k)

end Teleparse

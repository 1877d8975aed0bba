import Verif.Spec.Parses
import Verif.Spec.Layout
/-
Specification of types that differ only in how they are written: boxes, structs instead of tuples, other names,
several copies of a type.
-/
namespace Teleparse
variable {m m' n : Nat}

/-- The parts of a struct or tuple, with the semantic types given to them. -/
def Schema.fields? (S : Schema m n) : Ty m n → Option (List (Field m n))
  | .user k =>
    match S k with
    | .struct f fs => some (f :: fs)
    | .enum _ _ => none
  | .tup2 a b => some [(a, none), (b, none)]
  | .tup3 a b c => some [(a, none), (b, none), (c, none)]
  | .tup4 a b c d => some [(a, none), (b, none), (c, none), (d, none)]
  | .tup5 a b c d e => some [(a, none), (b, none), (c, none), (d, none), (e, none)]
  | _ => none

/-- Corresponding parts: types related by `R`, and the same semantic types. -/
def FieldAlike (R : Ty m n → Ty m' n → Prop) (f : Field m n) (f' : Field m' n) : Prop := R f.1 f'.1 ∧ f.2 = f'.2

/-- The two types have the same form, with parts related by `R`. -/
inductive SameForm (S : Schema m n) (S' : Schema m' n) (R : Ty m n → Ty m' n → Prop) : Ty m n → Ty m' n → Prop
  | boxL {a b} : SameForm S S' R a b → SameForm S S' R (.box a) b
  | boxR {a b} : SameForm S S' R a b → SameForm S S' R a (.box b)
  | term (k k' : Nat) (t : Terminal n) : SameForm S S' R (.term k t) (.term k' t)
  | fields {a b l l'} : S.fields? a = some l → S'.fields? b = some l' → Pointwise (FieldAlike R) l l' →
      SameForm S S' R a b
  | variants {k k' v vs v' vs'} : S k = .enum v vs → S' k' = .enum v' vs' →
      Pointwise (FieldAlike R) (v :: vs) (v' :: vs') → SameForm S S' R (.user k) (.user k')
  | option {a b} : R a b → SameForm S S' R (.option a) (.option b)
  | exist {a b} : R a b → SameForm S S' R (.exist a) (.exist b)
  | quote {a b} : R a b → SameForm S S' R (.quote a) (.quote b)
  | parse {a b} : R a b → SameForm S S' R (.parse a) (.parse b)
  | plus {a b} : R a b → SameForm S S' R (.plus a) (.plus b)
  | star {a b} : R a b → SameForm S S' R (.star a) (.star b)
  | loop {a b} : R a b → SameForm S S' R (.loop a) (.loop b)
  | split {a b c d} : R a b → R c d → SameForm S S' R (.split a c) (.split b d)
  | punct {a b c d} : R a b → R c d → SameForm S S' R (.punct a c) (.punct b d)
  | recover {a b c d} : R a b → R c d → SameForm S S' R (.recover a c) (.recover b d)

/-- `R` relates types that have the same form all the way down. -/
def Interchange (S : Schema m n) (S' : Schema m' n) (R : Ty m n → Ty m' n → Prop) : Prop :=
  ∀ a b, R a b → SameForm S S' R a b

/-- A type without its boxes. -/
def Ty.unbox : Ty m n → Ty m n
  | .term k t => .term k t
  | .user k => .user k
  | .box t => t.unbox
  | .option t => .option t.unbox
  | .exist t => .exist t.unbox
  | .quote t => .quote t.unbox
  | .parse t => .parse t.unbox
  | .plus t => .plus t.unbox
  | .star t => .star t.unbox
  | .loop t => .loop t.unbox
  | .split t p => .split t.unbox p.unbox
  | .punct t p => .punct t.unbox p.unbox
  | .recover t r => .recover t.unbox r.unbox
  | .tup2 a b => .tup2 a.unbox b.unbox
  | .tup3 a b c => .tup3 a.unbox b.unbox c.unbox
  | .tup4 a b c d => .tup4 a.unbox b.unbox c.unbox d.unbox
  | .tup5 a b c d e => .tup5 a.unbox b.unbox c.unbox d.unbox e.unbox

/-- All types without their boxes. (Rust needs some of them: a type cannot contain itself.) -/
def Schema.unbox (S : Schema m n) : Schema m n := fun k =>
  match S k with
  | .struct f fs => .struct (f.1.unbox, f.2) (fs.map fun f => (f.1.unbox, f.2))
  | .enum v vs => .enum (v.1.unbox, v.2) (vs.map fun v => (v.1.unbox, v.2))

end Teleparse

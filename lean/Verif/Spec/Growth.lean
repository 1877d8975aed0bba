import Verif.Spec.Interchange
/-
Specification of a grammar that grows: enums get more variants, anywhere in the list, and types are added.
-/
namespace Teleparse
variable {m m' n : Nat}

/-- The type in a program in which the `k`-th user-defined type has the number `emb k`. -/
def Ty.lift (emb : Fin m → Fin m') : Ty m n → Ty m' n
  | .term k t => .term k t
  | .user k => .user (emb k)
  | .box t => .box (t.lift emb)
  | .option t => .option (t.lift emb)
  | .exist t => .exist (t.lift emb)
  | .quote t => .quote (t.lift emb)
  | .parse t => .parse (t.lift emb)
  | .plus t => .plus (t.lift emb)
  | .star t => .star (t.lift emb)
  | .loop t => .loop (t.lift emb)
  | .split t p => .split (t.lift emb) (p.lift emb)
  | .punct t p => .punct (t.lift emb) (p.lift emb)
  | .recover t r => .recover (t.lift emb) (r.lift emb)
  | .tup2 a b => .tup2 (a.lift emb) (b.lift emb)
  | .tup3 a b c => .tup3 (a.lift emb) (b.lift emb) (c.lift emb)
  | .tup4 a b c d => .tup4 (a.lift emb) (b.lift emb) (c.lift emb) (d.lift emb)
  | .tup5 a b c d e => .tup5 (a.lift emb) (b.lift emb) (c.lift emb) (d.lift emb) (e.lift emb)

/-- `S'` has the types of `S` and maybe more. Structs are the same. Enums have the variants they have in `S` and maybe
more; the `i`-th variant of the `k`-th type is the `pos k i`-th in `S'`. -/
structure Grown (S : Schema m n) (S' : Schema m' n) (emb : Fin m → Fin m') (pos : Fin m → Nat → Nat) : Prop where
  structs : ∀ k f fs, S k = .struct f fs →
    S' (emb k) = .struct (f.1.lift emb, f.2) (fs.map fun f => (f.1.lift emb, f.2))
  enums : ∀ k v vs, S k = .enum v vs → ∃ v' vs', S' (emb k) = .enum v' vs' ∧
    (∀ i t sem, (v :: vs)[i]? = some (t, sem) → (v' :: vs')[pos k i]? = some (t.lift emb, sem)) ∧
    (∀ i j, i < (v :: vs).length → j < (v :: vs).length → pos k i = pos k j → i = j)

/-- A type without the boxes around it. -/
def Ty.core : Ty m n → Ty m n
  | .box t => t.core
  | t => t

/-- The type of the parts of a list, an optional part or the elements of a separated list. -/
def Ty.elem : Ty m n → Ty m n
  | .option t | .plus t | .star t | .loop t | .split t _ | .punct t _ | .recover t _ => t
  | t => t

/-- The type of the separators, or of the end of a `Recover`. -/
def Ty.elem' : Ty m n → Ty m n
  | .split _ p | .punct _ p | .recover _ p => p
  | t => t

/-- The type of the `i`-th variant. -/
def Schema.variantTy (S : Schema m n) (k : Fin m) (i : Nat) : Ty m n :=
  match S k with
  | .enum v vs => (((v :: vs)[i]?).map (·.1)).getD v.1
  | .struct f _ => f.1

/-- The types of the parts of a struct or tuple. -/
def Schema.partTys (S : Schema m n) (t : Ty m n) : List (Ty m n) := ((S.fields? t).getD []).map (·.1)

mutual
/-- The tree of a type of `S` with the variants numbered by `pos`; nothing else is changed. -/
def Tree.renumber (S : Schema m n) (pos : Fin m → Nat → Nat) : Tree n → Ty m n → Tree n
  | .tok t, _ => .tok t
  | .seq sp l, ty => .seq sp (renumberAll S pos l (S.partTys ty.core))
  | .variant i x, ty =>
    match ty.core with
    | .user k => .variant (pos k i) (x.renumber S pos (S.variantTy k i))
    | _ => .variant i x
  | .optSome sp x, ty => .optSome sp (x.renumber S pos ty.core.elem)
  | .optNone sp, _ => .optNone sp
  | .exist sp b, _ => .exist sp b
  | .text sp s, _ => .text sp s
  | .list sp l, ty => .list sp (renumberAll S pos l (List.replicate l.length ty.core.elem))
  | .split sp es ps, ty => .split sp (renumberAll S pos es (List.replicate es.length ty.core.elem))
      (renumberAll S pos ps (List.replicate ps.length ty.core.elem'))
  | .recover hs x y, ty => .recover hs (x.renumber S pos ty.core.elem) (y.renumber S pos ty.core.elem')
  | .recoverNone hs y, ty => .recoverNone hs (y.renumber S pos ty.core.elem')

/-- The trees of the types. -/
def renumberAll (S : Schema m n) (pos : Fin m → Nat → Nat) : List (Tree n) → List (Ty m n) → List (Tree n)
  | x :: xs, t :: ts => x.renumber S pos t :: renumberAll S pos xs ts
  | _, _ => []
end

end Teleparse

import Verif.Spec.Growth
import Verif.Spec.Layout
/-
Specification of two programs that are the same up to names and the order of declarations: token types, terminals and
syntax types are numbered differently, and the variants of enums are in another order.
-/
namespace Teleparse
variable {m n m' n' : Nat}

/-- The numbers of things in another program. -/
structure Relabel (m n m' n' : Nat) where
  /-- of the user-defined types -/
  ty : Fin m → Fin m'
  /-- of the token types -/
  tok : Fin n → Fin n'
  /-- of the terminal structs -/
  term : Nat → Nat
  /-- of the variants of a type -/
  variant : Fin m → Nat → Nat

def Token.retok (ρ : Fin n → Fin n') (t : Token n) : Token n' := ⟨t.span, ρ t.ty⟩
def TokenSrc.retok (ρ : Fin n → Fin n') (t : TokenSrc n) : TokenSrc n' := ⟨ρ t.ty, t.src⟩
def Terminal.retok (ρ : Fin n → Fin n') (t : Terminal n) : Terminal n' := ⟨ρ t.ty, t.lit⟩
def Item.retok (ρ : Fin n → Fin n') : Item n → Item n'
  | .token t => .token (t.retok ρ)
  | .error sp => .error sp

/-- The type in the other program. -/
def Ty.relabel (r : Relabel m n m' n') : Ty m n → Ty m' n'
  | .term k t => .term (r.term k) (t.retok r.tok)
  | .user k => .user (r.ty k)
  | .box t => .box (t.relabel r)
  | .option t => .option (t.relabel r)
  | .exist t => .exist (t.relabel r)
  | .quote t => .quote (t.relabel r)
  | .parse t => .parse (t.relabel r)
  | .plus t => .plus (t.relabel r)
  | .star t => .star (t.relabel r)
  | .loop t => .loop (t.relabel r)
  | .split t p => .split (t.relabel r) (p.relabel r)
  | .punct t p => .punct (t.relabel r) (p.relabel r)
  | .recover t q => .recover (t.relabel r) (q.relabel r)
  | .tup2 a b => .tup2 (a.relabel r) (b.relabel r)
  | .tup3 a b c => .tup3 (a.relabel r) (b.relabel r) (c.relabel r)
  | .tup4 a b c d => .tup4 (a.relabel r) (b.relabel r) (c.relabel r) (d.relabel r)
  | .tup5 a b c d e => .tup5 (a.relabel r) (b.relabel r) (c.relabel r) (d.relabel r) (e.relabel r)

/-- The same semantic types. -/
structure SemAs (ρ : Fin n → Fin n') (a : LSet n) (a' : LSet n') : Prop where
  same : ∀ t, a'.contains (ρ t) = a.contains t
  only : ∀ t', a'.contains t' = true → ∃ t, t' = ρ t

/-- The same set of tokens; the end of input in both or neither. -/
structure SetAs (ρ : Fin n → Fin n') (s : TSet n) (s' : TSet n') : Prop where
  eof : s'.contains none = s.contains none
  tok : ∀ t, s'.contains (some (t.retok ρ)) = s.contains (some t)
  only : ∀ t', s'.contains (some t') = true → ∃ t : TokenSrc n, t' = t.retok ρ

/-- The same value or none in both. -/
inductive BothOr {α β : Type} (R : α → β → Prop) : Option α → Option β → Prop
  | none : BothOr R none none
  | some {a b} : R a b → BothOr R (some a) (some b)

/-- The same field or variant. -/
structure FieldAs (r : Relabel m n m' n') (f : Field m n) (f' : Field m' n') : Prop where
  ty : f'.1 = f.1.relabel r
  sem : BothOr (SemAs r.tok) f.2 f'.2

/-- `S'` has the types of `S`, with the same fields in the same order, and the same variants in any order. There can be
more types in `S'`, and more token types, which the types of `S` do not use. -/
structure Relabelled (S : Schema m n) (S' : Schema m' n') (r : Relabel m n m' n') : Prop where
  tys : ∀ k k', r.ty k = r.ty k' → k = k'
  toks : ∀ t t', r.tok t = r.tok t' → t = t'
  terms : ∀ k k', r.term k = r.term k' → k = k'
  structs : ∀ k f fs, S k = .struct f fs → ∃ f' fs', S' (r.ty k) = .struct f' fs' ∧
    Pointwise (FieldAs r) (f :: fs) (f' :: fs')
  enums : ∀ k v vs, S k = .enum v vs → ∃ v' vs', S' (r.ty k) = .enum v' vs' ∧
    (∀ i f, (v :: vs)[i]? = some f → ∃ f', (v' :: vs')[r.variant k i]? = some f' ∧ FieldAs r f f') ∧
    (∀ i j, i < (v :: vs).length → j < (v :: vs).length → r.variant k i = r.variant k j → i = j) ∧
    (∀ j < (v' :: vs').length, ∃ i < (v :: vs).length, r.variant k i = j)

mutual
/-- The tree with other numbers for token types. -/
def Tree.retok (ρ : Fin n → Fin n') : Tree n → Tree n'
  | .tok t => .tok (t.retok ρ)
  | .seq sp l => .seq sp (retokAll ρ l)
  | .variant i x => .variant i (x.retok ρ)
  | .optSome sp x => .optSome sp (x.retok ρ)
  | .optNone sp => .optNone sp
  | .exist sp b => .exist sp b
  | .text sp s => .text sp s
  | .list sp l => .list sp (retokAll ρ l)
  | .split sp es ps => .split sp (retokAll ρ es) (retokAll ρ ps)
  | .recover hs x y => .recover hs (x.retok ρ) (y.retok ρ)
  | .recoverNone hs y => .recoverNone hs (y.retok ρ)

def retokAll (ρ : Fin n → Fin n') : List (Tree n) → List (Tree n')
  | [] => []
  | x :: l => x.retok ρ :: retokAll ρ l
end

/-- The tree of a type in the other program. -/
def Tree.relabel (S : Schema m n) (r : Relabel m n m' n') (t : Ty m n) (x : Tree n) : Tree n' :=
  (x.renumber S r.variant t).retok r.tok

/-- The same error: at the same place, and if something is expected, the same. -/
inductive ErrAs (ρ : Fin n → Fin n') : Err n → Err n' → Prop
  | expecting {sp s s'} : SetAs ρ s s' → ErrAs ρ ⟨sp, .expecting s⟩ ⟨sp, .expecting s'⟩
  | unexpectedCharacters {sp} : ErrAs ρ ⟨sp, .unexpectedCharacters⟩ ⟨sp, .unexpectedCharacters⟩
  | unexpectedTokens {sp} : ErrAs ρ ⟨sp, .unexpectedTokens⟩ ⟨sp, .unexpectedTokens⟩
  | unexpectedEof {sp} : ErrAs ρ ⟨sp, .unexpectedEof⟩ ⟨sp, .unexpectedEof⟩
  | noAdvance {sp} : ErrAs ρ ⟨sp, .noAdvance⟩ ⟨sp, .noAdvance⟩

/-- The same token with the same semantic types. -/
structure CellAs (ρ : Fin n → Fin n') (c : Cell n) (c' : Cell n') : Prop where
  token : c'.token = c.token.retok ρ
  semantic : SemAs ρ c.semantic c'.semantic

/-- The same parser: everything that was read, recorded and produced so far, and everything to come. -/
structure ParserAs (ρ : Fin n → Fin n') (p : Parser n) (p' : Parser n') : Prop where
  source : p'.info.source = p.info.source
  invalidSource : p'.info.invalidSource = p.info.invalidSource
  invalidTokens : p'.info.invalidTokens = p.info.invalidTokens.map (Token.retok ρ)
  tokens : Pointwise (CellAs ρ) p.info.tokens p'.info.tokens
  extracted : p'.info.extracted = p.info.extracted.map (Token.retok ρ)
  errors : Pointwise (ErrAs ρ) p.info.errors p'.info.errors
  items : p'.lexer.items = p.lexer.items.map (Item.retok ρ)
  last : p'.lexer.last = p.lexer.last
  peeked : p'.peeked = p.peeked.map (Token.retok ρ)

/-- The same outcome of `Parser::parse`: both reject the grammar; or the same tree or none, and the same parser. -/
inductive OutAs (S : Schema m n) (r : Relabel m n m' n') (root : Ty m n) :
    Out (Parser n) (Except (GErr (PId m n)) (Option (Tree n))) →
    Out (Parser n') (Except (GErr (PId m' n')) (Option (Tree n'))) → Prop
  | fuel : OutAs S r root .fuel .fuel
  | crash : OutAs S r root .crash .crash
  | rejected {e e' p p'} : ParserAs r.tok p p' → OutAs S r root (.ok (.error e) p) (.ok (.error e') p')
  | parsed {x p p'} : ParserAs r.tok p p' →
      OutAs S r root (.ok (.ok x) p) (.ok (.ok (x.map (Tree.relabel S r root))) p')

end Teleparse

import Verif.Model.LexiconMacro
import Verif.Model.SyntaxMacro
import Verif.Model.Names
/-
Model of a whole program: one lexicon (`#[derive_lexicon]`) and the types with `#[derive_syntax]`. The types of fields
are expressions over names. The names are those of the terminal structs generated by `derive_lexicon` and of the
types with `derive_syntax`; what rustc does with them is resolution by name.
-/
namespace Teleparse.Prog
open Macro Syn

/-- A type as written in a field: a name, or one of the types of `teleparse::tp` applied to types. -/
inductive TyE where
  | name (s : Str)
  | box (t : TyE)
  | option (t : TyE)
  | exist (t : TyE)
  | quote (t : TyE)
  | parse (t : TyE)
  | plus (t : TyE)
  | star (t : TyE)
  | loop (t : TyE)
  | split (t p : TyE)
  | punct (t p : TyE)
  | recover (t r : TyE)
  | tup2 (a b : TyE)
  | tup3 (a b c : TyE)
  | tup4 (a b c d : TyE)
  | tup5 (a b c d e : TyE)

structure Program where
  lexicon : Decl
  types : List (DeclD TyE)

variable {m n : Nat}

/-- `L::name` -/
def tokenNamed (L : Lexicon) (s : Str) : Option (Fin n) := do
  let e ← L.variants.find? fun e => e.1 = s
  if h : e.2 < n then some ⟨e.2, h⟩ else none

/-- The terminal struct with a name: its number, and what it registers and parses (`add_terminal`, `parse_token`,
`parse_token_lit`), macros/src/lexicon.rs:395-476. -/
def termNamed (L : Lexicon) (s : Str) : Option (Ty m n) := do
  let k ← L.terminals.findIdx? fun t => t.name = s
  let t ← L.terminals[k]?
  let ty ← tokenNamed L t.variant
  return .term k ⟨ty, t.lit⟩

/-- The type with `derive_syntax` with a name. -/
def Program.userNamed (P : Program) (s : Str) : Option (Ty P.types.length n) :=
  (P.types.findFinIdx? fun d => d.ident = s).map .user

/-- Resolution of names in a type; `none` is a compile error. -/
def TyE.resolve (f : Str → Option (Ty m n)) : TyE → Option (Ty m n)
  | .name s => f s
  | .box t => return .box (← t.resolve f)
  | .option t => return .option (← t.resolve f)
  | .exist t => return .exist (← t.resolve f)
  | .quote t => return .quote (← t.resolve f)
  | .parse t => return .parse (← t.resolve f)
  | .plus t => return .plus (← t.resolve f)
  | .star t => return .star (← t.resolve f)
  | .loop t => return .loop (← t.resolve f)
  | .split t p => return .split (← t.resolve f) (← p.resolve f)
  | .punct t p => return .punct (← t.resolve f) (← p.resolve f)
  | .recover t r => return .recover (← t.resolve f) (← r.resolve f)
  | .tup2 a b => return .tup2 (← a.resolve f) (← b.resolve f)
  | .tup3 a b c => return .tup3 (← a.resolve f) (← b.resolve f) (← c.resolve f)
  | .tup4 a b c d => return .tup4 (← a.resolve f) (← b.resolve f) (← c.resolve f) (← d.resolve f)
  | .tup5 a b c d e =>
    return .tup5 (← a.resolve f) (← b.resolve f) (← c.resolve f) (← d.resolve f) (← e.resolve f)

/-- A name means a type with `derive_syntax` or a terminal struct (rustc refuses programs in which a name is both). -/
def Program.named (P : Program) (L : Lexicon) (s : Str) : Option (Ty P.types.length n) :=
  (P.userNamed s).or (termNamed L s)

/-! ## Resolution in the output of `derive_syntax` -/

variable {τ τ' : Type} (f : τ → Option τ')

def resolveBuild (e : Accessor × τ) : Option (Accessor × τ') := (f e.2).map fun t => (e.1, t)

def resolveArmTy (a : Arm τ) : Option (Arm τ') := (f a.ty).map fun t => ⟨a.index, t, a.apply, a.ident⟩

def resolveBody : Body τ → Option (Body τ')
  | .struct g => do
    let register ← g.register.mapM f
    let build ← g.build.mapM (resolveBuild f)
    return .struct ⟨register, build, g.apply, g.lo, g.hi⟩
  | .enum g => do
    let register ← g.register.mapM f
    let arms ← g.arms.mapM (resolveArmTy f)
    return .enum ⟨register, arms⟩

/-- Name resolution in the generated code: types, and then fields, variants and token types
(`Syn.Gen.compile`, with the variants of the type). -/
def compileGen (L : Lexicon) (f : τ → Option (Ty m n)) (idents : List Str) (g : Gen τ) : Option (Code m n) := do
  match ← resolveBody f g.body with
  | .struct s => (s.compile (tokenNamed L)).map .struct
  | .enum e => (e.compile (tokenNamed L) idents).map .enum

/-- The code of the type number `k`; `none` if the macro or rustc reports an error. -/
def Program.code (P : Program) (L : Lexicon) (k : Fin P.types.length) : Option (Code P.types.length n) :=
  match Syn.expand P.types[k] with
  | .error _ => none
  | .ok g => compileGen L (TyE.resolve (P.named L)) P.types[k].data.idents g

/-! ## Running the code -/

/-- For productions and types that are not user-defined, the model of `tp_impl` is used as it is; it does not ask for
the definitions of user-defined types then. -/
def anySchema : Schema m n := fun k => .struct (.user k, none) []

/-- `Production::register` of all types of the program. -/
def ruleOf (c : Fin m → Code m n) : PId m n → Rule (PId m n) n
  | .user k => (c k).rule
  | .box p => ruleOf c p
  | p => anySchema.rule p

/-- `T::metadata()`, macros/src/root.rs:5-31 -/
def metadataOf (c : Fin m → Code m n) (fuel : Nat) (root : Ty m n) :
    Option (Except (GErr (PId m n)) (Metadata (PId m n) n)) :=
  buildFor (ruleOf c) fuel root.pid

variable {σ : Type} (o : Ops σ n)

/-- `T::produce` for all types of the program. -/
def produceOf (c : Fin m → Code m n) (md : Metadata (PId m n) n) : Nat → Ty m n → P σ n
  | 0, _ => M.fuel
  | fuel + 1, .user k => (c k).produce o (md.jump.lookUp (.user k)) (md.first.get (.user k)) (produceOf c md fuel)
  | fuel + 1, t => produceStep o anySchema md fuel (produceOf c md fuel) t

/-- `Parser::parse`, parser_impl.rs:45-86: `.error` is a grammar error -/
def parseOf (ext : Fin n → Bool) (c : Fin m → Code m n) (fuel : Nat) (root : Ty m n) (p : Parser n) :
    Out (Parser n) (Except (GErr (PId m n)) (Option (Tree n))) :=
  match metadataOf c fuel root with
  | none => .fuel
  | some (.error e) => .ok (.error e) p
  | some (.ok md) =>
    match produceOf (Parser.ops ext) c md fuel root p with
    | .fuel => .fuel
    | .crash => .crash
    | .ok (.success t) p => .ok (.ok (some t)) p
    | .ok (.recovered t e) p =>
      .ok (.ok (some t)) { p with info := { p.info with errors := p.info.errors ++ e } }
    | .ok (.panic e) p => .ok (.ok none) { p with info := { p.info with errors := p.info.errors ++ e } }

/-- `Root::parse`, parser/tree.rs:23-25 -/
def rootParseOf (ext : Fin n → Bool) (c : Fin m → Code m n) (fuel : Nat) (root : Ty m n) (source : Str)
    (items : List (Item n)) : Out (Parser n) (Except (GErr (PId m n)) (Option (Tree n))) :=
  parseOf ext c fuel root (Parser.new source items)

/-- The names of the program, as `Production::debug` uses them. -/
def Program.idents (P : Program) (L : Lexicon) : Idents P.types.length where
  user k := P.types[k].ident
  term k := (L.terminals[k]?.map TermStruct.name).getD []

/-- `Root::assert_ll1`, parser/tree.rs:28-32: `none` is fuel, `some none` returns, `some (some (prod, error))` panics
with `"{prod} is not LL(1): {error}"`. The generated test calls it, macros/src/root.rs:33-51. -/
def Program.assertLl1 (P : Program) (L : Lexicon) (c : Fin P.types.length → Code P.types.length n) (fuel : Nat)
    (root : Ty P.types.length n) : Option (Option (Str × GErr (PId P.types.length n))) :=
  match metadataOf c fuel root with
  | none => none
  | some (.ok _) => some none
  | some (.error e) => some (some (root.prod.debug (P.idents L), e))

end Teleparse.Prog

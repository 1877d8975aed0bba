import Verif.Model.Lex
/-
Model of the attribute macro `derive_lexicon`, macros/src/lexicon.rs: from the enum declaration, as parsed
by `syn`, to the parts of the generated code that determine the lexer, the terminals and the `Lexicon`
implementation. Left out: visibilities, documentation strings, spans of error messages, and `crate_ident`.
-/
namespace Teleparse.Macro

/-- The `regex` crate as used by the macro: whether a pattern compiles, and `Regex::find` (start and end
of the leftmost match). -/
structure Engine where
  compiles : Str → Bool
  find : Str → Str → Option (Nat × Nat)

/-- One `syn::Meta` inside `terminal(..)`, lexicon.rs:125-202. -/
inductive TKind where
  /-- `Ident` -/
  | path
  /-- `Ident = value`; `none` if the value is not a string literal -/
  | value (lit : Option Str)
  /-- `Ident(..)` -/
  | list

structure TMeta where
  /-- `meta.path().get_ident()` -/
  ident : Option Str
  kind : TKind

/-- One `syn::Meta` inside `#[teleparse(..)]` on a variant; the arguments are `none` if they do not
parse (lexicon.rs:95-97, 104-106). -/
inductive VMeta where
  | regex (args : Option (List Str))
  | terminal (args : Option (List TMeta))
  /-- a list with another name -/
  | list
  /-- a path or `name = value` -/
  | other

/-- A variant of the enum. `attrs` are its `teleparse` attributes (`strip_take_attrs`,
prelude.rs:64-80), `none` if the arguments do not parse (prelude.rs:57-61). -/
structure Variant where
  ident : Str
  unit : Bool
  attrs : List (Option (List VMeta))

/-- One `syn::Meta` inside the root attribute, lexicon.rs:348-371. -/
inductive RMeta where
  | terminalParse
  | path
  | ignore (args : Option (List Str))
  | list
  | nameValue

/-- The item the macro is applied to. -/
structure Decl where
  generics : Bool
  /-- the root `teleparse` attributes; `none` if the arguments do not parse -/
  attrs : List (Option (List RMeta))
  /-- `none` for structs and unions -/
  variants : Option (List Variant)

/-- The `syn_error!`s. -/
inductive Err where
  | generics | multipleRoot | parse | rootAttr | multipleIgnore | notEnum
  | regexSyntax (r : Str) | regexEmpty (r : Str)
  | notUnit (v : Str) | empty | tooMany
  | variantAttr (v : Str) | multipleRegex (v : Str) | multipleTerminal (v : Str)
  | terminalIdent (v : Str) | multipleBare (v : Str) | notString (v : Str) | emptyLiteral (v : Str)
  | duplicate (v lit : Str) | terminalForm (v : Str)
  | redundantRegex (v : Str) | regexStart (r lit : Str) | regexPrefix (r lit : Str)
  | regexMismatch (r lit : Str)
  deriving DecidableEq

/-- One attribute of a variant of `DerivedLogos`. -/
inductive LexRule where
  /-- `#[regex(r)]`, lexicon.rs:256-258 -/
  | regex (r : Str)
  /-- `#[token(lit)]`, lexicon.rs:264-266 -/
  | token (lit : Str)
  deriving DecidableEq

/-- A terminal struct, `derive_terminal` lexicon.rs:395-476: its name, the variant in
`add_terminal`, `parse_token` and `from_span`, the literal, `Production::debug`, and whether it
implements `Root`. -/
structure TermStruct where
  name : Str
  variant : Str
  lit : Option Str
  debug : Str
  root : Bool
  deriving DecidableEq

/-- `checked_regex_rule`, prelude.rs:145-160 -/
def checkedRegex (E : Engine) (r : Str) : Except Err Unit :=
  if !E.compiles r then .error (.regexSyntax r)
  else if (E.find r []).isSome then .error (.regexEmpty r)
  else .ok ()

/-- `parse_root_attributes`, lexicon.rs:347-372; the state is `(ignore, terminal_parse)` -/
def rootMetas : List RMeta → Option (List Str) → Bool → Except Err (Option (List Str) × Bool)
  | [], ign, tp => .ok (ign, tp)
  | .terminalParse :: ms, ign, _ => rootMetas ms ign true
  | .path :: _, _, _ => .error .rootAttr
  | .ignore args :: ms, ign, tp =>
    if ign.isSome then .error .multipleIgnore
    else match args with
      | none => .error .parse
      | some l => rootMetas ms (some l) tp
  | .list :: _, _, _ => .error .rootAttr
  | .nameValue :: _, _, _ => .error .rootAttr

/-- `parse_root_attributes`, lexicon.rs:343-382, with `parse_strip_root_meta_optional`,
prelude.rs:111-125 -/
def rootAttributes : List (Option (List RMeta)) → Except Err (List Str × Bool)
  | [] => .ok ([], false)
  | [none] => .error .parse
  | [some ms] => do
    let (ign, tp) ← rootMetas ms none false
    return (ign.getD [], tp)
  | _ => .error .multipleRoot

/-- The width in bits of `repr_ty`, lexicon.rs:48-59 -/
def reprBits (k : Nat) : Except Err Nat :=
  if k = 0 then .error .empty
  else if k ≤ 8 then .ok 8
  else if k ≤ 16 then .ok 16
  else if k ≤ 32 then .ok 32
  else if k ≤ 64 then .ok 64
  else if k ≤ 128 then .ok 128
  else .error .tooMany

/-- The loop over the metas of one attribute, lexicon.rs:86-109; the state is `(terminal, regex)` -/
def variantMetas (v : Str) : List VMeta → Option (List TMeta) → Option (List Str) →
    Except Err (Option (List TMeta) × Option (List Str))
  | [], ter, reg => .ok (ter, reg)
  | .regex args :: ms, ter, reg =>
    if reg.isSome then .error (.multipleRegex v)
    else match args with
      | none => .error .parse
      | some l => variantMetas v ms ter (some l)
  | .terminal args :: ms, ter, reg =>
    if ter.isSome then .error (.multipleTerminal v)
    else match args with
      | none => .error .parse
      | some l => variantMetas v ms (some l) reg
  | .list :: ms, ter, reg => variantMetas v ms ter reg
  | .other :: _, _, _ => .error (.variantAttr v)

/-- The loop over the attributes, lexicon.rs:84-110 -/
def variantAttrs (v : Str) : List (Option (List VMeta)) → Option (List TMeta) → Option (List Str) →
    Except Err (Option (List TMeta) × Option (List Str))
  | [], ter, reg => .ok (ter, reg)
  | none :: _, _, _ => .error .parse
  | some ms :: as, ter, reg => do
    let (ter, reg) ← variantMetas v ms ter reg
    variantAttrs v as ter reg

/-- The variables of the loop over the terminals of a variant: `infer_literals`,
`infer_literal_set` (as a list; the set is ordered, which only decides which error is
reported first), and the derived structs. -/
structure TState where
  infer : Option (List Str) := some []
  set : List Str := []
  out : List TermStruct := []

/-- The loop over the terminals, lexicon.rs:125-203; `tp` is `terminal_parse` -/
def terminals (tp : Bool) (v : Str) : List TMeta → TState → Except Err TState
  | [], s => .ok s
  | m :: ms, s =>
    match m.ident with
    | none => .error (.terminalIdent v)
    | some ident =>
      match m.kind with
      | .path =>
        if s.infer.isNone then .error (.multipleBare v)
        else terminals tp v ms
          { s with infer := none, out := s.out ++ [⟨ident, v, none, ident, tp⟩] }
      | .value none => .error (.notString v)
      | .value (some lit) =>
        if lit.isEmpty then .error (.emptyLiteral v)
        else
          let set := if lit ∈ s.set then s.set else s.set ++ [lit]
          let out := s.out ++ [⟨ident, v, some lit, lit, tp⟩]
          match s.infer with
          | some l =>
            if lit ∈ s.set then .error (.duplicate v lit)
            else terminals tp v ms ⟨some (l ++ [lit]), set, out⟩
          | none => terminals tp v ms ⟨none, set, out⟩
      | .list => .error (.terminalForm v)

/-- lexicon.rs:229-255 -/
def checkLits (E : Engine) (r : Str) : List Str → Except Err Unit
  | [] => .ok ()
  | lit :: lits =>
    match E.find r lit with
    | none => .error (.regexMismatch r lit)
    | some (a, b) =>
      if a ≠ 0 then .error (.regexStart r lit)
      else if b ≠ lit.length then .error (.regexPrefix r lit)
      else checkLits E r lits

/-- lexicon.rs:226-259 -/
def regexAttrs (E : Engine) (lits : List Str) : List Str → Except Err (List LexRule)
  | [] => .ok []
  | r :: rs => do
    checkedRegex E r
    checkLits E r lits
    let rest ← regexAttrs E lits rs
    return .regex r :: rest

/-- The vectors filled by the loop over the variants, lexicon.rs:64-75. -/
structure VState where
  /-- `variant_idents`, `variant_ordinals` -/
  variants : List (Str × Nat) := []
  lexIdents : List Str := []
  lexAttrs : List (List LexRule) := []
  extract : List Str := []
  /-- `extra_derives` -/
  terminals : List TermStruct := []

/-- lexicon.rs:117-204 -/
def variantTerminals (tp : Bool) (v : Str) : Option (List TMeta) → Except Err TState
  | some l => terminals tp v l {}
  | none => .ok {}

/-- lexicon.rs:216-269: the new value of `lex_variant_derived_attrs` -/
def variantRules (E : Engine) (v : Str) (ts : TState) (reg : Option (List Str))
    (lexAttrs : List (List LexRule)) : Except Err (List (List LexRule)) :=
  match reg with
  | some rs =>
    if ts.infer.any (fun l => !l.isEmpty) then .error (.redundantRegex v)
    else (regexAttrs E ts.set rs).map fun attrs => lexAttrs ++ [attrs]
  | none =>
    match ts.infer with
    | some l => .ok (lexAttrs ++ [l.map .token])
    | none => .ok lexAttrs

/-- The body of the loop over the variants, lexicon.rs:77-269; `i` is the ordinal. -/
def variantStep (E : Engine) (tp : Bool) (i : Nat) (v : Variant) (s : VState) : Except Err VState := do
  let (ter, reg) ← variantAttrs v.ident v.attrs none none
  let ts ← variantTerminals tp v.ident ter
  let lexAttrs ← variantRules E v.ident ts reg s.lexAttrs
  return {
    variants := s.variants ++ [(v.ident, i)]
    lexIdents :=
      if (ts.infer.getD []).isEmpty && reg.isNone then s.lexIdents else s.lexIdents ++ [v.ident]
    lexAttrs := lexAttrs
    extract := if (ter.getD []).isEmpty then s.extract ++ [v.ident] else s.extract
    terminals := s.terminals ++ ts.out }

/-- The loop over the variants, lexicon.rs:76-270. -/
def variantLoop (E : Engine) (tp : Bool) : Nat → List Variant → VState → Except Err VState
  | _, [], s => .ok s
  | i, v :: vs, s => do
    let s ← variantStep E tp i v s
    variantLoop E tp (i + 1) vs s

/-- lexicon.rs:42-44 -/
def checkIgnores (E : Engine) : List Str → Except Err Unit
  | [] => .ok ()
  | r :: rs => do
    checkedRegex E r
    checkIgnores E rs

/-- `check_enum_precondition`, lexicon.rs:384-392 -/
def checkUnits : List Variant → Except Err Unit
  | [] => .ok ()
  | v :: vs => if v.unit then checkUnits vs else .error (.notUnit v.ident)

/-- The generated code. -/
structure Lexicon where
  /-- the enum: names and discriminants, lexicon.rs:278-280 -/
  variants : List (Str × Nat)
  terminals : List TermStruct
  /-- `#[logos(skip ..)]`, lexicon.rs:285-287 -/
  skips : List Str
  /-- `DerivedLogos`, lexicon.rs:288-290: a repetition over two vectors in `quote!` stops at the
  end of the shorter one -/
  logos : List (List LexRule × Str)
  /-- the arms of `From<DerivedLogos>`, lexicon.rs:294-296 -/
  arms : List Str
  /-- `type Bit`, lexicon.rs:301 -/
  bits : Nat
  /-- the arms of `should_extract`, lexicon.rs:322 -/
  extract : List Str
  /-- `type Map`, lexicon.rs:303 -/
  mapLen : Nat

/-- `expand`, lexicon.rs:5-336 -/
def expand (E : Engine) (d : Decl) : Except Err Lexicon := do
  if d.generics then .error .generics else
  let (ignore, tp) ← rootAttributes d.attrs
  let vs ← d.variants.elim (.error .notEnum) .ok
  checkIgnores E ignore
  checkUnits vs
  let bits ← reprBits vs.length
  let s ← variantLoop E tp 0 vs {}
  return ⟨s.variants, s.terminals, ignore, s.lexAttrs.zip s.lexIdents, s.lexIdents, bits, s.extract,
    vs.length⟩

/-- The generated `should_extract`, lexicon.rs:320-325: `true` for the listed variants. -/
def Lexicon.shouldExtract (L : Lexicon) {n : Nat} (ty : Fin n) : Bool :=
  L.variants.any fun e => e.2 == ty.val && L.extract.contains e.1

end Teleparse.Macro

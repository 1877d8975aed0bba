import Verif.Model.LexiconMacro
/-
Not code of the repository: `derive_lexicon` with three repairs, for the defects that C49, C50, C81 and C82 are about.
Everything else is as in `Model/LexiconMacro.lean`.

1. The rules inferred from literals are pushed only if the variant is pushed (macros/src/lexicon.rs:261-268), so that
   the two vectors have the same length:

       if let Some(lits) = infer_literals { if !lits.is_empty() { lex_variant_derived_attrs.push(..); } }

2. The check for duplicate literals (lexicon.rs:165-184) is made also after a terminal without a literal.

3. A variant with literals and without rules is rejected, as nothing produces its tokens: it has a terminal without
   literal and no `regex`, or `regex()`.
-/
namespace Teleparse.Macro

/-- The errors of the repaired macro. -/
inductive ErrFix where
  | old (e : Err)
  /-- repair 3 -/
  | missingRegex (v : Str)
  deriving DecidableEq

/-- The loop over the terminals, lexicon.rs:125-203, with repair 2 -/
def terminalsFix (tp : Bool) (v : Str) : List TMeta → TState → Except Err TState
  | [], s => .ok s
  | m :: ms, s =>
    match m.ident with
    | none => .error (.terminalIdent v)
    | some ident =>
      match m.kind with
      | .path =>
        if s.infer.isNone then .error (.multipleBare v)
        else terminalsFix tp v ms
          { s with infer := none, out := s.out ++ [⟨ident, v, none, ident, tp⟩] }
      | .value none => .error (.notString v)
      | .value (some lit) =>
        if lit.isEmpty then .error (.emptyLiteral v)
        else if lit ∈ s.set then .error (.duplicate v lit)
        else terminalsFix tp v ms
          ⟨s.infer.map (· ++ [lit]), s.set ++ [lit], s.out ++ [⟨ident, v, some lit, lit, tp⟩]⟩
      | .list => .error (.terminalForm v)

/-- lexicon.rs:117-204 with repair 2 -/
def variantTerminalsFix (tp : Bool) (v : Str) : Option (List TMeta) → Except Err TState
  | some l => terminalsFix tp v l {}
  | none => .ok {}

/-- lexicon.rs:216-269 with repairs 1 and 3 -/
def variantRulesFix (E : Engine) (v : Str) (ts : TState) (reg : Option (List Str))
    (lexAttrs : List (List LexRule)) : Except ErrFix (List (List LexRule)) :=
  match reg with
  | some rs =>
    if ts.infer.any (fun l => !l.isEmpty) then .error (.old (.redundantRegex v))
    else if rs.isEmpty && !ts.set.isEmpty then .error (.missingRegex v)
    else ((regexAttrs E ts.set rs).map fun attrs => lexAttrs ++ [attrs]).mapError .old
  | none =>
    match ts.infer with
    | some l => if l.isEmpty then .ok lexAttrs else .ok (lexAttrs ++ [l.map .token])
    | none => if ts.set.isEmpty then .ok lexAttrs else .error (.missingRegex v)

/-- The body of the loop over the variants, lexicon.rs:77-269, with the repairs -/
def variantStepFix (E : Engine) (tp : Bool) (i : Nat) (v : Variant) (s : VState) : Except ErrFix VState := do
  let (ter, reg) ← (variantAttrs v.ident v.attrs none none).mapError .old
  let ts ← (variantTerminalsFix tp v.ident ter).mapError .old
  let lexAttrs ← variantRulesFix E v.ident ts reg s.lexAttrs
  return {
    variants := s.variants ++ [(v.ident, i)]
    lexIdents :=
      if (ts.infer.getD []).isEmpty && reg.isNone then s.lexIdents else s.lexIdents ++ [v.ident]
    lexAttrs := lexAttrs
    extract := if (ter.getD []).isEmpty then s.extract ++ [v.ident] else s.extract
    terminals := s.terminals ++ ts.out }

/-- The loop over the variants, lexicon.rs:76-270, with the repairs -/
def variantLoopFix (E : Engine) (tp : Bool) : Nat → List Variant → VState → Except ErrFix VState
  | _, [], s => .ok s
  | i, v :: vs, s => do
    let s ← variantStepFix E tp i v s
    variantLoopFix E tp (i + 1) vs s

/-- `expand`, lexicon.rs:5-336, with the repairs -/
def expandFix (E : Engine) (d : Decl) : Except ErrFix Lexicon := do
  if d.generics then .error (.old .generics) else
  let (ignore, tp) ← (rootAttributes d.attrs).mapError .old
  let vs ← (d.variants.elim (.error .notEnum) .ok : Except Err (List Variant)).mapError .old
  (checkIgnores E ignore).mapError .old
  (checkUnits vs).mapError .old
  let bits ← (reprBits vs.length).mapError .old
  let s ← variantLoopFix E tp 0 vs {}
  return ⟨s.variants, s.terminals, ignore, s.lexAttrs.zip s.lexIdents, s.lexIdents, bits, s.extract,
    vs.length⟩

end Teleparse.Macro

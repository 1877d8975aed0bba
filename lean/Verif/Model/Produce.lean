import Verif.Model.Parser
import Verif.Model.Syntax
/-
Model of `Produce::produce` for all syntax types: `tp_impl/*.rs`, the code generated by
`macros/src/syntax.rs`, and `derive_terminal` of `macros/src/lexicon.rs`; and of `Parser::parse`.
-/
namespace Teleparse
variable {m n : Nat}

/-- A parsed tree. Structs and tuples do not store a span in Rust, `ToSpan` computes it from the first
and the last part; here it is computed when the tree is built. `Box` leaves no trace. -/
inductive Tree (n : Nat) where
  /-- a terminal -/
  | tok (t : Token n)
  /-- a struct or tuple -/
  | seq (span : Span) (parts : List (Tree n))
  /-- the `i`-th variant of an enum -/
  | variant (i : Nat) (t : Tree n)
  /-- `Optional(Node(span, Some(t)))` -/
  | optSome (span : Span) (t : Tree n)
  /-- `Optional(Node(span, None))` -/
  | optNone (span : Span)
  /-- `Exists(Node(span, b))` -/
  | exist (span : Span) (b : Bool)
  /-- `Quote`/`Parse`: the text given to `S::from` or `S::from_str` -/
  | text (span : Span) (s : Str)
  /-- `Plus`, `Star`, `Loop` -/
  | list (span : Span) (elems : List (Tree n))
  /-- `Split`, `Punct` -/
  | split (span : Span) (elems puncts : List (Tree n))
  /-- `Recover` with a head -/
  | recover (headSpan : Span) (head tail : Tree n)
  /-- `Recover` without a head -/
  | recoverNone (headSpan : Span) (tail : Tree n)

/-- `ToSpan`: lex/span.rs:105-124 (tuples), macros/src/syntax.rs:108-111, 195-198 (structs),
macros/src/to_span.rs (enums, nodes), tp_impl/recover.rs:16-29 -/
def Tree.span : Tree n → Span
  | .tok t => t.span
  | .seq sp _ => sp
  | .variant _ t => t.span
  | .optSome sp _ => sp
  | .optNone sp => sp
  | .exist sp _ => sp
  | .text sp _ => sp
  | .list sp _ => sp
  | .split sp _ _ => sp
  | .recover hs _ t => ⟨hs.lo, t.span.hi⟩
  | .recoverNone hs t => ⟨hs.lo, t.span.hi⟩

/-- `lo` of the first and `hi` of the last part. (Never used for an empty list.) -/
def spanOf (l : List (Tree n)) : Span :=
  ⟨(l.head?.map (·.span.lo)).getD 0, (l.getLast?.map (·.span.hi)).getD 0⟩

variable {σ : Type}

/-- A parser for some syntax type. -/
abbrev P (σ : Type) (n : Nat) := M σ (Res n (Tree n))

variable (o : Ops σ n)

/-- Terminals: macros/src/lexicon.rs:415-423; `follow` is the FOLLOW set of the terminal -/
def produceTerm (t : Terminal n) (follow : TSet n) : P σ n := do
  match t.lit with
  | some lit => do
    let r ← o.parseTokenLit t.ty lit follow
    pure (r.map .tok)
  | none => do
    let r ← o.parseToken t.ty
    pure (r.map .tok)

/-- `handle_result!` (syntax/error.rs:90-105) for the parts of a tuple or struct from left to right.
The error case is the early `return Panic`. -/
def seqLoop : List (P σ n) → List (Tree n) → List (Err n) →
    M σ (Except (List (Err n)) (List (Tree n) × List (Err n)))
  | [], acc, errs => pure (.ok (acc, errs))
  | p :: ps, acc, errs => do
    match ← p with
    | .success t => seqLoop ps (acc ++ [t]) errs
    | .recovered t e => seqLoop ps (acc ++ [t]) (errs ++ e)
    | .panic e => pure (.error (errs ++ e))

/-- tp_impl/tuple.rs:33-48 -/
def produceTuple (ps : List (P σ n)) : P σ n := do
  match ← seqLoop ps [] [] with
  | .error e => pure (.panic e)
  | .ok (l, errs) => pure (Res.ofPair (.seq (spanOf l) l) errs)

/-- The `apply_semantic` calls after the fields of a struct, macros/src/syntax.rs:75-92, 163-177 -/
def applyFields : List (Tree n × Option (LSet n)) → M σ Unit
  | [] => pure ()
  | (_, none) :: l => applyFields l
  | (t, some sem) :: l => do
    o.mApply t.span sem
    applyFields l

/-- macros/src/syntax.rs:113-131, 200-218 -/
def produceStruct (fields : List (P σ n × Option (LSet n))) : P σ n := do
  match ← seqLoop (fields.map (·.1)) [] [] with
  | .error e => pure (.panic e)
  | .ok (l, errs) => do
    applyFields o (l.zip (fields.map (·.2)))
    pure (Res.ofPair (.seq (spanOf l) l) errs)

/-- `map` with a closure that applies the semantic types, macros/src/syntax.rs:334-341 -/
def mapVariant (i : Nat) (sem : Option (LSet n)) (r : Res n (Tree n)) : P σ n := do
  match r with
  | .success t => do
    applyFields o [(t, sem)]
    pure (.success (.variant i t))
  | .recovered t e => do
    applyFields o [(t, sem)]
    pure (.recovered (.variant i t) e)
  | .panic e => pure (.panic e)

/-- macros/src/syntax.rs:322-349; `look` is `meta.jump.look_up` for the enum -/
def produceEnum (look : Option (TokenSrc n) → Option Nat) (first : TSet n)
    (variants : List (P σ n × Option (LSet n))) : P σ n := do
  let tok ← o.mPeekSrc
  match look tok with
  | some i =>
    match variants[i]? with
    | some (p, sem) => do
      let r ← p
      mapVariant o i sem r
    | none => do
      let e ← o.mExpecting first
      pure (.panic [e])
  | none => do
    let e ← o.mExpecting first
    pure (.panic [e])

/-- `produce_option`, tp_impl/option.rs:78-107, where `mk` is the closure `f` and the conversion to the
node type -/
def produceOption (first : TSet n) (p : P σ n) (mk : Span → Option (Tree n) → Tree n) : P σ n := do
  let tok ← o.mPeekSrc
  if tok.isSome && first.contains tok then do
    match ← p with
    | .success t => pure (.success (mk t.span (some t)))
    | .recovered t e => pure (.recovered (mk t.span (some t)) e)
    | .panic e => do
      let sp ← o.mEmptySpan
      pure (.recovered (mk sp none) e)
  else do
    let sp ← o.mEmptySpan
    pure (.success (mk sp none))

/-- tp_impl/option.rs:35-59 -/
def mkOption (sp : Span) : Option (Tree n) → Tree n
  | some t => .optSome sp t
  | none => .optNone sp

/-- tp_impl/option.rs:61-77 -/
def mkExists (sp : Span) (t : Option (Tree n)) : Tree n := .exist sp t.isSome

/-- tp_impl/iter.rs:75-78 (`Optional<Plus>` mapped to `Star`) -/
def mkStar (sp : Span) : Option (Tree n) → Tree n
  | some (.list sp' l) => .list sp' l
  | _ => .list sp []

/-- tp_impl/string.rs:26-36, 49-61 -/
def produceText (p : P σ n) : P σ n := do
  match ← p with
  | .success t => do
    let s ← o.mGetSrc t.span
    pure (.success (.text t.span s))
  | .recovered t e => do
    let s ← o.mGetSrc t.span
    pure (.recovered (.text t.span s) e)
  | .panic e => pure (.panic e)

/-- `ProduceIter::next` until it returns `None`, tp_impl/iter.rs:183-207; the arguments are the elements
so far, `errors` and `hi` -/
def iterLoop (first : TSet n) (p : P σ n) : Nat → List (Tree n) → List (Err n) → Nat →
    M σ (List (Tree n) × List (Err n) × Nat)
  | 0, _, _, _ => M.fuel
  | fuel + 1, acc, errs, hi => do
    let tok ← o.mPeekSrc
    if tok.isSome && first.contains tok then do
      match ← p with
      | .success t => iterLoop first p fuel (acc ++ [t]) errs t.span.hi
      | .recovered t e => iterLoop first p fuel (acc ++ [t]) (errs ++ e) t.span.hi
      | .panic e => pure (acc, errs ++ e, hi)
    else pure (acc, errs, hi)

/-- The part of `Plus::produce` after the first element, tp_impl/iter.rs:47-57 -/
def plusRest (first : TSet n) (p : P σ n) (fuel : Nat) (t : Tree n) (errs : List (Err n)) : P σ n := do
  let (l, errs, hi) ← iterLoop o first p fuel [t] errs t.span.hi
  pure (Res.ofPair (.list ⟨t.span.lo, hi⟩ l) errs)

/-- tp_impl/iter.rs:34-59; `first` is FIRST of the repetition -/
def producePlus (first : TSet n) (p : P σ n) (fuel : Nat) : P σ n := do
  match ← p with
  | .success t => plusRest o first p fuel t []
  | .recovered t e => plusRest o first p fuel t e
  | .panic e => pure (.panic e)

/-- `while token.is_some() && !first.contains(token)`, tp_impl/iter.rs:116-120; returns `skip_hi` and
whether a token is left -/
def skipLoop (first : TSet n) : Nat → Nat → M σ (Nat × Bool)
  | 0, _ => M.fuel
  | fuel + 1, hi => do
    let tok ← o.mPeekSrc
    if tok.isSome && !first.contains tok then do
      let sp ← o.mCurrentSpan
      let _ ← o.mConsume
      skipLoop first fuel sp.hi
    else pure (hi, tok.isSome)

/-- tp_impl/iter.rs:107-128: skip tokens that cannot start an element; returns the new errors and
whether a token is left. -/
def loopSkip (first : TSet n) (fuel : Nat) (errs : List (Err n)) : M σ (List (Err n) × Bool) := do
  let sp ← o.mCurrentSpan
  let _ ← o.mConsume
  let (hi, more) ← skipLoop o first fuel sp.hi
  pure (errs ++ [⟨⟨sp.lo, hi⟩, .unexpectedTokens⟩], more)

/-- tp_impl/iter.rs:129-148: produce one element and check for progress; returns whether to go on. -/
def loopElem (p : P σ n) (out : List (Tree n)) (errs : List (Err n)) :
    M σ (Bool × List (Tree n) × List (Err n)) := do
  let before ← o.mCurrentSpan
  let r ← p
  let out' := match r with
    | .success t => out ++ [t]
    | .recovered t _ => out ++ [t]
    | .panic _ => out
  let errs' := match r with
    | .success _ => errs
    | .recovered _ e => errs ++ e
    | .panic e => errs ++ e
  let sp ← o.mCurrentSpan
  if before.lo = sp.lo then pure (false, out', errs' ++ [⟨sp, .noAdvance⟩])
  else pure (true, out', errs')

/-- The outer loop of `Loop::produce`, tp_impl/iter.rs:101-149 -/
def loopLoop (first : TSet n) (p : P σ n) : Nat → List (Tree n) → List (Err n) →
    M σ (List (Tree n) × List (Err n))
  | 0, _, _ => M.fuel
  | fuel + 1, out, errs => do
    let tok ← o.mPeekSrc
    if tok.isNone then pure (out, errs)
    else do
      let (errs, more) ← (if !first.contains tok then loopSkip o first fuel errs else pure (errs, true))
      if !more then pure (out, errs)
      else do
        let (go, out, errs) ← loopElem o p out errs
        if go then loopLoop first p fuel out errs else pure (out, errs)

/-- tp_impl/iter.rs:91-156 -/
def produceLoop (first : TSet n) (p : P σ n) (fuel : Nat) : P σ n := do
  let (out, errs) ← loopLoop o first p fuel [] []
  if out.isEmpty then do
    let sp ← o.mEmptySpan
    pure (Res.ofPair (.list sp out) errs)
  else pure (Res.ofPair (.list (spanOf out) out) errs)

/-- The update of `panic` when a part fails: keep the first error, extended to the end of the last error
of the failing part (tp_impl/split.rs:139-147, punct.rs:185-193, recover.rs:66-73, 86-93) -/
def mergePanic (panic : Option (Err n)) (e : List (Err n)) : Option (Err n) :=
  match e.getLast?, panic with
  | none, _ => panic
  | some e, some p => some { p with span := { p.span with hi := e.span.hi } }
  | some e, none => some e

/-- `p.span.hi = parser.current_span().hi` -/
def extendPanic (p : Err n) : M σ (Err n) := do
  let sp ← o.mCurrentSpan
  pure { p with span := { p.span with hi := sp.hi } }

/-- Lists collected by `Split` and `Punct`: elements, separators, errors. -/
structure Acc (n : Nat) where
  elems : List (Tree n)
  puncts : List (Tree n)
  errs : List (Err n)

/-- The first part of the inner loop body of `Split`, tp_impl/split.rs:119-157: either the element was
produced (`.error`, leave with `continue 'outer`), or the lookahead and `panic` for recovery. -/
def splitTry (ef : TSet n) (pt : P σ n) (q : Tree n) (a : Acc n) (panic : Option (Err n)) :
    M σ (Except (Acc n) (Option (TokenSrc n) × Option (Err n))) := do
  let tok ← o.mPeekSrc
  if ef.contains tok || ef.containsE then do
    match ← pt with
    | .success t => pure (.error ⟨a.elems ++ [t], a.puncts ++ [q], a.errs ++ panic.toList⟩)
    | .recovered t e => pure (.error ⟨a.elems ++ [t], a.puncts ++ [q], a.errs ++ e ++ panic.toList⟩)
    | .panic e => do
      let tok ← o.mPeekSrc
      pure (.ok (tok, mergePanic panic e))
  else
    match panic with
    | some p => do
      let p ← extendPanic o p
      pure (.ok (tok, some p))
    | none => do
      let e ← o.mExpecting ef
      pure (.ok (tok, some e))

/-- The inner loop of `Split`, tp_impl/split.rs:118-170. `true` is `continue 'outer`, `false` is
`break 'outer`. -/
def splitInner (ef pf fol : TSet n) (pt : P σ n) (q : Tree n) : Nat → Acc n → Option (Err n) →
    M σ (Bool × Acc n)
  | 0, _, _ => M.fuel
  | fuel + 1, a, panic => do
    match ← splitTry o ef pt q a panic with
    | .error a => pure (true, a)
    | .ok (tok, panic) =>
      if pf.contains tok then pure (true, { a with errs := a.errs ++ panic.toList })
      else if tok.isNone || fol.contains tok then pure (false, { a with errs := a.errs ++ panic.toList })
      else do
        let _ ← o.mConsume
        splitInner ef pf fol pt q fuel a panic

/-- The outer loop of `Split`, tp_impl/split.rs:95-171 -/
def splitOuter (ef pf fol : TSet n) (pt pp : P σ n) : Nat → Acc n → M σ (Acc n)
  | 0, _ => M.fuel
  | fuel + 1, a => do
    let tok ← o.mPeekSrc
    if tok.isSome && pf.contains tok then do
      match ← pp with
      | .panic e => pure { a with errs := a.errs ++ e }
      | .success q => do
        let (go, a) ← splitInner o ef pf fol pt q fuel a none
        if go then splitOuter ef pf fol pt pp fuel a else pure a
      | .recovered q e => do
        let (go, a) ← splitInner o ef pf fol pt q fuel { a with errs := a.errs ++ e } none
        if go then splitOuter ef pf fol pt pp fuel a else pure a
    else pure a

/-- tp_impl/split.rs:172-177 -/
def splitDone (lo : Nat) (a : Acc n) : Res n (Tree n) :=
  Res.ofPair (.split ⟨lo, (a.elems.getLast?.map (·.span.hi)).getD lo⟩ a.elems a.puncts) a.errs

/-- tp_impl/split.rs:80-178 -/
def produceSplit (ef pf fol : TSet n) (pt pp : P σ n) (fuel : Nat) : P σ n := do
  match ← pt with
  | .panic e => pure (.panic e)
  | .success t => do
    let a ← splitOuter o ef pf fol pt pp fuel ⟨[t], [], []⟩
    pure (splitDone t.span.lo a)
  | .recovered t e => do
    let a ← splitOuter o ef pf fol pt pp fuel ⟨[t], [], e⟩
    pure (splitDone t.span.lo a)

/-- tp_impl/punct.rs:155-158: the set named in the error -/
def punctExpecting (ef fol : TSet n) : TSet n := ((fol.removeE).1.union ef false).1

/-- The first part of the inner loop body of `Punct`, tp_impl/punct.rs:139-195. `.error (go, a)` leaves
the loop. -/
def punctTry (ef fol : TSet n) (pt : P σ n) (a : Acc n) (panic : Option (Err n)) :
    M σ (Except (Bool × Acc n) (Option (Err n))) := do
  let tok ← o.mPeekSrc
  if tok.isNone then pure (.error (false, { a with errs := a.errs ++ panic.toList }))
  else if ef.contains tok then do
    match ← pt with
    | .success t => pure (.error (true, { a with elems := a.elems ++ [t], errs := a.errs ++ panic.toList }))
    | .recovered t e =>
      pure (.error (true, { a with elems := a.elems ++ [t], errs := a.errs ++ panic.toList ++ e }))
    | .panic e => pure (.ok (mergePanic panic e))
  else if fol.contains tok then pure (.error (false, { a with errs := a.errs ++ panic.toList }))
  else
    match panic with
    | some p => do
      let p ← extendPanic o p
      pure (.ok (some p))
    | none => do
      let sp ← o.mCurrentSpan
      pure (.ok (some ⟨sp, .expecting (punctExpecting ef fol)⟩))

/-- The inner loop of `Punct`, tp_impl/punct.rs:138-211 -/
def punctInner (ef pf fol : TSet n) (pt : P σ n) : Nat → Acc n → Option (Err n) → M σ (Bool × Acc n)
  | 0, _, _ => M.fuel
  | fuel + 1, a, panic => do
    match ← punctTry o ef fol pt a panic with
    | .error r => pure r
    | .ok panic => do
      let tok ← o.mPeekSrc
      if pf.contains tok then pure (true, { a with errs := a.errs ++ panic.toList })
      else if tok.isNone || fol.contains tok then pure (false, { a with errs := a.errs ++ panic.toList })
      else do
        let _ ← o.mConsume
        punctInner ef pf fol pt fuel a panic

/-- The outer loop of `Punct`, tp_impl/punct.rs:114-212 -/
def punctOuter (ef pf fol : TSet n) (pt pp : P σ n) : Nat → Acc n → M σ (Acc n)
  | 0, _ => M.fuel
  | fuel + 1, a => do
    let tok ← o.mPeekSrc
    if tok.isSome && pf.contains tok then do
      match ← pp with
      | .panic e => pure { a with errs := a.errs ++ e }
      | .success q => do
        let (go, a) ← punctInner o ef pf fol pt fuel { a with puncts := a.puncts ++ [q] } none
        if go then punctOuter ef pf fol pt pp fuel a else pure a
      | .recovered q e => do
        let (go, a) ←
          punctInner o ef pf fol pt fuel { a with puncts := a.puncts ++ [q], errs := a.errs ++ e } none
        if go then punctOuter ef pf fol pt pp fuel a else pure a
    else pure a

/-- tp_impl/punct.rs:213-221 -/
def punctDone (lo : Nat) (a : Acc n) : Res n (Tree n) :=
  Res.ofPair (.split ⟨lo, max ((a.elems.getLast?.map (·.span.hi)).getD lo)
    ((a.puncts.getLast?.map (·.span.hi)).getD lo)⟩ a.elems a.puncts) a.errs

/-- tp_impl/punct.rs:99-222 -/
def producePunct (ef pf fol : TSet n) (pt pp : P σ n) (fuel : Nat) : P σ n := do
  match ← pt with
  | .panic e => pure (.panic e)
  | .success t => do
    let a ← punctOuter o ef pf fol pt pp fuel ⟨[t], [], []⟩
    pure (punctDone t.span.lo a)
  | .recovered t e => do
    let a ← punctOuter o ef pf fol pt pp fuel ⟨[t], [], e⟩
    pure (punctDone t.span.lo a)

/-- What is known after the head of `Recover`: `errors`, `panic`, `head_span`, `head`. -/
structure RHead (n : Nat) where
  errs : List (Err n)
  panic : Option (Err n)
  span : Span
  head : Option (Tree n)

/-- tp_impl/recover.rs:38-54 -/
def recoverHead (hf : TSet n) (pt : P σ n) : M σ (RHead n) := do
  let tok ← o.mPeekSrc
  if hf.contains tok || hf.containsE then do
    match ← pt with
    | .success x => pure ⟨[], none, x.span, some x⟩
    | .recovered x e => pure ⟨e, none, x.span, some x⟩
    | .panic e => do
      let sp ← o.mEmptySpan
      pure ⟨[], e.getLast?, sp, none⟩
  else do
    let e ← o.mExpecting hf
    let sp ← o.mEmptySpan
    pure ⟨[], some e, sp, none⟩

/-- tp_impl/recover.rs:96-101: extend or create the pending error and skip a token -/
def recoverSkip (tf : TSet n) (panic : Option (Err n)) : M σ (Option (Err n)) := do
  match panic with
  | some p => do
    let p ← extendPanic o p
    let _ ← o.mConsume
    pure (some p)
  | none => do
    let e ← o.mExpecting tf
    let _ ← o.mConsume
    pure (some e)

/-- The loop tp_impl/recover.rs:56-102; returns `tail`, `errors`, `panic` -/
def recoverLoop (tf : TSet n) (pr : P σ n) : Nat → List (Err n) → Option (Err n) →
    M σ (Option (Tree n) × List (Err n) × Option (Err n))
  | 0, _, _ => M.fuel
  | fuel + 1, errs, panic => do
    let tok ← o.mPeekSrc
    if tok.isNone then
      if tf.containsE then do
        match ← pr with
        | .success x => pure (some x, errs, panic)
        | .recovered x e => pure (some x, errs ++ e, panic)
        | .panic e => pure (none, errs, mergePanic panic e)
      else pure (none, errs, panic)
    else if tf.contains tok || tf.containsE then do
      match ← pr with
      | .success x => pure (some x, errs, panic)
      | .recovered x e => pure (some x, errs ++ e, panic)
      | .panic e => do
        let panic ← recoverSkip o tf (mergePanic panic e)
        recoverLoop tf pr fuel errs panic
    else do
      let panic ← recoverSkip o tf panic
      recoverLoop tf pr fuel errs panic

/-- The struct literal tp_impl/recover.rs:110-114 -/
def mkRecover (h : RHead n) (tail : Tree n) : Tree n :=
  match h.head with
  | some x => .recover h.span x tail
  | none => .recoverNone h.span tail

/-- tp_impl/recover.rs:31-121 -/
def produceRecover (hf tf : TSet n) (pt pr : P σ n) (fuel : Nat) : P σ n := do
  let h ← recoverHead o hf pt
  let (tail, errs, panic) ← recoverLoop o tf pr fuel h.errs h.panic
  match tail with
  | some tail => pure (Res.ofPair (mkRecover h tail) (errs ++ panic.toList))
  | none => pure (.panic (errs ++ panic.toList))

/-- `T::produce` given `rec` for the parts of `T`. `fuel` bounds the iterations of loops. -/
def produceStep (S : Schema m n) (md : Metadata (PId m n) n) (fuel : Nat) (rec : Ty m n → P σ n) :
    Ty m n → P σ n
  | .term k t => produceTerm o t (md.follow.get (.term k t))
  | .user k =>
    match S k with
    | .struct f fs => produceStruct o ((f :: fs).map fun f => (rec f.1, f.2))
    | .enum v vs =>
      produceEnum o (md.jump.lookUp (.user k)) (md.first.get (.user k))
        ((v :: vs).map fun v => (rec v.1, v.2))
  | .box t => rec t
  | .option t => produceOption o (md.first.get t.pid) (rec t) mkOption
  | .exist t => produceOption o (md.first.get t.pid) (rec t) mkExists
  | .quote t => produceText o (rec t)
  | .parse t => produceText o (rec t)
  | .plus t => producePlus o (md.first.get (Ty.plus t).pid) (rec t) fuel
  | .star t =>
    produceOption o (md.first.get (Ty.plus t).pid)
      (producePlus o (md.first.get (Ty.plus t).pid) (rec t) fuel) mkStar
  | .loop t => produceLoop o (md.first.get (Ty.loop t).pid) (rec t) fuel
  | .split t p =>
    produceSplit o (md.first.get t.pid) (md.first.get p.pid) (md.follow.get (Ty.split t p).pid)
      (rec t) (rec p) fuel
  | .punct t p =>
    producePunct o (md.first.get t.pid) (md.first.get p.pid) (md.follow.get (Ty.punct t p).pid)
      (rec t) (rec p) fuel
  | .recover t r => produceRecover o (md.first.get t.pid) (md.first.get r.pid) (rec t) (rec r) fuel
  | .tup2 a b => produceTuple [rec a, rec b]
  | .tup3 a b c => produceTuple [rec a, rec b, rec c]
  | .tup4 a b c d => produceTuple [rec a, rec b, rec c, rec d]
  | .tup5 a b c d e => produceTuple [rec a, rec b, rec c, rec d, rec e]

/-- `T::produce`. The fuel bounds the depth of the recursion and the iterations of every loop. -/
def produce (S : Schema m n) (md : Metadata (PId m n) n) : Nat → Ty m n → P σ n
  | 0, _ => M.fuel
  | fuel + 1, t => produceStep o S md fuel (produce S md fuel) t

/-- `parse_with_meta`, parser_impl.rs:71-86 -/
def Parser.parseWithMeta (ext : Fin n → Bool) (S : Schema m n) (md : Metadata (PId m n) n) (fuel : Nat)
    (root : Ty m n) (p : Parser n) : Out (Parser n) (Option (Tree n)) :=
  match produce (Parser.ops ext) S md fuel root p with
  | .fuel => .fuel
  | .crash => .crash
  | .ok (.success t) p => .ok (some t) p
  | .ok (.recovered t e) p =>
    .ok (some t) { p with info := { p.info with errors := p.info.errors ++ e } }
  | .ok (.panic e) p => .ok none { p with info := { p.info with errors := p.info.errors ++ e } }

/-- `Parser::parse`, parser_impl.rs:45-54: `.error` is a grammar error -/
def Parser.parse (ext : Fin n → Bool) (S : Schema m n) (fuel : Nat) (root : Ty m n) (p : Parser n) :
    Out (Parser n) (Except (GErr (PId m n)) (Option (Tree n))) :=
  match S.metadata fuel root with
  | none => .fuel
  | some (.error e) => .ok (.error e) p
  | some (.ok md) =>
    match p.parseWithMeta ext S md fuel root with
    | .fuel => .fuel
    | .crash => .crash
    | .ok t p => .ok (.ok t) p

/-- `Root::parse`, parser/tree.rs:23-25 -/
def rootParse (ext : Fin n → Bool) (S : Schema m n) (fuel : Nat) (root : Ty m n) (source : Str)
    (items : List (Item n)) : Out (Parser n) (Except (GErr (PId m n)) (Option (Tree n))) :=
  Parser.parse ext S fuel root (Parser.new source items)

end Teleparse

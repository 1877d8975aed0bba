import Verif.Proof.RepairProgram
import Verif.Props.RepairAll
import Verif.Props.RepairLexicon
import Verif.Props.Program
/-
Property C120: from the declarations of a program and a text to the result, with all repairs.
-/
namespace Teleparse

/-- Without unrecognised text there are no errors but syntax errors. -/
theorem rootParseFix_clean {m n : Nat} {ext : Fin n → Bool} {S : Schema m n} {fuel : Nat} {root : Ty m n}
    {source : Str} {items : List (Item n)} {x : Option (Tree n)} {p' : Parser n}
    (h : rootParseFix ext S fuel root source items = .ok (.ok x) p') (hi : ∀ sp, .error sp ∉ items) :
    p'.info.errors = [] ↔ syntaxErrors p'.info.errors = [] := by
  obtain ⟨md, r, q, hmd, hp, rfl, rfl⟩ := parseFix_ok h
  have hy : YieldsFix ext S md root (Parser.new source items) r q := ⟨_, hp⟩
  constructor
  · intro h
    rw [h]
    rfl
  · intro h
    have hre : r.errs = [] := hy.syntaxErrors.symm.trans h
    obtain ⟨r', ⟨f, hy'⟩, -⟩ := hy.twin
    have hreach : Reached ext source items q := .produce S md f root r' .new hy'
    obtain ⟨read, g1, -, g3, g4⟩ := C04_recorded _ _ _ _ hreach
    have : invalidRuns read = [] := invalidRuns_nil fun sp hsp => hi sp (by rw [g1]; simp [hsp])
    rw [g3, this, List.map_nil, List.filter_eq_nil_iff] at g4
    have h : syntaxErrors (q.info.errors ++ r.errs) = [] := h
    unfold syntaxErrors at h
    show q.info.errors ++ r.errs = []
    rw [hre, List.append_nil] at h ⊢
    rw [List.filter_eq_nil_iff] at h
    rw [List.eq_nil_iff_forall_not_mem]
    intro e he
    have h5 := g4 e he
    have h6 := h e he
    simp at h5 h6
    exact h5 h6

namespace Prog
open Macro Syn

variable {E : Engine} {P : Program} {L : Lexicon} {vs : List Variant}

/-- The code of the types and `should_extract` do not depend on the rules of the scanner. -/
theorem code_of_fix (h : Macro.expandFix E P.lexicon = .ok L) (hvs : P.lexicon.variants = some vs)
    (hd : P.Distinct vs) {c : Fin P.types.length → Code P.types.length vs.length}
    (hc : ∀ k, P.code L k = some (c k)) : ∃ S, P.Declares vs S ∧ (∀ S', P.Declares vs S' → S' = S) ∧
      ∀ k, Implements (c k) (S k) := by
  have h0 := (faithful h hvs).expand
  obtain ⟨S, h1, h2⟩ := code_schema h0 hvs hd (c := c) hc
  exact ⟨S, h1, fun S' hS' => Declares.unique h0 hvs hd hS' h1, h2⟩

/-! ## C120 -/

/-- A program whose lexicon the repaired macro accepts compiles exactly if it is as the specification says. -/
theorem C120_compiles (h : Macro.expandFix E P.lexicon = .ok L) (hvs : P.lexicon.variants = some vs)
    (hd : P.Distinct vs) : (∀ k, ∃ c : Code P.types.length vs.length, P.code L k = some c) ↔ P.Good vs :=
  C92_compiles (L := { L with logos := (outSpec P.lexicon vs).logos }) (faithful h hvs).expand hvs hd

/-- The parser of a type reports an error in the grammar, whatever the text, exactly if the grammar of the type is
not LL(1). -/
theorem C120_rejects (h : Macro.expandFix E P.lexicon = .ok L) (hvs : P.lexicon.variants = some vs)
    (hd : P.Distinct vs) {c : Fin P.types.length → Code P.types.length vs.length}
    (hc : ∀ k, P.code L k = some (c k)) {S : Schema P.types.length vs.length} (hS : P.Declares vs S)
    (root : Ty P.types.length vs.length) (Gr : Grammar (PId P.types.length vs.length) vs.length)
    (hGr : S.IsGrammar root Gr) :
    (∃ e N, ∀ fuel ≥ N, ∀ (source : Str) (items : List (Item vs.length)),
      rootParseFixOf L.shouldExtract c fuel root source items = .ok (.error e) (Parser.new source items)) ↔
    ¬ LL1 Gr root.pid := by
  obtain ⟨S', -, h2, h3⟩ := code_of_fix h hvs hd hc
  cases h2 S hS
  rw [← C118_rejects S root Gr hGr]
  constructor
  · rintro ⟨e, N, hx⟩
    have hmd : ∀ fuel ≥ N, S.exactMetadata fuel root = some (.error e) := by
      intro fuel hf
      have := hx fuel hf [] []
      rw [rootParseFixOf_eq h3] at this
      unfold rootParseFix Parser.parseFix at this
      cases hm : S.exactMetadata fuel root with
      | none => rw [hm] at this; cases this
      | some r =>
        rw [hm] at this
        cases r with
        | error e' => cases this; rfl
        | ok md => dsimp only at this; split at this <;> cases this
    refine ⟨e, N, fun fuel hf ext source items => ?_⟩
    unfold rootParseFix Parser.parseFix
    rw [hmd fuel hf]
  · rintro ⟨e, N, hx⟩
    exact ⟨e, N, fun fuel hf source items => by rw [rootParseFixOf_eq h3]; exact hx fuel hf _ source items⟩

/-- From the declarations and a text. The grammar of a type is LL(1) and its productions derive something. If the
lexicon, as declared, splits a text into tokens and ignored text, the parser of the type returns, and it returns a
tree without any error and with nothing left exactly if the tokens are of the declared language of the type. `Loop`
may be used as the last part. -/
theorem C120_text {G : Logos} (hG : G.Agrees E) (h : Macro.expandFix E P.lexicon = .ok L)
    (hvs : P.lexicon.variants = some vs) (htx : P.lexicon.Texts) (hcl : P.lexicon.Clear G)
    (hd : P.Distinct vs) {c : Fin P.types.length → Code P.types.length vs.length}
    (hc : ∀ k, P.code L k = some (c k)) {S : Schema P.types.length vs.length} (hS : P.Declares vs S)
    {e : TyE} {root : Ty P.types.length vs.length} (hroot : Means P vs e root)
    {Gr : Grammar (PId P.types.length vs.length) vs.length} (hGr : S.IsGrammar root Gr) (hll : LL1 Gr root.pid)
    (hprod : ∀ i, Reachable Gr root.pid i → Productive Gr i)
    (hsep : ∀ t p, Reach S.tyParts root (.split t p) → ¬ Nullable Gr p.pid) (hl : LoopTail S root)
    {source : Str} (hu : Utf8 source) {toks : List (Nat × Str)} (hs : P.lexicon.Splits G source toks)
    {items : List (Item vs.length)} (hscan : L.Scan G source 0 items) :
    ∃ x p', (∃ N, ∀ fuel ≥ N, rootParseFixOf L.shouldExtract c fuel root source items = .ok (.ok x) p') ∧
      ((x.isSome ∧ p'.info.errors = [] ∧ (p'.view L.shouldExtract).rest = []) ↔
        Sent P vs e (Decl.words vs toks)) := by
  have hw := C119_wf hG h htx hu hscan
  obtain ⟨⟨ts, rfl, -⟩, hwords⟩ := C119_scan hG h hvs htx hd.variants hcl hs hscan
  obtain ⟨S', -, h2, h3⟩ := code_of_fix h hvs hd hc
  cases h2 S hS
  obtain ⟨x, p', ⟨N, hN⟩, hacc⟩ := C118_loop L.shouldExtract S root Gr hGr hll hprod hsep hl source _ hw
  have h0 := hN N (Nat.le_refl _)
  refine ⟨x, p', ⟨N, fun f hf => by rw [rootParseFixOf_eq h3]; exact hN f hf⟩, ?_⟩
  rw [rootParseFix_clean h0 (by simp), ← hwords]
  constructor
  · rintro ⟨g1, g2, g3⟩
    obtain ⟨t, rfl⟩ := Option.isSome_iff_exists.1 g1
    obtain ⟨k, g4, g5⟩ := (hacc t).1 ⟨rfl, g2, g3⟩
    have := sent_of_parses hS g4 e hroot
    unfold inputWords
    rw [← g5, List.map_map]
    exact this
  · intro hsent
    obtain ⟨k, y, g1, g2⟩ := sent_matches hd hS source hsent root hroot (streamOf L.shouldExtract _) 0 rfl
    obtain ⟨rfl, g3, g4⟩ := (hacc y).2 ⟨k, g1, g2⟩
    exact ⟨rfl, g3, g4⟩

/-! ### Examples -/

theorem pe_free : LoopFree cxS peT :=
  loopFree_of_check cxU (by decide) (by decide +kernel) (by decide +kernel)

/-- The program `peP` of C92 meets the hypotheses. -/
example : ∃ items : List (Item 3), teL.Scan altLogos peSource 0 items ∧
    ∃ x p', (∃ N, ∀ fuel ≥ N, rootParseFixOf teL.shouldExtract peCode fuel peT peSource items = .ok (.ok x) p') ∧
      x.isSome ∧ p'.info.errors = [] ∧ (p'.view teL.shouldExtract).rest = [] := by
  have h : Macro.expandFix altEngine teDecl = .ok teL := rfl
  have hm : cxS.fixedMetadata 40 peT = some (.ok (okOf ⟨[], [], []⟩ (cxS.fixedMetadata 40 peT))) := rfl
  obtain ⟨items, hs⟩ := C119_total (vs := teVars) altAgrees h teTexts rfl peSource
  obtain ⟨x, p', h1, h2⟩ := C120_text (P := peP) (vs := teVars) altAgrees h rfl teTexts (clear_of (by decide)) peDistinct
    peCode_ok peDeclares peRoot peG_ok (fixedMetadata_ll1 hm peG_ok) (productive_of_check peG_ok 10 (by decide +kernel))
    pe_sep (.free pe_free) (utf8_ascii (by decide))
    peSplits hs
  exact ⟨items, hs, x, p', h1, h2.2 peSent⟩

/-- A variant without rules is declared first. -/
def brVars : List Variant := exVar [4] [] :: teVars

def brDecl : Decl := ⟨false, [some [.ignore (some [[32]])]], some brVars⟩

/-- `struct S { a: Word, b: Num }` -/
def brP : Program := ⟨brDecl, [⟨[40], [some [.root]], .struct (.named [⟨[1], .name [7], []⟩, ⟨[2], .name [8], []⟩])⟩]⟩

def brL : Lexicon := lexiconFixOf altEngine brDecl

def brS : Schema 1 4 := fun _ => .struct (.term 0 ⟨1, none⟩, none) [(.term 1 ⟨2, none⟩, none)]

def brCode (k : Fin 1) : Code 1 4 := (brP.code brL k).getD (.enum ⟨[], []⟩)

def brT : Ty 1 4 := .user 0

def brG : Grammar (PId 1 4) 4 := (registerFrom brS.rule 40 brT.pid).getD []

def brU : List (Ty 1 4) := [.user 0, .term 0 ⟨1, none⟩, .term 1 ⟨2, none⟩]

theorem brDistinct : brP.Distinct brVars where
  items := by decide
  variants := by decide
  fields := by
    intro d hd
    simp only [brP, List.mem_cons, List.not_mem_nil, or_false] at hd
    subst hd
    show (_ : List _).Nodup; decide

theorem brTexts : brDecl.Texts := by
  rintro vs ⟨⟩ v hv lit hlit
  have : ∀ v ∈ brVars, ∀ lit ∈ v.lits, (lit.all (· < 128)) = true := by decide
  exact utf8_ascii (this v hv lit hlit)

theorem brWord : Means brP brVars (.name [7]) (.term 0 ⟨(1 : Fin 4), none⟩) :=
  .term (P := brP) (vs := brVars) (i := 0) (k := (1 : Fin 4)) (t := ⟨some [7], .path⟩) rfl rfl
theorem brNum : Means brP brVars (.name [8]) (.term 1 ⟨(2 : Fin 4), none⟩) :=
  .term (P := brP) (vs := brVars) (i := 1) (k := (2 : Fin 4)) (t := ⟨some [8], .path⟩) rfl rfl

theorem brDeclares : brP.Declares brVars brS := by
  intro k
  match k with
  | ⟨0, _⟩ => exact .struct rfl (.cons (.plain brWord) (.cons (.plain brNum) .nil))

/-- `"a 1"` -/
theorem brSplits : brDecl.Splits altLogos [97, 32, 49] [(1, [97]), (2, [49])] :=
  .token (len := 1) (r := .regex [97, 124, 98]) (best_of (by decide))
    (.skip (len := 1) (r := .regex [32]) (best_of (by decide))
    (.token (len := 1) (r := .regex [49, 124, 51]) (best_of (by decide)) .done))

theorem brSent : Sent brP brVars (.name [40]) [⟨(1 : Fin 4), [97]⟩, ⟨(2 : Fin 4), [49]⟩] := by
  have hword : Sent brP brVars (.name [7]) [⟨(1 : Fin 4), [97]⟩] :=
    .term (t := ⟨some [7], .path⟩) (show (⟨some [7], .path⟩ : TMeta) ∈ [⟨some [7], .path⟩] from List.mem_cons_self)
      rfl (fun lit h => by cases h)
  have hnum : Sent brP brVars (.name [8]) [⟨(2 : Fin 4), [49]⟩] :=
    .term (t := ⟨some [8], .path⟩) (show (⟨some [8], .path⟩ : TMeta) ∈ [⟨some [8], .path⟩] from List.mem_cons_self)
      rfl (fun lit h => by cases h)
  exact .struct (d := brP.types[0]) List.mem_cons_self rfl (.cons hword (.cons hnum .nil))

theorem br_free : LoopFree brS brT :=
  loopFree_of_check brU (by decide) (by decide +kernel) (by decide +kernel)

theorem br_sep (t p : Ty 1 4) (h : Reach brS.tyParts brT (.split t p)) : ¬ Nullable brG p.pid := by
  have := reach_of_check brU (by decide) (by decide +kernel) h
  simp [brU] at this

/-- The text is accepted. -/
example : ∃ items : List (Item 4), brL.Scan altLogos [97, 32, 49] 0 items ∧
    ∃ x p', (∃ N, ∀ fuel ≥ N, rootParseFixOf brL.shouldExtract brCode fuel brT [97, 32, 49] items = .ok (.ok x) p') ∧
      x.isSome ∧ p'.info.errors = [] ∧ (p'.view brL.shouldExtract).rest = [] := by
  have h : Macro.expandFix altEngine brDecl = .ok brL := rfl
  have hG : brS.IsGrammar brT brG := .of_register (fuel := 40) rfl
  have hm : brS.fixedMetadata 40 brT = some (.ok (okOf ⟨[], [], []⟩ (brS.fixedMetadata 40 brT))) := rfl
  have hc : ∀ k : Fin 1, brP.code brL k = some (brCode k) := fun k => by
    match k with
    | 0 => rfl
  obtain ⟨items, hs⟩ := C119_total (vs := brVars) altAgrees h brTexts rfl [97, 32, 49]
  obtain ⟨x, p', h1, h2⟩ := C120_text (P := brP) (vs := brVars) altAgrees h rfl brTexts (clear_of (by decide)) brDistinct
    hc brDeclares (.user (P := brP) (0 : Fin 1)) hG (fixedMetadata_ll1 hm hG)
    (productive_of_check hG 10 (by decide +kernel))
    br_sep (.free br_free) (utf8_ascii (by decide)) brSplits hs
  exact ⟨items, hs, x, p', h1, h2.2 brSent⟩

/-- The grammar of the witness of `C92_false`, which the present parser does not parse, is not LL(1) and rejected. -/
example : ∃ e, pfS.exactMetadata 40 (.user 0) = some (.error e) := ⟨_, rfl⟩

/-- With the present macro the scanner returns a token of the variant declared for numbers for `a`. -/
example : (lexiconOf altEngine brDecl).Scan altLogos [97] 0 ([.token ⟨⟨0, 1⟩, 2⟩] : List (Item 4)) :=
  .token (len := 1) (r := .regex [97, 124, 98]) (name := [2]) (picks_of (by decide)) (by decide) .done

end Prog
end Teleparse

import Verif.Spec.Layout
import Verif.Proof.Viable
import Verif.Props.Alarm
import Verif.Props.Soundness
/-
Property C70: the first error is not reported late.
-/
namespace Teleparse
variable {m n : Nat}

/-! ## C70: what is before the first error is the beginning of a sentence -/

/-- The first error begins exactly where some token begins (or at the end of the source), no error begins before
it, and the tokens before it are the beginning of a sentence of `i`. -/
def FirstErrorInTime (G : Grammar (PId m n) n) (i : PId m n) (source : Str) (stream : List (Token n))
    (errs : List (Err n)) : Prop :=
  ∃ ts rest ws, stream = ts ++ rest ∧ (∀ e ∈ errs, beginOf source rest ≤ e.span.lo) ∧
    (∃ e ∈ errs, e.span.lo = beginOf source rest) ∧
    Derives G [.nt i] ((ts.map (Token.word source) ++ ws).map .tok)

/-- If producing the root reports errors, the tokens before the first one are the beginning of a sentence. Missing
for the full statement: types of which `Split`, `Punct` or `Recover` keep only the last error although they can
fail with several (false, see `C70_false`), silent failures that are absorbed (see `C37_false`), and types that do
not derive anything. Grammars need not be LL(1) nor accepted, and the tables can be anything. -/
theorem C70_produce_partial (ext : Fin n → Bool) (S : Schema m n) (md : Metadata (PId m n) n) (root : Ty m n)
    (G : Grammar (PId m n) n) (hG : S.IsGrammar root G)
    (hprod : ∀ i, Reachable G root.pid i → Productive G i) (hl : Loud S root) (hk : KeepsErrors S root)
    (source : Str) (items : List (Item n)) (hw : ItemsWF source items) (p p' : Parser n)
    (hp : Reached ext source items p) (r : Res n (Tree n)) (hy : Yields ext S md root p r p') (he : r.errs ≠ []) :
    FirstErrorInTime G root.pid source (p.view ext).rest r.errs := by
  obtain ⟨fuel, hy⟩ := hy
  have hv := produce_view ext S md fuel root p
  rw [hy] at hv
  have hv : produce View.ops S md fuel root (p.view ext) = .ok r (p'.view ext) := hv
  have hrun := run_of_produce S md fuel root _ _ _ hv
  have E : VEnv S source root G := ⟨hG, fun i hi => hprod i ((reach_iff_schema hG i).2 hi), hl, hk⟩
  obtain ⟨h1, h2⟩ := hrun.viable E (hp.ready hw) .refl
  have key : Viab (Der G root.pid) source (p.view ext).rest r.errs (p'.view ext).rest := by
    cases r with
    | success x => exact absurd rfl he
    | recovered x e => exact (h1 x e (.recovered x e)).2 he
    | panic e => exact h2 e rfl he
  obtain ⟨ts, us, ws, h3, h4, h5, h6⟩ := key
  refine ⟨ts, _, ws, h3, ?_, ?_, h6⟩
  · intro e he
    rw [← suffixPos_eq]
    exact h4 e he
  · obtain ⟨e, h7, h8⟩ := List.mem_map.1 h5
    exact ⟨e, h7, by rw [← suffixPos_eq]; exact h8⟩

/-- The same for `Root::parse`. By `C69_parse` no input with the same tokens up to and including the one with the
first error is correct: the first error is at the first token at which the input is no longer the beginning of a
correct one. -/
theorem C70_parse_partial (ext : Fin n → Bool) (S : Schema m n) (fuel : Nat) (root : Ty m n)
    (G : Grammar (PId m n) n) (hG : S.IsGrammar root G)
    (hprod : ∀ i, Reachable G root.pid i → Productive G i) (hl : Loud S root) (hk : KeepsErrors S root)
    (source : Str) (items : List (Item n)) (hw : ItemsWF source items) (x : Option (Tree n)) (p' : Parser n)
    (h : rootParse ext S fuel root source items = .ok (.ok x) p') (he : syntaxErrors p'.info.errors ≠ []) :
    FirstErrorInTime G root.pid source (streamOf ext items) (syntaxErrors p'.info.errors) := by
  obtain ⟨md, r, q, chars, -, hq, -, -, herr, hch, -⟩ := C48_parse ext S fuel root _ _ _ h
  have hs : syntaxErrors p'.info.errors = r.errs := by
    unfold syntaxErrors
    rw [herr, List.filter_append, List.filter_eq_nil_iff.2, List.nil_append, List.filter_eq_self]
    · intro e he
      simpa using produce_kinds hq e he
    · intro e he
      simpa using hch e (by simpa [Parser.new] using he)
  rw [hs] at he ⊢
  exact C70_produce_partial ext S md root G hG hprod hl hk source items hw _ _ .new r ⟨_, hq⟩ he

/-! ### Counterexample -/

/-- `Recover<(word, "x", num, word), num>`. -/
def vtH : Ty 0 3 := .tup4 exWord fxX exNum exWord
def vtT : Ty 0 3 := .recover vtH exNum
def vtG : Grammar (PId 0 3) 3 := (registerFrom exS.rule 30 vtT.pid).getD []
def vtItems : List (Item 3) := [.token ⟨⟨0, 1⟩, 0⟩, .token ⟨⟨2, 3⟩, 1⟩, .token ⟨⟨4, 5⟩, 1⟩]
def vtSource : Str := [97, 32, 49, 32, 49]

theorem vtG_ok : exS.IsGrammar vtT vtG := .of_register (fuel := 30) rfl

theorem term_not_silent {S : Schema m n} (u : Ty m n) (hs : Silent S u) : ∀ i k, u ≠ .term i k := by
  rintro i k rfl
  cases hs with
  | tuple ht => rcases ht with ⟨_, _, h, _⟩ | ⟨_, _, _, h, _⟩ | ⟨_, _, _, _, h, _⟩ | ⟨_, _, _, _, _, h, _⟩ <;> cases h

theorem vt_loud : Loud exS vtT := by
  intro u hu e he hs
  have hu := reach_of_check [vtT, vtH, exWord, fxX, exNum] (by decide) (by decide) hu
  simp only [List.mem_cons, List.not_mem_nil, or_false] at hu
  rcases hu with rfl | rfl | rfl | rfl | rfl <;> simp [Ty.absorbed, vtT, vtH, exWord, fxX, exNum] at he
  subst he
  cases hs with
  | tuple ht hu hs =>
    rcases ht with ⟨_, _, h, _⟩ | ⟨_, _, _, h, _⟩ | ⟨_, _, _, _, h, h'⟩ | ⟨_, _, _, _, _, h, _⟩ <;> cases h
    subst h'
    simp only [List.mem_cons, List.not_mem_nil, or_false] at hu
    have key := term_not_silent _ hs
    rcases hu with rfl | rfl | rfl | rfl <;> simp at key

theorem vt_sentence (w : List (TokenSrc 3)) : ¬ Der vtG vtT.pid (⟨0, [97]⟩ :: ⟨1, [49]⟩ :: w) := by
  intro h
  have E : Rules exS vtT vtG := ⟨vtG_ok⟩
  obtain ⟨k, h⟩ := h.tree
  obtain ⟨k1, ws, -, h1, h2⟩ := Tr.seq_inv E (l := [vtH.pid, exNum.pid]) rfl h
  cases h1 with
  | @cons _ a _ wa h1 h3 =>
    obtain ⟨k2, ws, -, h4, rfl⟩ := Tr.seq_inv E (l := [exWord.pid, fxX.pid, exNum.pid, exWord.pid]) rfl h1
    cases h4 with
    | cons h4 h5 =>
      cases h5 with
      | cons h5 h6 =>
        obtain ⟨t1, -, rfl⟩ := Tr.term_inv E rfl h4
        obtain ⟨t2, h7, rfl⟩ := Tr.term_inv E (t := ⟨2, some [120]⟩) rfl h5
        simp only [List.flatten_cons, List.cons_append, List.nil_append, List.cons.injEq] at h2
        rw [← h2.2.1] at h7
        exact absurd h7.1 (by decide)

theorem vt_late (errs : List (Err 3)) (h : errs.map (·.span.lo) = [4]) :
    ¬ FirstErrorInTime vtG vtT.pid vtSource (streamOf noExt vtItems) errs := by
  rintro ⟨ts, rest, ws, h1, -, ⟨e, he, hlo⟩, hd⟩
  have h4 : e.span.lo = 4 := by
    have : e.span.lo ∈ errs.map (·.span.lo) := List.mem_map.2 ⟨e, he, rfl⟩
    rw [h] at this
    simpa using this
  rw [h4] at hlo
  have h1 : [⟨⟨0, 1⟩, 0⟩, ⟨⟨2, 3⟩, 1⟩, ⟨⟨4, 5⟩, 1⟩] = ts ++ rest := h1
  match ts, h1 with
  | [], h1 => rw [List.nil_append] at h1; subst h1; cases hlo
  | [a], h1 =>
    simp only [List.cons_append, List.nil_append, List.cons.injEq] at h1
    rw [← h1.2] at hlo; cases hlo
  | [a, b], h1 =>
    simp only [List.cons_append, List.nil_append, List.cons.injEq] at h1
    obtain ⟨rfl, rfl, -⟩ := h1
    exact vt_sentence ws hd
  | [a, b, c], h1 =>
    simp only [List.cons_append, List.nil_append, List.cons.injEq] at h1
    rw [← h1.2.2.2] at hlo; cases hlo
  | a :: b :: c :: d :: l, h1 => simp at h1

/-- The claim is false in general: `Recover<(word, "x", num, word), num>` on `a 1 1` reports one error, at the
third token, although no sentence begins with `a 1`. -/
theorem C70_false : accepted exS vtT = true ∧ exS.IsGrammar vtT vtG ∧ Loud exS vtT ∧
    (∀ i, Reachable vtG vtT.pid i → Productive vtG i) ∧ ItemsWF vtSource vtItems ∧
    ∃ x p', rootParse noExt exS 30 vtT vtSource vtItems = .ok (.ok x) p' ∧
      (syntaxErrors p'.info.errors).map (·.span.lo) = [4] ∧
      ¬ FirstErrorInTime vtG vtT.pid vtSource (streamOf noExt vtItems) (syntaxErrors p'.info.errors) := by
  refine ⟨by rfl, vtG_ok, vt_loud, productive_of_check vtG_ok 6 (by decide +kernel),
    by unfold ItemsWF vtItems; decide, _, _, by rfl, by rfl, ?_⟩
  refine vt_late _ (by rfl)

/-! ### Example -/

/-- `Split<word, "x">`, on `a x 1 x b` with an error at `1`. -/
def vsT : Ty 0 3 := .split exWord fxX
def vsG : Grammar (PId 0 3) 3 := (registerFrom exS.rule 30 vsT.pid).getD []
def vsItems : List (Item 3) := [.token ⟨⟨0, 1⟩, 0⟩, .token ⟨⟨2, 3⟩, 2⟩, .token ⟨⟨4, 5⟩, 1⟩, .token ⟨⟨6, 7⟩, 2⟩,
  .token ⟨⟨8, 9⟩, 0⟩]
def vsSource : Str := [97, 32, 120, 32, 49, 32, 120, 32, 98]

theorem vs_keeps : KeepsErrors exS vsT := by
  refine ⟨fun t p h => ?_, fun t p h => ?_, fun t p h => ?_⟩ <;>
    have hu := reach_of_check [vsT, exWord, fxX] (by decide) (by decide) h <;>
    simp [vsT, exWord, fxX] at hu
  rw [hu.1]
  exact ⟨(· = .term 0 ⟨0, none⟩), rfl, fun u hu => by subst hu; trivial⟩

theorem vs_loud : Loud exS vsT := by
  intro u hu e he hs
  have hu := reach_of_check [vsT, exWord, fxX] (by decide) (by decide) hu
  simp only [List.mem_cons, List.not_mem_nil, or_false] at hu
  rcases hu with rfl | rfl | rfl <;> simp [Ty.absorbed, vsT, exWord, fxX] at he
  have key := term_not_silent e hs
  rcases he with rfl | rfl <;> simp [exWord, fxX] at key

example : exS.IsGrammar vsT vsG ∧ (∀ i, Reachable vsG vsT.pid i → Productive vsG i) ∧ Loud exS vsT ∧
    KeepsErrors exS vsT ∧ ItemsWF vsSource vsItems ∧
    ∃ x p', rootParse noExt exS 30 vsT vsSource vsItems = .ok (.ok x) p' ∧
      (syntaxErrors p'.info.errors).map (·.span.lo) = [4] :=
  have h : exS.IsGrammar vsT vsG := .of_register (fuel := 30) rfl
  ⟨h, productive_of_check h 6 (by decide +kernel), vs_loud, vs_keeps, by unfold ItemsWF vsItems; decide, _, _,
    by rfl, by rfl⟩

end Teleparse

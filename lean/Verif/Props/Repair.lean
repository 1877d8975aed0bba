import Verif.Proof.Repair
import Verif.Props.Completeness
/-
Property C110: what two small repairs of the grammar analysis achieve (`Model/Repair.lean`).
-/
namespace Teleparse
variable {I : Type} {m n : Nat} [DecidableEq I]

/-! ## C110: the analysis with two repairs -/

/-- The repaired analysis ends, as the present one does (C22). -/
theorem C110_terminates (G : Grammar I n) (root : I) :
    ∃ fuel r, ∀ fuel' ≥ fuel, fixedBuild fuel' G root = some r := fixedBuild_total G root

/-- The repaired FOLLOW is the textbook FOLLOW (C23 and what C24 claims). -/
theorem C110_follow (G : Grammar I n) (root : I) (hcon : G.Connected root) (fuel fuel' : Nat)
    (first follow : Tbl I n) (h1 : buildFirst fuel G = some first)
    (h2 : fixedFollow fuel' first G root = some follow) (i : I) (x : Option (TokenSrc n)) :
    (follow.get i).contains x = true ↔ FollowOf G root i x :=
  (fixedFollow_den (buildFirst_den h1) h2 i x).trans (followX_iff hcon)

/-- For the productions registered from any types: accepted iff LL(1) (what C27 and C28 claim). -/
theorem C110_exact (ruleOf : I → Rule I n) (fuel : Nat) (root : I) (G : Grammar I n)
    (hG : registerFrom ruleOf fuel root = some G) :
    (∃ md N, ∀ fuel' ≥ N, fixedBuild fuel' G root = some (.ok md)) ↔ LL1 G root := by
  have hfun := (registerFrom_spec hG).1
  refine ⟨?_, fixed_of_ll1 hfun (registerFrom_connected hG)⟩
  rintro ⟨md, N, h⟩
  exact ll1_of_fixed hfun (h N (Nat.le_refl _))

/-- and rejected iff not LL(1). -/
theorem C110_rejects (ruleOf : I → Rule I n) (fuel : Nat) (root : I) (G : Grammar I n)
    (hG : registerFrom ruleOf fuel root = some G) :
    (∃ e N, ∀ fuel' ≥ N, fixedBuild fuel' G root = some (.error e)) ↔ ¬ LL1 G root := by
  rw [← C110_exact ruleOf fuel root G hG]
  constructor
  · rintro ⟨e, N, h⟩ ⟨md, N', h'⟩
    have a := h (max N N') (Nat.le_max_left _ _)
    rw [h' (max N N') (Nat.le_max_right _ _)] at a
    cases a
  · intro hno
    obtain ⟨N, r, h⟩ := fixedBuild_total G root
    cases r with
    | error e => exact ⟨e, N, h⟩
    | ok md => exact absurd ⟨md, N, h⟩ hno

/-- The repairs are conservative: a grammar that is accepted now and LL(1) stays accepted, with the same FIRST
sets and the same jump table; the FOLLOW sets only grow. -/
theorem C110_conservative (ruleOf : I → Rule I n) (fuel : Nat) (root : I) (G : Grammar I n)
    (hG : registerFrom ruleOf fuel root = some G) (md : Metadata I n) (hb : build fuel G root = some (.ok md))
    (hll : LL1 G root) :
    ∃ md' N, (∀ fuel' ≥ N, fixedBuild fuel' G root = some (.ok md')) ∧ md'.first = md.first ∧
      md'.jump = md.jump ∧
      ∀ i x, (md.follow.get i).contains x = true → (md'.follow.get i).contains x = true := by
  obtain ⟨md', N, h⟩ := (C110_exact ruleOf fuel root G hG).2 hll
  have h' := h (max N fuel) (Nat.le_max_left _ _)
  have hb' := build_mono (Nat.le_max_right N fuel) hb
  obtain ⟨a1, a2, _, seen, a4⟩ := fixedBuild_ok h'
  obtain ⟨b1, b2, _, seen', b4⟩ := build_ok hb'
  have hf : md'.first = md.first := by rw [a1] at b1; exact Option.some.inj b1
  refine ⟨md', N, h, hf, ?_, ?_⟩
  · rw [hf, b4] at a4
    simp only [Option.some.injEq, Except.ok.injEq, Prod.mk.injEq] at a4
    exact a4.2.symm
  · intro i x hx
    have h1 := (buildFollow_den (buildFirst_den b1) b2 i x).1 hx
    exact (fixedFollow_den (buildFirst_den a1) a2 i x).2 (.complete (h1.sound (registerFrom_connected hG)))

/-- With the repaired metadata the parser finds every sentence of the root (what C35 claims): it returns the
tree of a match of the type with all tokens, everything is consumed, and the only errors are about characters
that are not part of a token. The hypotheses on FOLLOW that `C35_parse_partial` has are gone. As there: no enum that
derives the empty sequence can be followed by a token, no separator of a `Split` derives the empty
sequence, and `Loop` is only at the end; what is needed there is not up to the analysis. -/
theorem C110_parse (ext : Fin n → Bool) (S : Schema m n) (fuel : Nat) (root : Ty m n)
    (md : Metadata (PId m n) n) (G : Grammar (PId m n) n) (hmd : S.fixedMetadata fuel root = some (.ok md))
    (hG : S.IsGrammar root G)
    (henum : ∀ k v vs, S k = .enum v vs → Reachable G root.pid (.user k) → Nullable G (.user k) →
      ∀ tok, ¬ FollowOf G root.pid (.user k) (some tok))
    (hsep : ∀ t p, Reach S.tyParts root (.split t p) → ¬ Nullable G p.pid) (hl : LoopTail S root)
    (source : Str) (items : List (Item n)) (hw : ItemsWF source items)
    (hs : Derives G [.nt root.pid] ((inputWords ext source items).map .tok)) :
    ∃ x c p' N, (∀ fuel' ≥ N,
        (Parser.new source items).parseWithMeta ext S md fuel' root = .ok (some x) p') ∧
      Parses S source 0 root c x ∧ c.map (·.token) = streamOf ext items ∧
      p'.info.tokens = c ∧ (p'.view ext).rest = [] ∧
      ∀ e ∈ p'.info.errors, e.kind = .unexpectedCharacters := by
  have E : Found S md root G := .of_fixed hmd hG henum hsep
  obtain ⟨c, x, hx, hc⟩ := Der.matches (source := source) hG .refl hs (streamOf ext items) 0 rfl
  have hnew : Reached ext source items (Parser.new source items) := .new
  have hv : (Parser.new source items).view ext = ⟨source, [], toks c⟩ := by
    show View.mk source [] (streamOf ext items) = _
    rw [← hc]
  have hr := hnew.ready hw
  rw [hv] at hr
  have hd := (E.finds (fx := false) hl 0 c x hx (.of_reach .refl)).2 [] rfl hr
  rw [← hv] at hd
  obtain ⟨p', ⟨f, h1⟩, h2⟩ := hd.yields (hnew.inSource hw)
  refine ⟨x, c, p', f, ?_, hx, hc, congrArg View.cells h2, congrArg View.rest h2, ?_⟩
  · intro f' hf'
    unfold Parser.parseWithMeta
    simp only [produce_more h1 hf']
  · obtain ⟨es, g1, g2⟩ := produce_grows h1
    intro e he
    rw [g1] at he
    simp only [Parser.new, List.nil_append] at he
    exact g2 e he

/-! ### Examples -/

/-- `S = P Q b; P = a b?; Q = c?` of `C27_false` is accepted now; repaired it is rejected. -/
example : okB (build 20 exSkipG 0) = true ∧ okB (fixedBuild 20 exSkipG 0) = false ∧
    (fixedBuild 20 exSkipG 0).isSome = true := by decide
/-- and the missing token is in FOLLOW. -/
example : ((buildFirst 10 exSkipG).bind fun f => (fixedFollow 10 f exSkipG 0).map fun fo =>
    (fo.get 1).contains (some ⟨1, []⟩)) = some true := by decide
/-- `S = Ident? "+" Ident` of `C28_false` is rejected now; repaired it is accepted. -/
example : okB (build 20 exBareG 0) = false ∧ okB (fixedBuild 20 exBareG 0) = true := by decide

/-- `(word?, "x", word)` as a type. -/
def rpT : Ty 0 3 := .tup3 (.option exWord) fxX exWord
def rpMd : Metadata (PId 0 3) 3 := okOf ⟨[], [], []⟩ (exS.fixedMetadata 40 rpT)
def rpG : Grammar (PId 0 3) 3 := (registerFrom exS.rule 40 rpT.pid).getD []
theorem rpMd_ok : exS.fixedMetadata 40 rpT = some (.ok rpMd) := rfl
theorem rpG_ok : exS.IsGrammar rpT rpG := .of_register (fuel := 40) rfl
/-- The input `x a`. -/
def rpItems : List (Item 3) := [.token ⟨⟨0, 1⟩, 2⟩, .token ⟨⟨2, 3⟩, 0⟩]
def rpU : List (Ty 0 3) := [rpT, .option exWord, exWord, fxX]

example : accepted exS rpT = false ∧
    ∃ x p' N, (∀ fuel' ≥ N, (Parser.new [120, 32, 97] rpItems).parseWithMeta noExt exS rpMd fuel' rpT =
      .ok (some x) p') ∧ (p'.view noExt).rest = [] := by
  refine ⟨by rfl, ?_⟩
  have hw : Der rpG exWord.pid [⟨0, [97]⟩] := Der.term (t := ⟨0, none⟩) (by decide) ⟨rfl, by simp⟩
  have hx : Der rpG fxX.pid [⟨2, [120]⟩] := Der.term (t := ⟨2, some [120]⟩) (by decide) ⟨rfl, by simp⟩
  have hn : Der rpG (Ty.option exWord).pid [] :=
    Der.alt (l := [exWord.pid, .eps]) (j := .eps) (by decide) (by decide) (Der.eps (by decide))
  have hs : Der rpG rpT.pid [⟨2, [120]⟩, ⟨0, [97]⟩] :=
    Der.seq (i := rpT.pid) (by decide) (.cons hn (.cons hx (.cons hw .nil)))
  obtain ⟨x, c, p', N, h1, _, _, _, h5, _⟩ := C110_parse noExt exS 40 rpT rpMd rpG rpMd_ok rpG_ok
    (fun k => k.elim0)
    (fun t p h => by
      have := reach_of_check rpU (by decide) (by decide +kernel) h
      simp [rpU, rpT, exWord, fxX] at this)
    (.free (loopFree_of_check rpU (by decide) (by decide +kernel) (by decide +kernel)))
    [120, 32, 97] rpItems (by unfold ItemsWF rpItems; decide) hs
  exact ⟨x, p', N, h1, h5⟩

end Teleparse

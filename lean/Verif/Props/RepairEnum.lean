import Verif.Proof.RepairEnum
import Verif.Props.Repair
import Verif.Props.Cost
import Verif.Props.Exact
import Verif.Props.Viable
/-
Property C112: what a third repair achieves (`Model/Repair.lean`), for enums that can be empty.
-/
namespace Teleparse
variable {m n : Nat}

/-! ## C112: three repairs make the parser exact -/

/-- The repair only adds: what `look_up` finds now it also finds then. -/
theorem C112_conservative (t : JumpTable n) (tok : Option (TokenSrc n)) (j : Nat) (h : t.lookUp tok = some j) :
    t.fixedLookUp tok = some j := by
  cases tok with
  | none => exact h
  | some tok =>
    show (t.lookUpToken tok).or _ = _
    rw [show t.lookUpToken tok = some j from h]
    rfl

/-- The tables of the model: every look-up gives what the repaired `look_up` gives. -/
theorem C112_lookUp (t : JumpTable n) (tok : Option (TokenSrc n)) : t.withDefault.lookUp tok = t.fixedLookUp tok :=
  withDefault_lookUp t tok

/-- A root is accepted iff its grammar is LL(1). -/
theorem C112_exact (S : Schema m n) (root : Ty m n) (G : Grammar (PId m n) n) (hG : S.IsGrammar root G) :
    (∃ md N, ∀ fuel ≥ N, S.exactMetadata fuel root = some (.ok md)) ↔ LL1 G root.pid := by
  constructor
  · rintro ⟨md, N, h⟩
    obtain ⟨md0, h0, -⟩ := exactMetadata_ok (h N (Nat.le_refl _))
    exact fixedMetadata_ll1 h0 hG
  · intro hll
    obtain ⟨G', h⟩ := C32_terminates S.rule (S.universe root) (S.universe_closed root) root.pid (S.root_mem root)
    obtain ⟨f0, h⟩ : ∃ f0, ∀ fuel ≥ f0, registerFrom S.rule fuel root.pid = some G' :=
      ⟨_, fun f hf => h f (Nat.lt_of_lt_of_le (Nat.lt_succ_self _) hf)⟩
    have hreg := h f0 (Nat.le_refl _)
    have hG' : S.IsGrammar root G' := .of_register hreg
    obtain ⟨md, N, hb⟩ := (C110_exact S.rule f0 root.pid G' hreg).2 (hll.congr fun p hp => (hG.same hG' p).2 hp)
    refine ⟨md.withDefault, max f0 N, fun f hf => ?_⟩
    unfold Schema.exactMetadata Schema.fixedMetadata
    rw [h f (by omega)]
    simp only
    rw [hb f (by omega)]

/-- Every sentence of the root is found, with its tree. `C110_parse` without the hypothesis on enums. -/
theorem C112_parse (ext : Fin n → Bool) (S : Schema m n) (fuel : Nat) (root : Ty m n)
    (md : Metadata (PId m n) n) (G : Grammar (PId m n) n) (hmd : S.exactMetadata fuel root = some (.ok md))
    (hG : S.IsGrammar root G)
    (hsep : ∀ t p, Reach S.tyParts root (.split t p) → ¬ Nullable G p.pid) (hl : LoopTail S root)
    (source : Str) (items : List (Item n)) (hw : ItemsWF source items)
    (hs : Derives G [.nt root.pid] ((inputWords ext source items).map .tok)) :
    ∃ x c p', Yields ext S md root (Parser.new source items) (.success x) p' ∧
      Parses S source 0 root c x ∧ c.map (·.token) = streamOf ext items ∧
      p'.info.tokens = c ∧ (p'.view ext).rest = [] := by
  have E : Found S md root G := .of_exact hmd hG hsep
  obtain ⟨c, x, hx, hc⟩ := Der.matches (source := source) hG .refl hs (streamOf ext items) 0 rfl
  have hnew : Reached ext source items (Parser.new source items) := .new
  have hv : (Parser.new source items).view ext = ⟨source, [], toks c⟩ := by
    show View.mk source [] (streamOf ext items) = _
    rw [← hc]
  have hr := hnew.ready hw
  rw [hv] at hr
  have hd := (E.finds (fx := false) hl 0 c x hx (.of_reach .refl)).2 [] rfl hr
  rw [← hv] at hd
  obtain ⟨p', h1, h2⟩ := hd.yields (hnew.inSource hw)
  exact ⟨x, c, p', h1, hx, hc, congrArg View.cells h2, congrArg View.rest h2⟩

/-- Success with nothing left over means exactly that the input is a sentence. The types have no `Loop`, no
failure without an error (`Loud`), and no separator of a `Split` derives the empty sequence. -/
theorem C112_accepts (ext : Fin n → Bool) (S : Schema m n) (fuel : Nat) (root : Ty m n)
    (md : Metadata (PId m n) n) (G : Grammar (PId m n) n) (hmd : S.exactMetadata fuel root = some (.ok md))
    (hG : S.IsGrammar root G)
    (hsep : ∀ t p, Reach S.tyParts root (.split t p) → ¬ Nullable G p.pid) (hl : LoopFree S root)
    (hloud : Loud S root) (source : Str) (items : List (Item n)) (hw : ItemsWF source items) :
    (∃ x p', Yields ext S md root (Parser.new source items) (.success x) p' ∧ (p'.view ext).rest = []) ↔
    Derives G [.nt root.pid] ((inputWords ext source items).map .tok) := by
  constructor
  · rintro ⟨x, p', h, hr⟩
    obtain ⟨c, h4, h5, h6⟩ := C34_loud ext source items hw S md root _ _ (.inl hloud) .new x h
    have hd := h5.der hG hl ⟨.refl, .refl⟩
    rw [hr, List.append_nil] at h6
    have h6 : streamOf ext items = c.map (·.token) := h6
    unfold inputWords
    rw [h6, show (c.map (·.token)).map (·.word source) = wordOf source c by rw [List.map_map]; rfl]
    exact hd
  · intro hs
    obtain ⟨x, c, p', h1, -, -, -, h5⟩ := C112_parse ext S fuel root md G hmd hG hsep (.free hl) source items hw hs
    exact ⟨x, p', h1, h5⟩

/-- If every production derives some finite sequence of tokens, parsing ends on every input, with at most
`K * (c + 1)` calls of `peek_token` and `consume_token`, where `c` is the number of tokens consumed. `C38_productive_partial` and
`C76_returns` without the hypothesis on enums. -/
theorem C112_linear (S : Schema m n) (fuel : Nat) (root : Ty m n) (md : Metadata (PId m n) n)
    (G : Grammar (PId m n) n) (hmd : S.exactMetadata fuel root = some (.ok md)) (hG : S.IsGrammar root G)
    (hprod : ∀ i, Reachable G root.pid i → Productive G i) :
    ∃ K, ∀ (ext : Fin n → Bool) (source : Str) (items : List (Item n)), ItemsWF source items →
      ∀ p : Parser n, Reached ext source items p →
        ∃ r p' k, Takes ext S md root p r p' k ∧ k ≤ K * (p.consumedSince p' + 1) :=
  ⟨opsPerToken S G, fun _ _ _ hw _ hp => (Ctx.of_exact hmd hG hprod).takes hw hp⟩

/-- LL(1) grammars whose productions all derive something are not left recursive. -/
theorem C112_left {I : Type} [DecidableEq I] (G : Grammar I n) (root : I) (hfun : G.Functional)
    (hprod : ∀ i, Reachable G root i → Productive G i) (hll : LL1 G root) (i : I) (hi : Reachable G root i) :
    ¬ LeftDerives G i i := ll1_no_left hfun hprod hll hi

/-! ### Examples -/

/-- `(E, word)` with `enum E = num? | Y` of `C35_false_enum`, on a single word. -/
def rqMd : Metadata (PId 1 4) 4 := okOf ⟨[], [], []⟩ (exNE.exactMetadata 60 exNT)
def rqU : List (Ty 1 4) := [exNT, .user 0, .term 0 ⟨0, none⟩, .option (.term 1 ⟨1, none⟩), .term 1 ⟨1, none⟩, .term 3 ⟨3, none⟩]

example : summary noExt (rootParse noExt exNE 60 exNT [97] [.token ⟨⟨0, 1⟩, 0⟩]) = some (false, 1, 1) ∧
    ∃ x p', Yields noExt exNE rqMd exNT (Parser.new [97] [.token ⟨⟨0, 1⟩, 0⟩]) (.success x) p' ∧
      (p'.view noExt).rest = [] := by
  obtain ⟨-, hG, -, hd, h⟩ := C35_false_enum
  refine ⟨h, (C112_accepts noExt exNE 60 exNT rqMd exNG rfl hG ?_ ?_ ?_ _ _ (by unfold ItemsWF; decide)).2 hd⟩
  · intro t p h
    have := reach_of_check rqU (by decide) (by decide +kernel) h
    simp [rqU, exNT] at this
  · exact loopFree_of_check rqU (by decide) (by decide +kernel) (by decide +kernel)
  · intro u hu e he
    have hm := reach_of_check rqU (by decide) (by decide +kernel) hu
    have : e = .term 1 ⟨1, none⟩ := by
      simp only [rqU, exNT, List.mem_cons, List.not_mem_nil, or_false] at hm
      rcases hm with rfl | rfl | rfl | rfl | rfl | rfl <;> simp_all [Ty.absorbed]
    intro hs
    exact term_not_silent e hs _ _ this

/-- The grammar of `C38_false_enum`, on which parsing does not end now. -/
def rrMd : Metadata (PId 1 4) 4 := okOf ⟨[], [], []⟩ (vxS.exactMetadata 60 vxT)

example : (∀ fuel, produce (Parser.ops fun _ => false) vxS vxMd fuel vxT vxP = .fuel) ∧
    ∃ K, ∀ (ext : Fin 4 → Bool) (source : Str) (items : List (Item 4)), ItemsWF source items →
      ∀ p : Parser 4, Reached ext source items p →
        ∃ r p' k, Takes ext vxS rrMd vxT p r p' k ∧ k ≤ K * (p.consumedSince p' + 1) :=
  ⟨C38_false_enum.2.2, C112_linear vxS 60 vxT rrMd vxG rfl vxG_ok C38_false_enum.2.1⟩

/-- Both grammars are LL(1). -/
example : LL1 exNG exNT.pid ∧ LL1 vxG vxT.pid := by
  have h1 : exNE.fixedMetadata 60 exNT = some (.ok (okOf ⟨[], [], []⟩ (exNE.fixedMetadata 60 exNT))) := rfl
  have h2 : vxS.fixedMetadata 60 vxT = some (.ok (okOf ⟨[], [], []⟩ (vxS.fixedMetadata 60 vxT))) := rfl
  exact ⟨fixedMetadata_ll1 h1 C35_false_enum.2.1, fixedMetadata_ll1 h2 vxG_ok⟩

/-- A token that selects nothing selects the variant that can be empty. -/
example : let t := ((exNE.fixedMetadata 60 exNT).bind fun r => match r with
      | .ok md => aget? md.jump (.user 0) | .error _ => none)
    (t.map fun t => (t.lookUp (some ⟨0, [97]⟩), t.fixedLookUp (some ⟨0, [97]⟩), t.fixedLookUp (some ⟨3, [97]⟩))) =
      some (none, some 0, some 1) := by decide +kernel

end Teleparse

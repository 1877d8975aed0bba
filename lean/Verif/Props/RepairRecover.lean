import Verif.Proof.RecoverYields
import Verif.Props.Soundness
import Verif.Props.RepairEnum
/-
Property C117: what a fourth repair achieves (`Model/RepairRecover.lean`), for `Recover` at the end of the input.
-/
namespace Teleparse
variable {m n : Nat}

/-! ## C117: the repaired `Recover` never fails in silence -/

/-- A result that is no success has an error. `C37_partial` without hypotheses on the type. -/
theorem C117_loud (ext : Fin n → Bool) (source : Str) (items : List (Item n)) (hw : ItemsWF source items)
    (S : Schema m n) (md : Metadata (PId m n) n) (t : Ty m n) (p p' : Parser n) (hp : Reached ext source items p)
    (r : Res n (Tree n)) (h : YieldsFix ext S md t p r p') (hns : ∀ x, r ≠ .success x) : r.errs ≠ [] := by
  have hs := h.sound hp hw
  cases r with
  | success x => exact absurd rfl (hns x)
  | recovered x e => exact hs.recovered x e rfl
  | panic e => exact (hs.panic e rfl).resolve_right fun h => by cases h.2

/-- Success means a match of the type, for any type and any table. `C34_loud` without `Loud`. -/
theorem C117_sound (ext : Fin n → Bool) (source : Str) (items : List (Item n)) (hw : ItemsWF source items)
    (S : Schema m n) (md : Metadata (PId m n) n) (t : Ty m n) (p p' : Parser n)
    (hp : Reached ext source items p) (x : Tree n) (h : YieldsFix ext S md t p (.success x) p') :
    ∃ c, p'.info.tokens = p.info.tokens ++ c ∧ Parses S source p.emptySpan.lo t c x ∧
      (p.view ext).rest = c.map (·.token) ++ (p'.view ext).rest := by
  obtain ⟨c, h1, h2⟩ := (h.sound hp hw).success x rfl
  refine ⟨c, h1, h2, ?_⟩
  obtain ⟨ts, h3, h4⟩ := h.run.adv.cons
  have h5 : ts = c.map (·.token) := by
    have : (p.view ext).cells.map (·.token) ++ ts = (p.view ext).cells.map (·.token) ++ c.map (·.token) := by
      rw [← List.map_append, ← h1]; exact h4.symm
    exact List.append_cancel_left this
  rw [← h5]
  exact h3

/-- The repair changes errors only: both end with the same parser and the same tree (or both without), and if the
repaired one succeeds so does the code. -/
theorem C117_tree (ext : Fin n → Bool) (S : Schema m n) (md : Metadata (PId m n) n) (t : Ty m n) (p p' : Parser n)
    (x : Option (Tree n)) :
    ((∃ r, Yields ext S md t p r p' ∧ r.tree? = x) ↔ ∃ r, YieldsFix ext S md t p r p' ∧ r.tree? = x) ∧
    (∀ y, YieldsFix ext S md t p (.success y) p' → Yields ext S md t p (.success y) p') ∧
    (∀ r, YieldsFix ext S md t p r p' → r.errs = [] → ∃ r', Yields ext S md t p r' p' ∧ r'.errs = []) := by
  refine ⟨⟨?_, ?_⟩, ?_, ?_⟩
  · rintro ⟨r, h, rfl⟩
    obtain ⟨r', h', ht⟩ := h.twin
    exact ⟨r', h', by cases ht <;> rfl⟩
  · rintro ⟨r, h, rfl⟩
    obtain ⟨r', h', ht⟩ := h.twin
    exact ⟨r', h', by cases ht <;> rfl⟩
  · intro y h
    obtain ⟨r', h', ht⟩ := h.twin
    cases ht with
    | succ => exact h'
  · intro r h he
    obtain ⟨r', h', ht⟩ := h.twin
    refine ⟨r', h', ?_⟩
    cases ht with
    | succ => rfl
    | note => rfl
    | mend _ hq => exact hq he
    | fail hq => exact hq he

/-- If the parse leaves something of the input, nothing changes at all. -/
theorem C117_same (ext : Fin n → Bool) (S : Schema m n) (md : Metadata (PId m n) n) (t : Ty m n) (p p' : Parser n)
    (r : Res n (Tree n)) (hr : (p'.view ext).rest ≠ []) : YieldsFix ext S md t p r p' ↔ Yields ext S md t p r p' :=
  ⟨fun h => h.keep hr, fun h => h.keep hr⟩

/-- Every match of the root with all tokens of the input is found without an error. -/
theorem C117_found (ext : Fin n → Bool) (S : Schema m n) (fuel : Nat) (root : Ty m n)
    (md : Metadata (PId m n) n) (G : Grammar (PId m n) n) (hmd : S.exactMetadata fuel root = some (.ok md))
    (hG : S.IsGrammar root G)
    (hsep : ∀ t p, Reach S.tyParts root (.split t p) → ¬ Nullable G p.pid) (hl : LoopTail S root)
    (source : Str) (items : List (Item n)) (hw : ItemsWF source items)
    (c : List (Cell n)) (x : Tree n) (hx : Parses S source 0 root c x) (hc : c.map (·.token) = streamOf ext items) :
    ∃ p', YieldsFix ext S md root (Parser.new source items) (.success x) p' ∧
      p'.info.tokens = c ∧ (p'.view ext).rest = [] := by
  have E : Found S md root G := .of_exact hmd hG hsep
  have hnew : Reached ext source items (Parser.new source items) := .new
  have hv : (Parser.new source items).view ext = ⟨source, [], toks c⟩ := by
    show View.mk source [] (streamOf ext items) = _
    rw [← hc]
  have hr := hnew.ready hw
  rw [hv] at hr
  have hd := (E.finds (fx := true) hl 0 c x hx (.of_reach .refl)).2 [] rfl hr
  rw [← hv] at hd
  obtain ⟨p', h1, h2⟩ := hd.yieldsFix (hnew.inSource hw)
  exact ⟨p', h1, congrArg View.cells h2, congrArg View.rest h2⟩

/-- Every sentence of the root is found without an error, with its tree. -/
theorem C117_parse (ext : Fin n → Bool) (S : Schema m n) (fuel : Nat) (root : Ty m n)
    (md : Metadata (PId m n) n) (G : Grammar (PId m n) n) (hmd : S.exactMetadata fuel root = some (.ok md))
    (hG : S.IsGrammar root G)
    (hsep : ∀ t p, Reach S.tyParts root (.split t p) → ¬ Nullable G p.pid) (hl : LoopTail S root)
    (source : Str) (items : List (Item n)) (hw : ItemsWF source items)
    (hs : Derives G [.nt root.pid] ((inputWords ext source items).map .tok)) :
    ∃ x c p', YieldsFix ext S md root (Parser.new source items) (.success x) p' ∧
      Parses S source 0 root c x ∧ c.map (·.token) = streamOf ext items ∧
      p'.info.tokens = c ∧ (p'.view ext).rest = [] := by
  obtain ⟨c, x, hx, hc⟩ := Der.matches (source := source) hG .refl hs (streamOf ext items) 0 rfl
  obtain ⟨p', h1, h2, h3⟩ := C117_found ext S fuel root md G hmd hG hsep hl source items hw c x hx hc
  exact ⟨x, c, p', h1, hx, hc, h2, h3⟩

/-- With all four repairs, success with nothing left over means exactly that the type, in which a `Loop` at the end
stands for any number of elements, has a match with all tokens; and then the tree is that of the match. -/
theorem C117_matches (ext : Fin n → Bool) (S : Schema m n) (fuel : Nat) (root : Ty m n)
    (md : Metadata (PId m n) n) (G : Grammar (PId m n) n) (hmd : S.exactMetadata fuel root = some (.ok md))
    (hG : S.IsGrammar root G)
    (hsep : ∀ t p, Reach S.tyParts root (.split t p) → ¬ Nullable G p.pid) (hl : LoopTail S root)
    (source : Str) (items : List (Item n)) (hw : ItemsWF source items) (x : Tree n) :
    (∃ p', YieldsFix ext S md root (Parser.new source items) (.success x) p' ∧ (p'.view ext).rest = []) ↔
    ∃ c, Parses S source 0 root c x ∧ c.map (·.token) = streamOf ext items := by
  constructor
  · rintro ⟨p', h, hr⟩
    obtain ⟨c, h4, h5, h6⟩ := C117_sound ext source items hw S md root _ _ .new x h
    rw [hr, List.append_nil] at h6
    exact ⟨c, h5, h6.symm⟩
  · rintro ⟨c, hx, hc⟩
    obtain ⟨p', h1, -, h3⟩ := C117_found ext S fuel root md G hmd hG hsep hl source items hw c x hx hc
    exact ⟨p', h1, h3⟩

/-- With all four repairs, success with nothing left over means exactly that the input is a sentence. `C112_accepts`
without `Loud`. -/
theorem C117_accepts (ext : Fin n → Bool) (S : Schema m n) (fuel : Nat) (root : Ty m n)
    (md : Metadata (PId m n) n) (G : Grammar (PId m n) n) (hmd : S.exactMetadata fuel root = some (.ok md))
    (hG : S.IsGrammar root G)
    (hsep : ∀ t p, Reach S.tyParts root (.split t p) → ¬ Nullable G p.pid) (hl : LoopFree S root)
    (source : Str) (items : List (Item n)) (hw : ItemsWF source items) :
    (∃ x p', YieldsFix ext S md root (Parser.new source items) (.success x) p' ∧ (p'.view ext).rest = []) ↔
    Derives G [.nt root.pid] ((inputWords ext source items).map .tok) := by
  constructor
  · rintro ⟨x, p', h, hr⟩
    obtain ⟨c, h4, h5, h6⟩ := C117_sound ext source items hw S md root _ _ .new x h
    have hd := h5.der hG hl ⟨.refl, .refl⟩
    rw [hr, List.append_nil] at h6
    have h6 : streamOf ext items = c.map (·.token) := h6
    unfold inputWords
    rw [h6, show (c.map (·.token)).map (·.word source) = wordOf source c by rw [List.map_map]; rfl]
    exact hd
  · intro hs
    obtain ⟨x, c, p', h1, -, -, -, h5⟩ := C117_parse ext S fuel root md G hmd hG hsep (.free hl) source items hw hs
    exact ⟨x, p', h1, h5⟩

/-! ### Examples -/

/-- `Star<Recover<word, num>>` on `a 1 b`, where the code succeeds and drops `b` without a word (`C37_false`): the
repaired one builds the same tree and reports the missing number. -/
example : ∃ p', YieldsFix exExt exS sxMd sxT (Parser.new [97, 32, 49, 32, 98] sxItems) (.recovered (.list ⟨0, 3⟩
      [.recover ⟨0, 1⟩ (.tok ⟨⟨0, 1⟩, 0⟩) (.tok ⟨⟨2, 3⟩, 1⟩)]) [⟨⟨5, 5⟩, .expecting (TSet.one 1 none)⟩]) p' :=
  ⟨_, 20, by rfl⟩

/-- `Recover<word, num>` on `a`. -/
example : ∃ p' e, YieldsFix exExt exS (okOf ⟨[], [], []⟩ (exS.metadata 30 (.recover exWord exNum)))
    (.recover exWord exNum) (Parser.new [97] [.token ⟨⟨0, 1⟩, 0⟩]) (.panic [e]) p' := ⟨_, _, 20, by rfl⟩

/-- The same type on `a 1 b`, which leaves `b`. -/
example : ∃ p' x, Yields exExt exS sxMd (.recover exWord exNum) (Parser.new [97, 32, 49, 32, 98] sxItems)
    (.success x) p' ∧ (p'.view exExt).rest ≠ [] := ⟨_, _, ⟨20, by rfl⟩, by decide⟩

def ryMd : Metadata (PId 0 3) 3 := okOf ⟨[], [], []⟩ (exS.exactMetadata 40 sxT)
def ryG : Grammar (PId 0 3) 3 := ((registerFrom exS.rule 40 sxT.pid).getD [])
def ryU : List (Ty 0 3) := [sxT, .plus (.recover exWord exNum), .recover exWord exNum, exWord, exNum]

/-- The hypotheses of `C117_accepts` with a `Recover` in a repetition, which `C112_accepts` leaves out. -/
example : (∃ x p', YieldsFix exExt exS ryMd sxT (Parser.new [97, 32, 49, 32, 98] sxItems) (.success x) p' ∧
    (p'.view exExt).rest = []) ↔
    Derives ryG [.nt sxT.pid] ((inputWords exExt [97, 32, 49, 32, 98] sxItems).map .tok) := by
  refine C117_accepts exExt exS 40 sxT ryMd ryG rfl (.of_register (fuel := 40) rfl) ?_ ?_ _ _
    (by unfold ItemsWF sxItems; decide)
  · intro t p h
    have := reach_of_check ryU (by decide) (by decide +kernel) h
    simp [ryU, sxT, exWord, exNum] at this
  · exact loopFree_of_check ryU (by decide) (by decide +kernel) (by decide +kernel)

end Teleparse

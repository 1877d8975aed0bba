import Verif.Proof.Whole
import Verif.Props.Termination
/-
Properties C35 (completeness) and C36 (unambiguity).
-/
namespace Teleparse
variable {m n : Nat}

/-! ## C35: completeness -/

/-- A match of a part `t` of the root that comes next in the input is found, if the token after it can
follow `t`; and the parser stops there. Missing for the full statement: grammars that are accepted although a
choice at the end of a part is in doubt because of a token beyond an empty part (by `C27_exact_partial` the ones
that are not LL(1)), `Punct` at the end of a part before an empty part, enums that derive the empty sequence and
can be followed by a token, `Split` with a separator that derives the empty sequence, `Loop`. -/
theorem C35_produce_partial (ext : Fin n → Bool) (S : Schema m n) (fuel : Nat) (root : Ty m n)
    (md : Metadata (PId m n) n) (G : Grammar (PId m n) n) (hmd : S.metadata fuel root = some (.ok md))
    (hG : S.IsGrammar root G) (hsafe : SkipSafe G)
    (hpunct : ∀ t p, Reach S.tyParts root (.punct t p) → ∀ a tok, Beyond G a tok →
      ¬ EndsWith G a (Ty.punct t p).pid)
    (henum : ∀ k v vs, S k = .enum v vs → Reachable G root.pid (.user k) → Nullable G (.user k) →
      ∀ tok, ¬ FollowOf G root.pid (.user k) (some tok))
    (hsep : ∀ t p, Reach S.tyParts root (.split t p) → ¬ Nullable G p.pid)
    (source : Str) (items : List (Item n)) (hw : ItemsWF source items) (p : Parser n)
    (hp : Reached ext source items p) (t : Ty m n) (ht : Reach S.tyParts root t) (hl : LoopFree S t)
    (c : List (Cell n)) (x : Tree n) (hx : Parses S source p.emptySpan.lo t c x) (rest : List (Token n))
    (hrest : (p.view ext).rest = c.map (·.token) ++ rest)
    (hfol : ∀ tok, rest.head?.map (·.word source) = some tok → FollowOf G root.pid t.pid (some tok)) :
    ∃ p', Yields ext S md t p (.success x) p' ∧ p'.info.tokens = p.info.tokens ++ c ∧
      (p'.view ext).rest = rest := by
  have E : Found S md root G := .of_ll1 hmd hG (metadata_ll1 hmd hG hsafe) hpunct henum hsep
  have hv : p.view ext = ⟨source, p.info.tokens, toks c ++ rest⟩ := by
    have hs := hp.source
    cases h : p.view ext with
    | mk a b d =>
      rw [h] at hrest
      cases h
      rw [hs, ← hrest]
  have hr := hp.ready hw
  rw [hv] at hr
  have C : Comp S md source t root G := E.comp ht hl
  have hd := C.finds (fx := false) hx p.info.tokens rest (by rfl) hr ⟨.refl, reach_pid ht⟩ (Ok.okw hfol)
  rw [← hv] at hd
  obtain ⟨p', h1, h2⟩ := hd.yields (hp.inSource hw)
  exact ⟨p', h1, congrArg View.cells h2, congrArg View.rest h2⟩

/-- The token texts of an input. -/
def inputWords (ext : Fin n → Bool) (source : Str) (items : List (Item n)) : List (TokenSrc n) :=
  (streamOf ext items).map (·.word source)

theorem invalidRuns_nil {items : List (Item n)} (h : ∀ sp, Item.error sp ∉ items) : invalidRuns items = [] := by
  have : ∀ items : List (Item n), (∀ sp, Item.error sp ∉ items) → invalidRunsFrom [] items = [] := by
    intro items
    induction items with
    | nil => intro _; rfl
    | cons i items ih =>
      intro h
      cases i with
      | token t =>
        simp only [invalidRunsFrom, mergeSpans]
        exact ih fun sp hsp => h sp (List.mem_cons_of_mem _ hsp)
      | error sp => exact absurd List.mem_cons_self (h sp)
  exact this items h

/-- A match of the root type with all tokens of the input is found. -/
theorem parse_match (ext : Fin n → Bool) (S : Schema m n) (fuel : Nat) (root : Ty m n)
    (md : Metadata (PId m n) n) (G : Grammar (PId m n) n) (hmd : S.metadata fuel root = some (.ok md))
    (E : Found S md root G) (hl : LoopTail S root)
    (source : Str) (items : List (Item n)) (hw : ItemsWF source items)
    (c : List (Cell n)) (x : Tree n) (hx : Parses S source 0 root c x) (hc : c.map (·.token) = streamOf ext items) :
    ∃ p' N, (∀ fuel' ≥ N, rootParse ext S fuel' root source items = .ok (.ok (some x)) p') ∧
      p'.info.tokens = c ∧ (p'.view ext).rest = [] ∧
      (∀ e ∈ p'.info.errors, e.kind = .unexpectedCharacters) ∧
      ((∀ sp, .error sp ∉ items) → p'.info.errors = []) := by
  have hnew : Reached ext source items (Parser.new source items) := .new
  have hv : (Parser.new source items).view ext = ⟨source, [], toks c⟩ := by
    show View.mk source [] (streamOf ext items) = _
    rw [← hc]
  have hr := hnew.ready hw
  rw [hv] at hr
  have hd := (E.finds (fx := false) hl 0 c x hx (.of_reach .refl)).2 [] rfl hr
  rw [← hv] at hd
  obtain ⟨p', ⟨f, h1⟩, h2⟩ := hd.yields (hnew.inSource hw)
  have hre : Reached ext source items p' := .produce S md f root _ hnew h1
  have herr : ∀ e ∈ p'.info.errors, e.kind = .unexpectedCharacters := by
    have hp : (Parser.new source items).parse ext S (max fuel f) root = .ok (.ok (some x)) p' := by
      unfold Parser.parse Parser.parseWithMeta
      rw [metadata_more hmd (Nat.le_max_left _ _)]
      simp only [produce_more h1 (Nat.le_max_right fuel f)]
    obtain ⟨md', r, q, chars, g1, g2, _, _, g5, g6, _⟩ := C48_parse _ _ _ _ _ _ _ hp
    rw [metadata_more hmd (Nat.le_max_left _ _)] at g1
    cases g1
    rw [produce_more h1 (Nat.le_max_right fuel f)] at g2
    cases g2
    intro e he
    rw [g5] at he
    simp only [Parser.new, List.nil_append, Res.errs, List.append_nil] at he
    exact g6 e he
  refine ⟨p', max fuel f, ?_, congrArg View.cells h2, congrArg View.rest h2, herr, ?_⟩
  · intro f' hf'
    unfold rootParse Parser.parse Parser.parseWithMeta
    rw [metadata_more hmd (show fuel ≤ f' by omega)]
    simp only [produce_more h1 (show f ≤ f' by omega)]
  · intro hno
    obtain ⟨read, g1, _, g3, g4⟩ := C04_recorded ext source items p' hre
    have : invalidRuns read = [] := invalidRuns_nil fun sp hsp => hno sp (by rw [g1]; simp [hsp])
    rw [g3, this, List.map_nil] at g4
    rw [← g4]
    exact (List.filter_eq_self.2 fun e he => decide_eq_true (herr e he)).symm

theorem parse_sentence (ext : Fin n → Bool) (S : Schema m n) (fuel : Nat) (root : Ty m n)
    (md : Metadata (PId m n) n) (G : Grammar (PId m n) n) (hmd : S.metadata fuel root = some (.ok md))
    (hG : S.IsGrammar root G) (E : Found S md root G) (hl : LoopTail S root)
    (source : Str) (items : List (Item n)) (hw : ItemsWF source items)
    (hs : Derives G [.nt root.pid] ((inputWords ext source items).map .tok)) :
    ∃ x c p' N, (∀ fuel' ≥ N, rootParse ext S fuel' root source items = .ok (.ok (some x)) p') ∧
      Parses S source 0 root c x ∧ c.map (·.token) = streamOf ext items ∧
      p'.info.tokens = c ∧ (p'.view ext).rest = [] ∧
      (∀ e ∈ p'.info.errors, e.kind = .unexpectedCharacters) ∧
      ((∀ sp, .error sp ∉ items) → p'.info.errors = []) := by
  obtain ⟨c, x, hx, hc⟩ := Der.matches (source := source) hG .refl hs (streamOf ext items) 0 rfl
  obtain ⟨p', N, h1, h2, h3, h4, h5⟩ := parse_match ext S fuel root md G hmd E hl source items hw c x hx hc
  exact ⟨x, c, p', N, h1, hx, hc, h2, h3, h4, h5⟩

/-- Whole inputs: if the tokens are a sentence of the root, `Root::parse` returns the tree of a match of the
type with all tokens; all of the input is consumed, and the only errors are about characters that are not part
of a token. Missing for the full statement: as for `C35_produce_partial`, but `Loop` is allowed at the end. -/
theorem C35_parse_partial (ext : Fin n → Bool) (S : Schema m n) (fuel : Nat) (root : Ty m n)
    (md : Metadata (PId m n) n) (G : Grammar (PId m n) n) (hmd : S.metadata fuel root = some (.ok md))
    (hG : S.IsGrammar root G) (hsafe : SkipSafe G)
    (hpunct : ∀ t p, Reach S.tyParts root (.punct t p) → ∀ a tok, Beyond G a tok →
      ¬ EndsWith G a (Ty.punct t p).pid)
    (henum : ∀ k v vs, S k = .enum v vs → Reachable G root.pid (.user k) → Nullable G (.user k) →
      ∀ tok, ¬ FollowOf G root.pid (.user k) (some tok))
    (hsep : ∀ t p, Reach S.tyParts root (.split t p) → ¬ Nullable G p.pid) (hl : LoopTail S root)
    (source : Str) (items : List (Item n)) (hw : ItemsWF source items)
    (hs : Derives G [.nt root.pid] ((inputWords ext source items).map .tok)) :
    ∃ x c p' N, (∀ fuel' ≥ N, rootParse ext S fuel' root source items = .ok (.ok (some x)) p') ∧
      Parses S source 0 root c x ∧ c.map (·.token) = streamOf ext items ∧
      p'.info.tokens = c ∧ (p'.view ext).rest = [] ∧
      (∀ e ∈ p'.info.errors, e.kind = .unexpectedCharacters) ∧
      ((∀ sp, .error sp ∉ items) → p'.info.errors = []) :=
  parse_sentence ext S fuel root md G hmd hG (.of_ll1 hmd hG (metadata_ll1 hmd hG hsafe) hpunct henum hsep) hl source items hw hs

/-! ### Examples -/

/-- Example: `E = num | L`, `L = word E* "x"`, root `Loop<E>`; the fields of `L` have a semantic type. -/
def cxS : Schema 2 3 := fun k =>
  if k = 0 then .enum (.term 1 ⟨1, none⟩, none) [(.user 1, none)]
  else .struct (.term 0 ⟨0, none⟩, some (LSet.new.insert 2)) [(.star (.user 0), none), (.term 2 ⟨2, some [120]⟩, none)]
def cxT : Ty 2 3 := .loop (.user 0)
def cxMd : Metadata (PId 2 3) 3 := okOf ⟨[], [], []⟩ (cxS.metadata 40 cxT)
def cxG : Grammar (PId 2 3) 3 := (registerFrom cxS.rule 40 cxT.pid).getD []

theorem cxMd_ok : cxS.metadata 40 cxT = some (.ok cxMd) := rfl
theorem cxG_ok : cxS.IsGrammar cxT cxG := .of_register (fuel := 40) rfl

theorem cx_safe : SkipSafe cxG := skipSafe_of_check cxMd_ok cxG_ok 4 (by decide +kernel)
/-- Hence the grammar is LL(1) (as in `C27_exact_partial`). -/
example : LL1 cxG cxT.pid := metadata_ll1 cxMd_ok cxG_ok cx_safe
/-- An interior part can be empty. -/
example : Beyond cxG (.term 0 ⟨0, none⟩) ⟨2, [120]⟩ :=
  ⟨.user 1, [], [.opt (.plus (.user 0))], .term 2 ⟨2, some [120]⟩, [], by decide, by simp, by
    intro k hk
    simp at hk
    subst hk
    exact Der.alt (l := [.plus (.user 0), .eps]) (j := .eps) (by decide) (by decide) (Der.eps (by decide)),
    [], Derives.one (Expands.term (t := ⟨2, some [120]⟩) (by decide) ⟨rfl, by simp⟩)⟩
theorem cx_enum (k v vs) (_ : cxS k = .enum v vs) (_ : Reachable cxG cxT.pid (.user k))
    (hn : Nullable cxG (.user k)) (tok) : ¬ FollowOf cxG cxT.pid (.user k) (some tok) := by
  have h := (metadata_first cxMd_ok cxG_ok (.user k) none).2 hn
  have hno : ∀ k : Fin 2, (cxMd.first.get (.user k)).contains none = false := by decide +kernel
  rw [hno k] at h
  cases h
def cxU : List (Ty 2 3) := [.user 0, .term 1 ⟨1, none⟩, .user 1, .term 0 ⟨0, none⟩, .star (.user 0), .plus (.user 0),
  .term 2 ⟨2, some [120]⟩]
theorem cx_loop : LoopTail cxS cxT :=
  .loop (loopFree_of_check cxU (by decide) (by decide +kernel) (by decide +kernel))
theorem cx_sep (t p : Ty 2 3) (h : Reach cxS.tyParts cxT (.split t p)) : ¬ Nullable cxG p.pid := by
  have := reach_of_check (cxT :: cxU) (by decide) (by decide +kernel) h
  simp [cxU, cxT] at this

theorem cx_punct (t p : Ty 2 3) (h : Reach cxS.tyParts cxT (.punct t p)) :
    ∀ a tok, Beyond cxG a tok → ¬ EndsWith cxG a (Ty.punct t p).pid := by
  have := reach_of_check (cxT :: cxU) (by decide) (by decide +kernel) h
  simp [cxU, cxT] at this

/-- The input `a 1 2 x 3` is a sentence. -/
def cxSource : Str := [97, 32, 49, 32, 50, 32, 120, 32, 51]
def cxItems : List (Item 3) := [.token ⟨⟨0, 1⟩, 0⟩, .token ⟨⟨2, 3⟩, 1⟩, .token ⟨⟨4, 5⟩, 1⟩, .token ⟨⟨6, 7⟩, 2⟩,
  .token ⟨⟨8, 9⟩, 1⟩]
def noExt : Fin n → Bool := fun _ => false
theorem cx_wf : ItemsWF cxSource cxItems := by unfold ItemsWF cxItems cxSource; decide

theorem cx_sentence : Derives cxG [.nt cxT.pid] ((inputWords noExt cxSource cxItems).map .tok) := by
  have num (s) : Der cxG (.user 0) [⟨1, s⟩] :=
    Der.alt (l := [.term 1 ⟨1, none⟩, .user 1]) (j := .term 1 ⟨1, none⟩) (by decide) (by decide)
      (Der.term (t := ⟨1, none⟩) (by decide) ⟨rfl, by simp⟩)
  have nil : Der cxG (.opt (.plus (.user 0))) [] :=
    Der.alt (l := [.plus (.user 0), .eps]) (j := .eps) (by decide) (by decide) (Der.eps (by decide))
  have one {w} (h : Der cxG (.user 0) w) : Der cxG (.plus (.user 0)) w := by
    have := Der.seq1 (i := .plus (.user 0)) (by decide) h nil
    simpa using this
  have two {w v} (h : Der cxG (.user 0) w) (h' : Der cxG (.plus (.user 0)) v) :
      Der cxG (.plus (.user 0)) (w ++ v) :=
    Der.seq1 (i := .plus (.user 0)) (b := .opt (.plus (.user 0))) (by decide) h
      (Der.alt (l := [.plus (.user 0), .eps]) (j := .plus (.user 0)) (by decide) (by decide) h')
  have hword : Der cxG (.term 0 ⟨0, none⟩) [⟨0, [97]⟩] := Der.term (t := ⟨0, none⟩) (by decide) ⟨rfl, by simp⟩
  have hx : Der cxG (.term 2 ⟨2, some [120]⟩) [⟨2, [120]⟩] :=
    Der.term (t := ⟨2, some [120]⟩) (by decide) ⟨rfl, by simp⟩
  have hl : Der cxG (.user 1) [⟨0, [97]⟩, ⟨1, [49]⟩, ⟨1, [50]⟩, ⟨2, [120]⟩] :=
    Der.seq (i := .user 1) (by decide) (.cons hword (.cons
      (Der.alt (i := .opt (.plus (.user 0))) (l := [.plus (.user 0), .eps]) (by decide) (by decide)
        (two (num [49]) (one (num [50])))) (.cons hx .nil)))
  have he : Der cxG (.user 0) [⟨0, [97]⟩, ⟨1, [49]⟩, ⟨1, [50]⟩, ⟨2, [120]⟩] :=
    Der.alt (l := [.term 1 ⟨1, none⟩, .user 1]) (j := .user 1) (by decide) (by decide) hl
  exact two he (one (num [51]))

example : ∃ x p' N, (∀ fuel' ≥ N, rootParse noExt cxS fuel' cxT cxSource cxItems = .ok (.ok (some x)) p') ∧
    p'.info.errors = [] ∧ (p'.view noExt).rest = [] := by
  obtain ⟨x, c, p', N, h1, _, _, _, h5, _, h7⟩ := C35_parse_partial noExt cxS 40 cxT cxMd cxG cxMd_ok cxG_ok
    cx_safe cx_punct cx_enum cx_sep cx_loop cxSource cxItems cx_wf cx_sentence
  refine ⟨x, p', N, h1, h7 ?_, h5⟩
  intro sp h
  simp [cxItems] at h

/-! ### Counterexamples -/

/-- `S = (a, b?) c? b`: accepted, `a b` is a sentence, and it is rejected: `b?` takes the `b`. Token types
0, 1, 2 are `a`, `b`, `c`. -/
def dxB : Ty 0 3 := .term 1 ⟨1, none⟩
def dxT : Ty 0 3 := .tup3 (.tup2 (.term 0 ⟨0, none⟩) (.option dxB)) (.option (.term 2 ⟨2, none⟩)) dxB
def dxG : Grammar (PId 0 3) 3 := (registerFrom exS.rule 30 dxT.pid).getD []
def dxItems : List (Item 3) := [.token ⟨⟨0, 1⟩, 0⟩, .token ⟨⟨1, 2⟩, 1⟩]
/-- Whether metadata was built. -/
def accepted (S : Schema m n) (root : Ty m n) : Bool :=
  match S.metadata 60 root with
  | some (.ok _) => true
  | _ => false
/-- Parse result (a tree or none), number of errors, number of tokens left. -/
def summary (ext : Fin n → Bool) : Out (Parser n) (Except (GErr (PId m n)) (Option (Tree n))) →
    Option (Bool × Nat × Nat)
  | .ok (.ok x) p => some (x.isSome, p.info.errors.length, (p.view ext).rest.length)
  | _ => none

theorem C35_false : accepted exS dxT = true ∧ exS.IsGrammar dxT dxG ∧ ItemsWF [97, 98] dxItems ∧
    Derives dxG [.nt dxT.pid] ((inputWords noExt [97, 98] dxItems).map .tok) ∧
    summary noExt (rootParse noExt exS 60 dxT [97, 98] dxItems) = some (false, 1, 0) := by
  refine ⟨by rfl, .of_register (fuel := 30) rfl, by unfold ItemsWF dxItems; decide, ?_, by rfl⟩
  have none' (t : Ty 0 3) (h : (t.prod.opt, Rule.alt [t.pid, .eps]) ∈ dxG) : Der dxG (.opt t.prod) [] :=
    Der.alt (j := .eps) h (by simp) (Der.eps (by decide))
  have ha : Der dxG (.term 0 ⟨0, none⟩) [⟨0, [97]⟩] := Der.term (t := ⟨0, none⟩) (by decide) ⟨rfl, by simp⟩
  have hb : Der dxG dxB.pid [⟨1, [98]⟩] := Der.term (t := ⟨1, none⟩) (by decide) ⟨rfl, by simp⟩
  have hp : Der dxG (Ty.tup2 (.term 0 ⟨0, none⟩) (.option dxB)).pid [⟨0, [97]⟩] := by
    have := Der.seq1 (G := dxG) (i := (Ty.tup2 (.term 0 ⟨0, none⟩) (.option dxB)).pid) (by decide) ha (none' dxB (by decide))
    simpa using this
  exact Der.seq (G := dxG) (i := dxT.pid) (by decide) (.cons hp (.cons (none' (.term 2 ⟨2, none⟩) (by decide)) (.cons hb .nil)))

/-- `(E, word)` with `enum E = num? | Y`: accepted, a single word is a sentence, and it is rejected. -/
def exNE : Schema 1 4 := fun _ => .enum (.option (.term 1 ⟨1, none⟩), none) [(.term 3 ⟨3, none⟩, none)]
def exNT : Ty 1 4 := .tup2 (.user 0) (.term 0 ⟨0, none⟩)
def exNG : Grammar (PId 1 4) 4 := (registerFrom exNE.rule 30 exNT.pid).getD []

theorem C35_false_enum : accepted exNE exNT = true ∧ exNE.IsGrammar exNT exNG ∧ NoNullableInterior exNG ∧
    Derives exNG [.nt exNT.pid] ((inputWords noExt [97] [.token ⟨⟨0, 1⟩, 0⟩]).map .tok) ∧
    summary noExt (rootParse noExt exNE 60 exNT [97] [.token ⟨⟨0, 1⟩, 0⟩]) = some (false, 1, 1) := by
  refine ⟨by rfl, .of_register (fuel := 30) rfl,
    noInterior_of_check (S := exNE) (md := okOf ⟨[], [], []⟩ (exNE.metadata 60 exNT)) (fuel := 60) (root := exNT)
      (by rfl) (.of_register (fuel := 30) rfl) (by decide +kernel), ?_, by rfl⟩
  have h1 : Der exNG (.opt (.term 1 ⟨1, none⟩)) [] :=
    Der.alt (l := [.term 1 ⟨1, none⟩, .eps]) (j := .eps) (by decide) (by decide) (Der.eps (by decide))
  have h2 : Der exNG (.user 0) [] :=
    Der.alt (l := [.opt (.term 1 ⟨1, none⟩), .term 3 ⟨3, none⟩]) (j := .opt (.term 1 ⟨1, none⟩)) (by decide) (by decide) h1
  have h3 : Der exNG (.term 0 ⟨0, none⟩) [⟨0, [97]⟩] := Der.term (t := ⟨0, none⟩) (by decide) ⟨rfl, by simp⟩
  exact Der.seq1 (G := exNG) (i := exNT.pid) (by decide) h2 h3

/-- `(Split<word, num?>, "x")`: accepted, `a b x` is a sentence, and it is rejected at `b`. -/
def exST : Ty 0 3 := .tup2 (.split exWord (.option exNum)) fxX
def exSG : Grammar (PId 0 3) 3 := (registerFrom exS.rule 30 exST.pid).getD []
def exSItems : List (Item 3) := [.token ⟨⟨0, 1⟩, 0⟩, .token ⟨⟨2, 3⟩, 0⟩, .token ⟨⟨4, 5⟩, 2⟩]

theorem C35_false_split : accepted exS exST = true ∧ exS.IsGrammar exST exSG ∧ NoNullableInterior exSG ∧
    ItemsWF [97, 32, 98, 32, 120] exSItems ∧
    Derives exSG [.nt exST.pid] ((inputWords noExt [97, 32, 98, 32, 120] exSItems).map .tok) ∧
    summary noExt (rootParse noExt exS 60 exST [97, 32, 98, 32, 120] exSItems) = some (false, 1, 2) := by
  refine ⟨by rfl, .of_register (fuel := 30) rfl,
    noInterior_of_check (S := exS) (md := okOf ⟨[], [], []⟩ (exS.metadata 60 exST)) (fuel := 60) (root := exST) (by rfl)
      (.of_register (fuel := 30) rfl) (by decide +kernel),
    by unfold ItemsWF exSItems; decide, ?_, by rfl⟩
  have hw (s) : Der exSG exWord.pid [⟨0, s⟩] := Der.term (t := ⟨0, none⟩) (by decide) ⟨rfl, by simp⟩
  have hn : Der exSG (.opt exNum.pid) [] :=
    Der.alt (l := [exNum.pid, .eps]) (j := .eps) (by decide) (by decide) (Der.eps (by decide))
  have hx : Der exSG fxX.pid [⟨2, [120]⟩] := Der.term (t := ⟨2, some [120]⟩) (by decide) ⟨rfl, by simp⟩
  have h1 : Der exSG (.tup2 (.opt exNum.pid) exWord.pid) [⟨0, [98]⟩] :=
    Der.seq1 (i := .tup2 (.opt exNum.pid) exWord.pid) (by decide) hn (hw [98])
  have h0 : Der exSG (.opt (.plus (.tup2 (.opt exNum.pid) exWord.pid))) [] :=
    Der.alt (l := [.plus (.tup2 (.opt exNum.pid) exWord.pid), .eps]) (j := .eps) (by decide) (by decide)
      (Der.eps (by decide))
  have h2 : Der exSG (.plus (.tup2 (.opt exNum.pid) exWord.pid)) [⟨0, [98]⟩] :=
    Der.seq1 (i := .plus (.tup2 (.opt exNum.pid) exWord.pid)) (by decide) h1 h0
  have h3 : Der exSG (.opt (.plus (.tup2 (.opt exNum.pid) exWord.pid))) [⟨0, [98]⟩] :=
    Der.alt (l := [.plus (.tup2 (.opt exNum.pid) exWord.pid), .eps]) (by decide) (by decide) h2
  have h4 : Der exSG (Ty.split exWord (.option exNum)).pid [⟨0, [97]⟩, ⟨0, [98]⟩] :=
    Der.seq1 (i := (Ty.split exWord (.option exNum)).pid) (by decide) (hw [97]) h3
  exact Der.seq1 (G := exSG) (i := exST.pid) (by decide) h4 hx

/-- `(Loop<word>, "x")`: accepted, `a x` is a sentence, and it is parsed with two errors: `Loop` takes the `x`. -/
def exLT : Ty 0 3 := .tup2 (.loop exWord) fxX
def exLG : Grammar (PId 0 3) 3 := (registerFrom exS.rule 30 exLT.pid).getD []
def exLItems : List (Item 3) := [.token ⟨⟨0, 1⟩, 0⟩, .token ⟨⟨2, 3⟩, 2⟩]

theorem C35_false_loop : accepted exS exLT = true ∧ exS.IsGrammar exLT exLG ∧ NoNullableInterior exLG ∧
    ItemsWF [97, 32, 120] exLItems ∧
    Derives exLG [.nt exLT.pid] ((inputWords noExt [97, 32, 120] exLItems).map .tok) ∧
    summary noExt (rootParse noExt exS 60 exLT [97, 32, 120] exLItems) = some (true, 2, 0) := by
  refine ⟨by rfl, .of_register (fuel := 30) rfl,
    noInterior_of_check (S := exS) (md := okOf ⟨[], [], []⟩ (exS.metadata 60 exLT)) (fuel := 60) (root := exLT) (by rfl)
      (.of_register (fuel := 30) rfl) (by decide +kernel),
    by unfold ItemsWF exLItems; decide, ?_, by rfl⟩
  have hw (s) : Der exLG exWord.pid [⟨0, s⟩] := Der.term (t := ⟨0, none⟩) (by decide) ⟨rfl, by simp⟩
  have hx : Der exLG fxX.pid [⟨2, [120]⟩] := Der.term (t := ⟨2, some [120]⟩) (by decide) ⟨rfl, by simp⟩
  have h0 : Der exLG (.opt (.plus exWord.pid)) [] :=
    Der.alt (l := [.plus exWord.pid, .eps]) (j := .eps) (by decide) (by decide) (Der.eps (by decide))
  have h2 : Der exLG (.plus exWord.pid) [⟨0, [97]⟩] := Der.seq1 (i := .plus exWord.pid) (by decide) (hw [97]) h0
  exact Der.seq1 (G := exLG) (i := exLT.pid) (by decide) h2 hx

/-! ## C36: unambiguity -/

/-- Two matches of a type in the same place of the same input, each followed by nothing or by a token that
can follow the type, consist of the same tokens with the same semantic types and have the same tree. Missing
for the full statement: grammars that are accepted although a choice at the end of a part is in doubt because of
a token beyond an empty part (by `C27_exact_partial` the ones that are not LL(1); false there), and `Loop`, which accepts nothing although its production does not. -/
theorem C36_unique_partial (S : Schema m n) (fuel : Nat) (root : Ty m n) (md : Metadata (PId m n) n)
    (G : Grammar (PId m n) n) (hmd : S.metadata fuel root = some (.ok md)) (hG : S.IsGrammar root G)
    (hsafe : SkipSafe G) (t : Ty m n) (ht : Reach S.tyParts root t) (hl : LoopFree S t)
    (source : Str) (pos : Nat) (c c' : List (Cell n)) (x x' : Tree n) (rest rest' : List (Token n))
    (h : Parses S source pos t c x) (h' : Parses S source pos t c' x')
    (hin : c.map (·.token) ++ rest = c'.map (·.token) ++ rest')
    (hf : ∀ tok, rest.head?.map (·.word source) = some tok → FollowOf G root.pid t.pid (some tok))
    (hf' : ∀ tok, rest'.head?.map (·.word source) = some tok → FollowOf G root.pid t.pid (some tok)) :
    c = c' ∧ x = x' := by
  have E : Amb S source t root G := ⟨⟨hG⟩, metadata_ll1 hmd hG hsafe, hl, fun h hw => h.der hG hl hw⟩
  exact E.uniq h _ _ _ _ h' hin ⟨.refl, reach_pid ht⟩ hf hf'

/-- The same for grammars that are LL(1) in the textbook sense. -/
theorem C36_ll1_partial (S : Schema m n) (root : Ty m n) (G : Grammar (PId m n) n) (hG : S.IsGrammar root G)
    (hll : LL1 G root.pid) (t : Ty m n) (ht : Reach S.tyParts root t) (hl : LoopFree S t)
    (source : Str) (pos : Nat) (c c' : List (Cell n)) (x x' : Tree n) (rest rest' : List (Token n))
    (h : Parses S source pos t c x) (h' : Parses S source pos t c' x')
    (hin : c.map (·.token) ++ rest = c'.map (·.token) ++ rest')
    (hf : ∀ tok, rest.head?.map (·.word source) = some tok → FollowOf G root.pid t.pid (some tok))
    (hf' : ∀ tok, rest'.head?.map (·.word source) = some tok → FollowOf G root.pid t.pid (some tok)) :
    c = c' ∧ x = x' := by
  have E : Amb S source t root G := ⟨⟨hG⟩, hll, hl, fun h hw => h.der hG hl hw⟩
  exact E.uniq h _ _ _ _ h' hin ⟨.refl, reach_pid ht⟩ hf hf'

/-- In particular the same tokens have one tree. -/
theorem C36_tree_partial (S : Schema m n) (fuel : Nat) (root : Ty m n) (md : Metadata (PId m n) n)
    (G : Grammar (PId m n) n) (hmd : S.metadata fuel root = some (.ok md)) (hG : S.IsGrammar root G)
    (hsafe : SkipSafe G) (t : Ty m n) (ht : Reach S.tyParts root t) (hl : LoopFree S t)
    (source : Str) (pos : Nat) (c c' : List (Cell n)) (x x' : Tree n)
    (h : Parses S source pos t c x) (h' : Parses S source pos t c' x')
    (hin : c.map (·.token) = c'.map (·.token)) : c = c' ∧ x = x' :=
  C36_unique_partial S fuel root md G hmd hG hsafe t ht hl source pos c c' x x' [] [] h h'
    (by rw [hin]) (fun _ h => by cases h) (fun _ h => by cases h)

/-- In terms of the grammar only: at most one prefix of a sequence of token texts is a sentence of the type
followed by something that can follow it. -/
theorem C36_prefix_partial (S : Schema m n) (fuel : Nat) (root : Ty m n) (md : Metadata (PId m n) n)
    (G : Grammar (PId m n) n) (hmd : S.metadata fuel root = some (.ok md)) (hG : S.IsGrammar root G)
    (hsafe : SkipSafe G) (t : Ty m n) (ht : Reach S.tyParts root t) (hl : LoopFree S t)
    (u u' r r' : List (TokenSrc n)) (h : Derives G [.nt t.pid] (u.map .tok))
    (h' : Derives G [.nt t.pid] (u'.map .tok)) (he : u ++ r = u' ++ r')
    (hf : ∀ tok, r.head? = some tok → FollowOf G root.pid t.pid (some tok))
    (hf' : ∀ tok, r'.head? = some tok → FollowOf G root.pid t.pid (some tok)) : u = u' := by
  obtain ⟨source, ts, hts⟩ := tokens_of_words (u ++ r) []
  rw [List.nil_append] at hts
  obtain ⟨a, b, rfl, ha, hb⟩ := List.map_eq_append_iff.1 hts
  obtain ⟨a', b', e, ha', hb'⟩ := List.map_eq_append_iff.1 (hts.trans he)
  obtain ⟨c, x, hx, hc⟩ := Der.matches (source := source) hG (reach_pid ht) h a 0 ha
  obtain ⟨c', x', hx', hc'⟩ := Der.matches (source := source) hG (reach_pid ht) h' a' 0 ha'
  obtain ⟨rfl, -⟩ := C36_unique_partial S fuel root md G hmd hG hsafe t ht hl source 0 c c' x x' b b' hx hx'
    (by rw [hc, hc', e]) (fun tok h => hf tok (by rw [← hb]; simpa using h))
    (fun tok h => hf' tok (by rw [← hb']; simpa using h))
  rw [← ha, ← ha', ← hc, ← hc']

/-- Example: the conditions hold for `E` of the schema above. -/
example (source : Str) (pos : Nat) (c c' : List (Cell 3)) (x x' : Tree 3)
    (h : Parses cxS source pos (.user 0) c x) (h' : Parses cxS source pos (.user 0) c' x')
    (hin : c.map (·.token) = c'.map (·.token)) : c = c' ∧ x = x' :=
  C36_tree_partial cxS 40 cxT cxMd cxG cxMd_ok cxG_ok cx_safe _ (.step .refl (by simp [cxT, Schema.tyParts]))
    (loopFree_of_check cxU (by decide) (by decide +kernel) (by decide +kernel)) source pos c c' x x' h h' hin
example : ∃ c x, Parses cxS [97, 49, 120] 0 (.user 0) c x ∧ c.length = 3 := by
  refine ⟨_, _, .enum (k := 0) (i := 1) rfl rfl (.struct (k := 1) rfl (.cons (.term (t := ⟨⟨0, 1⟩, 0⟩) ⟨rfl, by simp⟩)
    (.cons (.starSome (k := 0) (.cons (.enum (k := 0) (i := 0) rfl rfl (.term (t := ⟨⟨1, 2⟩, 1⟩) ⟨rfl, by simp⟩)) .nil))
      (.cons (.term (t := ⟨⟨2, 3⟩, 2⟩) ⟨rfl, ?_⟩) .nil)))), rfl⟩
  intro l hl
  cases hl
  decide

/-- `S = (a, b?) c? b?`: accepted and ambiguous; `a b` has two trees. -/
def ambT : Ty 0 3 := .tup3 (.tup2 (.term 0 ⟨0, none⟩) (.option dxB)) (.option (.term 2 ⟨2, none⟩)) (.option dxB)

theorem C36_false : accepted exS ambT = true ∧ ∃ c x x', Parses exS [97, 98] 0 ambT c x ∧
    Parses exS [97, 98] 0 ambT c x' ∧ x ≠ x' := by
  have ha : Parses exS [97, 98] 0 (.term 0 ⟨0, none⟩) [Cell.ofToken ⟨⟨0, 1⟩, 0⟩] (.tok ⟨⟨0, 1⟩, 0⟩) :=
    .term ⟨rfl, by simp⟩
  have hb (pos) : Parses exS [97, 98] pos dxB [Cell.ofToken ⟨⟨1, 2⟩, 1⟩] (.tok ⟨⟨1, 2⟩, 1⟩) :=
    .term ⟨rfl, by simp⟩
  have h1 := Parses.tuple (S := exS) (source := [97, 98]) (pos := 0) (t := ambT) (.inr (.inl ⟨_, _, _, rfl, rfl⟩))
    (.cons (.tuple (.inl ⟨_, _, rfl, rfl⟩) (.cons ha (.cons (.optSome (hb _)) .nil)))
      (.cons .optNone (.cons .optNone .nil)))
  have h2 := Parses.tuple (S := exS) (source := [97, 98]) (pos := 0) (t := ambT) (.inr (.inl ⟨_, _, _, rfl, rfl⟩))
    (.cons (.tuple (.inl ⟨_, _, rfl, rfl⟩) (.cons ha (.cons .optNone .nil)))
      (.cons .optNone (.cons (.optSome (hb _)) .nil)))
  refine ⟨by rfl, _, _, _, h1, h2, ?_⟩
  intro h
  injection h with _ h
  injection h with h
  injection h with _ h
  injection h with _ h
  injection h with h
  cases h

end Teleparse

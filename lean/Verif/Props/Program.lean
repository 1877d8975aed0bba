import Verif.Proof.ProgramSent
import Verif.Props.Scanning
import Verif.Props.Termination
/-
Properties of whole programs: C92 (declarations and accepted texts), C93 (the generated test).
-/
namespace Teleparse.Prog
open Macro Syn

variable {E : Engine} {P : Program} {L : Lexicon} {vs : List Variant}

/-! ## C92 -/

/-- A program with an accepted lexicon compiles exactly if it is as the specification says. -/
theorem C92_compiles (h : Macro.expand E P.lexicon = .ok L) (hvs : P.lexicon.variants = some vs)
    (hd : P.Distinct vs) : (∀ k, ∃ c : Code P.types.length vs.length, P.code L k = some c) ↔ P.Good vs :=
  compiles_iff h hvs hd

/-- The code of a program does what its declarations mean, and they have one meaning only. -/
theorem C92_program (h : Macro.expand E P.lexicon = .ok L) (hvs : P.lexicon.variants = some vs)
    (hd : P.Distinct vs) {c : Fin P.types.length → Code P.types.length vs.length}
    (hc : ∀ k, P.code L k = some (c k)) : ∃ S, P.Declares vs S ∧ (∀ S', P.Declares vs S' → S' = S) ∧
      (∀ fuel root, metadataOf c fuel root = S.metadata fuel root) ∧
      ∀ ext fuel root source items, rootParseOf ext c fuel root source items = rootParse ext S fuel root source items := by
  obtain ⟨S, h1, h2⟩ := code_schema h hvs hd hc
  exact ⟨S, h1, fun S' hS' => Declares.unique h hvs hd hS' h1, metadataOf_eq h2, fun ext => rootParseOf_eq h2 ext⟩

/-- If `parse` of a type returns a tree, there are no errors and no tokens are left, the tokens are of the declared
language of the type. Missing for the full property: types in which a silent failure of `Recover` is absorbed, as for
C34. -/
theorem C92_sound_partial (h : Macro.expand E P.lexicon = .ok L) (hvs : P.lexicon.variants = some vs)
    (hd : P.Distinct vs) {c : Fin P.types.length → Code P.types.length vs.length}
    (hc : ∀ k, P.code L k = some (c k)) {S : Schema P.types.length vs.length} (hS : P.Declares vs S)
    {source : Str} {items : List (Item vs.length)} (hw : ItemsWF source items) {fuel : Nat} {e : TyE}
    {t : Ty P.types.length vs.length} (ht : Means P vs e t) (hl : Loud S t) {x : Tree vs.length}
    {p' : Parser vs.length} (hx : rootParseOf L.shouldExtract c fuel t source items = .ok (.ok (some x)) p')
    (he : p'.info.errors = []) (hr : (p'.view L.shouldExtract).rest = []) :
    Sent P vs e (inputWords L.shouldExtract source items) := by
  obtain ⟨S', h1, h2, -, h4⟩ := C92_program h hvs hd hc
  cases h2 S hS
  rw [h4] at hx
  obtain ⟨k, rest, g1, g2, g3⟩ := C34_parse _ source items hw S fuel t p' (.inl hl) x hx he
  have hre : Reached L.shouldExtract source items p' := .parse S fuel t _ .new hx
  have g4 := hre.total
  rw [hr, List.append_nil, g3] at g4
  have g5 := sent_of_parses hS g1 e ht
  unfold inputWords
  rw [← g4, List.map_map]
  exact g5

/-- If the tokens are of the declared language of a type of an accepted grammar, `parse` returns a tree, there are no
errors and no tokens are left. Missing for the full property: the conditions of `C35_parse_partial`. -/
theorem C92_complete_partial (h : Macro.expand E P.lexicon = .ok L) (hvs : P.lexicon.variants = some vs)
    (hd : P.Distinct vs) {c : Fin P.types.length → Code P.types.length vs.length}
    (hc : ∀ k, P.code L k = some (c k)) {S : Schema P.types.length vs.length} (hS : P.Declares vs S)
    {e : TyE} {root : Ty P.types.length vs.length} (hroot : Means P vs e root) {fuel : Nat}
    {md : Metadata (PId P.types.length vs.length) vs.length} {Gr : Grammar (PId P.types.length vs.length) vs.length}
    (hmd : metadataOf c fuel root = some (.ok md)) (hGr : S.IsGrammar root Gr) (hsafe : SkipSafe Gr)
    (hpunct : ∀ t p, Reach S.tyParts root (.punct t p) → ∀ a tok, Beyond Gr a tok →
      ¬ EndsWith Gr a (Ty.punct t p).pid)
    (henum : ∀ k v vs', S k = .enum v vs' → Reachable Gr root.pid (.user k) → Nullable Gr (.user k) →
      ∀ tok, ¬ FollowOf Gr root.pid (.user k) (some tok))
    (hsep : ∀ t p, Reach S.tyParts root (.split t p) → ¬ Nullable Gr p.pid) (hl : LoopTail S root)
    {source : Str} {items : List (Item vs.length)} (hw : ItemsWF source items) (hi : ∀ sp, .error sp ∉ items)
    (hs : Sent P vs e (inputWords L.shouldExtract source items)) :
    ∃ x p' N, (∀ fuel' ≥ N, rootParseOf L.shouldExtract c fuel' root source items = .ok (.ok (some x)) p') ∧
      p'.info.errors = [] ∧ (p'.view L.shouldExtract).rest = [] := by
  obtain ⟨S', h1, h2, h3, h4⟩ := C92_program h hvs hd hc
  cases h2 S hS
  rw [h3] at hmd
  obtain ⟨k, x, g1, g2⟩ := sent_matches hd hS source hs root hroot (streamOf L.shouldExtract items) 0 rfl
  obtain ⟨p', N, k1, k2, k3, k4, k5⟩ := parse_match L.shouldExtract S fuel root md Gr hmd
    (.of_ll1 hmd hGr (metadata_ll1 hmd hGr hsafe) hpunct henum hsep) hl source items hw k x g1 g2
  exact ⟨x, p', N, fun f hf => by rw [h4]; exact k1 f hf, k5 hi, k3⟩

/-- From the declarations and a text: if the lexicon, as declared, splits the text into tokens and ignored text,
`parse` of a type returns a tree, with no errors and nothing left, exactly if the tokens are of the declared
language. Missing for the full property: the conditions of `C83_parse_partial`. -/
theorem C92_text_partial {G : Logos} (hG : G.Agrees E) (h : Macro.expand E P.lexicon = .ok L)
    (hvs : P.lexicon.variants = some vs) (htx : P.lexicon.Texts)
    (hb : vs.Pairwise fun a b => ¬ (a.Blank ∧ b.Lexed)) (hcl : P.lexicon.Clear G)
    (hd : P.Distinct vs) {c : Fin P.types.length → Code P.types.length vs.length}
    (hc : ∀ k, P.code L k = some (c k)) {S : Schema P.types.length vs.length} (hS : P.Declares vs S)
    {e : TyE} {root : Ty P.types.length vs.length} (hroot : Means P vs e root) {fuel : Nat}
    {md : Metadata (PId P.types.length vs.length) vs.length} {Gr : Grammar (PId P.types.length vs.length) vs.length}
    (hmd : metadataOf c fuel root = some (.ok md)) (hGr : S.IsGrammar root Gr) (hsafe : SkipSafe Gr)
    (hpunct : ∀ t p, Reach S.tyParts root (.punct t p) → ∀ a tok, Beyond Gr a tok →
      ¬ EndsWith Gr a (Ty.punct t p).pid)
    (henum : ∀ k v vs', S k = .enum v vs' → Reachable Gr root.pid (.user k) → Nullable Gr (.user k) →
      ∀ tok, ¬ FollowOf Gr root.pid (.user k) (some tok))
    (hsep : ∀ t p, Reach S.tyParts root (.split t p) → ¬ Nullable Gr p.pid) (hl : LoopTail S root)
    (hloud : Loud S root) {source : Str} (hu : Utf8 source) {toks : List (Nat × Str)}
    (hs : P.lexicon.Splits G source toks) {items : List (Item vs.length)} (hscan : L.Scan G source 0 items) :
    (∃ x p' fuel', rootParseOf L.shouldExtract c fuel' root source items = .ok (.ok (some x)) p' ∧
      p'.info.errors = [] ∧ (p'.view L.shouldExtract).rest = []) ↔ Sent P vs e (Decl.words vs toks) := by
  have hw := C81_wf hG h htx hu hscan
  rw [← C83_words_partial hG h hvs htx hd.variants hb hcl hs hscan]
  constructor
  · rintro ⟨x, p', f, h1, h2, h3⟩
    exact C92_sound_partial h hvs hd hc hS hw hroot hloud h1 h2 h3
  · intro hsent
    obtain ⟨ts, rfl, -⟩ := C83_scan_partial hG h hvs htx hd.variants hb hcl hs hscan
    obtain ⟨x, p', N, h1, h2, h3⟩ := C92_complete_partial h hvs hd hc hS hroot hmd hGr hsafe hpunct henum hsep hl hw
      (by simp) hsent
    exact ⟨x, p', N, h1 N (Nat.le_refl _), h2, h3⟩

/-! ### Example -/

/-- `enum E { N(Num), L(L) }` -/
def peE : DeclD TyE := ⟨[20], [some [.root]], .enum
  [⟨[1], false, .unnamed [⟨[], .name [8], []⟩], []⟩, ⟨[2], false, .unnamed [⟨[], .name [21], []⟩], []⟩]⟩

/-- `struct L { #[teleparse(semantic(K))] head: Word, items: Star<E>, end: X }` -/
def peLst : DeclD TyE := ⟨[21], [], .struct (.named
  [⟨[1], .name [7], [some [.semantic (some [[3]])]]⟩, ⟨[2], .star (.name [20]), []⟩, ⟨[3], .name [9], []⟩])⟩

/-- With the lexicon `teDecl`. -/
def peP : Program := ⟨teDecl, [peE, peLst]⟩

def peCode (k : Fin 2) : Code 2 3 := (peP.code teL k).getD (.enum ⟨[], []⟩)

theorem peDistinct : peP.Distinct teVars where
  items := by decide
  variants := by decide
  fields := by
    intro d hd
    simp only [peP, List.mem_cons, List.not_mem_nil, or_false] at hd
    rcases hd with rfl | rfl
    · show (_ : List _).Nodup; decide
    · show (_ : List _).Nodup; decide

theorem peWord : Means peP teVars (.name [7]) (.term 0 ⟨(0 : Fin 3), none⟩) :=
  .term (P := peP) (vs := teVars) (i := 0) (k := (0 : Fin 3)) (t := ⟨some [7], .path⟩) rfl rfl
theorem peNum : Means peP teVars (.name [8]) (.term 1 ⟨(1 : Fin 3), none⟩) :=
  .term (P := peP) (vs := teVars) (i := 1) (k := (1 : Fin 3)) (t := ⟨some [8], .path⟩) rfl rfl
theorem peX : Means peP teVars (.name [9]) (.term 2 ⟨(2 : Fin 3), some [120]⟩) :=
  .term (P := peP) (vs := teVars) (i := 2) (k := (2 : Fin 3)) (t := ⟨some [9], .value (some [120])⟩) rfl rfl
theorem peRoot : Means peP teVars (.name [20]) (.user (0 : Fin 2)) := .user (P := peP) (0 : Fin 2)
theorem peInner : Means peP teVars (.name [21]) (.user (1 : Fin 2)) := .user (P := peP) (1 : Fin 2)

theorem peDeclares : peP.Declares teVars cxS := by
  intro k
  match k with
  | ⟨0, _⟩ => exact .enum rfl (.cons (.plain peNum) (.cons (.plain peInner) .nil))
  | ⟨1, _⟩ =>
    exact .struct rfl (.cons (.semantic (P := peP) (vs := teVars) (xs := [(2 : Fin 3)]) peWord (by simp) (.cons rfl .nil))
      (.cons (.plain (.star peRoot)) (.cons (.plain peX) .nil)))

theorem peCode_ok (k : Fin 2) : peP.code teL k = some (peCode k) := by
  match k with
  | 0 => rfl
  | 1 => rfl

example : peP.Good teVars := (C92_compiles teOk rfl peDistinct).1 fun k => ⟨_, peCode_ok k⟩

def peT : Ty 2 3 := .user 0
def peMd : Metadata (PId 2 3) 3 := okOf ⟨[], [], []⟩ (cxS.metadata 40 peT)
def peG : Grammar (PId 2 3) 3 := (registerFrom cxS.rule 40 peT.pid).getD []

theorem peMd_ok : cxS.metadata 40 peT = some (.ok peMd) := rfl
theorem peMd_code : metadataOf peCode 40 peT = some (.ok peMd) := by
  obtain ⟨S, -, h2, h3, -⟩ := C92_program (P := peP) teOk (vs := teVars) rfl peDistinct peCode_ok
  cases h2 cxS peDeclares
  exact (h3 40 peT).trans peMd_ok
theorem peG_ok : cxS.IsGrammar peT peG := .of_register (fuel := 40) rfl
theorem pe_safe : SkipSafe peG := skipSafe_of_check peMd_ok peG_ok 4 (by decide +kernel)
theorem pe_enum (k v vs) (_ : cxS k = .enum v vs) (_ : Reachable peG peT.pid (.user k))
    (hn : Nullable peG (.user k)) (tok) : ¬ FollowOf peG peT.pid (.user k) (some tok) := by
  have h := (metadata_first peMd_ok peG_ok (.user k) none).2 hn
  have hno : ∀ k : Fin 2, (peMd.first.get (.user k)).contains none = false := by decide +kernel
  rw [hno k] at h
  cases h
theorem pe_reach {t : Ty 2 3} (h : Reach cxS.tyParts peT t) : t ∈ cxU :=
  reach_of_check cxU (by decide) (by decide +kernel) h
theorem pe_loop : LoopTail cxS peT :=
  .free (loopFree_of_check cxU (by decide) (by decide +kernel) (by decide +kernel))
theorem pe_sep (t p : Ty 2 3) (h : Reach cxS.tyParts peT (.split t p)) : ¬ Nullable peG p.pid := by
  have := pe_reach h
  simp [cxU] at this
theorem pe_punct (t p : Ty 2 3) (h : Reach cxS.tyParts peT (.punct t p)) :
    ∀ a tok, Beyond peG a tok → ¬ EndsWith peG a (Ty.punct t p).pid := by
  have := pe_reach h
  simp [cxU] at this
theorem pe_loud : Loud cxS peT := by
  refine (RecoverFree.loud ?_).1
  intro t ht a b h
  subst h
  have := pe_reach ht
  simp [cxU] at this

/-- `"a 1 x"` -/
def peSource : Str := [97, 32, 49, 32, 120]

theorem peSplits : teDecl.Splits altLogos peSource [(0, [97]), (1, [49]), (2, [120])] :=
  .token (len := 1) (r := .regex [97, 124, 98]) (best_of (by decide))
    (.skip (len := 1) (r := .regex [32]) (best_of (by decide))
    (.token (len := 1) (r := .regex [49, 124, 51]) (best_of (by decide))
    (.skip (len := 1) (r := .regex [32]) (best_of (by decide))
    (.token (len := 1) (r := .token [120]) (best_of (by decide)) .done))))

theorem peSent : Sent peP teVars (.name [20]) [⟨(0 : Fin 3), [97]⟩, ⟨(1 : Fin 3), [49]⟩, ⟨(2 : Fin 3), [120]⟩] := by
  have hword : Sent peP teVars (.name [7]) [⟨(0 : Fin 3), [97]⟩] :=
    .term (t := ⟨some [7], .path⟩) (show (⟨some [7], .path⟩ : TMeta) ∈ [⟨some [7], .path⟩] from List.mem_cons_self) rfl (fun lit h => by cases h)
  have hnum : Sent peP teVars (.name [8]) [⟨(1 : Fin 3), [49]⟩] :=
    .term (t := ⟨some [8], .path⟩) (show (⟨some [8], .path⟩ : TMeta) ∈ [⟨some [8], .path⟩] from List.mem_cons_self) rfl (fun lit h => by cases h)
  have hx : Sent peP teVars (.name [9]) [⟨(2 : Fin 3), [120]⟩] :=
    .term (t := ⟨some [9], .value (some [120])⟩) (show (⟨some [9], .value (some [120])⟩ : TMeta) ∈ [⟨some [9], .value (some [120])⟩] from List.mem_cons_self) rfl (fun lit h => by cases h; rfl)
  have he : Sent peP teVars (.name [20]) [⟨(1 : Fin 3), [49]⟩] :=
    .enum (d := peE) List.mem_cons_self rfl List.mem_cons_self List.mem_cons_self hnum
  have hl : Sent peP teVars (.name [21]) [⟨(0 : Fin 3), [97]⟩, ⟨(1 : Fin 3), [49]⟩, ⟨(2 : Fin 3), [120]⟩] :=
    .struct (d := peLst) (List.mem_cons_of_mem _ List.mem_cons_self) rfl
      (.cons hword (.cons (.star (k := 1) (.cons he .nil)) (.cons hx .nil)))
  exact .enum (d := peE) List.mem_cons_self rfl (List.mem_cons_of_mem _ List.mem_cons_self) List.mem_cons_self hl

/-- The text is accepted. -/
example : ∃ items : List (Item 3), teL.Scan altLogos peSource 0 items ∧
    ∃ x p' fuel', rootParseOf teL.shouldExtract peCode fuel' peT peSource items = .ok (.ok (some x)) p' ∧
      p'.info.errors = [] ∧ (p'.view teL.shouldExtract).rest = [] := by
  obtain ⟨items, hs⟩ := C81_total altAgrees teOk teTexts (vs := teVars) rfl peSource
  exact ⟨items, hs, (C92_text_partial (P := peP) altAgrees teOk (vs := teVars) rfl teTexts (by decide)
    (clear_of (by decide)) peDistinct peCode_ok peDeclares peRoot peMd_code peG_ok pe_safe pe_punct pe_enum pe_sep
    pe_loop pe_loud (utf8_ascii (by decide)) peSplits hs).2 peSent⟩

/-! ### Counterexample -/

/-- `struct S { p: (Word, Option<Num>), q: Option<X>, r: Num }` -/
def pfP : Program := ⟨teDecl, [⟨[40], [some [.root]], .struct (.named
  [⟨[1], .tup2 (.name [7]) (.option (.name [8])), []⟩, ⟨[2], .option (.name [9]), []⟩, ⟨[3], .name [8], []⟩])⟩]⟩

def pfCode (k : Fin 1) : Code 1 3 := (pfP.code teL k).getD (.enum ⟨[], []⟩)

def pfS : Schema 1 3 := fun _ => .struct (.tup2 (.term 0 ⟨0, none⟩) (.option (.term 1 ⟨1, none⟩)), none)
  [(.option (.term 2 ⟨2, some [120]⟩), none), (.term 1 ⟨1, none⟩, none)]

theorem pfDistinct : pfP.Distinct teVars where
  items := by decide
  variants := by decide
  fields := by
    intro d hd
    simp only [pfP, List.mem_cons, List.not_mem_nil, or_false] at hd
    subst hd
    show (_ : List _).Nodup; decide

theorem pfCode_ok (k : Fin 1) : pfP.code teL k = some (pfCode k) := by
  match k with
  | 0 => rfl

theorem pfDeclares : pfP.Declares teVars pfS := by
  have word : Means pfP teVars (.name [7]) (.term 0 ⟨(0 : Fin 3), none⟩) :=
    .term (P := pfP) (vs := teVars) (i := 0) (k := (0 : Fin 3)) (t := ⟨some [7], .path⟩) rfl rfl
  have num : Means pfP teVars (.name [8]) (.term 1 ⟨(1 : Fin 3), none⟩) :=
    .term (P := pfP) (vs := teVars) (i := 1) (k := (1 : Fin 3)) (t := ⟨some [8], .path⟩) rfl rfl
  have x : Means pfP teVars (.name [9]) (.term 2 ⟨(2 : Fin 3), some [120]⟩) :=
    .term (P := pfP) (vs := teVars) (i := 2) (k := (2 : Fin 3)) (t := ⟨some [9], .value (some [120])⟩) rfl rfl
  intro k
  match k with
  | ⟨0, _⟩ => exact .struct rfl (.cons (.plain (.tup2 word (.option num))) (.cons (.plain (.option x)) (.cons (.plain num) .nil)))

def pfItems : List (Item 3) := [.token ⟨⟨0, 1⟩, 0⟩, .token ⟨⟨1, 2⟩, 1⟩]

theorem pfMd_ok : pfS.metadata 40 (.user 0) = some (.ok (okOf ⟨[], [], []⟩ (pfS.metadata 40 (.user 0)))) := rfl

theorem pfSummary : summary teL.shouldExtract (rootParse teL.shouldExtract pfS 40 (.user 0) [97, 49] pfItems) =
    some (false, 1, 0) := by decide +kernel

theorem pfRun : (∃ md, metadataOf pfCode 40 (.user 0) = some (.ok md)) ∧
    summary teL.shouldExtract (rootParseOf teL.shouldExtract pfCode 40 (.user 0) [97, 49] pfItems) =
      some (false, 1, 0) := by
  obtain ⟨S, -, h2, h3, h4⟩ := C92_program (P := pfP) teOk (vs := teVars) rfl pfDistinct pfCode_ok
  cases h2 pfS pfDeclares
  exact ⟨⟨_, (h3 40 (.user (0 : Fin 1))).trans pfMd_ok⟩,
    (congrArg (summary teL.shouldExtract) (h4 teL.shouldExtract 40 (.user (0 : Fin 1)) [97, 49] pfItems)).trans pfSummary⟩

/-- The program compiles, its grammar is accepted, the tokens of `a1` are of the declared language of `S`, and they
are rejected. -/
theorem C92_false : Macro.expand altEngine pfP.lexicon = .ok teL ∧ (∀ k : Fin 1, pfP.code teL k = some (pfCode k)) ∧
    (∃ md, metadataOf pfCode 40 (.user 0) = some (.ok md)) ∧
    ItemsWF [97, 49] pfItems ∧ inputWords teL.shouldExtract [97, 49] pfItems = [⟨0, [97]⟩, ⟨1, [49]⟩] ∧
    Sent pfP teVars (.name [40]) [⟨(0 : Fin 3), [97]⟩, ⟨(1 : Fin 3), [49]⟩] ∧
    summary teL.shouldExtract (rootParseOf teL.shouldExtract pfCode 40 (.user 0) [97, 49] pfItems) =
      some (false, 1, 0) := by
  refine ⟨teOk, pfCode_ok, pfRun.1, by unfold ItemsWF pfItems; decide, rfl, ?_, pfRun.2⟩
  · have hword : Sent pfP teVars (.name [7]) [⟨(0 : Fin 3), [97]⟩] :=
      .term (t := ⟨some [7], .path⟩) (show (⟨some [7], .path⟩ : TMeta) ∈ [⟨some [7], .path⟩] from List.mem_cons_self)
        rfl (fun lit h => by cases h)
    have hnum : Sent pfP teVars (.name [8]) [⟨(1 : Fin 3), [49]⟩] :=
      .term (t := ⟨some [8], .path⟩) (show (⟨some [8], .path⟩ : TMeta) ∈ [⟨some [8], .path⟩] from List.mem_cons_self)
        rfl (fun lit h => by cases h)
    have htup : Sent pfP teVars (.tup2 (.name [7]) (.option (.name [8]))) [⟨(0 : Fin 3), [97]⟩] :=
      .tuple (.inl ⟨_, _, rfl, rfl⟩) (.cons hword (.cons .optNone .nil))
    exact .struct (d := pfP.types[0]) List.mem_cons_self rfl (.cons htup (.cons .optNone (.cons hnum .nil)))

/-! ## C93 -/

section
variable (h : Macro.expand E P.lexicon = .ok L) (hvs : P.lexicon.variants = some vs) (hd : P.Distinct vs)
  {c : Fin P.types.length → Code P.types.length vs.length} (hc : ∀ k, P.code L k = some (c k))
include h hvs hd hc

/-- `assert_ll1` always ends: it returns, or it panics with the name of the type and the grammar error. -/
theorem C93_total (k : Fin P.types.length) : ∃ r N, (∀ fuel ≥ N, P.assertLl1 L c fuel (.user k) = some r) ∧
    ∀ s e, r = some (s, e) → s = P.types[k].ident := by
  obtain ⟨S, -, -, h3, -⟩ := C92_program h hvs hd hc
  obtain ⟨r, N, hr⟩ := C33_schema_total S (.user k)
  unfold Program.assertLl1
  cases r with
  | ok md => exact ⟨none, N, fun f hf => by rw [h3, hr f hf], by simp⟩
  | error e =>
    refine ⟨some (P.types[k].ident, e), N, fun f hf => by rw [h3, hr f hf]; rfl, ?_⟩
    rintro s e ⟨⟩
    rfl

/-- If it returns, `parse` never returns a grammar error, whatever the source. -/
theorem C93_pass {fuel : Nat} {t : Ty P.types.length vs.length} (hp : P.assertLl1 L c fuel t = some none)
    (ext : Fin vs.length → Bool) (fuel' : Nat) (source : Str) (items : List (Item vs.length)) (e) (p' : Parser vs.length) :
    rootParseOf ext c fuel' t source items ≠ .ok (.error e) p' := by
  obtain ⟨S, -, -, h3, h4⟩ := C92_program h hvs hd hc
  intro hx
  rw [h4] at hx
  have h5 := ((C48_grammar_error ext S fuel' t _ p' e).1 hx).1
  unfold Program.assertLl1 at hp
  rw [h3] at hp
  split at hp
  · cases hp
  · next md hmd =>
    have h6 := metadata_any hmd (Nat.le_max_left fuel fuel')
    have h7 := metadata_any h5 (Nat.le_max_right fuel fuel')
    cases h6.symm.trans h7
  · cases hp

/-- If it panics, `parse` returns the error in the message, whatever the source. -/
theorem C93_fail {fuel : Nat} {t : Ty P.types.length vs.length} {s : Str} {e}
    (hp : P.assertLl1 L c fuel t = some (some (s, e))) (ext : Fin vs.length → Bool) {fuel' : Nat} (hf : fuel ≤ fuel')
    (source : Str) (items : List (Item vs.length)) :
    rootParseOf ext c fuel' t source items = .ok (.error e) (Parser.new source items) := by
  obtain ⟨S, -, -, h3, h4⟩ := C92_program h hvs hd hc
  rw [h4]
  unfold Program.assertLl1 at hp
  rw [h3] at hp
  split at hp
  · cases hp
  · cases hp
  · next e' hmd =>
    cases hp
    exact (C48_grammar_error ext S fuel' t _ _ _).2 ⟨metadata_any hmd hf, rfl⟩

/-- Hence it returns exactly if some source is parsed without a grammar error. -/
theorem C93_iff (t : Ty P.types.length vs.length) (ext : Fin vs.length → Bool) (source : Str)
    (items : List (Item vs.length)) :
    (∃ fuel, P.assertLl1 L c fuel t = some none) ↔
      ∀ fuel e p', rootParseOf ext c fuel t source items ≠ .ok (.error e) p' := by
  constructor
  · rintro ⟨f, hf⟩ f' e p'
    exact C93_pass h hvs hd hc hf ext f' source items e p'
  · intro hn
    obtain ⟨S, -, -, h3, h4⟩ := C92_program h hvs hd hc
    obtain ⟨r, N, hr⟩ := C33_schema_total S t
    refine ⟨N, ?_⟩
    unfold Program.assertLl1
    rw [h3, hr N (Nat.le_refl _)]
    cases r with
    | ok md => rfl
    | error e =>
      refine absurd ?_ (hn N e (Parser.new source items))
      rw [h4]
      exact (C48_grammar_error ext S N t _ _ _).2 ⟨hr N (Nat.le_refl _), rfl⟩

end

theorem assertLl1_ok {n fuel : Nat} {c : Fin P.types.length → Code P.types.length n} {t : Ty P.types.length n}
    {md : Metadata (PId P.types.length n) n} (h : metadataOf c fuel t = some (.ok md)) :
    P.assertLl1 L c fuel t = some none := by
  unfold Program.assertLl1
  rw [h]

/-- The test of the example passes. -/
example : peP.assertLl1 teL peCode 40 peT = some none := assertLl1_ok (P := peP) peMd_code

/-- `enum A { X(Word), Y(Word) }` as the root: the test panics with its name. -/
def paP : Program := ⟨teDecl, [⟨[30], [some [.root]], .enum
  [⟨[1], false, .unnamed [⟨[], .name [7], []⟩], []⟩, ⟨[2], false, .unnamed [⟨[], .name [7], []⟩], []⟩]⟩]⟩

def paCode (k : Fin 1) : Code 1 3 := (paP.code teL k).getD (.enum ⟨[], []⟩)

example : (∀ k : Fin 1, paP.code teL k = some (paCode k)) ∧
    ∃ e, paP.assertLl1 teL paCode 40 (.user (0 : Fin 1)) = some (some ([30], e)) := by
  refine ⟨fun k => ?_, _, rfl⟩
  match k with
  | 0 => rfl

end Teleparse.Prog

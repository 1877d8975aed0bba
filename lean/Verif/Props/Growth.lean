import Verif.Proof.Growth
import Verif.Props.Completeness
import Verif.Props.Soundness
import Verif.Props.Termination
/-
Property C94: growing a grammar. Enums get more variants and programs more types.
-/
namespace Teleparse
variable {m m' n : Nat}

/-! ## C94: growing a grammar -/

/-- If the grown grammar is accepted then the grammar was accepted before. -/
theorem C94_accepted (S : Schema m n) (S' : Schema m' n) (emb : Fin m → Fin m') (pos : Fin m → Nat → Nat)
    (hS : Grown S S' emb pos) (root : Ty m n) (fuel : Nat) (md' : Metadata (PId m' n) n)
    (h : S'.metadata fuel (root.lift emb) = some (.ok md')) :
    ∃ md fuel', ∀ f ≥ fuel', S.metadata f root = some (.ok md) := by
  obtain ⟨r, f, hr⟩ := C33_schema_total S root
  obtain ⟨md, rfl⟩ := hS.metadata h (hr f (Nat.le_refl _))
  exact ⟨md, f, hr⟩

/-- What a type could begin with, it can still begin with; and it can still be empty. -/
theorem C94_first (S : Schema m n) (S' : Schema m' n) (emb : Fin m → Fin m') (pos : Fin m → Nat → Nat)
    (hS : Grown S S' emb pos) (root : Ty m n) (fuel fuel' : Nat) (md : Metadata (PId m n) n)
    (md' : Metadata (PId m' n) n) (h : S.metadata fuel root = some (.ok md))
    (h' : S'.metadata fuel' (root.lift emb) = some (.ok md')) (t : Ty m n) (x : Option (TokenSrc n))
    (hx : (md.first.get t.pid).contains x = true) : (md'.first.get (t.lift emb).pid).contains x = true := by
  obtain ⟨G, hG, _, _⟩ := metadata_build h
  obtain ⟨G', hG', _, _⟩ := metadata_build h'
  rw [metadata_first h hG] at hx
  rw [metadata_first h' hG', Ty.pid_lift]
  have sim := hS.sim hG hG'
  cases x with
  | none => exact (firstFam_none G' _).1 (sim.firstFam none ((firstFam_none G _).2 hx))
  | some tok => exact (firstFam_some G' _ tok).1 (sim.firstFam (some tok) ((firstFam_some G _ tok).2 hx))

/-- What could follow a type in the computed sets, still can. -/
theorem C94_follow (S : Schema m n) (S' : Schema m' n) (emb : Fin m → Fin m') (pos : Fin m → Nat → Nat)
    (hS : Grown S S' emb pos) (root : Ty m n) (fuel fuel' : Nat) (md : Metadata (PId m n) n)
    (md' : Metadata (PId m' n) n) (h : S.metadata fuel root = some (.ok md))
    (h' : S'.metadata fuel' (root.lift emb) = some (.ok md')) (t : Ty m n) (x : Option (TokenSrc n))
    (hx : (md.follow.get t.pid).contains x = true) : (md'.follow.get (t.lift emb).pid).contains x = true := by
  obtain ⟨G, hG, _, hb⟩ := metadata_build h
  obtain ⟨G', hG', _, hb'⟩ := metadata_build h'
  rw [Ty.pid_lift]
  exact (build_follow_den hb' _ x).2 ((hS.sim hG hG').followC ((build_follow_den hb _ x).1 hx))

/-- The sentences of a type are still sentences of it. -/
theorem C94_language (S : Schema m n) (S' : Schema m' n) (emb : Fin m → Fin m') (pos : Fin m → Nat → Nat)
    (hS : Grown S S' emb pos) (root : Ty m n) (G : Grammar (PId m n) n) (G' : Grammar (PId m' n) n)
    (hG : S.IsGrammar root G) (hG' : S'.IsGrammar (root.lift emb) G') (t : Ty m n) (w : List (TokenSrc n))
    (hw : Derives G [.nt t.pid] (w.map .tok)) : Derives G' [.nt (t.lift emb).pid] (w.map .tok) := by
  rw [Ty.pid_lift]
  exact (hS.sim hG hG').sentence hw

/-- A match of a type is still one: the same tokens with the same semantic types, and the same tree but for the
numbers of the variants. -/
theorem C94_match (S : Schema m n) (S' : Schema m' n) (emb : Fin m → Fin m') (pos : Fin m → Nat → Nat)
    (hS : Grown S S' emb pos) (source : Str) (place : Nat) (t : Ty m n) (c : List (Cell n)) (x : Tree n)
    (h : Parses S source place t c x) : Parses S' source place (t.lift emb) c (x.renumber S pos t) :=
  Parses.grow hS h

/-- If all of an input was parsed without errors then it is parsed without errors after the grammar has grown, with the
same tree but for the numbers of the variants, and the same semantic types. Missing for the full statement: what is
missing in `C35_parse_partial`, for the grown grammar (false there, see `C94_false`), and roots that fail silently. -/
theorem C94_parse_partial (ext : Fin n → Bool) (S : Schema m n) (S' : Schema m' n) (emb : Fin m → Fin m')
    (pos : Fin m → Nat → Nat) (hS : Grown S S' emb pos) (root : Ty m n) (fuel' : Nat) (md' : Metadata (PId m' n) n)
    (G' : Grammar (PId m' n) n) (h' : S'.metadata fuel' (root.lift emb) = some (.ok md'))
    (hG' : S'.IsGrammar (root.lift emb) G') (hsafe : SkipSafe G')
    (hpunct : ∀ t p, Reach S'.tyParts (root.lift emb) (.punct t p) → ∀ a tok, Beyond G' a tok →
      ¬ EndsWith G' a (Ty.punct t p).pid)
    (henum : ∀ k v vs, S' k = .enum v vs → Reachable G' (root.lift emb).pid (.user k) → Nullable G' (.user k) →
      ∀ tok, ¬ FollowOf G' (root.lift emb).pid (.user k) (some tok))
    (hsep : ∀ t p, Reach S'.tyParts (root.lift emb) (.split t p) → ¬ Nullable G' p.pid) (hl : LoopTail S' (root.lift emb))
    (hloud : Loud S root) (source : Str) (items : List (Item n)) (hw : ItemsWF source items) (f : Nat) (p : Parser n)
    (x : Tree n) (hp : rootParse ext S f root source items = .ok (.ok (some x)) p) (he : p.info.errors = [])
    (hall : p.info.tokens.map (·.token) = streamOf ext items) :
    ∃ p' N, (∀ f' ≥ N, rootParse ext S' f' (root.lift emb) source items =
        .ok (.ok (some (x.renumber S pos root))) p') ∧
      p'.info.tokens = p.info.tokens ∧ (p'.view ext).rest = [] ∧
      (∀ e ∈ p'.info.errors, e.kind = .unexpectedCharacters) := by
  obtain ⟨c, rest, h1, h2, h3⟩ := C34_parse ext source items hw S f root p (.inl hloud) x hp he
  rw [h3] at hall ⊢
  obtain ⟨p', N, g1, g2, g3, g4, _⟩ := parse_match ext S' fuel' (root.lift emb) md' G' h'
    (.of_ll1 h' hG' (metadata_ll1 h' hG' hsafe) hpunct henum hsep) hl source items hw c _ (Parses.grow hS h1) hall
  exact ⟨p', N, g1, g2, g3, g4⟩

/-! ### Examples -/

/-- `cxS` with a variant `"y"` in front of the others of `E` and one `("z", "a"?, "z")` at the end of them, and a new
type in front of the others that is not used. -/
def groS : Schema 4 3 := fun k =>
  if k = 1 then .enum (.term 2 ⟨2, some [121]⟩, none) [(.term 1 ⟨1, none⟩, none), (.user 2, none), (.user 3, none)]
  else if k = 2 then
    .struct (.term 0 ⟨0, none⟩, some (LSet.new.insert 2)) [(.star (.user 1), none), (.term 2 ⟨2, some [120]⟩, none)]
  else if k = 3 then .struct (.term 2 ⟨2, some [122]⟩, none) [(.option (.term 0 ⟨0, some [97]⟩), none), (.term 2 ⟨2, some [122]⟩, none)]
  else .struct (.user 1, none) []

def groE : Fin 2 → Fin 4 := fun k => ⟨k.1 + 1, by omega⟩
def groP : Fin 2 → Nat → Nat := fun _ i => i + 1

theorem gro_grown : Grown cxS groS groE groP where
  structs := by
    intro k f fs h
    match k with
    | 0 => cases h
    | 1 => cases h; rfl
  enums := by
    intro k v vs h
    match k with
    | 1 => cases h
    | 0 =>
      cases h
      refine ⟨_, _, rfl, ?_, ?_⟩
      · intro i t sem hi
        match i with
        | 0 => cases hi; rfl
        | 1 => cases hi; rfl
        | i + 2 => simp at hi
      · intro i j _ _ h
        simpa [groP] using h

def groT : Ty 4 3 := cxT.lift groE
def groMd : Metadata (PId 4 3) 3 := okOf ⟨[], [], []⟩ (groS.metadata 60 groT)
def groG : Grammar (PId 4 3) 3 := (registerFrom groS.rule 60 groT.pid).getD []
theorem groMd_ok : groS.metadata 60 groT = some (.ok groMd) := rfl
theorem groG_ok : groS.IsGrammar groT groG := .of_register (fuel := 60) rfl
theorem gro_safe : SkipSafe groG := skipSafe_of_check groMd_ok groG_ok 5 (by decide +kernel)
theorem gro_enum (k v vs) (_ : groS k = .enum v vs) (_ : Reachable groG groT.pid (.user k))
    (hn : Nullable groG (.user k)) (tok) : ¬ FollowOf groG groT.pid (.user k) (some tok) := by
  have h := (metadata_first groMd_ok groG_ok (.user k) none).2 hn
  have hno : ∀ k : Fin 4, (groMd.first.get (.user k)).contains none = false := by decide +kernel
  rw [hno k] at h
  cases h
def groU : List (Ty 4 3) := [.user 1, .term 1 ⟨1, none⟩, .user 2, .user 3, .term 0 ⟨0, none⟩, .star (.user 1),
  .plus (.user 1), .term 2 ⟨2, some [120]⟩, .term 2 ⟨2, some [121]⟩, .term 2 ⟨2, some [122]⟩,
  .option (.term 0 ⟨0, some [97]⟩), .term 0 ⟨0, some [97]⟩]
theorem gro_loop : LoopTail groS groT :=
  .loop (loopFree_of_check groU (by decide) (by decide +kernel) (by decide +kernel))
theorem gro_sep (t p : Ty 4 3) (h : Reach groS.tyParts groT (.split t p)) : ¬ Nullable groG p.pid := by
  have := reach_of_check (groT :: groU) (by decide) (by decide +kernel) h
  simp [groU, groT, cxT, Ty.lift] at this
theorem gro_punct (t p : Ty 4 3) (h : Reach groS.tyParts groT (.punct t p)) :
    ∀ a tok, Beyond groG a tok → ¬ EndsWith groG a (Ty.punct t p).pid := by
  have := reach_of_check (groT :: groU) (by decide) (by decide +kernel) h
  simp [groU, groT, cxT, Ty.lift] at this
theorem cx_loud : Loud cxS cxT := by
  refine (RecoverFree.loud ?_).1
  intro u hu a b e
  have := reach_of_check (cxT :: cxU) (by decide) (by decide +kernel) hu
  subst e
  simp [cxU, cxT] at this

/-- The tree of `a 1 2 x 3` before and after: `L` was the variant 1 and is the variant 2. -/
def cxTree : Tree 3 := .list ⟨0, 9⟩ [.variant 1 (.seq ⟨0, 7⟩ [.tok ⟨⟨0, 1⟩, 0⟩,
  .list ⟨2, 5⟩ [.variant 0 (.tok ⟨⟨2, 3⟩, 1⟩), .variant 0 (.tok ⟨⟨4, 5⟩, 1⟩)], .tok ⟨⟨6, 7⟩, 2⟩]),
  .variant 0 (.tok ⟨⟨8, 9⟩, 1⟩)]
example : cxTree.renumber cxS groP cxT = .list ⟨0, 9⟩ [.variant 2 (.seq ⟨0, 7⟩ [.tok ⟨⟨0, 1⟩, 0⟩,
  .list ⟨2, 5⟩ [.variant 1 (.tok ⟨⟨2, 3⟩, 1⟩), .variant 1 (.tok ⟨⟨4, 5⟩, 1⟩)], .tok ⟨⟨6, 7⟩, 2⟩]),
  .variant 1 (.tok ⟨⟨8, 9⟩, 1⟩)] := by rfl
example : ∃ p' N, (∀ f' ≥ N, rootParse noExt groS f' groT cxSource cxItems =
    .ok (.ok (some (cxTree.renumber cxS groP cxT))) p') ∧ p'.info.tokens.length = 5 := by
  obtain ⟨p', N, h1, h2, _⟩ := C94_parse_partial noExt cxS groS groE groP gro_grown cxT 60 groMd groG groMd_ok groG_ok gro_safe
    gro_punct gro_enum gro_sep gro_loop cx_loud cxSource cxItems cx_wf 40 _ cxTree (by rfl) (by rfl) (by rfl)
  exact ⟨p', N, h1, by rw [h2]; rfl⟩
example : ∃ md fuel', ∀ f ≥ fuel', cxS.metadata f cxT = some (.ok md) :=
  C94_accepted cxS groS groE groP gro_grown cxT 60 groMd groMd_ok
/-- FIRST of `E` has grown. -/
example : (cxMd.first.get (.user 0)).contains (some ⟨1, [49]⟩) = true ∧
    (groMd.first.get (.user 1)).contains (some ⟨1, [49]⟩) = true ∧
    (cxMd.first.get (.user 0)).contains (some ⟨2, [121]⟩) = false ∧
    (groMd.first.get (.user 1)).contains (some ⟨2, [121]⟩) = true := by decide +kernel

/-! ### Counterexample -/

/-- `((A, E?), C?, B)` with `enum E = D`, and the same with `enum E = D | B`. -/
def grpS : Schema 1 4 := fun _ => .enum (.term 3 ⟨3, none⟩, none) []
def grpS' : Schema 1 4 := fun _ => .enum (.term 3 ⟨3, none⟩, none) [(.term 1 ⟨1, none⟩, none)]
def grpT : Ty 1 4 := .tup3 (.tup2 (.term 0 ⟨0, none⟩) (.option (.user 0))) (.option (.term 2 ⟨2, none⟩)) (.term 1 ⟨1, none⟩)
def grpItems : List (Item 4) := [.token ⟨⟨0, 1⟩, 0⟩, .token ⟨⟨1, 2⟩, 1⟩]

/-- Both are accepted, `a b` is parsed before, and after the enum has grown it is not. -/
theorem C94_false : Grown grpS grpS' id (fun _ i => i) ∧ accepted grpS grpT = true ∧ accepted grpS' (grpT.lift id) = true ∧
    ItemsWF [97, 98] grpItems ∧
    summary noExt (rootParse noExt grpS 60 grpT [97, 98] grpItems) = some (true, 0, 0) ∧
    summary noExt (rootParse noExt grpS' 60 (grpT.lift id) [97, 98] grpItems) = some (false, 1, 0) := by
  refine ⟨⟨fun k f fs h => (by cases h), ?_⟩, by rfl, by rfl, by unfold ItemsWF grpItems; decide, by rfl, by rfl⟩
  intro k v vs h
  cases h
  refine ⟨_, _, rfl, ?_, fun i j _ _ h => h⟩
  intro i t sem hi
  match i with
  | 0 => cases hi; rfl
  | i + 1 => simp at hi

end Teleparse

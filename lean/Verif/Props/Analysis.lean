import Verif.Proof.LeftCycle
import Verif.Proof.Order
/-
Properties C20–C33: the grammar analysis.

`G` ranges over arbitrary grammars (any type of production ids). `Functional` and `Connected` hold for
every grammar that registration can produce (`C32_functional`, `C32_connected`).
-/
set_option linter.unusedSectionVars false
namespace Teleparse
variable {I : Type} {n : Nat} [DecidableEq I]

/-! ## Example grammars -/

/-- `List = Ident Tail; Tail = "," List | ε` -/
def exList : Nat → Rule Nat 2
  | 0 => .seq [1, 2]
  | 1 => .term ⟨0, none⟩
  | 2 => .alt [3, 5]
  | 3 => .seq [4, 0]
  | 4 => .term ⟨1, some [44]⟩
  | _ => .eps

def exListG : Grammar Nat 2 :=
  [(0, .seq [1, 2]), (1, .term ⟨0, none⟩), (2, .alt [3, 5]), (3, .seq [4, 0]),
   (4, .term ⟨1, some [44]⟩), (5, .eps)]

theorem exList_registered : registerFrom exList 10 0 = some exListG := by decide

/-- `S = P Q b; P = a b?; Q = c?` -/
def exSkip : Nat → Rule Nat 3
  | 0 => .seq [1, 2, 8]
  | 1 => .seq [6, 7]
  | 2 => .alt [4, 5]
  | 4 => .term ⟨2, none⟩
  | 6 => .term ⟨0, none⟩
  | 7 => .alt [8, 5]
  | 8 => .term ⟨1, none⟩
  | _ => .eps

def exSkipG : Grammar Nat 3 :=
  [(0, .seq [1, 2, 8]), (1, .seq [6, 7]), (6, .term ⟨0, none⟩), (7, .alt [8, 5]),
   (8, .term ⟨1, none⟩), (5, .eps), (2, .alt [4, 5]), (4, .term ⟨2, none⟩)]

theorem exSkip_registered : registerFrom exSkip 10 0 = some exSkipG := by decide

/-- `S = Ident? "+" Ident` -/
def exBare : Nat → Rule Nat 2
  | 0 => .seq [1, 2, 3]
  | 1 => .alt [3, 4]
  | 2 => .term ⟨1, some [43]⟩
  | 3 => .term ⟨0, none⟩
  | _ => .eps

def exBareG : Grammar Nat 2 :=
  [(0, .seq [1, 2, 3]), (1, .alt [3, 4]), (3, .term ⟨0, none⟩), (4, .eps), (2, .term ⟨1, some [43]⟩)]

theorem exBare_registered : registerFrom exBare 10 0 = some exBareG := by decide

/-- `E = E a` -/
def exLeft : Nat → Rule Nat 1
  | 0 => .seq [0, 1]
  | 1 => .term ⟨0, none⟩
  | _ => .eps

def exLeftG : Grammar Nat 1 := [(0, .seq [0, 1]), (1, .term ⟨0, none⟩)]

theorem exLeft_registered : registerFrom exLeft 10 0 = some exLeftG := by decide

/-- `build` succeeded. -/
def okB (r : Option (Except (GErr I) (Metadata I n))) : Bool :=
  match r with
  | some (.ok _) => true
  | _ => false

theorem okB_iff {r : Option (Except (GErr I) (Metadata I n))} (h : okB r = true) :
    ∃ m, r = some (.ok m) := by
  unfold okB at h
  split at h
  · exact ⟨_, rfl⟩
  · cases h

theorem exList_ok : ∃ m, build 20 exListG 0 = some (.ok m) := okB_iff (by decide)

/-! ## C20: the predictive table -/

/-- A looked-up alternative was registered for this type with a FIRST set containing the token. -/
theorem C20_registered (hist : List (I × TSet n × Nat)) (t : I) (tok : Option (TokenSrc n)) (i : Nat)
    (h : Jump.lookUp (hist.foldl (fun j r => j.register r.1 r.2.1 r.2.2) []) t tok = some i) :
    ∃ F, (t, F, i) ∈ hist ∧ F.contains tok = true := by
  rw [Jump.lookUp_eq] at h
  obtain ⟨F, hF, hc⟩ := (Jump.inv_registerAll hist t).lookUp_sound h
  unfold regsOf at hF
  obtain ⟨⟨t', F', i'⟩, hm, he⟩ := List.mem_map.1 hF
  simp only [List.mem_filter, decide_eq_true_eq] at hm
  simp at he
  obtain ⟨rfl, rfl⟩ := he
  obtain ⟨hm, rfl⟩ := hm
  exact ⟨F', hm, hc⟩

/-- If all registrations for `t` whose FIRST set contains the token have the same id, it is returned. -/
theorem C20_unique (hist : List (I × TSet n × Nat)) (t : I) (tok : Option (TokenSrc n)) (i : Nat)
    (F : TSet n) (hm : (t, F, i) ∈ hist) (hc : F.contains tok = true)
    (huniq : ∀ F' i', (t, F', i') ∈ hist → F'.contains tok = true → i' = i) :
    Jump.lookUp (hist.foldl (fun j r => j.register r.1 r.2.1 r.2.2) []) t tok = some i := by
  have hreg : (F, i) ∈ regsOf hist t := by
    unfold regsOf
    exact List.mem_map.2 ⟨(t, F, i), by simp [hm], rfl⟩
  have hne := (Jump.inv_registerAll hist t).lookUp_complete hreg hc
  rw [← Jump.lookUp_eq] at hne
  unfold Jump.registerAll at hne
  cases hl : Jump.lookUp (hist.foldl (fun j r => j.register r.1 r.2.1 r.2.2) []) t tok with
  | none => exact absurd hl hne
  | some i' =>
    obtain ⟨F', hm', hc'⟩ := C20_registered hist t tok i' hl
    rw [huniq F' i' hm' hc']

/-- If no registered FIRST set of `t` contains the token, nothing is returned. -/
theorem C20_none (hist : List (I × TSet n × Nat)) (t : I) (tok : Option (TokenSrc n))
    (h : ∀ F i, (t, F, i) ∈ hist → F.contains tok = false) :
    Jump.lookUp (hist.foldl (fun j r => j.register r.1 r.2.1 r.2.2) []) t tok = none := by
  cases hl : Jump.lookUp (hist.foldl (fun j r => j.register r.1 r.2.1 r.2.2) []) t tok with
  | none => rfl
  | some i =>
    obtain ⟨F, hm, hc⟩ := C20_registered hist t tok i hl
    rw [h F i hm] at hc; cases hc

example : Jump.lookUp ([(7, TSet.one 0 (some [43]), 0), (7, TSet.one 0 (some [45]), 1),
    (7, TSet.one 1 none, 2)].foldl (fun j r => j.register r.1 r.2.1 r.2.2) ([] : Jump Nat 2)) 7
    (some ⟨0, [45]⟩) = some 1 := by decide

/-! ## C21: FIRST -/

/-- The computed FIRST set contains a token iff the token can begin a sentential form derived from the
production. -/
theorem C21_token (G : Grammar I n) (fuel : Nat) (first : Tbl I n) (h : buildFirst fuel G = some first)
    (i : I) (tok : TokenSrc n) : (first.get i).contains (some tok) = true ↔ FirstOf G i tok :=
  (buildFirst_den h i (some tok)).trans (firstFam_some G i tok)

/-- It contains epsilon iff the production derives the empty sequence. -/
theorem C21_epsilon (G : Grammar I n) (fuel : Nat) (first : Tbl I n)
    (h : buildFirst fuel G = some first) (i : I) :
    (first.get i).contains none = true ↔ Nullable G i :=
  (buildFirst_den h i none).trans (firstFam_none G i)

example : ((buildFirst 10 exListG).map fun f =>
    ((f.get 0).contains (some ⟨0, [97]⟩), (f.get 2).contains none, (f.get 2).contains (some ⟨1, [44]⟩),
     (f.get 0).contains none)) = some (true, true, true, false) := by decide

/-! ## C22: termination and order independence -/

theorem C22_first_terminates (G : Grammar I n) :
    ∃ first fuel, ∀ fuel' ≥ fuel, buildFirst fuel' G = some first := by
  obtain ⟨f, h⟩ := buildFirst_total G
  obtain ⟨first, hf⟩ := h f (Nat.le_refl _)
  exact ⟨first, f, fun f' hle => buildFirst_mono hf hle⟩

theorem C22_follow_terminates (G : Grammar I n) (root : I) (fuel : Nat) (first : Tbl I n)
    (h : buildFirst fuel G = some first) :
    ∃ follow fuel, ∀ fuel' ≥ fuel, buildFollow fuel' first G root = some follow := by
  obtain ⟨f, h⟩ := buildFollow_total (buildFirst_within h) root
  obtain ⟨follow, hf⟩ := h f (Nat.le_refl _)
  exact ⟨follow, f, fun f' hle => buildFollow_mono hf hle⟩

/-- FIRST sets have the same members in every order of the productions. -/
theorem C22_first_order (G G' : Grammar I n) (hp : G.Perm G') (fuel fuel' : Nat) (first first' : Tbl I n)
    (h : buildFirst fuel G = some first) (h' : buildFirst fuel' G' = some first') (i : I)
    (x : Option (TokenSrc n)) : (first.get i).contains x = (first'.get i).contains x :=
  buildFirst_semEq (fun _ => hp.mem_iff) h h' i x

/-- FOLLOW sets have the same members in every order of the productions. -/
theorem C22_follow_order (G G' : Grammar I n) (hp : G.Perm G') (root : I) (fuel fuel' fu fu' : Nat)
    (first first' follow follow' : Tbl I n)
    (h : buildFirst fuel G = some first) (h' : buildFirst fuel' G' = some first')
    (h2 : buildFollow fu first G root = some follow)
    (h2' : buildFollow fu' first' G' root = some follow') (i : I)
    (x : Option (TokenSrc n)) : (follow.get i).contains x = (follow'.get i).contains x :=
  buildFollow_semEq (fun _ => hp.mem_iff) h h' h2 h2' i x

/-- Whether a grammar is accepted, and the error that is reported, do not depend on the order in which
the productions are stored. -/
theorem C22_result_order (G G' : Grammar I n) (hp : G.Perm G') (hfun : G.Functional) (root : I)
    (fuel fuel' : Nat) (r r' : Except (GErr I) (Metadata I n))
    (h : build fuel G root = some r) (h' : build fuel' G' root = some r') (e : GErr I) :
    r = .error e ↔ r' = .error e := by
  have hfun' : G'.Functional := (hp.map Prod.fst).nodup_iff.1 hfun
  exact ⟨build_error_congr hfun hfun' (fun _ => hp.mem_iff) h h',
    build_error_congr hfun' hfun (fun _ => hp.mem_iff.symm) h' h⟩

example : exListG.Functional ∧ exListG.Perm exListG.reverse :=
  ⟨by unfold Grammar.Functional; decide, (List.reverse_perm _).symm⟩

/-! ## C23: FOLLOW is sound -/

theorem C23_sound (G : Grammar I n) (root : I) (hcon : G.Connected root) (fuel fuel' : Nat)
    (first follow : Tbl I n) (h1 : buildFirst fuel G = some first)
    (h2 : buildFollow fuel' first G root = some follow) (i : I) (x : Option (TokenSrc n))
    (h : (follow.get i).contains x = true) : FollowOf G root i x :=
  ((buildFollow_den (buildFirst_den h1) h2 i x).1 h).sound hcon

example : ((buildFirst 10 exListG).bind fun f => (buildFollow 10 f exListG 0).map fun fo =>
    ((fo.get 1).contains (some ⟨1, [44]⟩), (fo.get 2).contains none)) = some (true, true) := by decide

/-! ## C24: FOLLOW is not complete -/

theorem exSkip_follow : FollowOf exSkipG 0 1 (some ⟨1, []⟩) := by
  have h0 : Derives exSkipG [.nt 0] [.nt 1, .nt 2, .nt 8] :=
    Derives.one (Expands.seq (l := [1, 2, 8]) (by decide))
  have h2 : Derives exSkipG [.nt 2] [.nt 5] := Derives.one (Expands.alt (l := [4, 5]) (by decide) (by decide))
  have h5 : Derives exSkipG [.nt 5] [] := Derives.one (Expands.eps (by decide))
  have h8 : Derives exSkipG [.nt 8] [.tok ⟨1, []⟩] :=
    Derives.one (Expands.term (t := ⟨1, none⟩) (by decide) ⟨rfl, by simp⟩)
  refine ⟨[], [], h0.trans ?_⟩
  have e1 := (h2.trans h5).ctx [.nt 1] [.nt 8]
  have e2 := h8.ctx [.nt 1] []
  exact Derives.trans (by simpa using e1) (by simpa using e2)

/-- C24 is false as stated: in `S = P Q b; P = a b?; Q = c?` the token `b` can follow `P`, but it is not
in the FOLLOW set computed for `P`. -/
theorem C24_false : ∃ (ruleOf : Nat → Rule Nat 3) (G : Grammar Nat 3) (first follow : Tbl Nat 3)
    (tok : TokenSrc 3), registerFrom ruleOf 10 0 = some G ∧ buildFirst 10 G = some first ∧
    buildFollow 10 first G 0 = some follow ∧ FollowOf G 0 1 (some tok) ∧
    (follow.get 1).contains (some tok) = false := by
  have h : ((buildFirst 10 exSkipG).bind fun f => (buildFollow 10 f exSkipG 0).map fun fo =>
    (fo.get 1).contains (some ⟨1, []⟩)) = some false := by decide
  cases h1 : buildFirst 10 exSkipG with
  | none => rw [h1] at h; cases h
  | some first =>
    cases h2 : buildFollow 10 first exSkipG 0 with
    | none => rw [h1] at h; simp [h2] at h
    | some follow =>
      rw [h1] at h
      simp [h2] at h
      exact ⟨exSkip, exSkipG, first, follow, ⟨1, []⟩, exSkip_registered, h1, h2, exSkip_follow, h⟩

theorem noInterior_of {G : Grammar I n} (h : NoNullableInterior G) : NoInterior G :=
  fun x pre y post hm h1 h2 hn => h x pre y post hm h1 h2 hn.nullable

/-- FOLLOW is complete for grammars in which only the first and the last part of a sequence can be
empty. Missing for the full statement: sequences with an optional part in the middle (false there). -/
theorem C24_complete_partial (G : Grammar I n) (root : I) (hni : NoNullableInterior G) (fuel fuel' : Nat)
    (first follow : Tbl I n) (h1 : buildFirst fuel G = some first)
    (h2 : buildFollow fuel' first G root = some follow) (i : I) (x : Option (TokenSrc n))
    (h : FollowOf G root i x) : (follow.get i).contains x = true :=
  (buildFollow_den (buildFirst_den h1) h2 i x).2 (FollowC.complete (noInterior_of hni) h)

/-- In any grammar the only tokens that FOLLOW can lack are those that come beyond an empty part: the
production is at the end of a part `a` of some sequence, and the token begins a later part of this sequence,
with at least one part between that can be empty. -/
theorem C24_lacks_partial (G : Grammar I n) (root : I) (fuel fuel' : Nat)
    (first follow : Tbl I n) (h1 : buildFirst fuel G = some first)
    (h2 : buildFollow fuel' first G root = some follow) (i : I) (x : Option (TokenSrc n))
    (h : FollowOf G root i x) (hno : (follow.get i).contains x = false) :
    ∃ a tok, x = some tok ∧ Beyond G a tok ∧ EndsWith G a i := by
  rcases h.computed with hc | hs
  · have := (buildFollow_den (buildFirst_den h1) h2 i x).2 hc
    rw [Tbl.den, hno] at this
    cases this
  · exact hs

/-- Such a token, for the grammar of the counterexample. -/
example : Beyond exSkipG 1 ⟨1, []⟩ ∧ EndsWith exSkipG 1 7 :=
  ⟨⟨0, [], [2], 8, [], by decide, by simp, by
      intro k hk
      simp at hk
      subst hk
      exact (Derives.one (Expands.alt (l := [4, 5]) (by decide) (j := 5) (by decide))).trans
        (Derives.one (Expands.eps (by decide))),
      [], Derives.one (Expands.term (t := ⟨1, none⟩) (by decide) ⟨rfl, by simp⟩)⟩,
    [.nt 6], Derives.one (Expands.seq (l := [6, 7]) (by decide))⟩

example : NoNullableInterior exListG := by
  intro x pre y post hm h1 h2
  exfalso
  have : ∀ p ∈ exListG, ∀ l, p.2 = .seq l → l.length ≤ 2 := by
    intro p hp l hl
    simp [exListG] at hp
    rcases hp with rfl | rfl | rfl | rfl | rfl | rfl <;> simp at hl <;> subst hl <;> simp
  have := this _ hm _ rfl
  cases pre with
  | nil => exact h1 rfl
  | cons a pre => cases post with
    | nil => exact h2 rfl
    | cons b post => simp at this; omega

/-! ## C25: FIRST/FIRST conflicts -/

/-- The error is only reported for two alternatives of a reachable union that overlap. -/
theorem C25_reported (G : Grammar I n) (hfun : G.Functional) (root : I) (fuel : Nat) (self a b : I)
    (h : build fuel G root = some (.error (.firstFirst self a b))) :
    Reachable G root self ∧ ∃ l, (self, Rule.alt l) ∈ G ∧
      ∃ p q : Nat, p < q ∧ l[p]? = some a ∧ l[q]? = some b ∧ Overlap G a b := by
  obtain ⟨first, follow, h1, h2, h3⟩ := build_error h
  obtain ⟨t, hr, hn⟩ := checkConflicts_error h3
  obtain ⟨rfl, l, hg, p, q, hpq, hp, hq, x, ha, hb⟩ := nodeConflict_firstFirst hn
  refine ⟨(reach_iff hfun _ _).1 hr, l, mem_of_aget? hg, p, q, hpq, hp, hq, ?_⟩
  exact (overlap_iff _ _ _).2 ⟨x, (buildFirst_den h1 _ _).1 ha, (buildFirst_den h1 _ _).1 hb⟩

/-- A reachable union with two overlapping alternatives is never accepted. -/
theorem C25_rejected (G : Grammar I n) (hfun : G.Functional) (root t : I) (l : List I)
    (hr : Reachable G root t) (hm : (t, Rule.alt l) ∈ G) (p q : Nat) (a b : I) (hpq : p < q)
    (hp : l[p]? = some a) (hq : l[q]? = some b) (ho : Overlap G a b) :
    ∃ e fuel, ∀ fuel' ≥ fuel, build fuel' G root = some (.error e) := by
  obtain ⟨fuel, r, hb⟩ := build_total G root
  cases r with
  | error e => exact ⟨e, fuel, hb⟩
  | ok m => exact absurd ho (accepted_alt hfun (hb fuel (Nat.le_refl _)) hr hm hpq hp hq)

/-- Two alternatives of the same terminal. -/
example : build 10 ([(0, .alt [1, 2]), (1, .term ⟨0, none⟩), (2, .term ⟨0, some [97]⟩)] : Grammar Nat 1) 0 =
    some (.error (.firstFirst 0 1 2)) := by rfl

/-! ## C26: overlapping optional parts of a sequence -/

theorem C26_rejected (G : Grammar I n) (hfun : G.Functional) (root t a b : I) (pre mid post : List I)
    (hr : Reachable G root t) (hm : (t, Rule.seq (pre ++ a :: (mid ++ b :: post))) ∈ G)
    (ha : Nullable G a) (hmid : ∀ k ∈ mid, Nullable G k) (tok : TokenSrc n)
    (h1 : FirstOf G a tok) (h2 : FirstOf G b tok) :
    ∃ e fuel, ∀ fuel' ≥ fuel, build fuel' G root = some (.error e) := by
  obtain ⟨fuel, r, hb⟩ := build_total G root
  cases r with
  | error e => exact ⟨e, fuel, hb⟩
  | ok m => exact absurd h2 (accepted_seq hfun (hb fuel (Nat.le_refl _)) hr hm ha hmid tok h1)

/-- `S = a? b? a` -/
example : build 10 ([(0, .seq [1, 2, 3]), (1, .alt [3, 5]), (2, .alt [4, 5]), (3, .term ⟨0, none⟩),
    (4, .term ⟨1, none⟩), (5, .eps)] : Grammar Nat 2) 0 =
    some (.error (.firstFollowSeq 0 1 3)) := by rfl

/-! ## C27: accepted grammars and LL(1) -/

theorem exSkip_not_ll1 : ¬ LL1 exSkipG 0 := by
  intro hll
  have hr1 : Reachable exSkipG 0 1 := .step .refl ⟨.seq [1, 2, 8], by decide, by decide⟩
  have hr : Reachable exSkipG 0 7 := .step hr1 ⟨.seq [6, 7], by decide, by decide⟩
  have hfol : FollowOf exSkipG 0 7 (some ⟨1, []⟩) :=
    FollowOf.seq (pre := [6]) (post := []) (t := 1) (by decide) (by simp) exSkip_follow
  refine (hll 7 [8, 5] hr (by decide)).2 1 0 5 8 (by decide) rfl rfl ?_ ⟨1, []⟩ ?_ hfol
  · exact Derives.one (Expands.eps (by decide))
  · exact ⟨[], Derives.one (Expands.term (t := ⟨1, none⟩) (by decide) ⟨rfl, by simp⟩)⟩

/-- C27 is false as stated: `S = P Q b; P = a b?; Q = c?` is accepted, but after `a` the token `b` can
start `b?` and can follow it. -/
theorem C27_false : ∃ (ruleOf : Nat → Rule Nat 3) (G : Grammar Nat 3),
    registerFrom ruleOf 10 0 = some G ∧ (∃ m, build 20 G 0 = some (.ok m)) ∧ ¬ LL1 G 0 :=
  ⟨exSkip, exSkipG, exSkip_registered, okB_iff (by decide), exSkip_not_ll1⟩

/-- Accepted grammars are LL(1) with respect to the FOLLOW sets that were computed. -/
theorem C27_computed (G : Grammar I n) (hfun : G.Functional) (root : I) (fuel : Nat) (m : Metadata I n)
    (h : build fuel G root = some (.ok m)) (t : I) (hr : Reachable G root t) :
    (∀ l, (t, Rule.alt l) ∈ G → ∀ (p q : Nat) a b, p < q → l[p]? = some a → l[q]? = some b →
      ¬ Overlap G a b) ∧
    (Nullable G t → ∀ tok, FirstOf G t tok → (m.follow.get t).contains (some tok) = false) := by
  refine ⟨fun l hm p q a b hpq hp hq => accepted_alt hfun h hr hm hpq hp hq, ?_⟩
  intro hn tok hf
  rw [Bool.eq_false_iff]
  intro hc
  exact firstI_disjoint_followC hfun h hr (nullable_iff.1 hn) tok
    ⟨firstOf_iff.1 hf, (build_follow_den h _ _).1 hc⟩

/-- Accepted grammars are LL(1) exactly if no choice at the end of a part is in doubt because of a token that
comes beyond an empty part. Missing for the full statement: grammars in which this is not so (false there). -/
theorem C27_exact_partial (G : Grammar I n) (hfun : G.Functional) (root : I)
    (hall : ∀ x r, (x, r) ∈ G → Reachable G root x) (fuel : Nat) (m : Metadata I n)
    (h : build fuel G root = some (.ok m)) : LL1 G root ↔ SkipSafe G :=
  ⟨ll1_skipSafe hall, fun hsk => accepted_ll1 hfun hsk h⟩

/-- In particular if only the first and the last part of a sequence can be empty. -/
theorem C27_ll1_partial (G : Grammar I n) (hfun : G.Functional) (root : I)
    (hni : NoNullableInterior G) (fuel : Nat) (m : Metadata I n)
    (h : build fuel G root = some (.ok m)) : LL1 G root := accepted_ll1 hfun (noInterior_of hni).skipSafe h

/-! ## C28: LL(1) grammars are accepted, with an exception -/

theorem exBare_ll1 : LL1 exBareG 0 := by
  have hf : ((buildFirst 10 exBareG).bind fun f => (buildFollow 10 f exBareG 0).map fun fo =>
      (decide ((fo.get 1).map.get 0 = .mat []), (f.get 2).contains none, (f.get 3).contains none,
        decide ((f.get 4).map = Map.new LitSet.empty))) = some (true, false, false, true) := by decide
  cases h1 : buildFirst 10 exBareG with
  | none => rw [h1] at hf; cases hf
  | some first =>
    cases h2 : buildFollow 10 first exBareG 0 with
    | none => rw [h1] at hf; simp [h2] at hf
    | some follow =>
      rw [h1] at hf
      simp [h2] at hf
      obtain ⟨hfo, hn2, hn3, hn4⟩ := hf
      have n2 : ¬ Null exBareG 2 := by
        intro h; rw [(buildFirst_den h1 2 none).2 h] at hn2; cases hn2
      have n3 : ¬ Nullable exBareG 3 := by
        intro h; rw [(C21_epsilon _ _ _ h1 3).2 h] at hn3; cases hn3
      have n4 : ∀ tok, ¬ FirstOf exBareG 4 tok := by
        intro tok h
        have := (C21_token _ _ _ h1 4 tok).2 h
        simp [TSet.contains, hn4, LitSet.contains, LitSet.empty] at this
      have hni : NoInterior exBareG := by
        intro x pre y post hm hp1 hp2
        simp [exBareG] at hm
        obtain ⟨_, hm⟩ := hm
        cases pre with
        | nil => exact absurd rfl hp1
        | cons a pre =>
          simp at hm
          obtain ⟨_, hm⟩ := hm
          cases pre with
          | nil => simp at hm; exact hm.1 ▸ n2
          | cons b pre =>
            simp at hm
            cases pre with
            | nil => simp at hm; exact absurd hm.2.2.symm (by simpa using hp2)
            | cons c pre => simp at hm
      intro t l hr hm
      simp [exBareG] at hm
      obtain ⟨rfl, rfl⟩ := hm
      have pos : ∀ (p : Nat) a, [3, 4][p]? = some a → (p = 0 ∧ a = 3) ∨ (p = 1 ∧ a = 4) := by
        intro p a h
        match p with
        | 0 => simp at h; exact .inl ⟨rfl, h.symm⟩
        | 1 => simp at h; exact .inr ⟨rfl, h.symm⟩
        | p + 2 => simp at h
      refine ⟨?_, ?_⟩
      · intro p q a b hpq hp hq
        rcases pos p a hp with ⟨rfl, rfl⟩ | ⟨rfl, rfl⟩ <;> rcases pos q b hq with ⟨rfl, rfl⟩ | ⟨rfl, rfl⟩
        · omega
        · rintro (⟨tok, _, h⟩ | ⟨h, _⟩)
          · exact n4 tok h
          · exact n3 h
        · omega
        · omega
      · intro p q a b hpq hp hq ha tok hb hfol
        rcases pos p a hp with ⟨rfl, rfl⟩ | ⟨rfl, rfl⟩ <;> rcases pos q b hq with ⟨rfl, rfl⟩ | ⟨rfl, rfl⟩
        · exact hpq rfl
        · exact n3 ha
        · have htok : tok.ty = 0 := by
            have := firstOf_iff.1 hb
            cases this with
            | term hm hx => simp [exBareG] at hm; subst hm; exact hx.1
            | seq hm _ _ => simp [exBareG] at hm
            | alt hm _ _ => simp [exBareG] at hm
          have hc := (buildFollow_den (buildFirst_den h1) h2 1 (some tok)).2 (FollowC.complete hni hfol)
          unfold Tbl.den TSet.contains at hc
          simp only [htok, hfo] at hc
          simp [LitSet.contains] at hc
        · exact hpq rfl

/-- C28 is false as stated: `S = Ident? "+" Ident` is LL(1) and rejected. -/
theorem C28_false : ∃ (ruleOf : Nat → Rule Nat 2) (G : Grammar Nat 2), registerFrom ruleOf 10 0 = some G ∧
    LL1 G 0 ∧ build 20 G 0 = some (.error (.firstFollowSeq 0 2 3)) :=
  ⟨exBare, exBareG, exBare_registered, exBare_ll1, by rfl⟩

/-- LL(1) grammars are accepted if no nullable part of a sequence that can begin with every token of a
type is followed by a part beginning with that type. Missing for the full statement: those grammars, of
which some are rejected because of the defect described by C19. -/
theorem C28_accepted_partial (G : Grammar I n) (hfun : G.Functional) (root : I) (hcon : G.Connected root)
    (hll : LL1 G root) (hnb : NoBareRepeat G root) :
    ∃ m fuel, ∀ fuel' ≥ fuel, build fuel' G root = some (.ok m) := ll1_accepted hfun hcon hll hnb

/-! ## C29: left recursion is not reported -/

/-- No grammar is ever rejected with `LeftRecursion`. -/
theorem C29_never (G : Grammar I n) (root : I) (fuel : Nat) (stack : List I) (cur : I) :
    build fuel G root ≠ some (.error (.leftRecursion stack cur)) := by
  intro h
  obtain ⟨first, follow, _, _, h3⟩ := build_error h
  obtain ⟨t, _, hn⟩ := checkConflicts_error h3
  unfold nodeConflict at hn
  split at hn
  · cases hn
  · cases hn
  · cases hn
  · rename_i l hg
    have hs := altConflict_spec first t l l [] TSet.empty rfl (by
      intro x; cases x with
      | none => simp [TSet.contains]
      | some tok => simpa [TSet.Mem] using TSet.mem_empty tok)
    split at hn
    · rename_i e he
      rw [he] at hs
      simp at hn; subst hn
      obtain ⟨_, _, _, _, _, _, _, _, _, h5⟩ := hs
      cases h5
    · cases selfConflict_kind _ _ _ _ hn
  · cases hn
  · rename_i c cs hg
    simp only at hn
    split at hn
    · rename_i e he
      simp at hn; subst hn
      obtain ⟨_, _, hk⟩ := seqConflict_kind _ _ _ _ _ _ he
      cases hk
    · cases selfConflict_kind _ _ _ _ hn

/-- C29 is false as stated: `E = E a` is left recursive and accepted. -/
theorem C29_false : ∃ (ruleOf : Nat → Rule Nat 1) (G : Grammar Nat 1), registerFrom ruleOf 10 0 = some G ∧
    LeftDerives G 0 0 ∧ ∃ m, build 20 G 0 = some (.ok m) :=
  ⟨exLeft, exLeftG, exLeft_registered,
    ⟨[.nt 0, .nt 1], [.nt 1], Expands.seq (l := [0, 1]) (by decide), .refl _⟩, okB_iff (by decide)⟩

/-- What holds of C29: a left-recursive grammar in which every reachable production can be completed is
rejected. Missing for the full statement: left recursion of productions that derive no finite token
sequence, and the kind of error (`C29_never`). -/
theorem C29_rejected_partial (G : Grammar I n) (hfun : G.Functional) (root t : I)
    (hprod : ∀ i, Reachable G root i → Productive G i) (hr : Reachable G root t)
    (hl : LeftDerives G t t) : ∃ e fuel, ∀ fuel' ≥ fuel, build fuel' G root = some (.error e) := by
  obtain ⟨fuel, r, hb⟩ := build_total G root
  cases r with
  | error e => exact ⟨e, fuel, hb⟩
  | ok m => exact absurd hl (no_left_recursion hfun hprod (hb fuel (Nat.le_refl _)) hr)

/-! ## C30: accepted grammars have no left recursion -/

theorem C30_no_left_recursion (G : Grammar I n) (hfun : G.Functional) (root : I) (fuel : Nat)
    (m : Metadata I n) (h : build fuel G root = some (.ok m))
    (hprod : ∀ i, Reachable G root i → Productive G i) (t : I) (hr : Reachable G root t) :
    ¬ LeftDerives G t t := no_left_recursion hfun hprod h hr

/-- A left-recursive production of a productive grammar: `E = E a | b`. -/
example : build 20 ([(0, .alt [1, 2]), (1, .seq [0, 3]), (2, .term ⟨1, none⟩), (3, .term ⟨0, none⟩)] :
    Grammar Nat 2) 0 = some (.error (.firstFirst 0 1 2)) := by rfl

/-! ## C31: table lookup is exact -/

theorem C31_token (G : Grammar I n) (hfun : G.Functional) (root : I) (fuel : Nat) (m : Metadata I n)
    (h : build fuel G root = some (.ok m)) (t : I) (l : List I) (hr : Reachable G root t)
    (hm : (t, Rule.alt l) ∈ G) (tok : TokenSrc n) (i : Nat) :
    m.jump.lookUp t (some tok) = some i ↔ ∃ c, l[i]? = some c ∧ FirstOf G c tok := by
  obtain ⟨seen, hj⟩ := (build_ok h).2.2.2
  obtain ⟨hs, hc⟩ := buildJump_lookUp hj ((reach_iff hfun _ _).2 hr) (aget?_of_mem hfun hm) (some tok)
  have hden : ∀ c, m.first.den c (some tok) ↔ FirstOf G c tok := fun c =>
    (build_first_den h c _).trans (firstFam_some G c tok)
  constructor
  · intro hi
    obtain ⟨c, h1, h2⟩ := hs i hi
    exact ⟨c, h1, (hden c).1 h2⟩
  · rintro ⟨c, h1, h2⟩
    cases hl : m.jump.lookUp t (some tok) with
    | none => exact absurd hl (hc i c h1 ((hden c).2 h2))
    | some k =>
      obtain ⟨d, h3, h4⟩ := hs k hl
      have h4 := (hden d).1 h4
      rcases Nat.lt_trichotomy i k with hlt | rfl | hlt
      · exact absurd (.inl ⟨tok, h2, h4⟩) (accepted_alt hfun h hr hm hlt h1 h3)
      · rfl
      · exact absurd (.inl ⟨tok, h4, h2⟩) (accepted_alt hfun h hr hm hlt h3 h1)

theorem C31_end (G : Grammar I n) (hfun : G.Functional) (root : I) (fuel : Nat) (m : Metadata I n)
    (h : build fuel G root = some (.ok m)) (t : I) (l : List I) (hr : Reachable G root t)
    (hm : (t, Rule.alt l) ∈ G) (i : Nat) :
    m.jump.lookUp t none = some i ↔ ∃ c, l[i]? = some c ∧ Nullable G c := by
  obtain ⟨seen, hj⟩ := (build_ok h).2.2.2
  obtain ⟨hs, hc⟩ := buildJump_lookUp hj ((reach_iff hfun _ _).2 hr) (aget?_of_mem hfun hm) none
  have hden : ∀ c, m.first.den c none ↔ Nullable G c := fun c =>
    (build_first_den h c _).trans (firstFam_none G c)
  constructor
  · intro hi
    obtain ⟨c, h1, h2⟩ := hs i hi
    exact ⟨c, h1, (hden c).1 h2⟩
  · rintro ⟨c, h1, h2⟩
    cases hl : m.jump.lookUp t none with
    | none => exact absurd hl (hc i c h1 ((hden c).2 h2))
    | some k =>
      obtain ⟨d, h3, h4⟩ := hs k hl
      have h4 := (hden d).1 h4
      rcases Nat.lt_trichotomy i k with hlt | rfl | hlt
      · exact absurd (.inr ⟨h2, h4⟩) (accepted_alt hfun h hr hm hlt h1 h3)
      · rfl
      · exact absurd (.inr ⟨h4, h2⟩) (accepted_alt hfun h hr hm hlt h3 h1)

example : ((build 20 exListG 0).map fun r => match r with
    | .ok m => (m.jump.lookUp 2 (some ⟨1, [44]⟩), m.jump.lookUp 2 none)
    | .error _ => (none, none)) = some (some 0, some 1) := by decide

/-! ## C32: registration -/

/-- Exactly the productions reachable from the root are recorded, with what their type declares. -/
theorem C32_exact (ruleOf : I → Rule I n) (fuel : Nat) (root : I) (G : Grammar I n)
    (h : registerFrom ruleOf fuel root = some G) (i : I) (r : Rule I n) :
    (i, r) ∈ G ↔ Reach (fun t => (ruleOf t).parts) root i ∧ r = ruleOf i := (registerFrom_spec h).2 i r

/-- Each production is recorded once. -/
theorem C32_functional (ruleOf : I → Rule I n) (fuel : Nat) (root : I) (G : Grammar I n)
    (h : registerFrom ruleOf fuel root = some G) : (G.map Prod.fst).Nodup := (registerFrom_spec h).1

theorem C32_connected (ruleOf : I → Rule I n) (fuel : Nat) (root : I) (G : Grammar I n)
    (h : registerFrom ruleOf fuel root = some G) : G.Connected root ∧
    ∀ i, Reachable G root i ↔ Reach (fun t => (ruleOf t).parts) root i :=
  ⟨registerFrom_connected h, registerFrom_closed h⟩

/-- Registration terminates for every finite collection `U` of types closed under parts, recursive or
not, and the result does not depend on the fuel. -/
theorem C32_terminates (ruleOf : I → Rule I n) (U : List I)
    (hU : ∀ i ∈ U, ∀ j ∈ (ruleOf i).parts, j ∈ U) (root : I) (hr : root ∈ U) :
    ∃ G, ∀ fuel > U.length, registerFrom ruleOf fuel root = some G := by
  obtain ⟨G, hG⟩ := registerFrom_total U hU hr (fuel := U.length + 1) (by omega)
  exact ⟨G, fun fuel hf => registerFrom_mono (by omega) hG⟩

/-- The recursive list grammar. -/
example : (∀ i ∈ [0, 1, 2, 3, 4, 5], ∀ j ∈ (exList i).parts, j ∈ [0, 1, 2, 3, 4, 5]) ∧
    registerFrom exList 7 0 = some exListG := by decide

/-! ## C33: metadata construction is total -/

/-- For every finite collection of types, metadata construction terminates with metadata or an error. -/
theorem C33_total (ruleOf : I → Rule I n) (U : List I)
    (hU : ∀ i ∈ U, ∀ j ∈ (ruleOf i).parts, j ∈ U) (root : I) (hr : root ∈ U) :
    ∃ r fuel, ∀ fuel' ≥ fuel, buildFor ruleOf fuel' root = some r := by
  obtain ⟨G, hG⟩ := C32_terminates ruleOf U hU root hr
  obtain ⟨f, r, hb⟩ := build_total G root
  refine ⟨r, max f (U.length + 1), fun f' hle => ?_⟩
  unfold buildFor
  rw [hG f' (by omega)]
  exact hb f' (by omega)

/-- Also for an arbitrary (even inconsistent) collection of productions. -/
theorem C33_build_total (G : Grammar I n) (root : I) :
    ∃ r fuel, ∀ fuel' ≥ fuel, build fuel' G root = some r := by
  obtain ⟨f, r, h⟩ := build_total G root
  exact ⟨r, f, h⟩

/-- The result does not depend on the fuel. -/
theorem C33_deterministic (G : Grammar I n) (root : I) (fuel fuel' : Nat)
    (r r' : Except (GErr I) (Metadata I n)) (h : build fuel G root = some r)
    (h' : build fuel' G root = some r') : r = r' := by
  have h1 := build_mono (Nat.le_max_left fuel fuel') h
  have h2 := build_mono (Nat.le_max_right fuel fuel') h'
  rw [h1] at h2; exact Option.some.inj h2

/-- The traversals visit exactly the reachable productions, each once. -/
theorem C33_visits (G : Grammar I n) (hfun : G.Functional) (root : I) (fuel : Nat)
    (first follow : Tbl I n) :
    (∀ s, checkLeftRecursive G first fuel root ⟨[], [], []⟩ = some (.ok s) →
      s.seen.Nodup ∧ ∀ i, i ∈ s.seen ↔ Reachable G root i) ∧
    (∀ seen u, checkConflicts G first follow fuel root = some (.ok (seen, u)) →
      seen.Nodup ∧ ∀ i, i ∈ seen ↔ Reachable G root i) ∧
    (∀ seen j, buildJump G first fuel root = some (.ok (seen, j)) →
      seen.Nodup ∧ ∀ i, i ∈ seen ↔ Reachable G root i) := by
  refine ⟨?_, ?_, ?_⟩
  · intro s h
    have := (checkLeftRecursive_seen G first fuel _ _ _ h).exact
    exact ⟨this.1, fun i => (this.2 i).trans (reach_iff hfun _ _)⟩
  · intro seen u h
    have := (dfs_seen _ _ _ _ _ _ h).exact
    exact ⟨this.1, fun i => (this.2 i).trans (reach_iff hfun _ _)⟩
  · intro seen j h
    have := (dfs_seen _ _ _ _ _ _ h).exact
    exact ⟨this.1, fun i => (this.2 i).trans (reach_iff hfun _ _)⟩

example : okB (buildFor exList 20 0) = true := by decide

end Teleparse

import Verif.Proof.Blame
import Verif.Props.Messages
/-
Property C125: the errors of the repaired checks of a grammar; and the texts of grammar errors as a user sees them,
with the names of types (C67).
-/
namespace Teleparse
variable {I : Type} {n m : Nat} [DecidableEq I]

/-! ## C125 -/

/-- The repaired building ends. -/
theorem C125_terminates (G : Grammar I n) (root : I) :
    ∃ fuel r, ∀ fuel' ≥ fuel, blameBuild fuel' G root = some r := blameBuild_total G root

/-- What an error says is true, for each of the four kinds of errors (what C59 claims). -/
theorem C125_true (ruleOf : I → Rule I n) (fuel : Nat) (root : I) (G : Grammar I n)
    (hG : registerFrom ruleOf fuel root = some G) (fuel' : Nat) (e : GErr I)
    (h : blameBuild fuel' G root = some (.error e)) : e.Holds G root := by
  have hfun := (registerFrom_spec hG).1
  obtain ⟨first, h1, ⟨e', h2, he⟩ | ⟨seen, follow, h2, h3, ⟨e', h4, he⟩ | ⟨x, s, jump, h4, h5, he⟩⟩⟩ :=
    blameBuild_cases h
  · cases he
    obtain ⟨c, -, s, hc⟩ := leftAll_error _ _ h2
    obtain ⟨st, cu, rfl, hm, hp⟩ := leftSearch_error _ [] c s _ (by
      intro k a b _ hb
      simp at hb) hc
    refine ⟨hm, ?_, fun k a b ha hb => hp.derives hfun (first_null h1) 0 k a b ha hb⟩
    obtain ⟨k, hk, hk'⟩ := List.mem_iff_getElem.1 hm
    refine hp.derives hfun (first_null h1) (st.length - k - 1) k cu cu ?_ ?_
    · rw [List.getElem?_append_left hk, List.getElem?_eq_getElem hk, hk']
    · rw [show k + (st.length - k - 1) + 1 = st.length by omega, List.getElem?_append_right (Nat.le_refl _)]
      simp
  · cases he
    obtain ⟨t, hr, hn⟩ := blameConflicts_error h4
    exact blameNode_holds hfun ((reach_iff hfun _ _).1 hr) (buildFirst_den h1)
      (fun i tok => C110_follow G root (registerFrom_connected hG) fuel' fuel' first follow h1 h3 i (some tok)) hn
  · cases he

/-- A root is accepted exactly if its grammar is LL(1) and not left recursive; so no defect is missed, and an error is
never a false alarm. -/
theorem C125_accepts (ruleOf : I → Rule I n) (fuel : Nat) (root : I) (G : Grammar I n)
    (hG : registerFrom ruleOf fuel root = some G) :
    (∃ md N, ∀ fuel' ≥ N, blameBuild fuel' G root = some (.ok md)) ↔
      LL1 G root ∧ ∀ i, Reachable G root i → ¬ LeftDerives G i i := by
  have hfun := (registerFrom_spec hG).1
  constructor
  · rintro ⟨md, N, h⟩
    obtain ⟨first, h1, ⟨e', h2, he⟩ | ⟨seen, follow, h2, h3, ⟨e', h4, he⟩ | ⟨x, s, jump, h4, h5, he⟩⟩⟩ :=
      blameBuild_cases (h N (Nat.le_refl _))
    · cases he
    · cases he
    · exact ⟨ll1_of_blame hfun h1 h3 h4, fun i _ => fixedLeft_none hfun h1 h2 i⟩
  · intro hgood
    obtain ⟨N, r, h⟩ := blameBuild_total G root
    cases r with
    | ok md => exact ⟨md, N, h⟩
    | error e =>
      refine absurd hgood ((C125_true ruleOf fuel root G hG N e (h N (Nat.le_refl _))).bad hfun ?_)
      intro i r hr
      exact (registerFrom_closed hG i).2 (((registerFrom_spec hG).2 i r).1 hr).1

/-- An accepted root gets the same metadata as with the repairs of C110 and C114 alone. -/
theorem C125_same (ruleOf : I → Rule I n) (fuel : Nat) (root : I) (G : Grammar I n)
    (hG : registerFrom ruleOf fuel root = some G) (md : Metadata I n) :
    (∃ N, ∀ fuel' ≥ N, blameBuild fuel' G root = some (.ok md)) ↔
      ∃ N, ∀ fuel' ≥ N, leftBuild fuel' G root = some (.ok md) := by
  have key : ∀ md md' N N', (∀ fuel' ≥ N, blameBuild fuel' G root = some (.ok md)) →
      (∀ fuel' ≥ N', leftBuild fuel' G root = some (.ok md')) → md = md' := by
    intro md md' N N' h h'
    have a := h (max N N') (Nat.le_max_left _ _)
    have b := h' (max N N') (Nat.le_max_right _ _)
    obtain ⟨first, h1, ⟨e', h2, he⟩ | ⟨seen, follow, h2, h3, ⟨e', h4, he⟩ | ⟨x, s, jump, h4, h5, he⟩⟩⟩ :=
      blameBuild_cases a
    · cases he
    · cases he
    · cases he
      unfold leftBuild at b
      rw [h1] at b
      simp only [h2] at b
      obtain ⟨b1, b2, -, s', b3⟩ := fixedBuild_ok b
      rw [h1] at b1
      obtain ⟨f1, f2, f3⟩ := md'
      dsimp only at b1 b2 b3
      cases b1
      rw [h3] at b2
      cases b2
      rw [h5] at b3
      cases b3
      rfl
  have hboth := (C125_accepts ruleOf fuel root G hG).trans (C114_accepts ruleOf fuel root G hG).symm
  constructor
  · rintro ⟨N, h⟩
    obtain ⟨md', N', h'⟩ := hboth.1 ⟨md, N, h⟩
    cases key md md' N N' h h'
    exact ⟨N', h'⟩
  · rintro ⟨N, h⟩
    obtain ⟨md', N', h'⟩ := hboth.2 ⟨md, N, h⟩
    cases key md' md N' N h' h
    exact ⟨N', h'⟩

/-- Exactly the terminals are listed that the error is about, and there is one (what C60 claims). -/
theorem C125_lists (name : Fin n → Str) (ruleOf : I → Rule I n) (fuel : Nat) (root : I) (G : Grammar I n)
    (hG : registerFrom ruleOf fuel root = some G) (fuel' : Nat) (e : GErr I) (first follow : Tbl I n)
    (h1 : buildFirst fuel' G = some first) (h2 : fixedFollow fuel' first G root = some follow)
    (h : blameBuild fuel' G root = some (.error e)) :
    Lists (e.About G root) name (e.blameTerms name first follow) ∧
      ((∀ stack cur, e ≠ .leftRecursion stack cur) → e.blameTerms name first follow ≠ []) := by
  have ht := C125_true ruleOf fuel root G hG fuel' e h
  have hcon := registerFrom_connected hG
  have hf := buildFirst_den h1
  have dn : ∀ k, (first.get k).contains none = true ↔ Nullable G k :=
    fun k => (hf k none).trans (firstFam_none _ _)
  have df : ∀ k tok, (first.get k).contains (some tok) = true ↔ FirstOf G k tok :=
    fun k tok => (hf k _).trans (firstFam_some _ _ _)
  cases e with
  | leftRecursion stack cur =>
    refine ⟨⟨by simp [GErr.blameTerms], fun x => ?_⟩, fun hne => absurd rfl (hne _ _)⟩
    simp [GErr.blameTerms, Shows, GErr.About]
  | firstFirst t a b =>
    have hl := TSet.intersectionRepr_lists name (first.get b) (first.get a) true
    have hl' : Lists ((GErr.firstFirst t a b).About G root) name
        ((GErr.firstFirst t a b).blameTerms name first follow) := hl.congr fun x => by
      cases x with
      | none => simp only [GErr.About, dn]; constructor
                · rintro ⟨h1, h2, -⟩; exact ⟨h2, h1⟩
                · rintro ⟨h1, h2⟩; exact ⟨h2, h1, fun _ => trivial⟩
      | some tok => simp only [GErr.About, df]; constructor
                    · rintro ⟨h1, h2, -⟩; exact ⟨h2, h1⟩
                    · rintro ⟨h1, h2⟩; exact ⟨h2, h1, fun _ => trivial⟩
    refine ⟨hl', fun _ => ?_⟩
    obtain ⟨-, l, -, p, q, -, -, -, ho⟩ := ht
    rcases ho with ⟨tok, h1, h2⟩ | ⟨h1, h2⟩
    · exact hl'.nonempty (x := some tok) ⟨h1, h2⟩
    · exact hl'.nonempty (x := none) ⟨h1, h2⟩
  | firstFollowSeq t a b =>
    have hl := TSet.intersectionRepr_lists name (first.get a) (first.get b) false
    have hl' : Lists ((GErr.firstFollowSeq t a b).About G root) name
        ((GErr.firstFollowSeq t a b).blameTerms name first follow) := hl.congr fun x => by
      cases x with
      | none => simp [GErr.About]
      | some tok => simp [GErr.About, df]
    refine ⟨hl', fun _ => ?_⟩
    obtain ⟨-, _, _, _, -, -, -, tok, h1, h2⟩ := ht
    exact hl'.nonempty (x := some tok) ⟨h1, h2⟩
  | firstFollow t =>
    have hl := TSet.intersectionRepr_lists name (follow.get t) (first.get t) false
    have hl' : Lists ((GErr.firstFollow t).About G root) name
        ((GErr.firstFollow t).blameTerms name first follow) := hl.congr fun x => by
      cases x with
      | none => simp [GErr.About]
      | some tok =>
        simp only [GErr.About, df, C110_follow G root hcon fuel' fuel' first follow h1 h2]
        constructor
        · rintro ⟨h1, h2, -⟩; exact ⟨h2, h1⟩
        · rintro ⟨h1, h2⟩; exact ⟨h2, h1, by simp⟩
    refine ⟨hl', fun _ => ?_⟩
    obtain ⟨-, -, tok, h1, h2⟩ := ht
    exact hl'.nonempty (x := some tok) ⟨h1, h2⟩

/-- The whole text of an error as a user of the repaired checks sees it. Two alternatives: constant words around the
name of the type, the names of its two alternatives, and the list of exactly the terminals that both can begin
with. -/
theorem C125_text_first_first : ∃ w0 w1 w2 w3 : Str, ∀ (S : Schema m n) (N : Idents m) (name : Fin n → Str)
    (fuel fuel' : Nat) (root : Ty m n) (G : Grammar (PId m n) n) (first follow : Tbl (PId m n) n)
    (_ : registerFrom S.rule fuel root.pid = some G) (_ : buildFirst fuel' G = some first)
    (_ : fixedFollow fuel' first G root.pid = some follow) (t a b : PId m n)
    (_ : blameBuild fuel' G root.pid = some (.error (.firstFirst t a b))),
    ∃ l, l ≠ [] ∧ Lists ((GErr.firstFirst t a b).About G root.pid) name l ∧
      Schema.blameText N name first follow (.firstFirst t a b) =
        w0 ++ quoted (t.debug N) ++ w1 ++ quoted (a.debug N) ++ w2 ++ quoted (b.debug N) ++ w3 ++
          List.intercalate [44, 32] l := by
  obtain ⟨w0, w1, w2, w3, hw⟩ := text_first_first (I := PId m n)
  refine ⟨w0, w1, w2, w3, ?_⟩
  intro S N name fuel fuel' root G first follow hG h1 h2 t a b h
  obtain ⟨hl, hn⟩ := C125_lists name S.rule fuel root.pid G hG fuel' _ first follow h1 h2 h
  exact ⟨_, hn (by simp), hl, hw _ _ _ _ _⟩

/-- Two parts of a sequence: the type, the part that can be empty, the part after it, again the first of them, and
exactly the terminals that both can begin with. -/
theorem C125_text_seq : ∃ w0 w1 w2 w3 w4 : Str, ∀ (S : Schema m n) (N : Idents m) (name : Fin n → Str)
    (fuel fuel' : Nat) (root : Ty m n) (G : Grammar (PId m n) n) (first follow : Tbl (PId m n) n)
    (_ : registerFrom S.rule fuel root.pid = some G) (_ : buildFirst fuel' G = some first)
    (_ : fixedFollow fuel' first G root.pid = some follow) (t a b : PId m n)
    (_ : blameBuild fuel' G root.pid = some (.error (.firstFollowSeq t a b))),
    ∃ l, l ≠ [] ∧ Lists ((GErr.firstFollowSeq t a b).About G root.pid) name l ∧
      Schema.blameText N name first follow (.firstFollowSeq t a b) =
        w0 ++ quoted (t.debug N) ++ w1 ++ quoted (a.debug N) ++ w2 ++ quoted (b.debug N) ++ w3 ++
          quoted (a.debug N) ++ w4 ++ List.intercalate [44, 32] l := by
  obtain ⟨w0, w1, w2, w3, w4, hw⟩ := text_seq (I := PId m n)
  refine ⟨w0, w1, w2, w3, w4, ?_⟩
  intro S N name fuel fuel' root G first follow hG h1 h2 t a b h
  obtain ⟨hl, hn⟩ := C125_lists name S.rule fuel root.pid G hG fuel' _ first follow h1 h2 h
  exact ⟨_, hn (by simp), hl, hw _ _ _ _ _⟩

/-- One type: its name, and exactly the tokens that can begin it and can follow it. -/
theorem C125_text_first_follow : ∃ w0 w1 : Str, ∀ (S : Schema m n) (N : Idents m) (name : Fin n → Str)
    (fuel fuel' : Nat) (root : Ty m n) (G : Grammar (PId m n) n) (first follow : Tbl (PId m n) n)
    (_ : registerFrom S.rule fuel root.pid = some G) (_ : buildFirst fuel' G = some first)
    (_ : fixedFollow fuel' first G root.pid = some follow) (t : PId m n)
    (_ : blameBuild fuel' G root.pid = some (.error (.firstFollow t))),
    ∃ l, l ≠ [] ∧ Lists ((GErr.firstFollow t).About G root.pid) name l ∧
      Schema.blameText N name first follow (.firstFollow t) =
        w0 ++ quoted (t.debug N) ++ w1 ++ List.intercalate [44, 32] l := by
  obtain ⟨w0, w1, hw⟩ := text_first_follow (I := PId m n)
  refine ⟨w0, w1, ?_⟩
  intro S N name fuel fuel' root G first follow hG h1 h2 t h
  obtain ⟨hl, hn⟩ := C125_lists name S.rule fuel root.pid G hG fuel' _ first follow h1 h2 h
  exact ⟨_, hn (by simp), hl, hw _ _ _⟩

/-- Left recursion: the names along the cycle. -/
theorem C125_text_left_recursion : ∃ w0 : Str, ∀ (S : Schema m n) (N : Idents m) (name : Fin n → Str)
    (fuel fuel' : Nat) (root : Ty m n) (G : Grammar (PId m n) n) (first follow : Tbl (PId m n) n)
    (_ : registerFrom S.rule fuel root.pid = some G) (stack : List (PId m n)) (cur : PId m n)
    (_ : blameBuild fuel' G root.pid = some (.error (.leftRecursion stack cur))),
    Schema.blameText N name first follow (.leftRecursion stack cur) =
      w0 ++ List.intercalate [32, 45, 62, 32] ((stack ++ [cur]).map (PId.debug N)) := by
  obtain ⟨w0, hw⟩ := text_left_recursion (I := PId m n)
  refine ⟨w0, ?_⟩
  intro S N name fuel fuel' root G first follow hG stack cur h
  obtain ⟨hm, -⟩ := C125_true S.rule fuel root.pid G hG fuel' _ h
  exact hw _ _ _ _ (List.ne_nil_of_mem hm)

/-! ### Examples -/

/-- `S = a b? b` of C59: now the right part is named. -/
example : blameBuild 20 exBlameG 0 = some (.error (.firstFollowSeq 0 2 3)) := by rfl

def exBlameRule (i : Nat) : Rule Nat 2 := if i = 0 then .seq [1, 2, 3] else if i = 1 then .term ⟨0, none⟩ else
    if i = 2 then .alt [3, 4] else if i = 3 then .term ⟨1, none⟩ else .eps

example : (GErr.firstFollowSeq 0 2 3).Holds exBlameG 0 :=
  C125_true exBlameRule 10 0 exBlameG (by rfl) 20 _ (by rfl)

/-- The other three kinds of errors. -/
example : blameBuild 20 ([(0, .alt [1, 2]), (1, .term ⟨0, none⟩), (2, .seq [1, 1])] : Grammar Nat 1) 0 =
    some (.error (.firstFirst 0 1 2)) := by rfl
example : blameBuild 20 ([(0, .seq [1, 3]), (1, .seq [2, 4]), (2, .term ⟨1, none⟩), (3, .term ⟨0, none⟩),
    (4, .alt [3, 5]), (5, .eps)] : Grammar Nat 2) 0 = some (.error (.firstFollow 4)) := by rfl
example : blameBuild 20 ([(0, .alt [1, 2]), (1, .seq [0, 2]), (2, .term ⟨0, none⟩)] : Grammar Nat 1) 0 =
    some (.error (.leftRecursion [0, 1] 0)) := by rfl

/-- An accepted grammar, `S = a b? a?`. -/
example : (blameBuild 20 ([(0, .seq [1, 2, 3]), (1, .term ⟨0, none⟩), (2, .alt [4, 5]), (3, .alt [1, 5]),
    (4, .term ⟨1, none⟩), (5, .eps)] : Grammar Nat 2) 0).map (fun r => r.isOk) = some true := by rfl

/-- A whole text: the struct `S` with the parts `Op`, `Option<Id>`, `Id`. -/
def exBlameS : Schema 1 2 := fun _ => .struct (.term 1 ⟨1, none⟩, none) [(.option (.term 0 ⟨0, none⟩), none),
  (.term 0 ⟨0, none⟩, none)]
def exBlameN : Idents 1 := ⟨fun _ => ascii "S", fun k => ascii (if k = 0 then "Id" else "Op")⟩
def exBlamePG : Grammar (PId 1 2) 2 := (registerFrom exBlameS.rule 10 (.user 0)).getD []
def exBlameFirst : Tbl (PId 1 2) 2 := (buildFirst 20 exBlamePG).getD []

/-- With the checks of the repository and with the repaired ones: -/
example : build 20 exBlamePG (.user 0) = some (.error (.firstFollowSeq (.user 0) (.term 1 ⟨1, none⟩) (.term 0 ⟨0, none⟩))) ∧
    Schema.errorText exBlameN (fun k => ascii (if k = 0 then "TId" else "TOp")) exBlamePG exBlameFirst []
      (.firstFollowSeq (.user 0) (.term 1 ⟨1, none⟩) (.term 0 ⟨0, none⟩)) = ascii
    "The non-terminal `S` has a FIRST/FOLLOW conflict producing `Op` followed by `Id`. `Op` can be empty and both can start with: TId" :=
  ⟨by rfl, by decide +kernel⟩
example : blameBuild 20 exBlamePG (.user 0) =
      some (.error (.firstFollowSeq (.user 0) (.opt (.term 0 ⟨0, none⟩)) (.term 0 ⟨0, none⟩))) ∧
    Schema.blameText exBlameN (fun k => ascii (if k = 0 then "TId" else "TOp")) exBlameFirst []
      (.firstFollowSeq (.user 0) (.opt (.term 0 ⟨0, none⟩)) (.term 0 ⟨0, none⟩)) = ascii
    "The non-terminal `S` has a FIRST/FOLLOW conflict producing `(Id)?` followed by `Id`. `(Id)?` can be empty and both can start with: TId" :=
  ⟨by rfl, by decide +kernel⟩

/-! ## C67 for types -/

/-- The whole text of a FIRST/FIRST conflict as a user sees it. -/
theorem C67_types_first_first : ∃ w0 w1 w2 w3 : Str, ∀ (N : Idents m) (name : Fin n → Str)
    (fuel : Nat) (root : Ty m n) (G : Grammar (PId m n) n) (first follow : Tbl (PId m n) n)
    (_ : buildFirst fuel G = some first) (_ : buildFollow fuel first G root.pid = some follow) (t a b : PId m n)
    (_ : build fuel G root.pid = some (.error (.firstFirst t a b))),
    ∃ l, l ≠ [] ∧ Lists ((GErr.firstFirst t a b).About G root.pid) name l ∧
      Schema.errorText N name G first follow (.firstFirst t a b) =
        w0 ++ quoted (t.debug N) ++ w1 ++ quoted (a.debug N) ++ w2 ++ quoted (b.debug N) ++ w3 ++
          List.intercalate [44, 32] l := by
  obtain ⟨w0, w1, w2, w3, hw⟩ := C67_first_first (I := PId m n) (n := n)
  refine ⟨w0, w1, w2, w3, ?_⟩
  intro N name fuel root G first follow h1 h2 t a b h
  obtain ⟨hn, hl⟩ := C60_first_first name G root.pid fuel t a b first follow h1 h2 h
  exact ⟨_, hn, hl.congr (by intro x; cases x <;> rfl), hw _ _ _ _ _ _ _ _⟩

/-- The whole text of a conflict in a sequence as a user sees it, with the exact list of C60. -/
theorem C67_types_seq : ∃ w0 w1 w2 w3 w4 : Str, ∀ (N : Idents m) (name : Fin n → Str)
    (fuel : Nat) (root : Ty m n) (G : Grammar (PId m n) n) (first follow : Tbl (PId m n) n)
    (_ : buildFirst fuel G = some first) (_ : buildFollow fuel first G root.pid = some follow) (t a b : PId m n)
    (_ : build fuel G root.pid = some (.error (.firstFollowSeq t a b))),
    ∃ l pre post, l ≠ [] ∧ (t, Rule.seq (pre ++ b :: post)) ∈ G ∧
      Lists (fun x => ∃ tok, x = some tok ∧ FirstOf G b tok ∧ (PendingFirst G pre tok ∨
        ∃ c ∈ pre, Nullable G c ∧ ∀ y, FirstOf G c ⟨tok.ty, y⟩)) name l ∧
      Schema.errorText N name G first follow (.firstFollowSeq t a b) =
        w0 ++ quoted (t.debug N) ++ w1 ++ quoted (a.debug N) ++ w2 ++ quoted (b.debug N) ++ w3 ++
          quoted (a.debug N) ++ w4 ++ List.intercalate [44, 32] l := by
  obtain ⟨w0, w1, w2, w3, w4, hw⟩ := C67_seq (I := PId m n) (n := n)
  refine ⟨w0, w1, w2, w3, w4, ?_⟩
  intro N name fuel root G first follow h1 h2 t a b h
  obtain ⟨hn, pre, post, hm, hl⟩ := C60_seq name G root.pid fuel t a b first follow h1 h2 h
  exact ⟨_, pre, post, hn, hm, hl, hw _ _ _ _ _ _ _ _⟩

/-- The whole text of a FIRST/FOLLOW conflict of a type as a user sees it. -/
theorem C67_types_first_follow : ∃ w0 w1 : Str, ∀ (N : Idents m) (name : Fin n → Str)
    (fuel : Nat) (root : Ty m n) (G : Grammar (PId m n) n) (first follow : Tbl (PId m n) n)
    (_ : G.Connected root.pid)
    (_ : buildFirst fuel G = some first) (_ : buildFollow fuel first G root.pid = some follow) (t : PId m n)
    (_ : build fuel G root.pid = some (.error (.firstFollow t))),
    ∃ l, l ≠ [] ∧ ListsOnly ((GErr.firstFollow t).About G root.pid) name l ∧
      Schema.errorText N name G first follow (.firstFollow t) =
        w0 ++ quoted (t.debug N) ++ w1 ++ List.intercalate [44, 32] l := by
  obtain ⟨w0, w1, hw⟩ := C67_first_follow (I := PId m n) (n := n)
  refine ⟨w0, w1, ?_⟩
  intro N name fuel root G first follow hc h1 h2 t h
  obtain ⟨hn, hl⟩ := C60_first_follow_sound name G root.pid hc fuel t first follow h1 h2 h
  refine ⟨_, hn, ?_, hw _ _ _ _ _ _⟩
  rintro x hx
  rcases hl x hx with ⟨⟨tok, h, -⟩, -⟩ | ⟨ty, ⟨h1, h2⟩ | ⟨l, ⟨tok, h1, h2⟩, h3⟩⟩
  · cases h
  · refine .inr ⟨ty, .inl ⟨fun l => ?_, h2⟩⟩
    obtain ⟨tok, h3, h4⟩ := h1 l
    cases h3; exact h4
  · cases h1; exact .inr ⟨ty, .inr ⟨l, h2, h3⟩⟩

end Teleparse

import Verif.Proof.Ends
import Verif.Proof.Check
import Verif.Props.Analysis
import Verif.Props.Combinators
/-
Properties C33 (for schemas) and C38: termination.
-/
namespace Teleparse
variable {m n : Nat}

/-! ## C33 for schemas -/

/-- Metadata construction terminates for every root type of every schema. -/
theorem C33_schema_total (S : Schema m n) (root : Ty m n) :
    ∃ r fuel, ∀ fuel' ≥ fuel, S.metadata fuel' root = some r :=
  C33_total S.rule (S.universe root) (S.universe_closed root) root.pid (S.root_mem root)

/-- Every root type of every schema has a grammar. -/
theorem C33_schema_grammar (S : Schema m n) (root : Ty m n) : ∃ G, S.IsGrammar root G := by
  obtain ⟨G, h⟩ := C32_terminates S.rule (S.universe root) (S.universe_closed root) root.pid (S.root_mem root)
  exact ⟨G, .of_register (h _ (Nat.lt_succ_self _))⟩

/-! ## C38: parsing terminates -/

theorem Ctx.yields {ext : Fin n → Bool} {S : Schema m n} {root : Ty m n} {md : Metadata (PId m n) n}
    {G : Grammar (PId m n) n} (E : Ctx S md root G) {source : Str} {items : List (Item n)} (hw : ItemsWF source items)
    {p : Parser n} (hp : Reached ext source items p) : ∃ r p', Yields ext S md root p r p' := by
  obtain ⟨N, o, h1, h2, -⟩ := E.good _ root .refl (p.view ext) (Nat.le_refl _)
  have h1 := h1 N N (Nat.le_refl _) (Nat.le_refl _)
  cases o with
  | fuel => exact absurd rfl h2
  | crash => exact absurd h1 ((produce_safe S md N root _ (hp.inSource hw)).1)
  | ok r v =>
    obtain ⟨p', hy, -⟩ := yields_of_view h1
    exact ⟨r, p', hy⟩

/-- Producing the root of an accepted grammar ends on every input, if no production is left recursive or has itself
as a part that cannot be left out, and no production can begin with an enum that derives the empty sequence, followed
by a token. Missing for the full statement: grammars with productions of these kinds (false for some of them, see
`C38_false`, `C38_false_needs` and `C38_false_enum`). -/
theorem C38_produce_partial (ext : Fin n → Bool) (S : Schema m n) (fuel : Nat) (root : Ty m n)
    (md : Metadata (PId m n) n) (G : Grammar (PId m n) n) (hmd : S.metadata fuel root = some (.ok md))
    (hG : S.IsGrammar root G) (hleft : ∀ i, Reachable G root.pid i → ¬ LeftDerives G i i)
    (hneeds : ∀ i, Reachable G root.pid i → ¬ Needs G i i)
    (henum : ∀ k v vs, S k = .enum v vs → Nullable G (.user k) → ∀ i tok rest, Reachable G root.pid i →
      ¬ Derives G [.nt i] (.nt (.user k) :: .tok tok :: rest))
    (source : Str) (items : List (Item n)) (hw : ItemsWF source items) (p : Parser n)
    (hp : Reached ext source items p) : ∃ r p', Yields ext S md root p r p' := by
  exact Ctx.yields (.of_metadata hmd hG hleft hneeds henum) hw hp

/-- The first two conditions hold if every production derives some finite sequence of tokens. -/
theorem C38_productive_partial (ext : Fin n → Bool) (S : Schema m n) (fuel : Nat) (root : Ty m n)
    (md : Metadata (PId m n) n) (G : Grammar (PId m n) n) (hmd : S.metadata fuel root = some (.ok md))
    (hG : S.IsGrammar root G) (hprod : ∀ i, Reachable G root.pid i → Productive G i)
    (henum : ∀ k v vs, S k = .enum v vs → Nullable G (.user k) → ∀ i tok rest, Reachable G root.pid i →
      ¬ Derives G [.nt i] (.nt (.user k) :: .tok tok :: rest))
    (source : Str) (items : List (Item n)) (hw : ItemsWF source items) (p : Parser n)
    (hp : Reached ext source items p) : ∃ r p', Yields ext S md root p r p' :=
  C38_produce_partial ext S fuel root md G hmd hG (fun _ => productive_left hmd hG hprod)
    (fun i hi => (hprod i hi).not_needs hG.1) henum source items hw p hp

/-- `Parser::parse` returns under the same conditions on the productions, whether the grammar is accepted or
not. -/
theorem C38_parse_partial (ext : Fin n → Bool) (S : Schema m n) (root : Ty m n)
    (hleft : ∀ G, S.IsGrammar root G → ∀ i, Reachable G root.pid i → ¬ LeftDerives G i i)
    (hneeds : ∀ G, S.IsGrammar root G → ∀ i, Reachable G root.pid i → ¬ Needs G i i)
    (henum : ∀ G, S.IsGrammar root G → ∀ k v vs, S k = .enum v vs → Nullable G (.user k) →
      ∀ i tok rest, Reachable G root.pid i → ¬ Derives G [.nt i] (.nt (.user k) :: .tok tok :: rest))
    (source : Str) (items : List (Item n)) (hw : ItemsWF source items) (p : Parser n)
    (hp : Reached ext source items p) :
    ∃ r p' fuel, ∀ fuel' ≥ fuel, p.parse ext S fuel' root = .ok r p' := by
  obtain ⟨r, f1, h1⟩ := C33_schema_total S root
  obtain ⟨G, hG⟩ := C33_schema_grammar S root
  cases r with
  | error e => exact ⟨.error e, p, f1, fun f hf => (C48_grammar_error ..).2 ⟨h1 f hf, rfl⟩⟩
  | ok md =>
    obtain ⟨r, p', f2, h2⟩ := C38_produce_partial ext S f1 root md G (h1 f1 (Nat.le_refl _)) hG
      (hleft G hG) (hneeds G hG) (henum G hG) source items hw p hp
    have key : ∀ f ≥ max f1 f2, p.parse ext S f root =
        p.parse ext S (max f1 f2) root := by
      intro f hf
      unfold Parser.parse Parser.parseWithMeta
      rw [h1 f (by omega), h1 (max f1 f2) (by omega)]
      simp only [produce_more h2 (show f2 ≤ f by omega), produce_more h2 (show f2 ≤ max f1 f2 by omega)]
    obtain ⟨x, q, h3⟩ := C48_defined ext S (max f1 f2) root p p' md r (h1 _ (by omega))
      (produce_more h2 (by omega))
    exact ⟨.ok x, q, max f1 f2, fun f hf => by rw [key f hf, h3]⟩

/-- Example of an accepted recursive schema: `E = num | L`, `L = word E* "x"`. -/
def txS : Schema 2 3 := fun k =>
  if k = 0 then .enum (.term 1 ⟨1, none⟩, none) [(.user 1, none)]
  else .struct (.term 0 ⟨0, none⟩, none) [(.star (.user 0), none), (.term 2 ⟨2, some [120]⟩, none)]
def txT : Ty 2 3 := .loop (.user 0)
def txMd : Metadata (PId 2 3) 3 := okOf ⟨[], [], []⟩ (txS.metadata 40 txT)
def txG : Grammar (PId 2 3) 3 := (registerFrom txS.rule 40 txT.pid).getD []

theorem txMd_ok : txS.metadata 40 txT = some (.ok txMd) := rfl
theorem txG_ok : txS.IsGrammar txT txG := .of_register (fuel := 40) rfl

/-- The example meets the conditions, so it terminates on every input. -/
example (source : Str) (items : List (Item 3)) (hw : ItemsWF source items) :
    ∃ r p', Yields exExt txS txMd txT (Parser.new source items) r p' := by
  refine C38_productive_partial exExt txS 40 txT txMd txG txMd_ok txG_ok
    (productive_of_check txG_ok 10 (by decide +kernel)) ?_ source items hw _ .new
  intro k v vs hk hn
  have h := (metadata_first txMd_ok txG_ok (.user k) none).2 hn
  have hno : ∀ k : Fin 2, (txMd.first.get (.user k)).contains none = false := by decide +kernel
  rw [hno k] at h
  cases h

/-- The condition about enums can be checked by their places: they are never an alternative, and never leftmost
in a sequence. -/
theorem enums_of_place {G : Grammar (PId m n) n} {k : Fin m}
    (hp : ∀ i j, LStep G i j → j ≠ .user k) (i : PId m n) (tok : TokenSrc n) (rest) :
    ¬ Derives G [.nt i] (.nt (.user k) :: .tok tok :: rest) := by
  intro hd
  have hsteps : ∀ i j, LSteps G i j → j = .user k → i = .user k := by
    intro i j h
    induction h with
    | refl => exact id
    | head s _ ih => intro hj; exact absurd (ih hj) (hp _ _ s)
  obtain ⟨pre, j, post, h1, h2, h3⟩ := leftmost_origin hd _ _ rfl
  have hij : i = .user k := by
    cases pre with
    | nil => cases h1; exact hsteps _ _ h3 rfl
    | cons x pre => simp at h1
  subst hij
  generalize hσ : [Sym.nt (PId.user k)] = σ at hd
  cases hd with
  | refl => cases hσ
  | @step α β γ _ i e d =>
    cases α with
    | cons x α => simp at hσ
    | nil =>
      cases hσ
      obtain ⟨pre, j, post, h4, h5, h6⟩ := leftmost_origin d _ _ rfl
      have hj := hsteps _ _ h6 rfl
      simp only [List.nil_append, List.append_nil] at h4
      subst h4
      exact hp _ _ (LStep.of_expands e h5) hj

/-- Example with an enum that derives the empty sequence: `(word E)*` with `E = num? | Y`. -/
def tyS : Schema 1 4 := fun _ => .enum (.option (.term 1 ⟨1, none⟩), none) [(.term 3 ⟨3, none⟩, none)]
def tyT : Ty 1 4 := .star (.tup2 (.term 0 ⟨0, none⟩) (.user 0))
def tyMd : Metadata (PId 1 4) 4 := okOf ⟨[], [], []⟩ (tyS.metadata 60 tyT)
def tyG : Grammar (PId 1 4) 4 := (registerFrom tyS.rule 60 tyT.pid).getD []
theorem tyMd_ok : tyS.metadata 60 tyT = some (.ok tyMd) := rfl
theorem tyG_ok : tyS.IsGrammar tyT tyG := .of_register (fuel := 60) rfl

/-- The rule does not begin with `k`, as far as the check sees. -/
def notFirst (first : Tbl (PId m n) n) (k : PId m n) : Rule (PId m n) n → Bool
  | .alt l => !l.contains k
  | .seq (x :: xs) => !(x == k) && (!xs.contains k || !(first.get x).contains none)
  | _ => true

/-- No production begins with the enum. -/
theorem ty_enum (i j : PId 1 4) (h : LStep tyG i j) : j ≠ .user 0 := by
  rintro rfl
  have key : ∀ p ∈ tyG, notFirst tyMd.first (.user 0) p.2 = true := by decide +kernel
  cases h with
  | alt hm hj => simpa [notFirst, hj] using key _ hm
  | @seq pre _ post hm hn =>
    have := key _ hm
    cases pre with
    | nil => simp [notFirst] at this
    | cons x pre =>
      simp [notFirst, (metadata_first tyMd_ok tyG_ok x none).2 (hn x (by simp)).nullable] at this

example (source : Str) (items : List (Item 4)) (hw : ItemsWF source items) :
    ∃ r p', Yields (fun _ => false) tyS tyMd tyT (Parser.new source items) r p' := by
  refine C38_productive_partial _ tyS 60 tyT tyMd tyG tyMd_ok tyG_ok
    (productive_of_check tyG_ok 10 (by decide +kernel)) ?_ source items hw _ .new
  intro k v vs _ _ i tok rest _
  obtain rfl : k = 0 := by omega
  exact enums_of_place ty_enum i tok rest

/-- Example of a grammar that is not productive but meets the conditions: `B = (word B) | (num B)`. -/
def tzS : Schema 1 3 := fun _ =>
  .enum (.tup2 (.term 0 ⟨0, none⟩) (.user 0), none) [(.tup2 (.term 1 ⟨1, none⟩) (.user 0), none)]
def tzMd : Metadata (PId 1 3) 3 := okOf ⟨[], [], []⟩ (tzS.metadata 60 (.user 0))
def tzG : Grammar (PId 1 3) 3 := (registerFrom tzS.rule 60 (.user 0)).getD []
theorem tzMd_ok : tzS.metadata 60 (.user 0) = some (.ok tzMd) := rfl
theorem tzG_ok : tzS.IsGrammar (.user 0) tzG := .of_register (fuel := 60) rfl

/-- In a grammar without empty rules nothing derives the empty sequence. -/
theorem no_null {G : Grammar (PId m n) n} (h1 : ∀ p ∈ G, p.2 ≠ .eps ∧ p.2 ≠ .seq []) (i : PId m n) : ¬ Null G i := by
  intro h
  induction h with
  | eps hm => exact (h1 _ hm).1 rfl
  | alt hm _ _ ih => exact ih
  | @seq i l hm _ ih =>
    cases l with
    | nil => exact (h1 _ hm).2 rfl
    | cons x l => exact ih x (by simp)

/-- The leftmost parts have a lower number. -/
def leftLower (f : PId m n → Nat) (p : PId m n × Rule (PId m n) n) : Bool :=
  match p.2 with
  | .alt l => l.all fun j => f j < f p.1
  | .seq (j :: _) => f j < f p.1
  | _ => true

/-- The parts of a sequence have a lower number. -/
def seqLower (f : PId m n → Nat) (p : PId m n × Rule (PId m n) n) : Bool :=
  match p.2 with
  | .seq l => l.all fun j => f j < f p.1
  | _ => true

theorem left_of_lower {G : Grammar (PId m n) n} (h0 : ∀ p ∈ G, p.2 ≠ .eps ∧ p.2 ≠ .seq []) {f : PId m n → Nat}
    (h1 : ∀ p ∈ G, leftLower f p = true) (i : PId m n) : ¬ LeftDerives G i i := by
  have step : ∀ i j, LStep G i j → f j < f i := by
    intro i j h
    cases h with
    | alt hm hj => simpa using List.all_eq_true.1 (h1 _ hm) _ hj
    | @seq pre _ post hm hn =>
      cases pre with
      | nil => simpa [leftLower] using h1 _ hm
      | cons x pre => exact absurd (hn x (by simp)) (no_null h0 x)
  have steps : ∀ i j, LSteps G i j → f j ≤ f i := by
    intro i j h
    induction h with
    | refl => exact Nat.le_refl _
    | head s _ ih => have := step _ _ s; omega
  intro h
  obtain ⟨k, h2, h3⟩ := h.lsteps
  have h4 := step _ _ h2
  have h5 := steps _ _ h3
  omega

theorem needs_of_lower {G : Grammar (PId m n) n} {f : PId m n → Nat} (h1 : ∀ p ∈ G, seqLower f p = true)
    (i : PId m n) : ¬ Needs G i i := by
  have key : ∀ i j, Needs G i j → f j < f i := by
    intro i j h
    induction h with
    | part hm hj => simpa using List.all_eq_true.1 (h1 _ hm) _ hj
    | trans _ _ ih1 ih2 => omega
  intro h
  exact absurd (key i i h) (Nat.lt_irrefl _)

example (source : Str) (items : List (Item 3)) (hw : ItemsWF source items) :
    ∃ r p', Yields exExt tzS tzMd (.user 0) (Parser.new source items) r p' := by
  have h0 : ∀ p ∈ tzG, p.2 ≠ .eps ∧ p.2 ≠ .seq [] := by decide +kernel
  refine C38_produce_partial exExt tzS 60 (.user 0) tzMd tzG tzMd_ok tzG_ok
    (fun i _ => left_of_lower h0 (f := fun | .user _ => 2 | .tup2 _ _ => 1 | _ => 0) (by decide +kernel) i)
    (fun i _ => needs_of_lower (f := fun | .tup2 _ _ => 1 | _ => 0) (by decide +kernel) i)
    (fun _ _ _ _ hn => absurd (nullable_iff.1 hn) (no_null h0 _)) source items hw _ .new

theorem bind_fuel {σ α β : Type} {x : M σ α} {f : α → M σ β} {s : σ} (h : x s = .fuel) :
    (x >>= f) s = .fuel := by
  show M.bind x f s = .fuel
  unfold M.bind
  rw [h]

/-- The claim is false for unproductive types: the struct `A = A word` is accepted and never returns,
whatever the input. (The compiler refuses this struct, see C128; `C38_false_needs` and `C38_false_enum` are about
programs that it takes.) -/
def uxS : Schema 1 3 := fun _ => .struct (.user 0, none) [(.term 0 ⟨0, none⟩, none)]
def uxMd : Metadata (PId 1 3) 3 := okOf ⟨[], [], []⟩ (uxS.metadata 40 (.user 0))

theorem C38_false : uxS.metadata 40 (.user 0) = some (.ok uxMd) ∧
    ∀ fuel p, produce (Parser.ops exExt) uxS uxMd fuel (.user 0) p = .fuel := by
  refine ⟨rfl, fun fuel => ?_⟩
  induction fuel with
  | zero => intro p; rfl
  | succ fuel ih =>
    intro p
    exact bind_fuel (x := seqLoop _ [] []) (bind_fuel (x := produce _ _ _ fuel (.user 0)) (ih p))

/-- It is false for types that need themselves even if they are not left recursive: with `A = "x" A` and the root
`(A, "x", num)`, on a number. The missing `x` is put in because a number can follow an `x`, again and again. -/
def ndxS : Schema 1 3 := fun _ => .struct (.term 2 ⟨2, some [120]⟩, none) [(.user 0, none)]
def ndxT : Ty 1 3 := .tup3 (.user 0) (.term 2 ⟨2, some [120]⟩) (.term 1 ⟨1, none⟩)
def ndxMd : Metadata (PId 1 3) 3 := okOf ⟨[], [], []⟩ (ndxS.metadata 60 ndxT)
def ndxG : Grammar (PId 1 3) 3 := (registerFrom ndxS.rule 60 ndxT.pid).getD []
def ndxP : Parser 3 := Parser.new [49] [.token ⟨⟨0, 1⟩, 1⟩]
def ndxV : View 3 := ndxP.view fun _ => false

theorem ndxG_ok : ndxS.IsGrammar ndxT ndxG := .of_register (fuel := 60) rfl

theorem ndx_loop : ∀ fuel, produce View.ops ndxS ndxMd fuel (.user 0) ndxV = .fuel := by
  intro fuel
  induction fuel with
  | zero => rfl
  | succ fuel ih =>
    cases fuel with
    | zero => rfl
    | succ fuel =>
      refine bind_fuel (x := seqLoop _ [] []) ?_
      exact bind_fuel (x := produce _ _ _ (fuel + 1) (.user 0)) ih

theorem C38_false_needs : ndxS.metadata 60 ndxT = some (.ok ndxMd) ∧ ndxS.IsGrammar ndxT ndxG ∧
    (∀ i, Reachable ndxG ndxT.pid i → ¬ LeftDerives ndxG i i) ∧ ItemsWF [49] [.token (⟨⟨0, 1⟩, 1⟩ : Token 3)] ∧
    ∀ fuel, produce (Parser.ops fun _ => false) ndxS ndxMd fuel ndxT ndxP = .fuel := by
  refine ⟨rfl, ndxG_ok, fun i _ => left_of_lower (by decide +kernel)
    (f := fun | .tup3 _ _ _ => 2 | .user _ => 1 | _ => 0) (by decide +kernel) i, ?_, fun fuel => ?_⟩
  · unfold ItemsWF; decide
  have key : produce View.ops ndxS ndxMd fuel ndxT ndxV = .fuel := by
    cases fuel with
    | zero => rfl
    | succ fuel => exact bind_fuel (x := seqLoop _ [] []) (bind_fuel (x := produce _ _ _ fuel (.user 0)) (ndx_loop fuel))
  have hv : produce View.ops ndxS ndxMd fuel ndxT ndxV = _ :=
    produce_view (fun _ => false) ndxS ndxMd fuel ndxT ndxP
  rw [key] at hv
  cases hp : produce (Parser.ops fun _ => false) ndxS ndxMd fuel ndxT ndxP with
  | fuel => rfl
  | crash => rw [hp] at hv; cases hv
  | ok r p => rw [hp] at hv; cases hv

/-- It is also false for enums that derive the empty sequence, even if everything is productive:
`Plus<(Option<(E, word)>, "x")>` with `E = num? | Y`, on a word. The word can begin the pair but the enum
fails on it without consuming anything, then the missing `x` is skipped because the word can follow it. -/
def vxS : Schema 1 4 := fun _ => .enum (.option (.term 1 ⟨1, none⟩), none) [(.term 3 ⟨3, none⟩, none)]
def vxE : Ty 1 4 := .tup2 (.option (.tup2 (.user 0) (.term 0 ⟨0, none⟩))) (.term 2 ⟨2, some [120]⟩)
def vxT : Ty 1 4 := .plus vxE
def vxMd : Metadata (PId 1 4) 4 := okOf ⟨[], [], []⟩ (vxS.metadata 60 vxT)
def vxG : Grammar (PId 1 4) 4 := (registerFrom vxS.rule 60 vxT.pid).getD []
def vxP : Parser 4 := Parser.new [97] [.token ⟨⟨0, 1⟩, 0⟩]
def vxV : View 4 := vxP.view fun _ => false

theorem vxG_ok : vxS.IsGrammar vxT vxG := .of_register (fuel := 60) rfl

/-- The pair recovers and stays where it is. -/
theorem vx_elem (fuel : Nat) : produce View.ops vxS vxMd fuel vxE vxV = .fuel ∨
    ∃ x e, produce View.ops vxS vxMd fuel vxE vxV = .ok (.recovered x e) vxV := by
  have h20 : ∃ x e, produce View.ops vxS vxMd 20 vxE vxV = .ok (.recovered x e) vxV := ⟨_, _, rfl⟩
  by_cases h : produce View.ops vxS vxMd fuel vxE vxV = .fuel
  · exact .inl h
  · obtain ⟨x, e, h20⟩ := h20
    refine .inr ⟨x, e, ?_⟩
    rw [← produce_mono View.ops vxS vxMd (Nat.le_max_left fuel 20) vxE vxV h]
    exact produce_more h20 (Nat.le_max_right _ _)

theorem vx_iter (fuel : Nat) : ∀ k acc errs hi, iterLoop View.ops (vxMd.first.get vxT.pid)
    (produce View.ops vxS vxMd fuel vxE) k acc errs hi vxV = .fuel := by
  intro k
  induction k with
  | zero => intro acc errs hi; rfl
  | succ k ih =>
    intro acc errs hi
    unfold iterLoop
    show M.bind _ _ _ = _
    unfold M.bind
    rw [show (View.ops (n := 4)).mPeekSrc vxV = .ok (some ⟨0, [97]⟩) vxV from rfl]
    simp only
    rw [show (vxMd.first.get vxT.pid).contains (some ⟨0, [97]⟩) = true from by decide +kernel]
    simp only [Option.isSome_some, Bool.and_self, if_true]
    show M.bind _ _ _ = _
    unfold M.bind
    rcases vx_elem fuel with h | ⟨x, e, h⟩
    · rw [h]
    · rw [h]; exact ih _ _ _

theorem C38_false_enum : vxS.metadata 60 vxT = some (.ok vxMd) ∧
    (∀ i, Reachable vxG vxT.pid i → Productive vxG i) ∧
    ∀ fuel, produce (Parser.ops fun _ => false) vxS vxMd fuel vxT vxP = .fuel := by
  refine ⟨by rfl, productive_of_check vxG_ok 10 (by decide +kernel), fun fuel => ?_⟩
  have key : produce View.ops vxS vxMd fuel vxT vxV = .fuel := by
    cases fuel with
    | zero => rfl
    | succ fuel =>
      show producePlus _ _ _ _ vxV = .fuel
      unfold producePlus
      show M.bind _ _ _ = _
      unfold M.bind
      rcases vx_elem fuel with h | ⟨x, e, h⟩
      · rw [h]
      · rw [h]
        show M.bind _ _ _ = _
        unfold M.bind
        rw [show Ty.pid (Ty.plus vxE) = vxT.pid from rfl, vx_iter]
  have hv : produce View.ops vxS vxMd fuel vxT vxV = _ :=
    produce_view (fun _ => false) vxS vxMd fuel vxT vxP
  rw [key] at hv
  cases hp : produce (Parser.ops fun _ => false) vxS vxMd fuel vxT vxP with
  | fuel => rfl
  | crash => rw [hp] at hv; cases hv
  | ok r p => rw [hp] at hv; cases hv

end Teleparse

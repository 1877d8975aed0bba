import Verif.Proof.RelabelParser
import Verif.Props.Growth
/-
Property C95: names, numbers and the order of declarations do not matter.
-/
namespace Teleparse
variable {m n m' n' : Nat}

/-! ## C95: names and order of declarations -/

/-- A program is accepted if and only if it is accepted under other names and with the variants in another order. -/
theorem C95_accepted (S : Schema m n) (S' : Schema m' n') (r : Relabel m n m' n') (h : Relabelled S S' r) (root : Ty m n) :
    (∃ fuel md, S.metadata fuel root = some (.ok md)) ↔ ∃ fuel md', S'.metadata fuel (root.relabel r) = some (.ok md') := by
  constructor
  · rintro ⟨fuel, md, hm⟩
    obtain ⟨u, f, hu⟩ := C33_schema_total S' (root.relabel r)
    obtain ⟨md', rfl⟩ := h.accepts hm (hu f (Nat.le_refl _))
    exact ⟨f, md', hu f (Nat.le_refl _)⟩
  · rintro ⟨fuel, md', hm⟩
    obtain ⟨u, f, hu⟩ := C33_schema_total S root
    obtain ⟨md, rfl⟩ := h.accepted hm (hu f (Nat.le_refl _))
    exact ⟨f, md, hu f (Nat.le_refl _)⟩

/-- The FIRST sets are the same. -/
theorem C95_first (S : Schema m n) (S' : Schema m' n') (r : Relabel m n m' n') (h : Relabelled S S' r) (root : Ty m n)
    (fuel fuel' : Nat) (md : Metadata (PId m n) n) (md' : Metadata (PId m' n') n')
    (h1 : S.metadata fuel root = some (.ok md)) (h2 : S'.metadata fuel' (root.relabel r) = some (.ok md')) (t : Ty m n) :
    SetAs r.tok (md.first.get t.pid) (md'.first.get (t.relabel r).pid) := by
  rw [Ty.pid_relabel]
  exact h.first h1 h2 _

/-- The FOLLOW sets are the same. -/
theorem C95_follow (S : Schema m n) (S' : Schema m' n') (r : Relabel m n m' n') (h : Relabelled S S' r) (root : Ty m n)
    (fuel fuel' : Nat) (md : Metadata (PId m n) n) (md' : Metadata (PId m' n') n')
    (h1 : S.metadata fuel root = some (.ok md)) (h2 : S'.metadata fuel' (root.relabel r) = some (.ok md')) (t : Ty m n) :
    SetAs r.tok (md.follow.get t.pid) (md'.follow.get (t.relabel r).pid) := by
  rw [Ty.pid_relabel]
  exact h.follow h1 h2 _

/-- The table of an enum selects the same variant. -/
theorem C95_jump (S : Schema m n) (S' : Schema m' n') (r : Relabel m n m' n') (h : Relabelled S S' r) (root : Ty m n)
    (fuel fuel' : Nat) (md : Metadata (PId m n) n) (md' : Metadata (PId m' n') n')
    (h1 : S.metadata fuel root = some (.ok md)) (h2 : S'.metadata fuel' (root.relabel r) = some (.ok md')) (k : Fin m)
    (v : Field m n) (vs : List (Field m n)) (hk : S k = .enum v vs) (hr : Reach S.tyParts root (.user k))
    (x : Option (TokenSrc n)) :
    md'.jump.lookUp (.user (r.ty k)) (x.map (TokenSrc.retok r.tok)) = (md.jump.lookUp (.user k) x).map (r.variant k) :=
  (h.jump h1 h2 hk (reach_pid hr) x).1

/-- Parsing does the same: on the same parser it has the same outcome, with the same tree or none, the same errors, the
same tokens with the same semantic types. If the grammar is rejected it is rejected in both; which conflict is reported
can differ. -/
theorem C95_parse (S : Schema m n) (S' : Schema m' n') (r : Relabel m n m' n') (h : Relabelled S S' r)
    (ext : Fin n → Bool) (ext' : Fin n' → Bool) (hext : ∀ t, ext' (r.tok t) = ext t) (root : Ty m n)
    (p : Parser n) (p' : Parser n') (hp : ParserAs r.tok p p') :
    ∃ N, ∀ f ≥ N, OutAs S r root (p.parse ext S f root) (p'.parse ext' S' f (root.relabel r)) := by
  obtain ⟨u, f, hu⟩ := C33_schema_total S root
  obtain ⟨u', f', hu'⟩ := C33_schema_total S' (root.relabel r)
  refine ⟨f + f', fun g hg => ?_⟩
  unfold Parser.parse
  rw [hu g (by omega), hu' g (by omega)]
  cases u with
  | error e =>
    cases u' with
    | error e' => exact .rejected hp
    | ok md' =>
      obtain ⟨md, hm⟩ := h.accepted (hu' f' (Nat.le_refl _)) (hu f (Nat.le_refl _))
      cases hm
  | ok md =>
    obtain ⟨md', rfl⟩ := h.accepts (hu f (Nat.le_refl _)) (hu' f' (Nat.le_refl _))
    have := parseWithMeta_relabel h hext (hu f (Nat.le_refl _)) (hu' f' (Nat.le_refl _)) g hp
    dsimp only
    generalize p.parseWithMeta ext S md g root = a at this
    generalize p'.parseWithMeta ext' S' md' g (root.relabel r) = b at this
    cases this with
    | fuel => exact .fuel
    | crash => exact .crash
    | ok hx hs =>
      subst hx
      exact .parsed hs

/-- The same for `Root::parse`, with the same scanner under other names. -/
theorem C95_root (S : Schema m n) (S' : Schema m' n') (r : Relabel m n m' n') (h : Relabelled S S' r)
    (ext : Fin n → Bool) (ext' : Fin n' → Bool) (hext : ∀ t, ext' (r.tok t) = ext t) (root : Ty m n) (source : Str)
    (items : List (Item n)) :
    ∃ N, ∀ f ≥ N, OutAs S r root (rootParse ext S f root source items)
      (rootParse ext' S' f (root.relabel r) source (items.map (Item.retok r.tok))) :=
  C95_parse S S' r h ext ext' hext root _ _ ⟨rfl, rfl, rfl, .nil, rfl, .nil, rfl, rfl, rfl⟩

/-! ### Examples -/

/-- `cxS` with the types and the variants of `E` in the other order, one more type in front, token types numbered
backwards with a new one in front, and other numbers for terminals. -/
def rlS : Schema 3 4 := fun k =>
  if k = 2 then .enum (.user 1, none) [(.term 8 ⟨2, none⟩, none)]
  else if k = 1 then
    .struct (.term 7 ⟨3, none⟩, some (LSet.new.insert 1)) [(.star (.user 2), none), (.term 9 ⟨1, some [120]⟩, none)]
  else .struct (.term 0 ⟨0, none⟩, none) []
def rlR : Relabel 2 3 3 4 where
  ty k := ⟨2 - k.1, by omega⟩
  tok t := ⟨3 - t.1, by omega⟩
  term k := k + 7
  variant _ i := if i = 0 then 1 else if i = 1 then 0 else i

theorem rl_relabelled : Relabelled cxS rlS rlR where
  tys := by decide
  toks := by decide
  terms := fun k k' h => Nat.add_right_cancel h
  structs := by
    intro k f fs h
    match k with
    | 0 => cases h
    | 1 =>
      cases h
      exact ⟨_, _, rfl, .cons ⟨rfl, .some ⟨by decide, by decide⟩⟩ (.cons ⟨rfl, .none⟩ (.cons ⟨rfl, .none⟩ .nil))⟩
  enums := by
    intro k v vs h
    match k with
    | 1 => cases h
    | 0 =>
      cases h
      refine ⟨_, _, rfl, ?_, ?_, ?_⟩
      · intro i f hi
        match i with
        | 0 => cases hi; exact ⟨_, rfl, rfl, .none⟩
        | 1 => cases hi; exact ⟨_, rfl, rfl, .none⟩
        | i + 2 => simp at hi
      · intro i j _ _ h
        simp only [rlR] at h
        repeat' split at h
        all_goals omega
      · intro j hj
        match j with
        | 0 => exact ⟨1, by decide, rfl⟩
        | 1 => exact ⟨0, by decide, rfl⟩
        | j + 2 => simp at hj; omega

example : cxT.relabel rlR = .loop (.user 2) := rfl
/-- The tree of `a 1 2 x 3`. -/
example : cxTree.relabel cxS rlR cxT = .list ⟨0, 9⟩ [.variant 0 (.seq ⟨0, 7⟩ [.tok ⟨⟨0, 1⟩, 3⟩,
  .list ⟨2, 5⟩ [.variant 1 (.tok ⟨⟨2, 3⟩, 2⟩), .variant 1 (.tok ⟨⟨4, 5⟩, 2⟩)], .tok ⟨⟨6, 7⟩, 1⟩]),
  .variant 1 (.tok ⟨⟨8, 9⟩, 2⟩)] := by rfl
example : ∃ N, ∀ f ≥ N, OutAs cxS rlR cxT (rootParse noExt cxS f cxT cxSource cxItems)
    (rootParse noExt rlS f (.loop (.user 2)) cxSource (cxItems.map (Item.retok rlR.tok))) :=
  C95_root cxS rlS rlR rl_relabelled noExt noExt (fun _ => rfl) cxT cxSource cxItems
/-- What `OutAs` says is not only that both fail. -/
example : ∃ p, rootParse noExt cxS 40 cxT cxSource cxItems = .ok (.ok (some cxTree)) p := ⟨_, by rfl⟩
/-- With an error: the `x` at the end is missing. -/
def rlItems : List (Item 3) := [.token ⟨⟨0, 1⟩, 0⟩, .token ⟨⟨2, 3⟩, 1⟩, .error ⟨4, 5⟩, .token ⟨⟨6, 7⟩, 0⟩]
example : summary noExt (rootParse noExt cxS 40 cxT cxSource rlItems) = some (true, 3, 0) ∧
    summary noExt (rootParse noExt rlS 40 (.loop (.user 2)) cxSource (rlItems.map (Item.retok rlR.tok))) = some (true, 3, 0) := by
  exact ⟨by rfl, by rfl⟩
example : (∃ fuel md, cxS.metadata fuel cxT = some (.ok md)) ↔ ∃ fuel md', rlS.metadata fuel (cxT.relabel rlR) = some (.ok md') :=
  C95_accepted cxS rlS rlR rl_relabelled cxT
def rlMd : Metadata (PId 3 4) 4 := okOf ⟨[], [], []⟩ (rlS.metadata 60 (.loop (.user 2)))
theorem rlMd_ok : rlS.metadata 60 (cxT.relabel rlR) = some (.ok rlMd) := rfl
example : SetAs rlR.tok (cxMd.first.get (.user 0)) (rlMd.first.get (.user 2)) :=
  C95_first cxS rlS rlR rl_relabelled cxT 40 60 cxMd rlMd cxMd_ok rlMd_ok (.user 0)
example : (cxMd.first.get (.user 0)).contains (some ⟨1, [49]⟩) = true ∧
    (rlMd.first.get (.user 2)).contains (some ⟨2, [49]⟩) = true := by decide +kernel
example : SetAs rlR.tok (cxMd.follow.get (.user 0)) (rlMd.follow.get (.user 2)) :=
  C95_follow cxS rlS rlR rl_relabelled cxT 40 60 cxMd rlMd cxMd_ok rlMd_ok (.user 0)
/-- A number starts the first variant before and the second after. -/
example : cxMd.jump.lookUp (.user 0) (some ⟨1, [49]⟩) = some 0 ∧ rlMd.jump.lookUp (.user 2) (some ⟨2, [49]⟩) = some 1 := by
  decide +kernel

/-! ### What can differ -/

/-- `enum E = A | A | B | B` with the variants in order and as `B | B | A | A`. -/
def rmS : Schema 1 2 := fun _ => .enum (.term 0 ⟨0, none⟩, none)
  [(.term 1 ⟨0, none⟩, none), (.term 2 ⟨1, none⟩, none), (.term 3 ⟨1, none⟩, none)]
def rmS' : Schema 1 2 := fun _ => .enum (.term 2 ⟨1, none⟩, none)
  [(.term 3 ⟨1, none⟩, none), (.term 0 ⟨0, none⟩, none), (.term 1 ⟨0, none⟩, none)]
def rmR : Relabel 1 2 1 2 := ⟨id, id, id, fun _ i => if i < 2 then i + 2 else i - 2⟩

/-- Both are rejected, and not for the same variants. -/
theorem C95_conflict_false : Relabelled rmS rmS' rmR ∧
    rmS.metadata 60 (.user 0) = some (.error (.firstFirst (.user 0) (.term 0 ⟨0, none⟩) (.term 1 ⟨0, none⟩))) ∧
    rmS'.metadata 60 ((Ty.user 0).relabel rmR) =
      some (.error (.firstFirst (.user 0) (.term 2 ⟨1, none⟩) (.term 3 ⟨1, none⟩))) := by
  refine ⟨⟨fun _ _ h => h, fun _ _ h => h, fun _ _ h => h, fun k f fs h => (by cases h), ?_⟩, by rfl, by rfl⟩
  intro k v vs h
  cases h
  refine ⟨_, _, rfl, ?_, ?_, ?_⟩
  · intro i f hi
    match i with
    | 0 => cases hi; exact ⟨_, rfl, rfl, .none⟩
    | 1 => cases hi; exact ⟨_, rfl, rfl, .none⟩
    | 2 => cases hi; exact ⟨_, rfl, rfl, .none⟩
    | 3 => cases hi; exact ⟨_, rfl, rfl, .none⟩
    | i + 4 => simp at hi
  · intro i j hi hj h
    simp only [rmR] at h
    simp only [List.length_cons, List.length_nil] at hi hj
    repeat' split at h
    all_goals omega
  · intro j hj
    match j with
    | 0 => exact ⟨2, by decide, rfl⟩
    | 1 => exact ⟨3, by decide, rfl⟩
    | 2 => exact ⟨0, by decide, rfl⟩
    | 3 => exact ⟨1, by decide, rfl⟩
    | j + 4 => simp at hj; omega

end Teleparse

import Verif.Spec.Infer
import Verif.Proof.LeftCycle
import Verif.Proof.Ends
import Verif.Proof.Depth
/-
In a program whose lexicons are found, every type can begin with a token, so left recursion is a conflict.
-/
namespace Teleparse
variable {m n : Nat} {S : Schema m n}

/-- The search that begins here ends. -/
inductive Resolves (S : Schema m n) : PId m n → Prop
  | intro {p} : (∀ q ∈ S.asks p, Resolves S q) → Resolves S p

theorem Resolves.sub {p q : PId m n} (h : Resolves S p) (hq : q ∈ S.asks p) : Resolves S q := by
  cases h with | intro h => exact h q hq

theorem Resolves.not_self {p : PId m n} (h : Resolves S p) : ¬ AsksFor S p p := by
  have key : ∀ p q, AsksFor S p q → ∃ r, r ∈ S.asks p ∧ (r = q ∨ AsksFor S r q) := by
    intro p q h
    induction h with
    | one h => exact ⟨_, h, .inl rfl⟩
    | trans h1 h2 ih1 _ =>
      obtain ⟨r, h3, rfl | h4⟩ := ih1
      · exact ⟨_, h3, .inr h2⟩
      · exact ⟨r, h3, .inr (.trans h4 h2)⟩
  induction h with
  | @intro p _ ih =>
    intro hs
    obtain ⟨r, h1, rfl | h2⟩ := key _ _ hs
    · exact ih _ h1 hs
    · exact ih r h1 (.trans h2 (.one h1))

theorem resolves_of_within : ∀ fuel (p : PId m n), S.infersWithin fuel p = true → Resolves S p := by
  intro fuel
  induction fuel with
  | zero => intro p h; cases h
  | succ fuel ih =>
    intro p h
    exact .intro fun q hq => ih q (List.all_eq_true.1 h q hq)

theorem resolves_struct (h : ∀ k : Fin m, Resolves S (.user k)) : ∀ p : PId m n, Resolves S p := by
  intro p
  induction p with
  | term => exact .intro (by simp [Schema.asks])
  | eps => exact .intro (by simp [Schema.asks])
  | user k => exact h k
  | opt p ih => exact .intro (by simpa [Schema.asks] using ih)
  | plus p ih => exact .intro (by simpa [Schema.asks] using ih)
  | punct t p ih1 ih2 => exact .intro (by simpa [Schema.asks] using ⟨ih1, ih2⟩)
  | box p ih => exact .intro (by simpa [Schema.asks] using ih)
  | tup2 a b h1 h2 => exact .intro (by simpa [Schema.asks] using ⟨h1, h2⟩)
  | tup3 a b c h1 h2 h3 => exact .intro (by simpa [Schema.asks] using ⟨h1, h2, h3⟩)
  | tup4 a b c d h1 h2 h3 h4 => exact .intro (by simpa [Schema.asks] using ⟨h1, h2, h3, h4⟩)
  | tup5 a b c d e h1 h2 h3 h4 h5 => exact .intro (by simpa [Schema.asks] using ⟨h1, h2, h3, h4, h5⟩)

/-- The user types met before the search has gone through another one. -/
def PId.users : PId m n → List (Fin m)
  | .term _ _ => []
  | .eps => []
  | .user k => [k]
  | .opt p | .plus p | .box p => p.users
  | .punct a b | .tup2 a b => a.users ++ b.users
  | .tup3 a b c => a.users ++ (b.users ++ c.users)
  | .tup4 a b c d => a.users ++ (b.users ++ (c.users ++ d.users))
  | .tup5 a b c d e => a.users ++ (b.users ++ (c.users ++ (d.users ++ e.users)))

theorem asks_user (p : PId m n) : ∀ k ∈ p.users, p = .user k ∨ AsksFor S p (.user k) := by
  induction p with
  | term => intro k h; simp [PId.users] at h
  | eps => intro k h; simp [PId.users] at h
  | user k => intro j h; simp [PId.users] at h; exact .inl (by rw [h])
  | opt p ih | plus p ih | box p ih =>
    intro k h
    refine .inr ?_
    rcases ih k h with rfl | h2
    · exact .one (by simp [Schema.asks])
    · exact .trans (.one (by simp [Schema.asks])) h2
  | punct a b h1 h2 | tup2 a b h1 h2 =>
    intro k h
    refine .inr ?_
    rcases List.mem_append.1 h with h | h
    · rcases h1 k h with rfl | h3
      · exact .one (by simp [Schema.asks])
      · exact .trans (.one (q := a) (by simp [Schema.asks])) h3
    · rcases h2 k h with rfl | h3
      · exact .one (by simp [Schema.asks])
      · exact .trans (.one (q := b) (by simp [Schema.asks])) h3
  | tup3 a b c h1 h2 h3 =>
    intro k h
    refine .inr ?_
    simp only [PId.users, List.mem_append] at h
    rcases h with h | h | h
    · rcases h1 k h with rfl | h3
      · exact .one (by simp [Schema.asks])
      · exact .trans (.one (q := a) (by simp [Schema.asks])) h3
    · rcases h2 k h with rfl | h3
      · exact .one (by simp [Schema.asks])
      · exact .trans (.one (q := b) (by simp [Schema.asks])) h3
    · rcases h3 k h with rfl | h3
      · exact .one (by simp [Schema.asks])
      · exact .trans (.one (q := c) (by simp [Schema.asks])) h3
  | tup4 a b c d h1 h2 h3 h4 =>
    intro k h
    refine .inr ?_
    simp only [PId.users, List.mem_append] at h
    rcases h with h | h | h | h
    · rcases h1 k h with rfl | h3
      · exact .one (by simp [Schema.asks])
      · exact .trans (.one (q := a) (by simp [Schema.asks])) h3
    · rcases h2 k h with rfl | h3
      · exact .one (by simp [Schema.asks])
      · exact .trans (.one (q := b) (by simp [Schema.asks])) h3
    · rcases h3 k h with rfl | h3
      · exact .one (by simp [Schema.asks])
      · exact .trans (.one (q := c) (by simp [Schema.asks])) h3
    · rcases h4 k h with rfl | h3
      · exact .one (by simp [Schema.asks])
      · exact .trans (.one (q := d) (by simp [Schema.asks])) h3
  | tup5 a b c d e h1 h2 h3 h4 h5 =>
    intro k h
    refine .inr ?_
    simp only [PId.users, List.mem_append] at h
    rcases h with h | h | h | h | h
    · rcases h1 k h with rfl | h3
      · exact .one (by simp [Schema.asks])
      · exact .trans (.one (q := a) (by simp [Schema.asks])) h3
    · rcases h2 k h with rfl | h3
      · exact .one (by simp [Schema.asks])
      · exact .trans (.one (q := b) (by simp [Schema.asks])) h3
    · rcases h3 k h with rfl | h3
      · exact .one (by simp [Schema.asks])
      · exact .trans (.one (q := c) (by simp [Schema.asks])) h3
    · rcases h4 k h with rfl | h3
      · exact .one (by simp [Schema.asks])
      · exact .trans (.one (q := d) (by simp [Schema.asks])) h3
    · rcases h5 k h with rfl | h3
      · exact .one (by simp [Schema.asks])
      · exact .trans (.one (q := e) (by simp [Schema.asks])) h3

theorem resolves_of_users {p : PId m n} (h : ∀ k ∈ p.users, Resolves S (.user k)) : Resolves S p := by
  induction p with
  | term => exact .intro (by simp [Schema.asks])
  | eps => exact .intro (by simp [Schema.asks])
  | user k => exact h k (by simp [PId.users])
  | opt p ih | plus p ih | box p ih => exact .intro (by simpa [Schema.asks] using ih h)
  | punct a b h1 h2 | tup2 a b h1 h2 =>
    simp only [PId.users, List.mem_append] at h
    exact .intro (by simpa [Schema.asks] using ⟨h1 fun k hk => h k (.inl hk), h2 fun k hk => h k (.inr hk)⟩)
  | tup3 a b c h1 h2 h3 =>
    simp only [PId.users, List.mem_append] at h
    exact .intro (by simpa [Schema.asks] using ⟨h1 fun k hk => h k (.inl hk), h2 fun k hk => h k (.inr (.inl hk)),
      h3 fun k hk => h k (.inr (.inr hk))⟩)
  | tup4 a b c d h1 h2 h3 h4 =>
    simp only [PId.users, List.mem_append] at h
    exact .intro (by simpa [Schema.asks] using ⟨h1 fun k hk => h k (.inl hk), h2 fun k hk => h k (.inr (.inl hk)),
      h3 fun k hk => h k (.inr (.inr (.inl hk))), h4 fun k hk => h k (.inr (.inr (.inr hk)))⟩)
  | tup5 a b c d e h1 h2 h3 h4 h5 =>
    simp only [PId.users, List.mem_append] at h
    exact .intro (by simpa [Schema.asks] using ⟨h1 fun k hk => h k (.inl hk), h2 fun k hk => h k (.inr (.inl hk)),
      h3 fun k hk => h k (.inr (.inr (.inl hk))), h4 fun k hk => h k (.inr (.inr (.inr (.inl hk)))),
      h5 fun k hk => h k (.inr (.inr (.inr (.inr hk))))⟩)

/-- What a user type asks first. -/
def Def.head : Def m n → PId m n
  | .struct f _ => f.1.prod
  | .enum v _ => v.1.prod

theorem asks_head (k : Fin m) : S.asks (.user k) = [(S k).head] := by
  simp only [Schema.asks, Def.head]
  cases S k <;> rfl

theorem resolves_of_infers (h : S.Infers) : ∀ k : Fin m, Resolves S (.user k) := by
  have key : ∀ d (k : Fin m) (seen : List (Fin m)), seen.length + d = m → seen.Nodup →
      (∀ s ∈ seen, AsksFor S (.user s) (.user k)) → Resolves S (.user k) := by
    intro d
    induction d with
    | zero =>
      intro k seen hl hn hs
      have hk : k ∉ seen := fun hk => h k (hs k hk)
      have h1 := Depth.nodup_length (l := k :: seen) (T := List.finRange m) (List.nodup_cons.2 ⟨hk, hn⟩)
        (fun a _ => List.mem_finRange a)
      simp at h1
      omega
    | succ d ih =>
      intro k seen hl hn hs
      refine .intro fun q hq => ?_
      rw [asks_head] at hq
      rw [List.mem_singleton.1 hq]
      refine resolves_of_users fun u hu => ?_
      have hku : AsksFor S (.user k) (.user u) := by
        have h1 : AsksFor S (.user k) (S k).head := .one (by rw [asks_head]; simp)
        rcases asks_user (S := S) _ u hu with h2 | h2
        · rw [h2] at h1; exact h1
        · exact .trans h1 h2
      refine ih u (k :: seen) (by simp; omega) (List.nodup_cons.2 ⟨fun hk => h k (hs k hk), hn⟩) ?_
      intro s hs'
      rcases List.mem_cons.1 hs' with rfl | hs'
      · exact hku
      · exact .trans (hs s hs') hku
  intro k
  exact key m k [] (by simp) .nil (by simp)

theorem infers_iff : S.Infers ↔ ∀ k : Fin m, Resolves S (.user k) :=
  ⟨resolves_of_infers, fun h k => (h k).not_self⟩

/-! ### Every type begins with a token -/

/-- `Epsilon` does not occur as an argument. -/
def PId.Proper : PId m n → Prop
  | .term _ _ => True
  | .eps => False
  | .user _ => True
  | .opt p | .plus p | .box p => p.Proper
  | .punct a b | .tup2 a b => a.Proper ∧ b.Proper
  | .tup3 a b c => a.Proper ∧ b.Proper ∧ c.Proper
  | .tup4 a b c d => a.Proper ∧ b.Proper ∧ c.Proper ∧ d.Proper
  | .tup5 a b c d e => a.Proper ∧ b.Proper ∧ c.Proper ∧ d.Proper ∧ e.Proper

theorem Ty.prod_proper (t : Ty m n) : t.prod.Proper := by
  induction t <;> simp_all [Ty.prod, PId.Proper]

theorem PId.Proper.id {p : PId m n} (h : p.Proper) : p.id.Proper := by
  induction p with
  | box p ih => exact ih h
  | _ => exact h

theorem Ty.pid_proper (t : Ty m n) : t.pid.Proper := t.prod_proper.id

theorem PId.id_id (p : PId m n) : p.id.id = p.id := by
  induction p with
  | box p ih => exact ih
  | _ => rfl

/-- The rule of a production begins with what it asks first. -/
theorem rule_head (S : Schema m n) (p : PId m n) (hp : p.Proper) : (∃ t, S.rule p.id = .term t) ∨ (∃ q, p = .box q ∧ q.Proper) ∨
    ∃ a l, a ∈ S.asks p ∧ a.Proper ∧ (S.rule p.id = .alt (a.id :: l) ∨ S.rule p.id = .seq (a.id :: l)) := by
  cases p with
  | term => exact .inl ⟨_, rfl⟩
  | eps => exact hp.elim
  | box q => exact .inr (.inl ⟨q, rfl, hp⟩)
  | user k =>
    refine .inr (.inr ?_)
    cases hk : S k with
    | struct f fs =>
      exact ⟨f.1.prod, fs.map fun f => f.1.pid, by simp [Schema.asks, hk], f.1.prod_proper,
        .inr (by simp [PId.id, Schema.rule, hk, Ty.pid])⟩
    | enum v vs =>
      exact ⟨v.1.prod, vs.map fun f => f.1.pid, by simp [Schema.asks, hk], v.1.prod_proper,
        .inl (by simp [PId.id, Schema.rule, hk, Ty.pid])⟩
  | opt p => exact .inr (.inr ⟨p, _, by simp [Schema.asks], hp, .inl rfl⟩)
  | plus p => exact .inr (.inr ⟨p, _, by simp [Schema.asks], hp, .inr rfl⟩)
  | punct a b => exact .inr (.inr ⟨a, _, by simp [Schema.asks], hp.1, .inr rfl⟩)
  | tup2 a b => exact .inr (.inr ⟨a, _, by simp [Schema.asks], hp.1, .inr rfl⟩)
  | tup3 a b c => exact .inr (.inr ⟨a, _, by simp [Schema.asks], hp.1, .inr rfl⟩)
  | tup4 a b c d => exact .inr (.inr ⟨a, _, by simp [Schema.asks], hp.1, .inr rfl⟩)
  | tup5 a b c d e => exact .inr (.inr ⟨a, _, by simp [Schema.asks], hp.1, .inr rfl⟩)

/-- The parts of a production are proper or the empty production. -/
theorem rule_proper (S : Schema m n) {p j : PId m n} (hp : p.Proper) (hj : j ∈ (S.rule p).parts) : j = .eps ∨ j.Proper := by
  induction p with
  | term => cases hj
  | eps => cases hj
  | user k =>
    unfold Schema.rule at hj
    cases hk : S k with
    | struct f fs =>
      simp only [hk, Rule.parts, List.mem_map] at hj
      obtain ⟨g, -, rfl⟩ := hj
      exact .inr g.1.pid_proper
    | enum f fs =>
      simp only [hk, Rule.parts, List.mem_map] at hj
      obtain ⟨g, -, rfl⟩ := hj
      exact .inr g.1.pid_proper
  | box p ih => exact ih hp hj
  | opt p =>
    simp only [Schema.rule, Rule.parts, List.mem_cons, List.not_mem_nil, or_false] at hj
    rcases hj with rfl | rfl
    · exact .inr (PId.Proper.id hp)
    · exact .inl rfl
  | plus p =>
    simp only [Schema.rule, Rule.parts, List.mem_cons, List.not_mem_nil, or_false] at hj
    rcases hj with rfl | rfl
    · exact .inr (PId.Proper.id hp)
    · exact .inr hp
  | punct a b =>
    simp only [Schema.rule, Rule.parts, List.mem_cons, List.not_mem_nil, or_false] at hj
    rcases hj with rfl | rfl
    · exact .inr hp.1.id
    · exact .inr ⟨hp.2, hp⟩
  | tup2 a b =>
    simp only [Schema.rule, Rule.parts, List.mem_cons, List.not_mem_nil, or_false] at hj
    rcases hj with rfl | rfl
    · exact .inr hp.1.id
    · exact .inr hp.2.id
  | tup3 a b c =>
    simp only [Schema.rule, Rule.parts, List.mem_cons, List.not_mem_nil, or_false] at hj
    rcases hj with rfl | rfl | rfl
    · exact .inr hp.1.id
    · exact .inr hp.2.1.id
    · exact .inr hp.2.2.id
  | tup4 a b c d =>
    simp only [Schema.rule, Rule.parts, List.mem_cons, List.not_mem_nil, or_false] at hj
    rcases hj with rfl | rfl | rfl | rfl
    · exact .inr hp.1.id
    · exact .inr hp.2.1.id
    · exact .inr hp.2.2.1.id
    · exact .inr hp.2.2.2.id
  | tup5 a b c d e =>
    simp only [Schema.rule, Rule.parts, List.mem_cons, List.not_mem_nil, or_false] at hj
    rcases hj with rfl | rfl | rfl | rfl | rfl
    · exact .inr hp.1.id
    · exact .inr hp.2.1.id
    · exact .inr hp.2.2.1.id
    · exact .inr hp.2.2.2.1.id
    · exact .inr hp.2.2.2.2.id

variable {root : Ty m n} {G : Grammar (PId m n) n}

theorem reachable_proper (hG : S.IsGrammar root G) {i : PId m n} (h : Reachable G root.pid i) : i = .eps ∨ i.Proper := by
  induction h with
  | refl => exact .inr root.pid_proper
  | step _ hp ih =>
    obtain ⟨r, h1, h2⟩ := hp
    obtain ⟨-, rfl⟩ := (hG.2 _ _).1 h1
    rcases ih with rfl | ih
    · cases h2
    · exact rule_proper S ih h2

theorem rule_id (S : Schema m n) {p j : PId m n} (hj : j ∈ (S.rule p).parts) : j.id = j := by
  induction p with
  | term => cases hj
  | eps => cases hj
  | user k =>
    unfold Schema.rule at hj
    cases hk : S k with
    | struct f fs =>
      simp only [hk, Rule.parts, List.mem_map] at hj
      obtain ⟨g, -, rfl⟩ := hj
      exact PId.id_id _
    | enum f fs =>
      simp only [hk, Rule.parts, List.mem_map] at hj
      obtain ⟨g, -, rfl⟩ := hj
      exact PId.id_id _
  | box p ih => exact ih hj
  | opt p =>
    simp only [Schema.rule, Rule.parts, List.mem_cons, List.not_mem_nil, or_false] at hj
    rcases hj with rfl | rfl
    · exact PId.id_id _
    · rfl
  | plus p =>
    simp only [Schema.rule, Rule.parts, List.mem_cons, List.not_mem_nil, or_false] at hj
    rcases hj with rfl | rfl
    · exact PId.id_id _
    · rfl
  | punct a b =>
    simp only [Schema.rule, Rule.parts, List.mem_cons, List.not_mem_nil, or_false] at hj
    rcases hj with rfl | rfl
    · exact PId.id_id _
    · rfl
  | tup2 a b =>
    simp only [Schema.rule, Rule.parts, List.mem_cons, List.not_mem_nil, or_false] at hj
    rcases hj with rfl | rfl <;> exact PId.id_id _
  | tup3 a b c =>
    simp only [Schema.rule, Rule.parts, List.mem_cons, List.not_mem_nil, or_false] at hj
    rcases hj with rfl | rfl | rfl <;> exact PId.id_id _
  | tup4 a b c d =>
    simp only [Schema.rule, Rule.parts, List.mem_cons, List.not_mem_nil, or_false] at hj
    rcases hj with rfl | rfl | rfl | rfl <;> exact PId.id_id _
  | tup5 a b c d e =>
    simp only [Schema.rule, Rule.parts, List.mem_cons, List.not_mem_nil, or_false] at hj
    rcases hj with rfl | rfl | rfl | rfl | rfl <;> exact PId.id_id _

theorem reachable_id (hG : S.IsGrammar root G) {i : PId m n} (h : Reachable G root.pid i) : i.id = i := by
  cases h with
  | refl => exact PId.id_id _
  | step _ hp =>
    obtain ⟨r, h1, h2⟩ := hp
    obtain ⟨-, rfl⟩ := (hG.2 _ _).1 h1
    exact rule_id S h2

theorem reachable_reach (hG : S.IsGrammar root G) {i : PId m n} (h : Reachable G root.pid i) :
    Reach (fun t => (S.rule t).parts) root.pid i := by
  induction h with
  | refl => exact .refl
  | step _ hp ih =>
    obtain ⟨r, h1, h2⟩ := hp
    obtain ⟨-, rfl⟩ := (hG.2 _ _).1 h1
    exact .step ih h2

theorem reachable_rule (hG : S.IsGrammar root G) {i : PId m n} (h : Reachable G root.pid i) : (i, S.rule i) ∈ G :=
  (hG.2 _ _).2 ⟨reachable_reach hG h, rfl⟩

theorem Resolves.first (hG : S.IsGrammar root G) {p : PId m n} (h : Resolves S p) :
    p.Proper → Reachable G root.pid p.id → ∃ w, FirstI G p.id w := by
  induction h with
  | @intro p _ ih =>
    intro hp hr
    have hm := reachable_rule hG hr
    rcases rule_head S p hp with ⟨t, h1⟩ | ⟨q, rfl, h1⟩ | ⟨a, l, h1, h2, h3⟩
    · rw [h1] at hm
      exact ⟨⟨t.ty, t.lit.getD []⟩, .term hm ⟨rfl, by intro s hs; simp [hs]⟩⟩
    · exact ih q (by simp [Schema.asks]) h1 hr
    · rcases h3 with h3 | h3
      · rw [h3] at hm
        obtain ⟨w, hw⟩ := ih a h1 h2 (.step hr ⟨_, hm, by simp [Rule.parts]⟩)
        exact ⟨w, .alt hm (by simp) hw⟩
      · rw [h3] at hm
        obtain ⟨w, hw⟩ := ih a h1 h2 (.step hr ⟨_, hm, by simp [Rule.parts]⟩)
        exact ⟨w, .seq (pre := []) hm (by simp) hw⟩

/-! ### Left recursion -/

theorem infers_no_left_cycle (hG : S.IsGrammar root G) (hS : S.Infers)
    (halt : ∀ t l, Reachable G root.pid t → (t, Rule.alt l) ∈ G → ∀ (p q : Nat) a b, p < q → l[p]? = some a →
      l[q]? = some b → ¬ Overlap G a b)
    (hseq : ∀ t pre a mid b post, Reachable G root.pid t → (t, Rule.seq (pre ++ a :: (mid ++ b :: post))) ∈ G →
      Null G a → (∀ k ∈ mid, Null G k) → ∀ tok, FirstI G a tok → ¬ FirstI G b tok)
    {t t1 : PId m n} (hr : Reachable G root.pid t) (hs1 : LStep G t t1) (hs2 : LSteps G t1 t) : False := by
  let C : PId m n → Prop := fun x => LSteps G t x ∧ LSteps G x t
  have hCr : ∀ x, C x → Reachable G root.pid x := fun x hx => hx.1.reach hr
  have hFirst : ∀ x y tok, C x → C y → FirstI G x tok → FirstI G y tok := by
    intro x y tok hx hy hxt
    exact (hy.2.trans hx.1).first hxt
  have hsucc : ∀ x, C x → ∃ y, LStep G x y ∧ C y := by
    rintro x ⟨h1, h2⟩
    cases h2 with
    | refl => exact ⟨t1, hs1, .head hs1 (.refl _), hs2⟩
    | head s h3 => exact ⟨_, s, h1.trans (.head s (.refl _)), h3⟩
  have hres : ∀ p : PId m n, Resolves S p := resolves_struct (infers_iff.1 hS)
  have key : ∀ p : PId m n, Resolves S p → p.Proper → C p.id → False := by
    intro p h
    induction h with
    | @intro p _ ih =>
      intro hp hC
      have hrp := hCr _ hC
      have hm := reachable_rule hG hrp
      obtain ⟨y, hy, hyC⟩ := hsucc _ hC
      rcases rule_head S p hp with ⟨u, h1⟩ | ⟨q, rfl, h1⟩ | ⟨a, l, h1, h2, h3⟩
      · rw [h1] at hm
        cases hy with
        | alt hm' _ => cases functional_unique hG.1 hm hm'
        | seq hm' _ => cases functional_unique hG.1 hm hm'
      · exact ih q (by simp [Schema.asks]) h1 hC
      · rcases h3 with h3 | h3
        · rw [h3] at hm
          cases hy with
          | seq hm' _ => cases functional_unique hG.1 hm hm'
          | alt hm' hj =>
            cases functional_unique hG.1 hm hm'
            rcases List.mem_cons.1 hj with rfl | hj
            · exact ih a h1 h2 hyC
            · obtain ⟨q, hq⟩ := List.mem_iff_getElem?.1 hj
              obtain ⟨w, hw⟩ := (hres a).first hG h2 (.step hrp ⟨_, hm, by simp [Rule.parts]⟩)
              refine halt _ _ hrp hm 0 (q + 1) a.id y (by omega) rfl (by simpa using hq) (.inl ⟨w, hw.firstOf, ?_⟩)
              exact (hFirst _ _ w hC hyC (.alt hm (by simp) hw)).firstOf
        · rw [h3] at hm
          cases hy with
          | alt hm' _ => cases functional_unique hG.1 hm hm'
          | @seq pre _ post hm' hn =>
            have he := functional_unique hG.1 hm hm'
            injection he with he
            cases pre with
            | nil =>
              injection he with he1 he2
              subst he1
              exact ih a h1 h2 hyC
            | cons b pre =>
              injection he with he1 he2
              subst he1
              obtain ⟨w, hw⟩ := (hres a).first hG h2 (.step hrp ⟨_, hm, by simp [Rule.parts]⟩)
              refine hseq _ [] a.id pre y post hrp hm' (hn _ (by simp)) (fun k hk => hn k (by simp [hk])) w hw ?_
              exact hFirst _ _ w hC hyC (.seq (pre := []) hm (by simp) hw)
  have htC : C t := ⟨.refl _, .refl _⟩
  rcases reachable_proper hG hr with rfl | hp
  · have hm := reachable_rule hG hr
    cases hs1 with
    | alt hm' _ => cases functional_unique hG.1 hm hm'
    | seq hm' _ => cases functional_unique hG.1 hm hm'
  · exact key t (hres t) hp (by rw [reachable_id hG hr]; exact htC)

end Teleparse

import Verif.Proof.Sentence
import Verif.Proof.Sound
/-
Where the trees of matches start.
-/
namespace Teleparse
variable {m n : Nat} {S : Schema m n}

/-- Starts with its first cell. -/
def StartsAt (c : List (Cell n)) (lo : Nat) : Prop := ∃ d c', c = d :: c' ∧ lo = d.token.span.lo

theorem StartsAt.add {c : List (Cell n)} {lo : Nat} (h : StartsAt c lo) (sem : Option (LSet n))
    (r : List (Cell n)) : StartsAt (c.map (Cell.add sem) ++ r) lo := by
  obtain ⟨d, c', rfl, h2⟩ := h
  exact ⟨Cell.add sem d, c'.map (Cell.add sem) ++ r, rfl, by rw [h2]; cases sem <;> rfl⟩

theorem StartsAt.more {c : List (Cell n)} {lo : Nat} (h : StartsAt c lo) (r : List (Cell n)) :
    StartsAt (c ++ r) lo := by
  obtain ⟨d, c', rfl, h2⟩ := h
  exact ⟨d, c' ++ r, rfl, h2⟩

theorem not_isTuple {t : Ty m n} {ts : List (Ty m n)} (h : t.isTuple ts) :
    ∀ t0, (Ty.plus t0 ≠ t ∧ Ty.box t0 ≠ t ∧ Ty.quote t0 ≠ t ∧ Ty.parse t0 ≠ t ∧ ∀ p, Ty.split t0 p ≠ t ∧
      Ty.punct t0 p ≠ t ∧ Ty.recover t0 p ≠ t) ∧ (∀ i k, Ty.term i k ≠ t) ∧ ∀ k, Ty.user k ≠ t := by
  rcases h with ⟨_, _, rfl, _⟩ | ⟨_, _, _, rfl, _⟩ | ⟨_, _, _, _, rfl, _⟩ | ⟨_, _, _, _, _, rfl, _⟩ <;> simp

theorem Leads.starts {t : Ty m n} (h : Leads S t) : ∀ {source pos c x}, Parses S source pos t c x →
    StartsAt c x.span.lo := by
  have tup : ∀ {t : Ty m n} {ts : List (Ty m n)} {P : Prop}, t.isTuple ts →
      (∃ t0, (Ty.plus t0 = t ∨ Ty.box t0 = t ∨ Ty.quote t0 = t ∨ Ty.parse t0 = t ∨ ∃ p, Ty.split t0 p = t ∨
        Ty.punct t0 p = t ∨ Ty.recover t0 p = t) ∨ (∃ i k, Ty.term i k = t) ∨ ∃ k, Ty.user k = t) → P := by
    intro t ts P ht h
    have := not_isTuple ht
    obtain ⟨t0, h⟩ := h
    obtain ⟨⟨h1, h2, h3, h4, h5⟩, h6, h7⟩ := this t0
    rcases h with (h | h | h | h | ⟨p, h⟩) | ⟨i, k, h⟩ | ⟨k, h⟩
    · exact absurd h h1
    · exact absurd h h2
    · exact absurd h h3
    · exact absurd h h4
    · have := h5 p; rcases h with h | h | h
      · exact absurd h this.1
      · exact absurd h this.2.1
      · exact absurd h this.2.2
    · exact absurd h (h6 i k)
    · exact absurd h (h7 k)
  induction h with
  | term i k =>
    intro source pos c x hp
    cases hp with
    | term _ => exact ⟨_, [], rfl, rfl⟩
    | tuple ht => exact tup ht ⟨.term i k, .inr (.inl ⟨_, _, rfl⟩)⟩
  | @struct k f fs hk _ ih =>
    intro source pos c x hp
    cases hp with
    | struct hk' hs =>
      rw [hk] at hk'
      cases hk'
      cases hs with
      | cons h1 h2 => exact (ih h1).add _ _
    | enum hk' => rw [hk] at hk'; cases hk'
    | tuple ht => exact tup ht ⟨.user k, .inr (.inr ⟨_, rfl⟩)⟩
  | @enum k f fs hk _ ih =>
    intro source pos c x hp
    cases hp with
    | struct hk' hs => rw [hk] at hk'; cases hk'
    | enum hk' hi hp =>
      rw [hk] at hk'
      cases hk'
      have := (ih _ (List.mem_of_getElem? hi) hp).add ‹_› []
      rw [List.append_nil] at this
      exact this
    | tuple ht => exact tup ht ⟨.user k, .inr (.inr ⟨_, rfl⟩)⟩
  | @tuple t u us ht _ ih =>
    intro source pos c x hp
    have hsub : ∀ {ts}, t.isTuple ts → ts = u :: us := by
      intro ts h
      rw [← isTuple_parts (S := S) h, isTuple_parts (S := S) ht]
    cases hp with
    | tuple ht' hs =>
      cases hsub ht'
      cases hs with
      | cons h1 h2 => exact (ih h1).more _
    | _ =>
      rcases ht with ⟨_, _, h, _⟩ | ⟨_, _, _, h, _⟩ | ⟨_, _, _, _, h, _⟩ | ⟨_, _, _, _, _, h, _⟩ <;> cases h
  | @box t _ ih =>
    intro source pos c x hp
    cases hp with
    | box hp => exact ih hp
    | tuple ht => exact tup ht ⟨t, .inl (.inr (.inl rfl))⟩
  | @quote t _ ih =>
    intro source pos c x hp
    cases hp with
    | quote hp => have := ih hp; exact this
    | tuple ht => exact tup ht ⟨t, .inl (.inr (.inr (.inl rfl)))⟩
  | @parse t _ ih =>
    intro source pos c x hp
    cases hp with
    | parse hp => have := ih hp; exact this
    | tuple ht => exact tup ht ⟨t, .inl (.inr (.inr (.inr (.inl rfl))))⟩
  | @plus t _ ih =>
    intro source pos c x hp
    cases hp with
    | plus hs =>
      cases hs with
      | cons h1 h2 => exact (ih h1).more _
    | tuple ht => exact tup ht ⟨t, .inl (.inl rfl)⟩
  | @split t p _ ih =>
    intro source pos c x hp
    cases hp with
    | @split _ _ _ cs es ps hl hs =>
      cases es with
      | nil => simp at hl
      | cons e es =>
        rw [interleave_cons] at hs ⊢
        rw [show (e :: es).length + ps.length = (es.length + ps.length) + 1 by simp; omega] at hs
        cases hs with
        | cons h1 h2 => exact (ih h1).more _
    | tuple ht => exact tup ht ⟨t, .inl (.inr (.inr (.inr (.inr ⟨p, .inl rfl⟩))))⟩
  | @punct t p _ ih =>
    intro source pos c x hp
    cases hp with
    | @punct _ _ _ cs es ps he hl hs =>
      cases es with
      | nil => exact absurd rfl he
      | cons e es =>
        rw [interleave_cons] at hs ⊢
        rw [show (e :: es).length + ps.length = (es.length + ps.length) + 1 by simp; omega] at hs
        cases hs with
        | cons h1 h2 => exact (ih h1).more _
    | tuple ht => exact tup ht ⟨t, .inl (.inr (.inr (.inr (.inr ⟨p, .inr (.inl rfl)⟩))))⟩
  | @recover t r _ ih =>
    intro source pos c x hp
    cases hp with
    | recover hs =>
      cases hs with
      | cons h1 h2 => exact (ih h1).more _
    | tuple ht => exact tup ht ⟨t, .inl (.inr (.inr (.inr (.inr ⟨r, .inr (.inr rfl)⟩))))⟩

/-! ### Types without `Recover` -/

theorem Silent.reach {t : Ty m n} (h : Silent S t) : ∃ a b, Reach S.tyParts t (.recover a b) := by
  have sub : ∀ {t u : Ty m n}, u ∈ S.tyParts t → (∃ a b, Reach S.tyParts u (.recover a b)) →
      ∃ a b, Reach S.tyParts t (.recover a b) := by
    rintro t u hu ⟨a, b, h⟩
    exact ⟨a, b, (Reach.step .refl hu).trans h⟩
  induction h with
  | recover t r => exact ⟨t, r, .refl⟩
  | box _ ih => exact sub (by simp [Schema.tyParts]) ih
  | quote _ ih => exact sub (by simp [Schema.tyParts]) ih
  | parse _ ih => exact sub (by simp [Schema.tyParts]) ih
  | plus _ ih => exact sub (by simp [Schema.tyParts]) ih
  | split _ ih => exact sub (by simp [Schema.tyParts]) ih
  | punct _ ih => exact sub (by simp [Schema.tyParts]) ih
  | tuple ht hu _ ih => exact sub (by rw [isTuple_parts ht]; exact hu) ih
  | user hu _ ih => exact sub hu ih

theorem absorbed_part {t u : Ty m n} (h : u ∈ t.absorbed) : u ∈ S.tyParts t := by
  cases t <;> simp [Ty.absorbed] at h <;> simp [Schema.tyParts, h]

theorem RecoverFree.loud {t : Ty m n} (h : RecoverFree S t) : Loud S t ∧ ¬ Silent S t := by
  refine ⟨?_, ?_⟩
  · intro u hu e he hs
    obtain ⟨a, b, hr⟩ := hs.reach
    exact h _ ((Reach.step hu (absorbed_part he)).trans hr) a b rfl
  · intro hs
    obtain ⟨a, b, hr⟩ := hs.reach
    exact h _ hr a b rfl

theorem Reached.sortedView {ext : Fin n → Bool} {source : Str} {items : List (Item n)} {p : Parser n}
    (h : Reached ext source items p) (hw : ItemsWF source items) : Sorted source (p.view ext) := by
  refine ⟨h.source, ?_⟩
  have hs := hw.sorted (ext := ext)
  rw [← h.total] at hs
  exact hs

/-- Soundness on the parser, if no silent failure was absorbed (they are at the end of the input). -/
theorem Yields.sound {ext : Fin n → Bool} {source : Str} {items : List (Item n)} {p p' : Parser n}
    {md : Metadata (PId m n) n} {t : Ty m n} {r : Res n (Tree n)} (h : Yields ext S md t p r p')
    (hp : Reached ext source items p) (hw : ItemsWF source items)
    (hl : Loud S t ∨ (p'.view ext).rest ≠ []) : TySound S source t (p.view ext) r (p'.view ext) :=
  h.run.sound (Sure.of hl) (hp.sortedView hw) .refl

end Teleparse

import Verif.Proof.Reparse
import Verif.Proof.Scanning
/-
Scanning a piece of a source gives the tokens of the piece.
-/
namespace Teleparse.Macro
variable {n : Nat} {L : Lexicon} {G : Logos} {source : Str}

theorem Lexicon.Scan.ge {p : Nat} {items : List (Item n)} (h : L.Scan G source p items) :
    p ≤ source.length ∧ ∀ i ∈ items, p ≤ i.span.lo ∧ i.span.lo ≤ i.span.hi := by
  induction h with
  | done => exact ⟨Nat.le_refl _, by simp⟩
  | @token p len r name items ty hp hn _ ih =>
    refine ⟨by omega, fun i hi => ?_⟩
    rcases List.mem_cons.1 hi with rfl | hi
    · exact ⟨Nat.le_refl _, Nat.le_add_right _ _⟩
    · have := ih.2 i hi; exact ⟨by omega, this.2⟩
  | skip hp _ ih => exact ⟨by omega, fun i hi => by have := ih.2 i hi; exact ⟨by omega, this.2⟩⟩
  | @error p len items hs hlen hle hb _ ih =>
    refine ⟨by omega, fun i hi => ?_⟩
    rcases List.mem_cons.1 hi with rfl | hi
    · exact ⟨Nat.le_refl _, Nat.le_add_right _ _⟩
    · have := ih.2 i hi; exact ⟨by omega, this.2⟩

/-- The position is where the scanner began, or where a token or an unrecognised piece begins or ends. -/
def Stop (p : Nat) (items : List (Item n)) (q : Nat) : Prop := q = p ∨ ∃ i ∈ items, q = i.span.lo ∨ q = i.span.hi

theorem Stop.cons {p p' : Nat} {i : Item n} {items : List (Item n)} {q : Nat} (h : Stop p (i :: items) q)
    (hlo : i.span.lo = p) (hhi : i.span.hi = p') : q = p ∨ Stop p' items q := by
  rcases h with h | ⟨j, hj, h⟩
  · exact .inl h
  · rcases List.mem_cons.1 hj with rfl | hj
    · rcases h with h | h
      · exact .inl (h.trans hlo)
      · exact .inr (.inl (h.trans hhi))
    · exact .inr (.inr ⟨j, hj, h⟩)

theorem Lexicon.Scan.stop_ge {p : Nat} {items : List (Item n)} (h : L.Scan G source p items) {q : Nat}
    (hq : Stop p items q) : p ≤ q := by
  rcases hq with rfl | ⟨i, hi, rfl | rfl⟩
  · exact Nat.le_refl _
  · exact (h.ge.2 i hi).1
  · exact Nat.le_trans (h.ge.2 i hi).1 (h.ge.2 i hi).2

/-- Scanning from a stop on. -/
theorem Lexicon.Scan.from {p : Nat} {items : List (Item n)} (h : L.Scan G source p items) :
    (∀ i ∈ items, i.span.lo < i.span.hi) → ∀ q, Stop p items q →
      L.Scan G source q (items.filter fun i => q ≤ i.span.lo) := by
  have all : ∀ {p : Nat} {items : List (Item n)}, L.Scan G source p items →
      L.Scan G source p (items.filter fun i => p ≤ i.span.lo) := by
    intro p items h
    rw [List.filter_eq_self.2]
    · exact h
    · intro i hi; simpa using (h.ge.2 i hi).1
  have drop : ∀ {i : Item n} {items : List (Item n)} {q : Nat}, i.span.lo < q →
      (i :: items).filter (fun i => q ≤ i.span.lo) = items.filter fun i => q ≤ i.span.lo := by
    intro i items q hq
    rw [List.filter_cons, if_neg (by simpa using hq)]
  induction h with
  | done =>
    rintro - q (rfl | ⟨i, hi, -⟩)
    · exact .done
    · cases hi
  | @token p len r name items ty hp hn hs ih =>
    intro hne q hq
    have hlt : p < p + len := hne _ (.head _)
    rcases hq.cons rfl rfl with rfl | hq
    · exact all (.token hp hn hs)
    · have := hs.stop_ge hq
      rw [drop (show p < q by omega)]
      exact ih (fun i hi => hne i (.tail _ hi)) q hq
  | @skip p len r items hp hs ih =>
    intro hne q hq
    rcases hq with rfl | hq
    · exact all (.skip hp hs)
    · exact ih hne q (.inr hq)
  | @error p len items hst hlen hle hb hs ih =>
    intro hne q hq
    rcases hq.cons rfl rfl with rfl | hq
    · exact all (.error hst hlen hle hb hs)
    · have := hs.stop_ge hq
      rw [drop (show p < q by omega)]
      exact ih (fun i hi => hne i (.tail _ hi)) q hq

theorem Lexicon.Picks.take {s : Str} {len k : Nat} {r : LexRule} {t : Option Str} (h : L.Picks G s len r t)
    (hk : len ≤ k) : L.Picks G (s.take k) len r t where
  rule := h.rule
  le := by rw [List.length_take]; have := h.le; omega
  mat := by rw [List.take_take, Nat.min_eq_left hk]; exact h.mat
  best := by
    intro r' t' hr len' hl hm
    rw [List.length_take] at hl
    rw [List.take_take, Nat.min_eq_left (by omega)] at hm
    exact h.best r' t' hr len' (by omega) hm

theorem Lexicon.Stuck.take {s : Str} {k : Nat} (h : L.Stuck G s) : L.Stuck G (s.take k) := by
  intro r t hr len hl hm
  rw [List.length_take] at hl
  rw [List.take_take, Nat.min_eq_left (by omega)] at hm
  exact h r t hr len (by omega) hm

theorem drop_textOf (source : Str) (lo hi p : Nat) :
    (textOf source ⟨lo, hi⟩).drop p = (source.drop (p + lo)).take (hi - (p + lo)) := by
  unfold textOf
  simp only
  rw [List.drop_take, List.drop_drop]
  congr 1
  · omega
  · congr 1; omega

/-- Scanning up to a stop. -/
theorem Lexicon.Scan.upTo {lo hi : Nat} (hhi : hi ≤ source.length) {p : Nat} {items : List (Item n)}
    (h : L.Scan G source p items) : (∀ i ∈ items, i.span.lo < i.span.hi) → Stop p items hi → ∀ p', p = p' + lo →
      ∀ items' : List (Item n), items'.map (Item.up lo) = items.filter (fun i => i.span.hi ≤ hi) →
        L.Scan G (textOf source ⟨lo, hi⟩) p' items' := by
  have here : ∀ {p p' : Nat} {items : List (Item n)}, L.Scan G source p items → (∀ i ∈ items, i.span.lo < i.span.hi) →
      hi = p → p = p' + lo → ∀ items' : List (Item n), items'.map (Item.up lo) = items.filter (fun i => i.span.hi ≤ hi) →
      L.Scan G (textOf source ⟨lo, hi⟩) p' items' := by
    intro p p' items h hne he hp items' hi'
    rw [List.filter_eq_nil_iff.2 (fun i hm => by
      have h1 := (h.ge.2 i hm).1
      have h2 := hne i hm
      simp only [decide_eq_true_eq]; omega)] at hi'
    have : items' = [] := by simpa using hi'
    rw [this, show p' = (textOf source ⟨lo, hi⟩).length from by rw [textOf_length hhi]; simp only; omega]
    exact .done
  induction h with
  | done =>
    rintro hne (he | ⟨i, hi, -⟩) p' hp items' hi'
    · exact here .done hne he hp items' hi'
    · cases hi
  | @token p len r name items ty hp hn hs ih =>
    rintro hne hq p' rfl items' hi'
    rcases hq.cons rfl rfl with he | hq
    · exact here (.token hp hn hs) hne he rfl items' hi'
    · have hge := hs.stop_ge hq
      rw [List.filter_cons, if_pos (by exact decide_eq_true hge)] at hi'
      cases items' with
      | nil => simp at hi'
      | cons j items' =>
        rw [List.map_cons, List.cons.injEq] at hi'
        have hj : j = .token ⟨⟨p', p' + len⟩, ty⟩ := by
          refine Item.up_inj (k := lo) (hi'.1.trans ?_)
          simp only [Item.up, Token.up, Span.up, Item.token.injEq, Token.mk.injEq, Span.mk.injEq, and_true, true_and]
          omega
        subst hj
        refine .token (r := r) (name := name) ?_ hn
          (ih (fun i hi => hne i (.tail _ hi)) hq (p' + len) (by omega) items' hi'.2)
        rw [drop_textOf]
        exact hp.take (by omega)
  | @skip p len r items hp hs ih =>
    rintro hne hq p' rfl items' hi'
    rcases hq with he | hq
    · exact here (.skip hp hs) hne he rfl items' hi'
    · have hge := hs.stop_ge (.inr hq)
      refine .skip (r := r) (len := len) ?_ (ih hne (.inr hq) (p' + len) (by omega) items' hi')
      rw [drop_textOf]
      exact hp.take (by omega)
  | @error p len items hst hlen hle hb hs ih =>
    rintro hne hq p' rfl items' hi'
    rcases hq.cons rfl rfl with he | hq
    · exact here (.error hst hlen hle hb hs) hne he rfl items' hi'
    · have hge := hs.stop_ge hq
      rw [List.filter_cons, if_pos (by exact decide_eq_true hge)] at hi'
      cases items' with
      | nil => simp at hi'
      | cons j items' =>
        rw [List.map_cons, List.cons.injEq] at hi'
        have hj : j = .error ⟨p', p' + len⟩ := by
          refine Item.up_inj (k := lo) (hi'.1.trans ?_)
          simp only [Item.up, Span.up, Item.error.injEq, Span.mk.injEq, true_and]
          omega
        subst hj
        refine .error ?_ hlen ?_ (isBoundary_cut (sp := ⟨lo, hi⟩) hhi ?_ ?_)
          (ih (fun i hi => hne i (.tail _ hi)) hq (p' + len) (by omega) items' hi'.2)
        · rw [drop_textOf]
          exact hst.take
        · rw [textOf_length hhi]; simp only; omega
        · simp only; omega
        · simp only; rw [Nat.add_right_comm]; exact hb

theorem pairwise_pairs {α : Type} {R : α → α → Prop} {l : List α} (h : l.Pairwise R) {a b : α} (ha : a ∈ l) (hb : b ∈ l) :
    a = b ∨ R a b ∨ R b a := by
  induction h with
  | nil => cases ha
  | cons h1 _ ih =>
    rcases List.mem_cons.1 ha with ea | ha
    · rcases List.mem_cons.1 hb with eb | hb
      · exact .inl (ea.trans eb.symm)
      · exact .inr (.inl (ea ▸ h1 _ hb))
    · rcases List.mem_cons.1 hb with eb | hb
      · exact .inr (.inr (eb ▸ h1 _ ha))
      · exact ih ha hb

/-- Scanning the piece between two stops. -/
theorem Lexicon.Scan.cut {items items' : List (Item n)} (h : L.Scan G source 0 items)
    (hne : ∀ i ∈ items, i.span.lo < i.span.hi) (hp : items.Pairwise fun a b => a.span.hi ≤ b.span.lo) {sp : Span} (hlo : Stop 0 items sp.lo) (hhi : Stop 0 items sp.hi)
    (hle : sp.lo ≤ sp.hi) (hs : sp.hi ≤ source.length) (hc : Cut sp items items') :
    L.Scan G (textOf source sp) 0 items' := by
  have h1 := h.from hne sp.lo hlo
  refine h1.upTo (lo := sp.lo) hs (fun i hi => hne i (List.mem_filter.1 hi).1) ?_ 0 (by omega) items' ?_
  · by_cases he : sp.hi = sp.lo
    · exact .inl he
    · rcases hhi with h0 | ⟨i, hi, h0⟩
      · exact .inl (by omega)
      · have hi1 := hne i hi
        by_cases hi2 : sp.lo ≤ i.span.lo
        · exact .inr ⟨i, List.mem_filter.2 ⟨hi, by simpa using hi2⟩, h0⟩
        · exfalso
          rcases hlo with h2 | ⟨j, hj, h2⟩
          · omega
          · have hj1 := hne j hj
            rcases pairwise_pairs hp hi hj with rfl | h3 | h3 <;> omega
  · rw [List.filter_filter, hc]
    congr 1
    funext i
    exact Bool.and_comm _ _

end Teleparse.Macro

import Verif.Model.TokenMut
import Verif.Props.TokenStore
/-
Property C85: views of the token store that can be written to, and queries on views.
-/
namespace Teleparse
open TokenVec
variable {n : Nat}

/-! ## C85: a `_mut` query gives write access to the queried tokens only -/

/-- Writing with `f` to the part `s` of the store: the store is cut around `s` and the part is replaced. -/
def WritesPart (v : TokenVec n) (s : TokenVec n) (f : TokenVec n → TokenVec n) (w : TokenVec n) : Prop :=
  ∃ a b, v = a ++ s ++ b ∧ w = a ++ f s ++ b

theorem writesSlice {v s : TokenVec n} {lo hi : Nat} (h : slice? v lo hi = some s) (f : TokenVec n → TokenVec n) :
    ∃ w, writeSlice? v lo hi f = some w ∧ WritesPart v s f w := by
  unfold slice? at h
  unfold writeSlice?
  split at h
  · rename_i hc
    cases h
    exact ⟨_, if_pos hc, v.take lo, v.drop hi, split3 v lo hi hc.1, rfl⟩
  · cases h

theorem writesNone (v : TokenVec n) {f : TokenVec n → TokenVec n} (hf : f [] = []) : WritesPart v [] f v :=
  ⟨v, [], by simp, by simp [hf]⟩

/-- `inside_mut` writes to what `inside` returns. Any store. -/
theorem C85_inside (v : TokenVec n) (span : Span) (s : TokenVec n) (h : inside? v span = some s)
    (f : TokenVec n → TokenVec n) (hf : f [] = []) :
    ∃ w, insideMut? v span f = some w ∧ WritesPart v s f w := by
  unfold inside? at h
  unfold insideMut?
  split at h
  · rename_i e; rw [e]; exact writesSlice h f
  · rename_i e; rw [e]; cases h; exact ⟨v, rfl, writesNone v hf⟩

/-- `overlap_mut` writes to what `overlap` returns. Any store. -/
theorem C85_overlap (v : TokenVec n) (span : Span) (s : TokenVec n) (h : overlap? v span = some s)
    (f : TokenVec n → TokenVec n) (hf : f [] = []) :
    ∃ w, overlapMut? v span f = some w ∧ WritesPart v s f w := by
  unfold overlap? at h
  unfold overlapMut?
  split at h
  · rename_i e; rw [e]; exact writesSlice h f
  · rename_i e; rw [e]; cases h; exact ⟨v, rfl, writesNone v hf⟩

/-- `begins_at_matches_mut` writes to what `begins_at_matches` returns, and returns no view exactly if that one
returns none. Any store. -/
theorem C85_begins_at (v : TokenVec n) (pos : Nat) (p : Cell n → Bool) (f : TokenVec n → TokenVec n) :
    (∀ s, beginsAtMatches? v pos p = some (some s) →
      ∃ w, beginsAtMatchesMut? v pos p f = some (some w) ∧ WritesPart v s f w) ∧
    (beginsAtMatches? v pos p = some none ↔ beginsAtMatchesMut? v pos p f = some none) := by
  unfold beginsAtMatches? beginsAtMatchesMut?
  cases beginsAtMatchesBounds v pos p with
  | none => exact ⟨(by intro s h; cases h), by simp⟩
  | some b =>
    obtain ⟨lo, hi⟩ := b
    refine ⟨fun s h => ?_, by simp⟩
    simp only at h ⊢
    cases hs : slice? v lo hi with
    | none => rw [hs] at h; cases h
    | some s' =>
      rw [hs] at h
      cases h
      obtain ⟨w, h1, h2⟩ := writesSlice hs f
      exact ⟨w, by simp [h1], h2⟩

/-- `ends_at_matches_mut` likewise. -/
theorem C85_ends_at (v : TokenVec n) (pos : Nat) (p : Cell n → Bool) (f : TokenVec n → TokenVec n) :
    (∀ s, endsAtMatches? v pos p = some (some s) →
      ∃ w, endsAtMatchesMut? v pos p f = some (some w) ∧ WritesPart v s f w) ∧
    (endsAtMatches? v pos p = some none ↔ endsAtMatchesMut? v pos p f = some none) := by
  unfold endsAtMatches? endsAtMatchesMut?
  cases endsAtMatchesBounds v pos p with
  | none => exact ⟨(by intro s h; cases h), by simp⟩
  | some b =>
    obtain ⟨lo, hi⟩ := b
    refine ⟨fun s h => ?_, by simp⟩
    simp only at h ⊢
    cases hs : slice? v lo hi with
    | none => rw [hs] at h; cases h
    | some s' =>
      rw [hs] at h
      cases h
      obtain ⟨w, h1, h2⟩ := writesSlice hs f
      exact ⟨w, by simp [h1], h2⟩

theorem writes_filter {v w : TokenVec n} {P : Cell n → Prop} [DecidablePred P] {g : Cell n → Cell n}
    (h : WritesPart v (v.filter (fun c => decide (P c))) (List.map g) w) :
    w = v.map fun c => if P c then g c else c := by
  obtain ⟨a, b, h1, rfl⟩ := h
  generalize hs : v.filter (fun c => decide (P c)) = s at h1 ⊢
  subst h1
  have hp : ∀ c ∈ s, P c := by
    intro c hc
    rw [← hs] at hc
    simpa using (List.mem_filter.1 hc).2
  have hself : s.filter (fun c => decide (P c)) = s := List.filter_eq_self.2 (by simpa using hp)
  rw [List.filter_append, List.filter_append, hself] at hs
  have hlen := congrArg List.length hs
  simp only [List.length_append] at hlen
  have ha : a.filter (fun c => decide (P c)) = [] := List.eq_nil_of_length_eq_zero (by omega)
  have hb : b.filter (fun c => decide (P c)) = [] := List.eq_nil_of_length_eq_zero (by omega)
  have keep : ∀ l : TokenVec n, l.filter (fun c => decide (P c)) = [] → (l.map fun c => if P c then g c else c) = l := by
    intro l hl
    rw [List.filter_eq_nil_iff] at hl
    conv => rhs; rw [← List.map_id l]
    apply List.map_congr_left
    intro c hc
    rw [if_neg (by simpa using hl c hc)]; rfl
  rw [List.map_append, List.map_append, keep a ha, keep b hb]
  congr 2
  apply List.map_congr_left
  intro c hc
  rw [if_pos (hp c hc)]

/-- Changing each token of `inside_mut(span)` with `g` changes the tokens inside the span and nothing else. -/
theorem C85_inside_each {v : TokenVec n} (hv : SortedStore v) (span : Span) (g : Cell n → Cell n) :
    insideMut? v span (List.map g) = some (v.map fun c => if c.token.span.Inside span then g c else c) := by
  obtain ⟨w, h1, h2⟩ := C85_inside v span _ (C10_inside hv span) (List.map g) rfl
  rw [h1, writes_filter h2]

/-- Changing each token of `overlap_mut(span)` with `g`. -/
theorem C85_overlap_each {v : TokenVec n} (hv : SortedStore v) (span : Span) (hs : span.lo < span.hi)
    (g : Cell n → Cell n) :
    overlapMut? v span (List.map g) = some (v.map fun c => if c.token.span.Overlaps span then g c else c) := by
  obtain ⟨w, h1, h2⟩ := C85_overlap v span _ (C11_overlap_partial hv span hs) (List.map g) rfl
  rw [h1, writes_filter h2]

/-- The call made by the parser (`apply_semantic` on `inside_mut`) is an instance. -/
theorem C85_apply (v : TokenVec n) (span : Span) (s : LSet n) (h : (inside? v span).isSome) :
    insideMut? v span (fun l => applySemantic l s) = some (applySemanticInside v span s) := by
  unfold inside? at h
  unfold insideMut? applySemanticInside
  cases hb : insideBounds v span with
  | none => rfl
  | some b =>
    rw [hb] at h
    simp only [slice?] at h
    simp only [writeSlice?]
    split at h
    · rename_i hc; rw [if_pos hc]
    · cases h

/-- `at(i)` is the token with `i` tokens before it, in a sorted store the one that begins after these; there is none
from the length of the store on. -/
theorem C85_at {v : TokenVec n} (i : Nat) :
    (∀ c, at? v i = some c ↔ ∃ a b, v = a ++ c :: b ∧ a.length = i) ∧ (at? v i = none ↔ v.length ≤ i) ∧
    (SortedStore v → ∀ c, at? v i = some c → i = (v.filter fun d => decide (d.token.span.hi ≤ c.token.span.lo)).length) := by
  have key : ∀ c, at? v i = some c ↔ ∃ a b, v = a ++ c :: b ∧ a.length = i := by
    intro c
    unfold at?
    constructor
    · intro h
      obtain ⟨hi, rfl⟩ := List.getElem?_eq_some_iff.1 h
      exact ⟨v.take i, v.drop (i + 1), by rw [List.getElem_cons_drop, List.take_append_drop],
        by rw [List.length_take]; omega⟩
    · rintro ⟨a, b, rfl, rfl⟩
      simp
  refine ⟨key, by unfold at?; simp, fun hv c hc => ?_⟩
  obtain ⟨a, b, rfl, rfl⟩ := (key c).1 hc
  have hp := hv.2
  simp only [List.map_append, List.map_cons, List.pairwise_append, List.pairwise_cons] at hp
  have hpos := hv.1
  rw [List.filter_append, List.filter_cons, List.filter_eq_self.2, List.filter_eq_nil_iff.2]
  · have := hpos c.token (by simp)
    rw [if_neg (by simp; omega)]
    simp
  · intro d hd
    have h1 := hp.2.1.1 d.token (List.mem_map_of_mem hd)
    have h2 := hpos d.token (by simp; exact .inr (.inr ⟨d, hd, rfl⟩))
    have h3 := hpos c.token (by simp)
    simp; omega
  · intro d hd
    have h1 := hp.2.2 d.token (List.mem_map_of_mem hd) c.token (.head _)
    simpa using h1

example : at? exStore 1 = some ⟨⟨⟨4, 6⟩, 1⟩, LSet.new⟩ ∧ at? exStore 3 = none ∧
    (exStore.filter fun d => decide (d.token.span.hi ≤ 4)).length = 1 := ⟨rfl, rfl, by decide⟩

/-! ### Queries on the result of a query -/

theorem SortedStore.sublist {v w : TokenVec n} (hv : SortedStore v) (h : w.Sublist v) : SortedStore w :=
  ⟨fun t ht => hv.1 t ((h.map _).subset ht), hv.2.sublist (h.map _)⟩

/-- What `inside` and `overlap` return can be queried again: the tokens inside both spans. -/
theorem C85_inside_inside {v : TokenVec n} (hv : SortedStore v) (a b : Span) :
    ∃ s, inside? v a = some s ∧ SortedStore s ∧
      inside? s b = some (v.filter fun c => decide (c.token.span.Inside a ∧ c.token.span.Inside b)) ∧
      inside? s b = inside? v ⟨max a.lo b.lo, min a.hi b.hi⟩ := by
  have hs : SortedStore (v.filter (fun c => decide (c.token.span.Inside a))) := hv.sublist List.filter_sublist
  have h1 : inside? (v.filter (fun c => decide (c.token.span.Inside a))) b =
      some (v.filter fun c => decide (c.token.span.Inside a ∧ c.token.span.Inside b)) := by
    rw [C10_inside hs, List.filter_filter]
    congr 2
    funext c
    simp [Bool.and_comm]
  refine ⟨_, C10_inside hv a, hs, h1, ?_⟩
  rw [h1, C10_inside hv]
  congr 1
  apply List.filter_congr
  intro c _
  rw [decide_eq_decide]
  unfold Span.Inside
  simp only
  omega

/-- Tokens inside a span overlap it. -/
theorem C85_inside_overlap {v : TokenVec n} (hv : SortedStore v) (a : Span) :
    ∃ s, overlap? v a = some s ∧ SortedStore s ∧ inside? s a = inside? v a := by
  have hs : SortedStore (v.filter (fun c => decide (c.token.span.lo < a.hi ∧ a.lo < c.token.span.hi))) :=
    hv.sublist List.filter_sublist
  refine ⟨_, C11_overlap_exact hv a, hs, ?_⟩
  rw [C10_inside hs, C10_inside hv, List.filter_filter]
  congr 1
  apply List.filter_congr
  intro c hc
  have hpos := hv.1 _ (List.mem_map_of_mem hc)
  simp only [Span.Inside, Bool.decide_and]
  by_cases h1 : a.lo ≤ c.token.span.lo <;> by_cases h2 : c.token.span.hi ≤ a.hi <;> simp [h1, h2] <;> omega

/-- Any position cuts the store in three: the tokens before it, the token around it if there is one, and the tokens
after it. -/
theorem C85_cut {v : TokenVec n} (hv : SortedStore v) (p e : Nat) (he : ∀ c ∈ v, c.token.span.hi ≤ e) :
    ∃ a b c, inside? v ⟨0, p⟩ = some a ∧ overlap? v ⟨p, p⟩ = some b ∧ inside? v ⟨p, e⟩ = some c ∧
      v = a ++ b ++ c ∧ b.length ≤ 1 := by
  refine ⟨_, _, _, C10_inside hv _, C11_overlap_exact hv _, C10_inside hv _, ?_⟩
  induction v with
  | nil => simp
  | cons d v ih =>
    have hd := hv.1 d.token (.head _)
    have hr := (List.pairwise_cons.1 hv.2).1
    have hr' : ∀ c ∈ v, d.token.span.hi ≤ c.token.span.lo := fun c hc => hr _ (List.mem_map_of_mem hc)
    have hpos : ∀ c ∈ v, c.token.span.lo < c.token.span.hi := fun c hc => hv.1 _ (.tail _ (List.mem_map_of_mem hc))
    have he' : ∀ c ∈ v, c.token.span.hi ≤ e := fun c hc => he c (.tail _ hc)
    have hed := he d (.head _)
    have hs : SortedStore v := hv.sublist (List.sublist_cons_self _ _)
    obtain ⟨i1, i2⟩ := ih hs he'
    by_cases h1 : d.token.span.hi ≤ p
    · have e1 : d.token.span.Inside ⟨0, p⟩ := ⟨Nat.zero_le _, h1⟩
      have e2 : ¬ (d.token.span.lo < p ∧ p < d.token.span.hi) := by omega
      have e3 : ¬ d.token.span.Inside ⟨p, e⟩ := by intro h; have := h.1; simp only at this; omega
      rw [List.filter_cons, List.filter_cons, List.filter_cons, if_pos (by simpa using e1), if_neg (by simpa using e2),
        if_neg (by simpa using e3)]
      exact ⟨by rw [List.cons_append, List.cons_append, ← i1], i2⟩
    · have f1 : (d :: v).filter (fun c => decide (c.token.span.Inside ⟨0, p⟩)) = [] := by
        rw [List.filter_eq_nil_iff]
        intro c hc
        have : ¬ c.token.span.hi ≤ p := by
          rcases List.mem_cons.1 hc with rfl | hc
          · exact h1
          · have := hr' c hc; have := hpos c hc; omega
        simp [Span.Inside, this]
      have f3 : v.filter (fun c => decide (c.token.span.Inside ⟨p, e⟩)) = v := by
        rw [List.filter_eq_self]
        intro c hc
        have := hr' c hc
        have := he' c hc
        rw [decide_eq_true_eq]
        exact ⟨by show p ≤ _; omega, by show _ ≤ e; omega⟩
      have f2 : v.filter (fun c => decide (c.token.span.lo < p ∧ p < c.token.span.hi)) = [] := by
        rw [List.filter_eq_nil_iff]
        intro c hc
        have := hr' c hc
        simp only [decide_eq_true_eq]; omega
      rw [f1, List.filter_cons, List.filter_cons, f2, f3]
      by_cases h2 : d.token.span.lo < p
      · have e2 : (d.token.span.lo < p ∧ p < d.token.span.hi) := by omega
        have e3 : ¬ d.token.span.Inside ⟨p, e⟩ := by intro h; have := h.1; simp only at this; omega
        rw [if_pos (by simpa using e2), if_neg (by simpa using e3)]
        simp
      · have e2 : ¬ (d.token.span.lo < p ∧ p < d.token.span.hi) := by omega
        have e3 : d.token.span.Inside ⟨p, e⟩ := ⟨by simp only; omega, hed⟩
        rw [if_neg (by simpa using e2), if_pos (by simpa using e3)]
        simp

/-! ### Queries look at spans only -/

theorem loAt_congr {v w : TokenVec n} (h : v.map (·.token.span) = w.map (·.token.span)) (i : Nat) :
    loAt v i = loAt w i ∧ hiAt v i = hiAt w i := by
  have h1 : (v.map (·.token.span))[i]? = (w.map (·.token.span))[i]? := by rw [h]
  rw [List.getElem?_map, List.getElem?_map] at h1
  unfold loAt hiAt
  cases hv : v[i]? <;> cases hw : w[i]? <;> rw [hv, hw] at h1 <;> simp_all

/-- Queries by position do not depend on anything but the spans of the tokens: after writing anything else to the
tokens, a query returns the same places of the store. Any store. -/
theorem C85_spans (v w : TokenVec n) (h : v.map (·.token.span) = w.map (·.token.span)) (span : Span) :
    insideBounds v span = insideBounds w span ∧ overlapBounds v span = overlapBounds w span := by
  have hl : v.length = w.length := by have := congrArg List.length h; simpa using this
  have h1 : searchLo v = searchLo w := by
    funext x; unfold searchLo; rw [hl]; congr 1; funext i; rw [(loAt_congr h i).1]
  have h2 : searchHi v = searchHi w := by
    funext x; unfold searchHi; rw [hl]; congr 1; funext i; rw [(loAt_congr h i).2]
  have h3 : loAt v = loAt w := funext fun i => (loAt_congr h i).1
  have h4 : hiAt v = hiAt w := funext fun i => (loAt_congr h i).2
  unfold insideBounds overlapBounds
  rw [h1, h2, h3, h4, hl]
  exact ⟨rfl, rfl⟩

/-- The store of three tokens: writing to the tokens inside `4..9` and to those that overlap `2..5`, and cutting at
position 5, which is in the second token. -/
example : SortedStore exStore ∧
    (insideMut? exStore ⟨4, 9⟩ (List.map fun c => { c with semantic := c.semantic.insert 0 })).map
      (·.map (·.semantic.contains 0)) = some [false, true, true] ∧
    (overlapMut? exStore ⟨2, 5⟩ (List.map fun c => { c with semantic := c.semantic.insert 0 })).map
      (·.map (·.semantic.contains 0)) = some [true, true, false] ∧
    overlap? exStore ⟨5, 5⟩ = some [⟨⟨⟨4, 6⟩, 1⟩, LSet.new⟩] ∧ (∀ c ∈ exStore, c.token.span.hi ≤ 9) ∧
    (beginsAtMatchesMut? exStore 4 (fun _ => true) List.reverse).isSome :=
  ⟨exStore_sorted, by decide, by decide, by decide, by decide, by decide⟩

end Teleparse

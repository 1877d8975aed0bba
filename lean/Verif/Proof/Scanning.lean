import Verif.Spec.Scanning
import Verif.Proof.LexiconMacro
/-
Lemmas about scanning with the generated rules (C81, C82).
-/
namespace Teleparse.Macro
variable {n : Nat}

/-! ### Texts -/

theorem Utf8.cancel {p q : Str} (hp : Utf8 p) : Utf8 (p ++ q) → Utf8 q := by
  induction hp with
  | nil => exact id
  | @one a s _ _ ih =>
    generalize hw : (a :: s) ++ q = w
    intro h
    cases h with
    | nil => cases hw
    | one _ h => cases hw; exact ih h
    | two => injection hw; omega
    | three => injection hw; omega
    | four => injection hw; omega
  | @two a b s _ _ _ _ _ ih =>
    generalize hw : (a :: b :: s) ++ q = w
    intro h
    cases h with
    | nil => cases hw
    | one => injection hw; omega
    | two _ _ _ _ h => cases hw; exact ih h
    | three => injection hw; omega
    | four => injection hw; omega
  | @three a b c s _ _ _ _ _ _ _ ih =>
    generalize hw : (a :: b :: c :: s) ++ q = w
    intro h
    cases h with
    | nil => cases hw
    | one => injection hw; omega
    | two => injection hw; omega
    | three _ _ _ _ _ _ h => cases hw; exact ih h
    | four => injection hw; omega
  | @four a b c d s _ _ _ _ _ _ _ _ _ ih =>
    generalize hw : (a :: b :: c :: d :: s) ++ q = w
    intro h
    cases h with
    | nil => cases hw
    | one => injection hw; omega
    | two => injection hw; omega
    | three => injection hw; omega
    | four _ _ _ _ _ _ _ _ h => cases hw; exact ih h

theorem Utf8.head {a : Nat} {s : Str} (h : Utf8 (a :: s)) : a < 128 ∨ 192 ≤ a := by
  cases h <;> omega

/-- Rest texts begin on boundaries. -/
theorem Utf8.boundary {s : Str} {i : Nat} (hi : i ≤ s.length) (h : Utf8 (s.drop i)) : isBoundary s i = true := by
  unfold isBoundary
  split
  · rfl
  · split
    · rfl
    · have hl : i < s.length := by omega
      rw [List.drop_eq_getElem_cons hl] at h
      rw [List.getElem?_eq_getElem hl]
      simpa using h.head

/-- What begins on a boundary is a text. -/
theorem Utf8.drop {s : Str} (h : Utf8 s) : ∀ {i : Nat}, isBoundary s i = true → Utf8 (s.drop i) := by
  have hb : ∀ (p q : Str) (i : Nat), isBoundary (p ++ q) (p.length + i) = true → i ≠ 0 →
      isBoundary q i = true := by
    intro p q i h hi
    unfold isBoundary at h ⊢
    simp only [List.length_append, Nat.add_left_cancel_iff] at h
    rw [if_neg (by omega)] at h
    rw [if_neg hi]
    split
    · rfl
    · next hne =>
      rw [if_neg hne, List.getElem?_append_right (by omega)] at h
      simpa using h
  have hcont : ∀ (s : Str) (i b : Nat), i ≠ 0 → s[i]? = some b → 128 ≤ b → b < 192 →
      isBoundary s i = true → False := by
    intro s i b hi hs h1 h2 h
    have : i < s.length := (List.getElem?_eq_some_iff.1 hs).1
    unfold isBoundary at h
    rw [if_neg hi, if_neg (by omega), hs] at h
    simp at h
    omega
  induction h with
  | nil => intro i _; simpa using Utf8.nil
  | @one a s ha hs ih =>
    intro i h
    match i with
    | 0 => exact .one ha hs
    | 1 => exact hs
    | i + 2 => exact ih (hb [a] s (i + 1) (by rw [Nat.add_comm]; exact h) (by omega))
  | @two a b s h1 h2 h3 h4 hs ih =>
    intro i h
    match i with
    | 0 => exact .two h1 h2 h3 h4 hs
    | 1 => exact (hcont _ _ b (by omega) rfl h3 h4 h).elim
    | 2 => exact hs
    | i + 3 => exact ih (hb [a, b] s (i + 1) (by rw [Nat.add_comm]; exact h) (by omega))
  | @three a b c s h1 h2 h3 h4 h5 h6 hs ih =>
    intro i h
    match i with
    | 0 => exact .three h1 h2 h3 h4 h5 h6 hs
    | 1 => exact (hcont _ _ b (by omega) rfl h3 h4 h).elim
    | 2 => exact (hcont _ _ c (by omega) rfl h5 h6 h).elim
    | 3 => exact hs
    | i + 4 => exact ih (hb [a, b, c] s (i + 1) (by rw [Nat.add_comm]; exact h) (by omega))
  | @four a b c d s h1 h2 h3 h4 h5 h6 h7 h8 hs ih =>
    intro i h
    match i with
    | 0 => exact .four h1 h2 h3 h4 h5 h6 h7 h8 hs
    | 1 => exact (hcont _ _ b (by omega) rfl h3 h4 h).elim
    | 2 => exact (hcont _ _ c (by omega) rfl h5 h6 h).elim
    | 3 => exact (hcont _ _ d (by omega) rfl h7 h8 h).elim
    | 4 => exact hs
    | i + 5 => exact ih (hb [a, b, c, d] s (i + 1) (by rw [Nat.add_comm]; exact h) (by omega))

/-! ### The rules of an accepted declaration -/

theorem GoodRegex.not_nil {G : Logos} {E : Engine} (hG : G.Agrees E) {r : Str} (h : GoodRegex E r) :
    ¬ G.mat (.regex r) [] :=
  hG.missing r [] h.2 0 0 (Nat.le_refl _) (Nat.le_refl _)

theorem Variant.OK.lit_ne {E : Engine} {v : Variant} (h : v.OK E) {lit : Str} (hl : lit ∈ v.lits) : lit ≠ [] := by
  obtain ⟨t, ht, he⟩ := List.mem_filterMap.1 hl
  obtain ⟨-, hk | ⟨lit', hne, hk⟩⟩ := h.terms t ht
  · simp [TMeta.lit, hk] at he
  · simp only [TMeta.lit, hk, Option.some.injEq] at he
    exact he ▸ hne

/-- A rule of a variant is not empty and matches texts. -/
theorem Variant.OK.rule {G : Logos} {E : Engine} (hG : G.Agrees E) {v : Variant} (h : v.OK E)
    (hu : ∀ lit ∈ v.lits, Utf8 lit) {r : LexRule} (hr : r ∈ v.rules) :
    ¬ G.mat r [] ∧ ∀ text, G.mat r text → Utf8 text := by
  cases hx : v.regexes with
  | some rs =>
    rw [rules_some hx] at hr
    obtain ⟨x, hx', rfl⟩ := List.mem_map.1 hr
    exact ⟨GoodRegex.not_nil hG ((h.regexes rs hx).2 x hx').1, hG.utf8 x⟩
  | none =>
    rw [rules_none hx] at hr
    split at hr
    · cases hr
    · obtain ⟨x, hx', rfl⟩ := List.mem_map.1 hr
      refine ⟨fun hm => h.lit_ne hx' ((hG.token x []).1 hm).symm, fun text hm => ?_⟩
      rw [(hG.token x text).1 hm]
      exact hu x hx'

/-- The rules of the generated scanner are not empty and match texts. -/
theorem rules_good {G : Logos} {E : Engine} (hG : G.Agrees E) {d : Decl} {L : Lexicon}
    (h : expand E d = .ok L) (hu : d.Texts) {r : LexRule} {t : Option Str} (hr : (r, t) ∈ L.rules) :
    ¬ G.mat r [] ∧ ∀ text, G.mat r text → Utf8 text := by
  obtain ⟨hok, vs, hvs, rfl⟩ := expand_ok.1 h
  obtain ⟨vs', hvs', -, -, hv⟩ := hok.enum
  cases hvs.symm.trans hvs'
  unfold Lexicon.rules at hr
  rcases List.mem_append.1 hr with hr | hr
  · obtain ⟨x, hx, he⟩ := List.mem_map.1 hr
    cases he
    exact ⟨GoodRegex.not_nil hG (hok.ignores x hx), hG.utf8 x⟩
  · obtain ⟨e, he, hr⟩ := List.mem_flatMap.1 hr
    obtain ⟨r', hr', hrr⟩ := List.mem_map.1 hr
    cases hrr
    obtain ⟨e1, e2⟩ := e
    obtain ⟨v, hv', rfl⟩ := List.mem_map.1 (List.of_mem_zip he).1
    exact (hv v (List.mem_filter.1 hv').1).rule hG (hu vs hvs v (List.mem_filter.1 hv').1) hr'

/-- The rules with the numbers of their variants. -/
def Lexicon.Numbered (L : Lexicon) (r : LexRule) (target : Option Nat) : Prop :=
  (target = none ∧ (r, none) ∈ L.rules) ∨ ∃ name k, (r, some name) ∈ L.rules ∧ (name, k) ∈ L.variants ∧ target = some k

/-- Without a blank variant before one with rules they are the rules that are written. -/
theorem numbered_iff {E : Engine} {d : Decl} {L : Lexicon} {vs : List Variant} (h : expand E d = .ok L)
    (hvs : d.variants = some vs) (hn : (vs.map Variant.ident).Nodup)
    (hb : vs.Pairwise fun a b => ¬ (a.Blank ∧ b.Lexed)) (r : LexRule) (target : Option Nat) :
    L.Numbered r target ↔ d.Rule r target := by
  obtain ⟨hok, vs', hvs', rfl⟩ := expand_ok.1 h
  cases hvs.symm.trans hvs'
  have hL : (outSpec d vs).rules = d.ignores.map (fun r => (LexRule.regex r, none)) ++
      (vs.filter fun v => v.Lexed).flatMap fun v => v.rules.map fun r => (r, some v.ident) := by
    show _ ++ List.flatMap _ (List.zip _ _) = _
    rw [aligned hb, List.flatMap_map]
    rfl
  have hskip : ∀ r, (r, none) ∈ (outSpec d vs).rules ↔ ∃ i ∈ d.ignores, r = .regex i := by
    intro r
    rw [hL]
    constructor
    · intro h
      rcases List.mem_append.1 h with h | h
      · obtain ⟨x, hx, he⟩ := List.mem_map.1 h
        cases he
        exact ⟨x, hx, rfl⟩
      · obtain ⟨v, -, h⟩ := List.mem_flatMap.1 h
        obtain ⟨x, -, he⟩ := List.mem_map.1 h
        cases he
    · rintro ⟨i, hi, rfl⟩
      exact List.mem_append_left _ (List.mem_map.2 ⟨i, hi, rfl⟩)
  have hvar : ∀ r name, (r, some name) ∈ (outSpec d vs).rules ↔ ∃ v ∈ vs, v.ident = name ∧ r ∈ v.rules := by
    intro r name
    rw [hL]
    constructor
    · intro h
      rcases List.mem_append.1 h with h | h
      · obtain ⟨x, hx, he⟩ := List.mem_map.1 h
        cases he
      · obtain ⟨v, hv, h⟩ := List.mem_flatMap.1 h
        obtain ⟨x, hx, he⟩ := List.mem_map.1 h
        cases he
        exact ⟨v, (List.mem_filter.1 hv).1, rfl, hx⟩
    · rintro ⟨v, hv, rfl, hr⟩
      refine List.mem_append_right _ (List.mem_flatMap.2 ⟨v, List.mem_filter.2 ⟨hv, ?_⟩,
        List.mem_map.2 ⟨r, hr, rfl⟩⟩)
      have : v.Lexed := .inr (List.ne_nil_of_mem hr)
      simpa using this
  have hnum : ∀ name k, (name, k) ∈ (outSpec d vs).variants ↔ ∃ v, vs[k]? = some v ∧ v.ident = name := by
    intro name k
    constructor
    · intro h
      obtain ⟨⟨v, j⟩, hv, he⟩ := List.mem_map.1 h
      cases he
      exact ⟨v, List.mem_zipIdx_iff_getElem?.1 hv, rfl⟩
    · rintro ⟨v, hv, rfl⟩
      exact List.mem_map.2 ⟨(v, k), List.mem_zipIdx_iff_getElem?.2 hv, rfl⟩
  unfold Lexicon.Numbered Decl.Rule
  simp only [hskip, hvar, hnum]
  constructor
  · rintro (⟨rfl, i, hi, rfl⟩ | ⟨name, k, ⟨v, hv, rfl, hr⟩, ⟨w, hw, he⟩, rfl⟩)
    · exact .inl ⟨rfl, i, hi, rfl⟩
    · cases ident_inj hn hv (List.mem_of_getElem? hw) he
      exact .inr ⟨vs, hvs, k, v, hw, rfl, hr⟩
  · rintro (⟨rfl, i, hi, rfl⟩ | ⟨vs', hvs', k, v, hk, rfl, hr⟩)
    · exact .inl ⟨rfl, i, hi, rfl⟩
    · cases hvs.symm.trans hvs'
      exact .inr ⟨v.ident, k, ⟨v, List.mem_of_getElem? hk, rfl, hr⟩, ⟨v, hk, rfl⟩, rfl⟩

/-! ### Scans -/

theorem Lexicon.Picks.pos {L : Lexicon} {G : Logos} {s : Str} {len : Nat} {r : LexRule} {t : Option Str}
    (hne : ∀ r t, (r, t) ∈ L.rules → ¬ G.mat r []) (h : L.Picks G s len r t) : 0 < len := by
  rcases Nat.eq_zero_or_pos len with rfl | h0
  · exact (hne r t h.rule (by simpa using h.mat)).elim
  · exact h0

/-- A picked text ends on a boundary. -/
theorem Lexicon.Picks.next {L : Lexicon} {G : Logos} {source : Str} {p len : Nat} {r : LexRule} {t : Option Str}
    (hu : ∀ r t, (r, t) ∈ L.rules → ∀ text, G.mat r text → Utf8 text)
    (hs : Utf8 (source.drop p)) (h : L.Picks G (source.drop p) len r t) : Utf8 (source.drop (p + len)) := by
  have h1 := hu r t h.rule _ h.mat
  rw [← List.drop_drop]
  exact h1.cancel (by rwa [List.take_append_drop])

/-- The invariant of scanning. -/
theorem Lexicon.Scan.wf {L : Lexicon} {G : Logos} {source : Str} (hsrc : Utf8 source)
    (hr : ∀ r t, (r, t) ∈ L.rules → ¬ G.mat r [] ∧ ∀ text, G.mat r text → Utf8 text)
    {p : Nat} {items : List (Item n)} (h : L.Scan G source p items) (hp : p ≤ source.length)
    (hu : Utf8 (source.drop p)) : ItemsWF source items ∧ ∀ i ∈ items, p ≤ i.span.lo := by
  have hstep : ∀ {p len : Nat} {i : Item n} {items : List (Item n)}, i.span = ⟨p, p + len⟩ → 0 < len →
      p + len ≤ source.length → isBoundary source p = true → isBoundary source (p + len) = true →
      (ItemsWF source items ∧ ∀ i ∈ items, p + len ≤ i.span.lo) →
      ItemsWF source (i :: items) ∧ ∀ j ∈ i :: items, p ≤ j.span.lo := by
    intro p len i items hi h1 h2 h3 h4 ⟨h5, h6⟩
    refine ⟨⟨?_, List.pairwise_cons.2 ⟨fun j hj => ?_, h5.2⟩⟩, ?_⟩
    · intro j hj
      rcases List.mem_cons.1 hj with rfl | hj
      · rw [hi]; exact ⟨by simp; omega, h2, h3, h4⟩
      · exact h5.1 j hj
    · rw [hi]; exact h6 j hj
    · intro j hj
      rcases List.mem_cons.1 hj with rfl | hj
      · rw [hi]; exact Nat.le_refl _
      · have := h6 j hj; omega
  have hlen : ∀ {p len : Nat} {r : LexRule} {t : Option Str}, p ≤ source.length →
      L.Picks G (source.drop p) len r t → p + len ≤ source.length := by
    intro p len r t hp h
    have := h.le
    rw [List.length_drop] at this
    omega
  induction h with
  | done => exact ⟨⟨by simp, List.Pairwise.nil⟩, by simp⟩
  | token h _ _ ih =>
    have h0 := h.pos fun r t h => (hr r t h).1
    have h1 := hlen hp h
    have h2 := h.next (fun r t h => (hr r t h).2) hu
    exact hstep rfl h0 h1 (hu.boundary hp) (h2.boundary h1) (ih h1 h2)
  | skip h _ ih =>
    have h1 := hlen hp h
    obtain ⟨h3, h4⟩ := ih h1 (h.next (fun r t h => (hr r t h).2) hu)
    exact ⟨h3, fun i hi => by have := h4 i hi; omega⟩
  | error _ h0 h1 hb _ ih =>
    exact hstep rfl h0 h1 (hu.boundary hp) hb (ih h1 (hsrc.drop hb))

/-- Among finitely many rules there is a best match, if any. -/
theorem exists_pick (L : Lexicon) (G : Logos) (s : Str) (h : ¬ L.Stuck G s) : ∃ len r t, L.Picks G s len r t := by
  unfold Lexicon.Stuck at h
  simp only [Classical.not_forall, Classical.not_not] at h
  obtain ⟨r, t, hr, len, hl, hm⟩ := h
  have key : ∀ k, ∀ r t len, (r, t) ∈ L.rules → len ≤ s.length → G.mat r (s.take len) → s.length ≤ len + k →
      ∃ len r t, (r, t) ∈ L.rules ∧ len ≤ s.length ∧ G.mat r (s.take len) ∧
        ∀ r' t', (r', t') ∈ L.rules → ∀ len' ≤ s.length, G.mat r' (s.take len') → len' ≤ len := by
    intro k
    induction k with
    | zero =>
      intro r t len h1 h2 h3 h4
      exact ⟨len, r, t, h1, h2, h3, fun _ _ _ len' h _ => by omega⟩
    | succ k ih =>
      intro r t len h1 h2 h3 h4
      by_cases hx : ∃ r' t' len', (r', t') ∈ L.rules ∧ len' ≤ s.length ∧ G.mat r' (s.take len') ∧ len < len'
      · obtain ⟨r', t', len', h5, h6, h7, h8⟩ := hx
        exact ih r' t' len' h5 h6 h7 (by omega)
      · refine ⟨len, r, t, h1, h2, h3, fun r' t' h5 len' h6 h7 => ?_⟩
        exact Nat.not_lt.1 fun h8 => hx ⟨r', t', len', h5, h6, h7, h8⟩
  obtain ⟨len, r, t, h1, h2, h3, h4⟩ := key s.length r t len hr hl hm (by omega)
  have key2 : ∀ l : List (LexRule × Option Str), (∃ e ∈ l, G.mat e.1 (s.take len)) →
      ∃ e ∈ l, G.mat e.1 (s.take len) ∧ ∀ e' ∈ l, G.mat e'.1 (s.take len) → G.prio e'.1 ≤ G.prio e.1 := by
    intro l
    induction l with
    | nil => rintro ⟨e, he, -⟩; cases he
    | cons a l ih =>
      rintro ⟨e, he, hm⟩
      by_cases hl : ∃ e ∈ l, G.mat e.1 (s.take len)
      · obtain ⟨b, hb, hbm, hbest⟩ := ih hl
        by_cases ha : G.mat a.1 (s.take len) ∧ G.prio b.1 ≤ G.prio a.1
        · refine ⟨a, List.mem_cons_self, ha.1, fun e' he' hm' => ?_⟩
          rcases List.mem_cons.1 he' with rfl | he'
          · exact Nat.le_refl _
          · exact Nat.le_trans (hbest e' he' hm') ha.2
        · refine ⟨b, List.mem_cons_of_mem _ hb, hbm, fun e' he' hm' => ?_⟩
          rcases List.mem_cons.1 he' with rfl | he'
          · by_cases hq : G.prio b.1 ≤ G.prio e'.1
            · exact (ha ⟨hm', hq⟩).elim
            · omega
          · exact hbest e' he' hm'
      · rcases List.mem_cons.1 he with rfl | he
        · refine ⟨e, List.mem_cons_self, hm, fun e' he' hm' => ?_⟩
          rcases List.mem_cons.1 he' with rfl | he'
          · exact Nat.le_refl _
          · exact (hl ⟨e', he', hm'⟩).elim
        · exact (hl ⟨e, he, hm⟩).elim
  obtain ⟨⟨r1, t1⟩, h5, h6, h7⟩ := key2 L.rules ⟨(r, t), h1, h3⟩
  refine ⟨len, r1, t1, h5, h2, h6, fun r' t' h8 len' h9 h10 => ?_⟩
  rcases Nat.lt_or_eq_of_le (h4 r' t' h8 len' h9 h10) with h11 | h11
  · exact .inl h11
  · subst h11
    exact .inr ⟨rfl, h7 (r', t') h8 h10⟩

/-- Every source can be scanned. -/
theorem exists_scan {L : Lexicon} {G : Logos} (source : Str)
    (hr : ∀ r t, (r, t) ∈ L.rules → ¬ G.mat r [])
    (hv : ∀ r name, (r, some name) ∈ L.rules → ∃ ty : Fin n, (name, ty.val) ∈ L.variants) :
    ∀ k p, source.length ≤ p + k → p ≤ source.length → ∃ items : List (Item n), L.Scan G source p items := by
  intro k
  induction k with
  | zero =>
    intro p h1 h2
    obtain rfl : p = source.length := by omega
    exact ⟨[], .done⟩
  | succ k ih =>
    intro p h1 h2
    by_cases hp : p = source.length
    · subst hp; exact ⟨[], .done⟩
    by_cases hs : L.Stuck G (source.drop p)
    · have he : p + (source.length - p) = source.length := by omega
      refine ⟨[.error ⟨p, p + (source.length - p)⟩], .error hs (by omega) (by omega) ?_ ?_⟩
      · rw [he]
        unfold isBoundary
        simp
      · rw [he]; exact .done
    · obtain ⟨len, r, t, h⟩ := exists_pick L G _ hs
      have h0 := h.pos hr
      have hle := h.le
      rw [List.length_drop] at hle
      obtain ⟨items, hi⟩ := ih (p + len) (by omega) (by omega)
      cases t with
      | none => exact ⟨items, .skip h hi⟩
      | some name =>
        obtain ⟨ty, hty⟩ := hv r name h.rule
        exact ⟨_, .token h hty hi⟩

theorem Lexicon.Picks.unique {L : Lexicon} {G : Logos} (hc : L.Clear G) {s : Str} {len len' : Nat} {r r' : LexRule}
    {t t' : Option Str} (h : L.Picks G s len r t) (h' : L.Picks G s len' r' t') : len = len' ∧ t = t' := by
  have h1 := h.best _ _ h'.rule _ h'.le h'.mat
  have h2 := h'.best _ _ h.rule _ h.le h.mat
  obtain rfl : len = len' := by omega
  refine ⟨rfl, hc _ _ _ _ _ h.rule h'.rule h.mat h'.mat ?_⟩
  omega

theorem Lexicon.Picks.not_stuck {L : Lexicon} {G : Logos} {s : Str} {len : Nat} {r : LexRule}
    {t : Option Str} (h : L.Picks G s len r t) : ¬ L.Stuck G s :=
  fun hs => hs _ _ h.rule _ h.le h.mat

theorem not_picks_end {L : Lexicon} {G : Logos} {source : Str} (hr : ∀ r t, (r, t) ∈ L.rules → ¬ G.mat r [])
    {len : Nat} {r : LexRule} {t : Option Str} : ¬ L.Picks G (source.drop source.length) len r t := by
  intro h
  have h0 := h.pos hr
  have := h.le
  simp at this
  omega

/-- A scan without unrecognised pieces is the only one. -/
theorem Lexicon.Scan.unique {L : Lexicon} {G : Logos} {source : Str} (hr : ∀ r t, (r, t) ∈ L.rules → ¬ G.mat r [])
    (hc : L.Clear G) (hv : ∀ name j k, (name, j) ∈ L.variants → (name, k) ∈ L.variants → j = k) {p : Nat}
    {items items' : List (Item n)} (h : L.Scan G source p items) (he : ∀ i ∈ items, ∃ t, i = .token t)
    (h' : L.Scan G source p items') : items' = items := by
  induction h generalizing items' with
  | done =>
    generalize hp : source.length = q at h'
    cases h' with
    | done => rfl
    | token h _ _ => subst hp; exact (not_picks_end hr h).elim
    | skip h _ => subst hp; exact (not_picks_end hr h).elim
    | error _ _ _ => omega
  | @token p len r name items ty h hty _ ih =>
    cases h' with
    | done => exact (not_picks_end hr h).elim
    | token h2 hty2 hs2 =>
      obtain ⟨rfl, h3⟩ := h.unique hc h2
      cases h3
      rw [ih (fun i hi => he i (List.mem_cons_of_mem _ hi)) hs2, Fin.ext (hv _ _ _ hty hty2)]
    | skip h2 _ => cases (h.unique hc h2).2
    | error h2 _ _ _ _ => exact (h.not_stuck h2).elim
  | @skip p len r items h _ ih =>
    cases h' with
    | done => exact (not_picks_end hr h).elim
    | token h2 _ _ => cases (h.unique hc h2).2
    | skip h2 hs2 =>
      obtain ⟨rfl, -⟩ := h.unique hc h2
      exact ih he hs2
    | error h2 _ _ _ _ => exact (h.not_stuck h2).elim
  | error _ _ _ _ _ _ =>
    obtain ⟨t, ht⟩ := he _ List.mem_cons_self
    cases ht

/-- Where the items of a scan come from. -/
theorem Lexicon.Scan.mem {L : Lexicon} {G : Logos} {source : Str} {p : Nat} {items : List (Item n)}
    (h : L.Scan G source p items) : ∀ i ∈ items,
      (∃ t r name len, i = .token t ∧ t.span.hi = t.span.lo + len ∧
        L.Picks G (source.drop t.span.lo) len r (some name) ∧ (name, t.ty.val) ∈ L.variants) ∨
      (∃ sp, i = .error sp ∧ L.Stuck G (source.drop sp.lo)) := by
  induction h with
  | done => simp
  | token h hty _ ih =>
    intro i hi
    rcases List.mem_cons.1 hi with rfl | hi
    · exact .inl ⟨_, _, _, _, rfl, rfl, h, hty⟩
    · exact ih i hi
  | skip _ _ ih => exact ih
  | error hs _ _ _ _ ih =>
    intro i hi
    rcases List.mem_cons.1 hi with rfl | hi
    · exact .inr ⟨_, rfl, hs⟩
    · exact ih i hi

/-- Every byte is in an item or in skipped text. -/
theorem Lexicon.Scan.covers {L : Lexicon} {G : Logos} {source : Str}
    (hr : ∀ r t, (r, t) ∈ L.rules → ¬ G.mat r []) {p : Nat} {items : List (Item n)}
    (h : L.Scan G source p items) (hp : p ≤ source.length) :
    (∀ i ∈ items, p ≤ i.span.lo ∧ i.span.lo < i.span.hi) ∧
    ∀ x, p ≤ x → x < source.length → (∃ i ∈ items, i.span.lo ≤ x ∧ x < i.span.hi) ∨
      ∃ lo hi r, lo ≤ x ∧ x < hi ∧ hi ≤ source.length ∧ p ≤ lo ∧ (.regex r, none) ∈ L.rules ∧
        G.mat (.regex r) (piece source lo hi) ∧ ∀ i ∈ items, i.span.hi ≤ lo ∨ hi ≤ i.span.lo := by
  have hlen : ∀ {p len : Nat} {r : LexRule} {t : Option Str}, p ≤ source.length →
      L.Picks G (source.drop p) len r t → p + len ≤ source.length := by
    intro p len r t hp h
    have := h.le
    rw [List.length_drop] at this
    omega
  have hitem : ∀ {p len : Nat} {i : Item n} {items : List (Item n)}, i.span = ⟨p, p + len⟩ → 0 < len →
      ((∀ i ∈ items, p + len ≤ i.span.lo ∧ i.span.lo < i.span.hi) ∧
      ∀ x, p + len ≤ x → x < source.length → (∃ i ∈ items, i.span.lo ≤ x ∧ x < i.span.hi) ∨
        ∃ lo hi r, lo ≤ x ∧ x < hi ∧ hi ≤ source.length ∧ p + len ≤ lo ∧ (.regex r, none) ∈ L.rules ∧
          G.mat (.regex r) (piece source lo hi) ∧ ∀ i ∈ items, i.span.hi ≤ lo ∨ hi ≤ i.span.lo) →
      ((∀ j ∈ i :: items, p ≤ j.span.lo ∧ j.span.lo < j.span.hi) ∧
      ∀ x, p ≤ x → x < source.length → (∃ j ∈ i :: items, j.span.lo ≤ x ∧ x < j.span.hi) ∨
        ∃ lo hi r, lo ≤ x ∧ x < hi ∧ hi ≤ source.length ∧ p ≤ lo ∧ (.regex r, none) ∈ L.rules ∧
          G.mat (.regex r) (piece source lo hi) ∧ ∀ j ∈ i :: items, j.span.hi ≤ lo ∨ hi ≤ j.span.lo) := by
    intro p len i items hi h0 ⟨h1, h2⟩
    refine ⟨fun j hj => ?_, fun x hx hxl => ?_⟩
    · rcases List.mem_cons.1 hj with rfl | hj
      · rw [hi]; simp only; omega
      · have := h1 j hj; omega
    · by_cases hxp : x < p + len
      · exact .inl ⟨i, List.mem_cons_self, by rw [hi]; exact ⟨hx, hxp⟩⟩
      · rcases h2 x (by omega) hxl with ⟨j, hj, h3⟩ | ⟨lo, hi', r, h3, h4, h5, h6, h7, h8, h9⟩
        · exact .inl ⟨j, List.mem_cons_of_mem _ hj, h3⟩
        · refine .inr ⟨lo, hi', r, h3, h4, h5, by omega, h7, h8, fun j hj => ?_⟩
          rcases List.mem_cons.1 hj with rfl | hj
          · rw [hi]; exact .inl h6
          · exact h9 j hj
  induction h with
  | done => exact ⟨by simp, fun x h1 h2 => by omega⟩
  | token h _ _ ih => exact hitem rfl (h.pos hr) (ih (hlen hp h))
  | error _ h0 h1 _ _ ih => exact hitem rfl h0 (ih h1)
  | @skip p len r items h _ ih =>
    have hl := hlen hp h
    have h0 := h.pos hr
    obtain ⟨h1, h2⟩ := ih hl
    refine ⟨fun i hi => ⟨by have := h1 i hi; omega, (h1 i hi).2⟩, fun x hx hxl => ?_⟩
    by_cases hxp : x < p + len
    · obtain ⟨r', rfl⟩ : ∃ r', r = .regex r' := by
        have hm := h.rule
        unfold Lexicon.rules at hm
        rcases List.mem_append.1 hm with hm | hm
        · obtain ⟨y, -, he⟩ := List.mem_map.1 hm
          cases he
          exact ⟨y, rfl⟩
        · obtain ⟨e, -, hm⟩ := List.mem_flatMap.1 hm
          obtain ⟨y, -, he⟩ := List.mem_map.1 hm
          cases he
      refine .inr ⟨p, p + len, r', hx, hxp, hl, Nat.le_refl _, h.rule, ?_, fun i hi => .inr (h1 i hi).1⟩
      unfold piece
      rw [Nat.add_sub_cancel_left]
      exact h.mat
    · rcases h2 x (by omega) hxl with h3 | ⟨lo, hi', r, h3, h4, h5, h6, h7⟩
      · exact .inl h3
      · exact .inr ⟨lo, hi', r, h3, h4, h5, by omega, h7⟩

/-- The names of the rules are names of variants. -/
theorem rules_named {E : Engine} {d : Decl} {L : Lexicon} {vs : List Variant} (h : expand E d = .ok L)
    (hvs : d.variants = some vs) {r : LexRule} {name : Str} (hr : (r, some name) ∈ L.rules) :
    ∃ k v, vs[k]? = some v ∧ v.ident = name ∧ (name, k) ∈ L.variants := by
  obtain ⟨hok, vs', hvs', rfl⟩ := expand_ok.1 h
  cases hvs.symm.trans hvs'
  unfold Lexicon.rules at hr
  rcases List.mem_append.1 hr with hr | hr
  · obtain ⟨y, -, he⟩ := List.mem_map.1 hr
    cases he
  · obtain ⟨e, he, hr⟩ := List.mem_flatMap.1 hr
    obtain ⟨y, -, hy⟩ := List.mem_map.1 hr
    cases hy
    obtain ⟨e1, e2⟩ := e
    obtain ⟨v, hv, rfl⟩ := List.mem_map.1 (List.of_mem_zip he).2
    obtain ⟨k, hk⟩ := List.getElem?_of_mem (List.mem_filter.1 hv).1
    exact ⟨k, v, hk, rfl, List.mem_map.2 ⟨(v, k), List.mem_zipIdx_iff_getElem?.2 hk, rfl⟩⟩

/-- Names determine numbers. -/
theorem variants_unique {E : Engine} {d : Decl} {L : Lexicon} {vs : List Variant} (h : expand E d = .ok L)
    (hvs : d.variants = some vs) (hn : (vs.map Variant.ident).Nodup) {name : Str} {j k : Nat}
    (hj : (name, j) ∈ L.variants) (hk : (name, k) ∈ L.variants) : j = k := by
  obtain ⟨hok, vs', hvs', rfl⟩ := expand_ok.1 h
  cases hvs.symm.trans hvs'
  obtain ⟨⟨v, j'⟩, hv, he⟩ := List.mem_map.1 hj
  cases he
  obtain ⟨⟨w, k'⟩, hw, he⟩ := List.mem_map.1 hk
  have hv := List.mem_zipIdx_iff_getElem?.1 hv
  have hw := List.mem_zipIdx_iff_getElem?.1 hw
  simp only [Prod.mk.injEq] at he
  obtain ⟨he, rfl⟩ := he
  simp only at hv hw
  have hv' : (vs.map Variant.ident)[j']? = some v.ident := by simp [hv]
  have hw' : (vs.map Variant.ident)[k']? = some v.ident := by simp [hw, he]
  have hl : j' < (vs.map Variant.ident).length := (List.getElem?_eq_some_iff.1 hv').1
  exact (List.getElem?_inj hl hn).1 (hv'.trans hw'.symm)

end Teleparse.Macro

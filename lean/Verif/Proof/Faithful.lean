import Verif.Proof.Scanning
import Verif.Spec.Steps
/-
Lemmas about lexicons whose scanner has the rules that are written (C81, C82, C83, C119).
-/
namespace Teleparse.Macro
variable {n : Nat}

/-- The code of a declaration, every variant with the rules that are written on it. -/
def outSpecFix (d : Decl) (vs : List Variant) : Lexicon :=
  { outSpec d vs with logos := (vs.filter fun v => v.Lexed).map fun v => (v.rules, v.ident) }

/-- The code is that of a declaration that is accepted. -/
def Faithful (E : Engine) (d : Decl) (vs : List Variant) (L : Lexicon) : Prop :=
  d.OK E ∧ d.variants = some vs ∧ L = outSpecFix d vs

/-- The present macro, without a blank variant before one with rules. -/
theorem Faithful.of_expand {E : Engine} {d : Decl} {L : Lexicon} {vs : List Variant} (h : expand E d = .ok L)
    (hvs : d.variants = some vs) (hb : vs.Pairwise fun a b => ¬ (a.Blank ∧ b.Lexed)) : Faithful E d vs L := by
  obtain ⟨hok, vs', hvs', rfl⟩ := expand_ok.1 h
  cases hvs.symm.trans hvs'
  refine ⟨hok, hvs, ?_⟩
  unfold outSpecFix
  rw [← aligned hb]
  rfl

theorem Faithful.logos {E : Engine} {d : Decl} {L : Lexicon} {vs : List Variant} (h : Faithful E d vs L) :
    L.logos = (vs.filter fun v => v.Lexed).map fun v => (v.rules, v.ident) := by
  obtain ⟨-, -, rfl⟩ := h
  rfl

theorem Faithful.variants {E : Engine} {d : Decl} {L : Lexicon} {vs : List Variant} (h : Faithful E d vs L) :
    L.variants = vs.zipIdx.map fun p => (p.1.ident, p.2) := by
  obtain ⟨-, -, rfl⟩ := h
  rfl

/-- The rules of the variants. -/
theorem Faithful.rules {E : Engine} {d : Decl} {L : Lexicon} {vs : List Variant} (h : Faithful E d vs L) :
    L.rules = d.ignores.map (fun r => (LexRule.regex r, none)) ++
      (vs.filter fun v => v.Lexed).flatMap fun v => v.rules.map fun r => (r, some v.ident) := by
  unfold Lexicon.rules
  rw [h.logos, List.flatMap_map, h.2.2]
  rfl

theorem Faithful.skip {E : Engine} {d : Decl} {L : Lexicon} {vs : List Variant} (h : Faithful E d vs L)
    (r : LexRule) : (r, none) ∈ L.rules ↔ ∃ i ∈ d.ignores, r = .regex i := by
  rw [h.rules]
  constructor
  · intro h
    rcases List.mem_append.1 h with h | h
    · obtain ⟨x, hx, he⟩ := List.mem_map.1 h
      cases he
      exact ⟨x, hx, rfl⟩
    · obtain ⟨v, -, h⟩ := List.mem_flatMap.1 h
      obtain ⟨x, -, he⟩ := List.mem_map.1 h
      cases he
  · rintro ⟨i, hi, rfl⟩
    exact List.mem_append_left _ (List.mem_map.2 ⟨i, hi, rfl⟩)

theorem Faithful.rule {E : Engine} {d : Decl} {L : Lexicon} {vs : List Variant} (h : Faithful E d vs L)
    (r : LexRule) (name : Str) : (r, some name) ∈ L.rules ↔ ∃ v ∈ vs, v.ident = name ∧ r ∈ v.rules := by
  rw [h.rules]
  constructor
  · intro h
    rcases List.mem_append.1 h with h | h
    · obtain ⟨x, hx, he⟩ := List.mem_map.1 h
      cases he
    · obtain ⟨v, hv, h⟩ := List.mem_flatMap.1 h
      obtain ⟨x, hx, he⟩ := List.mem_map.1 h
      cases he
      exact ⟨v, (List.mem_filter.1 hv).1, rfl, hx⟩
  · rintro ⟨v, hv, rfl, hr⟩
    refine List.mem_append_right _ (List.mem_flatMap.2 ⟨v, List.mem_filter.2 ⟨hv, ?_⟩,
      List.mem_map.2 ⟨r, hr, rfl⟩⟩)
    have : v.Lexed := .inr (List.ne_nil_of_mem hr)
    simpa using this

theorem Faithful.number {E : Engine} {d : Decl} {L : Lexicon} {vs : List Variant} (h : Faithful E d vs L)
    (name : Str) (k : Nat) : (name, k) ∈ L.variants ↔ ∃ v, vs[k]? = some v ∧ v.ident = name := by
  rw [h.variants]
  constructor
  · intro h
    obtain ⟨⟨v, j⟩, hv, he⟩ := List.mem_map.1 h
    cases he
    exact ⟨v, List.mem_zipIdx_iff_getElem?.1 hv, rfl⟩
  · rintro ⟨v, hv, rfl⟩
    exact List.mem_map.2 ⟨(v, k), List.mem_zipIdx_iff_getElem?.2 hv, rfl⟩

/-- The rules with the numbers of their variants are the rules that are written. -/
theorem Faithful.num {E : Engine} {d : Decl} {L : Lexicon} {vs : List Variant} (h : Faithful E d vs L)
    (hn : (vs.map Variant.ident).Nodup) (r : LexRule) (target : Option Nat) :
    L.Numbered r target ↔ d.Rule r target := by
  unfold Lexicon.Numbered Decl.Rule
  simp only [h.skip, h.rule, h.number]
  constructor
  · rintro (⟨rfl, i, hi, rfl⟩ | ⟨name, k, ⟨v, hv, rfl, hr⟩, ⟨w, hw, he⟩, rfl⟩)
    · exact .inl ⟨rfl, i, hi, rfl⟩
    · cases ident_inj hn hv (List.mem_of_getElem? hw) he
      exact .inr ⟨vs, h.2.1, k, v, hw, rfl, hr⟩
  · rintro (⟨rfl, i, hi, rfl⟩ | ⟨vs', hvs', k, v, hk, rfl, hr⟩)
    · exact .inl ⟨rfl, i, hi, rfl⟩
    · cases h.2.1.symm.trans hvs'
      exact .inr ⟨v.ident, k, ⟨v, List.mem_of_getElem? hk, rfl, hr⟩, ⟨v, hk, rfl⟩, rfl⟩

theorem Faithful.named {E : Engine} {d : Decl} {L : Lexicon} {vs : List Variant} (h : Faithful E d vs L)
    {r : LexRule} {name : Str} (hr : (r, some name) ∈ L.rules) :
    ∃ k v, vs[k]? = some v ∧ v.ident = name ∧ (name, k) ∈ L.variants := by
  obtain ⟨v, hv, rfl, -⟩ := (h.rule r name).1 hr
  obtain ⟨k, hk⟩ := List.getElem?_of_mem hv
  exact ⟨k, v, hk, rfl, (h.number _ _).2 ⟨v, hk, rfl⟩⟩

theorem Faithful.good {G : Logos} {E : Engine} {d : Decl} {L : Lexicon} {vs : List Variant} (h : Faithful E d vs L)
    (hG : G.Agrees E) (hu : d.Texts) {r : LexRule} {t : Option Str} (hr : (r, t) ∈ L.rules) :
    ¬ G.mat r [] ∧ ∀ text, G.mat r text → Utf8 text := by
  cases t with
  | none =>
    obtain ⟨x, hx, rfl⟩ := (h.skip r).1 hr
    exact ⟨GoodRegex.not_nil hG (h.1.ignores x hx), hG.utf8 x⟩
  | some name =>
    obtain ⟨v, hv, -, hr'⟩ := (h.rule r name).1 hr
    obtain ⟨vs', hvs', -, -, hok⟩ := h.1.enum
    cases h.2.1.symm.trans hvs'
    exact (hok v hv).rule hG (hu vs h.2.1 v hv) hr'

/-- The lexicon of the present macro for the same declaration differs in the rules only. -/
theorem Faithful.expand {E : Engine} {d : Decl} {L : Lexicon} {vs : List Variant} (h : Faithful E d vs L) :
    expand E d = .ok { L with logos := (outSpec d vs).logos } :=
  expand_ok.2 ⟨h.1, vs, h.2.1, by rw [h.2.2]; rfl⟩

theorem Faithful.token {G : Logos} {E : Engine} {d : Decl} {L : Lexicon} {vs : List Variant}
    (hF : Faithful E d vs L) (hn : (vs.map Variant.ident).Nodup) {source : Str} {items : List (Item n)}
    (hscan : L.Scan G source 0 items) (t : Token n) (ht : .token t ∈ items) :
    ∃ v, vs[t.ty.val]? = some v ∧ ∃ r ∈ v.rules, G.mat r (piece source t.span.lo t.span.hi) ∧
      ∀ r' target, d.Rule r' target → ∀ hi ≤ source.length, t.span.lo ≤ hi →
        G.mat r' (piece source t.span.lo hi) →
        hi < t.span.hi ∨ (hi = t.span.hi ∧ G.prio r' ≤ G.prio r) := by
  rcases hscan.mem _ ht with ⟨t', r, name, len, he, hspan, hp, hty⟩ | ⟨sp, he, -⟩
  · cases he
    have hnum := (hF.num hn r (some t.ty.val)).1 (.inr ⟨name, _, hp.rule, hty, rfl⟩)
    rcases hnum with ⟨he, -⟩ | ⟨vs', hvs', k, v, hk, he, hr⟩
    · cases he
    cases hF.2.1.symm.trans hvs'
    cases he
    refine ⟨v, hk, r, hr, ?_, fun r' target hr' hi hle hlo hm => ?_⟩
    · unfold piece
      rw [hspan, Nat.add_sub_cancel_left]
      exact hp.mat
    · have hin : ∃ t', (r', t') ∈ L.rules := by
        rcases (hF.num hn r' target).2 hr' with ⟨-, hin⟩ | ⟨name, -, hin, -⟩
        · exact ⟨_, hin⟩
        · exact ⟨_, hin⟩
      obtain ⟨t', hin⟩ := hin
      have := hp.best r' t' hin (hi - t.span.lo) (by rw [List.length_drop]; omega) hm
      omega
  · cases he

theorem Faithful.invalid {G : Logos} {E : Engine} {d : Decl} {L : Lexicon} {vs : List Variant}
    (hF : Faithful E d vs L) (hn : (vs.map Variant.ident).Nodup) {source : Str} {items : List (Item n)}
    (hscan : L.Scan G source 0 items) (sp : Span) (hsp : .error sp ∈ items) (r : LexRule) (target : Option Nat)
    (hr : d.Rule r target) (hi : Nat) (hle : hi ≤ source.length) (hlo : sp.lo ≤ hi) :
    ¬ G.mat r (piece source sp.lo hi) := by
  rcases hscan.mem _ hsp with ⟨t, r, name, len, he, -⟩ | ⟨sp', he, hs⟩
  · cases he
  · cases he
    have hin : ∃ t', (r, t') ∈ L.rules := by
      rcases (hF.num hn r target).2 hr with ⟨-, hin⟩ | ⟨name, -, hin, -⟩
      · exact ⟨_, hin⟩
      · exact ⟨_, hin⟩
    obtain ⟨t', hin⟩ := hin
    exact hs r t' hin (hi - sp.lo) (by rw [List.length_drop]; omega)

theorem Faithful.emits {G : Logos} {E : Engine} {d : Decl} {L : Lexicon} {vs : List Variant}
    (hF : Faithful E d vs L) (hG : G.Agrees E) (hn : (vs.map Variant.ident).Nodup) {k : Nat} {v : Variant} (hk : vs[k]? = some v)
    (hv : v.rules ≠ []) {lit : Str} (hlit : lit ∈ v.lits) {source rest : Str} {p : Nat}
    (hp : source.drop p = lit ++ rest)
    (hlong : ∀ r target, d.Rule r target → ∀ hi ≤ source.length, p + lit.length < hi →
      ¬ G.mat r (piece source p hi))
    (hprio : ∀ r target, d.Rule r target → target ≠ some k → G.mat r lit →
      ∃ r' ∈ v.rules, G.mat r' lit ∧ G.prio r < G.prio r')
    {items : List (Item n)} (hscan : L.Scan G source p items) :
    ∃ ty items', ty.val = k ∧ items = .token ⟨⟨p, p + lit.length⟩, ty⟩ :: items' ∧
      L.Scan G source (p + lit.length) items' := by
  have hok := hF.1
  obtain ⟨vs', hvs', -, -, hall⟩ := hok.enum
  cases hF.2.1.symm.trans hvs'
  have hvok := hall v (List.mem_of_getElem? hk)
  have hne : lit ≠ [] := hvok.lit_ne hlit
  have hin : ∀ {r target}, d.Rule r target → ∃ t, (r, t) ∈ L.rules := by
    intro r target hr
    rcases (hF.num hn r target).2 hr with ⟨-, hin⟩ | ⟨name, -, hin, -⟩
    · exact ⟨_, hin⟩
    · exact ⟨_, hin⟩
  have hrule : ∀ {r}, r ∈ v.rules → d.Rule r (some k) := fun hr => .inr ⟨vs, hF.2.1, k, v, hk, rfl, hr⟩
  have hlen : lit.length ≤ (source.drop p).length := by rw [hp]; simp
  have htake : (source.drop p).take lit.length = lit := by rw [hp]; simp
  obtain ⟨r0, hr0, hm0⟩ : ∃ r ∈ v.rules, G.mat r lit := by
    cases hx : v.regexes with
    | some rs =>
      rw [rules_some hx] at hv ⊢
      have hrs : rs ≠ [] := fun hnil => hv (by rw [hnil]; rfl)
      obtain ⟨r, rs', rfl⟩ := List.exists_cons_of_ne_nil hrs
      refine ⟨.regex r, by simp, ?_⟩
      have h1 := (hG.found r lit 0 lit.length (((hvok.regexes _ hx).2 r (by simp)).2 lit hlit)).2.2.1
      simpa [piece] using h1
    | none =>
      rw [rules_none hx] at hv ⊢
      split at hv
      · exact (hv rfl).elim
      · next hbare =>
        rw [if_neg hbare]
        exact ⟨.token lit, List.mem_map.2 ⟨lit, hlit, rfl⟩, (hG.token lit lit).2 rfl⟩
  have hpick : ∀ {len r t}, L.Picks G (source.drop p) len r t → len = lit.length ∧
      ∀ target, d.Rule r target → target = some k := by
    intro len r t hpk
    obtain ⟨t0, ht0⟩ := hin (hrule hr0)
    have hb0 := hpk.best r0 t0 ht0 lit.length hlen (by rw [htake]; exact hm0)
    have hlt : ∀ target, d.Rule r target → ¬ lit.length < len := by
      intro target hr hlt
      have hle := hpk.le
      have hle' := hle
      rw [List.length_drop] at hle'
      refine hlong r target hr (p + len) (by omega) (by omega) ?_
      unfold piece
      rw [Nat.add_sub_cancel_left]
      exact hpk.mat
    have hr : ∃ target, d.Rule r target := by
      cases t with
      | none => exact ⟨none, (hF.num hn r none).1 (.inl ⟨rfl, hpk.rule⟩)⟩
      | some name =>
        obtain ⟨j, w, hj, -, hm⟩ := hF.named hpk.rule
        exact ⟨some j, (hF.num hn r _).1 (.inr ⟨name, j, hpk.rule, hm, rfl⟩)⟩
    obtain ⟨tg, hr⟩ := hr
    obtain rfl : len = lit.length := by
      have := hlt tg hr
      omega
    refine ⟨rfl, fun target hr => Classical.not_not.1 fun hne => ?_⟩
    have hm := hpk.mat
    rw [htake] at hm
    obtain ⟨r', hr', hm', hlt'⟩ := hprio r target hr hne hm
    obtain ⟨t', ht'⟩ := hin (hrule hr')
    have := hpk.best r' t' ht' lit.length hlen (by rw [htake]; exact hm')
    omega
  cases hscan with
  | done =>
    simp only [List.drop_length] at hp
    exact (hne (List.append_eq_nil_iff.1 hp.symm).1).elim
  | @token _ len r name items ty hpk hty hs =>
    obtain ⟨rfl, h1⟩ := hpick hpk
    have h2 := h1 _ ((hF.num hn r _).1 (.inr ⟨name, _, hpk.rule, hty, rfl⟩))
    exact ⟨ty, items, Option.some.inj h2, rfl, hs⟩
  | skip hpk _ =>
    have h2 := (hpick hpk).2 _ ((hF.num hn _ none).1 (.inl ⟨rfl, hpk.rule⟩))
    cases h2
  | error hs _ _ _ _ =>
    obtain ⟨t0, ht0⟩ := hin (hrule hr0)
    exact (hs r0 t0 ht0 lit.length hlen (by rw [htake]; exact hm0)).elim

theorem Decl.Rule.inRules {E : Engine} {d : Decl} {L : Lexicon} {vs : List Variant}
    (hF : Faithful E d vs L) (hn : (vs.map Variant.ident).Nodup) {r : LexRule} {target : Option Nat} (hr : d.Rule r target) :
    ∃ t, (r, t) ∈ L.rules := by
  rcases (hF.num hn r target).2 hr with ⟨-, hin⟩ | ⟨name, -, hin, -⟩
  · exact ⟨_, hin⟩
  · exact ⟨_, hin⟩

theorem picks_best {G : Logos} {E : Engine} {d : Decl} {L : Lexicon} {vs : List Variant}
    (hF : Faithful E d vs L) (hn : (vs.map Variant.ident).Nodup) (hc : d.Clear G) {s : Str} {len len' : Nat}
    {r r' : LexRule} {t : Option Str} {target target' : Option Nat} (h1 : d.Best G s len r target)
    (h2 : L.Picks G s len' r' t) (h3 : d.Rule r' target') : len = len' ∧ target = target' := by
  obtain ⟨t0, ht0⟩ := h1.rule.inRules hF hn
  have g1 := h1.best _ _ h3 _ h2.le h2.mat
  have g2 := h2.best _ _ ht0 _ h1.le h1.mat
  obtain rfl : len = len' := by omega
  exact ⟨rfl, hc _ _ _ _ _ h1.rule h3 h1.mat h2.mat (by omega)⟩

theorem Faithful.scan {G : Logos} {E : Engine} {d : Decl} {L : Lexicon} {vs : List Variant}
    (hF : Faithful E d vs L) (hG : G.Agrees E) (ht : d.Texts) (hn : (vs.map Variant.ident).Nodup) (hc : d.Clear G)
    {source : Str} {toks : List (Nat × Str)} (hs : d.Splits G source toks) {items : List (Item n)}
    (hscan : L.Scan G source 0 items) :
    ∃ ts : List (Token n), items = ts.map .token ∧ ts.map (fun t => (t.ty.val, textOf source t.span)) = toks := by
  have hne : ∀ r t, (r, t) ∈ L.rules → ¬ G.mat r [] := fun _ _ hr => (hF.good hG ht hr).1
  have hnum : ∀ {r name k}, (r, some name) ∈ L.rules → (name, k) ∈ L.variants → d.Rule r (some k) :=
    fun h1 h2 => (hF.num hn _ _).1 (.inr ⟨_, _, h1, h2, rfl⟩)
  have hskip : ∀ {r}, (r, none) ∈ L.rules → d.Rule r none :=
    fun h1 => (hF.num hn _ _).1 (.inl ⟨rfl, h1⟩)
  have hstuck : ∀ {s len r target}, d.Best G s len r target → ¬ L.Stuck G s := by
    intro s len r target hbest hs
    obtain ⟨t0, ht0⟩ := hbest.rule.inRules hF hn
    exact hs _ _ ht0 _ hbest.le hbest.mat
  have hend : ∀ {len r target}, ¬ d.Best G (source.drop source.length) len r target := by
    intro len r target hbest
    obtain ⟨t0, ht0⟩ := hbest.rule.inRules hF hn
    have hm := hbest.mat
    simp only [List.drop_length, List.take_nil] at hm
    exact hne _ _ ht0 hm
  have key : ∀ (s : Str) (toks : List (Nat × Str)), d.Splits G s toks → ∀ (p : Nat) (items : List (Item n)),
      p ≤ source.length → s = source.drop p → L.Scan G source p items →
      ∃ ts : List (Token n), items = ts.map .token ∧ ts.map (fun t => (t.ty.val, textOf source t.span)) = toks := by
    intro s toks hs
    induction hs with
    | done =>
      intro p items hp hs hscan
      cases hscan with
      | done => exact ⟨[], rfl, rfl⟩
      | token hpk _ _ =>
        rw [← hs] at hpk
        have := hpk.pos hne
        have := hpk.le
        simp at this
        omega
      | skip hpk _ =>
        rw [← hs] at hpk
        have := hpk.pos hne
        have := hpk.le
        simp at this
        omega
      | error _ h0 h1 _ _ =>
        have := congrArg List.length hs
        simp at this
        omega
    | token hbest _ ih =>
      rintro p items hp rfl hscan
      cases hscan with
      | done => exact (hend hbest).elim
      | @token _ len _ name items ty hpk hty hscan =>
        obtain ⟨rfl, he⟩ := picks_best hF hn hc hbest hpk (hnum hpk.rule hty)
        cases he
        have hle := hpk.le
        rw [List.length_drop] at hle
        obtain ⟨ts, rfl, rfl⟩ := ih _ _ (by omega) (by rw [List.drop_drop]) hscan
        refine ⟨⟨⟨p, p + _⟩, ty⟩ :: ts, rfl, ?_⟩
        simp [textOf]
      | skip hpk _ => cases (picks_best hF hn hc hbest hpk (hskip hpk.rule)).2
      | error hs _ _ _ _ => exact (hstuck hbest hs).elim
    | skip hbest _ ih =>
      rintro p items hp rfl hscan
      cases hscan with
      | done => exact (hend hbest).elim
      | token hpk hty _ => cases (picks_best hF hn hc hbest hpk (hnum hpk.rule hty)).2
      | skip hpk hscan =>
        obtain ⟨rfl, -⟩ := picks_best hF hn hc hbest hpk (hskip hpk.rule)
        have hle := hpk.le
        rw [List.length_drop] at hle
        exact ih _ _ (by omega) (by rw [List.drop_drop]) hscan
      | error hs _ _ _ _ => exact (hstuck hbest hs).elim
  exact key source toks hs 0 items (Nat.zero_le _) rfl hscan

/-- `should_extract` holds for the variants without terminals. -/
theorem extract_iff {E : Engine} {d : Decl} {L : Lexicon} {vs : List Variant} (h : Macro.expand E d = .ok L)
    (hvs : d.variants = some vs) (hn : (vs.map Variant.ident).Nodup) (ty : Fin vs.length) :
    L.shouldExtract ty = true ↔ vs[ty.val].terms = [] := by
  have hk : vs[ty.val]? = some vs[ty.val] := List.getElem?_eq_getElem ty.isLt
  obtain ⟨-, vs', h1, rfl⟩ := expand_ok.1 h
  cases hvs.symm.trans h1
  have hx : vs[ty.val].ident ∈ (outSpec d vs).extract ↔ vs[ty.val].terms = [] := by
    constructor
    · intro h
      obtain ⟨w, hw, hi⟩ := List.mem_map.1 h
      obtain ⟨hw, he⟩ := List.mem_filter.1 hw
      have := ident_inj hn (List.getElem_mem _) hw hi
      rw [← this]
      simpa using he
    · intro h
      exact List.mem_map.2 ⟨_, List.mem_filter.2 ⟨List.getElem_mem ty.isLt, by simp [h]⟩, rfl⟩
  rw [← hx]
  unfold Lexicon.shouldExtract
  rw [List.any_eq_true]
  constructor
  · rintro ⟨⟨name, k⟩, hm, hb⟩
    simp only [Bool.and_eq_true, beq_iff_eq, List.contains_iff_mem] at hb
    obtain ⟨rfl, hb⟩ := hb
    obtain ⟨⟨w, j⟩, hw, he⟩ := List.mem_map.1 hm
    cases he
    have hw := List.mem_zipIdx_iff_getElem?.1 hw
    simp only [hk, Option.some.injEq] at hw
    rw [hw]
    exact hb
  · intro hm
    refine ⟨(vs[ty.val].ident, ty.val), List.mem_map.2 ⟨(vs[ty.val], ty.val),
      List.mem_zipIdx_iff_getElem?.2 hk, rfl⟩, ?_⟩
    simpa using hm

theorem Faithful.extract {E : Engine} {d : Decl} {L : Lexicon} {vs : List Variant} (h : Faithful E d vs L)
    (hn : (vs.map Variant.ident).Nodup) (ty : Fin vs.length) :
    L.shouldExtract ty = true ↔ vs[ty.val].terms = [] :=
  extract_iff h.expand h.2.1 hn ty

theorem Faithful.words {G : Logos} {E : Engine} {d : Decl} {L : Lexicon} {vs : List Variant}
    (hF : Faithful E d vs L) (hG : G.Agrees E) (ht : d.Texts) (hn : (vs.map Variant.ident).Nodup) (hc : d.Clear G)
    {source : Str} {toks : List (Nat × Str)} (hs : d.Splits G source toks) {items : List (Item vs.length)}
    (hscan : L.Scan G source 0 items) :
    (streamOf L.shouldExtract items).map (·.word source) = Decl.words vs toks := by
  obtain ⟨ts, rfl, rfl⟩ := hF.scan hG ht hn hc hs hscan
  have hx := hF.extract hn
  clear hs hscan
  unfold streamOf
  induction ts with
  | nil => rfl
  | cons t ts ih =>
    simp only [List.map_cons, tokensOf, List.filter_cons, Decl.words, List.filterMap_cons, t.ty.isLt, dif_pos]
    have hx := hx t.ty
    by_cases he : vs[t.ty.val].terms = []
    · rw [hx.2 he]
      simp only [he, List.isEmpty_nil, if_true]
      exact ih
    · have hf : L.shouldExtract t.ty = false := by
        cases hb : L.shouldExtract t.ty
        · rfl
        · exact (he (hx.1 hb)).elim
      have hne : vs[t.ty.val].terms.isEmpty = false := by simpa using he
      simp only [hf, Bool.not_false, if_true, List.map_cons, hne]
      exact congrArg (_ :: ·) ih

end Teleparse.Macro

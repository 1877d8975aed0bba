import Verif.Proof.Faithful
import Verif.Props.Lexicon
import Verif.Props.Exact
/-
Properties of the scanner generated by `derive_lexicon`: C81 (from text to tokens), C82 (literals of terminals).
-/
namespace Teleparse.Macro
variable {n : Nat}

/-! ## A concrete pair of crates -/

/-- A small `regex` and `logos`: patterns are alternatives of ASCII literals, separated by `|`. -/
def altsFrom (cur : Str) : Str → List Str
  | [] => [cur]
  | c :: s => if c = 124 then cur :: altsFrom [] s else altsFrom (cur ++ [c]) s

def alts (r : Str) : List Str := (altsFrom [] r).filter fun a => a.all (· < 128)

/-- The first alternative that matches at the beginning. -/
def altFirst (as : List Str) (s : Str) : Option Nat := (as.find? (·.isPrefixOf s)).map List.length

/-- Leftmost match. -/
def altFind (as : List Str) : Nat → Str → Option (Nat × Nat)
  | i, [] => (altFirst as []).map fun l => (i, i + l)
  | i, c :: s =>
    match altFirst as (c :: s) with
    | some l => some (i, i + l)
    | none => altFind as (i + 1) s

def altEngine : Engine where
  compiles _ := true
  find r s := altFind (alts r) 0 s

/-- Literals have priority over patterns. -/
def altLogos : Logos where
  mat
    | .token lit, text => text = lit
    | .regex r, text => text ∈ alts r
  prio
    | .token _ => 2
    | .regex _ => 1

theorem utf8_ascii : ∀ {s : Str}, (s.all (· < 128)) = true → Utf8 s
  | [], _ => .nil
  | a :: s, h => by
    simp only [List.all_cons, Bool.and_eq_true, decide_eq_true_eq] at h
    exact .one h.1 (utf8_ascii h.2)

theorem altFirst_some {as : List Str} {s : Str} {l : Nat} (h : altFirst as s = some l) :
    l ≤ s.length ∧ s.take l ∈ as := by
  unfold altFirst at h
  obtain ⟨a, ha, rfl⟩ := Option.map_eq_some_iff.1 h
  have hp : a <+: s := List.isPrefixOf_iff_prefix.1 (List.find?_some (p := fun x => List.isPrefixOf x s) ha)
  exact ⟨hp.length_le, by rw [← List.prefix_iff_eq_take.1 hp]; exact List.mem_of_find?_eq_some ha⟩

theorem altFirst_none {as : List Str} {s : Str} (h : altFirst as s = none) (l : Nat) : s.take l ∉ as := by
  intro hm
  unfold altFirst at h
  have := List.find?_eq_none.1 (Option.map_eq_none_iff.1 h) _ hm
  exact this (List.isPrefixOf_iff_prefix.2 (List.take_prefix _ _))

theorem altFind_some {as : List Str} : ∀ {s : Str} {i a b : Nat}, altFind as i s = some (a, b) →
    ∃ a' b', a = i + a' ∧ b = i + b' ∧ a' ≤ b' ∧ b' ≤ s.length ∧ piece s a' b' ∈ as ∧
      ∀ x < a', ∀ y, piece s x y ∉ as
  | [], i, a, b, h => by
    unfold altFind at h
    obtain ⟨l, hl, he⟩ := Option.map_eq_some_iff.1 h
    cases he
    obtain ⟨h1, h2⟩ := altFirst_some hl
    exact ⟨0, l, rfl, rfl, by omega, h1, by simpa [piece] using h2, by omega⟩
  | c :: s, i, a, b, h => by
    unfold altFind at h
    split at h
    · next l hl =>
      cases h
      obtain ⟨h1, h2⟩ := altFirst_some hl
      exact ⟨0, l, rfl, rfl, by omega, h1, by simpa [piece] using h2, by omega⟩
    · next hn =>
      obtain ⟨a', b', rfl, rfl, h1, h2, h3, h4⟩ := altFind_some h
      refine ⟨a' + 1, b' + 1, by omega, by omega, by omega, by simpa using h2, ?_, ?_⟩
      · simpa [piece] using h3
      · intro x hx y
        cases x with
        | zero => simpa [piece] using altFirst_none hn y
        | succ x =>
          have := h4 x (by omega) (y - 1)
          unfold piece at this ⊢
          rw [List.drop_succ_cons, show y - (x + 1) = y - 1 - x by omega]
          exact this

theorem altFind_none {as : List Str} : ∀ {s : Str} {i : Nat}, altFind as i s = none → ∀ a b, piece s a b ∉ as
  | [], i, h, a, b => by
    unfold altFind at h
    have := altFirst_none (Option.map_eq_none_iff.1 h) 0
    simpa [piece] using this
  | c :: s, i, h, a, b => by
    unfold altFind at h
    split at h
    · cases h
    · next hn =>
      cases a with
      | zero => simpa [piece] using altFirst_none hn b
      | succ a =>
        have := altFind_none h a (b - 1)
        unfold piece at this ⊢
        rw [List.drop_succ_cons, show b - (a + 1) = b - 1 - a by omega]
        exact this

theorem altAgrees : altLogos.Agrees altEngine where
  token _ _ := Iff.rfl
  utf8 _ _ h := utf8_ascii (List.mem_filter.1 h).2
  found r s a b h := by
    obtain ⟨a', b', rfl, rfl, h1, h2, h3, h4⟩ := altFind_some h
    simp only [Nat.zero_add]
    exact ⟨h1, h2, h3, fun x hx y _ _ => h4 x hx y⟩
  missing _ _ h a b _ _ := altFind_none h a b

instance (r : LexRule) (text : Str) : Decidable (altLogos.mat r text) := by
  cases r
  · exact inferInstanceAs (Decidable (text ∈ alts _))
  · exact inferInstanceAs (Decidable (text = _))

theorem picks_of {L : Lexicon} {s : Str} {len : Nat} {r : LexRule} {t : Option Str}
    (h : (r, t) ∈ L.rules ∧ len ≤ s.length ∧ altLogos.mat r (s.take len) ∧
      ∀ e ∈ L.rules, ∀ len' ≤ s.length, altLogos.mat e.1 (s.take len') →
        len' < len ∨ (len' = len ∧ altLogos.prio e.1 ≤ altLogos.prio r)) : L.Picks altLogos s len r t :=
  ⟨h.1, h.2.1, h.2.2.1, fun r' t' h' => h.2.2.2 (r', t') h'⟩

theorem stuck_of {L : Lexicon} {s : Str}
    (h : ∀ e ∈ L.rules, ∀ len ≤ s.length, ¬ altLogos.mat e.1 (s.take len)) : L.Stuck altLogos s :=
  fun r t h' => h (r, t) h'

/-- The lexicon generated for an accepted declaration. -/
def lexiconOf (E : Engine) (d : Decl) : Lexicon :=
  match expand E d with
  | .ok L => L
  | .error _ => ⟨[], [], [], [], [], 0, [], 0⟩

/-- `enum T { #[teleparse(regex("ab|abc"), terminal(W, A = "ab"))] W, #[teleparse(terminal(P = "+"))] Op, Sem }` with
`ignore(" ")` -/
def scDecl : Decl :=
  ⟨false, [some [.ignore (some [[32]])]], some
    [exVar [1] [.regex (some [[97, 98, 124, 97, 98, 99]]),
       .terminal (some [⟨some [7], .path⟩, ⟨some [6], .value (some [97, 98])⟩])],
     exVar [2] [.terminal (some [⟨some [8], .value (some [43])⟩])],
     exVar [0] []]⟩

def scL : Lexicon := lexiconOf altEngine scDecl

/-- `"abc ?+"` -/
def scSource : Str := [97, 98, 99, 32, 63, 43]

def scItems : List (Item 3) := [.token ⟨⟨0, 3⟩, 0⟩, .error ⟨4, 5⟩, .token ⟨⟨5, 6⟩, 1⟩]

theorem scOk : expand altEngine scDecl = .ok scL := rfl

theorem scScan : scL.Scan altLogos scSource 0 scItems :=
  .token (len := 3) (r := .regex [97, 98, 124, 97, 98, 99]) (name := [1]) (picks_of (by decide)) (by decide)
    (.skip (len := 1) (r := .regex [32]) (picks_of (by decide))
      (.error (len := 1) (stuck_of (by decide)) (by decide) (by decide) (by decide)
        (.token (len := 1) (r := .token [43]) (name := [2]) (picks_of (by decide)) (by decide) .done)))

theorem scTexts : scDecl.Texts := by
  rintro vs ⟨⟩ v hv lit hlit
  simp only [List.mem_cons, List.not_mem_nil, or_false] at hv
  have : (lit.all (· < 128)) = true := by
    rcases hv with rfl | rfl | rfl <;> revert lit <;> decide
  exact utf8_ascii this

/-! ## C81 -/

/-- What the scanner of an accepted declaration returns is well formed: non-empty pieces of the source on character
boundaries, from left to right. This is the assumption `ItemsWF` of the theorems about the parser. -/
theorem C81_wf {G : Logos} {E : Engine} (hG : G.Agrees E) {d : Decl} {L : Lexicon} (h : expand E d = .ok L)
    (ht : d.Texts) {source : Str} (hs : Utf8 source) {items : List (Item n)} (hscan : L.Scan G source 0 items) :
    ItemsWF source items :=
  (hscan.wf hs (fun _ _ hr => rules_good hG h ht hr) (Nat.zero_le _) hs).1

/-- Scanning always comes to the end of the source. -/
theorem C81_total {G : Logos} {E : Engine} (hG : G.Agrees E) {d : Decl} {L : Lexicon} (h : expand E d = .ok L)
    (ht : d.Texts) {vs : List Variant} (hvs : d.variants = some vs) (source : Str) :
    ∃ items : List (Item vs.length), L.Scan G source 0 items := by
  refine exists_scan source (fun _ _ hr => (rules_good hG h ht hr).1) (fun r name hr => ?_) source.length 0
    (by omega) (Nat.zero_le _)
  obtain ⟨k, v, hk, -, hm⟩ := rules_named h hvs hr
  exact ⟨⟨k, (List.getElem?_eq_some_iff.1 hk).1⟩, hm⟩

/-- If everything in the source is recognised, there is only one way to scan it. -/
theorem C81_unique {G : Logos} {E : Engine} (hG : G.Agrees E) {d : Decl} {L : Lexicon} (h : expand E d = .ok L)
    (ht : d.Texts) {vs : List Variant} (hvs : d.variants = some vs) (hn : (vs.map Variant.ident).Nodup)
    (hc : L.Clear G) {source : Str} {items items' : List (Item n)} (hscan : L.Scan G source 0 items)
    (hscan' : L.Scan G source 0 items') (he : ∀ i ∈ items, ∃ t, i = .token t) : items' = items :=
  hscan.unique (fun _ _ hr => (rules_good hG h ht hr).1) hc (fun _ _ _ => variants_unique h hvs hn) he hscan'

/-- Every byte of the source belongs to a token, to an unrecognised piece, or to text between them that one of the
`ignore` patterns matches. -/
theorem C81_covered {G : Logos} {E : Engine} (hG : G.Agrees E) {d : Decl} {L : Lexicon} (h : expand E d = .ok L)
    (ht : d.Texts) {source : Str} {items : List (Item n)} (hscan : L.Scan G source 0 items) (x : Nat)
    (hx : x < source.length) :
    (∃ i ∈ items, i.span.lo ≤ x ∧ x < i.span.hi) ∨
    ∃ lo hi, ∃ r ∈ d.ignores, lo ≤ x ∧ x < hi ∧ hi ≤ source.length ∧ G.mat (.regex r) (piece source lo hi) ∧
      ∀ i ∈ items, i.span.hi ≤ lo ∨ hi ≤ i.span.lo := by
  rcases (hscan.covers (fun _ _ hr => (rules_good hG h ht hr).1) (Nat.zero_le _)).2 x (Nat.zero_le _) hx with
    h1 | ⟨lo, hi, r, h1, h2, h3, -, h4, h5, h6⟩
  · exact .inl h1
  · refine .inr ⟨lo, hi, r, ?_, h1, h2, h3, h5, h6⟩
    obtain ⟨-, vs, -, rfl⟩ := expand_ok.1 h
    unfold Lexicon.rules at h4
    rcases List.mem_append.1 h4 with h4 | h4
    · obtain ⟨y, hy, he⟩ := List.mem_map.1 h4
      cases he
      exact hy
    · obtain ⟨e, -, h4⟩ := List.mem_flatMap.1 h4
      obtain ⟨y, -, he⟩ := List.mem_map.1 h4
      cases he

/-- A token has a text that a rule written on its variant matches, and no rule that is written matches more of the
text from there on, or the same with a higher priority. Missing for the full property: declarations with a variant
without rules and terminals before a variant with rules, see `C81_false`. -/
theorem C81_token_partial {G : Logos} {E : Engine} {d : Decl} {L : Lexicon} (h : expand E d = .ok L)
    {vs : List Variant} (hvs : d.variants = some vs) (hn : (vs.map Variant.ident).Nodup)
    (hb : vs.Pairwise fun a b => ¬ (a.Blank ∧ b.Lexed)) {source : Str} {items : List (Item n)}
    (hscan : L.Scan G source 0 items) (t : Token n) (ht : .token t ∈ items) :
    ∃ v, vs[t.ty.val]? = some v ∧ ∃ r ∈ v.rules, G.mat r (piece source t.span.lo t.span.hi) ∧
      ∀ r' target, d.Rule r' target → ∀ hi ≤ source.length, t.span.lo ≤ hi →
        G.mat r' (piece source t.span.lo hi) →
        hi < t.span.hi ∨ (hi = t.span.hi ∧ G.prio r' ≤ G.prio r) :=
  (Faithful.of_expand h hvs hb).token hn hscan t ht

/-- No rule that is written matches where an unrecognised piece begins. Missing for the full property: as for
`C81_token_partial`. -/
theorem C81_invalid_partial {G : Logos} {E : Engine} {d : Decl} {L : Lexicon} (h : expand E d = .ok L)
    {vs : List Variant} (hvs : d.variants = some vs) (hn : (vs.map Variant.ident).Nodup)
    (hb : vs.Pairwise fun a b => ¬ (a.Blank ∧ b.Lexed)) {source : Str} {items : List (Item n)}
    (hscan : L.Scan G source 0 items) (sp : Span) (hsp : .error sp ∈ items) (r : LexRule) (target : Option Nat)
    (hr : d.Rule r target) (hi : Nat) (hle : hi ≤ source.length) (hlo : sp.lo ≤ hi) :
    ¬ G.mat r (piece source sp.lo hi) :=
  (Faithful.of_expand h hvs hb).invalid hn hscan sp hsp r target hr hi hle hlo

example : ∃ vs, scDecl.variants = some vs ∧ (vs.map Variant.ident).Nodup ∧
    (vs.Pairwise fun a b => ¬ (a.Blank ∧ b.Lexed)) ∧ altLogos.Agrees altEngine ∧
    expand altEngine scDecl = .ok scL ∧ scDecl.Texts ∧ Utf8 scSource ∧ scL.Scan altLogos scSource 0 scItems ∧
    ItemsWF scSource scItems :=
  ⟨_, rfl, by decide, by decide, altAgrees, scOk, scTexts, utf8_ascii (by decide), scScan,
    C81_wf altAgrees scOk scTexts (utf8_ascii (by decide)) scScan⟩

theorem scClear : scL.Clear altLogos := by
  have h : ∀ e ∈ scL.rules, ∀ e' ∈ scL.rules, altLogos.prio e.1 = altLogos.prio e'.1 → e.2 ≠ e'.2 →
      ∀ text, altLogos.mat e.1 text → ¬ altLogos.mat e'.1 text := by
    have hr : scL.rules = [(.regex [32], none), (.regex [97, 98, 124, 97, 98, 99], some [1]),
      (.token [43], some [2])] := rfl
    have h1 : alts [32] = [[32]] := by decide
    have h2 : alts [97, 98, 124, 97, 98, 99] = [[97, 98], [97, 98, 99]] := by decide
    rw [hr]
    intro e he e' he' hp hne text hm hm'
    simp only [List.mem_cons, List.not_mem_nil, or_false] at he he'
    rcases he with rfl | rfl | rfl <;> rcases he' with rfl | rfl | rfl <;>
      simp_all [altLogos] <;> rcases hm' with rfl | rfl <;> simp at hm
  intro r t r' t' text h1 h2 h3 h4 h5
  exact Classical.not_not.1 fun hne => h _ h1 _ h2 h5 hne text h3 h4

/-- `"ab +"` is scanned in one way. -/
example (items : List (Item 3)) (h : scL.Scan altLogos [97, 98, 32, 43] 0 items) :
    items = [.token ⟨⟨0, 2⟩, 0⟩, .token ⟨⟨3, 4⟩, 1⟩] :=
  C81_unique altAgrees scOk scTexts rfl (by decide) scClear
    (.token (len := 2) (r := .regex [97, 98, 124, 97, 98, 99]) (name := [1]) (picks_of (by decide)) (by decide)
      (.skip (len := 1) (r := .regex [32]) (picks_of (by decide))
        (.token (len := 1) (r := .token [43]) (name := [2]) (picks_of (by decide)) (by decide) .done)))
    h (by simp)

/-- A semantic type declared first: the text `a` becomes a token of the variant declared with the regex `b`. -/
theorem C81_false : ∃ (G : Logos) (E : Engine) (d : Decl) (L : Lexicon) (vs : List Variant) (source : Str)
    (items : List (Item 3)) (t : Token 3) (v : Variant), G.Agrees E ∧ expand E d = .ok L ∧ d.Texts ∧
    d.variants = some vs ∧ (vs.map Variant.ident).Nodup ∧ Utf8 source ∧ L.Scan G source 0 items ∧
    .token t ∈ items ∧ vs[t.ty.val]? = some v ∧ v.rules ≠ [] ∧
    ∀ r ∈ v.rules, ¬ G.mat r (piece source t.span.lo t.span.hi) := by
  refine ⟨altLogos, altEngine, exMisaligned, lexiconOf altEngine exMisaligned, _, [97], [.token ⟨⟨0, 1⟩, 2⟩],
    ⟨⟨0, 1⟩, 2⟩, exVar [2] [.regex (some [[98]])], altAgrees, rfl, ?_, rfl, by decide, utf8_ascii (by decide),
    .token (len := 1) (r := .regex [97]) (name := [2]) (picks_of (by decide)) (by decide) .done, by decide, rfl,
    by decide, by decide⟩
  rintro vs ⟨⟩ v hv lit hlit
  simp only [List.mem_cons, List.not_mem_nil, or_false] at hv
  rcases hv with rfl | rfl | rfl <;> simp [exVar, Variant.lits, Variant.terms, Variant.metas, VMeta.terminals?] at hlit

/-! ## C82 -/

/-- Where the scanner comes to the literal of a terminal, it returns it as a token of the variant of the terminal,
if the variant has rules, unless a rule matches more of the text from there on, or a rule of another variant or of
`ignore` matches the literal with a priority that is not lower. Missing for the full property: variants without
rules, see `C82_false`, and the order of declaration, as for `C81_token_partial`. -/
theorem C82_emits_partial {G : Logos} {E : Engine} (hG : G.Agrees E) {d : Decl} {L : Lexicon} (h : expand E d = .ok L)
    {vs : List Variant} (hvs : d.variants = some vs) (hn : (vs.map Variant.ident).Nodup)
    (hb : vs.Pairwise fun a b => ¬ (a.Blank ∧ b.Lexed)) {k : Nat} {v : Variant} (hk : vs[k]? = some v)
    (hv : v.rules ≠ []) {lit : Str} (hlit : lit ∈ v.lits) {source rest : Str} {p : Nat}
    (hp : source.drop p = lit ++ rest)
    (hlong : ∀ r target, d.Rule r target → ∀ hi ≤ source.length, p + lit.length < hi →
      ¬ G.mat r (piece source p hi))
    (hprio : ∀ r target, d.Rule r target → target ≠ some k → G.mat r lit →
      ∃ r' ∈ v.rules, G.mat r' lit ∧ G.prio r < G.prio r')
    {items : List (Item n)} (hscan : L.Scan G source p items) :
    ∃ ty items', ty.val = k ∧ items = .token ⟨⟨p, p + lit.length⟩, ty⟩ :: items' ∧
      L.Scan G source (p + lit.length) items' :=
  (Faithful.of_expand h hvs hb).emits hG hn hk hv hlit hp hlong hprio hscan

/-- On `"ab +"` the literal `"ab"` is found. -/
example (items : List (Item 3)) (h : scL.Scan altLogos [97, 98, 32, 43] 0 items) :
    ∃ ty items', ty.val = 0 ∧ items = .token ⟨⟨0, 2⟩, ty⟩ :: items' ∧ scL.Scan altLogos [97, 98, 32, 43] 2 items' := by
  have hn : ∀ r target, scDecl.Rule r target → (r, target) ∈ [(.regex [32], none),
      (.regex [97, 98, 124, 97, 98, 99], some 0), (.token [43], some 1)] := by
    rintro r target (⟨rfl, i, hi, rfl⟩ | ⟨vs, hvs, k, v, hk, rfl, hr⟩)
    · have : i = [32] := by simpa [scDecl, Decl.ignores, Decl.metas, RMeta.ignores] using hi
      simp [this]
    · cases hvs
      match k, hk with
      | 0, hk =>
        cases hk
        have hr : r ∈ [LexRule.regex [97, 98, 124, 97, 98, 99]] := hr
        simp [List.mem_singleton.1 hr]
      | 1, hk =>
        cases hk
        have hr : r ∈ [LexRule.token [43]] := hr
        simp [List.mem_singleton.1 hr]
      | 2, hk =>
        cases hk
        have hr : r ∈ ([] : List LexRule) := hr
        cases hr
      | k + 3, hk => simp at hk
  refine C82_emits_partial (v := exVar [1] [.regex (some [[97, 98, 124, 97, 98, 99]]),
       .terminal (some [⟨some [7], .path⟩, ⟨some [6], .value (some [97, 98])⟩])]) (lit := [97, 98]) (rest := [32, 43])
    altAgrees scOk rfl (by decide) (by decide) rfl (by decide) (by decide) rfl ?_ ?_ h
  · have key : ∀ e ∈ [(LexRule.regex [32], (none : Option Nat)), (.regex [97, 98, 124, 97, 98, 99], some 0),
        (.token [43], some 1)], ∀ hi ≤ 4, 2 < hi → ¬ altLogos.mat e.1 (piece [97, 98, 32, 43] 0 hi) := by decide
    intro r target hr hi hle hlt
    exact key _ (hn r target hr) hi hle (by simpa using hlt)
  · have key : ∀ e ∈ [(LexRule.regex [32], (none : Option Nat)), (.regex [97, 98, 124, 97, 98, 99], some 0),
        (.token [43], some 1)], e.2 ≠ some 0 → ¬ altLogos.mat e.1 [97, 98] := by decide
    intro r target hr hne hm
    exact (key _ (hn r target hr) hne hm).elim

/-- The texts of the tokens of a variant without rules: none. -/
theorem C82_dead {G : Logos} {E : Engine} {d : Decl} {L : Lexicon} (h : expand E d = .ok L)
    {vs : List Variant} (hvs : d.variants = some vs) (hn : (vs.map Variant.ident).Nodup)
    {k : Nat} {v : Variant} (hk : vs[k]? = some v) (h1 : v.regexes = none)
    (h2 : ∃ t ∈ v.terms, t.bare = true) {source : Str} {items : List (Item n)}
    (hscan : L.Scan G source 0 items) (t : Token n) (ht : .token t ∈ items) : t.ty.val ≠ k := by
  intro he
  rcases hscan.mem _ ht with ⟨t', r, name, len, he', -, hp, hty⟩ | ⟨sp, he', -⟩
  · cases he'
    rw [he] at hty
    have hname : (v.ident, k) ∈ L.variants := by
      obtain ⟨-, vs', h3, rfl⟩ := expand_ok.1 h
      cases hvs.symm.trans h3
      exact List.mem_map.2 ⟨(v, k), List.mem_zipIdx_iff_getElem?.2 hk, rfl⟩
    have hid : name = v.ident := by
      obtain ⟨-, vs', h3, rfl⟩ := expand_ok.1 h
      cases hvs.symm.trans h3
      obtain ⟨⟨w, j⟩, hw, he⟩ := List.mem_map.1 hty
      cases he
      have hw := List.mem_zipIdx_iff_getElem?.1 hw
      rw [hk] at hw
      cases hw
      rfl
    subst hid
    refine C49_unlexed h hvs hn v (List.mem_of_getElem? hk) h1 (.inr h2) G.mat
      ((source.drop t.span.lo).take len) ⟨r, ?_, hp.mat⟩
    have hr := hp.rule
    unfold Lexicon.rules at hr
    rcases List.mem_append.1 hr with hr | hr
    · obtain ⟨y, -, hy⟩ := List.mem_map.1 hr
      cases hy
    · obtain ⟨e, he, hr⟩ := List.mem_flatMap.1 hr
      obtain ⟨y, hy, hy'⟩ := List.mem_map.1 hr
      simp only [Prod.mk.injEq, Option.some.injEq] at hy'
      obtain ⟨rfl, hy'⟩ := hy'
      exact List.mem_flatMap.2 ⟨e, List.mem_filter.2 ⟨he, by simp [hy']⟩, hy⟩
  · cases he'

def deadDecl : Decl :=
  ⟨false, [], some [exVar [1] [.terminal (some [⟨some [7], .path⟩, ⟨some [8], .value (some [97])⟩])]]⟩

/-- `enum T { #[teleparse(terminal(W, A = "a"))] W }`: accepted, and the literal `"a"` is never found in any source,
because without `regex` the terminal `W` keeps the variant from having rules. -/
theorem C82_false : ∃ (G : Logos) (E : Engine) (d : Decl) (L : Lexicon) (v : Variant) (lit : Str), G.Agrees E ∧
    expand E d = .ok L ∧ d.Texts ∧ d.variants = some [v] ∧ lit ∈ v.lits ∧
    ∀ (source : Str) (items : List (Item 1)), L.Scan G source 0 items → ∀ t, .token t ∉ items := by
  refine ⟨altLogos, altEngine, deadDecl, lexiconOf altEngine deadDecl, _, [97], altAgrees, rfl, ?_, rfl,
    by decide, ?_⟩
  · rintro vs ⟨⟩ v hv lit hlit
    obtain rfl := List.mem_singleton.1 hv
    have hlit : lit ∈ [[97]] := hlit
    obtain rfl := List.mem_singleton.1 hlit
    exact utf8_ascii (by decide)
  · intro source items hs t ht
    exact C82_dead (k := 0) (E := altEngine) (d := deadDecl) (vs := [exVar [1] [.terminal (some [⟨some [7], .path⟩,
      ⟨some [8], .value (some [97])⟩])]]) rfl rfl (by decide) rfl (by decide)
      ⟨⟨some [7], .path⟩, List.mem_cons_self, rfl⟩ hs t ht (by omega)

/-- A literal that is refused because the regex does not match it, or only later in it, is not matched by the
regex. -/
theorem C82_never {G : Logos} {E : Engine} (hG : G.Agrees E) {d : Decl} {r lit : Str}
    (h : expand E d = .error (.regexMismatch r lit) ∨ expand E d = .error (.regexStart r lit)) :
    ¬ G.mat (.regex r) lit := by
  have hp : piece lit 0 lit.length = lit := by simp [piece]
  rcases h with h | h
  · have := hG.missing r lit (expand_err h).2 0 lit.length (Nat.zero_le _) (Nat.le_refl _)
    rwa [hp] at this
  · obtain ⟨-, a, b, hf, ha⟩ := expand_err h
    have := (hG.found r lit a b hf).2.2.2 0 (by omega) lit.length (Nat.le_refl _) (Nat.zero_le _)
    rwa [hp] at this

/-- `regex("ab|abc")` with the literal `"abc"` is refused as a match of a proper prefix, although the scanner, which
takes the longest match, would return `"abc"`. -/
theorem C82_false_prefix : ∃ (G : Logos) (E : Engine) (d : Decl) (v : Variant) (r lit : Str), G.Agrees E ∧
    d.variants = some [v] ∧ v.regexes = some [r] ∧ lit ∈ v.lits ∧ expand E d = .error (.regexPrefix r lit) ∧
    G.mat (.regex r) lit :=
  ⟨altLogos, altEngine, ⟨false, [], some [exVar [1] [.regex (some [[97, 98, 124, 97, 98, 99]]),
      .terminal (some [⟨some [7], .path⟩, ⟨some [6], .value (some [97, 98, 99])⟩])]]⟩, _,
    [97, 98, 124, 97, 98, 99], [97, 98, 99], altAgrees, rfl, rfl, by decide, rfl, by decide⟩

/-- `regex("a", "b")` with the literal `"a"` is refused because of the second regex, although the first one matches
the literal. -/
theorem C82_false_second : ∃ (G : Logos) (E : Engine) (d : Decl) (v : Variant) (r r' lit : Str), G.Agrees E ∧
    d.variants = some [v] ∧ v.regexes = some [r, r'] ∧ lit ∈ v.lits ∧
    expand E d = .error (.regexMismatch r' lit) ∧ G.mat (.regex r) lit :=
  ⟨altLogos, altEngine, ⟨false, [], some [exVar [1] [.regex (some [[97], [98]]),
      .terminal (some [⟨some [7], .path⟩, ⟨some [6], .value (some [97])⟩])]]⟩, _,
    [97], [98], [97], altAgrees, rfl, rfl, by decide, rfl, by decide⟩

/-- `regex("b")` with the literal `"ab"` -/
example : expand altEngine ⟨false, [], some [exVar [1] [.regex (some [[98]]),
    .terminal (some [⟨some [7], .path⟩, ⟨some [6], .value (some [97, 98])⟩])]]⟩ = .error (.regexStart [98] [97, 98]) := rfl

/-! ## C83 -/

/-- If the declaration splits the source into tokens and ignored text, the generated lexer returns these tokens and
reports nothing as unrecognised. Missing for the full property: as for `C81_token_partial`. -/
theorem C83_scan_partial {G : Logos} {E : Engine} (hG : G.Agrees E) {d : Decl} {L : Lexicon}
    (h : expand E d = .ok L) {vs : List Variant} (hvs : d.variants = some vs) (ht : d.Texts)
    (hn : (vs.map Variant.ident).Nodup) (hb : vs.Pairwise fun a b => ¬ (a.Blank ∧ b.Lexed)) (hc : d.Clear G)
    {source : Str} {toks : List (Nat × Str)} (hs : d.Splits G source toks) {items : List (Item n)}
    (hscan : L.Scan G source 0 items) :
    ∃ ts : List (Token n), items = ts.map .token ∧ ts.map (fun t => (t.ty.val, textOf source t.span)) = toks :=
  (Faithful.of_expand h hvs hb).scan hG ht hn hc hs hscan

/-- The generated `should_extract` holds for the variants without terminals. -/
theorem C83_extract {E : Engine} {d : Decl} {L : Lexicon} (h : expand E d = .ok L) {vs : List Variant}
    (hvs : d.variants = some vs) (hn : (vs.map Variant.ident).Nodup) (ty : Fin vs.length) :
    L.shouldExtract ty = true ↔ vs[ty.val].terms = [] :=
  extract_iff h hvs hn ty

/-- The words the parser sees are the words of the declaration. -/
theorem C83_words_partial {G : Logos} {E : Engine} (hG : G.Agrees E) {d : Decl} {L : Lexicon}
    (h : expand E d = .ok L) {vs : List Variant} (hvs : d.variants = some vs) (ht : d.Texts)
    (hn : (vs.map Variant.ident).Nodup) (hb : vs.Pairwise fun a b => ¬ (a.Blank ∧ b.Lexed)) (hc : d.Clear G)
    {source : Str} {toks : List (Nat × Str)} (hs : d.Splits G source toks) {items : List (Item vs.length)}
    (hscan : L.Scan G source 0 items) :
    inputWords L.shouldExtract source items = Decl.words vs toks :=
  (Faithful.of_expand h hvs hb).words hG ht hn hc hs hscan

/-- From the text to the tree: given declarations of a lexicon and of a grammar that are accepted, `Root::parse` of a
source that the declaration splits into tokens and ignored text returns a tree, reports no error and leaves nothing
over exactly if the texts of the tokens of variants with terminals are a sentence of the root. Missing for the full
property: the conditions of `C81_token_partial` and `C77_accepts_partial`. -/
theorem C83_parse_partial {m : Nat} {G : Logos} {E : Engine} (hG : G.Agrees E) {d : Decl} {L : Lexicon}
    (h : expand E d = .ok L) {vs : List Variant} (hvs : d.variants = some vs) (ht : d.Texts)
    (hn : (vs.map Variant.ident).Nodup) (hb : vs.Pairwise fun a b => ¬ (a.Blank ∧ b.Lexed)) (hc : d.Clear G)
    (S : Schema m vs.length) (fuel : Nat) (root : Ty m vs.length)
    (md : Metadata (PId m vs.length) vs.length) (Gr : Grammar (PId m vs.length) vs.length)
    (hmd : S.metadata fuel root = some (.ok md)) (hGr : S.IsGrammar root Gr) (hsafe : SkipSafe Gr)
    (hpunct : ∀ t p, Reach S.tyParts root (.punct t p) → ∀ a tok, Beyond Gr a tok →
      ¬ EndsWith Gr a (Ty.punct t p).pid)
    (henum : ∀ k v vs', S k = .enum v vs' → Reachable Gr root.pid (.user k) → Nullable Gr (.user k) →
      ∀ tok, ¬ FollowOf Gr root.pid (.user k) (some tok))
    (hsep : ∀ t p, Reach S.tyParts root (.split t p) → ¬ Nullable Gr p.pid) (hl : LoopFree S root)
    (hloud : Loud S root) {source : Str} (hu : Utf8 source) {toks : List (Nat × Str)} (hs : d.Splits G source toks)
    {items : List (Item vs.length)} (hscan : L.Scan G source 0 items) :
    (∃ x p' fuel', rootParse L.shouldExtract S fuel' root source items = .ok (.ok (some x)) p' ∧
      p'.info.errors = [] ∧ (p'.view L.shouldExtract).rest = []) ↔
    Derives Gr [.nt root.pid] ((Decl.words vs toks).map .tok) := by
  rw [← C83_words_partial hG h hvs ht hn hb hc hs hscan,
    ← C77_accepts_partial L.shouldExtract S fuel root md Gr hmd hGr hsafe hpunct henum hsep hl hloud source items
      (C81_wf hG h ht hu hscan)]
  constructor
  · rintro ⟨x, p', f, h1, h2, h3⟩
    exact ⟨x, p', f, h1, by rw [h2]; rfl, h3⟩
  · rintro ⟨x, p', f, h1, h2, h3⟩
    refine ⟨x, p', f, h1, ?_, h3⟩
    have hre : Reached L.shouldExtract source items p' := .parse S f root _ .new h1
    obtain ⟨ts, rfl, -⟩ := C83_scan_partial hG h hvs ht hn hb hc hs hscan
    obtain ⟨read, g1, -, g3, g4⟩ := C04_recorded _ _ _ _ hre
    have : invalidRuns read = [] := invalidRuns_nil fun sp hsp => by
      have : Item.error sp ∈ ts.map Item.token := by rw [g1]; simp [hsp]
      simp at this
    rw [g3, this, List.map_nil, List.filter_eq_nil_iff] at g4
    unfold syntaxErrors at h2
    rw [List.filter_eq_nil_iff] at h2
    rw [List.eq_nil_iff_forall_not_mem]
    intro e he
    have h5 := g4 e he
    have h6 := h2 e he
    simp at h5 h6
    exact h5 h6

/-! ### Example -/

/-- The rules of a declaration as a list. -/
def Decl.ruleList (d : Decl) : List (LexRule × Option Nat) :=
  d.ignores.map (fun r => (.regex r, none)) ++
    (d.variants.getD []).zipIdx.flatMap fun e => e.1.rules.map fun r => (r, some e.2)

theorem mem_ruleList {d : Decl} {r : LexRule} {t : Option Nat} : d.Rule r t ↔ (r, t) ∈ d.ruleList := by
  unfold Decl.Rule Decl.ruleList
  rw [List.mem_append, List.mem_map, List.mem_flatMap]
  constructor
  · rintro (⟨rfl, i, hi, rfl⟩ | ⟨vs, hvs, k, v, hk, rfl, hr⟩)
    · exact .inl ⟨i, hi, rfl⟩
    · exact .inr ⟨(v, k), by rw [hvs]; exact List.mem_zipIdx_iff_getElem?.2 hk, List.mem_map.2 ⟨r, hr, rfl⟩⟩
  · rintro (⟨i, hi, he⟩ | ⟨⟨v, k⟩, he, hr⟩)
    · cases he; exact .inl ⟨rfl, i, hi, rfl⟩
    · obtain ⟨r', hr', he'⟩ := List.mem_map.1 hr
      cases he'
      cases hv : d.variants with
      | none => rw [hv] at he; simp at he
      | some vs =>
        rw [hv] at he
        exact .inr ⟨vs, rfl, k, v, List.mem_zipIdx_iff_getElem?.1 he, rfl, hr'⟩

def altsOf : LexRule → List Str
  | .regex r => alts r
  | .token lit => [lit]

theorem mat_altsOf {r : LexRule} {text : Str} : altLogos.mat r text ↔ text ∈ altsOf r := by
  cases r
  · exact Iff.rfl
  · exact List.mem_singleton.symm

theorem clear_of {d : Decl} (h : ∀ e ∈ d.ruleList, ∀ e' ∈ d.ruleList, altLogos.prio e.1 = altLogos.prio e'.1 →
    e.2 ≠ e'.2 → ∀ text ∈ altsOf e.1, text ∉ altsOf e'.1) : d.Clear altLogos := by
  intro r t r' t' text h1 h2 h3 h4 h5
  exact Classical.not_not.1 fun hne => h _ (mem_ruleList.1 h1) _ (mem_ruleList.1 h2) h5 hne text
    (mat_altsOf.1 h3) (mat_altsOf.1 h4)

theorem best_of {d : Decl} {s : Str} {len : Nat} {r : LexRule} {t : Option Nat}
    (h : (r, t) ∈ d.ruleList ∧ len ≤ s.length ∧ altLogos.mat r (s.take len) ∧
      ∀ e ∈ d.ruleList, ∀ len' ≤ s.length, altLogos.mat e.1 (s.take len') →
        len' < len ∨ (len' = len ∧ altLogos.prio e.1 ≤ altLogos.prio r)) : d.Best altLogos s len r t :=
  ⟨mem_ruleList.2 h.1, h.2.1, h.2.2.1, fun r' t' h' => h.2.2.2 (r', t') (mem_ruleList.1 h')⟩

def teVars : List Variant :=
  [exVar [1] [.regex (some [[97, 124, 98]]), .terminal (some [⟨some [7], .path⟩])],
   exVar [2] [.regex (some [[49, 124, 51]]), .terminal (some [⟨some [8], .path⟩])],
   exVar [3] [.terminal (some [⟨some [9], .value (some [120])⟩])]]

/-- `enum T { #[teleparse(regex("a|b"), terminal(Word))] W, #[teleparse(regex("1|3"), terminal(Num))] N,
#[teleparse(terminal(X = "x"))] K }` with `ignore(" ")` -/
def teDecl : Decl := ⟨false, [some [.ignore (some [[32]])]], some teVars⟩

def teL : Lexicon := lexiconOf altEngine teDecl

def teToks : List (Nat × Str) := [(0, [97]), (1, [49]), (2, [120]), (1, [51])]

theorem teOk : expand altEngine teDecl = .ok teL := rfl

theorem teTexts : teDecl.Texts := by
  rintro vs ⟨⟩ v hv lit hlit
  have : ∀ v ∈ teVars, ∀ lit ∈ v.lits, (lit.all (· < 128)) = true := by decide
  exact utf8_ascii (this v hv lit hlit)

/-- `"a 1 x 3"` -/
theorem teSplits : teDecl.Splits altLogos (xxSource.take 7) teToks :=
  .token (len := 1) (r := .regex [97, 124, 98]) (best_of (by decide))
    (.skip (len := 1) (r := .regex [32]) (best_of (by decide))
    (.token (len := 1) (r := .regex [49, 124, 51]) (best_of (by decide))
    (.skip (len := 1) (r := .regex [32]) (best_of (by decide))
    (.token (len := 1) (r := .token [120]) (best_of (by decide))
    (.skip (len := 1) (r := .regex [32]) (best_of (by decide))
    (.token (len := 1) (r := .regex [49, 124, 51]) (best_of (by decide)) .done))))))

/-- The text is accepted, whatever the scanner returns. -/
example : ∃ items : List (Item 3), teL.Scan altLogos (xxSource.take 7) 0 items ∧
    ∃ x p' fuel', rootParse teL.shouldExtract cxS fuel' xxT (xxSource.take 7) items = .ok (.ok (some x)) p' ∧
      p'.info.errors = [] ∧ (p'.view teL.shouldExtract).rest = [] := by
  obtain ⟨items, hs⟩ := C81_total altAgrees teOk teTexts (vs := teVars) rfl (xxSource.take 7)
  exact ⟨items, hs, (C83_parse_partial altAgrees teOk (vs := teVars) rfl teTexts (by decide) (by decide)
    (clear_of (by decide)) cxS 40 xxT cxMd cxG xxMd_ok xxG_ok cx_safe xx_punct cx_enum xx_sep xx_loop xx_loud
    (utf8_ascii (by decide)) teSplits hs).2 xx_sentence⟩

end Teleparse.Macro

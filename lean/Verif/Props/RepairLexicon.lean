import Verif.Proof.RepairLexicon
import Verif.Props.Scanning
/-
Properties of the repaired `derive_lexicon`: C119.
-/
namespace Teleparse.Macro
variable {n : Nat} {G : Logos} {E : Engine} {d : Decl} {L : Lexicon} {vs : List Variant}

theorem faithful (h : expandFix E d = .ok L) (hvs : d.variants = some vs) : Faithful E d vs L := by
  obtain ⟨hok, vs', hvs', -, rfl⟩ := expandFix_ok.1 h
  cases hvs.symm.trans hvs'
  exact ⟨hok, hvs, rfl⟩

/-! ## C119 -/

/-- The repaired macro accepts the declarations that the present one accepts, except those with a variant that
declares a literal twice or declares literals and has no rules. -/
theorem C119_accepts (hvs : d.variants = some vs) : (∃ L, expandFix E d = .ok L) ↔ (∃ L, expand E d = .ok L) ∧
    ∀ v ∈ vs, v.lits.Nodup ∧ (v.lits ≠ [] → v.rules ≠ []) := by
  constructor
  · rintro ⟨L, h⟩
    obtain ⟨hok, vs', hvs', hs, rfl⟩ := expandFix_ok.1 h
    cases hvs.symm.trans hvs'
    exact ⟨⟨_, expand_ok.2 ⟨hok, vs, hvs, rfl⟩⟩, fun v hv => ⟨(hs v hv).1, (hs v hv).2⟩⟩
  · rintro ⟨⟨L, h⟩, hs⟩
    obtain ⟨hok, -⟩ := expand_ok.1 h
    exact ⟨_, expandFix_ok.2 ⟨hok, vs, hvs, fun v hv => ⟨(hs v hv).1, (hs v hv).2⟩, rfl⟩⟩

/-- The code is that of the present macro except for the rules of the scanner, and all of it is the same if no
variant without rules and terminals precedes a variant with rules. -/
theorem C119_same (h : expandFix E d = .ok L) (hvs : d.variants = some vs) :
    ∃ L', expand E d = .ok L' ∧ L = { L' with logos := L.logos } ∧
      ((vs.Pairwise fun a b => ¬ (a.Blank ∧ b.Lexed)) → L' = L) := by
  refine ⟨_, (faithful h hvs).expand, rfl, fun hb => ?_⟩
  have h1 := Faithful.of_expand (faithful h hvs).expand hvs hb
  rw [h1.2.2, (faithful h hvs).2.2]

/-- Every variant has the rules that are written on it, whatever the order of declaration. -/
theorem C119_rules (h : expandFix E d = .ok L) (hvs : d.variants = some vs) (hn : (vs.map Variant.ident).Nodup)
    (v : Variant) (hv : v ∈ vs) : L.rulesOf v.ident = v.rules := by
  unfold Lexicon.rulesOf
  rw [(faithful h hvs).logos, rulesOf_of_mem hn hv]
  by_cases hl : v.Lexed
  · simp [hl]
  · have : v.rules = [] := Classical.not_not.1 fun h => hl (.inr h)
    simp [this]

/-- A variant whose literals are not all different is rejected. -/
theorem C119_duplicate (E : Engine) (hvs : d.variants = some vs) {v : Variant} (hv : v ∈ vs)
    {as bs cs : List TMeta} {s t : TMeta} {lit : Str} (h : v.terms = as ++ s :: bs ++ t :: cs)
    (hs : s.lit = some lit) (ht : t.lit = some lit) : ∃ e, expandFix E d = .error e := by
  cases hx : expandFix E d with
  | error e => exact ⟨e, rfl⟩
  | ok L =>
    obtain ⟨-, vs', hvs', hsane, -⟩ := expandFix_ok.1 hx
    cases hvs.symm.trans hvs'
    have := (hsane v hv).distinct
    unfold Variant.lits at this
    rw [h] at this
    simp [List.filterMap_append, hs, ht, List.nodup_append] at this

/-- The scanner returns non-empty pieces of the source on character boundaries, from left to right. -/
theorem C119_wf (hG : G.Agrees E) (h : expandFix E d = .ok L) (ht : d.Texts) {source : Str} (hs : Utf8 source)
    {items : List (Item n)} (hscan : L.Scan G source 0 items) : ItemsWF source items := by
  obtain ⟨-, vs, hvs, -⟩ := expandFix_ok.1 h
  exact (hscan.wf hs (fun _ _ hr => (faithful h hvs).good hG ht hr) (Nat.zero_le _) hs).1

/-- Scanning comes to the end of every source. -/
theorem C119_total (hG : G.Agrees E) (h : expandFix E d = .ok L) (ht : d.Texts) (hvs : d.variants = some vs)
    (source : Str) : ∃ items : List (Item vs.length), L.Scan G source 0 items := by
  have hF := faithful h hvs
  refine exists_scan source (fun _ _ hr => (hF.good hG ht hr).1) (fun r name hr => ?_) source.length 0
    (by omega) (Nat.zero_le _)
  obtain ⟨k, v, hk, -, hm⟩ := hF.named hr
  exact ⟨⟨k, (List.getElem?_eq_some_iff.1 hk).1⟩, hm⟩

/-- A token has a text that a rule written on its variant matches, and no rule that is written matches more of the
text from there on, or the same with a higher priority. -/
theorem C119_token (h : expandFix E d = .ok L) (hvs : d.variants = some vs) (hn : (vs.map Variant.ident).Nodup)
    {source : Str} {items : List (Item n)} (hscan : L.Scan G source 0 items) (t : Token n) (ht : .token t ∈ items) :
    ∃ v, vs[t.ty.val]? = some v ∧ ∃ r ∈ v.rules, G.mat r (piece source t.span.lo t.span.hi) ∧
      ∀ r' target, d.Rule r' target → ∀ hi ≤ source.length, t.span.lo ≤ hi →
        G.mat r' (piece source t.span.lo hi) →
        hi < t.span.hi ∨ (hi = t.span.hi ∧ G.prio r' ≤ G.prio r) :=
  (faithful h hvs).token hn hscan t ht

/-- No rule that is written matches where an unrecognised piece begins. -/
theorem C119_invalid (h : expandFix E d = .ok L) (hvs : d.variants = some vs) (hn : (vs.map Variant.ident).Nodup)
    {source : Str} {items : List (Item n)} (hscan : L.Scan G source 0 items) (sp : Span) (hsp : .error sp ∈ items)
    (r : LexRule) (target : Option Nat) (hr : d.Rule r target) (hi : Nat) (hle : hi ≤ source.length)
    (hlo : sp.lo ≤ hi) : ¬ G.mat r (piece source sp.lo hi) :=
  (faithful h hvs).invalid hn hscan sp hsp r target hr hi hle hlo

/-- Where the scanner comes to the literal of a terminal, it returns it as a token of the variant of the terminal,
unless a rule matches more of the text from there on, or a rule of another variant or of `ignore` matches the literal
with a priority that is not lower. -/
theorem C119_emits (hG : G.Agrees E) (h : expandFix E d = .ok L) (hvs : d.variants = some vs)
    (hn : (vs.map Variant.ident).Nodup) {k : Nat} {v : Variant} (hk : vs[k]? = some v) {lit : Str}
    (hlit : lit ∈ v.lits) {source rest : Str} {p : Nat} (hp : source.drop p = lit ++ rest)
    (hlong : ∀ r target, d.Rule r target → ∀ hi ≤ source.length, p + lit.length < hi →
      ¬ G.mat r (piece source p hi))
    (hprio : ∀ r target, d.Rule r target → target ≠ some k → G.mat r lit →
      ∃ r' ∈ v.rules, G.mat r' lit ∧ G.prio r < G.prio r')
    {items : List (Item n)} (hscan : L.Scan G source p items) :
    ∃ ty items', ty.val = k ∧ items = .token ⟨⟨p, p + lit.length⟩, ty⟩ :: items' ∧
      L.Scan G source (p + lit.length) items' := by
  obtain ⟨-, vs', hvs', hs, -⟩ := expandFix_ok.1 h
  cases hvs.symm.trans hvs'
  exact (faithful h hvs).emits hG hn hk
    ((hs v (List.mem_of_getElem? hk)).covered (List.ne_nil_of_mem hlit)) hlit hp hlong hprio hscan

/-- If the declaration splits the source into tokens and ignored text, the scanner returns these tokens and reports
nothing as unrecognised, and the parser sees those of variants with terminals. -/
theorem C119_scan (hG : G.Agrees E) (h : expandFix E d = .ok L) (hvs : d.variants = some vs) (ht : d.Texts)
    (hn : (vs.map Variant.ident).Nodup) (hc : d.Clear G) {source : Str} {toks : List (Nat × Str)}
    (hs : d.Splits G source toks) {items : List (Item vs.length)} (hscan : L.Scan G source 0 items) :
    (∃ ts : List (Token vs.length), items = ts.map .token ∧
      ts.map (fun t => (t.ty.val, textOf source t.span)) = toks) ∧
    inputWords L.shouldExtract source items = Decl.words vs toks :=
  ⟨(faithful h hvs).scan hG ht hn hc hs hscan, (faithful h hvs).words hG ht hn hc hs hscan⟩

/-! ### Examples -/

/-- The lexicon of the repaired macro. -/
def lexiconFixOf (E : Engine) (d : Decl) : Lexicon :=
  match expandFix E d with
  | .ok L => L
  | .error _ => ⟨[], [], [], [], [], 0, [], 0⟩

/-- The witness of `C49_false` and `C81_false`: a variant without rules is declared first. -/
theorem misaligned_ok : expandFix altEngine exMisaligned = .ok (lexiconFixOf altEngine exMisaligned) := rfl

def misalignedVars : List Variant :=
  [exVar [0] [], exVar [1] [.regex (some [[97]])], exVar [2] [.regex (some [[98]])]]

example : exMisaligned.variants = some misalignedVars ∧ (misalignedVars.map Variant.ident).Nodup ∧
    (lexiconFixOf altEngine exMisaligned).rulesOf [1] = [.regex [97]] ∧
    (lexiconFixOf altEngine exMisaligned).rulesOf [2] = [.regex [98]] := ⟨rfl, by decide, by decide, by decide⟩

/-- There the text `a` is now a token of the variant with the regex `a`. -/
example : (lexiconFixOf altEngine exMisaligned).Scan altLogos [97] 0 ([.token ⟨⟨0, 1⟩, 1⟩] : List (Item 3)) :=
  .token (len := 1) (r := .regex [97]) (name := [1]) (picks_of (by decide)) (by decide) .done

/-- It was one of the next variant. -/
example : (lexiconOf altEngine exMisaligned).Scan altLogos [97] 0 ([.token ⟨⟨0, 1⟩, 2⟩] : List (Item 3)) :=
  .token (len := 1) (r := .regex [97]) (name := [2]) (picks_of (by decide)) (by decide) .done

/-- The witnesses of `C50_false` and `C82_false` are rejected. -/
example : expandFix exEngine exDuplicate = .error (.old (.duplicate [1] [97])) ∧
    expandFix altEngine deadDecl = .error (.missingRegex [1]) := ⟨rfl, rfl⟩

/-- `regex()` with a literal -/
example : (∃ L, expand altEngine ⟨false, [], some [exVar [1] [.regex (some []), .terminal (some [⟨some [7], .path⟩,
      ⟨some [8], .value (some [97])⟩])]]⟩ = .ok L) ∧
    expandFix altEngine ⟨false, [], some [exVar [1] [.regex (some []), .terminal (some [⟨some [7], .path⟩,
      ⟨some [8], .value (some [97])⟩])]]⟩ = .error (.missingRegex [1]) := ⟨⟨_, rfl⟩, rfl⟩

/-- The other examples are compiled as before. -/
example : expandFix altEngine teDecl = .ok teL ∧ expandFix altEngine scDecl = .ok scL := ⟨rfl, rfl⟩

/-- The hypotheses of `C119_scan`, and its conclusion. -/
example : ∃ items : List (Item 3), teL.Scan altLogos (xxSource.take 7) 0 items ∧
    inputWords teL.shouldExtract (xxSource.take 7) items = Decl.words teVars teToks := by
  have h : expandFix altEngine teDecl = .ok teL := rfl
  obtain ⟨items, hs⟩ := C119_total (vs := teVars) altAgrees h teTexts rfl (xxSource.take 7)
  exact ⟨items, hs, (C119_scan altAgrees h rfl teTexts (by decide) (clear_of (by decide)) teSplits hs).2⟩

end Teleparse.Macro

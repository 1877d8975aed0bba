import Verif.Spec.Lexing
import Verif.Spec.Lexicon
/-
Specification of scanning with the rules generated by `derive_lexicon`: what the two crates used, `regex` at
compile time and `logos` at run time, are taken to do.
-/
namespace Teleparse.Macro

/-- Valid UTF-8, as far as the lengths of the encoded characters go. -/
inductive Utf8 : Str → Prop
  | nil : Utf8 []
  | one {a s} : a < 128 → Utf8 s → Utf8 (a :: s)
  | two {a b s} : 192 ≤ a → a < 224 → 128 ≤ b → b < 192 → Utf8 s → Utf8 (a :: b :: s)
  | three {a b c s} : 224 ≤ a → a < 240 → 128 ≤ b → b < 192 → 128 ≤ c → c < 192 → Utf8 s →
      Utf8 (a :: b :: c :: s)
  | four {a b c d s} : 240 ≤ a → a < 248 → 128 ≤ b → b < 192 → 128 ≤ c → c < 192 → 128 ≤ d → d < 192 →
      Utf8 s → Utf8 (a :: b :: c :: d :: s)

/-- The piece `lo..hi` of a text. -/
def piece (s : Str) (lo hi : Nat) : Str := (s.drop lo).take (hi - lo)

/-- What logos knows about the rules: which texts a rule matches, and its priority. -/
structure Logos where
  mat : LexRule → Str → Prop
  prio : LexRule → Nat

/-- `#[token(lit)]` matches the literal and nothing else, `#[regex(r)]` matches texts, and the `regex` crate
knows the same language: `Regex::find` returns a match that begins as far left as possible, if there is one.
(Which of the matches that begin there is left open: `regex` prefers the first alternative, logos the longest
match.) -/
structure Logos.Agrees (G : Logos) (E : Engine) : Prop where
  token : ∀ lit text, G.mat (.token lit) text ↔ text = lit
  utf8 : ∀ r text, G.mat (.regex r) text → Utf8 text
  found : ∀ r s a b, E.find r s = some (a, b) → a ≤ b ∧ b ≤ s.length ∧ G.mat (.regex r) (piece s a b) ∧
    ∀ a' < a, ∀ b' ≤ s.length, a' ≤ b' → ¬ G.mat (.regex r) (piece s a' b')
  missing : ∀ r s, E.find r s = none → ∀ a b, a ≤ b → b ≤ s.length → ¬ G.mat (.regex r) (piece s a b)

/-- The rules of the generated scanner: `#[logos(skip ..)]` without a variant, the others with theirs. -/
def Lexicon.rules (L : Lexicon) : List (LexRule × Option Str) :=
  L.skips.map (fun r => (.regex r, none)) ++ L.logos.flatMap fun e => e.1.map fun r => (r, some e.2)

/-- At the beginning of `s` the scanner recognises `len` bytes by the rule `r`: no rule matches more, and no
rule of higher priority the same. -/
structure Lexicon.Picks (L : Lexicon) (G : Logos) (s : Str) (len : Nat) (r : LexRule) (target : Option Str) :
    Prop where
  rule : (r, target) ∈ L.rules
  le : len ≤ s.length
  mat : G.mat r (s.take len)
  best : ∀ r' t', (r', t') ∈ L.rules → ∀ len' ≤ s.length, G.mat r' (s.take len') →
    len' < len ∨ (len' = len ∧ G.prio r' ≤ G.prio r)

/-- No rule matches at the beginning of `s`. -/
def Lexicon.Stuck (L : Lexicon) (G : Logos) (s : Str) : Prop :=
  ∀ r t, (r, t) ∈ L.rules → ∀ len ≤ s.length, ¬ G.mat r (s.take len)

/-- What the scanner returns from position `p` on: the text picked by a rule is skipped or becomes a token (the
variant is converted to the enum by name, lexicon.rs:292-298); where no rule matches, some characters are
reported as unrecognised. -/
inductive Lexicon.Scan (L : Lexicon) (G : Logos) {n : Nat} (source : Str) : Nat → List (Item n) → Prop
  | done : Lexicon.Scan L G source source.length []
  | token {p len r name items} {ty : Fin n} : L.Picks G (source.drop p) len r (some name) →
      (name, ty.val) ∈ L.variants → Lexicon.Scan L G source (p + len) items →
      Lexicon.Scan L G source p (.token ⟨⟨p, p + len⟩, ty⟩ :: items)
  | skip {p len r items} : L.Picks G (source.drop p) len r none → Lexicon.Scan L G source (p + len) items →
      Lexicon.Scan L G source p items
  | error {p len items} : L.Stuck G (source.drop p) → 0 < len → p + len ≤ source.length →
      isBoundary source (p + len) = true → Lexicon.Scan L G source (p + len) items →
      Lexicon.Scan L G source p (.error ⟨p, p + len⟩ :: items)

/-- Two rules that match the same text with the same priority belong together; logos refuses other lexers. -/
def Lexicon.Clear (L : Lexicon) (G : Logos) : Prop :=
  ∀ r t r' t' text, (r, t) ∈ L.rules → (r', t') ∈ L.rules → G.mat r text → G.mat r' text →
    G.prio r = G.prio r' → t = t'

/-- The literals of a declaration are `str`s. -/
def Decl.Texts (d : Decl) : Prop := ∀ vs, d.variants = some vs → ∀ v ∈ vs, ∀ lit ∈ v.lits, Utf8 lit

/-- The rules written in a declaration, with the number of the variant they are written on. -/
def Decl.Rule (d : Decl) (r : LexRule) (target : Option Nat) : Prop :=
  (target = none ∧ ∃ i ∈ d.ignores, r = .regex i) ∨
  ∃ vs, d.variants = some vs ∧ ∃ (k : Nat) (v : Variant), vs[k]? = some v ∧ target = some k ∧ r ∈ v.rules

/-- Of the rules that are written, `r` matches the longest beginning of `s`, of length `len`, and of those that do
it has the highest priority. -/
structure Decl.Best (d : Decl) (G : Logos) (s : Str) (len : Nat) (r : LexRule) (target : Option Nat) : Prop where
  rule : d.Rule r target
  le : len ≤ s.length
  mat : G.mat r (s.take len)
  best : ∀ r' t', d.Rule r' t' → ∀ len' ≤ s.length, G.mat r' (s.take len') →
    len' < len ∨ (len' = len ∧ G.prio r' ≤ G.prio r)

/-- Two rules that match the same text with the same priority are written on the same variant. -/
def Decl.Clear (d : Decl) (G : Logos) : Prop :=
  ∀ r t r' t' text, d.Rule r t → d.Rule r' t' → G.mat r text → G.mat r' text → G.prio r = G.prio r' → t = t'

/-- The declaration splits a text, all of it, into tokens (the number of the variant and the text) and ignored
text. -/
inductive Decl.Splits (d : Decl) (G : Logos) : Str → List (Nat × Str) → Prop
  | done : Decl.Splits d G [] []
  | token {s len r k toks} : d.Best G s len r (some k) → Decl.Splits d G (s.drop len) toks →
      Decl.Splits d G s ((k, s.take len) :: toks)
  | skip {s len r toks} : d.Best G s len r none → Decl.Splits d G (s.drop len) toks → Decl.Splits d G s toks

/-- The words for the syntax: the tokens of variants that have terminals. -/
def Decl.words (vs : List Variant) (toks : List (Nat × Str)) : List (TokenSrc vs.length) :=
  toks.filterMap fun e =>
    if h : e.1 < vs.length then if vs[e.1].terms.isEmpty then none else some ⟨⟨e.1, h⟩, e.2⟩ else none

end Teleparse.Macro

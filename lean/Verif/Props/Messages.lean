import Verif.Proof.Terms
import Verif.Proof.State
import Verif.Props.LexSet
import Verif.Props.Analysis
import Verif.Props.Safety
/-
Properties C59 (the productions named in a grammar error), C60 (the terminals listed in a grammar error)
and C61 (messages of syntax errors).
-/
namespace Teleparse
variable {I : Type} {n : Nat} [DecidableEq I]

/-! ## C59: the productions that a conflict error names -/

/-- A FIRST/FOLLOW conflict of one production is reported only if this production is reachable, can be empty,
and has a token that can begin it and can follow it. -/
theorem C59_first_follow (G : Grammar I n) (hfun : G.Functional) (root : I) (hcon : G.Connected root)
    (fuel : Nat) (self : I) (h : build fuel G root = some (.error (.firstFollow self))) :
    Reachable G root self ∧ Nullable G self ∧ ∃ tok, FirstOf G self tok ∧ FollowOf G root self (some tok) := by
  obtain ⟨first, follow, h1, h2, h3⟩ := build_error h
  obtain ⟨t, hr, hn⟩ := checkConflicts_error h3
  obtain ⟨rfl, he, ⟨tok, hf, hfo⟩, _⟩ := nodeConflict_firstFollow (fun _ => []) hn
  have d1 := buildFirst_den h1
  refine ⟨(reach_iff hfun _ _).1 hr, (firstFam_none _ _).1 ((d1 _ _).1 he), tok,
    (firstFam_some _ _ _).1 ((d1 _ _).1 hf), ?_⟩
  exact ((buildFollow_den d1 h2 _ _).1 hfo).sound hcon

/-- The error for two alternatives: the same as for C25. -/
theorem C59_first_first (G : Grammar I n) (hfun : G.Functional) (root : I) (fuel : Nat) (self a b : I)
    (h : build fuel G root = some (.error (.firstFirst self a b))) :
    Reachable G root self ∧ ∃ l, (self, Rule.alt l) ∈ G ∧
      ∃ p q : Nat, p < q ∧ l[p]? = some a ∧ l[q]? = some b ∧ Overlap G a b :=
  C25_reported G hfun root fuel self a b h

/-- `S = a b? b` -/
def exBlameG : Grammar Nat 2 :=
  [(0, .seq [1, 2, 3]), (1, .term ⟨0, none⟩), (2, .alt [3, 4]), (3, .term ⟨1, none⟩), (4, .eps)]

/-- C59 is false as stated: for `S = a b? b` the error says that `a` can be empty and that `a` and `b` have
a common first token. -/
theorem C59_false : ∃ (ruleOf : Nat → Rule Nat 2) (G : Grammar Nat 2) (a b : Nat),
    registerFrom ruleOf 10 0 = some G ∧ build 20 G 0 = some (.error (.firstFollowSeq 0 a b)) ∧
    ¬ Nullable G a ∧ ∀ tok, ¬ (FirstOf G a tok ∧ FirstOf G b tok) := by
  refine ⟨fun i => if i = 0 then .seq [1, 2, 3] else if i = 1 then .term ⟨0, none⟩ else
    if i = 2 then .alt [3, 4] else if i = 3 then .term ⟨1, none⟩ else .eps, exBlameG, 1, 3, by rfl, by rfl, ?_⟩
  have hex : ∀ (i : Nat) (t : Terminal 2), (i = 1 ∧ t = ⟨0, none⟩) ∨ (i = 3 ∧ t = ⟨1, none⟩) → ∀ γ : List (Sym Nat 2),
      Expands exBlameG i γ → ∃ tok, γ = [.tok tok] ∧ t.Matches tok := by
    rintro i t ht γ he
    cases he with
    | eps hm => simp [exBlameG] at hm; omega
    | seq hm => simp [exBlameG] at hm; omega
    | alt hm => simp [exBlameG] at hm; omega
    | term hm hx =>
      simp [exBlameG] at hm
      refine ⟨_, rfl, ?_⟩
      rcases ht with ⟨rfl, rfl⟩ | ⟨rfl, rfl⟩ <;> simp at hm <;> subst hm <;> exact hx
  have hd : ∀ (i : Nat) (t : Terminal 2), (i = 1 ∧ t = ⟨0, none⟩) ∨ (i = 3 ∧ t = ⟨1, none⟩) → ∀ δ : List (Sym Nat 2),
      Derives exBlameG [.nt i] δ → δ = [.nt i] ∨ ∃ tok, δ = [.tok tok] ∧ t.Matches tok := by
    intro i t ht δ h
    generalize hs : ([.nt i] : List (Sym Nat 2)) = σ at h
    cases h with
    | refl => exact .inl rfl
    | step e r =>
      rename_i α β γ j
      right
      have hα : α = [] := by
        cases α with
        | nil => rfl
        | cons x α => simp at hs
      subst hα
      simp at hs
      obtain ⟨rfl, rfl⟩ := hs
      obtain ⟨tok, rfl, hm⟩ := hex _ t ht _ e
      refine ⟨tok, ?_, hm⟩
      generalize hs : ([] ++ [.tok tok] ++ [] : List (Sym Nat 2)) = σ at r
      cases r with
      | refl => exact hs.symm
      | step e r =>
        rename_i α β γ j
        exfalso
        cases α <;> simp at hs
  constructor
  · intro h
    rcases hd 1 _ (.inl ⟨rfl, rfl⟩) _ h with h | ⟨tok, h, _⟩ <;> simp at h
  · rintro tok ⟨⟨β, h1⟩, β', h2⟩
    rcases hd 1 _ (.inl ⟨rfl, rfl⟩) _ h1 with h | ⟨tok1, h, hm1⟩
    · simp at h
    · rcases hd 3 _ (.inr ⟨rfl, rfl⟩) _ h2 with h' | ⟨tok2, h', hm2⟩
      · simp at h'
      · simp at h h'
        obtain ⟨rfl, _⟩ := h
        obtain ⟨rfl, _⟩ := h'
        have := hm1.1.symm.trans hm2.1
        simp at this

/-- What is true of every conflict reported for a sequence: the second part that is named is right, it has a
first token in common with some part before it that can be empty. The first part that is named is the last
part before it that cannot be empty, or the first part of the sequence. Missing for the full statement: that
the first part that is named is the one that can be empty (false in general). -/
theorem C59_seq_partial (G : Grammar I n) (hfun : G.Functional) (root : I) (fuel : Nat) (self a b : I)
    (h : build fuel G root = some (.error (.firstFollowSeq self a b))) :
    Reachable G root self ∧ ∃ pre post, (self, Rule.seq (pre ++ b :: post)) ∈ G ∧
      (∃ c ∈ pre, Nullable G c ∧ ∃ tok, FirstOf G c tok ∧ FirstOf G b tok) ∧
      ∃ pre1 mid, pre = pre1 ++ a :: mid ∧ (∀ k ∈ mid, Nullable G k) ∧ (pre1 = [] ∨ ¬ Nullable G a) := by
  obtain ⟨first, follow, h1, h2, h3⟩ := build_error h
  obtain ⟨t, hr, hn⟩ := checkConflicts_error h3
  obtain ⟨rfl, l, pre, post, hg, rfl, ⟨p, m, rfl, hm, hp⟩, ⟨tok, hb, hrem⟩, _⟩ :=
    nodeConflict_firstFollowSeq (fun _ => []) hn
  have d1 := buildFirst_den h1
  have dn : ∀ k, first.den k none ↔ Nullable G k := fun k => (d1 k none).trans (firstFam_none _ _)
  have df : ∀ k tok, first.den k (some tok) ↔ FirstOf G k tok := fun k tok => (d1 k _).trans (firstFam_some _ _ _)
  refine ⟨(reach_iff hfun _ _).1 hr, _, post, mem_of_aget? hg, ?_, p, m, rfl, fun k hk => (dn k).1 (hm k hk), ?_⟩
  · obtain ⟨p', c, m', he, hc1, hc2, _⟩ := hrem
    exact ⟨c, by rw [he]; simp, (dn _).1 hc1, tok, (df _ _).1 hc2, (df _ _).1 hb⟩
  · rw [← dn]; exact hp

/-- In a sequence of two parts both are right. Missing for the full statement: longer sequences. -/
theorem C59_two_partial (G : Grammar I n) (hfun : G.Functional) (root : I) (fuel : Nat) (self a b c d : I)
    (hm : (self, Rule.seq [c, d]) ∈ G)
    (h : build fuel G root = some (.error (.firstFollowSeq self a b))) :
    a = c ∧ b = d ∧ Nullable G a ∧ ∃ tok, FirstOf G a tok ∧ FirstOf G b tok := by
  obtain ⟨_, pre, post, hm', ⟨c', hc', hn, tok, h1, h2⟩, pre1, mid, he, _⟩ :=
    C59_seq_partial G hfun root fuel self a b h
  have hr := (aget?_of_mem hfun hm).symm.trans (aget?_of_mem hfun hm')
  simp at hr
  subst he
  cases pre1 with
  | cons x pre1 =>
    have := congrArg List.length hr
    simp at this
    omega
  | nil =>
    cases mid with
    | cons x mid =>
      have := congrArg List.length hr
      simp at this
    | nil =>
      simp at hr hc'
      obtain ⟨rfl, rfl, _⟩ := hr
      subst hc'
      exact ⟨rfl, rfl, hn, tok, h1, h2⟩

/-- `S = a? a` -/
example : build 10 ([(0, .seq [1, 2]), (1, .alt [2, 3]), (2, .term ⟨0, none⟩), (3, .eps)] : Grammar Nat 1) 0 =
    some (.error (.firstFollowSeq 0 1 2)) := by rfl

/-- `S = A a; A = B?; B = b C; C = a?` with only FIRST/FOLLOW conflict in `C`. -/
example : build 20 ([(0, .seq [1, 3]), (1, .seq [2, 4]), (2, .term ⟨1, none⟩), (3, .term ⟨0, none⟩),
    (4, .alt [3, 5]), (5, .eps)] : Grammar Nat 2) 0 = some (.error (.firstFollow 4)) := by rfl

/-! ## C60: the terminals listed in a grammar error -/

/-- Two alternatives: exactly the terminals that both can begin with are listed, and `<empty>` if both can be
empty. -/
theorem C60_first_first (name : Fin n → Str) (G : Grammar I n) (root : I) (fuel : Nat) (self a b : I)
    (first follow : Tbl I n) (h1 : buildFirst fuel G = some first)
    (h2 : buildFollow fuel first G root = some follow)
    (h : build fuel G root = some (.error (.firstFirst self a b))) :
    (GErr.firstFirst self a b).terms name G first follow ≠ [] ∧
    Lists (fun | some tok => FirstOf G a tok ∧ FirstOf G b tok
               | none => Nullable G a ∧ Nullable G b) name
      ((GErr.firstFirst self a b).terms name G first follow) := by
  obtain ⟨first', follow', h1', h2', h3⟩ := build_error h
  cases h1.symm.trans h1'
  cases h2.symm.trans h2'
  obtain ⟨t, hr, hn⟩ := checkConflicts_error h3
  have hl := nodeConflict_firstFirst_terms name hn
  have d1 := buildFirst_den h1
  obtain ⟨_, _, _, _, _, _, _, _, x, hx1, hx2⟩ := nodeConflict_firstFirst hn
  refine ⟨hl.nonempty ⟨hx1, hx2⟩, hl.congr fun x => ?_⟩
  rw [d1, d1]
  cases x with
  | none => exact and_congr (firstFam_none _ _) (firstFam_none _ _)
  | some tok => exact and_congr (firstFam_some _ _ _) (firstFam_some _ _ _)

/-- The tokens that can begin a part that can be empty, with nothing but such parts after it. -/
def PendingFirst (G : Grammar I n) (pre : List I) (tok : TokenSrc n) : Prop :=
  ∃ pre1 c mid, pre = pre1 ++ c :: mid ∧ Nullable G c ∧ (∀ k ∈ mid, Nullable G k) ∧ FirstOf G c tok

/-- Two parts of a sequence, in any grammar: exactly the tokens are listed that the second part can begin with
and that are pending there, or begin an earlier part that can be empty and can begin with all tokens of the
type. -/
theorem C60_seq (name : Fin n → Str) (G : Grammar I n) (root : I) (fuel : Nat) (self a b : I)
    (first follow : Tbl I n) (h1 : buildFirst fuel G = some first)
    (h2 : buildFollow fuel first G root = some follow)
    (h : build fuel G root = some (.error (.firstFollowSeq self a b))) :
    (GErr.firstFollowSeq self a b).terms name G first follow ≠ [] ∧
    ∃ pre post, (self, Rule.seq (pre ++ b :: post)) ∈ G ∧
    Lists (fun x => ∃ tok, x = some tok ∧ FirstOf G b tok ∧ (PendingFirst G pre tok ∨
        ∃ c ∈ pre, Nullable G c ∧ ∀ y, FirstOf G c ⟨tok.ty, y⟩)) name
      ((GErr.firstFollowSeq self a b).terms name G first follow) := by
  obtain ⟨first', follow', h1', h2', h3⟩ := build_error h
  cases h1.symm.trans h1'
  cases h2.symm.trans h2'
  obtain ⟨t, hr, hn⟩ := checkConflicts_error h3
  obtain ⟨rfl, l, pre, post, hg, rfl, _, ⟨tok, hb, hrem⟩, hl⟩ := nodeConflict_firstFollowSeq name hn
  have d1 := buildFirst_den h1
  have dn : ∀ k, first.den k none ↔ Nullable G k := fun k => (d1 k none).trans (firstFam_none _ _)
  have df : ∀ k tok, first.den k (some tok) ↔ FirstOf G k tok := fun k tok => (d1 k _).trans (firstFam_some _ _ _)
  have hrm : ∀ tok, Remembered first pre tok ↔ (PendingFirst G pre tok ∨
        ∃ c ∈ pre, Nullable G c ∧ ∀ y, FirstOf G c ⟨tok.ty, y⟩) := by
    intro tok
    constructor
    · rintro ⟨p, c, m, rfl, h1, h2, h3 | h3⟩
      · exact .inl ⟨p, c, m, rfl, (dn _).1 h1, fun k hk => (dn k).1 (h3 k hk), (df _ _).1 h2⟩
      · exact .inr ⟨c, by simp, (dn _).1 h1, fun y => (df _ _).1 (h3 y)⟩
    · rintro (⟨p, c, m, rfl, h1, h2, h3⟩ | ⟨c, hc, h1, h2⟩)
      · exact ⟨p, c, m, rfl, (dn _).2 h1, (df _ _).2 h3, .inl fun k hk => (dn k).2 (h2 k hk)⟩
      · exact Remembered.full hc ((dn _).2 h1) (fun y => (df _ _).2 (h2 y)) tok.src
  refine ⟨hl.nonempty (x := some tok) ⟨hb, tok, rfl, hrem⟩, pre, post, mem_of_aget? hg, hl.congr fun x => ?_⟩
  constructor
  · rintro ⟨h1, tok, rfl, h2⟩
    exact ⟨tok, rfl, (df _ _).1 h1, (hrm _).1 h2⟩
  · rintro ⟨tok, rfl, h1, h2⟩
    exact ⟨(df _ _).2 h1, tok, rfl, (hrm _).2 h2⟩

/-- For grammars without the exception of C28 exactly the conflicting tokens are listed. Missing for the full
statement: grammars with that exception, for which `C60_seq` is the exact statement. -/
theorem C60_seq_partial (name : Fin n → Str) (G : Grammar I n) (hfun : G.Functional) (root : I)
    (hnb : NoBareRepeat G root) (fuel : Nat) (self a b : I)
    (first follow : Tbl I n) (h1 : buildFirst fuel G = some first)
    (h2 : buildFollow fuel first G root = some follow)
    (h : build fuel G root = some (.error (.firstFollowSeq self a b))) :
    ∃ pre post, (self, Rule.seq (pre ++ b :: post)) ∈ G ∧
    Lists (fun x => ∃ tok, x = some tok ∧ FirstOf G b tok ∧ PendingFirst G pre tok) name
      ((GErr.firstFollowSeq self a b).terms name G first follow) := by
  obtain ⟨_, pre, post, hm, hl⟩ := C60_seq name G root fuel self a b first follow h1 h2 h
  refine ⟨pre, post, hm, hl.congr fun x => ?_⟩
  have hr := (C59_seq_partial G hfun root fuel self a b h).1
  constructor
  · rintro ⟨tok, rfl, hb, hp | ⟨c, hc, hn, hf⟩⟩
    · exact ⟨tok, rfl, hb, hp⟩
    · obtain ⟨p, m, rfl⟩ := List.append_of_mem hc
      exact absurd hb (hnb self p c m b post tok.ty hr (by simpa using hm) hn hf tok.src)
  · rintro ⟨tok, rfl, hb, hp⟩
    exact ⟨tok, rfl, hb, .inl hp⟩

/-- One production: only tokens are listed that can begin and that can follow it, and at least one is. -/
theorem C60_first_follow_sound (name : Fin n → Str) (G : Grammar I n) (root : I) (hcon : G.Connected root)
    (fuel : Nat) (self : I)
    (first follow : Tbl I n) (h1 : buildFirst fuel G = some first)
    (h2 : buildFollow fuel first G root = some follow)
    (h : build fuel G root = some (.error (.firstFollow self))) :
    (GErr.firstFollow self).terms name G first follow ≠ [] ∧
    ListsOnly (fun x => ∃ tok, x = some tok ∧ FirstOf G self tok ∧ FollowOf G root self (some tok)) name
      ((GErr.firstFollow self).terms name G first follow) := by
  obtain ⟨first', follow', h1', h2', h3⟩ := build_error h
  cases h1.symm.trans h1'
  cases h2.symm.trans h2'
  obtain ⟨t, hr, hn⟩ := checkConflicts_error h3
  obtain ⟨rfl, _, ⟨tok, hf, hfo⟩, hl⟩ := nodeConflict_firstFollow name hn
  have d1 := buildFirst_den h1
  refine ⟨hl.nonempty (x := some tok) ⟨hf, hfo, by simp⟩, hl.only fun x hx => ?_⟩
  cases x with
  | none => exact absurd rfl hx.2.2
  | some tok => exact ⟨tok, rfl, (firstFam_some _ _ _).1 ((d1 _ _).1 hx.1),
      ((buildFollow_den d1 h2 _ _).1 hx.2.1).sound hcon⟩

/-- One production: exactly the tokens are listed that can begin and can follow it, if only the first and the
last part of a sequence can be empty. Missing for the full statement: other grammars, for which FOLLOW may be
incomplete (C24). -/
theorem C60_first_follow_partial (name : Fin n → Str) (G : Grammar I n) (root : I) (hcon : G.Connected root)
    (hni : NoNullableInterior G) (fuel : Nat) (self : I)
    (first follow : Tbl I n) (h1 : buildFirst fuel G = some first)
    (h2 : buildFollow fuel first G root = some follow)
    (h : build fuel G root = some (.error (.firstFollow self))) :
    Lists (fun x => ∃ tok, x = some tok ∧ FirstOf G self tok ∧ FollowOf G root self (some tok)) name
      ((GErr.firstFollow self).terms name G first follow) := by
  obtain ⟨first', follow', h1', h2', h3⟩ := build_error h
  cases h1.symm.trans h1'
  cases h2.symm.trans h2'
  obtain ⟨t, hr, hn⟩ := checkConflicts_error h3
  obtain ⟨rfl, _, _, hl⟩ := nodeConflict_firstFollow name hn
  have d1 := buildFirst_den h1
  refine hl.congr fun x => ?_
  cases x with
  | none => simp
  | some tok =>
    constructor
    · rintro ⟨hx1, hx2, _⟩
      exact ⟨tok, rfl, (firstFam_some _ _ _).1 ((d1 _ _).1 hx1),
        ((buildFollow_den d1 h2 _ _).1 hx2).sound hcon⟩
    · rintro ⟨tok', he, hx1, hx2⟩
      cases he
      exact ⟨(d1 _ _).2 ((firstFam_some _ _ _).2 hx1),
        C24_complete_partial G root hni fuel fuel first follow h1 h2 _ _ hx2, by simp⟩

/-- The message for `S = a b? b`, with its wrong part. -/
example : (GErr.firstFollowSeq 0 1 3).message (fun i => ascii (["S", "A", "B?", "B"].getD i ""))
    (fun t => if t = 0 then ascii "Ta" else ascii "Tb") exBlameG
    ((buildFirst 10 exBlameG).getD []) [] = ascii
    "The non-terminal `S` has a FIRST/FOLLOW conflict producing `A` followed by `B`. `A` can be empty and both can start with: Tb" := by
  decide +kernel

/-- The terminals in the error for two alternatives `"x" | Ident | ()` and `"y" "x" ()`. -/
example :
    let G : Grammar Nat 2 := [(0, .alt [1, 2]), (1, .alt [3, 4, 6]), (2, .alt [5, 3, 4, 6]), (3, .term ⟨1, some [120]⟩),
      (4, .term ⟨0, none⟩), (5, .term ⟨1, some [121]⟩), (6, .eps)]
    (buildFirst 10 G).map (fun f => (GErr.firstFirst 0 1 2).terms (fun t => if t = 0 then ascii "Ident" else ascii "Op")
      G f []) = some [ascii "\"x\"", ascii "<empty>", ascii "Ident"] := by
  decide +kernel

/-! ## C61: messages of syntax errors -/

/-- What the message of a syntax error has to say: for unexpected text the exact text at its span, for an
expectation the sorted list of exactly the expected terminals. -/
def MessageOf (name : Fin n → Str) (source : Str) (e : Err n) (msg : Str) : Prop :=
  match e.kind with
  | .unexpectedCharacters => ∃ r, SpanText e.span source r ∧ msg = ascii "Unexpected: " ++ r
  | .unexpectedTokens => ∃ r, SpanText e.span source r ∧ msg = ascii "Unexpected token(s): " ++ r
  | .expecting s => ∃ l, Lists (fun x => s.contains x = true) name l ∧
      msg = ascii "Expecting one of " ++ List.intercalate (ascii ", ") l
  | .unexpectedEof => msg = ascii "Unexpected end of file"
  | .noAdvance => ∃ r, msg = ascii "Unexpected: Parser did not advance in a loop." ++ r

theorem join_eq (sep : Str) : ∀ l : List Str, join sep l = List.intercalate sep l
  | [] => rfl
  | [x] => by simp [join, List.intercalate]
  | x :: y :: l => by
    have := join_eq sep (y :: l)
    simp only [join, this]
    simp [List.intercalate]

theorem message_of (name : Fin n → Str) (source : Str) (e : Err n) (h : e.span.InSource source) :
    ∃ msg, e.message? name source = some msg ∧ MessageOf name source e msg := by
  have hget := C17_get_partial e.span source (fun _ => h.1)
    (fun _ => by rw [Nat.min_eq_left h.2.1]; exact h.2.2)
  obtain ⟨r, hr, ht⟩ := hget
  unfold Err.message? MessageOf
  cases e.kind with
  | unexpectedCharacters => exact ⟨_, by simp [hr], r, ht, rfl⟩
  | unexpectedTokens => exact ⟨_, by simp [hr], r, ht, rfl⟩
  | expecting s => exact ⟨_, rfl, _, TSet.toRepr_lists name s, by rw [join_eq]⟩
  | unexpectedEof => exact ⟨_, rfl, rfl⟩
  | noAdvance =>
    exact ⟨_, rfl, ascii " The grammar is probably not LL(1), and this is a bug since the parser should catch that before parsing.", by decide +kernel⟩

/-- For every error recorded by a parser, after any calls of its API, the message can be made from the source
without a panic and says what is wrong. -/
theorem C61_recorded (name : Fin n → Str) (ext : Fin n → Bool) (source : Str) (items : List (Item n))
    (hw : ItemsWF source items) (p : Parser n) (hp : Reached ext source items p) (e : Err n)
    (he : e ∈ p.info.errors) :
    ∃ msg, e.message? name source = some msg ∧ MessageOf name source e msg :=
  message_of name source e (C47_recorded ext source items hw p hp e he)

/-- The same for the errors returned by a syntax tree type. -/
theorem C61_produce (name : Fin n → Str) {m : Nat} (ext : Fin n → Bool) (source : Str) (items : List (Item n))
    (hw : ItemsWF source items) (p p' : Parser n) (hp : Reached ext source items p) (S : Schema m n)
    (md : Metadata (PId m n) n) (fuel : Nat) (t : Ty m n) (r : Res n (Tree n))
    (h : produce (Parser.ops ext) S md fuel t p = .ok r p') (e : Err n) (he : e ∈ r.errs) :
    ∃ msg, e.message? name source = some msg ∧ MessageOf name source e msg :=
  message_of name source e (C47_produce ext source items hw p p' hp S md fuel t r h e he)

/-- The message is determined by the specification. -/
theorem C61_unique (name : Fin n → Str) (source : Str) (sp : Span) (s : TSet n) (msg msg' : Str)
    (h : MessageOf name source ⟨sp, .expecting s⟩ msg) (h' : MessageOf name source ⟨sp, .expecting s⟩ msg') :
    msg = msg' := by
  obtain ⟨l, h1, rfl⟩ := h
  obtain ⟨l', h2, rfl⟩ := h'
  rw [h1.unique h2]

/-- Example: an expectation with a bare type and two texts. -/
example : (Err.mk ⟨0, 1⟩ (.expecting (((TSet.empty.insert 1 (some [98])).1.insert 0 none).1.insert 1 (some [97])).1)
    : Err 2).message? (fun t => if t = 0 then ascii "Ident" else ascii "Op") [33] =
    some (ascii "Expecting one of \"a\", \"b\", Ident") := by decide +kernel

/-! ## C67: what a grammar error message names -/

/-- A text in backquotes. -/
def quoted (x : Str) : Str := [96] ++ x ++ [96]

omit [DecidableEq I] in
/-- The words around the names and terminals of a FIRST/FIRST conflict. -/
theorem text_first_first : ∃ w0 w1 w2 w3 : Str, ∀ (pname : I → Str) (l : List Str) (self a b : I),
    (GErr.firstFirst self a b).text pname l =
      w0 ++ quoted (pname self) ++ w1 ++ quoted (pname a) ++ w2 ++ quoted (pname b) ++ w3 ++
        List.intercalate [44, 32] l := by
  refine ⟨ascii "The non-terminal ", ascii " has a FIRST/FIRST conflict producing either ", ascii " or ",
    ascii ". The conflicting terminals are: ", ?_⟩
  intro pname l self a b
  have e0 : ascii "The non-terminal `" = ascii "The non-terminal " ++ [96] := by rfl
  have e1 : ascii "` has a FIRST/FIRST conflict producing either `" =
    [96] ++ ascii " has a FIRST/FIRST conflict producing either " ++ [96] := by rfl
  have e2 : ascii "` or `" = [96] ++ ascii " or " ++ [96] := by rfl
  have e3 : ascii "`. The conflicting terminals are: " =
    [96] ++ ascii ". The conflicting terminals are: " := by rfl
  have e4 : ascii ", " = [44, 32] := by rfl
  simp only [GErr.text, e0, e1, e2, e3, e4, quoted, join_eq, List.append_assoc]

omit [DecidableEq I] in
/-- The words around the names and terminals of a FIRST/FOLLOW conflict in a sequence. -/
theorem text_seq : ∃ w0 w1 w2 w3 w4 : Str, ∀ (pname : I → Str) (l : List Str) (self a b : I),
    (GErr.firstFollowSeq self a b).text pname l =
      w0 ++ quoted (pname self) ++ w1 ++ quoted (pname a) ++ w2 ++ quoted (pname b) ++ w3 ++
        quoted (pname a) ++ w4 ++ List.intercalate [44, 32] l := by
  refine ⟨ascii "The non-terminal ", ascii " has a FIRST/FOLLOW conflict producing ", ascii " followed by ",
    ascii ". ", ascii " can be empty and both can start with: ", ?_⟩
  intro pname l self a b
  have e0 : ascii "The non-terminal `" = ascii "The non-terminal " ++ [96] := by rfl
  have e1 : ascii "` has a FIRST/FOLLOW conflict producing `" =
    [96] ++ ascii " has a FIRST/FOLLOW conflict producing " ++ [96] := by rfl
  have e2 : ascii "` followed by `" = [96] ++ ascii " followed by " ++ [96] := by rfl
  have e3 : ascii "`. `" = [96] ++ ascii ". " ++ [96] := by rfl
  have e4 : ascii "` can be empty and both can start with: " =
    [96] ++ ascii " can be empty and both can start with: " := by rfl
  have e5 : ascii ", " = [44, 32] := by rfl
  simp only [GErr.text, e0, e1, e2, e3, e4, e5, quoted, join_eq, List.append_assoc]

omit [DecidableEq I] in
/-- The words around the names and terminals of a FIRST/FOLLOW conflict of a type. -/
theorem text_first_follow : ∃ w0 w1 : Str, ∀ (pname : I → Str) (l : List Str) (self : I),
    (GErr.firstFollow self).text pname l =
      w0 ++ quoted (pname self) ++ w1 ++ List.intercalate [44, 32] l := by
  refine ⟨ascii "The non-terminal ",
    ascii " has conflict in its FIRST and FOLLOW sets. The conflicting terminals are: ", ?_⟩
  intro pname l self
  have e0 : ascii "The non-terminal `" = ascii "The non-terminal " ++ [96] := by rfl
  have e1 : ascii "` has conflict in its FIRST and FOLLOW sets. The conflicting terminals are: " =
    [96] ++ ascii " has conflict in its FIRST and FOLLOW sets. The conflicting terminals are: " := by rfl
  have e4 : ascii ", " = [44, 32] := by rfl
  simp only [GErr.text, e0, e1, e4, quoted, join_eq, List.append_assoc]

/-- The message of a FIRST/FIRST conflict names the type, its two alternatives, in this order and in
backquotes, and then the conflicting terminals separated by `, `; the words between do not depend on
anything. -/
theorem C67_first_first : ∃ w0 w1 w2 w3 : Str, ∀ (pname : I → Str) (name : Fin n → Str)
    (G : Grammar I n) (first follow : Tbl I n) (self a b : I),
    (GErr.firstFirst self a b).message pname name G first follow =
      w0 ++ quoted (pname self) ++ w1 ++ quoted (pname a) ++ w2 ++ quoted (pname b) ++ w3 ++
        List.intercalate [44, 32] ((GErr.firstFirst self a b).terms name G first follow) := by
  obtain ⟨w0, w1, w2, w3, h⟩ := text_first_first (I := I)
  exact ⟨w0, w1, w2, w3, fun pname name G first follow self a b => h pname _ self a b⟩

/-- The message of a FIRST/FOLLOW conflict in a sequence names the type, the part that can be empty, the part
after it, and then the first of them again. -/
theorem C67_seq : ∃ w0 w1 w2 w3 w4 : Str, ∀ (pname : I → Str) (name : Fin n → Str)
    (G : Grammar I n) (first follow : Tbl I n) (self a b : I),
    (GErr.firstFollowSeq self a b).message pname name G first follow =
      w0 ++ quoted (pname self) ++ w1 ++ quoted (pname a) ++ w2 ++ quoted (pname b) ++ w3 ++
        quoted (pname a) ++ w4 ++
        List.intercalate [44, 32] ((GErr.firstFollowSeq self a b).terms name G first follow) := by
  obtain ⟨w0, w1, w2, w3, w4, h⟩ := text_seq (I := I)
  exact ⟨w0, w1, w2, w3, w4, fun pname name G first follow self a b => h pname _ self a b⟩

/-- The message of a FIRST/FOLLOW conflict of a type names the type. -/
theorem C67_first_follow : ∃ w0 w1 : Str, ∀ (pname : I → Str) (name : Fin n → Str)
    (G : Grammar I n) (first follow : Tbl I n) (self : I),
    (GErr.firstFollow self).message pname name G first follow =
      w0 ++ quoted (pname self) ++ w1 ++
        List.intercalate [44, 32] ((GErr.firstFollow self).terms name G first follow) := by
  obtain ⟨w0, w1, h⟩ := text_first_follow (I := I)
  exact ⟨w0, w1, fun pname name G first follow self => h pname _ self⟩

theorem intercalate_snoc (sep x : Str) : ∀ l : List Str, l ≠ [] →
    List.intercalate sep (l ++ [x]) = List.intercalate sep l ++ sep ++ x
  | [y], _ => by simp [List.intercalate]
  | y :: z :: l, _ => by
    have := intercalate_snoc sep x (z :: l) (by simp)
    simp only [List.cons_append] at this
    simp only [List.cons_append]
    simp only [List.intercalate, List.intersperse_cons_cons, List.flatten_cons] at this ⊢
    simp [this]

omit [DecidableEq I] in
theorem text_left_recursion : ∃ w0 : Str, ∀ (pname : I → Str) (l : List Str) (stack : List I) (current : I),
    stack ≠ [] → (GErr.leftRecursion stack current).text pname l =
      w0 ++ List.intercalate [32, 45, 62, 32] ((stack ++ [current]).map pname) := by
  refine ⟨ascii "Left recursion detected in the grammar! Stack: ", ?_⟩
  intro pname l stack current hs
  have e4 : ascii " -> " = [32, 45, 62, 32] := by rfl
  simp only [GErr.text, e4, join_eq, List.map_append, List.map_cons, List.map_nil]
  rw [intercalate_snoc _ _ _ (by simpa using hs)]

/-- The message of a left recursion shows the names along the stack and the type reached again, separated by
` -> `. The code only creates the error for a type that is on the stack, so the stack is not empty. -/
theorem C67_left_recursion : ∃ w0 : Str, ∀ (pname : I → Str) (name : Fin n → Str)
    (G : Grammar I n) (first follow : Tbl I n) (stack : List I) (current : I), stack ≠ [] →
    (GErr.leftRecursion stack current).message pname name G first follow =
      w0 ++ List.intercalate [32, 45, 62, 32] ((stack ++ [current]).map pname) := by
  obtain ⟨w0, h⟩ := text_left_recursion (I := I)
  exact ⟨w0, fun pname name G first follow stack current hs => h pname _ stack current hs⟩

/-- Example: the first production in a cycle of length two. -/
example : (GErr.leftRecursion [0, 1] 0 : GErr Nat).message (fun i => ascii (["S", "A"].getD i ""))
    (fun _ : Fin 1 => []) [] [] [] = ascii "Left recursion detected in the grammar! Stack: S -> A -> S" := by
  decide +kernel

end Teleparse

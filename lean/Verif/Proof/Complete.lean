import Verif.Spec.Exact
import Verif.Proof.Steps
import Verif.Proof.RecoverFix
/-
Matches of a type are found by the parser, when the token after them can follow the type.
-/
set_option linter.unusedSectionVars false
namespace Teleparse
variable {m n : Nat}

/-! ### Streams -/

abbrev toks (c : List (Cell n)) : List (Token n) := c.map (·.token)

/-- The first token with its text. -/
def la (source : Str) (l : List (Token n)) : Option (TokenSrc n) := l.head?.map (·.word source)

theorem Ready.step {source : Str} {d c : List (Cell n)} {rest : List (Token n)}
    (h : Ready source ⟨source, d, toks c ++ rest⟩) : Ready source ⟨source, d ++ c, rest⟩ :=
  h.adv ⟨rfl, toks c, rfl, by simp [toks]⟩

theorem Ready.la {source : Str} {d : List (Cell n)} {l : List (Token n)} (h : Ready source ⟨source, d, l⟩) :
    (View.mk source d l).look = la source l := h.look

theorem la_append {source : Str} {c : List (Cell n)} {rest : List (Token n)} {w ws}
    (h : wordOf source c = w :: ws) : la source (toks c ++ rest) = some w := by
  cases c with
  | nil => cases h
  | cons a c => simp only [wordOf, List.map_cons, List.cons.injEq] at h; simp [la, Token.word, h.1]

theorem wordOf_eq_nil {source : Str} {c : List (Cell n)} (h : wordOf source c = []) : c = [] := by
  cases c with
  | nil => rfl
  | cons => cases h

theorem Ready.after {source : Str} {d c : List (Cell n)} {rest : List (Token n)}
    (h : Ready source ⟨source, d, toks c ++ rest⟩) : After (endOf 0 d) c :=
  Sorted.after (v := ⟨source, d, toks c ++ rest⟩) h.step.sorted rfl

theorem der_null {I : Type} {G : Grammar I n} {i : I} (h : Der G i []) : Null G i := nullable_iff.1 h

theorem der_first {I : Type} {G : Grammar I n} {i : I} {w ws} (h : Der G i (w :: ws)) : FirstI G i w :=
  firstOf_iff.1 ⟨_, h⟩

/-- A schema with an LL(1) grammar. Parts of `r` do not contain `Loop`. -/
structure Amb (S : Schema m n) (source : Str) (r root : Ty m n) (G : Grammar (PId m n) n) : Prop
    extends Rules S root G where
  ll1 : LL1 G root.pid
  loops : LoopFree S r
  der : ∀ {pos t c x}, Parses S source pos t c x → Within S r root t → Der G t.pid (wordOf source c)

/-- FIRST and the jump table tell what the grammar says. -/
structure Tables (S : Schema m n) (md : Metadata (PId m n) n) (root : Ty m n) (G : Grammar (PId m n) n) : Prop where
  first : ∀ i x, (md.first.get i).contains x = true ↔ Starts G i x
  jump : ∀ i l, Reachable G root.pid i → S.rule i = .alt l → ∀ x (j : Nat) c, l[j]? = some c → Starts G c x →
    md.jump.lookUp i x = some j

theorem Tables.of_metadata {S : Schema m n} {md : Metadata (PId m n) n} {root : Ty m n}
    {G : Grammar (PId m n) n} {fuel : Nat} (h : S.metadata fuel root = some (.ok md)) (hG : S.IsGrammar root G) :
    Tables S md root G :=
  ⟨metadata_first h hG, fun _ _ hr hi x => (metadata_jump h hG hr hi x).2.1⟩

/-- An accepted schema for which the parser finds all matches. -/
structure Comp (S : Schema m n) (md : Metadata (PId m n) n) (source : Str) (r root : Ty m n)
    (G : Grammar (PId m n) n) : Prop extends Amb S source r root G where
  built : Tables S md root G
  fol : ∀ t p, Within S r root (.punct t p) → ∀ tok, FollowOf G root.pid (Ty.punct t p).pid (some tok) →
    (md.follow.get (Ty.punct t p).pid).contains (some tok) = true
  enums : ∀ k v vs, S k = .enum v vs → Reachable G root.pid (.user k) → ∀ (j : Nat) g, (v :: vs)[j]? = some g →
    Nullable G g.1.pid → ∀ tok, FollowOf G root.pid (.user k) (some tok) → md.jump.lookUp (.user k) (some tok) = some j
  seps : ∀ t p, Within S r root (.split t p) → ¬ Nullable G p.pid

section
variable {S : Schema m n} {md : Metadata (PId m n) n} {source : Str} {r root : Ty m n} {G : Grammar (PId m n) n}

theorem Comp.starts (E : Comp S md source r root G) (i : PId m n) (x : Option (TokenSrc n)) :
    (md.first.get i).contains x = true ↔ Starts G i x := by
  exact E.built.first i x

theorem Comp.contains (E : Comp S md source r root G) {i : PId m n} {tok : TokenSrc n} :
    (md.first.get i).contains (some tok) = true ↔ FirstI G i tok :=
  (E.starts i (some tok)).trans firstOf_iff

theorem Comp.containsE (E : Comp S md source r root G) {i : PId m n} :
    (md.first.get i).containsE = true ↔ Null G i := (E.starts i none).trans nullable_iff

/-- The next token, if any, can follow `i`. -/
def Ok (G : Grammar (PId m n) n) (root : Ty m n) (source : Str) (i : PId m n) (rest : List (Token n)) : Prop :=
  ∀ tok, la source rest = some tok → FollowOf G root.pid i (some tok)

theorem Amb.reachable (E : Amb S source r root G) {i : PId m n} (h : PReach S root i) :
    Reachable G root.pid i := (reach_iff_schema E.gram i).2 h

theorem Comp.guard (E : Comp S md source r root G) {i : PId m n} {d : List (Cell n)} {l : List (Token n)}
    (h : Ready source ⟨source, d, l⟩) :
    ((View.mk source d l).look.isSome && (md.first.get i).contains (View.mk source d l).look) = true ↔
      ∃ tok, la source l = some tok ∧ FirstI G i tok := by
  rw [h.la]
  cases hl : Teleparse.la source l with
  | none => simp
  | some tok => simp [E.contains]

/-! ### Grammar facts -/

theorem Amb.opt_body (E : Amb S source r root G) {i : PId m n} (h : PReach S root (.opt i)) :
    ¬ Null G i.id := by
  intro hn
  have := (E.ll1 _ _ (E.reachable h) (E.mem h)).1 0 1 i.id .eps (by omega) rfl rfl
  exact this (.inr ⟨hn.nullable, Derives.one (.eps (E.mem (h.part (by simp [Schema.rule, Rule.parts]))))⟩)

theorem Amb.opt_null (E : Amb S source r root G) {i : PId m n} (h : PReach S root (.opt i)) :
    Null G (.opt i) := der_null (der_opt_none h E.gram)

theorem Amb.opt_no (E : Amb S source r root G) {i : PId m n} (h : PReach S root (.opt i)) {rest}
    (hok : Ok G root source (.opt i) rest) : ¬ ∃ tok, la source rest = some tok ∧ FirstI G i.id tok := by
  rintro ⟨tok, h1, h2⟩
  refine (E.ll1 _ _ (E.reachable h) (E.mem h)).2 1 0 .eps i.id (by omega) rfl rfl ?_ tok h2.firstOf (hok _ h1)
  exact Derives.one (.eps (E.mem (h.part (by simp [Schema.rule, Rule.parts]))))

theorem Amb.opt_some (E : Amb S source r root G) {i : PId m n} (h : PReach S root (.opt i)) {tok}
    (hf : FirstI G i.id tok) : FirstI G (.opt i) tok := .alt (E.mem h) (by simp) hf

theorem Ok.alt {i j : PId m n} {l} {rest : List (Token n)} (h : Ok G root source i rest)
    (hm : (i, Rule.alt l) ∈ G) (hj : j ∈ l) : Ok G root source j rest := fun tok ht => (h tok ht).alt hm hj

theorem Ok.last {i j : PId m n} {pre post} {rest : List (Token n)} (h : Ok G root source i rest)
    (hm : (i, Rule.seq (pre ++ j :: post)) ∈ G) (hn : ∀ k ∈ post, Null G k) : Ok G root source j rest :=
  fun tok ht => (h tok ht).seq hm hn

theorem Ok.nil {i : PId m n} : Ok G root source i [] := fun _ h => by cases h

/-- After the tokens `w` of a match of `i`, the next token, if any, can follow `i` or cannot belong to `i`. -/
def Okw (S : Schema m n) (G : Grammar (PId m n) n) (root : Ty m n) (source : Str) (i : PId m n)
    (w : List (TokenSrc n)) (rest : List (Token n)) : Prop :=
  ∀ tok, la source rest = some tok → FollowOf G root.pid i (some tok) ∨ (Calm S G i ∧ ¬ Continues G i w tok)

theorem Ok.okw {i : PId m n} {w} {rest : List (Token n)} (h : Ok G root source i rest) :
    Okw S G root source i w rest := fun tok ht => .inl (h tok ht)

theorem EndsWith.alt {i j x : PId m n} {l} (hm : (i, Rule.alt l) ∈ G) (hj : j ∈ l) (h : EndsWith G j x) :
    EndsWith G i x := by
  obtain ⟨α, h⟩ := h
  exact ⟨α, (Derives.one (.alt hm hj)).trans h⟩

theorem EndsWith.last {i j x : PId m n} {pre post} (hm : (i, Rule.seq (pre ++ j :: post)) ∈ G)
    (hn : ∀ k ∈ post, Null G k) (h : EndsWith G j x) : EndsWith G i x := by
  obtain ⟨α, h⟩ := h
  refine ⟨pre.map .nt ++ α, (Derives.one (.seq hm)).trans ?_⟩
  have h1 := h.append (derives_nil_of_all post fun k hk => (hn k hk).nullable)
  have h2 := h1.right (pre.map .nt)
  simpa using h2

theorem EndsWith.self {i : PId m n} : EndsWith G i i := ⟨[], .refl _⟩

theorem Okw.alt {i j : PId m n} {l w} {rest : List (Token n)} (h : Okw S G root source i w rest)
    (hm : (i, Rule.alt l) ∈ G) (hj : j ∈ l) : Okw S G root source j w rest := by
  intro tok ht
  rcases h tok ht with h | ⟨⟨h1, h2⟩, h3⟩
  · exact .inl (h.alt hm hj)
  · refine .inr ⟨⟨fun t p he => h1 t p (he.alt hm hj), fun k v vs hk he => h2 k v vs hk (he.alt hm hj)⟩, ?_⟩
    rintro ⟨β, hd⟩
    exact h3 ⟨β, (Derives.one (.alt hm hj)).trans hd⟩

theorem Okw.last {i j : PId m n} {pre post w0 w} {rest : List (Token n)}
    (h : Okw S G root source i (w0 ++ w) rest) (hm : (i, Rule.seq (pre ++ j :: post)) ∈ G)
    (hn : ∀ k ∈ post, Null G k) (hp : Derives G (pre.map .nt) (w0.map .tok)) : Okw S G root source j w rest := by
  intro tok ht
  rcases h tok ht with h | ⟨⟨h1, h2⟩, h3⟩
  · exact .inl (h.seq hm hn)
  · refine .inr ⟨⟨fun t p he => h1 t p (he.last hm hn), fun k v vs hk he => h2 k v vs hk (he.last hm hn)⟩, ?_⟩
    rintro ⟨β, hd⟩
    refine h3 ⟨β ++ post.map .nt, (Derives.one (.seq hm)).trans ?_⟩
    have := hp.append (hd.append (.refl (post.map .nt)))
    simpa using this

/-- The first part of a sequence. -/
theorem Okw.last0 {i j : PId m n} {post w} {rest : List (Token n)}
    (h : Okw S G root source i w rest) (hm : (i, Rule.seq (j :: post)) ∈ G)
    (hn : ∀ k ∈ post, Null G k) : Okw S G root source j w rest :=
  Okw.last (pre := []) (w0 := []) h hm hn (.refl _)

/-- The second part of two. -/
theorem Okw.last1 {i a j : PId m n} {w0 w} {rest : List (Token n)}
    (h : Okw S G root source i (w0 ++ w) rest) (hm : (i, Rule.seq [a, j]) ∈ G) (ha : Der G a w0) :
    Okw S G root source j w rest :=
  Okw.last (pre := [a]) (post := []) h hm (by simp) ha

theorem Okw.nil {i : PId m n} {w} : Okw S G root source i w [] := fun _ h => by cases h

theorem Amb.okw_no (E : Amb S source r root G) {i : PId m n} (h : PReach S root (.opt i)) {rest}
    (hok : Okw S G root source (.opt i) [] rest) : ¬ ∃ tok, la source rest = some tok ∧ FirstI G i.id tok := by
  rintro ⟨tok, h1, h2⟩
  rcases hok _ h1 with h3 | ⟨_, h3⟩
  · refine (E.ll1 _ _ (E.reachable h) (E.mem h)).2 1 0 .eps i.id (by omega) rfl rfl ?_ tok h2.firstOf h3
    exact Derives.one (.eps (E.mem (h.part (by simp [Schema.rule, Rule.parts]))))
  · obtain ⟨β, hd⟩ := h2.firstOf
    exact h3 ⟨β, (Derives.one (.alt (E.mem h) (by simp))).trans hd⟩

theorem wordOf_append (source : Str) (a b : List (Cell n)) :
    wordOf source (a ++ b) = wordOf source a ++ wordOf source b := List.map_append

/-- What a match begins with: nothing if it is empty, then the type is nullable. -/
theorem Amb.match_cases (E : Amb S source r root G) {pos t c x} (h : Parses S source pos t c x)
    (hr : Within S r root t) :
    (c = [] ∧ Null G t.pid) ∨
      ∃ w, FirstI G t.pid w ∧ c ≠ [] ∧ ∀ rest, la source (toks c ++ rest) = some w := by
  have hd := E.der h hr
  cases hw : wordOf source c with
  | nil => rw [hw] at hd; exact .inl ⟨wordOf_eq_nil hw, der_null hd⟩
  | cons w ws =>
    rw [hw] at hd
    exact .inr ⟨w, der_first hd, (by rintro rfl; cases hw), fun rest => la_append hw⟩

/-! ### Results -/

theorem Halts.produceX {fx : Bool} {t : Ty m n} {v : View n} {Q : Res n (Tree n) → View n → Prop}
    (h : Halts (fun i j => produceStep View.ops S md i (produceX View.ops fx S md j) t) v Q)
    (ht : ∀ a b, t ≠ .recover a b := by simp) :
    Halts (fun _ j => produceX View.ops fx S md j t) v Q := by
  cases fx with
  | false => exact Halts.produce h
  | true =>
    obtain ⟨N, o, h1, h2, h3⟩ := h
    refine ⟨N + 1, o, fun i j hi hj => ?_, h2, h3⟩
    cases j with
    | zero => omega
    | succ j =>
      show produceStepFix View.ops S md j (produceFix View.ops S md j) t v = o
      rw [produceStepFix_eq ht]
      exact h1 j j (by omega) (by omega)

theorem Halts.produceXR {fx : Bool} {t u : Ty m n} {v : View n} {Q : Res n (Tree n) → View n → Prop}
    (h : Halts (fun i j => produceRecoverX View.ops fx (md.first.get t.pid) (md.first.get u.pid)
      (Teleparse.produceX View.ops fx S md j t) (Teleparse.produceX View.ops fx S md j u) i) v Q) :
    Halts (fun _ j => Teleparse.produceX View.ops fx S md j (.recover t u)) v Q := by
  cases fx with
  | false => exact Halts.produce h
  | true =>
    obtain ⟨N, o, h1, h2, h3⟩ := h
    refine ⟨N + 1, o, fun i j hi hj => ?_, h2, h3⟩
    cases j with
    | zero => omega
    | succ j => exact h1 j j (by omega) (by omega)

variable {fx : Bool}

/-- Producing `t` on `v` succeeds with the tree and leaves `w`. -/
def DoesX (fx : Bool) (S : Schema m n) (md : Metadata (PId m n) n) (t : Ty m n) (v : View n) (x : Tree n) (w : View n) : Prop :=
  Halts (fun _ j => produceX View.ops fx S md j t) v (fun a u => a = .success x ∧ u = w)

/-- A match of `t` is found if what comes next can follow or cannot belong to it. -/
def FindsX (fx : Bool) (S : Schema m n) (md : Metadata (PId m n) n) (source : Str) (r root : Ty m n)
    (G : Grammar (PId m n) n) (pos : Nat) (t : Ty m n) (c : List (Cell n)) (x : Tree n) : Prop :=
  ∀ d rest, endOf 0 d = pos → Ready source ⟨source, d, toks c ++ rest⟩ → Within S r root t →
    Okw S G root source t.pid (wordOf source c) rest →
    DoesX fx S md t ⟨source, d, toks c ++ rest⟩ x ⟨source, d ++ c, rest⟩

/-- Consecutive matches, which are found. -/
inductive FindsSeqX (fx : Bool) (S : Schema m n) (md : Metadata (PId m n) n) (source : Str) (r root : Ty m n)
    (G : Grammar (PId m n) n) : Nat → List (Ty m n) → List (List (Cell n)) → List (Tree n) → Prop
  | nil {pos} : FindsSeqX fx S md source r root G pos [] [] []
  | cons {pos t ts c cs x xs} : Parses S source pos t c x → FindsX fx S md source r root G pos t c x →
      FindsSeqX fx S md source r root G (endOf pos c) ts cs xs →
      FindsSeqX fx S md source r root G pos (t :: ts) (c :: cs) (x :: xs)

abbrev Does (S : Schema m n) (md : Metadata (PId m n) n) (t : Ty m n) (v : View n) (x : Tree n) (w : View n) : Prop :=
  DoesX false S md t v x w
abbrev Finds (S : Schema m n) (md : Metadata (PId m n) n) (source : Str) (r root : Ty m n)
    (G : Grammar (PId m n) n) (pos : Nat) (t : Ty m n) (c : List (Cell n)) (x : Tree n) : Prop :=
  FindsX false S md source r root G pos t c x
abbrev FindsSeq (S : Schema m n) (md : Metadata (PId m n) n) (source : Str) (r root : Ty m n)
    (G : Grammar (PId m n) n) : Nat → List (Ty m n) → List (List (Cell n)) → List (Tree n) → Prop :=
  FindsSeqX false S md source r root G

theorem FindsSeqX.parses {pos ts cs xs} (h : FindsSeqX fx S md source r root G pos ts cs xs) :
    ParsesSeq S source pos ts cs xs := by
  induction h with
  | nil => exact .nil
  | cons h1 _ _ ih => exact .cons h1 ih

theorem Halts.peekTo {α : Type} {v : View n} {f : Nat → Nat → Option (TokenSrc n) → M (View n) α} {Q}
    (h : Halts (fun i j => f i j v.look) v Q) :
    Halts (fun i j => (View.ops (n := n)).mPeekSrc >>= f i j) v Q := by
  refine .bind (Q := fun x w => x = v.look ∧ w = v) (.peekSrc ⟨rfl, rfl⟩) ?_
  rintro _ _ ⟨rfl, rfl⟩
  exact h

theorem Halts.emptyTo {α : Type} {v : View n} {f : Nat → Nat → Span → M (View n) α} {Q}
    (h : Halts (fun i j => f i j ⟨v.pos, v.pos⟩) v Q) :
    Halts (fun i j => (View.ops (n := n)).mEmptySpan >>= f i j) v Q := by
  refine .bind (Q := fun x w => x = ⟨v.pos, v.pos⟩ ∧ w = v) (.emptySpan ⟨rfl, rfl⟩) ?_
  rintro _ _ ⟨rfl, rfl⟩
  exact h

theorem DoesX.to {α : Type} {t : Ty m n} {v w : View n} {x : Tree n}
    {f : Nat → Nat → Res n (Tree n) → M (View n) α} {Q} (h : DoesX fx S md t v x w)
    (hf : Halts (fun i j => f i j (.success x)) w Q) :
    Halts (fun i j => produceX View.ops fx S md j t >>= f i j) v Q := by
  refine .bind h ?_
  rintro _ _ ⟨rfl, rfl⟩
  exact hf

/-! ### Terminals -/

theorem Comp.term {k : Nat} {t : Terminal n} {d : List (Cell n)} {tok : Token n} {rest : List (Token n)}
    (hm : t.Matches ⟨tok.ty, textOf source tok.span⟩) :
    DoesX fx S md (.term k t) ⟨source, d, tok :: rest⟩ (.tok tok) ⟨source, d ++ [Cell.ofToken tok], rest⟩ := by
  refine Halts.produceX ?_
  simp only [produceStep, produceTerm]
  have hs : (View.mk source d (tok :: rest)).skip = ⟨source, d ++ [Cell.ofToken tok], rest⟩ := rfl
  cases hlit : t.lit with
  | none =>
    dsimp only
    refine .bind (Q := fun a u => a = .success tok ∧ u = ⟨source, d ++ [Cell.ofToken tok], rest⟩) ?_ ?_
    · unfold Ops.parseToken
      dsimp only
      refine .bind (Q := fun x w => x = some tok ∧ w = ⟨source, d, tok :: rest⟩) (.peek ⟨rfl, rfl⟩) ?_
      rintro _ _ ⟨rfl, rfl⟩
      refine .ite (fun _ => ?_) (fun hc => absurd hm.1.symm (fun h => hc (h.symm)))
      refine .bind (Q := fun _ w => w = ⟨source, d ++ [Cell.ofToken tok], rest⟩) (.consume rfl) ?_
      rintro _ _ rfl
      exact .pure ⟨rfl, rfl⟩
    · rintro _ _ ⟨rfl, rfl⟩
      exact .pure ⟨rfl, rfl⟩
  | some lit =>
    dsimp only
    refine .bind (Q := fun a u => a = .success tok ∧ u = ⟨source, d ++ [Cell.ofToken tok], rest⟩) ?_ ?_
    · unfold Ops.parseTokenLit
      refine .bind (Q := fun x w => x = some tok ∧ w = ⟨source, d, tok :: rest⟩) (.peek ⟨rfl, rfl⟩) ?_
      rintro _ _ ⟨rfl, rfl⟩
      dsimp only
      refine .bind (Q := fun s w => s = textOf source tok.span ∧ w = ⟨source, d, tok :: rest⟩)
        (.getSrc fun s hs => ⟨get?_textOf hs, rfl⟩) ?_
      rintro _ _ ⟨rfl, rfl⟩
      refine .ite (fun _ => ?_) (fun hc => absurd ⟨hm.1, ?_⟩ hc)
      · refine .bind (Q := fun _ w => w = ⟨source, d ++ [Cell.ofToken tok], rest⟩) (.consume rfl) ?_
        rintro _ _ rfl
        exact .pure ⟨rfl, rfl⟩
      · exact hm.2 lit hlit
    · rintro _ _ ⟨rfl, rfl⟩
      exact .pure ⟨rfl, rfl⟩

/-! ### Sequences -/

/-- After a part of a sequence comes the next nonempty part, or what follows the sequence. -/
theorem Amb.ok_part (E : Amb S source r root G) {i a : PId m n} {pre : List (PId m n)} :
    ∀ {mid : List (PId m n)} {pos ts cs xs} {rest : List (Token n)},
    (i, Rule.seq (pre ++ a :: (mid ++ ts.map Ty.pid))) ∈ G → Reachable G root.pid i → (∀ k ∈ mid, Null G k) →
    ParsesSeq S source pos ts cs xs → (∀ t ∈ ts, Within S r root t) → Ok G root source i rest →
    Ok G root source a (toks cs.flatten ++ rest) := by
  intro mid pos ts cs xs rest hm hi hmid h
  induction ts generalizing mid pos cs xs with
  | nil =>
    intro _ hok
    cases h
    simp only [List.map_nil, List.append_nil] at hm
    exact hok.last hm hmid
  | cons t ts ih =>
    intro hw hok
    cases h with
    | @cons _ _ _ c cs x xs h1 h3 =>
    rw [List.flatten_cons, toks, List.map_append, List.append_assoc]
    rcases E.match_cases h1 (hw t (by simp)) with ⟨rfl, hn⟩ | ⟨w, hf, _, hla⟩
    · simp only [List.map_nil, List.nil_append]
      refine ih (mid := mid ++ [t.pid]) (by simpa using hm) ?_ h3 (fun u hu => hw u (by simp [hu])) hok
      intro k hk
      rcases List.mem_append.1 hk with hk | hk
      · exact hmid k hk
      · rw [List.mem_singleton.1 hk]; exact hn
    · intro tok ht
      rw [hla] at ht
      cases ht
      exact FollowOf.between hi hm hmid hf

theorem Amb.okw_part (E : Amb S source r root G) {i a : PId m n} {pre : List (PId m n)} {w0 w}
    (hp : Derives G (pre.map .nt) (w0.map .tok)) :
    ∀ {mid : List (PId m n)} {pos ts cs xs} {rest : List (Token n)},
    (i, Rule.seq (pre ++ a :: (mid ++ ts.map Ty.pid))) ∈ G → Reachable G root.pid i → (∀ k ∈ mid, Null G k) →
    ParsesSeq S source pos ts cs xs → (∀ t ∈ ts, Within S r root t) →
    Okw S G root source i (w0 ++ (w ++ wordOf source cs.flatten)) rest →
    Okw S G root source a w (toks cs.flatten ++ rest) := by
  intro mid pos ts cs xs rest hm hi hmid h
  induction ts generalizing mid pos cs xs with
  | nil =>
    intro _ hok
    cases h
    simp only [List.map_nil, List.append_nil] at hm
    exact Okw.last (w0 := w0) (by simpa [wordOf] using hok) hm hmid hp
  | cons t ts ih =>
    intro hw hok
    cases h with
    | @cons _ _ _ c cs x xs h1 h3 =>
    rw [List.flatten_cons] at hok
    rw [List.flatten_cons, toks, List.map_append, List.append_assoc]
    rcases E.match_cases h1 (hw t (by simp)) with ⟨rfl, hn⟩ | ⟨w, hf, _, hla⟩
    · simp only [List.map_nil, List.nil_append] at hok ⊢
      refine ih (mid := mid ++ [t.pid]) (by simpa using hm) ?_ h3 (fun u hu => hw u (by simp [hu])) hok
      intro k hk
      rcases List.mem_append.1 hk with hk | hk
      · exact hmid k hk
      · rw [List.mem_singleton.1 hk]; exact hn
    · intro tok ht
      rw [hla] at ht
      cases ht
      exact .inl (FollowOf.between hi hm hmid hf)

theorem Comp.seq (E : Comp S md source r root G) {i : PId m n} (hi : Reachable G root.pid i) :
    ∀ {pre : List (PId m n)} {w0 pos ts cs xs} {d : List (Cell n)} {rest : List (Token n)} {acc : List (Tree n)},
    Derives G (pre.map .nt) (w0.map .tok) → (i, Rule.seq (pre ++ ts.map Ty.pid)) ∈ G →
    FindsSeqX fx S md source r root G pos ts cs xs → (∀ t ∈ ts, Within S r root t) →
    Okw S G root source i (w0 ++ wordOf source cs.flatten) rest →
    endOf 0 d = pos → Ready source ⟨source, d, toks cs.flatten ++ rest⟩ →
    Halts (fun _ j => seqLoop (ts.map (produceX View.ops fx S md j)) acc []) ⟨source, d, toks cs.flatten ++ rest⟩
      (fun a u => a = .ok (acc ++ xs, []) ∧ u = ⟨source, d ++ cs.flatten, rest⟩) := by
  intro pre w0 pos ts cs xs d rest acc hp hm h
  induction h generalizing pre w0 d acc with
  | nil =>
    intro _ _ _ _
    exact .pure ⟨by simp, by simp⟩
  | @cons pos t ts c cs x xs h1 h2 h3 ih =>
    intro hw hok hd hr
    rw [List.flatten_cons, wordOf_append] at hok
    rw [List.flatten_cons, toks, List.map_append, List.append_assoc] at hr ⊢
    simp only [List.map_cons, seqLoop]
    refine (h2 d (toks cs.flatten ++ rest) hd hr (hw t (by simp)) ?_).to ?_
    · exact E.okw_part hp (mid := []) (by simpa using hm) hi (by simp) h3.parses (fun u hu => hw u (by simp [hu])) hok
    · dsimp only
      have hp' : Derives G ((pre ++ [t.pid]).map .nt) ((w0 ++ wordOf source c).map .tok) := by
        rw [List.map_append, List.map_append]
        exact hp.append (E.der h1 (hw t (by simp)))
      refine (ih (pre := pre ++ [t.pid]) (w0 := w0 ++ wordOf source c) hp' (by simpa using hm)
        (fun u hu => hw u (by simp [hu])) (by rwa [List.append_assoc])
        (by rw [endOf_append, hd]) hr.step).mono ?_
      rintro _ _ ⟨rfl, rfl⟩
      exact ⟨by simp, by simp⟩

theorem spanOf_getLast (x : Tree n) (l : List (Tree n)) :
    (⟨x.span.lo, ((x :: l).getLast?.map (·.span.hi)).getD 0⟩ : Span) = spanOf (x :: l) := rfl

theorem FindsSeqX.fits {pos ts cs xs} (h : FindsSeqX fx S md source r root G pos ts cs xs)
    (ha : After pos cs.flatten) : FitsSeq pos cs xs := h.parses.fits ha

theorem Comp.struct (E : Comp S md source r root G) {pos k f fs cs l} (hk : S k = .struct f fs)
    (h : FindsSeqX fx S md source r root G pos ((f :: fs).map (·.1)) cs l) :
    FindsX fx S md source r root G pos (.user k) (addAll cs ((f :: fs).map (·.2))) (.seq (spanOf l) l) := by
  intro d rest hd hr hw hok
  have hlen := h.parses.lengths
  have hl2 : cs.length = ((f :: fs).map (·.2)).length := by rw [hlen.1]; simp
  have htok : toks (addAll cs ((f :: fs).map (·.2))) = toks cs.flatten := addAll_tokens _ _ hl2
  have hrule : S.rule (.user k) = .seq ([] ++ ((f :: fs).map (·.1)).map Ty.pid) := by
    simp [Schema.rule, hk, Function.comp_def]
  have hm := E.mem hw.pid
  rw [show (Ty.user k : Ty m n).pid = PId.user k from rfl, hrule] at hm
  have hw' : ∀ t ∈ (f :: fs).map (·.1), Within S r root t := by
    intro t ht
    refine ⟨.step hw.ty (by simp only [Schema.tyParts, hk]; exact ht), hw.pid.part ?_⟩
    rw [show (Ty.user k : Ty m n).pid = PId.user k from rfl, hrule]
    exact List.mem_map.2 ⟨t, ht, rfl⟩
  rw [htok] at hr ⊢
  refine Halts.produceX ?_
  simp only [produceStep, hk, produceStruct]
  have hs := E.seq (acc := []) (w0 := []) (E.reachable hw.pid) (.refl _) hm h hw'
    (by rw [wordOf_congr source htok] at hok; exact hok) hd hr
  refine .bind (Q := fun a u => a = .ok (l, []) ∧ u = ⟨source, d ++ cs.flatten, rest⟩) ?_ ?_
  · have e : ∀ j, ((f :: fs).map fun g => (produceX View.ops fx S md j g.1, g.2)).map (·.1) =
        ((f :: fs).map (·.1)).map (produceX View.ops fx S md j) := by
      intro j; simp [Function.comp_def]
    simp only [e]
    exact hs
  · rintro _ _ ⟨rfl, rfl⟩
    dsimp only
    refine .bind (Q := fun _ w => w = ⟨source, d ++ addAll cs ((f :: fs).map (·.2)), rest⟩) ?_ ?_
    · have e : ∀ j, ((f :: fs).map fun g => (produceX View.ops fx S md j g.1, g.2)).map (·.2) =
          (f :: fs).map (·.2) := by
        intro j; simp [Function.comp_def]
      simp only [e]
      refine .fields ?_
      rw [applyAll_groups (pre := d) (pos := pos) rfl hr.step.sorted.store hd
        (h.fits (by rw [← hd]; exact hr.after)) hl2]
    · rintro _ _ rfl
      exact .pure ⟨rfl, rfl⟩

theorem Comp.tuple (E : Comp S md source r root G) {pos t ts cs l} (ht : t.isTuple ts)
    (h : FindsSeqX fx S md source r root G pos ts cs l) :
    FindsX fx S md source r root G pos t cs.flatten (.seq (spanOf l) l) := by
  intro d rest hd hr hw hok
  have hm := E.mem hw.pid
  rw [tuple_pid ht] at hm
  have hw' : ∀ u ∈ ts, Within S r root u := by
    intro u hu
    refine ⟨.step hw.ty (by rw [isTuple_parts ht]; exact hu), hw.pid.part ?_⟩
    rw [tuple_pid ht]; exact List.mem_map.2 ⟨u, hu, rfl⟩
  refine Halts.produceX ?_ (by rcases ht with ⟨_, _, rfl, _⟩ | ⟨_, _, _, rfl, _⟩ | ⟨_, _, _, _, rfl, _⟩ | ⟨_, _, _, _, _, rfl, _⟩ <;> simp)
  have hs := E.seq (acc := []) (pre := []) (w0 := []) (E.reachable hw.pid) (.refl _) hm h hw' hok hd hr
  have e : ∀ i j, produceStep View.ops S md i (produceX View.ops fx S md j) t =
      produceTuple (ts.map (produceX View.ops fx S md j)) := by
    intro i j
    rcases ht with ⟨_, _, rfl, rfl⟩ | ⟨_, _, _, rfl, rfl⟩ | ⟨_, _, _, _, rfl, rfl⟩ | ⟨_, _, _, _, _, rfl, rfl⟩ <;> rfl
  simp only [e, produceTuple]
  refine .bind hs ?_
  rintro _ _ ⟨rfl, rfl⟩
  exact .pure ⟨rfl, rfl⟩

/-! ### Enums -/

theorem Comp.enum (E : Comp S md source r root G) {pos k f fs i t sem c x} (hk : S k = .enum f fs)
    (hi : (f :: fs)[(i : Nat)]? = some (t, sem)) (h0 : Parses S source pos t c x)
    (h : FindsX fx S md source r root G pos t c x) :
    FindsX fx S md source r root G pos (.user k) (c.map (Cell.add sem)) (.variant i x) := by
  intro d rest hd hr hw hok
  have htok : toks (c.map (Cell.add sem)) = toks c := add_tokens _ _
  rw [htok] at hr ⊢
  have hrule : S.rule (.user k) = .alt ((f :: fs).map fun f => f.1.pid) := by simp only [Schema.rule, hk]
  have hj : t.pid ∈ (f :: fs).map fun f => f.1.pid := List.mem_map.2 ⟨_, List.mem_of_getElem? hi, rfl⟩
  have hw' : Within S r root t := by
    refine ⟨.step hw.ty ?_, hw.pid.part ?_⟩
    · simp only [Schema.tyParts, hk]; exact List.mem_map.2 ⟨_, List.mem_of_getElem? hi, rfl⟩
    · rw [show (Ty.user k : Ty m n).pid = PId.user k from rfl, hrule]; exact hj
  have hm := E.mem hw.pid
  rw [show (Ty.user k : Ty m n).pid = PId.user k from rfl, hrule] at hm
  have hreach : Reachable G root.pid (.user k) := E.reachable hw.pid
  have hlook : md.jump.lookUp (.user k) (la source (toks c ++ rest)) = some i := by
    have hjump : ∀ x, Starts G t.pid x → md.jump.lookUp (.user k) x = some i := fun x hx =>
      E.built.jump _ _ hreach hrule x i t.pid (by rw [List.getElem?_map, hi]; rfl) hx
    rcases E.match_cases h0 hw' with ⟨rfl, hn⟩ | ⟨w, hf, _, hla⟩
    · cases hl : la source rest with
      | none => rw [show la source (toks [] ++ rest) = none from hl]; exact hjump none hn.nullable
      | some tok =>
        rw [show la source (toks [] ++ rest) = some tok from hl]
        rcases hok tok hl with h1 | ⟨h1, _⟩
        · exact E.enums k f fs hk hreach i (t, sem) hi hn.nullable tok h1
        · exact absurd (Null.alt hm hj hn).nullable (h1.2 k f fs hk .self)
    · rw [hla]; exact hjump _ hf.firstOf
  refine Halts.produceX ?_
  simp only [produceStep, hk, produceEnum]
  refine .peekTo ?_
  rw [hr.la, hlook]
  have e : ∀ j, ((f :: fs).map fun v => (produceX View.ops fx S md j v.1, v.2))[i]? =
      some (produceX View.ops fx S md j t, sem) := by
    intro j; rw [List.getElem?_map, hi]; rfl
  simp only [e]
  rw [wordOf_congr source htok] at hok
  refine (h d rest hd hr hw' (hok.alt hm hj)).to ?_
  simp only [mapVariant]
  refine .bind (Q := fun _ w => w = ⟨source, d ++ c.map (Cell.add sem), rest⟩) ?_ ?_
  · refine .fields ?_
    have := applyAll_groups (l := [x]) (cs := [c]) (sems := [sem]) (pre := d) (pos := pos)
      (v := ⟨source, d ++ c, rest⟩) (by simp) hr.step.sorted.store hd
      (.cons (h0.fits (by rw [← hd]; exact hr.after)) .nil) rfl
    rw [show [(x, sem)] = [x].zip [sem] from rfl, this]
    simp [addAll]
  · rintro _ _ rfl
    exact .pure ⟨rfl, rfl⟩

/-! ### Options -/

theorem Comp.option_none (E : Comp S md source r root G) {pos : Nat} {i : PId m n} {p : Nat → Nat → P (View n) n}
    {mk : Span → Option (Tree n) → Tree n} (hp : PReach S root (.opt i)) {d : List (Cell n)}
    {rest : List (Token n)} (hd : endOf 0 d = pos) (hr : Ready source ⟨source, d, rest⟩)
    (hok : Okw S G root source (.opt i) [] rest) :
    Halts (fun a j => produceOption View.ops (md.first.get i.id) (p a j) mk) ⟨source, d, rest⟩
      (fun a u => a = .success (mk ⟨pos, pos⟩ none) ∧ u = ⟨source, d, rest⟩) := by
  simp only [produceOption]
  refine .peekTo ?_
  refine .ite (fun hc => ?_) (fun _ => ?_)
  · exact absurd ((E.guard hr).1 hc) (E.okw_no hp hok)
  · refine .emptyTo (.pure ⟨?_, rfl⟩)
    rw [show (View.mk source d rest).pos = pos from hd]

theorem Comp.option_some (E : Comp S md source r root G) {i : PId m n} {p : Nat → Nat → P (View n) n}
    {mk : Span → Option (Tree n) → Tree n} {d c : List (Cell n)} {rest : List (Token n)} {w : TokenSrc n}
    {x : Tree n} (hr : Ready source ⟨source, d, toks c ++ rest⟩) (hf : FirstI G i w)
    (hla : la source (toks c ++ rest) = some w)
    (hp : Halts p ⟨source, d, toks c ++ rest⟩ (fun a u => a = .success x ∧ u = ⟨source, d ++ c, rest⟩)) :
    Halts (fun a j => produceOption View.ops (md.first.get i) (p a j) mk) ⟨source, d, toks c ++ rest⟩
      (fun a u => a = .success (mk x.span (some x)) ∧ u = ⟨source, d ++ c, rest⟩) := by
  simp only [produceOption]
  refine .peekTo ?_
  refine .ite (fun _ => ?_) (fun hc => absurd ((E.guard hr).2 ⟨w, hla, hf⟩) hc)
  refine .bind hp ?_
  rintro _ _ ⟨rfl, rfl⟩
  exact .pure ⟨rfl, rfl⟩

/-- Types with an optional production. -/
theorem Amb.opt_match (E : Amb S source r root G) {pos t c x} {i : PId m n} (hp : PReach S root (.opt i))
    (hi : i.id = t.pid) (h0 : Parses S source pos t c x) (hw : Within S r root t) :
    ∃ w, FirstI G t.pid w ∧ ∀ rest, la source (toks c ++ rest) = some w := by
  rcases E.match_cases h0 hw with ⟨_, hn⟩ | ⟨w, hf, _, hla⟩
  · exact absurd (hi ▸ hn) (E.opt_body hp)
  · exact ⟨w, hf, hla⟩

/-! ### Repetition -/

theorem last_hi (l : List (Tree n)) (h : l ≠ []) (a b : Nat) :
    (l.getLast?.map (·.span.hi)).getD a = (l.getLast?.map (·.span.hi)).getD b := by
  rw [List.getLast?_eq_some_getLast h]; rfl

theorem Amb.plus_body (E : Amb S source r root G) {i : PId m n} (hp : PReach S root (.plus i)) :
    ¬ Null G i.id := by
  intro hn
  have ho : PReach S root (.opt (.plus i)) := hp.part (by simp [Schema.rule, Rule.parts])
  refine E.opt_body ho (Null.seq (E.mem hp) ?_)
  intro j hj
  simp only [List.mem_cons, List.not_mem_nil, or_false] at hj
  rcases hj with rfl | rfl
  · exact hn
  · exact E.opt_null ho

theorem Amb.plus_first' (E : Amb S source r root G) {i : PId m n} (hp : PReach S root (.plus i)) {tok}
    (h : FirstI G i.id tok) : FirstI G (.plus i) tok :=
  FirstI.seq (pre := []) (j := i.id) (post := [.opt (.plus i)]) (E.mem hp) (by simp) h

theorem Amb.ok_elem (E : Amb S source r root G) {t : Ty m n} (hp : PReach S root (.plus t.prod))
    (hw : Within S r root t) {pos k cs xs rest}
    (h : ParsesSeq S source pos (List.replicate k t) cs xs) (hok : Ok G root source (.plus t.prod) rest) :
    Ok G root source t.pid (toks cs.flatten ++ rest) := by
  have ho : PReach S root (.opt (.plus t.prod)) := hp.part (by simp [Schema.rule, Rule.parts])
  cases k with
  | zero =>
    cases h
    refine Ok.last (pre := []) (post := [.opt (.plus t.prod)]) hok (E.mem hp) ?_
    intro k hk; rw [List.mem_singleton.1 hk]; exact E.opt_null ho
  | succ k =>
    cases h with
    | @cons _ _ _ c cs x xs h1 h3 =>
      rcases E.match_cases h1 hw with ⟨_, hn⟩ | ⟨w, hf, _, hla⟩
      · exact absurd hn (E.plus_body hp)
      · intro tok ht
        rw [List.flatten_cons, toks, List.map_append, List.append_assoc, hla] at ht
        cases ht
        exact FollowOf.between (pre := []) (mid := []) (post := []) (E.reachable hp) (E.mem hp) (by simp)
          (E.opt_some ho (E.plus_first' hp hf))

theorem Amb.okw_elem (E : Amb S source r root G) {t : Ty m n} (hp : PReach S root (.plus t.prod))
    (hw : Within S r root t) {pos k cs xs rest w}
    (h : ParsesSeq S source pos (List.replicate k t) cs xs)
    (hok : Okw S G root source (.plus t.prod) (w ++ wordOf source cs.flatten) rest) :
    Okw S G root source t.pid w (toks cs.flatten ++ rest) := by
  have ho : PReach S root (.opt (.plus t.prod)) := hp.part (by simp [Schema.rule, Rule.parts])
  cases k with
  | zero =>
    cases h
    refine Okw.last0 (post := [.opt (.plus t.prod)]) (by simpa [wordOf] using hok) (E.mem hp) ?_
    intro k hk; rw [List.mem_singleton.1 hk]; exact E.opt_null ho
  | succ k =>
    cases h with
    | @cons _ _ _ c cs x xs h1 h3 =>
      rcases E.match_cases h1 hw with ⟨_, hn⟩ | ⟨w, hf, _, hla⟩
      · exact absurd hn (E.plus_body hp)
      · intro tok ht
        rw [List.flatten_cons, toks, List.map_append, List.append_assoc, hla] at ht
        cases ht
        exact .inl (FollowOf.between (pre := []) (mid := []) (post := []) (E.reachable hp) (E.mem hp) (by simp)
          (E.opt_some ho (E.plus_first' hp hf)))

theorem Comp.iter (E : Comp S md source r root G) {t : Ty m n} (hp : PReach S root (.plus t.prod))
    (hw : Within S r root t) : ∀ {k : Nat} {pos cs xs} {d : List (Cell n)} {rest : List (Token n)}
      {acc : List (Tree n)} {hi : Nat},
    FindsSeqX fx S md source r root G pos (List.replicate k t) cs xs →
    Okw S G root source (.opt (.plus t.prod)) (wordOf source cs.flatten) rest →
    endOf 0 d = pos → Ready source ⟨source, d, toks cs.flatten ++ rest⟩ →
    Halts (fun i j => iterLoop View.ops (md.first.get (.plus t.prod)) (produceX View.ops fx S md j t) i acc [] hi)
      ⟨source, d, toks cs.flatten ++ rest⟩
      (fun a u => a = (acc ++ xs, [], (xs.getLast?.map (·.span.hi)).getD hi) ∧
        u = ⟨source, d ++ cs.flatten, rest⟩) := by
  have ho : PReach S root (.opt (.plus t.prod)) := hp.part (by simp [Schema.rule, Rule.parts])
  intro k
  induction k with
  | zero =>
    intro pos cs xs d rest acc hi h hok hd hr
    cases h
    refine .succ ?_
    simp only [iterLoop]
    refine .peekTo ?_
    refine .ite (fun hc => ?_) (fun _ => .pure ⟨by simp, by simp⟩)
    exact absurd ((E.guard hr).1 hc) (E.okw_no ho (i := .plus t.prod) hok)
  | succ k ih =>
    intro pos cs xs d rest acc hi h hok hd hr
    cases h with
    | @cons _ _ _ c cs x xs h1 h2 h3 =>
      rw [List.flatten_cons, wordOf_append] at hok
      have hok : Okw S G root source (.plus t.prod) _ rest := hok.alt (E.mem ho) (by simp [PId.id])
      rw [List.flatten_cons, toks, List.map_append, List.append_assoc] at hr ⊢
      refine .succ ?_
      simp only [iterLoop]
      refine .peekTo ?_
      refine .ite (fun _ => ?_) (fun hc => ?_)
      · refine (h2 d _ hd hr hw (E.okw_elem hp hw h3.parses hok)).to ?_
        dsimp only
        refine (ih h3 (hok.last1 (E.mem hp) (E.der h1 hw)) (by rw [endOf_append, hd]) hr.step).mono ?_
        rintro _ _ ⟨rfl, rfl⟩
        refine ⟨?_, by simp⟩
        cases xs with
        | nil => simp
        | cons y ys => rw [last_hi (y :: ys) (by simp) x.span.hi hi, getLast?_tail x (by simp)]; simp
      · exfalso
        apply hc
        rcases E.match_cases h1 hw with ⟨_, hn⟩ | ⟨w, hf, _, hla⟩
        · exact absurd hn (E.plus_body hp)
        · exact (E.guard hr).2 ⟨w, hla _, E.plus_first' hp hf⟩

theorem Comp.plus (E : Comp S md source r root G) {t : Ty m n} (hp : PReach S root (.plus t.prod))
    (hw : Within S r root t) {k : Nat} {pos cs l} {d : List (Cell n)} {rest : List (Token n)}
    (h : FindsSeqX fx S md source r root G pos (List.replicate (k + 1) t) cs l)
    (hok : Okw S G root source (.plus t.prod) (wordOf source cs.flatten) rest)
    (hd : endOf 0 d = pos) (hr : Ready source ⟨source, d, toks cs.flatten ++ rest⟩) :
    Halts (fun i j => producePlus View.ops (md.first.get (.plus t.prod)) (produceX View.ops fx S md j t) i)
      ⟨source, d, toks cs.flatten ++ rest⟩
      (fun a u => a = .success (.list (spanOf l) l) ∧ u = ⟨source, d ++ cs.flatten, rest⟩) := by
  cases h with
  | @cons _ _ _ c cs x xs h1 h2 h3 =>
    rw [List.flatten_cons, wordOf_append] at hok
    rw [List.flatten_cons, toks, List.map_append, List.append_assoc] at hr ⊢
    simp only [producePlus]
    refine (h2 d _ hd hr hw (E.okw_elem hp hw h3.parses hok)).to ?_
    simp only [plusRest]
    refine .bind (E.iter hp hw h3 (hok.last1 (E.mem hp) (E.der h1 hw)) (by rw [endOf_append, hd]) hr.step) ?_
    rintro _ _ ⟨rfl, rfl⟩
    refine .pure ⟨?_, by simp⟩
    cases xs with
    | nil => rfl
    | cons y ys =>
      rw [last_hi (y :: ys) (by simp) x.span.hi 0]
      simp only [List.singleton_append, Res.ofPair, spanOf, List.head?_cons, Option.map_some, Option.getD_some]
      rw [getLast?_tail x (l := y :: ys) (by simp)]
      rfl

/-! ### Split -/

section split
variable {t p : Ty m n} (E : Amb S source r root G) (hs : Within S r root (.split t p))
include E hs

theorem Amb.split_opt : PReach S root (.opt (.plus (.tup2 p.prod t.prod))) :=
  hs.pid.part (by simp [Ty.pid, Ty.prod, PId.id, Schema.rule, Rule.parts])

theorem Amb.split_plus : PReach S root (.plus (.tup2 p.prod t.prod)) :=
  (E.split_opt hs).part (by simp [PId.id, Schema.rule, Rule.parts])

theorem Amb.split_pair : PReach S root (.tup2 p.prod t.prod) :=
  (E.split_plus hs).part (by simp [PId.id, Schema.rule, Rule.parts])

theorem Amb.split_elem : Within S r root t :=
  ⟨.step hs.ty (by simp [Schema.tyParts]), hs.pid.part (by simp [Ty.pid, Ty.prod, PId.id, Schema.rule, Rule.parts])⟩

theorem Amb.split_sep : Within S r root p :=
  ⟨.step hs.ty (by simp [Schema.tyParts]), (E.split_pair hs).part (by simp [Ty.pid, Schema.rule, Rule.parts])⟩

theorem Amb.split_pair_first {w} (h : FirstI G p.pid w) : FirstI G (.tup2 p.prod t.prod) w :=
  FirstI.seq (pre := []) (j := p.pid) (post := [t.pid]) (E.mem (E.split_pair hs)) (by simp) h

end split

section split
variable {t p : Ty m n} (E : Comp S md source r root G) (hs : Within S r root (.split t p))
include E hs

theorem Comp.split_sep_first {pos c x} (h : Parses S source pos p c x) :
    ∃ w, FirstI G p.pid w ∧ ∀ rest, la source (toks c ++ rest) = some w := by
  rcases E.match_cases h (E.split_sep hs) with ⟨_, hn⟩ | ⟨w, hf, _, hla⟩
  · exact absurd hn.nullable (E.seps t p hs)
  · exact ⟨w, hf, hla⟩

/-- What comes after an element. -/
theorem Comp.split_ok_elem {pos k cs xs rest w}
    (h : FindsSeqX fx S md source r root G pos (alternate p t (k + k)) cs xs)
    (hok : ∀ w', cs = [] → w' = w → Okw S G root source t.pid w' rest) :
    Okw S G root source t.pid w (toks cs.flatten ++ rest) := by
  cases k with
  | zero =>
    cases h
    exact hok w rfl rfl
  | succ k =>
    rw [show k + 1 + (k + 1) = k + k + 1 + 1 by omega] at h
    cases h with
    | @cons _ _ _ c cs x xs h1 _ h3 =>
      obtain ⟨w, hf, hla⟩ := E.split_sep_first hs h1
      intro tok ht
      rw [List.flatten_cons, toks, List.map_append, List.append_assoc, hla] at ht
      cases ht
      exact .inl (FollowOf.between (pre := []) (mid := []) (post := []) (E.reachable hs.pid) (E.mem hs.pid) (by simp)
        (E.opt_some (E.split_opt hs) (E.plus_first' (E.split_plus hs) (E.split_pair_first hs hf))))

/-- What comes after a separator with its element. -/
theorem Comp.split_ok_pair {pos k cs xs rest w}
    (h : FindsSeqX fx S md source r root G pos (alternate p t (k + k)) cs xs)
    (hok : Okw S G root source (.plus (.tup2 p.prod t.prod)) (w ++ wordOf source cs.flatten) rest) :
    Okw S G root source (.tup2 p.prod t.prod) w (toks cs.flatten ++ rest) := by
  have hpl := E.split_plus hs
  have ho : PReach S root (.opt (.plus (.tup2 p.prod t.prod))) := E.split_opt hs
  cases k with
  | zero =>
    cases h
    refine Okw.last0 (post := [.opt (.plus (.tup2 p.prod t.prod))]) (by simpa [wordOf] using hok) (E.mem hpl) ?_
    intro k hk; rw [List.mem_singleton.1 hk]; exact E.opt_null ho
  | succ k =>
    rw [show k + 1 + (k + 1) = k + k + 1 + 1 by omega] at h
    cases h with
    | @cons _ _ _ c cs x xs h1 _ h3 =>
      obtain ⟨w, hf, hla⟩ := E.split_sep_first hs h1
      intro tok ht
      rw [List.flatten_cons, toks, List.map_append, List.append_assoc, hla] at ht
      cases ht
      exact .inl (FollowOf.between (pre := []) (mid := []) (post := []) (E.reachable hpl) (E.mem hpl) (by simp)
        (E.opt_some ho (E.plus_first' hpl (E.split_pair_first hs hf))))

/-- What comes after a separator. -/
theorem Comp.split_ok_sep {pos c x rest w} (h1 : Parses S source pos t c x)
    (hok : Okw S G root source (.tup2 p.prod t.prod) (w ++ wordOf source c) rest) :
    Okw S G root source p.pid w (toks c ++ rest) := by
  have hb := E.split_pair hs
  rcases E.match_cases h1 (E.split_elem hs) with ⟨rfl, hn⟩ | ⟨w, hf, _, hla⟩
  · refine Okw.last0 (post := [t.pid]) (by simpa [wordOf] using hok) (E.mem hb) ?_
    intro k hk; rw [List.mem_singleton.1 hk]; exact hn
  · intro tok ht
    rw [hla] at ht
    cases ht
    exact .inl (FollowOf.between (pre := []) (mid := []) (post := []) (E.reachable hb) (E.mem hb) (by simp) hf)

theorem Comp.split_outer {fol : TSet n} : ∀ {ps es : List (Tree n)} {pos cs} {d : List (Cell n)}
    {rest : List (Token n)} {ae ap : List (Tree n)}, ps.length = es.length →
    FindsSeqX fx S md source r root G pos (alternate p t (ps.length + ps.length)) cs (interleave ps es) →
    Okw S G root source (.opt (.plus (.tup2 p.prod t.prod))) (wordOf source cs.flatten) rest → endOf 0 d = pos →
    Ready source ⟨source, d, toks cs.flatten ++ rest⟩ →
    Halts (fun i j => splitOuter View.ops (md.first.get t.pid) (md.first.get p.pid) fol
        (produceX View.ops fx S md j t) (produceX View.ops fx S md j p) i ⟨ae, ap, []⟩)
      ⟨source, d, toks cs.flatten ++ rest⟩
      (fun a u => a = ⟨ae ++ es, ap ++ ps, []⟩ ∧ u = ⟨source, d ++ cs.flatten, rest⟩) := by
  intro ps
  induction ps with
  | nil =>
    intro es pos cs d rest ae ap hl h hok hd hr
    have : es = [] := List.eq_nil_of_length_eq_zero hl.symm
    subst this
    simp only [List.length_nil, Nat.add_zero, alternate, interleave] at h
    cases h
    refine .succ ?_
    simp only [splitOuter]
    refine .peekTo (.ite (fun hc => ?_) (fun _ => .pure ⟨by simp, by simp⟩))
    obtain ⟨tok, h1, h2⟩ := (E.guard hr).1 hc
    refine absurd ?_ (E.okw_no (E.split_opt hs) (rest := rest) hok)
    exact ⟨tok, h1, E.plus_first' (E.split_plus hs) (E.split_pair_first hs h2)⟩
  | cons q ps ih =>
    intro es pos cs d rest ae ap hl h hok hd hr
    cases es with
    | nil => cases hl
    | cons e es =>
      rw [interleave_cons, interleave_cons, List.length_cons,
        show ps.length + 1 + (ps.length + 1) = ps.length + ps.length + 1 + 1 by omega] at h
      cases h with
      | @cons _ _ _ c cs _ _ h1 h2 h3 =>
        cases h3 with
        | @cons _ _ _ c' cs _ _ g1 g2 g3 =>
          rw [List.flatten_cons, List.flatten_cons, wordOf_append, wordOf_append, ← List.append_assoc] at hok
          have hok1 : Okw S G root source (.plus (.tup2 p.prod t.prod)) _ rest :=
            hok.alt (E.mem (E.split_opt hs)) (by simp [PId.id])
          have hder : Der G (.tup2 p.prod t.prod) (wordOf source c ++ wordOf source c') :=
            Der.seq1 (E.mem (E.split_pair hs)) (E.der h1 (E.split_sep hs)) (E.der g1 (E.split_elem hs))
          have hok2 := E.split_ok_pair hs g3 hok1
          have hok3 : Okw S G root source t.pid (wordOf source c') (toks cs.flatten ++ rest) :=
            hok2.last1 (E.mem (E.split_pair hs)) (E.der h1 (E.split_sep hs))
          rw [List.flatten_cons, List.flatten_cons, toks, List.map_append, List.map_append, List.append_assoc,
            List.append_assoc] at hr ⊢
          refine .succ ?_
          simp only [splitOuter]
          refine .peekTo (.ite (fun _ => ?_) (fun hc => ?_))
          · refine (h2 d _ hd hr (E.split_sep hs) (E.split_ok_sep hs g1 hok2)).to ?_
            dsimp only
            refine .bind (Q := fun a u => a = (true, ⟨ae ++ [e], ap ++ [q], []⟩) ∧
              u = ⟨source, (d ++ c) ++ c', toks cs.flatten ++ rest⟩) ?_ ?_
            · refine .succ ?_
              simp only [splitInner]
              refine .bind (Q := fun a u => a = .error ⟨ae ++ [e], ap ++ [q], []⟩ ∧
                u = ⟨source, (d ++ c) ++ c', toks cs.flatten ++ rest⟩) ?_ ?_
              · simp only [splitTry]
                refine .peekTo (.ite (fun _ => ?_) (fun hc => ?_))
                · refine (g2 (d ++ c) _ (by rw [endOf_append, hd]) hr.step (E.split_elem hs) hok3).to ?_
                  exact .pure ⟨rfl, rfl⟩
                · exfalso
                  apply hc
                  rw [Bool.or_eq_true]
                  rcases E.match_cases g1 (E.split_elem hs) with ⟨_, hn⟩ | ⟨w, hf, _, hla⟩
                  · exact .inr (E.containsE.2 hn)
                  · left; rw [hr.step.la, hla]; exact E.contains.2 hf
              · rintro _ _ ⟨rfl, rfl⟩
                exact .pure ⟨rfl, rfl⟩
            · rintro _ _ ⟨rfl, rfl⟩
              simp only [if_true]
              refine (ih (by simpa using hl) g3 (hok1.last1 (E.mem (E.split_plus hs)) hder)
                (by rw [endOf_append, endOf_append, hd]) hr.step.step).mono ?_
              rintro _ _ ⟨rfl, rfl⟩
              exact ⟨by simp, by simp⟩
          · exfalso
            apply hc
            obtain ⟨w, hf, hla⟩ := E.split_sep_first hs h1
            exact (E.guard hr).2 ⟨w, hla _, hf⟩

end split

theorem Comp.split (E : Comp S md source r root G) {t p : Ty m n} {pos cs es ps}
    (hl : es.length = ps.length + 1)
    (h : FindsSeqX fx S md source r root G pos (alternate t p (es.length + ps.length)) cs (interleave es ps)) :
    FindsX fx S md source r root G pos (.split t p) cs.flatten (.split (spanOf (interleave es ps)) es ps) := by
  intro d rest hd hr hs hok
  cases es with
  | nil => cases hl
  | cons e es =>
    have hl' : ps.length = es.length := by simpa using hl.symm
    rw [interleave_cons, hl, show ps.length + 1 + ps.length = ps.length + ps.length + 1 by omega] at h
    cases h with
    | @cons _ _ _ c cs _ _ h1 h2 h3 =>
      rw [List.flatten_cons, wordOf_append] at hok
      have hok1 : Okw S G root source t.pid (wordOf source c) (toks cs.flatten ++ rest) := by
        refine E.split_ok_elem hs h3 ?_
        rintro w' rfl rfl
        refine Okw.last0 (by simpa [wordOf] using hok) (E.mem hs.pid) ?_
        intro k hk; rw [List.mem_singleton.1 hk]; exact E.opt_null (E.split_opt hs)
      have hok2 : Okw S G root source (.opt (.plus (.tup2 p.prod t.prod))) (wordOf source cs.flatten) rest :=
        hok.last1 (E.mem hs.pid) (E.der h1 (E.split_elem hs))
      rw [List.flatten_cons, toks, List.map_append, List.append_assoc] at hr ⊢
      refine Halts.produceX ?_
      simp only [produceStep, produceSplit]
      refine (h2 d _ hd hr (E.split_elem hs) hok1).to ?_
      dsimp only
      refine .bind (E.split_outer hs hl' h3 hok2 (by rw [endOf_append, hd]) hr.step) ?_
      rintro _ _ ⟨rfl, rfl⟩
      refine .pure ⟨?_, by simp⟩
      simp only [splitDone, List.singleton_append, List.nil_append]
      rw [split_span e es ps hl'.symm]
      rfl

/-! ### Punct -/

section punct
variable {t p : Ty m n} (E : Amb S source r root G) (hs : Within S r root (.punct t p))
include E hs

theorem Amb.punct_opt : PReach S root (.opt (.tup2 p.prod (.opt (.punct t.prod p.prod)))) :=
  hs.pid.part (by simp [Ty.pid, Ty.prod, PId.id, Schema.rule, Rule.parts])

theorem Amb.punct_pair : PReach S root (.tup2 p.prod (.opt (.punct t.prod p.prod))) :=
  (E.punct_opt hs).part (by simp [PId.id, Schema.rule, Rule.parts])

theorem Amb.punct_more : PReach S root (.opt (.punct t.prod p.prod)) :=
  (E.punct_pair hs).part (by simp [PId.id, Schema.rule, Rule.parts])

theorem Amb.punct_elem : Within S r root t :=
  ⟨.step hs.ty (by simp [Schema.tyParts]), hs.pid.part (by simp [Ty.pid, Ty.prod, PId.id, Schema.rule, Rule.parts])⟩

theorem Amb.punct_sep : Within S r root p :=
  ⟨.step hs.ty (by simp [Schema.tyParts]), (E.punct_pair hs).part (by simp [Ty.pid, Schema.rule, Rule.parts])⟩

theorem Amb.punct_elem_first {pos c x} (h : Parses S source pos t c x) :
    ∃ w, FirstI G t.pid w ∧ ∀ rest, la source (toks c ++ rest) = some w := by
  rcases E.match_cases h (E.punct_elem hs) with ⟨_, hn⟩ | ⟨w, hf, _, hla⟩
  · refine absurd ?_ (E.opt_body (E.punct_more hs))
    refine Null.seq (E.mem hs.pid) ?_
    intro j hj
    simp only [List.mem_cons, List.not_mem_nil, or_false] at hj
    rcases hj with rfl | rfl
    · exact hn
    · exact E.opt_null (E.punct_opt hs)
  · exact ⟨w, hf, hla⟩

theorem Amb.punct_sep_first {pos c x} (h : Parses S source pos p c x) :
    ∃ w, FirstI G p.pid w ∧ ∀ rest, la source (toks c ++ rest) = some w := by
  rcases E.match_cases h (E.punct_sep hs) with ⟨_, hn⟩ | ⟨w, hf, _, hla⟩
  · refine absurd ?_ (E.opt_body (E.punct_opt hs))
    refine Null.seq (E.mem (E.punct_pair hs)) ?_
    intro j hj
    simp only [List.mem_cons, List.not_mem_nil, or_false] at hj
    rcases hj with rfl | rfl
    · exact hn
    · exact E.opt_null (E.punct_more hs)
  · exact ⟨w, hf, hla⟩

theorem Amb.punct_pair_first {w} (h : FirstI G p.pid w) :
    FirstI G (.tup2 p.prod (.opt (.punct t.prod p.prod))) w :=
  FirstI.seq (pre := []) (j := p.pid) (post := [.opt (.punct t.prod p.prod)]) (E.mem (E.punct_pair hs)) (by simp) h

theorem Amb.punct_first {w} (h : FirstI G t.pid w) : FirstI G (.punct t.prod p.prod) w :=
  FirstI.seq (pre := []) (j := t.pid) (post := [.opt (.tup2 p.prod (.opt (.punct t.prod p.prod)))])
    (E.mem hs.pid) (by simp) h

theorem Amb.punct_ok_elem {pos k cs xs rest}
    (h : ParsesSeq S source pos (alternate p t k) cs xs)
    (hok : Ok G root source (Ty.punct t p).pid rest) : Ok G root source t.pid (toks cs.flatten ++ rest) := by
  cases k with
  | zero =>
    cases h
    refine Ok.last (pre := []) (post := [_]) hok (E.mem hs.pid) ?_
    intro k hk; rw [List.mem_singleton.1 hk]; exact E.opt_null (E.punct_opt hs)
  | succ k =>
    cases h with
    | @cons _ _ _ c cs x xs h1 h3 =>
      obtain ⟨w, hf, hla⟩ := E.punct_sep_first hs h1
      intro tok ht
      rw [List.flatten_cons, toks, List.map_append, List.append_assoc, hla] at ht
      cases ht
      exact FollowOf.between (pre := []) (mid := []) (post := []) (E.reachable hs.pid) (E.mem hs.pid) (by simp)
        (E.opt_some (E.punct_opt hs) (E.punct_pair_first hs hf))

theorem Amb.punct_ok_more {rest} (hok : Ok G root source (Ty.punct t p).pid rest) :
    Ok G root source (.tup2 p.prod (.opt (.punct t.prod p.prod))) rest := by
  have h1 : Ok G root source (.opt (.tup2 p.prod (.opt (.punct t.prod p.prod)))) rest :=
    Ok.last (pre := [t.pid]) (post := []) hok (E.mem hs.pid) (by simp)
  exact h1.alt (E.mem (E.punct_opt hs)) (by simp [PId.id])

theorem Amb.punct_ok_sep {pos k cs xs rest}
    (h : ParsesSeq S source pos (alternate t p k) cs xs)
    (hok : Ok G root source (Ty.punct t p).pid rest) : Ok G root source p.pid (toks cs.flatten ++ rest) := by
  cases k with
  | zero =>
    cases h
    refine Ok.last (pre := []) (post := [_]) (E.punct_ok_more hs hok) (E.mem (E.punct_pair hs)) ?_
    intro k hk; rw [List.mem_singleton.1 hk]; exact E.opt_null (E.punct_more hs)
  | succ k =>
    cases h with
    | @cons _ _ _ c cs x xs h1 h3 =>
      obtain ⟨w, hf, hla⟩ := E.punct_elem_first hs h1
      intro tok ht
      rw [List.flatten_cons, toks, List.map_append, List.append_assoc, hla] at ht
      cases ht
      exact FollowOf.between (pre := []) (mid := []) (post := []) (E.reachable (E.punct_pair hs))
        (E.mem (E.punct_pair hs)) (by simp) (E.opt_some (E.punct_more hs) (E.punct_first hs hf))

end punct

section punct
variable {t p : Ty m n} (E : Comp S md source r root G) (hs : Within S r root (.punct t p))
include E hs

theorem Comp.punct_okw_elem {pos k cs xs rest w}
    (h : FindsSeqX fx S md source r root G pos (alternate p t k) cs xs)
    (hok : Okw S G root source (Ty.punct t p).pid (w ++ wordOf source cs.flatten) rest) :
    Okw S G root source t.pid w (toks cs.flatten ++ rest) := by
  cases k with
  | zero =>
    cases h
    refine Okw.last0 (by simpa [wordOf] using hok) (E.mem hs.pid) ?_
    intro k hk; rw [List.mem_singleton.1 hk]; exact E.opt_null (E.punct_opt hs)
  | succ k =>
    cases h with
    | @cons _ _ _ c cs x xs h1 _ h3 =>
      obtain ⟨w, hf, hla⟩ := E.punct_sep_first hs h1
      intro tok ht
      rw [List.flatten_cons, toks, List.map_append, List.append_assoc, hla] at ht
      cases ht
      exact .inl (FollowOf.between (pre := []) (mid := []) (post := []) (E.reachable hs.pid) (E.mem hs.pid) (by simp)
        (E.opt_some (E.punct_opt hs) (E.punct_pair_first hs hf)))

theorem Comp.punct_okw_sep {pos k cs xs rest w}
    (h : FindsSeqX fx S md source r root G pos (alternate t p k) cs xs)
    (hok : Okw S G root source (.tup2 p.prod (.opt (.punct t.prod p.prod))) (w ++ wordOf source cs.flatten) rest) :
    Okw S G root source p.pid w (toks cs.flatten ++ rest) := by
  cases k with
  | zero =>
    cases h
    refine Okw.last0 (by simpa [wordOf] using hok) (E.mem (E.punct_pair hs)) ?_
    intro k hk; rw [List.mem_singleton.1 hk]; exact E.opt_null (E.punct_more hs)
  | succ k =>
    cases h with
    | @cons _ _ _ c cs x xs h1 _ h3 =>
      obtain ⟨w, hf, hla⟩ := E.punct_elem_first hs h1
      intro tok ht
      rw [List.flatten_cons, toks, List.map_append, List.append_assoc, hla] at ht
      cases ht
      exact .inl (FollowOf.between (pre := []) (mid := []) (post := []) (E.reachable (E.punct_pair hs))
        (E.mem (E.punct_pair hs)) (by simp) (E.opt_some (E.punct_more hs) (E.punct_first hs hf)))

/-- After the last separator no element is tried. -/
theorem Comp.punct_end {d : List (Cell n)} {rest : List (Token n)} (hr : Ready source ⟨source, d, rest⟩)
    (hok : Okw S G root source (.opt (.punct t.prod p.prod)) [] rest) {a : Acc n} :
    Halts (fun i j => punctInner View.ops (md.first.get t.pid) (md.first.get p.pid)
        (md.follow.get (Ty.punct t p).pid) (produceX View.ops fx S md j t) i a none)
      ⟨source, d, rest⟩ (fun b u => b = (false, a) ∧ u = ⟨source, d, rest⟩) := by
  refine .succ ?_
  simp only [punctInner]
  refine .bind (Q := fun b u => b = .error (false, a) ∧ u = ⟨source, d, rest⟩) ?_ ?_
  · simp only [punctTry]
    refine .peekTo (.ite (fun _ => .pure ⟨by simp, rfl⟩) (fun hn => ?_))
    rw [hr.la] at hn ⊢
    cases hl : la source rest with
    | none => rw [hl] at hn; exact absurd rfl hn
    | some tok =>
      refine .ite (fun hc => ?_) (fun _ => .ite (fun _ => .pure ⟨by simp, rfl⟩) (fun hc => ?_))
      · exact absurd ⟨tok, hl, E.punct_first hs (E.contains.1 hc)⟩ (E.okw_no (E.punct_more hs) (rest := rest) hok)
      · have hok' : Okw S G root source (Ty.punct t p).pid [] rest := hok.alt (E.mem (E.punct_more hs)) (by simp [Ty.pid, Ty.prod, PId.id])
        rcases hok' tok hl with h1 | ⟨h1, _⟩
        · exact absurd (E.fol t p hs tok h1) hc
        · exact absurd .self (h1.1 t p)
  · rintro _ _ ⟨rfl, rfl⟩
    exact .pure ⟨rfl, rfl⟩

theorem Comp.punct_outer : ∀ {ps es : List (Tree n)} {pos cs} {d : List (Cell n)}
    {rest : List (Token n)} {ae ap : List (Tree n)}, ps.length = es.length ∨ ps.length = es.length + 1 →
    FindsSeqX fx S md source r root G pos (alternate p t (ps.length + es.length)) cs (interleave ps es) →
    Okw S G root source (.opt (.tup2 p.prod (.opt (.punct t.prod p.prod)))) (wordOf source cs.flatten) rest →
    endOf 0 d = pos →
    Ready source ⟨source, d, toks cs.flatten ++ rest⟩ →
    Halts (fun i j => punctOuter View.ops (md.first.get t.pid) (md.first.get p.pid)
        (md.follow.get (Ty.punct t p).pid) (produceX View.ops fx S md j t) (produceX View.ops fx S md j p) i ⟨ae, ap, []⟩)
      ⟨source, d, toks cs.flatten ++ rest⟩
      (fun a u => a = ⟨ae ++ es, ap ++ ps, []⟩ ∧ u = ⟨source, d ++ cs.flatten, rest⟩) := by
  intro ps
  induction ps with
  | nil =>
    intro es pos cs d rest ae ap hl h hok hd hr
    have : es = [] := by
      rcases hl with hl | hl
      · exact List.eq_nil_of_length_eq_zero hl.symm
      · simp at hl
    subst this
    simp only [List.length_nil, Nat.add_zero, alternate, interleave] at h
    cases h
    refine .succ ?_
    simp only [punctOuter]
    refine .peekTo (.ite (fun hc => ?_) (fun _ => .pure ⟨by simp, by simp⟩))
    obtain ⟨tok, h1, h2⟩ := (E.guard hr).1 hc
    exact absurd ⟨tok, h1, E.punct_pair_first hs h2⟩ (E.okw_no (E.punct_opt hs) (rest := rest) hok)
  | cons q ps ih =>
    intro es pos cs d rest ae ap hl h hok hd hr
    rw [interleave_cons, List.length_cons,
      show ps.length + 1 + es.length = es.length + ps.length + 1 by omega] at h
    cases h with
    | @cons _ _ _ c cs _ _ h1 h2 h3 =>
      rw [List.flatten_cons, wordOf_append] at hok
      have hok1 : Okw S G root source (.tup2 p.prod (.opt (.punct t.prod p.prod))) _ rest :=
        hok.alt (E.mem (E.punct_opt hs)) (by simp [PId.id])
      have hok2 : Okw S G root source (.opt (.punct t.prod p.prod)) (wordOf source cs.flatten) rest :=
        hok1.last1 (E.mem (E.punct_pair hs)) (E.der h1 (E.punct_sep hs))
      rw [List.flatten_cons, toks, List.map_append, List.append_assoc] at hr ⊢
      refine .succ ?_
      simp only [punctOuter]
      refine .peekTo (.ite (fun _ => ?_) (fun hc => ?_))
      · refine (h2 d _ hd hr (E.punct_sep hs) (E.punct_okw_sep hs h3 hok1)).to ?_
        dsimp only
        cases es with
        | nil =>
          have : ps = [] := by
            rcases hl with hl | hl
            · simp at hl
            · exact List.eq_nil_of_length_eq_zero (by simpa using hl)
          subst this
          simp only [List.length_nil, Nat.add_zero, alternate, interleave] at h3
          cases h3
          refine .bind (E.punct_end hs hr.step hok2) ?_
          rintro _ _ ⟨rfl, rfl⟩
          exact .pure ⟨by simp, by simp⟩
        | cons e es =>
          rw [interleave_cons, List.length_cons,
            show es.length + 1 + ps.length = ps.length + es.length + 1 by omega] at h3
          cases h3 with
          | @cons _ _ _ c' cs _ _ g1 g2 g3 =>
            rw [List.flatten_cons, wordOf_append] at hok2
            have hok3 : Okw S G root source (Ty.punct t p).pid _ rest :=
              hok2.alt (E.mem (E.punct_more hs)) (by simp [Ty.pid, Ty.prod, PId.id])
            rw [List.flatten_cons, List.map_append, List.append_assoc] at hr ⊢
            obtain ⟨w, hf, hla⟩ := E.punct_elem_first hs g1
            refine .bind (Q := fun a u => a = (true, ⟨ae ++ [e], ap ++ [q], []⟩) ∧
              u = ⟨source, (d ++ c) ++ c', toks cs.flatten ++ rest⟩) ?_ ?_
            · refine .succ ?_
              simp only [punctInner]
              refine .bind (Q := fun a u => a = .error (true, ⟨ae ++ [e], ap ++ [q], []⟩) ∧
                u = ⟨source, (d ++ c) ++ c', toks cs.flatten ++ rest⟩) ?_ ?_
              · simp only [punctTry]
                refine .peekTo ?_
                rw [hr.step.la, hla]
                refine .ite (fun hn => by cases hn) (fun _ => .ite (fun _ => ?_) (fun hc => ?_))
                · refine (g2 (d ++ c) _ (by rw [endOf_append, hd]) hr.step (E.punct_elem hs)
                    (E.punct_okw_elem hs g3 hok3)).to ?_
                  exact .pure ⟨rfl, rfl⟩
                · exact absurd (E.contains.2 hf) hc
              · rintro _ _ ⟨rfl, rfl⟩
                exact .pure ⟨rfl, rfl⟩
            · rintro _ _ ⟨rfl, rfl⟩
              simp only [if_true]
              refine (ih (by simpa using hl) g3 (hok3.last1 (E.mem hs.pid) (E.der g1 (E.punct_elem hs)))
                (by rw [endOf_append, endOf_append, hd]) hr.step.step).mono ?_
              rintro _ _ ⟨rfl, rfl⟩
              exact ⟨by simp, by simp⟩
      · exfalso
        apply hc
        obtain ⟨w, hf, hla⟩ := E.punct_sep_first hs h1
        exact (E.guard hr).2 ⟨w, hla _, hf⟩

end punct

theorem Comp.punct (E : Comp S md source r root G) {t p : Ty m n} {pos cs es ps} (he : es ≠ [])
    (hl : es.length = ps.length + 1 ∨ es.length = ps.length)
    (h : FindsSeqX fx S md source r root G pos (alternate t p (es.length + ps.length)) cs (interleave es ps)) :
    FindsX fx S md source r root G pos (.punct t p) cs.flatten (.split (spanOf (interleave es ps)) es ps) := by
  intro d rest hd hr hs hok
  cases es with
  | nil => exact absurd rfl he
  | cons e es =>
    have hl' : ps.length = es.length ∨ ps.length = es.length + 1 := by
      simp only [List.length_cons] at hl; omega
    have hfit := h.fits (by rw [← hd]; exact hr.after)
    have haft := hr.after
    rw [interleave_cons, List.length_cons, show es.length + 1 + ps.length = ps.length + es.length + 1 by omega] at h
    cases h with
    | @cons _ _ _ c cs _ _ h1 h2 h3 =>
      rw [List.flatten_cons, wordOf_append] at hok
      rw [List.flatten_cons, toks, List.map_append, List.append_assoc] at hr ⊢
      refine Halts.produceX ?_
      simp only [produceStep, producePunct]
      refine (h2 d _ hd hr (E.punct_elem hs) (E.punct_okw_elem hs h3 hok)).to ?_
      dsimp only
      refine .bind (E.punct_outer hs hl' h3 (hok.last1 (E.mem hs.pid) (E.der h1 (E.punct_elem hs))) (by rw [endOf_append, hd]) hr.step) ?_
      rintro _ _ ⟨rfl, rfl⟩
      refine .pure ⟨?_, by simp⟩
      simp only [punctDone, List.singleton_append, List.nil_append]
      rw [hd] at haft
      rw [punct_span e es ps hl' hfit haft]
      rfl

/-! ### Recover -/

theorem Comp.recover (E : Comp S md source r root G) {t u : Ty m n} {pos cs x y}
    (h : FindsSeqX fx S md source r root G pos [t, u] cs [x, y]) :
    FindsX fx S md source r root G pos (.recover t u) cs.flatten (.recover x.span x y) := by
  intro d rest hd hr hw hok
  have hwt : Within S r root t := ⟨.step hw.ty (by simp [Schema.tyParts]),
    hw.pid.part (by simp [Ty.pid, Ty.prod, PId.id, Schema.rule, Rule.parts])⟩
  have hwu : Within S r root u := ⟨.step hw.ty (by simp [Schema.tyParts]),
    hw.pid.part (by simp [Ty.pid, Ty.prod, PId.id, Schema.rule, Rule.parts])⟩
  have hm := E.mem hw.pid
  cases h with
  | @cons _ _ _ c cs _ _ h1 h2 h3 =>
    rw [List.flatten_cons, wordOf_append] at hok
    have hokt : Okw S G root source t.pid (wordOf source c) (toks cs.flatten ++ rest) :=
      E.okw_part (pre := []) (w0 := []) (mid := []) (.refl _) hm (E.reachable hw.pid) (by simp) h3.parses
        (fun v hv => by rw [List.mem_singleton.1 hv]; exact hwu) hok
    have hoku : Okw S G root source u.pid (wordOf source cs.flatten) rest := hok.last1 hm (E.der h1 hwt)
    cases h3 with
    | @cons _ _ _ c' cs _ _ g1 g2 g3 =>
      cases g3
      simp only [List.flatten_cons, List.flatten_nil, List.append_nil] at hr hokt hoku ⊢
      rw [toks, List.map_append, List.append_assoc] at hr ⊢
      refine Halts.produceXR ?_
      cases fx <;> simp only [produceRecoverX, produceRecover, produceRecoverFix]
      all_goals
        refine .bind (Q := fun a w => a = ⟨[], none, x.span, some x⟩ ∧
          w = ⟨source, d ++ c, toks c' ++ rest⟩) ?_ ?_
        · simp only [recoverHead]
          refine .peekTo (.ite (fun _ => ?_) (fun hc => ?_))
          · refine (h2 d _ hd hr hwt hokt).to ?_
            exact .pure ⟨rfl, rfl⟩
          · exfalso
            apply hc
            rw [Bool.or_eq_true]
            rcases E.match_cases h1 hwt with ⟨_, hn⟩ | ⟨w, hf, _, hla⟩
            · exact .inr (E.containsE.2 hn)
            · left; rw [hr.la, hla]; exact E.contains.2 hf
        · rintro _ _ ⟨rfl, rfl⟩
          have hu := g2 (d ++ c) rest (by rw [endOf_append, hd]) hr.step hwu hoku
          refine .bind (Q := fun a w => a = (some y, [], none) ∧ w = ⟨source, (d ++ c) ++ c', rest⟩) ?_ ?_
          · refine .succ ?_
            simp only [recoverLoop, recoverLoopFix]
            refine .peekTo ?_
            have hg : ((md.first.get u.pid).contains (View.mk source (d ++ c) (toks c' ++ rest)).look ||
                (md.first.get u.pid).containsE) = true := by
              rw [Bool.or_eq_true]
              rcases E.match_cases g1 hwu with ⟨_, hn⟩ | ⟨w, hf, _, hla⟩
              · exact .inr (E.containsE.2 hn)
              · left; rw [hr.step.la, hla]; exact E.contains.2 hf
            refine .ite (fun hn => ?_) (fun _ => ?_)
            · refine .ite (fun _ => ?_) (fun hc => ?_)
              · exact hu.to (.pure ⟨rfl, rfl⟩)
              · exfalso
                apply hc
                rw [Option.isNone_iff_eq_none] at hn
                rw [hn] at hg
                simpa [TSet.containsE, TSet.contains] using hg
            · refine .ite (fun _ => ?_) (fun hc => absurd hg hc)
              exact hu.to (.pure ⟨rfl, rfl⟩)
          · rintro _ _ ⟨rfl, rfl⟩
            exact .pure ⟨rfl, by simp⟩

/-! ### Texts -/

theorem Comp.text {pos t u c x} (ht : TextLike t u) (htp : t.pid = u.pid) (hpart : u ∈ S.tyParts t)
    (h : FindsX fx S md source r root G pos u c x) :
    FindsX fx S md source r root G pos t c (.text x.span (textOf source x.span)) := by
  intro d rest hd hr hw hok
  rw [htp] at hok
  refine Halts.produceX ?_ (by cases ht <;> simp)
  have e : ∀ i j, produceStep View.ops S md i (produceX View.ops fx S md j) t =
      produceText View.ops (produceX View.ops fx S md j u) := by
    intro i j; cases ht <;> rfl
  simp only [e, produceText]
  refine (h d rest hd hr ⟨.step hw.ty hpart, htp ▸ hw.pid⟩ hok).to ?_
  dsimp only
  refine .bind (Q := fun s w => s = textOf source x.span ∧ w = ⟨source, d ++ c, rest⟩)
    (.getSrc fun s hs => ⟨get?_textOf hs, rfl⟩) ?_
  rintro _ _ ⟨rfl, rfl⟩
  exact .pure ⟨rfl, rfl⟩

/-! ### All types -/

theorem Comp.finds (E : Comp S md source r root G) {pos : Nat} {t : Ty m n} {c : List (Cell n)} {x : Tree n}
    (h : Parses S source pos t c x) : FindsX fx S md source r root G pos t c x := by
  refine Parses.rec (S := S) (source := source)
    (motive_1 := fun pos t c x _ => FindsX fx S md source r root G pos t c x)
    (motive_2 := fun pos ts cs l _ => FindsSeqX fx S md source r root G pos ts cs l)
    ?term ?struct ?enum ?tuple ?box ?optNone ?optSome ?existNone ?existSome ?quote ?parse ?plus ?starNone
    ?starSome ?loopNone ?loopSome ?split ?punct ?recover ?nil ?cons h
  case term => intro pos i k t hm d rest _ _ _ _; exact Comp.term hm
  case struct => intro pos k f fs cs l hk _ ih; exact E.struct hk ih
  case enum => intro pos k f fs i t sem c x hk hi h0 ih; exact E.enum hk hi h0 ih
  case tuple => intro pos t ts cs l ht _ ih; exact E.tuple ht ih
  case box =>
    intro pos t c x _ ih d rest hd hr hw hok
    refine Halts.produceX ?_
    exact ih d rest hd hr ⟨.step hw.ty (by simp [Schema.tyParts]), hw.pid⟩ hok
  case optNone =>
    intro pos t d rest hd hr hw hok
    refine Halts.produceX ?_
    rw [List.append_nil]
    exact E.option_none (mk := mkOption) hw.pid hd hr hok
  case existNone =>
    intro pos t d rest hd hr hw hok
    refine Halts.produceX ?_
    rw [List.append_nil]
    exact E.option_none (mk := mkExists) hw.pid hd hr hok
  case starNone =>
    intro pos t d rest hd hr hw hok
    refine Halts.produceX ?_
    rw [List.append_nil]
    exact E.option_none (mk := mkStar) hw.pid hd hr hok
  case optSome =>
    intro pos t c x h0 ih d rest hd hr hw hok
    have hw' : Within S r root t := ⟨.step hw.ty (by simp [Schema.tyParts]),
      hw.pid.part (by simp [Ty.pid, Ty.prod, PId.id, Schema.rule, Rule.parts])⟩
    obtain ⟨w, hf, hla⟩ := E.opt_match hw.pid rfl h0 hw'
    refine Halts.produceX ?_
    exact E.option_some (mk := mkOption) hr hf (hla _)
      (ih d rest hd hr hw' (hok.alt (E.mem hw.pid) (by simp [Ty.pid])))
  case existSome =>
    intro pos t c x h0 ih d rest hd hr hw hok
    have hw' : Within S r root t := ⟨.step hw.ty (by simp [Schema.tyParts]),
      hw.pid.part (by simp [Ty.pid, Ty.prod, PId.id, Schema.rule, Rule.parts])⟩
    obtain ⟨w, hf, hla⟩ := E.opt_match hw.pid rfl h0 hw'
    refine Halts.produceX ?_
    exact E.option_some (mk := mkExists) hr hf (hla _)
      (ih d rest hd hr hw' (hok.alt (E.mem hw.pid) (by simp [Ty.pid])))
  case quote => intro pos t c x _ ih; exact Comp.text (.quote t) rfl (by simp [Schema.tyParts]) ih
  case parse => intro pos t c x _ ih; exact Comp.text (.parse t) rfl (by simp [Schema.tyParts]) ih
  case plus =>
    intro pos t k cs l _ ih d rest hd hr hw hok
    refine Halts.produceX ?_
    exact E.plus hw.pid ⟨.step hw.ty (by simp [Schema.tyParts]),
      hw.pid.part (by simp [Ty.pid, Ty.prod, PId.id, Schema.rule, Rule.parts])⟩ ih hok hd hr
  case starSome =>
    intro pos t k cs l h0 ih d rest hd hr hw hok
    have hwp : Within S r root (.plus t) := ⟨.step hw.ty (by simp [Schema.tyParts]),
      hw.pid.part (by simp [Ty.pid, Ty.prod, PId.id, Schema.rule, Rule.parts])⟩
    have hw' : Within S r root t := ⟨.step hwp.ty (by simp [Schema.tyParts]),
      hwp.pid.part (by simp [Ty.pid, Ty.prod, PId.id, Schema.rule, Rule.parts])⟩
    obtain ⟨w, hf, hla⟩ := E.opt_match (t := .plus t) hw.pid rfl (.plus h0) hwp
    refine Halts.produceX ?_
    exact E.option_some (mk := mkStar) hr hf (hla _)
      (E.plus hwp.pid hw' ih (hok.alt (E.mem hw.pid) (by simp [PId.id])) hd hr)
  case loopNone => intro pos t d rest _ _ hw; exact absurd rfl (E.loops _ hw.ty t)
  case loopSome => intro pos t k cs l _ _ d rest _ _ hw; exact absurd rfl (E.loops _ hw.ty t)
  case split => intro pos t p cs es ps hl _ ih; exact E.split hl ih
  case punct => intro pos t p cs es ps he hl _ ih; exact E.punct he hl ih
  case recover => intro pos t u cs x y _ ih; exact E.recover ih
  case nil => intro pos; exact .nil
  case cons => intro pos t ts c cs x xs h1 _ i1 i2; exact .cons h1 i1 i2

end
end Teleparse

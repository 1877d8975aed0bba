import Verif.Proof.Parts
import Verif.Proof.Transfer
import Verif.Props.Exact
/-
Property C78: a part of an accepted root is an accepted root, analysed and parsed alone as inside of the larger root.
-/
namespace Teleparse
variable {m n : Nat}

/-! ## C78: parts of a root as roots -/

/-- A part of an accepted root is accepted as a root of its own. -/
theorem C78_accepted (S : Schema m n) (fuel : Nat) (root t : Ty m n) (md : Metadata (PId m n) n)
    (h : S.metadata fuel root = some (.ok md)) (ht : Reach S.tyParts root t) :
    ∃ md' fuel', ∀ f ≥ fuel', S.metadata f t = some (.ok md') := by
  obtain ⟨r, f, hr⟩ := C33_schema_total S t
  obtain ⟨md', rfl⟩ := metadata_part h (reach_pid ht) (hr f (Nat.le_refl _))
  exact ⟨md', f, hr⟩

/-- FIRST sets, and which types can be empty, do not depend on the root. -/
theorem C78_first (S : Schema m n) (fuel fuel' : Nat) (root t u : Ty m n) (md md' : Metadata (PId m n) n)
    (h : S.metadata fuel root = some (.ok md)) (ht : Reach S.tyParts root t)
    (h' : S.metadata fuel' t = some (.ok md')) (hu : Reach S.tyParts t u) (x : Option (TokenSrc n)) :
    (md'.first.get u.pid).contains x = (md.first.get u.pid).contains x :=
  (metadata_part_first h (reach_pid ht) h' (reach_pid hu) x).symm

/-- Which variant of an enum is chosen does not depend on the root. -/
theorem C78_jump (S : Schema m n) (fuel fuel' : Nat) (root t : Ty m n) (md md' : Metadata (PId m n) n)
    (h : S.metadata fuel root = some (.ok md)) (ht : Reach S.tyParts root t)
    (h' : S.metadata fuel' t = some (.ok md')) (k : Fin m) (v : Field m n) (vs : List (Field m n))
    (hk : S k = .enum v vs) (hu : Reach S.tyParts t (.user k)) (x : Option (TokenSrc n)) :
    md'.jump.lookUp (.user k) x = md.jump.lookUp (.user k) x :=
  (metadata_part_jump h (reach_pid ht) h' (reach_pid hu)
    (l := (v :: vs).map fun v => v.1.pid) (by simp [Ty.pid, Ty.prod, PId.id, Schema.rule, hk]) x).symm

/-- A token in FOLLOW for the part as root is in FOLLOW for the larger root. -/
theorem C78_follow (S : Schema m n) (fuel fuel' : Nat) (root t u : Ty m n) (md md' : Metadata (PId m n) n)
    (h : S.metadata fuel root = some (.ok md)) (ht : Reach S.tyParts root t)
    (h' : S.metadata fuel' t = some (.ok md')) (tok : TokenSrc n)
    (hf : (md'.follow.get u.pid).contains (some tok) = true) : (md.follow.get u.pid).contains (some tok) = true :=
  metadata_part_follow h (reach_pid ht) h' hf

theorem agree_up {S : Schema m n} {fuel fuel' : Nat} {root t : Ty m n} {md md' : Metadata (PId m n) n}
    (h : S.metadata fuel root = some (.ok md)) (ht : Reach S.tyParts root t)
    (h' : S.metadata fuel' t = some (.ok md')) : Agree S md' md t where
  first := fun _ hi x => (metadata_part_first h (reach_pid ht) h' hi x).symm
  jump := fun k v vs hr hk x => (metadata_part_jump h (reach_pid ht) h' hr
    (l := (v :: vs).map fun v => v.1.pid) (by simp [Schema.rule, hk]) x).symm
  punct := fun _ _ _ _ hf => metadata_part_follow h (reach_pid ht) h' hf

/-- What a part produces as a root, without an error, it produces inside of the larger root: the same tree from the
same state of the parser, leaving the same state. -/
theorem C78_context (ext : Fin n → Bool) (S : Schema m n) (fuel fuel' : Nat) (root t : Ty m n)
    (md md' : Metadata (PId m n) n) (h : S.metadata fuel root = some (.ok md)) (ht : Reach S.tyParts root t)
    (h' : S.metadata fuel' t = some (.ok md')) (p p' : Parser n) (r : Res n (Tree n)) (hr : r.errs = [])
    (hy : Yields ext S md' t p r p') : Yields ext S md t p r p' :=
  (agree_up h ht h').yields .refl hr hy

/-- The converse, if the `Punct` lists in the part have the same FOLLOW sets. Missing for the full statement: `Punct`
lists followed by more tokens in the larger root (false, see `C78_false_punct`). -/
theorem C78_alone_partial (ext : Fin n → Bool) (S : Schema m n) (fuel fuel' : Nat) (root t : Ty m n)
    (md md' : Metadata (PId m n) n) (h : S.metadata fuel root = some (.ok md)) (ht : Reach S.tyParts root t)
    (h' : S.metadata fuel' t = some (.ok md'))
    (hpunct : ∀ a b, Reach S.tyParts t (.punct a b) → ∀ tok,
      (md.follow.get (Ty.punct a b).pid).contains (some tok) = true →
        (md'.follow.get (Ty.punct a b).pid).contains (some tok) = true)
    (p p' : Parser n) (r : Res n (Tree n)) (hr : r.errs = []) (hy : Yields ext S md t p r p') :
    Yields ext S md' t p r p' := by
  have ha : Agree S md md' t :=
    { first := fun _ hi => metadata_part_first h (reach_pid ht) h' hi
      jump := fun k v vs hr hk => metadata_part_jump h (reach_pid ht) h' hr
        (l := (v :: vs).map fun v => v.1.pid) (by simp [Schema.rule, hk])
      punct := hpunct }
  exact ha.yields .refl hr hy

theorem parse_clean {ext : Fin n → Bool} {S : Schema m n} {fuel : Nat} {root : Ty m n} {p p' : Parser n}
    {x : Option (Tree n)} (h : p.parse ext S fuel root = .ok (.ok x) p') :
    ∃ e, syntaxErrors p'.info.errors = syntaxErrors p.info.errors ++ e ∧ ∃ md r q,
      S.metadata fuel root = some (.ok md) ∧ produce (Parser.ops ext) S md fuel root p = .ok r q ∧ r.errs = e ∧
      (e = [] → p' = q) ∧ (∀ y, x = some y ↔ ∃ e, r.Gives y e) := by
  obtain ⟨md, r, q, chars, h1, hq, -, -, herr, hch, -⟩ := C48_parse ext S fuel root _ _ _ h
  rcases parse_ok h with ⟨_, _, h2, _⟩ | ⟨md', y, g1, g2, g3⟩
  · cases h2
  cases g2
  cases h1.symm.trans g1
  obtain ⟨r', q', g4, g5, -, g6⟩ := parseWithMeta_ok g3
  cases hq.symm.trans g4
  refine ⟨r.errs, ?_, md, r, q, h1, hq, rfl, fun he => ?_, g6⟩
  · unfold syntaxErrors
    rw [herr, List.filter_append, List.filter_append, (List.filter_eq_nil_iff (l := chars)).2, List.append_nil]
    · congr 1
      rw [List.filter_eq_self]
      intro e he
      simpa using produce_kinds hq e he
    · intro e he
      simpa using hch e he
  · rw [g5, he]
    simp

/-- Calling `Parser::parse` for `A` and then for `B` gives, if no syntax error is reported, what `Parser::parse` gives
for the tuple `(A, B)`, whenever the tuple is an accepted root. -/
theorem C78_sequence (ext : Fin n → Bool) (S : Schema m n) (fuel f1 f2 : Nat) (a b : Ty m n)
    (md : Metadata (PId m n) n) (h : S.metadata fuel (.tup2 a b) = some (.ok md)) (p p1 p2 : Parser n) (x y : Tree n)
    (h1 : p.parse ext S f1 a = .ok (.ok (some x)) p1) (h2 : p1.parse ext S f2 b = .ok (.ok (some y)) p2)
    (he : syntaxErrors p2.info.errors = syntaxErrors p.info.errors) :
    ∃ N, ∀ f ≥ N, p.parse ext S f (.tup2 a b) = .ok (.ok (some (.seq ⟨x.span.lo, y.span.hi⟩ [x, y]))) p2 := by
  obtain ⟨e1, s1, md1, r1, q1, m1, y1, rfl, k1, g1⟩ := parse_clean h1
  obtain ⟨e2, s2, md2, r2, q2, m2, y2, rfl, k2, g2⟩ := parse_clean h2
  have hlen : (r1.errs ++ r2.errs).length = 0 := by
    have := congrArg List.length he
    rw [s2, s1] at this
    simp only [List.length_append] at this ⊢
    omega
  obtain ⟨c1, c2⟩ := List.append_eq_nil_iff.1 (List.length_eq_zero_iff.1 hlen)
  cases k1 c1
  cases k2 c2
  obtain ⟨F1, z1⟩ := C78_context ext S fuel f1 (.tup2 a b) a md md1 h (.step .refl (by simp [Schema.tyParts])) m1 p p1
    r1 c1 ⟨f1, y1⟩
  obtain ⟨F2, z2⟩ := C78_context ext S fuel f2 (.tup2 a b) b md md2 h (.step .refl (by simp [Schema.tyParts])) m2 p1 p2
    r2 c2 ⟨f2, y2⟩
  refine ⟨max fuel (max F1 F2) + 1, fun f hf => ?_⟩
  obtain ⟨f, rfl⟩ : ∃ i, f = i + 1 := ⟨f - 1, by omega⟩
  have z1 := produce_more z1 (f' := f) (by omega)
  have z2 := produce_more z2 (f' := f) (by omega)
  have hp : produce (Parser.ops ext) S md (f + 1) (.tup2 a b) p =
      .ok (.success (.seq ⟨x.span.lo, y.span.hi⟩ [x, y])) p2 := by
    have seq : seqLoop [produce (Parser.ops ext) S md f a, produce (Parser.ops ext) S md f b] [] [] p =
        .ok (.ok ([x, y], [])) p2 := by
      unfold seqLoop
      refine bind_ok.2 ⟨r1, p1, z1, ?_⟩
      obtain ⟨e, hg⟩ := (g1 x).1 rfl
      have second : seqLoop [produce (Parser.ops ext) S md f b] [x] [] p1 = .ok (.ok ([x, y], [])) p2 := by
        unfold seqLoop
        refine bind_ok.2 ⟨r2, p2, z2, ?_⟩
        obtain ⟨e, hg⟩ := (g2 y).1 rfl
        cases hg with
        | success => rfl
        | recovered _ e =>
          have hc : e = [] := c2
          subst hc
          rfl
      cases hg with
      | success => exact second
      | recovered _ e =>
        have hc : e = [] := c1
        subst hc
        exact second
    show produceTuple [produce (Parser.ops ext) S md f a, produce (Parser.ops ext) S md f b] p = _
    unfold produceTuple
    exact bind_ok.2 ⟨_, _, seq, rfl⟩
  unfold Parser.parse Parser.parseWithMeta
  rw [metadata_more h (show fuel ≤ f + 1 by omega)]
  simp only [hp]

/-! ### Examples -/

/-- The list `L = word E* "x"` is a part of `Loop<E>`, with `E = num | L`. -/
theorem cx_part : Reach cxS.tyParts cxT (.user 1) :=
  .step (.step .refl (show .user 0 ∈ _ by decide)) (by decide)
def cxMd1 : Metadata (PId 2 3) 3 := okOf ⟨[], [], []⟩ (cxS.metadata 40 (.user 1))
theorem cxMd1_ok : cxS.metadata 40 (.user 1) = some (.ok cxMd1) := rfl

example : ∃ md' fuel', ∀ f ≥ fuel', cxS.metadata f (.user 1) = some (.ok md') :=
  C78_accepted cxS 40 cxT (.user 1) cxMd cxMd_ok cx_part
example (x : Option (TokenSrc 3)) :
    (cxMd1.first.get (Ty.star (.user 0) : Ty 2 3).pid).contains x = (cxMd.first.get (Ty.star (.user 0) : Ty 2 3).pid).contains x :=
  C78_first cxS 40 40 cxT (.user 1) (.star (.user 0)) cxMd cxMd1 cxMd_ok cx_part cxMd1_ok (.step .refl (by decide)) x
example (x : Option (TokenSrc 3)) : cxMd1.jump.lookUp (.user 0) x = cxMd.jump.lookUp (.user 0) x :=
  C78_jump cxS 40 40 cxT (.user 1) cxMd cxMd1 cxMd_ok cx_part cxMd1_ok 0 _ _ rfl
    (.step (.step (.step .refl (show .star (.user 0) ∈ _ by decide)) (show .plus (.user 0) ∈ _ by decide)) (by decide)) x
/-- FOLLOW of the list really grows: as a root nothing but the end follows it, except other parts of its own. -/
example : (cxMd1.follow.get (.user 0)).contains (some ⟨2, [120]⟩) = true ∧
    (cxMd.follow.get (.user 0)).contains (some ⟨2, [120]⟩) = true :=
  ⟨by rfl, C78_follow cxS 40 40 cxT (.user 1) (.user 0) cxMd cxMd1 cxMd_ok cx_part cxMd1_ok ⟨2, [120]⟩ (by rfl)⟩

/-- `a 1 x` as a list, alone and inside of the loop. -/
example : ∃ x p', Yields noExt cxS cxMd1 (.user 1) (Parser.new [97, 32, 49, 32, 120]
      [.token ⟨⟨0, 1⟩, 0⟩, .token ⟨⟨2, 3⟩, 1⟩, .token ⟨⟨4, 5⟩, 2⟩]) (.success x) p' ∧
    Yields noExt cxS cxMd (.user 1) (Parser.new [97, 32, 49, 32, 120]
      [.token ⟨⟨0, 1⟩, 0⟩, .token ⟨⟨2, 3⟩, 1⟩, .token ⟨⟨4, 5⟩, 2⟩]) (.success x) p' := by
  have h : ∃ x p', Yields noExt cxS cxMd1 (.user 1) (Parser.new [97, 32, 49, 32, 120]
      [.token ⟨⟨0, 1⟩, 0⟩, .token ⟨⟨2, 3⟩, 1⟩, .token ⟨⟨4, 5⟩, 2⟩]) (.success x) p' := ⟨_, _, 20, by rfl⟩
  obtain ⟨x, p', h⟩ := h
  exact ⟨x, p', h, C78_context noExt cxS 40 40 cxT (.user 1) cxMd cxMd1 cxMd_ok cx_part cxMd1_ok _ _ _ rfl h⟩
example : ∃ x p', Yields noExt cxS cxMd (.user 1) (Parser.new [97, 32, 49, 32, 120]
      [.token ⟨⟨0, 1⟩, 0⟩, .token ⟨⟨2, 3⟩, 1⟩, .token ⟨⟨4, 5⟩, 2⟩]) (.success x) p' ∧
    Yields noExt cxS cxMd1 (.user 1) (Parser.new [97, 32, 49, 32, 120]
      [.token ⟨⟨0, 1⟩, 0⟩, .token ⟨⟨2, 3⟩, 1⟩, .token ⟨⟨4, 5⟩, 2⟩]) (.success x) p' := by
  have h : ∃ x p', Yields noExt cxS cxMd (.user 1) (Parser.new [97, 32, 49, 32, 120]
      [.token ⟨⟨0, 1⟩, 0⟩, .token ⟨⟨2, 3⟩, 1⟩, .token ⟨⟨4, 5⟩, 2⟩]) (.success x) p' := ⟨_, _, 20, by rfl⟩
  obtain ⟨x, p', h⟩ := h
  refine ⟨x, p', h, C78_alone_partial noExt cxS 40 40 cxT (.user 1) cxMd cxMd1 cxMd_ok cx_part cxMd1_ok ?_ _ _ _ rfl h⟩
  intro a b hr
  have : Reach cxS.tyParts cxT (.punct a b) := Reach.trans cx_part hr
  have := reach_of_check (cxT :: cxU) (by decide) (by decide +kernel) this
  simp [cxU, cxT] at this

/-- Two words and then a number, in two calls and in one. -/
def sqA : Ty 0 3 := .plus exWord
def sqB : Ty 0 3 := .option exNum
def sqP : Parser 3 := Parser.new [97, 32, 98, 32, 49] [.token ⟨⟨0, 1⟩, 0⟩, .token ⟨⟨2, 3⟩, 0⟩, .token ⟨⟨4, 5⟩, 1⟩]
example : ∃ x y p2 N, ∀ f ≥ N,
    sqP.parse noExt exS f (.tup2 sqA sqB) = .ok (.ok (some (.seq ⟨0, 5⟩ [x, y]))) p2 := by
  have h : ∃ x p1 y p2, sqP.parse noExt exS 30 sqA = .ok (.ok (some x)) p1 ∧
      p1.parse noExt exS 30 sqB = .ok (.ok (some y)) p2 ∧ syntaxErrors p2.info.errors = [] ∧ x.span.lo = 0 ∧ y.span.hi = 5 :=
    ⟨_, _, _, _, by rfl, by rfl, by rfl, by rfl, by rfl⟩
  obtain ⟨x, p1, y, p2, h1, h2, h3, h4, h5⟩ := h
  obtain ⟨N, hN⟩ := C78_sequence noExt exS 30 30 30 sqA sqB (okOf ⟨[], [], []⟩ (exS.metadata 30 (.tup2 sqA sqB))) rfl
    sqP p1 p2 x y h1 h2 (by rw [h3]; rfl)
  rw [h4, h5] at hN
  exact ⟨x, y, p2, N, hN⟩

/-- `Punct<word, num>` on `a 1 x`: inside of `(Punct<word, num>, "x")` the list `a 1` is produced without an error, as
a root the list insists on the end of input after the trailing separator and reports an error. -/
def pqT : Ty 0 3 := .tup2 xpT fxX
def pqMd : Metadata (PId 0 3) 3 := okOf ⟨[], [], []⟩ (exS.metadata 30 pqT)
def pqMd1 : Metadata (PId 0 3) 3 := okOf ⟨[], [], []⟩ (exS.metadata 30 xpT)
def pqP : Parser 3 := Parser.new xpSource [.token ⟨⟨0, 1⟩, 0⟩, .token ⟨⟨2, 3⟩, 1⟩, .token ⟨⟨4, 5⟩, 2⟩]

theorem C78_false_punct : exS.metadata 30 pqT = some (.ok pqMd) ∧ exS.metadata 30 xpT = some (.ok pqMd1) ∧
    Reach exS.tyParts pqT xpT ∧ (∃ x p', Yields noExt exS pqMd xpT pqP (.success x) p') ∧
    ∀ x p', ¬ Yields noExt exS pqMd1 xpT pqP (.success x) p' := by
  refine ⟨rfl, rfl, .step .refl (by decide), ⟨_, _, 20, by rfl⟩, fun x p' h => ?_⟩
  have h' : ∃ y e q, Yields noExt exS pqMd1 xpT pqP (.recovered y e) q := ⟨_, _, _, 20, by rfl⟩
  obtain ⟨y, e, q, h'⟩ := h'
  cases (h.unique h').1

end Teleparse

import Verif.Proof.Expects
import Verif.Spec.Expects
import Verif.Props.Steps
/-
Property C62: errors that say what was expected.
-/
namespace Teleparse
variable {m n : Nat} {S : Schema m n} {root : Ty m n} {G : Grammar (PId m n) n} {ext : Fin n → Bool}
  {source : Str} {items : List (Item n)} {fuel : Nat}

theorem Asked.expected {md : Metadata (PId m n) n} {s : TSet n} (hmd : S.metadata fuel root = some (.ok md))
    (hG : S.IsGrammar root G) (h : Asked S md root G s) : Expected S root G s := by
  rcases h with h | ⟨t, p, hr, hx⟩
  · exact .inl h
  · refine .inr ⟨t, p, hr, fun tok hf => (hx _).2 ⟨by simp, .inl hf⟩, ?_⟩
    intro x hc
    obtain ⟨h0, h1⟩ := (hx x).1 hc
    cases x with
    | none => exact absurd rfl h0
    | some tok =>
      refine ⟨tok, rfl, h1.imp_right fun h => ?_⟩
      obtain ⟨G', hG', hreg, hb⟩ := metadata_build hmd
      have hf := ((build_follow_den hb _ _).1 h).sound (registerFrom_connected hreg)
      exact hf.congr fun q hq => (hG.same hG' q).2 hq

/-- The errors of a parse, from those of `produce`. -/
theorem tells_parse {strict : Prop} (hw : ItemsWF source items) (hG : S.IsGrammar root G) (p p' : Parser n)
    (hs : strict → ∀ t r, Reach S.tyParts root (.recover t r) → ¬ Nullable G r.pid)
    (hp : Reached ext source items p) (r : Except (GErr (PId m n)) (Option (Tree n)))
    (h : p.parse ext S fuel root = .ok r p') (new : List (Err n)) (hnew : p'.info.errors = p.info.errors ++ new)
    (e : Err n) (he : e ∈ new) (s : TSet n) (hk : e.kind = .expecting s) :
    ∃ ts rest, (p.view ext).rest = ts ++ rest ∧ e.span.lo = startOf source rest ∧ Expected S root G s ∧
      (∀ t ∈ rest.head?, s.contains (some (t.word source)) = false) ∧
      (rest = [] → strict → s.contains none = false) := by
  rcases parse_ok h with ⟨_, _, _, rfl⟩ | ⟨md, x, hmd, rfl, _⟩
  · have : new = [] := by simpa using hnew
    rw [this] at he; cases he
  obtain ⟨md', r, q, chars, hmd', hq, _, _, herr, hch, _⟩ := C48_parse ext S fuel root p p' x h
  rw [hmd] at hmd'
  cases hmd'
  rw [herr, List.append_assoc] at hnew
  have hnew := List.append_cancel_left hnew
  rw [← hnew] at he
  rcases List.mem_append.1 he with he | he
  · rw [hch e he] at hk; cases hk
  have hv := produce_view ext S md fuel root p
  rw [hq] at hv
  obtain ⟨_, ht, _⟩ := tell_produce hmd hG hs fuel root .refl _ _ _ _ (.refl _) hv
  obtain ⟨v, ha, hlo, hQ, h1, h2⟩ := ht e he s hk
  have hready := (hp.ready hw).adv ha
  have hsrc : v.source = source := hready.inSource.src
  obtain ⟨ts, hts, _⟩ := ha.cons
  refine ⟨ts, v.rest, hts, ?_, hQ.expected hmd hG, ?_, ?_⟩
  · rw [hlo, startOf]
    unfold View.cur
    rw [hsrc]
    cases v.rest <;> rfl
  · intro t ht
    have hne : v.rest ≠ [] := by
      intro h0; rw [h0] at ht; cases ht
    have := h1 hne
    rw [hready.look, View.word, show v.rest.head? = some t from ht, hsrc] at this
    exact this
  · intro h0 hst
    exact h2 h0 hst

/-- Every recorded error "expecting ..." begins at a token of the input or at the end of input, the set is what
can begin one of the types that make up the root (or continue a `Punct`), and the token there is not in it. -/
theorem C62_token (hw : ItemsWF source items) (hG : S.IsGrammar root G) (p p' : Parser n)
    (hp : Reached ext source items p) (r : Except (GErr (PId m n)) (Option (Tree n)))
    (h : p.parse ext S fuel root = .ok r p') (new : List (Err n)) (hnew : p'.info.errors = p.info.errors ++ new)
    (e : Err n) (he : e ∈ new) (s : TSet n) (hk : e.kind = .expecting s) :
    ∃ ts rest, (p.view ext).rest = ts ++ rest ∧ e.span.lo = startOf source rest ∧ Expected S root G s ∧
      (∀ t ∈ rest.head?, s.contains (some (t.word source)) = false) := by
  obtain ⟨ts, rest, h1, h2, h3, h4, _⟩ :=
    tells_parse (strict := False) hw hG p p' (fun h => h.elim) hp r h new hnew e he s hk
  exact ⟨ts, rest, h1, h2, h3, h4⟩

/-- At the end of input, the end of input is not expected, unless the second type of a `Recover` can be
empty. -/
theorem C62_end_partial (hw : ItemsWF source items) (hG : S.IsGrammar root G) (p p' : Parser n)
    (hrec : ∀ t u, Reach S.tyParts root (.recover t u) → ¬ Nullable G u.pid)
    (hp : Reached ext source items p) (r : Except (GErr (PId m n)) (Option (Tree n)))
    (h : p.parse ext S fuel root = .ok r p') (new : List (Err n)) (hnew : p'.info.errors = p.info.errors ++ new)
    (e : Err n) (he : e ∈ new) (s : TSet n) (hk : e.kind = .expecting s) :
    ∃ ts rest, (p.view ext).rest = ts ++ rest ∧ e.span.lo = startOf source rest ∧ Expected S root G s ∧
      s.contains (rest.head?.map (·.word source)) = false := by
  obtain ⟨ts, rest, h1, h2, h3, h4, h5⟩ :=
    tells_parse (strict := True) hw hG p p' (fun _ => hrec) hp r h new hnew e he s hk
  refine ⟨ts, rest, h1, h2, h3, ?_⟩
  cases rest with
  | nil => exact h5 rfl trivial
  | cons t l => exact h4 t rfl

/-- Example for both: `Recover<word, num>` on `a b 1` records that a number is expected at `b`. -/
example : exS.IsGrammar (.recover exWord exNum) rcG ∧
    ItemsWF [97, 32, 98, 32, 49] ([.token ⟨⟨0, 1⟩, 0⟩, .token ⟨⟨2, 3⟩, 0⟩, .token ⟨⟨4, 5⟩, 1⟩] : List (Item 3)) ∧
    (∃ x p' s, (Parser.new [97, 32, 98, 32, 49]
      [.token ⟨⟨0, 1⟩, 0⟩, .token ⟨⟨2, 3⟩, 0⟩, .token ⟨⟨4, 5⟩, 1⟩]).parse exExt exS 30 (.recover exWord exNum) =
        .ok (.ok (some x)) p' ∧ p'.info.errors = [⟨⟨2, 3⟩, .expecting s⟩]) ∧
    ∀ t u, Reach exS.tyParts (.recover exWord exNum) (.recover t u) → ¬ Nullable rcG u.pid := by
  have hG : exS.IsGrammar (.recover exWord exNum) rcG := .of_register (fuel := 30) (by rfl)
  refine ⟨hG, by unfold ItemsWF; decide, ⟨_, _, _, by rfl, by rfl⟩, ?_⟩
  intro t u hr
  have key : ∀ a, Reach exS.tyParts (.recover exWord exNum) a →
      a = .recover exWord exNum ∨ a = exWord ∨ a = exNum := by
    intro a ha
    induction ha with
    | refl => exact .inl rfl
    | step _ hj ih =>
      rcases ih with rfl | rfl | rfl
      · simpa [Schema.tyParts] using Or.inr hj
      · cases hj
      · cases hj
  rcases key _ hr with h | h | h
  · cases h
    exact fun hn => Rules.term_null ⟨hG⟩ (t := ⟨1, none⟩) rfl (nullable_iff.1 hn)
  · cases h
  · cases h

/-- A `Punct` asks for an element or for what follows: `Punct<word, num>` before `x` on `a 1 1 x`. -/
example : (match (Parser.new [97, 32, 49, 32, 49, 32, 120] [.token ⟨⟨0, 1⟩, 0⟩, .token ⟨⟨2, 3⟩, 1⟩, .token ⟨⟨4, 5⟩, 1⟩,
      .token ⟨⟨6, 7⟩, 2⟩]).parse (fun _ => false) exS 40 (.tup2 (.punct exWord exNum) (.term 2 ⟨2, none⟩)) with
    | .ok _ p' => p'.info.errors.map fun e => (e.span, match e.kind with
      | .expecting s => some (s.contains (some ⟨0, []⟩), s.contains (some ⟨1, []⟩), s.contains (some ⟨2, []⟩),
        s.contains none)
      | _ => none)
    | _ => []) = [(⟨4, 5⟩, some (true, false, true, false))] := by rfl

/-- `enum E { A(Recover<word, x>), B(Option<num>) }` -/
def wxS : Schema 1 4 := fun _ =>
  .enum (.recover (.term 0 ⟨0, none⟩) (.term 2 ⟨2, none⟩), none) [(.option (.term 1 ⟨1, none⟩), none)]
def wxT : Ty 1 4 := .recover (.term 3 ⟨3, none⟩) (.user 0)
def wxP : Parser 4 := Parser.new [121, 32, 97] [.token ⟨⟨0, 1⟩, 3⟩, .token ⟨⟨2, 3⟩, 0⟩]

theorem wx_end (ts rest : List (Token 4)) (h1 : ([⟨⟨0, 1⟩, 3⟩, ⟨⟨2, 3⟩, 0⟩] : List (Token 4)) = ts ++ rest)
    (h2 : 3 = startOf [121, 32, 97] rest) : rest = [] := by
  match ts, h1 with
  | [], h1 => rw [← show _ = rest from h1] at h2; cases h2
  | [a], h1 =>
    simp at h1
    rw [← h1.2] at h2; cases h2
  | [a, b], h1 => simp at h1; exact h1.2.2
  | a :: b :: c :: l, h1 => simp at h1

/-- C62 at the end of input is false: `Recover<y, E>` on `y a` records that something out of a set is expected
at the end of input, and the set contains the end of input. -/
theorem C62_false : ItemsWF [121, 32, 97] ([.token ⟨⟨0, 1⟩, 3⟩, .token ⟨⟨2, 3⟩, 0⟩] : List (Item 4)) ∧
    ∃ x p' e s, wxP.parse (fun _ => false) wxS 30 wxT = .ok (.ok (some x)) p' ∧ p'.info.errors = [e] ∧
      e.kind = .expecting s ∧ s.contains none = true ∧
      ∀ ts rest, (wxP.view fun _ => false).rest = ts ++ rest → e.span.lo = startOf [121, 32, 97] rest →
        s.contains (rest.head?.map (·.word [121, 32, 97])) = true := by
  refine ⟨by unfold ItemsWF; decide, _, _, _, _, by rfl, by rfl, by rfl, by decide, ?_⟩
  intro ts rest h1 h2
  rw [wx_end ts rest h1 h2]
  decide

end Teleparse

import Verif.Proof.Yields
/-
What producing a literal does when the literal is next, and when it fails.
-/
namespace Teleparse
variable {m n : Nat}

section term
variable {S : Schema m n} {md : Metadata (PId m n) n}

theorem term_taken {v : View n} {i : Nat} {k : Terminal n} {lit : Str} (hlit : k.lit = some lit)
    (hget : ∀ t ∈ v.rest.head?, (t.span.get? v.source).isSome = true) {t : Token n} {l : List (Token n)}
    (hr : v.rest = t :: l) (hm : v.look = some ⟨k.ty, lit⟩) (fuel : Nat) :
    produce View.ops S md (fuel + 1) (.term i k) v = .ok (.success (.tok t)) v.skip := by
  unfold produce produceStep produceTerm
  simp only [hlit]
  obtain ⟨s, hs⟩ := Option.isSome_iff_exists.1 (hget t (by simp [hr]))
  have hl : v.look = some ⟨t.ty, s⟩ := by simp [View.look, hr, Token.toSrc, Token.src, Span.get, hs]
  rw [hl] at hm
  injection hm with hm
  injection hm with h1 h2
  rw [bind_ok]
  refine ⟨.success t, v.skip, ?_, rfl⟩
  unfold Ops.parseTokenLit
  rw [bind_ok]
  refine ⟨some t, v, by simp [mPeek_ok, hr], ?_⟩
  simp only
  rw [bind_ok]
  refine ⟨s, v, mGetSrc_ok.2 ⟨hs, rfl⟩, ?_⟩
  rw [if_pos ⟨h1, h2⟩, bind_ok]
  exact ⟨_, _, mConsume_ok.2 ⟨rfl, rfl⟩, rfl⟩

theorem term_fails {v : View n} {i : Nat} {k : Terminal n} {lit : Str} (hlit : k.lit = some lit)
    (hget : ∀ t ∈ v.rest.head?, (t.span.get? v.source).isSome = true) (hmiss : v.look ≠ some ⟨k.ty, lit⟩)
    (hfol : (md.follow.get (.term i k)).contains v.look = false) (fuel : Nat) :
    produce View.ops S md (fuel + 1) (.term i k) v = .ok (.panic [⟨v.cur, if v.look = none then .unexpectedEof else
      .expecting (TSet.one k.ty (some lit))⟩]) v := by
  unfold produce produceStep produceTerm
  simp only [hlit]
  cases hr : v.rest with
  | nil =>
    have hl : v.look = none := by simp [View.look, hr]
    rw [hl] at hfol
    rw [bind_ok, if_pos hl]
    refine ⟨.panic [⟨v.cur, .unexpectedEof⟩], v, ?_, rfl⟩
    unfold Ops.parseTokenLit
    rw [bind_ok]
    refine ⟨none, v, by simp [mPeek_ok, hr], ?_⟩
    simp only
    rw [if_neg (by rw [show (md.follow.get (.term i k)).containsE = false from hfol]; simp), bind_ok]
    refine ⟨⟨v.cur, .unexpectedEof⟩, v, ?_, rfl⟩
    unfold Ops.mUnexpectedEof
    rw [bind_ok]
    exact ⟨v.cur, v, by simp [mCurrentSpan_ok], rfl⟩
  | cons t l =>
    obtain ⟨s, hs⟩ := Option.isSome_iff_exists.1 (hget t (by simp [hr]))
    have hl : v.look = some ⟨t.ty, s⟩ := by simp [View.look, hr, Token.toSrc, Token.src, Span.get, hs]
    rw [hl] at hfol hmiss
    rw [bind_ok, if_neg (by rw [hl]; simp)]
    refine ⟨.panic [⟨v.cur, .expecting (TSet.one k.ty (some lit))⟩], v, ?_, rfl⟩
    unfold Ops.parseTokenLit
    rw [bind_ok]
    refine ⟨some t, v, by simp [mPeek_ok, hr], ?_⟩
    simp only
    rw [bind_ok]
    refine ⟨s, v, mGetSrc_ok.2 ⟨hs, rfl⟩, ?_⟩
    rw [if_neg (by rintro ⟨h1, h2⟩; exact hmiss (by rw [h1, h2])), if_neg (by rw [hfol]; simp), bind_ok]
    exact ⟨_, v, mExpecting_ok.2 ⟨rfl, rfl⟩, rfl⟩

end term

end Teleparse

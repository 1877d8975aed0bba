import Verif.Proof.Literal
import Verif.Props.Delimited
import Verif.Props.RepairEnum
/-
Property C127: with exact tables, recovery follows the grammar.
-/
namespace Teleparse
variable {m n : Nat}

/-! ## C127: recovery with exact tables -/

/-- A literal: the next token is taken if it is the literal; otherwise the literal is put in, with one error, exactly
if the next token (or the end of the input) can follow it in a sentential form of the root; otherwise it fails, with
one error. -/
theorem C127_literal (ext : Fin n → Bool) (source : Str) (items : List (Item n)) (hw : ItemsWF source items)
    (S : Schema m n) (root : Ty m n) (fuel : Nat) (md : Metadata (PId m n) n)
    (hmd : S.exactMetadata fuel root = some (.ok md)) (G : Grammar (PId m n) n) (hG : S.IsGrammar root G)
    (i : Nat) (k : Terminal n) (lit : Str) (hlit : k.lit = some lit) (p : Parser n) (hp : Reached ext source items p) :
    ∃ r p', Yields ext S md (.term i k) p r p' ∧
      ((p.lookahead ext = some ⟨k.ty, lit⟩ ∧ ∃ t l, (p.view ext).rest = t :: l ∧ r = .success (.tok t) ∧
          (p'.view ext).rest = l ∧ (p'.view ext).cells.map (·.token) = (p.view ext).cells.map (·.token) ++ [t]) ∨
       (p.lookahead ext ≠ some ⟨k.ty, lit⟩ ∧ FollowOf G root.pid (.term i k) (p.lookahead ext) ∧
          ∃ x, r = .recovered (.tok x) [⟨p.nextSpan ext, .expecting (TSet.one k.ty (some lit))⟩] ∧
            x.ty = k.ty ∧ x.span.lo = x.span.hi ∧ p'.view ext = p.view ext) ∨
       (p.lookahead ext ≠ some ⟨k.ty, lit⟩ ∧ ¬ FollowOf G root.pid (.term i k) (p.lookahead ext) ∧
          r = .panic [⟨p.nextSpan ext, if p.lookahead ext = none then .unexpectedEof else
            .expecting (TSet.one k.ty (some lit))⟩] ∧ p'.view ext = p.view ext)) := by
  obtain ⟨md0, h0, rfl⟩ := exactMetadata_ok hmd
  have hfol := fixedMetadata_follow h0 hG (.term i k) (p.lookahead ext)
  have hget := hp.getHead hw
  have hlook := hp.look hw
  by_cases hm : p.lookahead ext = some ⟨k.ty, lit⟩
  · rw [← hlook] at hm
    cases hr : (p.view ext).rest with
    | nil => unfold View.look at hm; rw [hr] at hm; cases hm
    | cons t l =>
      obtain ⟨p', h1, h2⟩ := yields_of_view (term_taken (S := S) (md := md0.withDefault) (i := i) hlit hget hr hm 0)
      refine ⟨_, p', h1, .inl ⟨by rw [← hlook]; exact hm, t, l, rfl, rfl, ?_, ?_⟩⟩
      · rw [h2]; simp [View.skip, View.consume, hr]
      · rw [h2]; simp [View.skip, View.consume, hr, TokenVec.push, Cell.ofToken]
  · by_cases hf : FollowOf G root.pid (.term i k) (p.lookahead ext)
    · obtain ⟨x, p', h1, h2, h3, h4⟩ := C53_repair ext source items hw S md0.withDefault i k lit hlit p hp hm (hfol.2 hf)
      exact ⟨_, p', h1, .inr (.inl ⟨hm, hf, x, rfl, h2, h3, h4⟩)⟩
    · obtain ⟨p', h1, h2⟩ := yields_of_view (term_fails (S := S) (md := md0.withDefault) (i := i) hlit hget
        (by rw [hlook]; exact hm)
        (by rw [hlook]; exact Bool.eq_false_iff.2 fun h => hf (hfol.1 h)) 0)
      rw [← nextSpan_eq, hlook] at h1
      exact ⟨_, p', h1, .inr (.inr ⟨hm, hf, rfl, h2⟩)⟩

/-- `Split`: what is described in `C72_split`, where the tokens at which it gives up are exactly those that can
follow the list in the grammar. -/
theorem C127_split {S : Schema m n} {fuel : Nat} {root : Ty m n} {md : Metadata (PId m n) n}
    {G : Grammar (PId m n) n} (hmd : S.exactMetadata fuel root = some (.ok md)) (hG : S.IsGrammar root G)
    (t p : Ty m n) (ext : Fin n → Bool) (source : Str) (items : List (Item n)) (hw : ItemsWF source items)
    (q q' : Parser n) (hq : Reached ext source items q) (r : Res n (Tree n)) (hy : Yields ext S md (.split t p) q r q') :
    (∃ e, r = .panic e ∧ On S md t (q.view ext) (.panic e) (q'.view ext)) ∨
    ∃ r0 x v1 steps, On S md t (q.view ext) r0 v1 ∧ r0.tree? = some x ∧
      DelimSteps S md G p (SplitGap S md G t p fun w => FollowOf G root.pid (Ty.split t p).pid (some w)) v1 steps
        (q'.view ext) ∧
      r = splitResult x r0.errs steps ∧ SkipsCovered steps r.errs ∧ MissesReported steps (q'.view ext) := by
  obtain ⟨md0, h0, rfl⟩ := exactMetadata_ok hmd
  exact delim_split (md := md0.withDefault) t p (Tables.of_fixed h0 hG).first (fun w => fixedMetadata_follow h0 hG _ _) ext source items hw q q'
    hq r hy

/-- The same for `Punct`. -/
theorem C127_punct {S : Schema m n} {fuel : Nat} {root : Ty m n} {md : Metadata (PId m n) n}
    {G : Grammar (PId m n) n} (hmd : S.exactMetadata fuel root = some (.ok md)) (hG : S.IsGrammar root G)
    (t p : Ty m n) (ext : Fin n → Bool) (source : Str) (items : List (Item n)) (hw : ItemsWF source items)
    (q q' : Parser n) (hq : Reached ext source items q) (r : Res n (Tree n)) (hy : Yields ext S md (.punct t p) q r q') :
    (∃ e, r = .panic e ∧ On S md t (q.view ext) (.panic e) (q'.view ext)) ∨
    ∃ r0 x v1 steps, On S md t (q.view ext) r0 v1 ∧ r0.tree? = some x ∧
      DelimSteps S md G p (PunctGap S md G t p fun w => FollowOf G root.pid (Ty.punct t p).pid (some w)) v1 steps
        (q'.view ext) ∧
      r = punctResult x r0.errs steps ∧ SkipsCovered steps r.errs ∧ MissesReported steps (q'.view ext) := by
  obtain ⟨md0, h0, rfl⟩ := exactMetadata_ok hmd
  exact delim_punct (md := md0.withDefault) t p (Tables.of_fixed h0 hG).first (fun w => fixedMetadata_follow h0 hG _ _) ext source items hw q q'
    hq r hy

/-! ### Examples -/

def fxE : Metadata (PId 0 3) 3 := okOf ⟨[], [], []⟩ (exS.exactMetadata 30 fxT)
def dfE : Metadata (PId 0 3) 3 := okOf ⟨[], [], []⟩ (exS.exactMetadata 30 dfT)

/-- The witness of `C53_false`, `"x" number? word` on `a`, is now repaired. -/
example : exS.exactMetadata 30 fxT = some (.ok fxE) ∧ exS.IsGrammar fxT fxG ∧
    Reached (fun _ => false) [97] [.token ⟨⟨0, 1⟩, 0⟩] fxP ∧
    FollowOf fxG fxT.pid fxX.pid (fxP.lookahead (fun _ => false)) ∧
    ∃ p', Yields (fun _ => false) exS fxE fxT fxP (.recovered (.seq ⟨0, 1⟩ [.tok ⟨⟨0, 0⟩, 2⟩, .optNone ⟨0, 0⟩,
      .tok ⟨⟨0, 1⟩, 0⟩]) [⟨⟨0, 1⟩, .expecting (TSet.one 2 (some [120]))⟩]) p' :=
  ⟨by rfl, fxG_ok, .new, C53_false.2.2.1, _, 10, by rfl⟩

/-- The witness of `C72_follow_false`, `(Split<word, "x">, num?, "y")` on `a x y`: the list now stops at the `y`, which
is then found. -/
example : exS.exactMetadata 30 dfT = some (.ok dfE) ∧ exS.IsGrammar dfT dfG ∧ ItemsWF dfSource dfItems ∧
    (∃ r p', Yields noExt exS dfE dfL (Parser.new dfSource dfItems) r p' ∧ p'.lookahead noExt = some ⟨2, [121]⟩) ∧
    ∃ x e p', Yields noExt exS dfE dfT (Parser.new dfSource dfItems) (.recovered x e) p' ∧
      e.map (·.span) = [⟨4, 5⟩] :=
  ⟨by rfl, .of_register (fuel := 30) rfl, by unfold ItemsWF dfItems dfSource; decide,
    ⟨_, _, ⟨20, by rfl⟩, by rfl⟩, ⟨_, _, _, ⟨20, by rfl⟩, by rfl⟩⟩

def dpE : Metadata (PId 0 3) 3 := okOf ⟨[], [], []⟩ (exS.exactMetadata 30 dpT)

/-- `Punct<word, "x">` on `a x 1 1 x b x`. -/
example : exS.exactMetadata 30 dpT = some (.ok dpE) ∧ exS.IsGrammar dpT dpG ∧ ItemsWF dpSource dpItems ∧
    ∃ x e p', Yields noExt exS dpE dpT (Parser.new dpSource dpItems) (.recovered x e) p' ∧
      e.map (·.span) = [⟨4, 9⟩] :=
  ⟨by rfl, .of_register (fuel := 30) rfl, by unfold ItemsWF dpItems dpSource; decide, _, _, _, ⟨20, by rfl⟩, by rfl⟩

end Teleparse

import Verif.Spec.Marking
import Verif.Proof.CostAll
import Verif.Proof.TokenCost
import Verif.Proof.Parser
/-
The looks of `apply_semantic` are bounded by the number of its calls times the size of the store.
-/
namespace Teleparse
variable {m n : Nat} {σ : Type}

theorem log2_mono {a b : Nat} (h : a ≤ b) : a.log2 ≤ b.log2 := by
  by_cases ha : a = 0
  · subst ha; simp
  · exact (Nat.le_log2 (by omega)).2 (Nat.le_trans (Nat.log2_self_le ha) h)

/-- What one call may look at in a store of `N` tokens. -/
def markBound (N : Nat) : Nat := N + 2 * N.log2 + 4

theorem markBound_mono {a b : Nat} (h : a ≤ b) : markBound a ≤ markBound b := by
  have := log2_mono h
  unfold markBound
  omega

theorem TokenVec.applySemanticInsideT_le (v : TokenVec n) (sp : Span) (s : LSet n) :
    (v.applySemanticInsideT sp s).looks ≤ markBound v.length := by
  obtain ⟨h1, h2⟩ := v.insideBoundsT_spec sp
  simp only [TokenVec.applySemanticInsideT, Tally.bind_snd, h1]
  unfold markBound
  rcases v.insideBounds sp with _ | ⟨lo, hi⟩
  · simp only [Tally.pure_snd]; omega
  · obtain ⟨-, h4⟩ := TokenVec.applySemanticT_spec s ((v.drop lo).take (hi - lo))
    have : ((v.drop lo).take (hi - lo)).length ≤ v.length :=
      Nat.le_trans (List.length_take_le' _ _) (by rw [List.length_drop]; omega)
    simp only [Tally.bind_snd, Tally.pure_snd, h4]
    omega

theorem TokenVec.applySemanticInsideT_ge (v : TokenVec n) (sp : Span) (s : LSet n) {lo hi : Nat}
    (h : v.insideBounds sp = some (lo, hi)) :
    ((v.drop lo).take (hi - lo)).length ≤ (v.applySemanticInsideT sp s).looks := by
  obtain ⟨h1, -⟩ := v.insideBoundsT_spec sp
  simp only [TokenVec.applySemanticInsideT, Tally.bind_snd, h1, h]
  obtain ⟨-, h4⟩ := TokenVec.applySemanticT_spec s ((v.drop lo).take (hi - lo))
  simp only [Tally.pure_snd, h4]
  omega

theorem applySemanticInside_length (v : TokenVec n) (sp : Span) (sem : LSet n) :
    (v.applySemanticInside sp sem).length = v.length := by
  have := congrArg List.length (applySemanticInside_tokens v sp sem fun lo hi h => by
    rw [TokenVec.insideBounds_eq] at h
    split at h
    · cases h; omega
    · cases h)
  simpa using this

/-- Counting does not change what is produced. -/
theorem unmark_closed (o : Ops σ n) (cells : σ → TokenVec n) :
    Closed 0 (fun {α} (x : M (σ × Nat) α) (y : M σ α) => ∀ s k, y s = (x (s, k)).mapState Prod.fst) (o.marked cells) o where
  pure a s k := rfl
  bind {α β x y f g} hx hf s k := by
    show M.bind y g s = (M.bind x f (s, k)).mapState Prod.fst
    unfold M.bind
    rw [hx s k]
    cases x (s, k) with
    | fuel => rfl
    | crash => rfl
    | ok a s' => exact hf a s'.1 s'.2
  fuel y hy s k := by rw [hy rfl]; rfl
  crash s k := rfl
  peek s k := rfl
  consume s k := rfl
  source s k := rfl
  emptySpan s k := rfl
  apply sp sem s k := rfl

/-- The outcomes agree and the looks are bounded. -/
def MarksIn {α : Type} : Out (View n × Nat) α → Out (View n × Nat) α → Prop
  | .ok a s, .ok b s' => a = b ∧ s.1 = s'.1 ∧ s'.2 ≤ s.2 * markBound s.1.cells.length
  | .fuel, .fuel => True
  | .crash, .crash => True
  | _, _ => False

theorem within_closed :
    Closed 0 (fun {α} (x y : M (View n × Nat) α) => ∀ v k l, l ≤ k * markBound v.cells.length →
      MarksIn (x (v, k)) (y (v, l))) (View.ops (n := n)).counted ((View.ops (n := n)).marked View.cells) where
  pure a v k l h := ⟨rfl, rfl, h⟩
  bind {α β x y f g} hx hf v k l h := by
    show MarksIn (M.bind x f (v, k)) (M.bind y g (v, l))
    unfold M.bind
    have := hx v k l h
    cases hxe : x (v, k) with
    | fuel =>
      rw [hxe] at this
      cases hye : y (v, l) with
      | fuel => exact trivial
      | crash => rw [hye] at this; exact this.elim
      | ok b s' => rw [hye] at this; exact this.elim
    | crash =>
      rw [hxe] at this
      cases hye : y (v, l) with
      | crash => exact trivial
      | fuel => rw [hye] at this; exact this.elim
      | ok b s' => rw [hye] at this; exact this.elim
    | ok a s =>
      rw [hxe] at this
      cases hye : y (v, l) with
      | crash => rw [hye] at this; exact this.elim
      | fuel => rw [hye] at this; exact this.elim
      | ok b s' =>
        rw [hye] at this
        obtain ⟨v', k'⟩ := s
        obtain ⟨w', l'⟩ := s'
        obtain ⟨h0, h1, h2⟩ := this
        cases h0
        cases h1
        exact hf a v' k' l' h2
  fuel y hy v k l h := by rw [hy rfl]; exact trivial
  crash v k l h := trivial
  peek v k l h := ⟨rfl, rfl, Nat.le_trans h (Nat.mul_le_mul_right _ (Nat.le_succ _))⟩
  consume v k l h := by
    refine ⟨rfl, rfl, Nat.le_trans h (Nat.mul_le_mul (Nat.le_succ _) (markBound_mono ?_))⟩
    show v.cells.length ≤ v.consume.2.cells.length
    unfold View.consume
    split
    · exact Nat.le_refl _
    · simp [TokenVec.push]
  source v k l h := ⟨rfl, rfl, h⟩
  emptySpan v k l h := ⟨rfl, rfl, h⟩
  apply sp sem v k l h := by
    refine ⟨rfl, rfl, ?_⟩
    show l + (v.cells.applySemanticInsideT sp sem).looks ≤
      (k + 1) * markBound (v.cells.applySemanticInside sp sem).length
    rw [applySemanticInside_length, Nat.add_mul, Nat.one_mul]
    have := v.cells.applySemanticInsideT_le sp sem
    omega

theorem marked_view_closed (ext : Fin n → Bool) :
    Closed 0 (fun {α} (x : M (Parser n × Nat) α) (y : M (View n × Nat) α) =>
      ∀ p k, y (p.view ext, k) = (x (p, k)).mapState fun s => (s.1.view ext, s.2))
      (Parser.opsMarked ext) ((View.ops (n := n)).marked View.cells) where
  pure a p k := rfl
  bind {α β x y f g} hx hf p k := by
    show M.bind y g (p.view ext, k) = (M.bind x f (p, k)).mapState _
    unfold M.bind
    rw [hx p k]
    cases x (p, k) with
    | fuel => rfl
    | crash => rfl
    | ok a s => exact hf a s.1 s.2
  fuel y hy p k := by rw [hy rfl]; rfl
  crash p k := rfl
  peek p k := by
    have := view_fill ext p
    simp [Ops.mPeek, Ops.marked, Parser.opsMarked, Parser.ops, View.ops, Parser.peek, Out.mapState, this]
  consume p k := by
    have := view_consume ext p
    simp [Ops.mConsume, Ops.marked, Parser.opsMarked, Parser.ops, View.ops, Out.mapState, this]
  source p k := rfl
  emptySpan p k := rfl
  apply sp sem p k := rfl

end Teleparse

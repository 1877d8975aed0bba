import Verif.Proof.LeftCycle
import Verif.Proof.Sentence
import Verif.Proof.Universe
import Verif.Proof.Accept
import Verif.Spec.Plain
/-
Deciding side conditions for concrete grammars. Used for examples and for C98.
-/
namespace Teleparse
variable {n : Nat}

section
variable {I : Type} {G : Grammar I n}

theorem Der.words {l : List I} (h : ∀ j ∈ l, ∃ w, Der G j w) : ∃ ws, DerAll G l ws := by
  induction l with
  | nil => exact ⟨[], .nil⟩
  | cons j l ih =>
    obtain ⟨w, hw⟩ := h j (by simp)
    obtain ⟨ws, hws⟩ := ih fun k hk => h k (by simp [hk])
    exact ⟨w :: ws, .cons hw hws⟩

theorem Prd.productive {i : I} (h : Prd G i) : Productive G i := by
  induction h with
  | eps hm => exact ⟨[], Der.eps hm⟩
  | @term i t hm =>
    cases hl : t.lit with
    | none => exact ⟨[⟨t.ty, []⟩], Der.term hm ⟨rfl, by simp [hl]⟩⟩
    | some l => exact ⟨[⟨t.ty, l⟩], Der.term hm ⟨rfl, by simp [hl]⟩⟩
  | seq hm _ ih =>
    obtain ⟨ws, hws⟩ := Der.words ih
    exact ⟨_, Der.seq hm hws⟩
  | alt hm hj _ ih =>
    obtain ⟨w, hw⟩ := ih
    exact ⟨w, Der.alt hm hj hw⟩

variable [DecidableEq I]

theorem prodIter_prd : ∀ (k : Nat) (i : I), i ∈ prodIter G k → Prd G i := by
  intro k
  induction k with
  | zero => intro i h; cases h
  | succ k ih =>
    intro i h
    obtain ⟨p, hp, rfl⟩ := List.mem_map.1 h
    obtain ⟨hm, hc⟩ := List.mem_filter.1 hp
    obtain ⟨i, r⟩ := p
    cases r with
    | eps => exact .eps hm
    | term t => exact .term hm
    | seq l =>
      refine .seq hm fun j hj => ih j ?_
      exact List.elem_iff.1 (List.all_eq_true.1 hc j hj)
    | alt l =>
      obtain ⟨j, hj, hc⟩ := List.any_eq_true.1 hc
      exact .alt hm hj (ih j (List.elem_iff.1 hc))

end

variable {m : Nat} {S : Schema m n} {root : Ty m n} {G : Grammar (PId m n) n}

theorem IsGrammar.keys (hG : S.IsGrammar root G) {i : PId m n} (h : Reachable G root.pid i) :
    i ∈ G.map (·.1) := List.mem_map.2 ⟨_, IsGrammar.mem hG ((reach_iff_schema hG i).1 h), rfl⟩

/-- All reachable productions are productive if iteration finds all productions. -/
theorem productive_of_check (hG : S.IsGrammar root G) (k : Nat)
    (h : (G.map (·.1)).all (fun i => (prodIter G k).contains i) = true) (i : PId m n)
    (hi : Reachable G root.pid i) : Productive G i :=
  (prodIter_prd k i (List.elem_iff.1 (List.all_eq_true.1 h i (IsGrammar.keys hG hi)))).productive

def interiors : Rule (PId m n) n → List (PId m n)
  | .seq l => l.tail.dropLast
  | _ => []

/-- No interior part of a sequence is nullable if none has the empty sequence in its FIRST set. -/
theorem noInterior_of_check {fuel : Nat} {md : Metadata (PId m n) n} (h : S.metadata fuel root = some (.ok md))
    (hG : S.IsGrammar root G)
    (hc : G.all (fun p => (interiors p.2).all fun y => !(md.first.get y).contains none) = true) :
    NoNullableInterior G := by
  intro x pre y post hm h1 h2 hn
  have h3 := (metadata_first h hG y none).2 hn
  have h4 := List.all_eq_true.1 (List.all_eq_true.1 hc _ hm) y (by
    cases pre with
    | nil => exact absurd rfl h1
    | cons a pre =>
      show y ∈ (pre ++ y :: post).dropLast
      rw [List.dropLast_append_of_ne_nil (by simp)]
      cases post with
      | nil => exact absurd rfl h2
      | cons b post => simp)
  rw [h3] at h4
  cases h4

def Ty.isLoop : Ty m n → Bool
  | .loop _ => true
  | _ => false

/-- All types in `t` are in a list closed under parts. -/
theorem reach_of_check {t u : Ty m n} (U : List (Ty m n)) (ht : t ∈ U)
    (hU : U.all (fun a => (S.tyParts a).all fun b => decide (b ∈ U)) = true) (h : Reach S.tyParts t u) : u ∈ U := by
  induction h with
  | refl => exact ht
  | step _ hj ih => exact of_decide_eq_true (List.all_eq_true.1 (List.all_eq_true.1 hU _ ih) _ hj)

theorem loopFree_of_check {t : Ty m n} (U : List (Ty m n)) (ht : t ∈ U)
    (hU : U.all (fun a => (S.tyParts a).all fun b => decide (b ∈ U)) = true)
    (hl : U.all (fun a => !a.isLoop) = true) : LoopFree S t := by
  intro u hu a he
  have := List.all_eq_true.1 hl _ (reach_of_check U ht hU hu)
  rw [he] at this
  cases this

theorem tailsOf_mem {nul : PId m n → Bool} {y : PId m n} {post : List (PId m n)} (hp : ∀ k ∈ post, nul k = true) :
    ∀ pre, y ∈ tailsOf nul (pre ++ y :: post) := by
  intro pre
  induction pre with
  | nil =>
    have : post.all nul = true := List.all_eq_true.2 hp
    simp [tailsOf, this]
  | cons a pre ih =>
    simp only [List.cons_append, tailsOf]
    split
    · exact List.mem_cons_of_mem _ ih
    · exact ih

def tailIter (G : Grammar (PId m n) n) (nul : PId m n → Bool) (a : PId m n) : Nat → List (PId m n)
  | 0 => [a]
  | k + 1 => tailIter G nul a k ++ tailStep G nul (tailIter G nul a k)

theorem tail_of_check {nul : PId m n → Bool} (hnul : ∀ i, Null G i → nul i = true) {s : List (PId m n)}
    (hc : (tailStep G nul s).all (fun i => s.contains i) = true) {a i : PId m n} (ha : a ∈ s) (h : TailOf G a i) :
    i ∈ s := by
  have hstep : ∀ i, i ∈ tailStep G nul s → i ∈ s := fun i hi => List.elem_iff.1 (List.all_eq_true.1 hc i hi)
  induction h with
  | refl => exact ha
  | alt _ hm hy ih =>
    refine hstep _ (List.mem_flatMap.2 ⟨_, hm, ?_⟩)
    rw [if_pos (List.elem_iff.2 ih)]
    exact hy
  | tail _ hm hn ih =>
    refine hstep _ (List.mem_flatMap.2 ⟨_, hm, ?_⟩)
    rw [if_pos (List.elem_iff.2 ih)]
    exact tailsOf_mem (fun k hk => hnul k (hn k hk)) _

/-- The parts of a sequence before a nullable part that is not the last one. -/
def skippers (nul : PId m n → Bool) : List (PId m n) → List (PId m n)
  | a :: k :: l => if nul k && !l.isEmpty then a :: skippers nul (k :: l) else skippers nul (k :: l)
  | _ => []

theorem skippers_mem {nul : PId m n → Bool} {a k : PId m n} {l : List (PId m n)} (hk : nul k = true) (hl : l ≠ []) :
    ∀ pre, a ∈ skippers nul (pre ++ a :: k :: l) := by
  intro pre
  induction pre with
  | nil => simp [skippers, hk, hl]
  | cons b pre ih =>
    cases pre with
    | nil =>
      simp only [List.cons_append, List.nil_append, skippers] at ih ⊢
      split
      · exact List.mem_cons_of_mem _ ih
      · exact ih
    | cons d pre =>
      simp only [List.cons_append, skippers] at ih ⊢
      split
      · exact List.mem_cons_of_mem _ ih
      · exact ih

/-- No part before an interior nullable part ends with a choice that has a nullable alternative. -/
def skipCheck (G : Grammar (PId m n) n) (nul : PId m n → Bool) (k : Nat) : Bool :=
  G.all fun p => (skippers nul (seqOf p.2)).all fun a =>
    (tailStep G nul (tailIter G nul a k)).all (fun i => (tailIter G nul a k).contains i) &&
      G.all fun q => !(tailIter G nul a k).contains q.1 || (altOf q.2).all fun j => !nul j

theorem mem_tailIter {nul : PId m n → Bool} {a : PId m n} : ∀ k, a ∈ tailIter G nul a k
  | 0 => List.mem_cons_self
  | k + 1 => List.mem_append_left _ (mem_tailIter k)

theorem skipSafe_of_check {fuel : Nat} {md : Metadata (PId m n) n} (h : S.metadata fuel root = some (.ok md))
    (hG : S.IsGrammar root G) (k : Nat) (hc : skipCheck G (fun i => (md.first.get i).contains none) k = true) :
    SkipSafe G := by
  have hnul : ∀ i, Null G i → (md.first.get i).contains none = true :=
    fun i hi => (metadata_first h hG i none).2 hi.nullable
  intro a i l p q s t tok he hm hpq hp hq hn hf hs
  obtain ⟨x, pre, mid, b, post, hx, hne, hmid, _⟩ := hs
  cases mid with
  | nil => exact hne rfl
  | cons c mid =>
    have h1 := List.all_eq_true.1 (List.all_eq_true.1 hc _ hx) a
      (skippers_mem (hnul c (nullable_iff.1 (hmid c (by simp)))) (by simp) pre)
    rw [Bool.and_eq_true] at h1
    have h2 := tail_of_check hnul h1.1 (mem_tailIter k) he.tailOf
    have h3 := List.all_eq_true.1 h1.2 _ hm
    have h5 : (tailIter G (fun i => (md.first.get i).contains none) a k).contains
        ((i, Rule.alt l) : PId m n × Rule (PId m n) n).1 = true := List.contains_iff_mem.2 h2
    rw [h5] at h3
    have h4 := List.all_eq_true.1 h3 s (List.mem_iff_getElem?.2 ⟨p, hp⟩)
    dsimp only at h4
    rw [hnul s (nullable_iff.1 hn)] at h4
    cases h4

end Teleparse

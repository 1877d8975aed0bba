import Verif.Proof.CompleteLoop
import Verif.Proof.Trees
import Verif.Proof.Unique
import Verif.Proof.Check
/-
Completeness and uniqueness for whole inputs: from streams to parsers, and from token texts to tokens.
-/
namespace Teleparse
variable {m n : Nat} {S : Schema m n} {root : Ty m n} {G : Grammar (PId m n) n} {md : Metadata (PId m n) n}

theorem metadata_more {fuel fuel' : Nat} (h : S.metadata fuel root = some (.ok md)) (hle : fuel ≤ fuel') :
    S.metadata fuel' root = some (.ok md) := by
  obtain ⟨G', _, h1, h2⟩ := metadata_build h
  unfold Schema.metadata buildFor
  rw [registerFrom_mono hle h1]
  exact build_mono hle h2

theorem metadata_any {fuel fuel' : Nat} {r : Except (GErr (PId m n)) (Metadata (PId m n) n)}
    (h : S.metadata fuel root = some r) (hle : fuel ≤ fuel') : S.metadata fuel' root = some r := by
  unfold Schema.metadata buildFor at h ⊢
  split at h
  · cases h
  · next G hG =>
    rw [registerFrom_mono hle hG]
    exact build_mono hle h

/-! ### Parts of types are parts of productions -/

theorem reach_part {t u : Ty m n} (h : u ∈ S.tyParts t) : Reach (fun i => (S.rule i).parts) t.pid u.pid := by
  have one : ∀ {i j : PId m n}, j ∈ (S.rule i).parts → Reach (fun i => (S.rule i).parts) i j :=
    fun h => .step .refl h
  cases t with
  | term => cases h
  | user k =>
    refine one ?_
    simp only [Schema.tyParts] at h
    simp only [Ty.pid, Ty.prod, PId.id, Schema.rule]
    cases hk : S k with
    | struct f fs =>
      rw [hk] at h
      obtain ⟨g, hg, rfl⟩ := List.mem_map.1 h
      exact List.mem_map.2 ⟨g, hg, rfl⟩
    | enum f fs =>
      rw [hk] at h
      obtain ⟨g, hg, rfl⟩ := List.mem_map.1 h
      exact List.mem_map.2 ⟨g, hg, rfl⟩
  | box t => rw [List.mem_singleton.1 h]; exact .refl
  | quote t => rw [List.mem_singleton.1 h]; exact .refl
  | parse t => rw [List.mem_singleton.1 h]; exact .refl
  | option t => rw [List.mem_singleton.1 h]; exact one (by simp [Ty.pid, Ty.prod, PId.id, Schema.rule, Rule.parts])
  | exist t => rw [List.mem_singleton.1 h]; exact one (by simp [Ty.pid, Ty.prod, PId.id, Schema.rule, Rule.parts])
  | plus t => rw [List.mem_singleton.1 h]; exact one (by simp [Ty.pid, Ty.prod, PId.id, Schema.rule, Rule.parts])
  | star t => rw [List.mem_singleton.1 h]; exact one (by simp [Ty.pid, Ty.prod, PId.id, Schema.rule, Rule.parts])
  | loop t => rw [List.mem_singleton.1 h]; exact one (by simp [Ty.pid, Ty.prod, PId.id, Schema.rule, Rule.parts])
  | split t p =>
    simp only [Schema.tyParts, List.mem_cons, List.not_mem_nil, or_false] at h
    rcases h with rfl | rfl
    · exact one (by simp [Ty.pid, Ty.prod, PId.id, Schema.rule, Rule.parts])
    · have h1 : Reach (fun i => (S.rule i).parts) (Ty.split t u).pid (.opt (.plus (.tup2 u.prod t.prod))) :=
        one (by simp [Ty.pid, Ty.prod, PId.id, Schema.rule, Rule.parts])
      have h2 := h1.trans (one (j := .plus (.tup2 u.prod t.prod)) (by simp [PId.id, Schema.rule, Rule.parts]))
      have h3 := h2.trans (one (j := .tup2 u.prod t.prod) (by simp [PId.id, Schema.rule, Rule.parts]))
      exact h3.trans (one (by simp [Ty.pid, Schema.rule, Rule.parts]))
  | punct t p =>
    simp only [Schema.tyParts, List.mem_cons, List.not_mem_nil, or_false] at h
    rcases h with rfl | rfl
    · exact one (by simp [Ty.pid, Ty.prod, PId.id, Schema.rule, Rule.parts])
    · have h1 : Reach (fun i => (S.rule i).parts) (Ty.punct t u).pid
          (.opt (.tup2 u.prod (.opt (.punct t.prod u.prod)))) :=
        one (by simp [Ty.pid, Ty.prod, PId.id, Schema.rule, Rule.parts])
      have h2 := h1.trans (one (j := .tup2 u.prod (.opt (.punct t.prod u.prod)))
        (by simp [PId.id, Schema.rule, Rule.parts]))
      exact h2.trans (one (by simp [Ty.pid, Schema.rule, Rule.parts]))
  | recover t r =>
    simp only [Schema.tyParts, List.mem_cons, List.not_mem_nil, or_false] at h
    rcases h with rfl | rfl <;> exact one (by simp [Ty.pid, Ty.prod, PId.id, Schema.rule, Rule.parts])
  | tup2 =>
    simp only [Schema.tyParts, List.mem_cons, List.not_mem_nil, or_false] at h
    rcases h with rfl | rfl <;> exact one (by simp [Ty.pid, Ty.prod, PId.id, Schema.rule, Rule.parts])
  | tup3 =>
    simp only [Schema.tyParts, List.mem_cons, List.not_mem_nil, or_false] at h
    rcases h with rfl | rfl | rfl <;> exact one (by simp [Ty.pid, Ty.prod, PId.id, Schema.rule, Rule.parts])
  | tup4 =>
    simp only [Schema.tyParts, List.mem_cons, List.not_mem_nil, or_false] at h
    rcases h with rfl | rfl | rfl | rfl <;> exact one (by simp [Ty.pid, Ty.prod, PId.id, Schema.rule, Rule.parts])
  | tup5 =>
    simp only [Schema.tyParts, List.mem_cons, List.not_mem_nil, or_false] at h
    rcases h with rfl | rfl | rfl | rfl | rfl <;>
      exact one (by simp [Ty.pid, Ty.prod, PId.id, Schema.rule, Rule.parts])

theorem reach_pid {t : Ty m n} (h : Reach S.tyParts root t) : PReach S root t.pid := by
  induction h with
  | refl => exact .refl
  | step _ hj ih => exact Reach.trans ih (reach_part hj)

theorem Within.of_reach {t : Ty m n} (h : Reach S.tyParts root t) : Within S root root t := ⟨h, reach_pid h⟩

/-! ### From streams to parsers -/

theorem DoesX.yields {t : Ty m n} {ext : Fin n → Bool} {p : Parser n} {source : Str} {x : Tree n} {w : View n}
    (hs : InSource source (p.view ext)) (h : Does S md t (p.view ext) x w) :
    ∃ p', Yields ext S md t p (.success x) p' ∧ p'.view ext = w := by
  obtain ⟨N, o, h1, h2, h3⟩ := h
  have h1 := h1 N N (Nat.le_refl _) (Nat.le_refl _)
  cases o with
  | fuel => exact absurd rfl h2
  | crash => exact absurd h1 ((produce_safe S md N t _ hs).1)
  | ok r v =>
    obtain ⟨rfl, rfl⟩ := h3 r v rfl
    exact yields_of_view h1

/-! ### From token texts to tokens -/

/-- Every sequence of token texts is the sequence of the tokens of some source. -/
theorem tokens_of_words : ∀ (w : List (TokenSrc n)) (pre : Str),
    ∃ (post : Str) (ts : List (Token n)), ts.map (·.word (pre ++ post)) = w := by
  intro w
  induction w with
  | nil => intro pre; exact ⟨[], [], rfl⟩
  | cons a w ih =>
    intro pre
    obtain ⟨post, ts, h⟩ := ih (pre ++ a.src)
    refine ⟨a.src ++ post, ⟨⟨pre.length, pre.length + a.src.length⟩, a.ty⟩ :: ts, ?_⟩
    rw [List.append_assoc] at h
    simp only [List.map_cons, h, List.cons.injEq, and_true]
    show TokenSrc.mk a.ty _ = a
    simp [textOf]

end Teleparse

import Verif.Model.RepairLeft
import Verif.Proof.Repair
import Verif.Proof.LeftCycle
/-
The search of `Model/RepairLeft.lean` finds exactly the cycles.
-/
namespace Teleparse
variable {I : Type} {n : Nat} [DecidableEq I]

/-- A path: every element is a successor of the one before. -/
def LPath (next : I → List I) (l : List I) : Prop :=
  ∀ (k : Nat) (a b : I), l[k]? = some a → l[k + 1]? = some b → b ∈ next a

/-- No infinite path begins at `i`. -/
abbrev LEnds (next : I → List I) (i : I) : Prop := _root_.Acc (fun b a => b ∈ next a) i

theorem LPath.snoc {next : I → List I} {l : List I} {t u : I} (h : LPath next (l ++ [t])) (hu : u ∈ next t) :
    LPath next (l ++ [t] ++ [u]) := by
  intro k a b ha hb
  by_cases hk : k + 1 < (l ++ [t]).length
  · rw [List.getElem?_append_left (by omega)] at ha
    rw [List.getElem?_append_left hk] at hb
    exact h k a b ha hb
  · have hlt := (List.getElem?_eq_some_iff.1 hb).1
    simp only [List.length_append, List.length_cons, List.length_nil] at hlt hk
    have hk' : k = l.length := by omega
    subst hk'
    rw [List.getElem?_append_right (by simp)] at hb
    rw [List.getElem?_append_left (by simp)] at ha
    simp at ha hb
    subst ha hb
    exact hu

/-! ### What is reported -/

structure LReported (next : I → List I) (stack : List I) (cur : I) : Prop where
  mem : cur ∈ stack
  chain : LPath next (stack ++ [cur])

theorem leftAll_error {rec : I → List I → Option (Except (GErr I) (List I))} {e : GErr I} : ∀ (l seen : List I),
    leftAll rec l seen = some (.error e) → ∃ c ∈ l, ∃ seen', rec c seen' = some (.error e)
  | [], _, h => by simp [leftAll] at h
  | c :: l, seen, h => by
    unfold leftAll at h
    split at h
    · cases h
    · rename_i e' he
      cases h
      exact ⟨c, by simp, _, he⟩
    · obtain ⟨d, hd, h⟩ := leftAll_error l _ h
      exact ⟨d, by simp [hd], h⟩

theorem leftSearch_error {next : I → List I} : ∀ (fuel : Nat) (stack : List I) (t : I) (seen : List I) (e : GErr I),
    LPath next (stack ++ [t]) → leftSearch next fuel stack t seen = some (.error e) →
    ∃ st cur, e = .leftRecursion st cur ∧ LReported next st cur
  | 0, _, _, _, _, _, h => by simp [leftSearch] at h
  | fuel + 1, stack, t, seen, e, hc, h => by
    unfold leftSearch at h
    split at h
    · rename_i hm
      cases h
      exact ⟨stack, t, rfl, hm, hc⟩
    · split at h
      · cases h
      · obtain ⟨c, hcm, seen', h⟩ := leftAll_error _ _ h
        exact leftSearch_error fuel _ c seen' e (hc.snoc hcm) h

/-! ### What is not reported -/

theorem leftAll_ok {next : I → List I} {stack : List I} {rec : I → List I → Option (Except (GErr I) (List I))}
    (hrec : ∀ c seen seen', (∀ b ∈ seen, b ∈ stack ∨ LEnds next b) → rec c seen = some (.ok seen') →
      LEnds next c ∧ ∀ b ∈ seen', b ∈ stack ∨ LEnds next b) :
    ∀ (l seen seen' : List I), (∀ b ∈ seen, b ∈ stack ∨ LEnds next b) → leftAll rec l seen = some (.ok seen') →
      (∀ c ∈ l, LEnds next c) ∧ ∀ b ∈ seen', b ∈ stack ∨ LEnds next b
  | [], _, _, hs, h => by simp only [leftAll, Option.some.injEq, Except.ok.injEq] at h; subst h; exact ⟨by simp, hs⟩
  | c :: l, seen, seen', hs, h => by
    unfold leftAll at h
    split at h
    · cases h
    · cases h
    · rename_i s1 h1
      obtain ⟨a1, a2⟩ := hrec c seen s1 hs h1
      obtain ⟨b1, b2⟩ := leftAll_ok hrec l s1 seen' a2 h
      refine ⟨fun d hd => ?_, b2⟩
      rcases List.mem_cons.1 hd with rfl | hd
      · exact a1
      · exact b1 d hd

theorem leftSearch_ok {next : I → List I} : ∀ (fuel : Nat) (stack : List I) (t : I) (seen seen' : List I),
    (∀ b ∈ seen, b ∈ stack ∨ LEnds next b) → leftSearch next fuel stack t seen = some (.ok seen') →
    LEnds next t ∧ ∀ b ∈ seen', b ∈ stack ∨ LEnds next b
  | 0, _, _, _, _, _, h => by simp [leftSearch] at h
  | fuel + 1, stack, t, seen, seen', hs, h => by
    unfold leftSearch at h
    split at h
    · cases h
    · rename_i hm
      split at h
      · rename_i hseen
        cases h
        exact ⟨(hs t hseen).resolve_left hm, hs⟩
      · obtain ⟨a, b⟩ := leftAll_ok (next := next) (stack := stack ++ [t])
          (fun c s s' => leftSearch_ok fuel _ c s s') (next t) (t :: seen) seen' (by
            intro b hb
            rcases List.mem_cons.1 hb with rfl | hb
            · simp
            · rcases hs b hb with h | h
              · simp [h]
              · exact .inr h) h
        have ht : LEnds next t := ⟨_, fun c hc => a c hc⟩
        refine ⟨ht, fun c hc => ?_⟩
        rcases b c hc with h | h
        · rcases List.mem_append.1 h with h | h
          · exact .inl h
          · simp at h; subst h; exact .inr ht
        · exact .inr h

/-! ### The search ends -/

theorem leftAll_total {rec : I → List I → Option (Except (GErr I) (List I))} : ∀ (l : List I),
    (∀ c ∈ l, ∀ seen, ∃ r, rec c seen = some r) → ∀ seen, ∃ r, leftAll rec l seen = some r
  | [], _, seen => ⟨_, rfl⟩
  | c :: l, h, seen => by
    obtain ⟨r, hr⟩ := h c (by simp) seen
    unfold leftAll
    rw [hr]
    cases r with
    | error e => exact ⟨_, rfl⟩
    | ok s => exact leftAll_total l (fun d hd => h d (by simp [hd])) s

theorem leftSearch_total {next : I → List I} (U : List I) (hU : ∀ t, next t ≠ [] → t ∈ U) : ∀ (fuel : Nat)
    (stack : List I) (t : I) (seen : List I), stack.Nodup → (∀ a ∈ stack, a ∈ U) →
    U.length + 1 < fuel + stack.length → ∃ r, leftSearch next fuel stack t seen = some r
  | 0, stack, t, seen, hn, hs, hl => by
    have := hn.length_le_of_subset (l₂ := U) hs
    omega
  | fuel + 1, stack, t, seen, hn, hs, hl => by
    unfold leftSearch
    split
    · exact ⟨_, rfl⟩
    · rename_i hm
      split
      · exact ⟨_, rfl⟩
      · by_cases he : next t = []
        · rw [he]; exact ⟨_, rfl⟩
        · refine leftAll_total _ (fun c _ seen => ?_) _
          refine leftSearch_total U hU fuel (stack ++ [t]) c seen ?_ ?_ ?_
          · rw [List.nodup_append]
            exact ⟨hn, by simp, fun a ha b hb hab => hm (by simp at hb; rw [← hb, ← hab]; exact ha)⟩
          · intro a ha
            rcases List.mem_append.1 ha with h | h
            · exact hs a h
            · simp at h; subst h; exact hU a he
          · simp only [List.length_append, List.length_cons, List.length_nil]; omega

theorem leftAll_mono {rec rec' : I → List I → Option (Except (GErr I) (List I))}
    (h : ∀ c seen r, rec c seen = some r → rec' c seen = some r) : ∀ (l seen : List I) r,
    leftAll rec l seen = some r → leftAll rec' l seen = some r
  | [], _, _, hr => hr
  | c :: l, seen, r, hr => by
    unfold leftAll at hr ⊢
    split at hr
    · cases hr
    · rename_i e he
      rw [h _ _ _ he]
      exact hr
    · rename_i s hs
      rw [h _ _ _ hs]
      exact leftAll_mono h l s r hr

theorem leftSearch_mono {next : I → List I} : ∀ (fuel fuel' : Nat) (stack : List I) (t : I) (seen : List I) r,
    fuel ≤ fuel' → leftSearch next fuel stack t seen = some r → leftSearch next fuel' stack t seen = some r
  | 0, _, _, _, _, _, _, h => by simp [leftSearch] at h
  | fuel + 1, 0, _, _, _, _, hle, _ => by omega
  | fuel + 1, fuel' + 1, stack, t, seen, r, hle, h => by
    unfold leftSearch at h ⊢
    split
    · rename_i hm; rw [if_pos hm] at h; exact h
    · rename_i hm
      rw [if_neg hm] at h
      split
      · rename_i hs; rw [if_pos hs] at h; exact h
      · rename_i hs
        rw [if_neg hs] at h
        exact leftAll_mono (fun c s r => leftSearch_mono fuel fuel' _ c s r (by omega)) _ _ _ h

/-! ### In the grammar -/

variable {G : Grammar I n} {first : Tbl I n}

theorem mem_leftParts (hf : ∀ i, (first.get i).contains none = true ↔ Null G i) {j : I} : ∀ l : List I,
    j ∈ leftParts first l ↔ ∃ pre post, l = pre ++ j :: post ∧ ∀ k ∈ pre, Null G k
  | [] => by simp [leftParts]
  | c :: cs => by
    have ih := mem_leftParts hf (j := j) cs
    have hc := hf c
    have hcE : (first.get c).containsE = (first.get c).contains none := rfl
    unfold leftParts
    rw [hcE]
    constructor
    · intro h
      split at h
      · rename_i hn
        rcases List.mem_cons.1 h with rfl | h
        · exact ⟨[], cs, rfl, by simp⟩
        · obtain ⟨pre, post, rfl, hp⟩ := ih.1 h
          refine ⟨c :: pre, post, rfl, fun k hk => ?_⟩
          rcases List.mem_cons.1 hk with rfl | hk
          · exact hc.1 hn
          · exact hp k hk
      · simp at h; subst h; exact ⟨[], cs, rfl, by simp⟩
    · rintro ⟨pre, post, he, hp⟩
      cases pre with
      | nil =>
        cases he
        split <;> simp
      | cons d pre =>
        simp only [List.cons_append, List.cons.injEq] at he
        obtain ⟨rfl, rfl⟩ := he
        rw [if_pos (hc.2 (hp _ (by simp)))]
        exact List.mem_cons_of_mem _ (ih.2 ⟨pre, post, rfl, fun k hk => hp k (by simp [hk])⟩)

theorem mem_lefts (hfun : G.Functional) (hf : ∀ i, (first.get i).contains none = true ↔ Null G i) {i j : I} :
    j ∈ G.lefts first i ↔ LStep G i j := by
  unfold Grammar.lefts
  constructor
  · intro h
    split at h
    · rename_i l hl; exact .alt (mem_of_aget? hl) h
    · rename_i l hl
      obtain ⟨pre, post, rfl, hp⟩ := (mem_leftParts hf l).1 h
      exact .seq (mem_of_aget? hl) hp
    · cases h
  · intro h
    cases h with
    | alt hm hj => rw [aget?_of_mem hfun hm]; exact hj
    | seq hm hp => rw [aget?_of_mem hfun hm]; exact (mem_leftParts hf _).2 ⟨_, _, rfl, hp⟩

theorem LStep.derives {i j : I} (h : LStep G i j) : LeftDerives G i j := by
  cases h with
  | alt hm hj => exact ⟨_, [], .alt hm hj, .refl _⟩
  | @seq pre _ post hm hp =>
    refine ⟨_, post.map .nt, .seq hm, ?_⟩
    have : Derives G (pre.map .nt) [] := by
      clear hm
      induction pre with
      | nil => exact .refl _
      | cons a pre ih =>
        exact Derives.append (α := [.nt a]) (α' := []) (nullable_iff.2 (hp a (by simp))) (ih fun k hk => hp k (by simp [hk]))
    simpa using Derives.left this (.nt j :: post.map .nt)

theorem LeftDerives.trans {i j k : I} (h : LeftDerives G i j) (h2 : LeftDerives G j k) : LeftDerives G i k := by
  obtain ⟨γ, β, e, d⟩ := h
  obtain ⟨γ', β', e', d'⟩ := h2
  refine ⟨γ, β' ++ β, e, d.trans ?_⟩
  have h1 : Derives G ([.nt j] ++ β) (γ' ++ β) := (Derives.one e').left β
  simpa using h1.trans (d'.left β)

theorem LPath.derives (hfun : G.Functional) (hf : ∀ i, (first.get i).contains none = true ↔ Null G i) {l : List I}
    (h : LPath (G.lefts first) l) : ∀ (d k : Nat) (a b : I), l[k]? = some a → l[k + d + 1]? = some b →
    LeftDerives G a b
  | 0, k, a, b, ha, hb => ((mem_lefts hfun hf).1 (h k a b ha hb)).derives
  | d + 1, k, a, b, ha, hb => by
    have hlt := (List.getElem?_eq_some_iff.1 hb).1
    have hc : l[k + 1]? = some l[k + 1] := List.getElem?_eq_getElem (by omega)
    exact ((mem_lefts hfun hf).1 (h k a _ ha hc)).derives.trans
      (h.derives hfun hf d (k + 1) _ b hc (by rw [show k + 1 + d + 1 = k + (d + 1) + 1 by omega]; exact hb))

theorem LEnds.no_cycle (hfun : G.Functional) (hf : ∀ i, (first.get i).contains none = true ↔ Null G i) {i : I}
    (h : LEnds (G.lefts first) i) : ¬ LeftDerives G i i := by
  induction h with
  | intro i _ ih =>
    intro hl
    obtain ⟨k, h1, h2⟩ := hl.lsteps
    refine ih k ((mem_lefts hfun hf).2 h1) ?_
    -- the cycle goes through `k` as well
    have : ∀ {a b : I}, LSteps G a b → a = b ∨ LeftDerives G a b := by
      intro a b h
      induction h with
      | refl => exact .inl rfl
      | head s _ ih =>
        rcases ih with rfl | ih
        · exact .inr s.derives
        · exact .inr (s.derives.trans ih)
    rcases this h2 with rfl | h2
    · exact h1.derives
    · exact h2.trans h1.derives

theorem fixedLeft_total (G : Grammar I n) (first : Tbl I n) : ∃ N r, ∀ fuel ≥ N, fixedLeft G first fuel = some r := by
  have h : ∃ r, fixedLeft G first ((G.map (·.1)).length + 2) = some r :=
    leftAll_total _ (fun c _ seen => leftSearch_total (G.map (·.1)) (by
      intro t ht
      unfold Grammar.lefts at ht
      split at ht
      · rename_i l hl; exact List.mem_map.2 ⟨_, mem_of_aget? hl, rfl⟩
      · rename_i l hl; exact List.mem_map.2 ⟨_, mem_of_aget? hl, rfl⟩
      · exact absurd rfl ht) _ [] c seen (by simp) (by simp) (by simp)) []
  obtain ⟨r, h⟩ := h
  exact ⟨_, r, fun fuel hle => leftAll_mono (fun c s r => leftSearch_mono _ _ _ c s r hle) _ _ _ h⟩

theorem fixedLeft_mono {fuel fuel' : Nat} {r} (hle : fuel ≤ fuel') (h : fixedLeft G first fuel = some r) :
    fixedLeft G first fuel' = some r := leftAll_mono (fun c s r => leftSearch_mono _ _ _ c s r hle) _ _ _ h

theorem leftBuild_mono {root : I} {fuel fuel' : Nat} (hle : fuel ≤ fuel') {r : Except (GErr I) (Metadata I n)}
    (h : leftBuild fuel G root = some r) : leftBuild fuel' G root = some r := by
  simp only [leftBuild] at h ⊢
  cases h1 : buildFirst fuel G with
  | none => rw [h1] at h; cases h
  | some first =>
    rw [h1] at h; rw [buildFirst_mono h1 hle]
    dsimp only at h ⊢
    cases h2 : fixedLeft G first fuel with
    | none => rw [h2] at h; cases h
    | some r2 =>
      rw [h2] at h; rw [fixedLeft_mono hle h2]
      cases r2 with
      | error e => exact h
      | ok s => exact fixedBuild_mono hle h

theorem leftBuild_total (G : Grammar I n) (root : I) :
    ∃ fuel r, ∀ fuel' ≥ fuel, leftBuild fuel' G root = some r := by
  suffices h : ∃ fuel r, leftBuild fuel G root = some r by
    obtain ⟨fuel, r, h⟩ := h
    exact ⟨fuel, r, fun fuel' hle => leftBuild_mono hle h⟩
  obtain ⟨f1, h1⟩ := buildFirst_total G
  obtain ⟨first, hf⟩ := h1 f1 (Nat.le_refl _)
  obtain ⟨f2, r2, h2⟩ := fixedLeft_total G first
  obtain ⟨f3, r3, h3⟩ := fixedBuild_total G root
  refine ⟨f1 + f2 + f3, ?_⟩
  simp only [leftBuild, buildFirst_mono hf (show f1 ≤ f1 + f2 + f3 by omega), h2 (f1 + f2 + f3) (by omega)]
  cases r2 with
  | error e => exact ⟨_, rfl⟩
  | ok s => exact ⟨_, h3 _ (by omega)⟩

end Teleparse

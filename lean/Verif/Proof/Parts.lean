import Verif.Proof.Order
import Verif.Proof.Whole
/-
A part of a grammar, closed under parts, is analysed alone like inside of the whole grammar.
-/
set_option linter.unusedSectionVars false
namespace Teleparse
variable {I : Type} {n : Nat} [DecidableEq I]

/-- `G'` has the productions of `G` of which `In` holds; parts stay inside. -/
structure SubGrammar (G' G : Grammar I n) (In : I → Prop) : Prop where
  sub : ∀ p ∈ G', p ∈ G
  full : ∀ {i r}, In i → (i, r) ∈ G → (i, r) ∈ G'
  parts : ∀ {i r j}, In i → (i, r) ∈ G → j ∈ r.parts → In j

namespace SubGrammar
variable {G' G : Grammar I n} {In : I → Prop}

theorem null (h : SubGrammar G' G In) {i : I} (hn : Null G i) : In i → Null G' i := by
  induction hn with
  | eps hm => intro hi; exact .eps (h.full hi hm)
  | seq hm _ ih => intro hi; exact .seq (h.full hi hm) fun k hk => ih k hk (h.parts hi hm hk)
  | alt hm hj _ ih => intro hi; exact .alt (h.full hi hm) hj (ih (h.parts hi hm hj))

theorem firstI (h : SubGrammar G' G In) {i : I} {tok : TokenSrc n} (hf : FirstI G i tok) :
    In i → FirstI G' i tok := by
  induction hf with
  | term hm hx => intro hi; exact .term (h.full hi hm) hx
  | seq hm hn _ ih =>
    intro hi
    exact .seq (h.full hi hm) (fun k hk => h.null (hn k hk) (h.parts hi hm (by simp [Rule.parts, hk])))
      (ih (h.parts hi hm (by simp [Rule.parts])))
  | alt hm hj _ ih => intro hi; exact .alt (h.full hi hm) hj (ih (h.parts hi hm hj))

theorem firstFam (h : SubGrammar G' G In) {i : I} (hi : In i) (x : Option (TokenSrc n)) :
    firstFam G i x ↔ Teleparse.firstFam G' i x := by
  cases x with
  | none => exact ⟨fun hn => h.null hn hi, Null.mono h.sub⟩
  | some tok => exact ⟨fun hf => h.firstI hf hi, FirstI.mono h.sub⟩

/-- FOLLOW only grows with the surroundings. (The end of input is a special case: it follows the root.) -/
theorem followC (h : SubGrammar G' G In) {root root' i : I} {o : Option (TokenSrc n)}
    (hf : FollowC G' root' i o) : ∀ tok, o = some tok → FollowC G root i (some tok) := by
  induction hf with
  | root => intro tok ho; cases ho
  | alt hm hy _ ih => rintro tok rfl; exact .alt (h.sub _ hm) hy (ih tok rfl)
  | tail hm hn _ ih => rintro tok rfl; exact .tail (h.sub _ hm) (fun k hk => (hn k hk).mono h.sub) (ih tok rfl)
  | adj hm hf => intro tok ho; cases ho; exact .adj (h.sub _ hm) (hf.mono h.sub)

end SubGrammar

theorem semEq_of_sub {G' G : Grammar I n} {In : I → Prop} (h : SubGrammar G' G In) {f f' : Nat}
    {first first' : Tbl I n} (h1 : buildFirst f G = some first) (h2 : buildFirst f' G' = some first')
    {i : I} (hi : In i) : (first.get i).SemEq (first'.get i) := by
  intro x
  rw [Bool.eq_iff_iff]
  have e1 := buildFirst_den h1 i x
  have e2 := buildFirst_den h2 i x
  rw [← h.firstFam hi, ← e1] at e2
  exact e2.symm

/-- No conflict in the whole, no conflict in the part. -/
theorem nodeConflict_part {G' G : Grammar I n} {In : I → Prop} (h : SubGrammar G' G In)
    (hfun : G.Functional) (hfun' : G'.Functional) {first first' follow follow' : Tbl I n}
    (hf : ∀ i, In i → (first.get i).SemEq (first'.get i))
    (hfo : ∀ i, In i → ∀ tok, follow'.den i (some tok) → follow.den i (some tok)) {t : I} (ht : In t)
    (hn : nodeConflict G first follow t = none) : nodeConflict G' first' follow' t = none := by
  have hg : aget? G' t = aget? G t := by
    cases hg : aget? G t with
    | some r => exact aget?_of_mem hfun' (h.full ht (mem_of_aget? hg))
    | none =>
      cases hg' : aget? G' t with
      | none => rfl
      | some r =>
        have := aget?_of_mem hfun (h.sub _ (mem_of_aget? hg'))
        rw [hg] at this; cases this
  have hself : selfConflict first follow t = none → selfConflict first' follow' t = none := by
    rw [selfConflict_none, selfConflict_none]
    intro hs h0 tok ⟨h1, h2⟩
    have e := fun x => (hf t ht x).symm
    refine hs ?_ tok ⟨?_, hfo t ht tok h2⟩
    · exact (hf t ht none).trans h0
    · exact (hf t ht (some tok)).trans h1
  unfold nodeConflict at hn ⊢
  rw [hg]
  cases hr : aget? G t with
  | none => rfl
  | some r =>
    rw [hr] at hn
    have hp : ∀ j ∈ r.parts, (first.get j).SemEq (first'.get j) :=
      fun j hj => hf j (h.parts ht (mem_of_aget? hr) hj)
    cases r with
    | eps => rfl
    | term t => rfl
    | alt l =>
      simp only at hn ⊢
      rw [← altConflict_congr t l l hp (fun _ h => h) _ _ (fun _ => rfl)]
      cases ha : altConflict first t l l TSet.empty with
      | some e => rw [ha] at hn; cases hn
      | none => rw [ha] at hn; exact hself hn
    | seq l =>
      cases l with
      | nil => rfl
      | cons c cs =>
        simp only at hn ⊢
        have hc := hp c (by simp [Rule.parts])
        have e : (first.get c).containsE = (first'.get c).containsE := hc none
        rw [← seqConflict_congr t cs (fun i hi => hp i (by simp [Rule.parts, hi])) c
          (if (first.get c).containsE = true then first.get c else TSet.empty)]
        · cases ha : seqConflict first t c
            (if (first.get c).containsE = true then first.get c else TSet.empty) cs with
          | some e => rw [ha] at hn; cases hn
          | none => rw [ha] at hn; exact hself hn
        · rw [← e]
          split
          · exact hc
          · intro _; rfl

/-- If the whole is accepted the part is. -/
theorem build_part {G' G : Grammar I n} {In : I → Prop} (h : SubGrammar G' G In) (hfun : G.Functional)
    (hfun' : G'.Functional) {root root' : I} (hin : ∀ i, Reachable G' root' i → In i)
    (hre : ∀ i, In i → Reachable G root i) {fuel fuel' : Nat} {md : Metadata I n}
    (h1 : build fuel G root = some (.ok md)) {r : Except (GErr I) (Metadata I n)}
    (h2 : build fuel' G' root' = some r) : ∃ md', r = .ok md' := by
  cases r with
  | ok md' => exact ⟨md', rfl⟩
  | error e =>
    exfalso
    obtain ⟨a1, a2, ⟨_, a3⟩, _⟩ := build_ok h1
    obtain ⟨first', follow', b1, b2, b3⟩ := build_error h2
    obtain ⟨t, ht, hc⟩ := checkConflicts_error b3
    have ht' : In t := hin t ((reach_iff hfun' _ _).1 ht)
    have := checkConflicts_ok a3 t ((reach_iff hfun _ _).2 (hre t ht'))
    have hn := nodeConflict_part h hfun hfun' (first' := first') (follow' := follow')
      (fun i hi => semEq_of_sub h a1 b1 hi) (fun i _ tok hf => ?_) ht' this
    · rw [hn] at hc; cases hc
    · have := (buildFollow_den (buildFirst_den b1) b2 i (some tok)).1 hf
      exact (buildFollow_den (buildFirst_den a1) a2 i (some tok)).2 (h.followC this tok rfl)

variable {m : Nat} {S : Schema m n} {root t : Ty m n} {fuel fuel' : Nat} {md md' : Metadata (PId m n) n}

theorem subGrammar_of_reach {G G' : Grammar (PId m n) n} (hG : S.IsGrammar root G) (hG' : S.IsGrammar t G')
    (hr : PReach S root t.pid) : SubGrammar G' G fun i => PReach S t i where
  sub := by
    rintro ⟨i, r⟩ hp
    obtain ⟨h1, h2⟩ := (hG'.2 _ _).1 hp
    exact (hG.2 _ _).2 ⟨Reach.trans hr h1, h2⟩
  full := fun hi hp => (hG'.2 _ _).2 ⟨hi, ((hG.2 _ _).1 hp).2⟩
  parts := fun hi hp hj => by
    obtain ⟨_, rfl⟩ := (hG.2 _ _).1 hp
    exact .step hi hj

theorem metadata_part (h : S.metadata fuel root = some (.ok md)) (hr : PReach S root t.pid)
    {r : Except (GErr (PId m n)) (Metadata (PId m n) n)} (h' : S.metadata fuel' t = some r) :
    ∃ md', r = .ok md' := by
  obtain ⟨G, hG, _, hb⟩ := metadata_build h
  unfold Schema.metadata buildFor at h'
  cases hreg : registerFrom S.rule fuel' t.pid with
  | none => rw [hreg] at h'; cases h'
  | some G' =>
    rw [hreg] at h'
    have hG' : S.IsGrammar t G' := registerFrom_spec hreg
    exact build_part (subGrammar_of_reach hG hG' hr) hG.1 hG'.1 (fun i hi => (reach_iff_schema hG' i).1 hi)
      (fun i hi => (reach_iff_schema hG i).2 (Reach.trans hr hi)) hb h'

theorem metadata_part_first (h : S.metadata fuel root = some (.ok md)) (hr : PReach S root t.pid)
    (h' : S.metadata fuel' t = some (.ok md')) {i : PId m n} (hi : PReach S t i) :
    (md.first.get i).SemEq (md'.first.get i) := by
  obtain ⟨G, hG, _, hb⟩ := metadata_build h
  obtain ⟨G', hG', _, hb'⟩ := metadata_build h'
  exact semEq_of_sub (subGrammar_of_reach hG hG' hr) (build_ok hb).1 (build_ok hb').1 hi

theorem metadata_part_follow (h : S.metadata fuel root = some (.ok md)) (hr : PReach S root t.pid)
    (h' : S.metadata fuel' t = some (.ok md')) {i : PId m n} {tok : TokenSrc n}
    (hf : (md'.follow.get i).contains (some tok) = true) : (md.follow.get i).contains (some tok) = true := by
  obtain ⟨G, hG, _, hb⟩ := metadata_build h
  obtain ⟨G', hG', _, hb'⟩ := metadata_build h'
  exact (build_follow_den hb i _).2
    ((subGrammar_of_reach hG hG' hr).followC ((build_follow_den hb' i _).1 hf) tok rfl)

theorem metadata_part_jump (h : S.metadata fuel root = some (.ok md)) (hr : PReach S root t.pid)
    (h' : S.metadata fuel' t = some (.ok md')) {i : PId m n} (hi : PReach S t i) {l : List (PId m n)}
    (hl : S.rule i = .alt l) (x : Option (TokenSrc n)) : md.jump.lookUp i x = md'.jump.lookUp i x := by
  obtain ⟨G, hG, _, hb⟩ := metadata_build h
  obtain ⟨G', hG', _, hb'⟩ := metadata_build h'
  obtain ⟨a1, a2, _⟩ := metadata_jump h hG ((reach_iff_schema hG i).2 (Reach.trans hr hi)) hl x
  obtain ⟨b1, b2, _⟩ := metadata_jump h' hG' ((reach_iff_schema hG' i).2 hi) hl x
  have hs : ∀ (j : Nat) c, l[j]? = some c → (Starts G c x ↔ Starts G' c x) := by
    intro j c hc
    rw [← metadata_first h hG, ← metadata_first h' hG']
    have : PReach S t c := .step hi (by
      show c ∈ (S.rule i).parts
      rw [hl]; exact List.mem_of_getElem? hc)
    rw [metadata_part_first h hr h' this x]
  cases ha : md.jump.lookUp i x with
  | some j =>
    obtain ⟨c, hc, hst⟩ := a1 j ha
    exact (b2 j c hc ((hs j c hc).1 hst)).symm
  | none =>
    cases hb : md'.jump.lookUp i x with
    | none => rfl
    | some j =>
      obtain ⟨c, hc, hst⟩ := b1 j hb
      rw [a2 j c hc ((hs j c hc).2 hst)] at ha
      cases ha

end Teleparse

import Verif.Proof.Repair
import Verif.Proof.CostAll
/-
The third repair of `Model/Repair.lean`: enums that can be empty.
-/
namespace Teleparse
variable {I : Type} {m n : Nat} [DecidableEq I]

theorem withDefault_lookUp (t : JumpTable n) (tok : Option (TokenSrc n)) : t.withDefault.lookUp tok = t.fixedLookUp tok := by
  cases tok with
  | none => rfl
  | some tok =>
    unfold JumpTable.lookUp JumpTable.fixedLookUp JumpTable.lookUpToken JumpTable.withDefault
    simp only [Map.get_map, Option.bind_some]
    cases aget? (t.map.get tok.ty).2 tok.src <;> rfl

theorem withDefault_get (j : Jump I n) (i : I) (tok : Option (TokenSrc n)) :
    Jump.lookUp (j.map fun e => (e.1, e.2.withDefault)) i tok = (j.lookUp i tok).or (j.lookUp i none) := by
  unfold Jump.lookUp
  induction j with
  | nil => rfl
  | cons e j ih =>
    simp only [List.map_cons, aget?]
    by_cases h : e.1 = i
    · simp only [if_pos h]
      rw [withDefault_lookUp]
      cases tok with
      | none =>
        show (Option.or _ _) = _
        cases he : e.2.epsilon <;> simp [JumpTable.lookUp, he]
      | some tok => rfl
    · simp only [if_neg h]
      exact ih

section
variable {S : Schema m n} {md : Metadata (PId m n) n} {root : Ty m n} {G : Grammar (PId m n) n} {fuel : Nat}

theorem exactMetadata_ok (h : S.exactMetadata fuel root = some (.ok md)) :
    ∃ md0, S.fixedMetadata fuel root = some (.ok md0) ∧ md = md0.withDefault := by
  unfold Schema.exactMetadata at h
  cases hm : S.fixedMetadata fuel root with
  | none => rw [hm] at h; cases h
  | some r =>
    cases r with
    | error e => rw [hm] at h; cases h
    | ok md0 => rw [hm] at h; cases h; exact ⟨md0, rfl, rfl⟩

theorem Metadata.withDefault_lookUp (md : Metadata (PId m n) n) (i : PId m n) (tok : Option (TokenSrc n)) :
    md.withDefault.jump.lookUp i tok = (md.jump.lookUp i tok).or (md.jump.lookUp i none) := withDefault_get _ _ _

theorem Tables.withDefault (h : Tables S md root G) : Tables S md.withDefault root G := by
  refine ⟨h.first, fun i l hr hi x j c hc hs => ?_⟩
  rw [Metadata.withDefault_lookUp, h.jump i l hr hi x j c hc hs]
  rfl

theorem fixedMetadata_lookUp (h : S.fixedMetadata fuel root = some (.ok md)) (hG : S.IsGrammar root G) {i : PId m n}
    {l : List (PId m n)} (hr : Reachable G root.pid i) (hi : S.rule i = .alt l) (x : Option (TokenSrc n)) (j : Nat)
    (hj : md.jump.lookUp i x = some j) : ∃ c, l[j]? = some c ∧ Starts G c x := by
  have hf := (Tables.of_fixed h hG).first
  obtain ⟨G', hG', _, hb⟩ := fixedMetadata_build h
  obtain ⟨h1, _, _, seen, hjump⟩ := fixedBuild_ok hb
  have hm : (i, Rule.alt l) ∈ G := (hG.2 _ _).2 ⟨(reach_iff_schema hG i).1 hr, hi.symm⟩
  have hr' : Reachable G' root.pid i := (reach_iff_schema hG' i).2 ((reach_iff_schema hG i).1 hr)
  obtain ⟨c, h2, h3⟩ := (buildJump_lookUp hjump ((reach_iff hG'.1 _ _).2 hr')
    (aget?_of_mem hG'.1 ((hG.same hG' _).1 hm)) x).1 j hj
  exact ⟨c, h2, (hf c x).1 h3⟩

theorem Found.of_exact (h : S.exactMetadata fuel root = some (.ok md)) (hG : S.IsGrammar root G)
    (hsep : ∀ t p, Reach S.tyParts root (.split t p) → ¬ Nullable G p.pid) : Found S md root G := by
  obtain ⟨md0, h0, rfl⟩ := exactMetadata_ok h
  have hT : Tables S md0 root G := .of_fixed h0 hG
  have hll := fixedMetadata_ll1 h0 hG
  refine ⟨⟨hG⟩, hT.withDefault, fun _ _ _ _ hf => (fixedMetadata_follow h0 hG _ _).2 hf, hll, ?_, hsep⟩
  intro k v vs hk hr j g hg hn tok hf
  have hrule : S.rule (.user k) = .alt ((v :: vs).map fun f => f.1.pid) := by simp only [Schema.rule, hk]
  have hm : (PId.user k, Rule.alt ((v :: vs).map fun f => f.1.pid)) ∈ G :=
    (hG.2 _ _).2 ⟨(reach_iff_schema hG _).1 hr, hrule.symm⟩
  have hj : ((v :: vs).map fun f => f.1.pid)[j]? = some g.1.pid := by rw [List.getElem?_map, hg]; rfl
  rw [Metadata.withDefault_lookUp, hT.jump _ _ hr hrule none j _ hj hn]
  cases hl : md0.jump.lookUp (.user k) (some tok) with
  | none => rfl
  | some j' =>
    obtain ⟨c, h1, h2⟩ := fixedMetadata_lookUp h0 hG hr hrule _ _ hl
    by_cases he : j = j'
    · rw [he]; rfl
    · exact absurd hf ((hll _ _ hr hm).2 j j' _ _ he hj h1 hn tok h2)

/-- No hypothesis on enums is needed for parsing to end. -/
theorem Ctx.of_exact (h : S.exactMetadata fuel root = some (.ok md)) (hG : S.IsGrammar root G)
    (hprod : ∀ i, Reachable G root.pid i → Productive G i) : Ctx S md root G := by
  obtain ⟨md0, h0, rfl⟩ := exactMetadata_ok h
  have hT : Tables S md0 root G := .of_fixed h0 hG
  refine ⟨⟨hG⟩, hT.first, fun i l hr hi x => ⟨fun j hj => ?_, hT.withDefault.jump i l hr hi x⟩,
    fun i hi => ll1_no_left hG.1 hprod (fixedMetadata_ll1 h0 hG) hi, fun i hi => (hprod i hi).not_needs hG.1, ?_⟩
  · rw [Metadata.withDefault_lookUp, Option.or_eq_some_iff] at hj
    rcases hj with hj | ⟨-, hj⟩
    · exact (fixedMetadata_lookUp h0 hG hr hi x j hj).imp fun c hc => ⟨hc.1, .inl hc.2⟩
    · exact (fixedMetadata_lookUp h0 hG hr hi none j hj).imp fun c hc => ⟨hc.1, .inr hc.2⟩
  · intro k v vs hk hn ⟨tok, hl⟩
    have hrule : S.rule (.user k) = .alt ((v :: vs).map fun f => f.1.pid) := by simp only [Schema.rule, hk]
    have hn := nullable_iff.1 hn
    have hr : Reachable G root.pid (.user k) := by
      cases hn with
      | eps hm => exact (reach_iff_schema hG _).2 ((hG.2 _ _).1 hm).1
      | seq hm _ => exact (reach_iff_schema hG _).2 ((hG.2 _ _).1 hm).1
      | alt hm _ _ => exact (reach_iff_schema hG _).2 ((hG.2 _ _).1 hm).1
    obtain ⟨c, hc, hcn⟩ := (Rules.mk hG).alt_null hrule hn
    obtain ⟨j, hj⟩ := List.mem_iff_getElem?.1 hc
    rw [Metadata.withDefault_lookUp, hT.jump _ _ hr hrule none j c hj hcn.nullable] at hl
    simp at hl

end
end Teleparse

import Verif.Proof.LL1
import Verif.Proof.Yields
/-
Facts about the metadata of an accepted schema.
-/
namespace Teleparse
variable {m n : Nat} {I : Type}

theorem Expands.congr {G G' : Grammar I n} (h : ∀ p ∈ G, p ∈ G') {i : I} {α : List (Sym I n)}
    (he : Expands G i α) : Expands G' i α := by
  cases he with
  | eps hm => exact .eps (h _ hm)
  | term hm ht => exact .term (h _ hm) ht
  | seq hm => exact .seq (h _ hm)
  | alt hm hj => exact .alt (h _ hm) hj

theorem Derives.congr {G G' : Grammar I n} (h : ∀ p ∈ G, p ∈ G') {α β : List (Sym I n)}
    (hd : Derives G α β) : Derives G' α β := by
  induction hd with
  | refl => exact .refl _
  | step he _ ih => exact .step (he.congr h) ih

theorem Starts.congr {G G' : Grammar (PId m n) n} (h : ∀ p, p ∈ G ↔ p ∈ G') {i : PId m n}
    (x : Option (TokenSrc n)) : Starts G i x ↔ Starts G' i x := by
  have h1 : ∀ p ∈ G, p ∈ G' := fun p hp => (h p).1 hp
  have h2 : ∀ p ∈ G', p ∈ G := fun p hp => (h p).2 hp
  cases x with
  | none => exact ⟨fun hd => Derives.congr h1 hd, fun hd => Derives.congr h2 hd⟩
  | some tok =>
    exact ⟨fun ⟨β, hd⟩ => ⟨β, hd.congr h1⟩, fun ⟨β, hd⟩ => ⟨β, hd.congr h2⟩⟩

variable {S : Schema m n} {md : Metadata (PId m n) n} {root : Ty m n} {G : Grammar (PId m n) n} {fuel : Nat}

theorem Schema.IsGrammar.of_register {G' : Grammar (PId m n) n}
    (h : registerFrom S.rule fuel root.pid = some G') : S.IsGrammar root G' := registerFrom_spec h

theorem Schema.IsGrammar.same {G' : Grammar (PId m n) n} (h : S.IsGrammar root G) (h' : S.IsGrammar root G') :
    ∀ p, p ∈ G ↔ p ∈ G' := by
  intro p; rw [show p = (p.1, p.2) from rfl, h.2, h'.2]

theorem metadata_build (h : S.metadata fuel root = some (.ok md)) :
    ∃ G', S.IsGrammar root G' ∧ registerFrom S.rule fuel root.pid = some G' ∧
      build fuel G' root.pid = some (.ok md) := by
  unfold Schema.metadata buildFor at h
  cases hr : registerFrom S.rule fuel root.pid with
  | none => rw [hr] at h; cases h
  | some G' => rw [hr] at h; exact ⟨G', registerFrom_spec hr, rfl, h⟩

theorem metadata_first (h : S.metadata fuel root = some (.ok md)) (hG : S.IsGrammar root G)
    (i : PId m n) (x : Option (TokenSrc n)) : (md.first.get i).contains x = true ↔ Starts G i x := by
  obtain ⟨G', hG', _, hb⟩ := metadata_build h
  rw [Starts.congr (hG.same hG')]
  refine (build_first_den hb i x).trans ?_
  cases x with
  | none => exact firstFam_none G' i
  | some tok => exact firstFam_some G' i tok

theorem reach_iff_schema (hG : S.IsGrammar root G) (i : PId m n) :
    Reachable G root.pid i ↔ Reach (fun t => (S.rule t).parts) root.pid i := by
  constructor
  · intro h
    induction h with
    | refl => exact .refl
    | step _ hp ih =>
      obtain ⟨r, hm, hj⟩ := hp
      obtain ⟨_, rfl⟩ := (hG.2 _ _).1 hm
      exact .step ih hj
  · intro h
    induction h with
    | refl => exact .refl
    | step hi hj ih => exact .step ih ⟨_, (hG.2 _ _).2 ⟨hi, rfl⟩, hj⟩

theorem metadata_jump (h : S.metadata fuel root = some (.ok md)) (hG : S.IsGrammar root G) {i : PId m n}
    {l : List (PId m n)} (hr : Reachable G root.pid i) (hi : S.rule i = .alt l) (x : Option (TokenSrc n)) :
    (∀ j, md.jump.lookUp i x = some j → ∃ c, l[j]? = some c ∧ Starts G c x) ∧
    (∀ (j : Nat) c, l[j]? = some c → Starts G c x → md.jump.lookUp i x = some j) ∧
    (∀ (j j' : Nat) c c', l[j]? = some c → l[j']? = some c' → Starts G c x → Starts G c' x → j = j') := by
  obtain ⟨G', hG', hreg, hb⟩ := metadata_build h
  have hsame := hG.same hG'
  have hm : (i, Rule.alt l) ∈ G' := (hG'.2 _ _).2 ⟨(reach_iff_schema hG i).1 hr, hi.symm⟩
  have hr' : Reachable G' root.pid i := (reach_iff_schema hG' i).2 ((reach_iff_schema hG i).1 hr)
  obtain ⟨seen, hj⟩ := (build_ok hb).2.2.2
  obtain ⟨hs, hc⟩ := buildJump_lookUp hj ((reach_iff hG'.1 _ _).2 hr') (aget?_of_mem hG'.1 hm) x
  have hd : ∀ c, md.first.den c x ↔ Starts G c x := fun c => metadata_first h hG c x
  have hu : ∀ (j j' : Nat) c c', l[j]? = some c → l[j']? = some c' → Starts G c x → Starts G c' x →
      j = j' := by
    have hff := fun (p q : Nat) a b hlt h1 h2 =>
      accepted_alt (p := p) (q := q) (a := a) (b := b) hG'.1 hb hr' hm hlt h1 h2
    intro j j' c c' h1 h2 h3 h4
    rw [Starts.congr hsame] at h3 h4
    have key : Overlap G' c c' := by
      cases x with
      | none => exact .inr ⟨h3, h4⟩
      | some tok => exact .inl ⟨tok, h3, h4⟩
    have key' : Overlap G' c' c := by
      cases x with
      | none => exact .inr ⟨h4, h3⟩
      | some tok => exact .inl ⟨tok, h4, h3⟩
    rcases Nat.lt_trichotomy j j' with hlt | heq | hlt
    · exact absurd key (hff j j' c c' hlt h1 h2)
    · exact heq
    · exact absurd key' (hff j' j c' c hlt h2 h1)
  refine ⟨fun j hj' => ?_, fun j c h1 h2 => ?_, hu⟩
  · obtain ⟨c, h1, h2⟩ := hs j hj'
    exact ⟨c, h1, (hd c).1 h2⟩
  · cases hl : md.jump.lookUp i x with
    | none => exact absurd hl (hc j c h1 ((hd c).2 h2))
    | some j' =>
      obtain ⟨c', h3, h4⟩ := hs j' hl
      rw [hu j' j c' c h3 h1 ((hd c').1 h4) h2]

theorem FollowOf.congr {G G' : Grammar I n} (h : ∀ p ∈ G, p ∈ G') {root i : I} {x : Option (TokenSrc n)}
    (hf : FollowOf G root i x) : FollowOf G' root i x := by
  cases x with
  | none => obtain ⟨α, hd⟩ := hf; exact ⟨α, hd.congr h⟩
  | some tok => obtain ⟨α, β, hd⟩ := hf; exact ⟨α, β, hd.congr h⟩

theorem Beyond.congr {G G' : Grammar I n} (h : ∀ p ∈ G, p ∈ G') {a : I} {tok : TokenSrc n} (hs : Beyond G a tok) :
    Beyond G' a tok := by
  obtain ⟨x, pre, mid, b, post, hm, hne, hn, β, hb⟩ := hs
  exact ⟨x, pre, mid, b, post, h _ hm, hne, fun k hk => Derives.congr h (hn k hk), β, hb.congr h⟩

theorem EndsWith.congr {G G' : Grammar I n} (h : ∀ p ∈ G, p ∈ G') {a i : I} (hs : EndsWith G a i) :
    EndsWith G' a i := by
  obtain ⟨α, hd⟩ := hs
  exact ⟨α, hd.congr h⟩

theorem NoNullableInterior.beyond [DecidableEq I] {G : Grammar I n} (hni : NoNullableInterior G) {a : I} {tok : TokenSrc n} :
    ¬ Beyond G a tok := fun h => h.absurd fun x pre y post hm h1 h2 hn => hni x pre y post hm h1 h2 hn.nullable

theorem NoNullableInterior.skipSafe [DecidableEq I] {G : Grammar I n} (hni : NoNullableInterior G) : SkipSafe G :=
  fun _ _ _ _ _ _ _ _ _ _ _ _ _ _ _ hs => hni.beyond hs

theorem metadata_follow (h : S.metadata fuel root = some (.ok md)) (hG : S.IsGrammar root G)
    {i : PId m n} {x : Option (TokenSrc n)} (hf : FollowOf G root.pid i x)
    (hsk : ∀ a tok, x = some tok → Beyond G a tok → ¬ EndsWith G a i) : (md.follow.get i).contains x = true := by
  obtain ⟨G', hG', _, hb⟩ := metadata_build h
  have h1 : ∀ p ∈ G, p ∈ G' := fun p hp => (hG.same hG' p).1 hp
  have h2 : ∀ p ∈ G', p ∈ G := fun p hp => (hG.same hG' p).2 hp
  rcases (hf.congr h1).computed with hc | ⟨a, tok, rfl, h3, h4⟩
  · exact (build_follow_den hb i x).2 hc
  · exact absurd (h4.congr h2) (hsk a tok rfl (h3.congr h2))

end Teleparse

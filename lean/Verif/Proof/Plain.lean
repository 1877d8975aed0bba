import Verif.Spec.Plain
import Verif.Proof.Check
import Verif.Props.Completeness
import Verif.Props.Termination
/-
What the check of `Spec/Plain.lean` implies.
-/
namespace Teleparse
namespace Plain
variable {m n : Nat} {S : Schema m n} {fuel : Nat}

theorem lacks {bad : Ty m n → Bool} {t : Ty m n} (h : S.lacks fuel bad t = true) {u : Ty m n}
    (hu : Reach S.tyParts t u) : bad u = false := by
  unfold Schema.lacks at h
  simp only [Bool.and_eq_true, decide_eq_true_eq] at h
  have := List.all_eq_true.1 h.2 u (reach_of_check _ h.1.1 h.1.2 hu)
  simpa using this

theorem loopFree {t : Ty m n} (h : S.lacks fuel Ty.isLoopB t = true) : LoopFree S t := by
  intro u hu a he
  have := lacks h hu
  rw [he] at this
  cases this

theorem recoverFree {t : Ty m n} (h : S.lacks fuel Ty.isRecoverB t = true) : RecoverFree S t := by
  intro u hu a b he
  have := lacks h hu
  rw [he] at this
  cases this

theorem loopTail : ∀ (k : Nat) (t : Ty m n), S.loopLast (S.lacks fuel Ty.isLoopB) k t = true → LoopTail S t
  | 0, t, h => .free (loopFree h)
  | k + 1, t, h => by
    unfold Schema.loopLast at h
    rw [Bool.or_eq_true] at h
    rcases h with h | h
    · exact .free (loopFree h)
    cases t with
    | loop a => exact .loop (loopFree h)
    | box a => exact .box (loopTail k a h)
    | quote a => exact .quote (loopTail k a h)
    | parse a => exact .parse (loopTail k a h)
    | tup2 a b =>
      simp only [Bool.and_eq_true] at h
      refine .tuple (ts := [a]) (u := b) (by simp [Ty.isTuple]) ?_ (loopTail k b h.2)
      simpa using loopFree h.1
    | tup3 a b c =>
      simp only [Bool.and_eq_true] at h
      refine .tuple (ts := [a, b]) (u := c) (by simp [Ty.isTuple]) ?_ (loopTail k c h.2)
      simpa using ⟨loopFree h.1.1, loopFree h.1.2⟩
    | tup4 a b c d =>
      simp only [Bool.and_eq_true] at h
      refine .tuple (ts := [a, b, c]) (u := d) (by simp [Ty.isTuple]) ?_ (loopTail k d h.2)
      simpa using ⟨loopFree h.1.1.1, loopFree h.1.1.2, loopFree h.1.2⟩
    | tup5 a b c d e =>
      simp only [Bool.and_eq_true] at h
      refine .tuple (ts := [a, b, c, d]) (u := e) (by simp [Ty.isTuple]) ?_ (loopTail k e h.2)
      simpa using ⟨loopFree h.1.1.1.1, loopFree h.1.1.1.2, loopFree h.1.1.2, loopFree h.1.2⟩
    | user u =>
      dsimp only at h
      split at h
      · rename_i f fs hk
        rw [Bool.and_eq_true] at h
        exact .struct hk (List.dropLast_concat_getLast (by simp)).symm
          (fun v hv => loopFree (List.all_eq_true.1 h.1 v hv)) (loopTail k _ h.2)
      · cases h
    | _ => cases h

theorem mem_grow {I : Type} [DecidableEq I] {step : List I → List I} {a : I} : ∀ (k : Nat) (l : List I), a ∈ l →
    a ∈ grow step k l
  | 0, _, h => h
  | k + 1, l, h => by
    unfold grow
    split
    · exact h
    · exact mem_grow k _ (List.mem_append_left _ h)

theorem mem_nexts {nul : PId m n → Bool} {b : PId m n} {post : List (PId m n)} : ∀ mid : List (PId m n),
    (∀ k ∈ mid, nul k = true) → b ∈ nexts nul (mid ++ b :: post)
  | [], _ => List.mem_cons_self
  | c :: mid, h => by
    simp only [List.cons_append, nexts, if_pos (h c (by simp))]
    exact List.mem_cons_of_mem _ (mem_nexts mid fun k hk => h k (by simp [hk]))

theorem mem_gaps {nul : PId m n → Bool} {a b c : PId m n} {mid post : List (PId m n)} (hc : nul c = true)
    (hm : ∀ k ∈ mid, nul k = true) : ∀ pre : List (PId m n), (a, b) ∈ gaps nul (pre ++ a :: c :: (mid ++ b :: post))
  | [] => by
    simp only [List.nil_append, gaps, if_pos hc]
    exact List.mem_append_left _ (List.mem_map.2 ⟨b, mem_nexts mid hm, rfl⟩)
  | d :: pre => by
    have ih := mem_gaps (a := a) (b := b) (c := c) (mid := mid) (post := post) hc hm pre
    cases pre with
    | nil => exact List.mem_append_right _ ih
    | cons e pre => exact List.mem_append_right _ ih

variable {root : Ty m n} {md : Metadata (PId m n) n} {G : Grammar (PId m n) n}

/-- What the check says about a part before empty ones. -/
theorem gap (hmd : S.metadata fuel root = some (.ok md)) (hG : S.IsGrammar root G) {k : Nat}
    (h : gapCheck G md.first.get k = true) {a i : PId m n} {tok : TokenSrc n} (hb : Beyond G a tok)
    (he : EndsWith G a i) : i.isPunct = false ∧ ∀ l, (i, Rule.alt l) ∈ G → (∃ s ∈ l, Nullable G s) →
      ∀ t ∈ l, ¬ FirstOf G t tok := by
  have hnul : ∀ i, Nullable G i → (md.first.get i).contains none = true :=
    fun i hi => (metadata_first hmd hG i none).2 hi
  obtain ⟨x, pre, mid, b, post, hx, hne, hmid, hf⟩ := hb
  cases mid with
  | nil => exact absurd rfl hne
  | cons c mid =>
    have h1 := List.all_eq_true.1 (List.all_eq_true.1 h _ hx) (a, b)
      (mem_gaps (hnul c (hmid c (by simp))) (fun k hk => hnul k (hmid k (by simp [hk]))) pre)
    simp only [Bool.and_eq_true] at h1
    have h2 := tail_of_check (fun i hi => hnul i hi.nullable) h1.1.1 (mem_grow k _ (List.mem_singleton.2 rfl)) he.tailOf
    refine ⟨by simpa using List.all_eq_true.1 h1.1.2 _ h2, ?_⟩
    rintro l hl ⟨s, hs, hn⟩ t ht hft
    have h3 := List.all_eq_true.1 h1.2 _ hl
    simp only [Bool.or_eq_true, Bool.not_eq_true'] at h3
    rcases h3 with (h3 | h3) | h3
    · rw [List.contains_iff_mem.2 h2] at h3
      cases h3
    · have := List.all_eq_true.1 h3 s hs
      simp [hnul s hn] at this
    · have := List.all_eq_true.1 h3 t ht
      simp only [Bool.not_eq_true'] at this
      rw [(TSet.intersects_iff ..).2 (.inl ⟨tok, (metadata_first hmd hG t (some tok)).2 hft,
        (metadata_first hmd hG b (some tok)).2 hf⟩)] at this
      cases this

/-- All that the check says. -/
structure Good (S : Schema m n) (fuel : Nat) (root : Ty m n) (md : Metadata (PId m n) n) (G : Grammar (PId m n) n) :
    Prop where
  md : S.metadata fuel root = some (.ok md)
  gram : S.IsGrammar root G
  beyond : ∀ a i tok, Beyond G a tok → EndsWith G a i → i.isPunct = false ∧ ∀ l, (i, Rule.alt l) ∈ G →
    (∃ s ∈ l, Nullable G s) → ∀ t ∈ l, ¬ FirstOf G t tok
  productive : ∀ i, Reachable G root.pid i → Productive G i
  enum : ∀ k v vs, S k = .enum v vs → ¬ Nullable G (.user k)
  sep : ∀ t p, Reach S.tyParts root (.split t p) → ¬ Nullable G p.pid
  loop : LoopTail S root
  loud : Loud S root

theorem good {root : Ty m n} (h : S.plain fuel root = true) : ∃ md G, Good S fuel root md G := by
  unfold Schema.plain at h
  split at h
  · rename_i G md hreg hmd
    have hG : S.IsGrammar root G := .of_register hreg
    simp only [Bool.and_eq_true, decide_eq_true_eq] at h
    obtain ⟨⟨⟨⟨⟨⟨⟨h1, h2⟩, h3⟩, h4⟩, h5⟩, h6⟩, h7⟩, h8⟩ := h
    refine ⟨md, G, hmd, hG, ?_, ?_, ?_, ?_, loopTail fuel root h5, ?_⟩
    · exact fun a i tok hb he => gap hmd hG h1 hb he
    · exact productive_of_check hG fuel h2
    · intro k v vs hk hn
      have := List.all_eq_true.1 h3 k (List.mem_finRange k)
      rw [hk] at this
      have hf := (metadata_first hmd hG (.user k) none).2 hn
      rw [hf] at this
      cases this
    · intro t p hr hn
      have := lacks h4 hr
      have hf := (metadata_first hmd hG p.pid none).2 hn
      simp only [Ty.emptySep] at this
      rw [hf] at this
      cases this
    · intro u hu e he
      have := List.all_eq_true.1 (List.all_eq_true.1 h8 u (reach_of_check _ h6 h7 hu)) e he
      exact (recoverFree this).loud.2
  · cases h

theorem Good.safe (h : Good S fuel root md G) : SkipSafe G := by
  intro a i l p q s t tok he hl _ hp hq hn hf hb
  exact (h.beyond a i tok hb he).2 l hl ⟨s, List.mem_iff_getElem?.2 ⟨p, hp⟩, hn⟩ t (List.mem_iff_getElem?.2 ⟨q, hq⟩) hf

theorem Good.punct (h : Good S fuel root md G) {t p : Ty m n} {a : PId m n} {tok : TokenSrc n} (hb : Beyond G a tok) :
    ¬ EndsWith G a (Ty.punct t p).pid := by
  intro he
  have := (h.beyond a _ tok hb he).1
  cases this

theorem Good.found (h : Good S fuel root md G) : Found S md root G :=
  .of_ll1 h.md h.gram (metadata_ll1 h.md h.gram h.safe) (fun _ _ _ _ _ hb => h.punct hb)
    (fun k v vs hk _ hn => absurd hn (h.enum k v vs hk)) h.sep

end Plain
end Teleparse

import Verif.Proof.Ends
import Verif.Proof.Transfer
import Verif.Proof.ChosenFront
/-
A type whose FIRST set does not contain the next token reads nothing, unless it reports an error; and if it gives a
tree it can be empty.
-/
namespace Teleparse
variable {m n : Nat}

namespace Quiet
variable {S : Schema m n} {md : Metadata (PId m n) n} {root : Ty m n} {G : Grammar (PId m n) n}

/-- The FIRST sets are those of the grammar. -/
structure Tabs (S : Schema m n) (md : Metadata (PId m n) n) (root : Ty m n) (G : Grammar (PId m n) n) : Prop
    extends Rules S root G where
  starts : ∀ i x, (md.first.get i).contains x = true ↔ Starts G i x

theorem Tabs.firstAt (E : Tabs S md root G) {i : PId m n} {v : View n} :
    (v.look.isSome && (md.first.get i).contains v.look) = true ↔ FirstAt G i v := by
  rw [Bool.and_eq_true]
  constructor
  · rintro ⟨h1, h2⟩
    cases hl : v.look with
    | none => rw [hl] at h1; cases h1
    | some tok =>
      rw [hl] at h2
      exact ⟨tok, hl, firstOf_iff.1 ((E.starts i (some tok)).1 h2)⟩
  · rintro ⟨tok, h1, h2⟩
    rw [h1]
    exact ⟨rfl, (E.starts i (some tok)).2 (firstOf_iff.2 h2)⟩

theorem Tabs.guard (E : Tabs S md root G) {i : PId m n} {v : View n}
    (h : ((md.first.get i).contains v.look || (md.first.get i).containsE) = true) : FirstAt G i v ∨ Null G i := by
  rw [Bool.or_eq_true] at h
  rcases h with h | h
  · cases hl : v.look with
    | none => rw [hl] at h; exact .inr (nullable_iff.1 ((E.starts i none).1 h))
    | some tok => exact .inl (E.firstAt.1 (by rw [hl] at h ⊢; exact h))
  · exact .inr (nullable_iff.1 ((E.starts i none).1 h))

/-- There is a next token, and it cannot begin `i`. -/
def Away (G : Grammar (PId m n) n) (i : PId m n) (v : View n) : Prop := v.look ≠ none ∧ ¬ FirstAt G i v

theorem Away.adv {i : PId m n} {v w : View n} (h : Away G i v) (ha : Adv v w) (hl : v.len ≤ w.len) : Away G i w :=
  ⟨by rw [ha.look_eq hl]; exact h.1, fun hf => h.2 ((ha.firstAt hl).1 hf)⟩

/-- The claim about a result. -/
def Still (G : Grammar (PId m n) n) (i : PId m n) (v : View n) (r : Res n (Tree n)) (v' : View n) : Prop :=
  r.errs = [] → v.len ≤ v'.len ∧ (r.tree?.isSome = true → Null G i)

/-- The claim about a parser. -/
def Quiet (G : Grammar (PId m n) n) (i : PId m n) (p : P (View n) n) : Prop :=
  ∀ v r v', p v = .ok r v' → Adv v v' ∧ (Away G i v → Still G i v r v')

theorem seq_quiet {f : Ty m n → P (View n) n} : ∀ (ts : List (Ty m n)), (∀ t ∈ ts, Quiet G t.pid (f t)) →
    ∀ v acc errs x v', seqLoop (ts.map f) acc errs v = .ok x v' → Adv v v' ∧
      ((∀ pre u post, ts = pre ++ u :: post → (∀ k ∈ pre, Null G (Ty.pid k)) → Away G (Ty.pid u) v) → ¬ DS x →
        v.len ≤ v'.len ∧ ((∃ a, x = .ok a) → ∀ u ∈ ts, Null G u.pid))
  | [], _, v, acc, errs, x, v', h => by
    obtain ⟨rfl, rfl⟩ := pure_ok.1 h
    exact ⟨.refl _, fun _ _ => ⟨Nat.le_refl _, fun _ _ h => by cases h⟩⟩
  | t :: ts, hq, v, acc, errs, x, v', h => by
    simp only [List.map_cons, seqLoop] at h
    obtain ⟨r, w, h1, h2⟩ := bind_ok.1 h
    obtain ⟨a1, s1⟩ := hq t (by simp) v r w h1
    have next : ∀ acc errs', seqLoop (ts.map f) acc errs' w = .ok x v' → (¬ DS x → r.errs = []) →
        r.tree?.isSome = true → Adv v v' ∧
        ((∀ pre u post, t :: ts = pre ++ u :: post → (∀ k ∈ pre, Null G (Ty.pid k)) → Away G (Ty.pid u) v) →
        ¬ DS x → v.len ≤ v'.len ∧ ((∃ a, x = .ok a) → ∀ u ∈ t :: ts, Null G u.pid)) := by
      intro acc errs' h3 hc hs
      obtain ⟨a2, s2⟩ := seq_quiet ts (fun u hu => hq u (by simp [hu])) _ _ _ _ _ h3
      refine ⟨a1.trans a2, fun hn hd => ?_⟩
      obtain ⟨g1, g2⟩ := s1 (hn [] t ts rfl (by simp)) (hc hd)
      have hnull := g2 hs
      obtain ⟨g3, g4⟩ := s2 (by
        intro pre u post hts hp
        refine Away.adv (hn (t :: pre) u post (by rw [hts]; rfl) ?_) a1 g1
        intro k hk
        rcases List.mem_cons.1 hk with rfl | hk
        · exact hnull
        · exact hp k hk) hd
      refine ⟨by omega, fun ha u hu => ?_⟩
      rcases List.mem_cons.1 hu with rfl | hu
      · exact hnull
      · exact g4 ha u hu
    cases r with
    | success y => exact next _ _ h2 (fun _ => rfl) rfl
    | recovered y e =>
      refine next _ _ h2 (fun hd => ?_) rfl
      refine Classical.byContradiction fun he => ?_
      exact hd (seqLoop_dies _ _ _ (append_ne_right he) _ _ _ h2)
    | panic e =>
      obtain ⟨rfl, rfl⟩ := pure_ok.1 h2
      refine ⟨a1, fun hn hd => ?_⟩
      obtain ⟨g1, -⟩ := s1 (hn [] t ts rfl (by simp)) (by
        refine Classical.byContradiction fun he => ?_
        exact hd (append_ne_right (a := errs) he))
      exact ⟨g1, by rintro ⟨_, h⟩; cases h⟩

/-- Parts of a sequence. -/
theorem Tabs.seq_parts (E : Tabs S md root G) {i : PId m n} (hr : PReach S root i) {ts : List (Ty m n)}
    (hrule : S.rule i = .seq (ts.map Ty.pid)) {v : View n} (hn : Away G i v) :
    (∀ pre u post, ts = pre ++ u :: post → (∀ k ∈ pre, Null G (Ty.pid k)) → Away G (Ty.pid u) v) ∧
    ((∀ u ∈ ts, Null G u.pid) → Null G i) := by
  constructor
  · rintro pre u post rfl hp
    refine ⟨hn.1, ?_⟩
    rintro ⟨tok, h1, h2⟩
    refine hn.2 ⟨tok, h1, FirstI.seq (pre := pre.map Ty.pid) (j := u.pid) (post := post.map Ty.pid) ?_ ?_ h2⟩
    · have := E.mem hr
      rw [hrule] at this
      simpa using this
    · intro k hk
      obtain ⟨x, hx, rfl⟩ := List.mem_map.1 hk
      exact hp x hx
  · intro h
    have := E.mem hr
    rw [hrule] at this
    refine Null.seq this fun j hj => ?_
    obtain ⟨x, hx, rfl⟩ := List.mem_map.1 hj
    exact h x hx

theorem ofPair_clean {x : Tree n} {e : List (Err n)} (h : (Res.ofPair x e).errs = []) : e = [] :=
  Classical.byContradiction fun he => ofPair_dirty he h

theorem Tabs.tuple (E : Tabs S md root G) {t : Ty m n} {ts : List (Ty m n)} (hr : PReach S root t.pid)
    (hrule : S.rule t.pid = .seq (ts.map Ty.pid)) {f : Ty m n → P (View n) n} (hq : ∀ t ∈ ts, Quiet G t.pid (f t)) :
    Quiet G t.pid (produceTuple (ts.map f)) := by
  intro v r v' h
  obtain ⟨x, w, h1, h2⟩ := bind_ok.1 h
  obtain ⟨a1, s1⟩ := seq_quiet ts hq _ _ _ _ _ h1
  rcases x with e | ⟨l, e⟩
  · obtain ⟨rfl, rfl⟩ := pure_ok.1 h2
    refine ⟨a1, fun hn he => ?_⟩
    obtain ⟨b1, b2⟩ := E.seq_parts hr hrule hn
    exact ⟨(s1 b1 (fun hd => hd he)).1, by intro h; cases h⟩
  · obtain ⟨rfl, rfl⟩ := pure_ok.1 h2
    refine ⟨a1, fun hn he => ?_⟩
    obtain ⟨b1, b2⟩ := E.seq_parts hr hrule hn
    obtain ⟨g1, g2⟩ := s1 b1 (fun hd => hd (ofPair_clean he))
    exact ⟨g1, fun _ => b2 (g2 ⟨_, rfl⟩)⟩

theorem applyAll_len : ∀ (l : List (Tree n × Option (LSet n))) (v : View n), (v.applyAll l).len = v.len
  | [], _ => rfl
  | (_, none) :: l, v => applyAll_len l v
  | (t, some sem) :: l, v => (applyAll_len l _).trans rfl

theorem Tabs.struct (E : Tabs S md root G) {k : Fin m} {f : Field m n} {fs : List (Field m n)} (hk : S k = .struct f fs)
    (hr : PReach S root (.user k)) {rec : Ty m n → P (View n) n} (hq : ∀ u ∈ f :: fs, Quiet G u.1.pid (rec u.1)) :
    Quiet G (.user k) (produceStruct View.ops ((f :: fs).map fun f => (rec f.1, f.2))) := by
  intro v r v' h
  have hrule : S.rule (.user k) = .seq (((f :: fs).map (·.1)).map Ty.pid) := by
    simp only [Schema.rule, hk, List.map_map]; rfl
  obtain ⟨x, w, h1, h2⟩ := bind_ok.1 h
  rw [show (((f :: fs).map fun f => (rec f.1, f.2)).map (·.1)) = ((f :: fs).map (·.1)).map rec by
    rw [List.map_map, List.map_map]; rfl] at h1
  obtain ⟨a1, s1⟩ := seq_quiet ((f :: fs).map (·.1)) (by
    intro t ht
    obtain ⟨u, hu, rfl⟩ := List.mem_map.1 ht
    exact hq u hu) _ _ _ _ _ h1
  rcases x with e | ⟨l, e⟩
  · obtain ⟨rfl, rfl⟩ := pure_ok.1 h2
    refine ⟨a1, fun hn he => ?_⟩
    obtain ⟨b1, b2⟩ := E.seq_parts hr hrule hn
    exact ⟨(s1 b1 (fun hd => hd he)).1, by intro h; cases h⟩
  · obtain ⟨_, w', h3, h4⟩ := bind_ok.1 h2
    have h3 := applyFields_ok.1 h3
    subst h3
    obtain ⟨rfl, rfl⟩ := pure_ok.1 h4
    refine ⟨a1.trans (.applyAll _ _), fun hn he => ?_⟩
    obtain ⟨b1, b2⟩ := E.seq_parts hr hrule hn
    obtain ⟨g1, g2⟩ := s1 b1 (fun hd => hd (ofPair_clean he))
    exact ⟨by rw [applyAll_len]; exact g1, fun _ => b2 (g2 ⟨_, rfl⟩)⟩

theorem Tabs.alt (E : Tabs S md root G) {i : PId m n} (hr : PReach S root i) {l : List (PId m n)}
    (hrule : S.rule i = .alt l) {j : PId m n} (hj : j ∈ l) :
    (∀ v : View n, FirstAt G j v → FirstAt G i v) ∧ (Null G j → Null G i) := by
  have hm := E.mem hr
  rw [hrule] at hm
  exact ⟨fun v h => h.imp fun tok hf => .alt hm hj hf, fun h => .alt hm hj h⟩

theorem Tabs.enum (E : Tabs S md root G) {k : Fin m} {f : Field m n} {fs : List (Field m n)} (hk : S k = .enum f fs)
    (hr : PReach S root (.user k)) {rec : Ty m n → P (View n) n} (hq : ∀ u ∈ f :: fs, Quiet G u.1.pid (rec u.1))
    (look : Option (TokenSrc n) → Option Nat) (first : TSet n) :
    Quiet G (.user k) (produceEnum View.ops look first ((f :: fs).map fun v => (rec v.1, v.2))) := by
  intro v r v' h
  have hrule : S.rule (.user k) = .alt ((f :: fs).map fun f => f.1.pid) := by simp only [Schema.rule, hk]
  obtain ⟨x, w, h1, h2⟩ := bind_ok.1 h
  obtain ⟨rfl, rfl, -⟩ := mPeekSrc_ok.1 h1
  have dead : ∀ (r : Res n (Tree n)) (v' : View n),
      (do let e ← (View.ops (n := n)).mExpecting first; pure (.panic [e]) : P (View n) n) w = .ok r v' →
      Adv w v' ∧ (Away G (.user k) w → Still G (.user k) w r v') := by
    intro r v' h
    obtain ⟨e, w', h3, h4⟩ := bind_ok.1 h
    obtain ⟨-, rfl⟩ := mExpecting_ok.1 h3
    obtain ⟨rfl, rfl⟩ := pure_ok.1 h4
    exact ⟨.refl _, fun _ he => by cases he⟩
  cases hl : look w.look with
  | none => rw [hl] at h2; exact dead _ _ h2
  | some i =>
    rw [hl] at h2
    simp only [List.getElem?_map] at h2
    cases hg : (f :: fs)[i]? with
    | none => rw [hg] at h2; exact dead _ _ h2
    | some u =>
      rw [hg] at h2
      simp only [Option.map_some] at h2
      obtain ⟨r', w', h3, h4⟩ := bind_ok.1 h2
      have hu := List.mem_of_getElem? hg
      obtain ⟨a1, s1⟩ := hq u hu _ _ _ h3
      obtain ⟨c1, c2⟩ := E.alt hr hrule (List.mem_map.2 ⟨u, hu, rfl⟩)
      cases r' with
      | success y =>
        obtain ⟨_, w2, h5, h6⟩ := bind_ok.1 h4
        have h5 := applyFields_ok.1 h5
        subst h5
        obtain ⟨rfl, rfl⟩ := pure_ok.1 h6
        refine ⟨a1.trans (.applyAll _ _), fun hn he => ?_⟩
        obtain ⟨g1, g2⟩ := s1 ⟨hn.1, fun hf => hn.2 (c1 _ hf)⟩ he
        exact ⟨by rw [applyAll_len]; exact g1, fun _ => c2 (g2 rfl)⟩
      | recovered y e =>
        obtain ⟨_, w2, h5, h6⟩ := bind_ok.1 h4
        have h5 := applyFields_ok.1 h5
        subst h5
        obtain ⟨rfl, rfl⟩ := pure_ok.1 h6
        refine ⟨a1.trans (.applyAll _ _), fun hn he => ?_⟩
        obtain ⟨g1, g2⟩ := s1 ⟨hn.1, fun hf => hn.2 (c1 _ hf)⟩ he
        exact ⟨by rw [applyAll_len]; exact g1, fun _ => c2 (g2 rfl)⟩
      | panic e =>
        obtain ⟨rfl, rfl⟩ := pure_ok.1 h4
        refine ⟨a1, fun hn he => ?_⟩
        obtain ⟨g1, g2⟩ := s1 ⟨hn.1, fun hf => hn.2 (c1 _ hf)⟩ he
        exact ⟨g1, fun h => by cases h⟩

theorem Tabs.option (E : Tabs S md root G) {t : PId m n} (hr : PReach S root (.opt t)) {p : P (View n) n}
    (hq : Quiet G t.id p) (mk : Span → Option (Tree n) → Tree n) :
    Quiet G (.opt t) (produceOption View.ops (md.first.get t.id) p mk) := by
  intro v r v' h
  have hnull : Null G (.opt t) := Front.opt E.toRules hr
  obtain ⟨x, w, h1, h2⟩ := bind_ok.1 h
  obtain ⟨rfl, rfl, -⟩ := mPeekSrc_ok.1 h1
  by_cases hc : (w.look.isSome && (md.first.get t.id).contains w.look) = true
  · rw [if_pos hc] at h2
    have hf : FirstAt G (.opt t) w := (E.firstAt.1 hc).imp fun tok hf => E.opt_some hr hf
    refine ⟨?_, fun hn => absurd hf hn.2⟩
    obtain ⟨r', w', h3, h4⟩ := bind_ok.1 h2
    have a1 := (hq _ _ _ h3).1
    cases r' with
    | success y => obtain ⟨rfl, rfl⟩ := pure_ok.1 h4; exact a1
    | recovered y e => obtain ⟨rfl, rfl⟩ := pure_ok.1 h4; exact a1
    | panic e =>
      obtain ⟨sp, w2, h5, h6⟩ := bind_ok.1 h4
      obtain ⟨-, rfl⟩ := mEmptySpan_ok.1 h5
      obtain ⟨rfl, rfl⟩ := pure_ok.1 h6
      exact a1
  · rw [if_neg hc] at h2
    obtain ⟨sp, w2, h5, h6⟩ := bind_ok.1 h2
    obtain ⟨-, rfl⟩ := mEmptySpan_ok.1 h5
    obtain ⟨rfl, rfl⟩ := pure_ok.1 h6
    exact ⟨.refl _, fun _ _ => ⟨Nat.le_refl _, fun _ => hnull⟩⟩

theorem text {i : PId m n} {p : P (View n) n} (hq : Quiet G i p) : Quiet G i (produceText View.ops p) := by
  intro v r v' h
  obtain ⟨r', w, h1, h2⟩ := bind_ok.1 h
  obtain ⟨a1, s1⟩ := hq _ _ _ h1
  cases r' with
  | success y =>
    obtain ⟨s, w2, h3, h4⟩ := bind_ok.1 h2
    obtain ⟨-, rfl⟩ := mGetSrc_ok.1 h3
    obtain ⟨rfl, rfl⟩ := pure_ok.1 h4
    exact ⟨a1, fun hn he => s1 hn he⟩
  | recovered y e =>
    obtain ⟨s, w2, h3, h4⟩ := bind_ok.1 h2
    obtain ⟨-, rfl⟩ := mGetSrc_ok.1 h3
    obtain ⟨rfl, rfl⟩ := pure_ok.1 h4
    exact ⟨a1, fun hn he => s1 hn he⟩
  | panic e =>
    obtain ⟨rfl, rfl⟩ := pure_ok.1 h2
    exact ⟨a1, fun hn he => s1 hn he⟩

theorem iter_stop {first : TSet n} {p : P (View n) n} {v : View n}
    (hc : ¬ (v.look.isSome && first.contains v.look) = true) : ∀ {fuel acc errs hi x v'},
    iterLoop View.ops first p fuel acc errs hi v = .ok x v' → x = (acc, errs, hi) ∧ v' = v := by
  intro fuel acc errs hi x v' h
  cases fuel with
  | zero => cases h
  | succ fuel =>
    obtain ⟨_, w, h1, h2⟩ := bind_ok.1 h
    obtain ⟨rfl, rfl, -⟩ := mPeekSrc_ok.1 h1
    rw [if_neg hc] at h2
    obtain ⟨rfl, rfl⟩ := pure_ok.1 h2
    exact ⟨rfl, rfl⟩

theorem Tabs.plus (E : Tabs S md root G) {t : PId m n} (hr : PReach S root (.plus t)) {p : P (View n) n}
    (hq : Quiet G t.id p) (fuel : Nat) (hadv : ∀ v r v',
      producePlus View.ops (md.first.get (.plus t)) p fuel v = .ok r v' → Adv v v') :
    Quiet G (.plus t) (producePlus View.ops (md.first.get (.plus t)) p fuel) := by
  intro v r v' h
  refine ⟨hadv _ _ _ h, fun hn he => ?_⟩
  have hn' : Away G t.id v := ⟨hn.1, fun hf => hn.2 (hf.imp fun tok hf => E.plus_some hr hf)⟩
  obtain ⟨r', w, h1, h2⟩ := bind_ok.1 h
  obtain ⟨a1, s1⟩ := hq _ _ _ h1
  have go : ∀ y errs, plusRest View.ops (md.first.get (.plus t)) p fuel y errs w = .ok r v' → r'.errs = errs →
      r'.tree?.isSome = true → v.len ≤ v'.len ∧ (r.tree?.isSome = true → Null G (.plus t)) := by
    intro y errs h3 h4 h5
    have hc : errs = [] := Classical.byContradiction fun hne => plusRest_dies _ _ _ _ hne _ _ _ h3 he
    obtain ⟨g1, g2⟩ := s1 hn' (h4.trans hc)
    obtain ⟨x, w2, h6, h7⟩ := bind_ok.1 h3
    obtain ⟨rfl, rfl⟩ := iter_stop (fun hc => hn.2 ((a1.firstAt g1).1 (E.firstAt.1 hc))) h6
    obtain ⟨rfl, rfl⟩ := pure_ok.1 h7
    exact ⟨g1, fun _ => E.plus_null hr (g2 h5)⟩
  cases r' with
  | success y => exact go y _ h2 rfl rfl
  | recovered y e => exact go y _ h2 rfl rfl
  | panic e =>
    obtain ⟨rfl, rfl⟩ := pure_ok.1 h2
    obtain ⟨g1, g2⟩ := s1 hn' he
    exact ⟨g1, fun h => by cases h⟩

theorem Tabs.loop (E : Tabs S md root G) {t : PId m n} {p : P (View n) n} (fuel : Nat)
    (hadv : ∀ v r v', produceLoop View.ops (md.first.get (.plus t)) p fuel v = .ok r v' → Adv v v') :
    Quiet G (.plus t) (produceLoop View.ops (md.first.get (.plus t)) p fuel) := by
  intro v r v' h
  refine ⟨hadv _ _ _ h, fun hn he => False.elim ?_⟩
  obtain ⟨⟨out, errs⟩, w, h1, h2⟩ := bind_ok.1 h
  have herr : errs = [] := by
    refine Classical.byContradiction fun hne => ?_
    dsimp only at h2
    by_cases ho : out.isEmpty = true
    · rw [if_pos ho] at h2
      obtain ⟨sp, w2, h3, h4⟩ := bind_ok.1 h2
      obtain ⟨rfl, rfl⟩ := pure_ok.1 h4
      exact ofPair_dirty hne he
    · rw [if_neg ho] at h2
      obtain ⟨rfl, rfl⟩ := pure_ok.1 h2
      exact ofPair_dirty hne he
  cases fuel with
  | zero => cases h1
  | succ fuel =>
    obtain ⟨_, w0, h3, h4⟩ := bind_ok.1 h1
    obtain ⟨rfl, rfl, -⟩ := mPeekSrc_ok.1 h3
    cases hl : w0.look with
    | none => exact hn.1 hl
    | some tok =>
      rw [if_neg (by rw [hl]; simp)] at h4
      have hc : (md.first.get (.plus t)).contains w0.look = false := by
        cases hb : (md.first.get (.plus t)).contains w0.look with
        | false => rfl
        | true => exact absurd (E.firstAt.1 (by rw [hb, hl]; rfl)) hn.2
      obtain ⟨⟨errs', more⟩, w1, h5, h6⟩ := bind_ok.1 h4
      rw [if_pos (by rw [hc]; rfl)] at h5
      have hd := loopSkip_dies _ _ _ _ _ _ h5
      dsimp only at h6
      by_cases hm : (!more) = true
      · rw [if_pos hm] at h6
        obtain ⟨hx, rfl⟩ := pure_ok.1 h6
        cases hx
        exact absurd herr hd
      · rw [if_neg hm] at h6
        obtain ⟨⟨go, out', errs2⟩, w2, h7, h8⟩ := bind_ok.1 h6
        have hd2 := loopElem_dies _ _ hd _ _ _ h7
        dsimp only at h8
        by_cases hg : go = true
        · rw [if_pos hg] at h8
          exact absurd herr (loopLoop_dies _ _ _ _ _ hd2 _ _ _ h8)
        · rw [if_neg hg] at h8
          obtain ⟨hx, rfl⟩ := pure_ok.1 h8
          cases hx
          exact absurd herr hd2

theorem Tabs.recover (E : Tabs S md root G) {a b : PId m n} (hr : PReach S root (.tup2 a b)) {pa pb : P (View n) n}
    (ha : Quiet G a.id pa) (hb : Quiet G b.id pb) (fuel : Nat)
    (hadv : ∀ v r v', produceRecover View.ops (md.first.get a.id) (md.first.get b.id) pa pb fuel v = .ok r v' →
      Adv v v') :
    Quiet G (.tup2 a b) (produceRecover View.ops (md.first.get a.id) (md.first.get b.id) pa pb fuel) := by
  intro v r v' h
  refine ⟨hadv _ _ _ h, fun hn he => ?_⟩
  have hm := E.mem hr
  simp only [Schema.rule] at hm
  have na : ¬ FirstAt G a.id v := fun hf => hn.2 (hf.imp fun tok hf =>
    FirstI.seq (pre := []) (j := a.id) (post := [b.id]) hm (by simp) hf)
  obtain ⟨hd, w, h1, h2⟩ := bind_ok.1 h
  obtain ⟨⟨tail, errs, panic⟩, w', h3, h4⟩ := bind_ok.1 h2
  dsimp only at h4
  -- no errors anywhere
  have hend : errs = [] ∧ panic = none ∧ v' = w' ∧ (r.tree?.isSome = true → tail.isSome = true) := by
    cases tail with
    | none =>
      obtain ⟨rfl, rfl⟩ := pure_ok.1 h4
      have : errs ++ panic.toList = [] := he
      rw [List.append_eq_nil_iff] at this
      exact ⟨this.1, toList_nil.1 this.2, rfl, fun h => by cases h⟩
    | some x =>
      obtain ⟨rfl, rfl⟩ := pure_ok.1 h4
      have := ofPair_clean he
      rw [List.append_eq_nil_iff] at this
      exact ⟨this.1, toList_nil.1 this.2, rfl, fun _ => rfl⟩
  obtain ⟨rfl, rfl, rfl, htail⟩ := hend
  have hhead : hd.errs = [] ∧ hd.panic = none := by
    refine Classical.byContradiction fun hc => ?_
    have : hd.errs ≠ [] ∨ hd.panic ≠ none := by
      by_cases h : hd.errs = []
      · exact .inr fun h' => hc ⟨h, h'⟩
      · exact .inl h
    have := recoverLoop_dies _ _ _ _ _ this _ _ _ h3
    rcases this with h | h <;> exact h rfl
  -- the head
  have first : Adv v w ∧ v.len ≤ w.len ∧ Null G a.id := by
    obtain ⟨_, w0, h5, h6⟩ := bind_ok.1 h1
    obtain ⟨rfl, rfl, -⟩ := mPeekSrc_ok.1 h5
    by_cases hc : ((md.first.get a.id).contains w0.look || (md.first.get a.id).containsE) = true
    · rw [if_pos hc] at h6
      have hnull : Null G a.id := (E.guard hc).resolve_left na
      obtain ⟨r', w1, h7, h8⟩ := bind_ok.1 h6
      obtain ⟨a1, s1⟩ := ha _ _ _ h7
      cases r' with
      | success y =>
        obtain ⟨rfl, rfl⟩ := pure_ok.1 h8
        exact ⟨a1, (s1 ⟨hn.1, na⟩ rfl).1, hnull⟩
      | recovered y e =>
        obtain ⟨rfl, rfl⟩ := pure_ok.1 h8
        exact ⟨a1, (s1 ⟨hn.1, na⟩ hhead.1).1, hnull⟩
      | panic e =>
        obtain ⟨sp, w2, h9, h10⟩ := bind_ok.1 h8
        obtain ⟨-, rfl⟩ := mEmptySpan_ok.1 h9
        obtain ⟨rfl, rfl⟩ := pure_ok.1 h10
        exact ⟨a1, (s1 ⟨hn.1, na⟩ (List.getLast?_eq_none_iff.1 hhead.2)).1, hnull⟩
    · rw [if_neg hc] at h6
      obtain ⟨e, w1, h7, h8⟩ := bind_ok.1 h6
      obtain ⟨sp, w2, h9, h10⟩ := bind_ok.1 h8
      obtain ⟨rfl, rfl⟩ := pure_ok.1 h10
      exact absurd hhead.2 (by simp)
  obtain ⟨a1, l1, hnull⟩ := first
  have hw := hn.adv a1 l1
  have nb : ¬ FirstAt G b.id w := fun hf => hw.2 (hf.imp fun tok hf =>
    FirstI.seq (pre := [a.id]) (j := b.id) (post := []) hm (by simpa using hnull) hf)
  rw [hhead.1, hhead.2] at h3
  cases fuel with
  | zero => cases h3
  | succ fuel =>
    obtain ⟨_, w0, h5, h6⟩ := bind_ok.1 h3
    obtain ⟨rfl, rfl, -⟩ := mPeekSrc_ok.1 h5
    rw [if_neg (by
      intro h
      exact hw.1 (Option.isNone_iff_eq_none.1 h))] at h6
    have skip : ∀ panic, (recoverSkip View.ops (md.first.get b.id) panic >>= fun panic =>
        recoverLoop View.ops (md.first.get b.id) pb fuel [] panic) w0 = .ok (tail, [], none) v' → False := by
      intro panic h
      obtain ⟨p', w1, h7, h8⟩ := bind_ok.1 h
      have := recoverLoop_dies _ _ _ _ _ (.inr (recoverSkip_dies _ _ _ _ _ h7)) _ _ _ h8
      rcases this with h | h <;> exact h rfl
    by_cases hc : ((md.first.get b.id).contains w0.look || (md.first.get b.id).containsE) = true
    · rw [if_pos hc] at h6
      obtain ⟨r', w1, h7, h8⟩ := bind_ok.1 h6
      obtain ⟨a2, s2⟩ := hb _ _ _ h7
      have fin : w1 = v' → r'.errs = [] → v.len ≤ v'.len ∧ (r.tree?.isSome = true → Null G (.tup2 a b)) := by
        rintro rfl hc2
        obtain ⟨g1, g2⟩ := s2 ⟨hw.1, nb⟩ hc2
        refine ⟨by omega, fun _ => ?_⟩
        refine Null.seq hm fun j hj => ?_
        simp only [List.mem_cons, List.not_mem_nil, or_false] at hj
        rcases hj with rfl | rfl
        · exact hnull
        · exact (E.guard hc).resolve_left nb
      cases r' with
      | success y =>
        obtain ⟨hx, rfl⟩ := pure_ok.1 h8
        exact fin rfl rfl
      | recovered y e =>
        obtain ⟨hx, rfl⟩ := pure_ok.1 h8
        refine fin rfl ?_
        simp only [List.nil_append, Prod.mk.injEq] at hx
        exact hx.2.1
      | panic e =>
        obtain ⟨p', w2, h9, h10⟩ := bind_ok.1 h8
        have := recoverLoop_dies _ _ _ _ _ (.inr (recoverSkip_dies _ _ _ _ _ h9)) _ _ _ h10
        rcases this with h | h <;> exact absurd rfl h
    · rw [if_neg hc] at h6
      exact (skip _ h6).elim

/-- An element followed by separators: the separator cannot begin here either. -/
theorem Tabs.split (E : Tabs S md root G) {t p : Ty m n} (hr : PReach S root (Ty.split t p).pid) {pt pp : P (View n) n}
    (ht : Quiet G t.pid pt) (fuel : Nat) (fol : TSet n)
    (hadv : ∀ v r v', produceSplit View.ops (md.first.get t.pid) (md.first.get p.pid) fol pt pp fuel v = .ok r v' →
      Adv v v') :
    Quiet G (Ty.split t p).pid
      (produceSplit View.ops (md.first.get t.pid) (md.first.get p.pid) fol pt pp fuel) := by
  intro v r v' h
  refine ⟨hadv _ _ _ h, fun hn he => ?_⟩
  have hrule : S.rule (Ty.split t p).pid = .seq [t.pid, .opt (.plus (.tup2 p.prod t.prod))] := rfl
  have hm := E.mem hr
  rw [hrule] at hm
  have h1 : PReach S root (.opt (.plus (.tup2 p.prod t.prod))) := hr.seq hrule (by simp)
  have h2 : PReach S root (.plus (.tup2 p.prod t.prod)) := h1.alt (rule_opt _) (by simp [PId.id])
  have h3 : PReach S root (.tup2 p.prod t.prod) := h2.seq (rule_plus _) (by simp [PId.id])
  have nt : Away G t.pid v := ⟨hn.1, fun hf => hn.2 (hf.imp fun tok hf =>
    FirstI.seq (pre := []) (j := t.pid) (post := [.opt (.plus (.tup2 p.prod t.prod))]) hm (by simp) hf)⟩
  have np : Null G t.pid → ¬ FirstAt G p.pid v := fun hnull hf => hn.2 (hf.imp fun tok hf =>
    FirstI.seq (pre := [t.pid]) (j := .opt (.plus (.tup2 p.prod t.prod))) (post := []) hm (by simpa using hnull)
      (E.opt_some h1 (E.plus_some h2
        (FirstI.seq (pre := []) (j := p.pid) (post := [t.pid]) (E.mem h3) (by simp) hf))))
  have hnull2 : Null G t.pid → Null G (Ty.split t p).pid := by
    intro hnull
    refine Null.seq hm fun j hj => ?_
    simp only [List.mem_cons, List.not_mem_nil, or_false] at hj
    rcases hj with rfl | rfl
    · exact hnull
    · exact Front.opt E.toRules h1
  obtain ⟨r', w, h4, h5⟩ := bind_ok.1 h
  obtain ⟨a1, s1⟩ := ht _ _ _ h4
  have go : ∀ y errs, (splitOuter View.ops (md.first.get t.pid) (md.first.get p.pid) fol pt pp fuel ⟨[y], [], errs⟩ >>=
      fun a => pure (splitDone y.span.lo a)) w = .ok r v' → r'.errs = errs → r'.tree?.isSome = true →
      v.len ≤ v'.len ∧ (r.tree?.isSome = true → Null G (Ty.split t p).pid) := by
    intro y errs h6 h7 h8
    obtain ⟨a, w2, h9, h10⟩ := bind_ok.1 h6
    obtain ⟨rfl, rfl⟩ := pure_ok.1 h10
    have hc : errs = [] := Classical.byContradiction fun hne =>
      splitOuter_dies _ _ _ _ _ fuel ⟨[y], [], errs⟩ hne _ _ _ h9 (ofPair_clean he)
    obtain ⟨g1, g2⟩ := s1 nt (h7.trans hc)
    cases fuel with
    | zero => cases h9
    | succ fuel =>
      obtain ⟨_, w0, h11, h12⟩ := bind_ok.1 h9
      obtain ⟨rfl, rfl, -⟩ := mPeekSrc_ok.1 h11
      rw [if_neg (fun hc => np (g2 h8) ((a1.firstAt g1).1 (E.firstAt.1 hc)))] at h12
      obtain ⟨rfl, rfl⟩ := pure_ok.1 h12
      exact ⟨g1, fun _ => hnull2 (g2 h8)⟩
  cases r' with
  | success y => exact go y _ h5 rfl rfl
  | recovered y e => exact go y _ h5 rfl rfl
  | panic e =>
    obtain ⟨rfl, rfl⟩ := pure_ok.1 h5
    exact ⟨(s1 nt he).1, fun h => by cases h⟩

theorem Tabs.punct (E : Tabs S md root G) {t p : Ty m n} (hr : PReach S root (Ty.punct t p).pid) {pt pp : P (View n) n}
    (ht : Quiet G t.pid pt) (fuel : Nat) (fol : TSet n)
    (hadv : ∀ v r v', producePunct View.ops (md.first.get t.pid) (md.first.get p.pid) fol pt pp fuel v = .ok r v' →
      Adv v v') :
    Quiet G (Ty.punct t p).pid
      (producePunct View.ops (md.first.get t.pid) (md.first.get p.pid) fol pt pp fuel) := by
  intro v r v' h
  refine ⟨hadv _ _ _ h, fun hn he => ?_⟩
  have hrule : S.rule (Ty.punct t p).pid = .seq [t.pid, .opt (.tup2 p.prod (.opt (.punct t.prod p.prod)))] := rfl
  have hm := E.mem hr
  rw [hrule] at hm
  have h1 : PReach S root (.opt (.tup2 p.prod (.opt (.punct t.prod p.prod)))) := hr.seq hrule (by simp)
  have h3 : PReach S root (.tup2 p.prod (.opt (.punct t.prod p.prod))) := h1.alt (rule_opt _) (by simp [PId.id])
  have nt : Away G t.pid v := ⟨hn.1, fun hf => hn.2 (hf.imp fun tok hf =>
    FirstI.seq (pre := []) (j := t.pid) (post := [.opt (.tup2 p.prod (.opt (.punct t.prod p.prod)))]) hm (by simp) hf)⟩
  have np : Null G t.pid → ¬ FirstAt G p.pid v := fun hnull hf => hn.2 (hf.imp fun tok hf =>
    FirstI.seq (pre := [t.pid]) (j := .opt (.tup2 p.prod (.opt (.punct t.prod p.prod)))) (post := []) hm
      (by simpa using hnull) (E.opt_some h1
        (FirstI.seq (pre := []) (j := p.pid) (post := [.opt (.punct t.prod p.prod)]) (E.mem h3) (by simp) hf)))
  have hnull2 : Null G t.pid → Null G (Ty.punct t p).pid := by
    intro hnull
    refine Null.seq hm fun j hj => ?_
    simp only [List.mem_cons, List.not_mem_nil, or_false] at hj
    rcases hj with rfl | rfl
    · exact hnull
    · exact Front.opt E.toRules h1
  obtain ⟨r', w, h4, h5⟩ := bind_ok.1 h
  obtain ⟨a1, s1⟩ := ht _ _ _ h4
  have go : ∀ y errs, (punctOuter View.ops (md.first.get t.pid) (md.first.get p.pid) fol pt pp fuel ⟨[y], [], errs⟩ >>=
      fun a => pure (punctDone y.span.lo a)) w = .ok r v' → r'.errs = errs → r'.tree?.isSome = true →
      v.len ≤ v'.len ∧ (r.tree?.isSome = true → Null G (Ty.punct t p).pid) := by
    intro y errs h6 h7 h8
    obtain ⟨a, w2, h9, h10⟩ := bind_ok.1 h6
    obtain ⟨rfl, rfl⟩ := pure_ok.1 h10
    have hc : errs = [] := Classical.byContradiction fun hne =>
      punctOuter_dies _ _ _ _ _ fuel ⟨[y], [], errs⟩ hne _ _ _ h9 (ofPair_clean he)
    obtain ⟨g1, g2⟩ := s1 nt (h7.trans hc)
    cases fuel with
    | zero => cases h9
    | succ fuel =>
      obtain ⟨_, w0, h11, h12⟩ := bind_ok.1 h9
      obtain ⟨rfl, rfl, -⟩ := mPeekSrc_ok.1 h11
      rw [if_neg (fun hc => np (g2 h8) ((a1.firstAt g1).1 (E.firstAt.1 hc)))] at h12
      obtain ⟨rfl, rfl⟩ := pure_ok.1 h12
      exact ⟨g1, fun _ => hnull2 (g2 h8)⟩
  cases r' with
  | success y => exact go y _ h5 rfl rfl
  | recovered y e => exact go y _ h5 rfl rfl
  | panic e =>
    obtain ⟨rfl, rfl⟩ := pure_ok.1 h5
    exact ⟨(s1 nt he).1, fun h => by cases h⟩

theorem Tabs.term (E : Tabs S md root G) {i : Nat} {k : Terminal n} (hr : PReach S root (.term i k)) (fol : TSet n) :
    Quiet G (.term i k) (produceTerm View.ops k fol) := by
  intro v r v' h
  have hrun := desc_term (fx := false) (S := S) i k fol v r v' h
  refine ⟨hrun.adv, fun hn he => ?_⟩
  cases hrun with
  | tok hrest hk hl =>
    rename_i x l
    refine absurd ⟨x.toSrc v.source, by simp [View.look, hrest], FirstI.term (E.mem hr) ⟨hk, fun l h => ?_⟩⟩ hn.2
    simp [Token.toSrc, Token.src, Span.get, hl l h]
  | tokRecovered => cases he
  | tokPanic => cases he
  | tuple ht => cases ht
  | tuplePanic ht => cases ht
  | optNone ht => cases ht
  | optSuccess ht => cases ht
  | optRecovered ht => cases ht
  | optPanic ht => cases ht
  | textSuccess ht => cases ht
  | textRecovered ht => cases ht
  | textPanic ht => cases ht

/-- If the next token cannot begin a type, and no error is reported, then nothing is read. -/
theorem Tabs.quiet (E : Tabs S md root G) : ∀ (fuel : Nat) (t : Ty m n), PReach S root t.pid →
    Quiet G t.pid (produce View.ops S md fuel t)
  | 0, t, _ => by intro v r v' h; cases h
  | fuel + 1, t, hr => by
    have adv : ∀ v r v', produce View.ops S md (fuel + 1) t v = .ok r v' → Adv v v' := fun v r v' h =>
      (run_of_produce S md (fuel + 1) t _ _ _ h).adv
    have ih := E.quiet fuel
    cases t with
    | term i k => exact E.term hr _
    | user k =>
      have part : ∀ j ∈ (S.rule (.user k)).parts, PReach S root j := fun j hj => hr.part hj
      show Quiet G (.user k) (match S k with
        | .struct f fs => _
        | .enum v vs => _)
      cases hk : S k with
      | struct f fs =>
        refine E.struct hk hr fun u hu => ih u.1 (part _ ?_)
        simp only [Schema.rule, hk, Rule.parts]
        exact List.mem_map.2 ⟨u, hu, rfl⟩
      | enum f fs =>
        refine E.enum hk hr (fun u hu => ih u.1 (part _ ?_)) _ _
        simp only [Schema.rule, hk, Rule.parts]
        exact List.mem_map.2 ⟨u, hu, rfl⟩
    | box t => exact ih t hr
    | option t => exact E.option hr (ih t (hr.alt (rule_opt _) (by simp [Ty.pid]))) _
    | exist t => exact E.option hr (ih t (hr.alt (rule_opt _) (by simp [Ty.pid]))) _
    | quote t => exact text (ih t hr)
    | parse t => exact text (ih t hr)
    | plus t => exact E.plus hr (ih t (hr.seq (rule_plus _) (by simp [Ty.pid]))) _ adv
    | star t =>
      have h1 : PReach S root (.plus t.prod) := hr.alt (rule_opt _) (by simp [PId.id])
      refine E.option (t := .plus t.prod) hr ?_ _
      refine E.plus h1 (ih t (h1.seq (rule_plus _) (by simp [Ty.pid]))) _ fun v r v' h => ?_
      exact (run_of_produce S md (fuel + 1) (.plus t) _ _ _ h).adv
    | loop t => exact E.loop _ adv
    | split t p => exact E.split hr (ih t (hr.seq (l := [t.pid, .opt (.plus (.tup2 p.prod t.prod))]) rfl (by simp))) _ _ adv
    | punct t p => exact E.punct hr (ih t (hr.seq (l := [t.pid, .opt (.tup2 p.prod (.opt (.punct t.prod p.prod)))]) rfl (by simp))) _ _ adv
    | recover t r =>
      exact E.recover hr (ih t (hr.seq (rule_tup2 _ _) (by simp [Ty.pid])))
        (ih r (hr.seq (rule_tup2 _ _) (by simp [Ty.pid]))) _ adv
    | tup2 a b =>
      refine E.tuple (ts := [a, b]) hr rfl fun u hu => ih u (hr.seq (l := [a, b].map Ty.pid) rfl (List.mem_map.2 ⟨u, hu, rfl⟩))
    | tup3 a b c =>
      refine E.tuple (ts := [a, b, c]) hr rfl fun u hu =>
        ih u (hr.seq (l := [a, b, c].map Ty.pid) rfl (List.mem_map.2 ⟨u, hu, rfl⟩))
    | tup4 a b c d =>
      refine E.tuple (ts := [a, b, c, d]) hr rfl fun u hu =>
        ih u (hr.seq (l := [a, b, c, d].map Ty.pid) rfl (List.mem_map.2 ⟨u, hu, rfl⟩))
    | tup5 a b c d e =>
      refine E.tuple (ts := [a, b, c, d, e]) hr rfl fun u hu =>
        ih u (hr.seq (l := [a, b, c, d, e].map Ty.pid) rfl (List.mem_map.2 ⟨u, hu, rfl⟩))

end Quiet
end Teleparse

import Verif.Proof.Terminates
/-
Parsing ends: the induction.
-/
namespace Teleparse
variable {m n : Nat} {S : Schema m n} {md : Metadata (PId m n) n} {root : Ty m n} {G : Grammar (PId m n) n}

theorem FirstAt.imp {i j : PId m n} {v : View n} (h : FirstAt G i v)
    (hij : ∀ tok, FirstI G i tok → FirstI G j tok) : FirstAt G j v := by
  obtain ⟨tok, h1, h2⟩ := h
  exact ⟨tok, h1, hij tok h2⟩

theorem Ctx.mn (E : Ctx S md root G) {t : Ty m n} {v : View n} :
    ((md.first.get t.pid).contains v.look = true ∨ (md.first.get t.pid).containsE = true) ↔ MN G t v := E.guard

theorem Good.strict {t : Ty m n} {v : View n} (h : Good S md G t v) (hf : FirstAt G t.pid v) :
    Halts (fun _ j => produce View.ops S md j t) v (fun _ w => Adv v w ∧ w.len < v.len) :=
  h.mono fun _ _ h => ⟨h.1, h.2.1 hf⟩

/-- Parts of a sequence type. -/
theorem Ctx.seq_step (E : Ctx S md root G) {L : Nat} {t : Ty m n} {ts : List (Ty m n)} {v : View n}
    (hr : PReach S root t.pid) (hrule : S.rule t.pid = .seq (ts.map Ty.pid))
    (hleft : ∀ u, PReach S root u.pid → LPlus G t.pid u.pid → ∀ w : View n, w.len ≤ L → MN G u w → Good S md G u w)
    (hsmall : ∀ u, PReach S root u.pid → ∀ w : View n, w.len < L → Good S md G u w)
    (hv : v.len = L) (hmn : MN G t v) :
    Halts (fun _ j => seqLoop (ts.map (produce View.ops S md j)) [] []) v (fun r w => Adv v w ∧
      (fun (b : Bool) (w : View n) => (FirstAt G t.pid v → w.len < v.len) ∧
        (Null G t.pid → w.len < v.len ∨ b = true ∨ Weak S md G t.pid))
        (match r with | .ok _ => true | .error _ => false) w) := by
  have hfirst : FirstAt G t.pid v → FirstIn G ts v := by
    rintro ⟨tok, h1, h2⟩
    obtain ⟨pre, j, post, he, hn, hf⟩ := E.seq_first hrule h2
    obtain ⟨a, b, rfl, rfl, hb⟩ := List.map_eq_append_iff.1 he
    obtain ⟨u, c, rfl, rfl, rfl⟩ := List.map_eq_cons_iff.1 hb
    exact ⟨a, u, c, rfl, fun k hk => hn _ (List.mem_map.2 ⟨k, hk, rfl⟩), tok, h1, hf⟩
  have hnull : Null G t.pid → ∀ u ∈ ts, Null G u.pid := fun h u hu =>
    E.seq_null hrule h _ (List.mem_map.2 ⟨u, hu, rfl⟩)
  have hpr : ∀ u ∈ ts, PReach S root u.pid := fun u hu => hr.seq hrule (List.mem_map.2 ⟨u, hu, rfl⟩)
  refine (seq_good ts v [] [] hv ?_ (fun u hu w hw => hsmall u (hpr u hu) w hw) ?_ (hmn.imp hfirst hnull)).mono ?_
  · rintro pre u post rfl hn w hw hm
    refine hleft u (hpr u (by simp)) (E.lseq (pre := pre.map Ty.pid) (post := post.map Ty.pid) hr ?_ ?_).plus w
      (by omega) hm
    · rw [hrule]; simp
    · intro k hk
      obtain ⟨x, hx, rfl⟩ := List.mem_map.1 hk
      exact hn x hx
  · rintro a u _ rfl ha hw w ⟨b, c, d, rfl, hb, tok, -, hc⟩
    refine E.weak_first (a := a.map Ty.pid) (b := b.map Ty.pid) (d := d.map Ty.pid) hr (by rw [hrule]; simp) ?_ ?_
      hw hc
    · intro k hk
      obtain ⟨x, hx, rfl⟩ := List.mem_map.1 hk
      exact ha x hx
    · intro k hk
      obtain ⟨x, hx, rfl⟩ := List.mem_map.1 hk
      exact hb x hx
  · rintro r w ⟨h1, h2, h3⟩
    refine ⟨h1, fun h => by have := h2 (hfirst h); omega, fun h => ?_⟩
    rcases h3 (hnull h) with h' | ⟨x, rfl⟩ | ⟨u, hu, h'⟩
    · exact .inl (by omega)
    · exact .inr (.inl rfl)
    · exact .inr (.inr (h'.seq E.toRules hr hrule (fun k hk => E.seq_null hrule h k hk)
        (List.mem_map.2 ⟨u, hu, rfl⟩)))

theorem Ctx.tuple_step (E : Ctx S md root G) {L : Nat} {t : Ty m n} {ts : List (Ty m n)} {v : View n}
    (ht : t.isTuple ts) (hr : PReach S root t.pid)
    (hleft : ∀ u, PReach S root u.pid → LPlus G t.pid u.pid → ∀ w : View n, w.len ≤ L → MN G u w → Good S md G u w)
    (hsmall : ∀ u, PReach S root u.pid → ∀ w : View n, w.len < L → Good S md G u w)
    (hv : v.len = L) (hmn : MN G t v) : Good S md G t v := by
  have h := tuple_halts (ps := fun j => ts.map (produce View.ops S md j))
    (K := fun (b : Bool) (w : View n) => (FirstAt G t.pid v → w.len < v.len) ∧
        (Null G t.pid → w.len < v.len ∨ b = true ∨ Weak S md G t.pid)) (E.seq_step hr (tuple_pid ht) hleft hsmall hv hmn)
  refine Halts.produce ?_
  rcases ht with ⟨_, _, rfl, rfl⟩ | ⟨_, _, _, rfl, rfl⟩ | ⟨_, _, _, _, rfl, rfl⟩ | ⟨_, _, _, _, _, rfl, rfl⟩ <;>
    exact h

theorem fields_map (S : Schema m n) (md : Metadata (PId m n) n) (l : List (Field m n)) (j : Nat) :
    (l.map fun f => (produce View.ops S md j f.1, f.2)).map (·.1) =
      (l.map (·.1)).map (produce View.ops S md j) := by
  rw [List.map_map, List.map_map]; rfl

theorem fields_sem (S : Schema m n) (md : Metadata (PId m n) n) (l : List (Field m n)) (j : Nat) :
    (l.map fun f => (produce View.ops S md j f.1, f.2)).map (·.2) = l.map (·.2) := by
  rw [List.map_map]; rfl

/-- The enum: if a variant is chosen then it ends. -/
theorem Ctx.enum_halts (E : Ctx S md root G) {k : Fin m} {f : Field m n} {fs : List (Field m n)} {v : View n}
    (hk : S k = .enum f fs) (hr : PReach S root (.user k))
    (hp : ∀ u : Field m n, u ∈ f :: fs → MN G u.1 v → Good S md G u.1 v) :
    Halts (fun _ j => produceEnum View.ops (md.jump.lookUp (.user k)) (md.first.get (.user k))
      ((f :: fs).map fun v => (produce View.ops S md j v.1, v.2))) v (Post S md G (.user k) v) := by
  have hrule : S.rule (.user k) = .alt ((f :: fs).map fun f => f.1.pid) := by simp only [Schema.rule, hk]
  have hj := E.jump _ _ ((reach_iff_schema E.gram _).2 hr) hrule v.look
  simp only [produceEnum]
  refine .bind (Q := fun x w => x = v.look ∧ w = v) (.peekSrc ⟨rfl, rfl⟩) ?_
  rintro _ _ ⟨rfl, rfl⟩
  rename_i v
  have hfirst : ∀ tok, v.look = some tok → FirstI G (.user k) tok →
      ∃ i c, ((f :: fs).map fun f => f.1.pid)[i]? = some c ∧ FirstI G c tok ∧
        md.jump.lookUp (.user k) v.look = some i := by
    intro tok h1 h2
    obtain ⟨c, hc, hf⟩ := E.alt_first hrule h2
    obtain ⟨i, hi⟩ := List.mem_iff_getElem?.1 hc
    exact ⟨i, c, hi, hf, hj.2 i c hi (by rw [h1]; exact firstOf_iff.2 hf)⟩
  cases hl : md.jump.lookUp (.user k) v.look with
  | none =>
    dsimp only
    refine .bind (Q := fun x w => w = v) (.expecting rfl) ?_
    rintro _ _ rfl
    rename_i v
    refine .pure ⟨.refl _, ?_, fun hn => ?_⟩
    · rintro ⟨tok, h1, h2⟩
      obtain ⟨i, c, -, -, h⟩ := hfirst tok h1 h2
      rw [hl] at h
      cases h
    · cases hlk : v.look with
      | some tok => exact .inr (.inr ⟨k, f, fs, hk, hn, ⟨tok, hlk ▸ hl⟩, .refl _⟩)
      | none =>
        obtain ⟨c, hc, hn⟩ := E.alt_null hrule hn
        obtain ⟨i, hi⟩ := List.mem_iff_getElem?.1 hc
        have := hj.2 i c hi (by rw [hlk]; exact hn.nullable)
        rw [hl] at this
        cases this
  | some i =>
    obtain ⟨c, hc, hs⟩ := hj.1 i hl
    rw [List.getElem?_map] at hc
    cases hg : (f :: fs)[i]? with
    | none => rw [hg] at hc; cases hc
    | some u =>
      rw [hg] at hc
      cases hc
      simp only [List.getElem?_map, hg, Option.map_some]
      have hu := List.mem_of_getElem? hg
      have hmn : MN G u.1 v := by
        cases hlk : v.look with
        | none => rw [hlk] at hs; exact .inr (nullable_iff.1 (hs.elim id id))
        | some tok =>
          rw [hlk] at hs
          exact hs.imp (fun h => ⟨tok, hlk, firstOf_iff.1 h⟩) nullable_iff.1
      refine .bind (hp u hu hmn) ?_
      rintro r w ⟨h1, h2, h2'⟩
      refine mapVariant_halts.mono ?_
      rintro _ w' ⟨h3, h4, h4'⟩
      unfold Post
      rw [h4, h4']
      refine ⟨h1.trans h3, ?_, fun hn => ?_⟩
      · rintro ⟨tok, h5, h6⟩
        obtain ⟨i', c, h7, h8, h9⟩ := hfirst tok h5 h6
        cases hl.symm.trans h9
        rw [List.getElem?_map, hg] at h7
        cases h7
        exact h2 ⟨tok, h5, h8⟩
      · rcases hmn with hf | hn'
        · exact .inl (h2 hf)
        · exact (h2' hn').imp id (Or.imp id fun h => h.alt E.toRules hr hrule (List.mem_map.2 ⟨u, hu, rfl⟩))

/-- One step for types whose lookahead fits. -/
theorem Ctx.good_step (E : Ctx S md root G) {L : Nat} {t : Ty m n} {v : View n} (hr : PReach S root t.pid)
    (hsmall : ∀ u, PReach S root u.pid → ∀ w : View n, w.len < L → Good S md G u w)
    (hleft : ∀ u, PReach S root u.pid → LPlus G t.pid u.pid → ∀ w : View n, w.len ≤ L → MN G u w → Good S md G u w)
    (hsame : ∀ u : Ty m n, u.pid = t.pid → sizeOf u < sizeOf t → Good S md G u v)
    (hv : v.len = L) (hmn : MN G t v) : Good S md G t v := by
  cases t with
  | term k t =>
    refine Halts.produce (term_halts.mono ?_)
    rintro r w ⟨h1, h2⟩
    refine ⟨h1, ?_, fun h => absurd h (E.term_null rfl)⟩
    rintro ⟨tok, h3, h4⟩
    exact h2 tok h3 (E.term_first rfl h4)
  | user k =>
    refine Halts.produce ?_
    cases hk : S k with
    | struct f fs =>
      simp only [produceStep, hk]
      have hrule : S.rule (Ty.user k).pid = .seq (((f :: fs).map (·.1)).map Ty.pid) := by
        simp only [Ty.pid, Ty.prod, PId.id, Schema.rule, hk, List.map_map]; rfl
      have h := E.seq_step hr hrule hleft hsmall hv hmn
      refine struct_halts (ps := fun j => (f :: fs).map fun f => (produce View.ops S md j f.1, f.2))
        (K := fun (b : Bool) (w : View n) => (FirstAt G (Ty.user k).pid v → w.len < v.len) ∧
        (Null G (Ty.user k).pid → w.len < v.len ∨ b = true ∨ Weak S md G (Ty.user k).pid)) ?_ ?_ ?_
      · intro b w l h
        unfold View.len at h ⊢
        rw [applyAll_rest]; exact h
      · simp only [fields_map]; exact h
      · intro j j'; rw [fields_sem, fields_sem]
    | enum f fs =>
      simp only [produceStep, hk]
      have hrule : S.rule (.user k) = .alt ((f :: fs).map fun f => f.1.pid) := by simp only [Schema.rule, hk]
      have hmem : ∀ u : Field m n, u ∈ f :: fs → u.1.pid ∈ (f :: fs).map fun f => f.1.pid :=
        fun u hu => List.mem_map.2 ⟨u, hu, rfl⟩
      refine E.enum_halts hk hr fun u hu hm => ?_
      exact hleft u.1 (PReach.alt hr hrule (hmem u hu)) (E.lalt hr hrule (hmem u hu)).plus v (by omega) hm
  | box t => exact Halts.produce (hsame t rfl (by simp))
  | option t =>
    obtain ⟨h1, h2⟩ := E.opt_part hr
    refine Halts.produce ((option_halts (strict := True) (x := fun _ j => produce View.ops S md j t)
      fun h3 h4 => ?_).mono ?_)
    · have hf := E.firstAt.1 ⟨h3, h4⟩
      exact ((hleft t h1 h2 v (by omega) (.inl hf)).strict hf).mono fun _ _ h => ⟨h.1, fun _ => h.2⟩
    · rintro r w ⟨h3, h4, h5⟩
      refine ⟨h3, fun hf => ?_, fun _ => .inr (.inl h5)⟩
      have hf := E.firstAt.2 (hf.imp fun _ h => E.opt_first h)
      exact h4 trivial hf.1 hf.2
  | exist t =>
    obtain ⟨h1, h2⟩ := E.opt_part hr
    refine Halts.produce ((option_halts (strict := True) (x := fun _ j => produce View.ops S md j t)
      fun h3 h4 => ?_).mono ?_)
    · have hf := E.firstAt.1 ⟨h3, h4⟩
      exact ((hleft t h1 h2 v (by omega) (.inl hf)).strict hf).mono fun _ _ h => ⟨h.1, fun _ => h.2⟩
    · rintro r w ⟨h3, h4, h5⟩
      refine ⟨h3, fun hf => ?_, fun _ => .inr (.inl h5)⟩
      have hf := E.firstAt.2 (hf.imp fun _ h => E.opt_first h)
      exact h4 trivial hf.1 hf.2
  | quote t =>
    refine Halts.produce ((text_halts (hsame t rfl (by simp))).mono ?_)
    rintro r w ⟨h1, r0, ⟨h2, h3⟩, h4⟩
    exact ⟨h1, h2, fun h => (h3 h).imp id (Or.imp h4 id)⟩
  | parse t =>
    refine Halts.produce ((text_halts (hsame t rfl (by simp))).mono ?_)
    rintro r w ⟨h1, r0, ⟨h2, h3⟩, h4⟩
    exact ⟨h1, h2, fun h => (h3 h).imp id (Or.imp h4 id)⟩
  | plus t =>
    obtain ⟨h1, h2, -⟩ := E.plus_part hr
    have hF : ∀ {w : View n}, FirstAt G (Ty.plus t).pid w → FirstAt G t.pid w :=
      fun h => h.imp fun _ h => E.plus_first h
    have hN : Null G (Ty.plus t).pid → Null G t.pid := fun h => E.seq_null (rule_plus _) h _ (by simp [Ty.pid])
    refine Halts.produce ((plus_halts (L := L) (by omega) (hleft t h1 h2 v (by omega) (hmn.imp hF hN))
      fun w hw h3 h4 => ?_).mono ?_)
    · have hf := hF (E.firstAt.1 ⟨h3, h4⟩)
      exact (hleft t h1 h2 w hw (.inl hf)).strict hf
    · rintro r v' ⟨ha, r0, w, ⟨h3, h4⟩, h5, h6, h7⟩
      have := h6.len_le
      refine ⟨ha, fun h => by have := h3 (hF h); omega, fun h => ?_⟩
      rcases h4 (hN h) with h' | h' | h'
      · exact .inl (by omega)
      · exact .inr (.inl (h7 h'))
      · exact .inr (.inr (h'.seq E.toRules hr (rule_plus _) (E.seq_null (rule_plus _) h) (by simp [Ty.pid])))
  | star t =>
    obtain ⟨h1, h2⟩ := E.star_part hr
    have hF : ∀ {w : View n}, FirstAt G (Ty.plus t).pid w → FirstAt G t.pid w :=
      fun h => h.imp fun _ h => E.plus_first h
    refine Halts.produce ((option_halts (strict := True) fun h3 h4 => ?_).mono ?_)
    · have hf := hF (E.firstAt.1 ⟨h3, h4⟩)
      refine (plus_halts (L := L) (by omega) (hleft t h1 h2 v (by omega) (.inl hf)) fun w hw h3 h4 => ?_).mono ?_
      · have hf := hF (E.firstAt.1 ⟨h3, h4⟩)
        exact (hleft t h1 h2 w hw (.inl hf)).strict hf
      · rintro r v' ⟨ha, r0, w, ⟨h3, h4⟩, h5, h6, h7⟩
        have := h6.len_le
        exact ⟨ha, fun _ => by have := h3 hf; omega⟩
    · rintro r w ⟨h3, h4, h5⟩
      refine ⟨h3, fun hf => ?_, fun _ => .inr (.inl h5)⟩
      have hf := E.firstAt.2 (hf.imp fun _ h => E.opt_first h)
      exact h4 trivial hf.1 hf.2
  | loop t =>
    obtain ⟨h1, h2, -⟩ := E.plus_part hr
    have hF : ∀ {w : View n}, FirstAt G (Ty.loop t).pid w → FirstAt G t.pid w :=
      fun h => h.imp fun _ h => E.plus_first h
    refine Halts.produce ((produceLoop_halts (L := L) (strict := True) (fun w hw h3 h4 => ?_) v (by omega)).mono ?_)
    · have hf := hF (E.firstAt.1 ⟨h3, h4⟩)
      exact ((hleft t h1 h2 w hw (.inl hf)).strict hf).mono fun _ _ h => ⟨h.1, fun _ => h.2⟩
    · rintro r w ⟨h3, h4, h5⟩
      refine ⟨h3, fun ⟨tok, h, _⟩ => h4 trivial (look_some.1 (by simp [h])), fun _ => .inr (.inl h5)⟩
  | split t p =>
    obtain ⟨h1, h2, h3, -, h4, h5, h6⟩ := E.split_part hr
    have hrule : S.rule (Ty.split t p).pid = .seq [t.pid, .opt (.plus (.tup2 p.prod t.prod))] := rfl
    have ht : MN G t v := by
      rcases hmn with ⟨tok, h7, h8⟩ | h
      · rcases h6 tok h8 with h | h
        · exact .inl ⟨tok, h7, h⟩
        · exact .inr h.1
      · exact .inr (h5 h)
    refine Halts.produce ((split_halts (L := L) (by omega) (hleft t h1 h3 v (by omega) ht)
      (fun w hw => (hsmall t h1 w hw).adv) ?_).mono ?_)
    · rintro r w ⟨h7, h8⟩ ha w' hw' h9 h10
      have hf := E.firstAt.1 ⟨h9, h10⟩
      have := ha.len_le
      by_cases hlt : w'.len < L
      · exact (hsmall p h2 w' hlt).strict hf
      · have hn : Null G t.pid := ht.resolve_left fun h => by have := h7 h; omega
        exact (hleft p h2 (h4 hn) w' (by omega) (.inl hf)).strict hf
    · rintro r v' ⟨ha, r0, w, ⟨h7, h8⟩, h9, h10, h11⟩
      have hle := h10.len_le
      have hle2 := h9.len_le
      refine ⟨ha, ?_, fun h => ?_⟩
      · rintro ⟨tok, hl, hf⟩
        rcases h6 tok hf with h | ⟨hn, h⟩
        · have := h7 ⟨tok, hl, h⟩; omega
        · by_cases hlt : w.len < v.len
          · omega
          · have hs := ((h8 hn).resolve_left hlt).resolve_right fun hw => by
              rcases E.first2 hrule hf with h | ⟨_, h⟩
              · exact hlt (h7 ⟨tok, hl, h⟩)
              · exact E.weak_first (a := []) (b := []) (d := []) hr hrule (by simp) (by simp) hw h
            have hf' := E.firstAt.2 ((h9.firstAt (by omega)).2 ⟨tok, hl, h⟩)
            have := (h11 hs).2 hf'.1 hf'.2
            omega
      · rcases h8 (h5 h) with h' | h' | h'
        · exact .inl (by omega)
        · exact .inr (.inl (h11 h').1)
        · exact .inr (.inr (h'.seq E.toRules hr hrule (E.seq_null hrule h) (by simp)))
  | punct t p =>
    obtain ⟨h1, h2, h3, -, h4, h5, h6⟩ := E.punct_part hr
    have hrule : S.rule (Ty.punct t p).pid = .seq [t.pid, .opt (.tup2 p.prod (.opt (.punct t.prod p.prod)))] := rfl
    have ht : MN G t v := by
      rcases hmn with ⟨tok, h7, h8⟩ | h
      · rcases h6 tok h8 with h | h
        · exact .inl ⟨tok, h7, h⟩
        · exact .inr h.1
      · exact .inr (h5 h)
    refine Halts.produce ((punct_halts (L := L) (by omega) (hleft t h1 h3 v (by omega) ht)
      (fun w hw => (hsmall t h1 w hw).adv) ?_).mono ?_)
    · rintro r w ⟨h7, h8⟩ ha w' hw' h9 h10
      have hf := E.firstAt.1 ⟨h9, h10⟩
      have := ha.len_le
      by_cases hlt : w'.len < L
      · exact (hsmall p h2 w' hlt).strict hf
      · have hn : Null G t.pid := ht.resolve_left fun h => by have := h7 h; omega
        exact (hleft p h2 (h4 hn) w' (by omega) (.inl hf)).strict hf
    · rintro r v' ⟨ha, r0, w, ⟨h7, h8⟩, h9, h10, h11⟩
      have hle := h10.len_le
      have hle2 := h9.len_le
      refine ⟨ha, ?_, fun h => ?_⟩
      · rintro ⟨tok, hl, hf⟩
        rcases h6 tok hf with h | ⟨hn, h⟩
        · have := h7 ⟨tok, hl, h⟩; omega
        · by_cases hlt : w.len < v.len
          · omega
          · have hs := ((h8 hn).resolve_left hlt).resolve_right fun hw => by
              rcases E.first2 hrule hf with h | ⟨_, h⟩
              · exact hlt (h7 ⟨tok, hl, h⟩)
              · exact E.weak_first (a := []) (b := []) (d := []) hr hrule (by simp) (by simp) hw h
            have hf' := E.firstAt.2 ((h9.firstAt (by omega)).2 ⟨tok, hl, h⟩)
            have := (h11 hs).2 hf'.1 hf'.2
            omega
      · rcases h8 (h5 h) with h' | h' | h'
        · exact .inl (by omega)
        · exact .inr (.inl (h11 h').1)
        · exact .inr (.inr (h'.seq E.toRules hr hrule (E.seq_null hrule h) (by simp)))
  | recover t r =>
    have hrule : S.rule (Ty.recover t r).pid = .seq [t.pid, r.pid] := rfl
    have h1 : PReach S root t.pid := hr.seq hrule (by simp)
    have h2 : PReach S root r.pid := hr.seq hrule (by simp)
    have h3 : LPlus G (Ty.recover t r).pid t.pid := (E.lseq (pre := []) hr hrule (by simp)).plus
    have h4 : Null G t.pid → LPlus G (Ty.recover t r).pid r.pid := fun hn =>
      (E.lseq (pre := [t.pid]) hr hrule (by simpa using hn)).plus
    have hNt : Null G (Ty.recover t r).pid → Null G t.pid ∧ Null G r.pid := fun h =>
      ⟨E.seq_null hrule h _ (by simp), E.seq_null hrule h _ (by simp)⟩
    have ht : MN G t v := by
      rcases hmn with ⟨tok, h7, h8⟩ | h
      · rcases E.first2 hrule h8 with h | h
        · exact .inl ⟨tok, h7, h⟩
        · exact .inr h.1
      · exact .inr (hNt h).1
    refine Halts.produce ?_
    simp only [produceStep, produceRecover]
    refine .bind (recoverHead_halts fun _ => hleft t h1 h3 v (by omega) ht) ?_
    rintro hd w ⟨ha, hk, -⟩
    obtain ⟨r0, h5, h6⟩ := hk (E.mn.2 ht)
    have hle := ha.len_le
    have hnull : ¬ w.len < v.len → Null G t.pid := fun h => ht.resolve_left fun h' => h (h5 h')
    refine .bind (tail_halts (L := w.len) (K := fun w r w' => Post S md G ‹Ty m n› w r w')
      (fun w' hw' hg => ?_) w hd.errs hd.panic (Nat.le_refl _)) ?_
    · have hm := E.mn.1 hg
      by_cases hlt : w'.len < L
      · exact (hsmall r h2 w' hlt).mono fun _ _ h => ⟨h.1, h⟩
      · exact (hleft r h2 (h4 (hnull (by omega))) w' (by omega) hm).mono fun _ _ h => ⟨h.1, h⟩
    · rintro ⟨tail, errs, panic⟩ v' ⟨h7, h8⟩
      have hle2 := h7.len_le
      have hpost : ∀ x : Res n (Tree n), (x.tree?.isSome = tail.isSome) → Post S md G (.recover t r) v x v' := by
        intro x hx
        refine ⟨ha.trans h7, ?_, fun h => ?_⟩
        · rintro ⟨tok, hl, hf⟩
          rcases E.first2 hrule hf with h | ⟨hn, h⟩
          · have := h5 ⟨tok, hl, h⟩; omega
          · by_cases hlt : w.len < v.len
            · omega
            · have hf' : FirstAt G r.pid w := (ha.firstAt (by omega)).2 ⟨tok, hl, h⟩
              obtain ⟨r1, w1, h9, h10, h11, _⟩ := h8 (E.mn.2 (.inl hf'))
              have := h9.2.1 hf'
              have := h11.len_le
              omega
        · obtain ⟨hn1, hn2⟩ := hNt h
          obtain ⟨r1, w1, h9, h10, h11, h12⟩ := h8 (E.mn.2 (.inr hn2))
          have := h11.len_le
          rcases h9.2.2 hn2 with h' | h' | h'
          · exact .inl (by omega)
          · exact .inr (.inl (by rw [hx]; exact h12 h'))
          · exact .inr (.inr (h'.seq E.toRules hr hrule (E.seq_null hrule h) (by simp)))
      cases tail with
      | some x => exact .pure (hpost _ (ofPair_isSome _ _))
      | none => exact .pure (hpost _ rfl)
  | tup2 a b => exact E.tuple_step (.inl ⟨a, b, rfl, rfl⟩) hr hleft hsmall hv hmn
  | tup3 a b c => exact E.tuple_step (.inr (.inl ⟨a, b, c, rfl, rfl⟩)) hr hleft hsmall hv hmn
  | tup4 a b c d => exact E.tuple_step (.inr (.inr (.inl ⟨a, b, c, d, rfl, rfl⟩))) hr hleft hsmall hv hmn
  | tup5 a b c d e =>
    exact E.tuple_step (.inr (.inr (.inr ⟨a, b, c, d, e, rfl, rfl⟩))) hr hleft hsmall hv hmn

/-- One step for any type. -/
theorem Ctx.ends_step (E : Ctx S md root G) {L : Nat} {t : Ty m n} {v : View n} (hr : PReach S root t.pid)
    (hgood : ∀ u, PReach S root u.pid → ∀ w : View n, w.len ≤ L → MN G u w → Good S md G u w)
    (hand : ∀ u, PReach S root u.pid → AndEdge G u.pid t.pid → ∀ w : View n, w.len ≤ L → Ends S md u w)
    (hsmall : ∀ u, PReach S root u.pid → ∀ w : View n, w.len < L → Ends S md u w)
    (hsame : ∀ u : Ty m n, u.pid = t.pid → sizeOf u < sizeOf t → Ends S md u v)
    (hv : v.len = L) : Ends S md t v := by
  have tup : ∀ {t : Ty m n} {ts : List (Ty m n)}, t.isTuple ts → PReach S root t.pid →
      (∀ u, PReach S root u.pid → AndEdge G u.pid t.pid → ∀ w : View n, w.len ≤ L → Ends S md u w) →
      Ends S md t v := by
    intro t ts ht hr hand
    have h := tuple_halts (ps := fun j => ts.map (produce View.ops S md j)) (K := fun _ _ => True)
      ((seq_ends ts v [] [] fun u hu w hw => hand u (hr.seq (tuple_pid ht) (List.mem_map.2 ⟨u, hu, rfl⟩))
        (E.and hr (tuple_pid ht) (List.mem_map.2 ⟨u, hu, rfl⟩)) w (by omega)).mono fun _ _ h => ⟨h, trivial⟩)
    refine Halts.produce (Halts.mono ?_ fun _ _ (h : _ ∧ True) => h.1)
    rcases ht with ⟨_, _, rfl, rfl⟩ | ⟨_, _, _, rfl, rfl⟩ | ⟨_, _, _, _, rfl, rfl⟩ | ⟨_, _, _, _, _, rfl, rfl⟩ <;>
      exact h
  have opt : ∀ {u : Ty m n} {mk}, PReach S root u.pid →
      Halts (fun _ j => produceOption View.ops (md.first.get u.pid) (produce View.ops S md j u) mk) v
        (fun _ w => Adv v w) := by
    intro u mk hu
    refine (option_halts (strict := False) (x := fun _ j => produce View.ops S md j u)
      fun h3 h4 => ?_).mono fun _ _ h => h.1
    exact (hgood u hu v (by omega) (.inl (E.firstAt.1 ⟨h3, h4⟩))).adv.mono fun _ _ h => ⟨h, False.elim⟩
  have hF : ∀ {t : Ty m n} {w : View n}, FirstAt G (.plus t.prod) w → FirstAt G t.pid w :=
    fun h => h.imp fun _ h => E.plus_first h
  have iter : ∀ {u : Ty m n}, PReach S root u.pid → ∀ w : View n, w.len ≤ L → w.rest ≠ [] →
      (md.first.get (.plus u.prod)).contains w.look = true →
      Halts (fun _ j => produce View.ops S md j u) w (fun _ w' => Adv w w' ∧ w'.len < w.len) := by
    intro u hu w hw h3 h4
    have hf := hF (E.firstAt.1 ⟨h3, h4⟩)
    exact (hgood u hu w hw (.inl hf)).strict hf
  cases t with
  | term k t => exact Halts.produce (term_halts.mono fun _ _ h => h.1)
  | user k =>
    refine Halts.produce ?_
    cases hk : S k with
    | struct f fs =>
      simp only [produceStep, hk]
      have hrule : S.rule (Ty.user k).pid = .seq (((f :: fs).map (·.1)).map Ty.pid) := by
        simp only [Ty.pid, Ty.prod, PId.id, Schema.rule, hk, List.map_map]; rfl
      refine (struct_halts (ps := fun j => (f :: fs).map fun f => (produce View.ops S md j f.1, f.2))
        (K := fun _ _ => True) ?_ ?_ ?_).mono fun _ _ h => h.1
      · exact fun _ _ _ _ => trivial
      · simp only [fields_map]
        exact (seq_ends _ v [] [] fun u hu w hw => hand u (hr.seq hrule (List.mem_map.2 ⟨u, hu, rfl⟩))
          (E.and hr hrule (List.mem_map.2 ⟨u, hu, rfl⟩)) w (by omega)).mono fun _ _ h => ⟨h, trivial⟩
      · intro j j'; rw [fields_sem, fields_sem]
    | enum f fs =>
      simp only [produceStep, hk]
      have hrule : S.rule (.user k) = .alt ((f :: fs).map fun f => f.1.pid) := by simp only [Schema.rule, hk]
      have hmem : ∀ u : Field m n, u ∈ f :: fs → u.1.pid ∈ (f :: fs).map fun f => f.1.pid :=
        fun u hu => List.mem_map.2 ⟨u, hu, rfl⟩
      refine (E.enum_halts hk hr fun u hu hm => ?_).mono fun _ _ h => h.1
      exact hgood u.1 (PReach.alt hr hrule (hmem u hu)) v (by omega) hm
  | box t => exact Halts.produce (hsame t rfl (by simp))
  | option t => exact Halts.produce (opt (E.opt_part hr).1)
  | exist t => exact Halts.produce (opt (E.opt_part hr).1)
  | quote t =>
    exact Halts.produce ((text_halts (K := fun _ _ => True) ((hsame t rfl (by simp)).mono
      fun _ _ h => ⟨h, trivial⟩)).mono fun _ _ h => h.1)
  | parse t =>
    exact Halts.produce ((text_halts (K := fun _ _ => True) ((hsame t rfl (by simp)).mono
      fun _ _ h => ⟨h, trivial⟩)).mono fun _ _ h => h.1)
  | plus t =>
    obtain ⟨h1, -, h2⟩ := E.plus_part hr
    exact Halts.produce ((plus_halts (K := fun _ _ => True) (L := L) (by omega) ((hand t h1 h2 v (by omega)).mono
      fun _ _ h => ⟨h, trivial⟩) (iter h1)).mono fun _ _ h => h.1)
  | star t =>
    obtain ⟨h1, -⟩ := E.star_part hr
    refine Halts.produce ((option_halts (strict := False) fun h3 h4 => ?_).mono fun _ _ h => h.1)
    have hf := hF (E.firstAt.1 ⟨h3, h4⟩)
    exact (plus_halts (L := L) (by omega) (hgood t h1 v (by omega) (.inl hf)) (iter h1)).mono
      fun _ _ h => ⟨h.1, False.elim⟩
  | loop t =>
    obtain ⟨h1, -, -⟩ := E.plus_part hr
    exact Halts.produce ((produceLoop_halts (L := L) (strict := False) (fun w hw h3 h4 =>
      (iter h1 w hw h3 h4).mono fun _ _ h => ⟨h.1, False.elim⟩) v (by omega)).mono fun _ _ h => h.1)
  | split t p =>
    obtain ⟨h1, h2, -, h3, -⟩ := E.split_part hr
    refine Halts.produce ((split_halts (K := fun _ _ => True) (L := L) (by omega) ((hand t h1 h3 v (by omega)).mono
      fun _ _ h => ⟨h, trivial⟩) (fun w hw => hsmall t h1 w hw) ?_).mono fun _ _ h => h.1)
    intro r w _ ha w' hw' h9 h10
    have hf := E.firstAt.1 ⟨h9, h10⟩
    have := ha.len_le
    exact (hgood p h2 w' (by omega) (.inl hf)).strict hf
  | punct t p =>
    obtain ⟨h1, h2, -, h3, -⟩ := E.punct_part hr
    refine Halts.produce ((punct_halts (K := fun _ _ => True) (L := L) (by omega) ((hand t h1 h3 v (by omega)).mono
      fun _ _ h => ⟨h, trivial⟩) (fun w hw => hsmall t h1 w hw) ?_).mono fun _ _ h => h.1)
    intro r w _ ha w' hw' h9 h10
    have hf := E.firstAt.1 ⟨h9, h10⟩
    have := ha.len_le
    exact (hgood p h2 w' (by omega) (.inl hf)).strict hf
  | recover t r =>
    have hrule : S.rule (Ty.recover t r).pid = .seq [t.pid, r.pid] := rfl
    have h1 : PReach S root t.pid := hr.seq hrule (by simp)
    have h2 : PReach S root r.pid := hr.seq hrule (by simp)
    refine Halts.produce ?_
    simp only [produceStep, produceRecover]
    refine .bind (recoverHead_halts (K := fun _ _ => True) fun hg => ((hgood t h1 v (by omega) (E.mn.1 hg)).adv).mono
      fun _ _ h => ⟨h, trivial⟩) ?_
    rintro hd w ⟨ha, -, -⟩
    have hle := ha.len_le
    refine .bind (tail_halts (L := w.len) (K := fun _ _ _ => True)
      (fun w' hw' hg => ((hgood r h2 w' (by omega) (E.mn.1 hg)).adv).mono fun _ _ h => ⟨h, trivial⟩)
      w hd.errs hd.panic (Nat.le_refl _)) ?_
    rintro ⟨tail, errs, panic⟩ v' ⟨h7, -⟩
    cases tail with
    | some x => exact .pure (ha.trans h7)
    | none => exact .pure (ha.trans h7)
  | tup2 a b => exact tup (.inl ⟨a, b, rfl, rfl⟩) hr hand
  | tup3 a b c => exact tup (.inr (.inl ⟨a, b, c, rfl, rfl⟩)) hr hand
  | tup4 a b c d => exact tup (.inr (.inr (.inl ⟨a, b, c, d, rfl, rfl⟩))) hr hand
  | tup5 a b c d e => exact tup (.inr (.inr (.inr ⟨a, b, c, d, e, rfl, rfl⟩))) hr hand

theorem productive_left {S : Schema m n} {md : Metadata (PId m n) n} {root : Ty m n} {G : Grammar (PId m n) n}
    {fuel : Nat} (hb : S.metadata fuel root = some (.ok md)) (hG : S.IsGrammar root G)
    (hprod : ∀ i, Reachable G root.pid i → Productive G i) {i : PId m n} (hi : Reachable G root.pid i) :
    ¬ LeftDerives G i i := by
  intro hl
  obtain ⟨k, h3, h4⟩ := hl.lsteps
  obtain ⟨G', hG', _, hb'⟩ := metadata_build hb
  have h1 : ∀ p ∈ G, p ∈ G' := fun p hp => (hG.same hG' p).1 hp
  have h2 : ∀ p ∈ G', p ∈ G := fun p hp => (hG.same hG' p).2 hp
  refine no_left_cycle hG'.1 (fun i hi => ?_) hb' (hi.congr h1) (h3.congr h1) (h4.congr h1)
  obtain ⟨w, hw⟩ := hprod i (hi.congr h2)
  exact ⟨w, hw.congr h1⟩

theorem Productive.not_needs {I : Type} [DecidableEq I] {G : Grammar I n} (hG : G.Functional) {i : I}
    (h : Productive G i) : ¬ Needs G i i := Needs.acyclic_of_acc (Prd.acc hG h.prd)

theorem Ctx.lrank_lt (E : Ctx S md root G) {i j : PId m n} (hi : PReach S root i) (hj : PReach S root j)
    (hij : LPlus G i j) : lrank G j < lrank G i := by
  refine Teleparse.lrank_lt (root := root.pid) (fun hr h3 h4 => ?_) ((reach_iff_schema E.gram _).2 hi)
    ⟨_, E.mem hj⟩ hij
  exact E.left _ hr (LPlus.leftDerives ⟨_, h3, h4⟩)

/-- No production needs itself. -/
theorem Ctx.acc (E : Ctx S md root G) {i : PId m n} (hi : PReach S root i) : _root_.Acc (AndEdge G) i :=
  AndEdge.acc_of_needs (fun _ h => ⟨_, E.mem ((reach_iff_schema E.gram _).1 h)⟩) E.needs
    ((reach_iff_schema E.gram _).2 hi)

theorem Ctx.good (E : Ctx S md root G) : ∀ (L : Nat) (t : Ty m n), PReach S root t.pid → ∀ v : View n,
    v.len ≤ L → Good S md G t v := by
  intro L
  induction L using Nat.strongRecOn with
  | ind L ihL =>
    have hsmall : ∀ u, PReach S root u.pid → ∀ w : View n, w.len < L → Good S md G u w :=
      fun u hu w hw => ihL w.len hw u hu w (Nat.le_refl _)
    -- types whose lookahead fits
    have step1 : ∀ r s (t : Ty m n), lrank G t.pid = r → sizeOf t = s → PReach S root t.pid →
        ∀ v : View n, v.len = L → MN G t v → Good S md G t v := by
      intro r
      induction r using Nat.strongRecOn with
      | ind r ihr =>
        intro s
        induction s using Nat.strongRecOn with
        | ind s ihs =>
          rintro t rfl rfl hr v hv hmn
          refine E.good_step hr hsmall (fun u hu hlp w hw hm => ?_) (fun u hu hsz => ?_) hv hmn
          · by_cases hlt : w.len < L
            · exact hsmall u hu w hlt
            · exact ihr _ (E.lrank_lt hr hu hlp) _ u rfl rfl hu w (by omega) hm
          · exact ihs _ hsz u (by rw [hu]) rfl (hu ▸ hr) v hv (by unfold MN; rw [hu]; exact hmn)
    have hgood : ∀ u, PReach S root u.pid → ∀ w : View n, w.len ≤ L → MN G u w → Good S md G u w := by
      intro u hu w hw hm
      by_cases hlt : w.len < L
      · exact hsmall u hu w hlt
      · exact step1 _ _ u rfl rfl hu w (by omega) hm
    -- all types
    have step2 : ∀ i, _root_.Acc (AndEdge G) i → ∀ s (t : Ty m n), t.pid = i → sizeOf t = s →
        PReach S root t.pid → ∀ v : View n, v.len ≤ L → Ends S md t v := by
      intro i hacc
      induction hacc with
      | intro i _ ihi =>
        intro s
        induction s using Nat.strongRecOn with
        | ind s ihs =>
          rintro t rfl rfl hr v hv
          by_cases hlt : v.len < L
          · exact (hsmall t hr v hlt).adv
          refine E.ends_step hr hgood (fun u hu he w hw => ihi _ he _ u rfl rfl hu w hw)
            (fun u hu w hw => (hsmall u hu w hw).adv) (fun u hu hsz => ?_) (by omega)
          exact ihs _ hsz u hu rfl (hu ▸ hr) v hv
    intro t hr v hv
    by_cases hm : MN G t v
    · exact hgood t hr v hv hm
    · have hacc := E.acc hr
      refine (step2 _ hacc _ t rfl rfl hr v hv).mono fun r w h => ⟨h, fun hf => absurd (.inl hf) hm,
        fun hn => absurd (.inr hn) hm⟩

end Teleparse

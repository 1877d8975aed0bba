import Verif.Proof.Chosen
/-
An error-free parse is a predictive match.
-/
namespace Teleparse
variable {m n : Nat}

/-- The cells `c` were consumed between `v` and `v'`. -/
structure Took (v : View n) (c : List (Cell n)) (v' : View n) : Prop where
  adv : Adv v v'
  cells : v'.cells = v.cells ++ c

theorem Took.rest {v v' : View n} {c} (h : Took v c v') : v.rest = toks c ++ v'.rest := by
  obtain ⟨ts, h1, h2⟩ := h.adv.cons
  rw [h.cells, List.map_append] at h2
  rw [h1, ← List.append_cancel_left h2]

theorem Took.refl (v : View n) : Took v [] v := ⟨.refl v, by simp⟩

theorem Took.trans {v v1 v' : View n} {c d} (h1 : Took v c v1) (h2 : Took v1 d v') : Took v (c ++ d) v' :=
  ⟨h1.adv.trans h2.adv, by rw [h2.cells, h1.cells, List.append_assoc]⟩

theorem Took.pos {v v' : View n} {c} (h : Took v c v') : v'.pos = endOf v.pos c := pos_of_cells h.cells

theorem Took.la {source : Str} {v v' : View n} {c} (h : Took v c v') :
    Teleparse.la source v.rest = ahead source c (Teleparse.la source v'.rest) := by rw [h.rest, la_ahead]

theorem Ready.look_la {source : Str} {v : View n} (h : Ready source v) : v.look = Teleparse.la source v.rest := by
  have e : v.source = source := h.inSource.src
  obtain ⟨s, d, l⟩ := v
  subst e
  exact h.la

section
variable {S : Schema m n} {md : Metadata (PId m n) n} {source : Str} {root : Ty m n}

/-- The successful results of `p` are predictive matches of `t`. -/
def Clean (S : Schema m n) (md : Metadata (PId m n) n) (source : Str) (root : Ty m n) (p : P (View n) n) (t : Ty m n) : Prop :=
  ∀ v x v', Ready source v → Sure S root v' → p v = .ok (.success x) v' →
    ∃ c, Took v c v' ∧ Chosen S md source (.ty v.pos t c x (la source v'.rest))

theorem ofPair_success {x y : Tree n} {e : List (Err n)} (h : Res.ofPair x e = .success y) : e = [] ∧ x = y := by
  unfold Res.ofPair at h
  split at h
  · rename_i he; cases h; exact ⟨List.isEmpty_iff.1 he, rfl⟩
  · cases h

/-- What is known about the parts from the description of runs. -/
structure CPart (S : Schema m n) (md : Metadata (PId m n) n) (source : Str) (root : Ty m n) (p : P (View n) n)
    (t : Ty m n) : Prop where
  desc : Desc S p t
  clean : Clean S md source root p t
  reach : Reach S.tyParts root t

theorem CPart.recovered {p : P (View n) n} {t : Ty m n} (h : CPart S md source root p t) {v x e v'}
    (hv : Ready source v) (hl : Sure S root v') (hp : p v = .ok (.recovered x e) v') : e ≠ [] :=
  ((h.desc _ _ _ hp).sound hl hv.sorted h.reach).recovered x e rfl

theorem CPart.panic {p : P (View n) n} {t : Ty m n} (h : CPart S md source root p t) {v e v'}
    (hv : Ready source v) (hl : Sure S root v') (hs : Heard S t v') (hp : p v = .ok (.panic e) v') : e ≠ [] :=
  ((h.desc _ _ _ hp).sound hl hv.sorted h.reach).loud (h.desc _ _ _ hp) hs

theorem CPart.ready {p : P (View n) n} {t : Ty m n} (h : CPart S md source root p t) {v r v'}
    (hv : Ready source v) (hp : p v = .ok r v') : Ready source v' := hv.adv (h.desc _ _ _ hp).adv

theorem clean_term (i : Nat) (k : Terminal n) (follow : TSet n) :
    Clean S md source root (produceTerm View.ops k follow) (.term i k) := by
  intro v x v' hv hl hr
  have hd := desc_term (fx := false) (S := S) i k follow v _ v' hr
  generalize hres : Res.success x = res at hd
  generalize hty : Ty.term i k = ty at hd
  cases hd with
  | @tok i' k' _ t l hrest hk hlit =>
    cases hty; cases hres
    refine ⟨[Cell.ofToken t], ⟨.skip _, skip_cells hrest⟩, .term ⟨hk, ?_⟩⟩
    intro lit hl
    have := get?_textOf (hlit lit hl)
    rw [show source = v.source from hv.inSource.src.symm]
    exact this.symm
  | tuple ht => cases ht <;> cases hty
  | optNone ho => cases ho <;> cases hty
  | optSuccess ho => cases ho <;> cases hty
  | textSuccess ho => cases ho <;> cases hty
  | _ => first | (cases hres; done) | (cases hty; done)

theorem clean_seq {f : Ty m n → P (View n) n} : ∀ (ts : List (Ty m n)),
    (∀ t ∈ ts, CPart S md source root (f t) t) → ∀ (v : View n) acc l v', Ready source v → Sure S root v' →
    seqLoop (ts.map f) acc [] v = .ok (.ok (l, [])) v' →
    ∃ cs xs, l = acc ++ xs ∧ Took v cs.flatten v' ∧
      Chosen S md source (.seq v.pos ts cs xs (la source v'.rest)) := by
  intro ts
  induction ts with
  | nil =>
    intro _ v acc l v' hv _ hr
    simp only [List.map_nil, seqLoop, pure_ok, Except.ok.injEq, Prod.mk.injEq, and_true] at hr
    obtain ⟨rfl, rfl⟩ := hr
    exact ⟨[], [], by simp, .refl _, .seqNil⟩
  | cons t ts ih =>
    intro h v acc l v' hv hl hr
    simp only [List.map_cons, seqLoop, bind_ok] at hr
    obtain ⟨r1, v1, h1, h2⟩ := hr
    have hp := h t (by simp)
    have hv1 := hp.ready hv h1
    cases r1 with
    | success x =>
      have hb : Adv v1 v' := (run_seq (S := S) f id ts (fun a ha => (h a (by simp [ha])).desc) _ _ _ _ _ h2).adv
      obtain ⟨c, hc, hch⟩ := hp.clean _ _ _ hv (hl.back hb) h1
      obtain ⟨cs, xs, rfl, hcs, hchs⟩ := ih (fun u hu => h u (by simp [hu])) _ _ _ _ hv1 hl h2
      refine ⟨c :: cs, x :: xs, by simp, hc.trans hcs, .seqCons ?_ ?_⟩
      · rw [← hcs.la]; exact hch
      · rw [← hc.pos]; exact hchs
    | recovered x e =>
      exfalso
      have hrun := run_seq (S := S) f id ts (fun a ha => (h a (by simp [ha])).desc) _ _ _ _ _ h2
      rw [List.map_id] at hrun
      obtain ⟨new, e2, _, h4, _⟩ := hrun.sound hl hv1.sorted (fun u hu => (h u (by simp [hu])).reach)
      exact hp.recovered hv (hl.back hrun.adv) h1 (by simpa using h4 : e = [] ∧ e2 = []).1
    | panic e =>
      simp only [pure_ok, reduceCtorEq, false_and] at h2

theorem seq_errs {f : Ty m n → P (View n) n} {ts : List (Ty m n)}
    (h : ∀ t ∈ ts, CPart S md source root (f t) t) {v : View n} {l errs v'} (hv : Ready source v)
    (hr : seqLoop (ts.map f) [] [] v = .ok (.ok (l, errs)) v') : Ready source v' := by
  have hrun := run_seq (S := S) f id ts (fun a ha => (h a ha).desc) _ _ _ _ _ hr
  exact hv.adv hrun.adv

theorem clean_tuple {t : Ty m n} {ts : List (Ty m n)} (ht : TupLike t ts) {f : Ty m n → P (View n) n}
    (h : ∀ t ∈ ts, CPart S md source root (f t) t) : Clean S md source root (produceTuple (ts.map f)) t := by
  intro v x v' hv hl hr
  simp only [produceTuple, bind_ok] at hr
  obtain ⟨r1, v1, h1, h2⟩ := hr
  cases r1 with
  | error e => simp only [pure_ok, reduceCtorEq, false_and] at h2
  | ok p =>
    obtain ⟨l, errs⟩ := p
    simp only [pure_ok] at h2
    obtain ⟨h2, rfl⟩ := h2
    obtain ⟨rfl, rfl⟩ := ofPair_success h2
    obtain ⟨cs, xs, hxs, hcs, hch⟩ := clean_seq ts h _ _ _ _ hv hl h1
    cases (show l = xs by simpa using hxs)
    exact ⟨_, hcs, .tuple (isTuple_of ht) hch⟩

theorem clean_struct {k : Fin m} {fd : Field m n} {fs : List (Field m n)} (hk : S k = .struct fd fs)
    {f : Ty m n → P (View n) n} (h : ∀ t ∈ (fd :: fs).map (·.1), CPart S md source root (f t) t) :
    Clean S md source root (produceStruct View.ops ((fd :: fs).map fun x => (f x.1, x.2))) (.user k) := by
  intro v x v' hv hl hr
  simp only [produceStruct, bind_ok, List.map_map] at hr
  obtain ⟨r1, v1, h1, h2⟩ := hr
  cases r1 with
  | error e => simp only [pure_ok, reduceCtorEq, false_and] at h2
  | ok p =>
    obtain ⟨l, errs⟩ := p
    simp only [bind_ok, applyFields_ok, pure_ok] at h2
    obtain ⟨_, _, rfl, h2, rfl⟩ := h2
    obtain ⟨rfl, rfl⟩ := ofPair_success h2
    have e : seqLoop (((fd :: fs).map (·.1)).map f) [] [] v = .ok (.ok (l, [])) v1 := by
      rw [List.map_map]; exact h1
    obtain ⟨cs, xs, hxs, hcs, hch⟩ := clean_seq _ h _ _ _ _ hv (hl.back (.applyAll _ _)) e
    cases (show l = xs by simpa using hxs)
    have hp : ParsesSeq S source v.pos ((fd :: fs).map (·.1)) cs l := hch.holds
    have hs1 : Sorted source v1 := hv.sorted.adv hcs.adv
    have hlen := hp.lengths
    have hl2 : cs.length = ((fd :: fs).map (·.2)).length := by rw [hlen.1]; simp
    have happ := applyAll_groups (pre := v.cells) hcs.cells hs1.store rfl (hp.fits (hs1.after hcs.cells)) hl2
    have e2 : List.map ((fun x => x.snd) ∘ fun x => (f x.fst, x.snd)) (fd :: fs) = (fd :: fs).map (·.2) := rfl
    rw [e2, happ]
    refine ⟨_, ⟨⟨hcs.adv.src, toks cs.flatten, hcs.rest, ?_⟩, rfl⟩, .struct hk hch⟩
    show toks (v.cells ++ addAll cs _) = _
    rw [toks_append]; exact congrArg _ (addAll_tokens _ _ hl2)

theorem clean_enum {k : Fin m} {fd : Field m n} {fs : List (Field m n)} (hk : S k = .enum fd fs)
    {f : Ty m n → P (View n) n} (h : ∀ t ∈ (fd :: fs).map (·.1), CPart S md source root (f t) t) (first : TSet n) :
    Clean S md source root (produceEnum View.ops (md.jump.lookUp (.user k)) first
      ((fd :: fs).map fun x => (f x.1, x.2))) (.user k) := by
  intro v x v' hv hl hr
  simp only [produceEnum, bind_ok, mPeekSrc_ok] at hr
  obtain ⟨tok, _, ⟨rfl, rfl, -⟩, hr⟩ := hr
  rename_i v
  cases hj : md.jump.lookUp (.user k) v.look with
  | none =>
    simp only [hj, bind_ok, mExpecting_ok, pure_ok] at hr
    obtain ⟨_, _, _, h, _⟩ := hr
    cases h
  | some i =>
    simp only [hj] at hr
    rw [List.getElem?_map] at hr
    cases hi : (fd :: fs)[i]? with
    | none =>
      simp only [hi, Option.map_none, bind_ok, mExpecting_ok, pure_ok] at hr
      obtain ⟨_, _, _, h, _⟩ := hr
      cases h
    | some y =>
      obtain ⟨t, sem⟩ := y
      simp only [hi, Option.map_some, bind_ok] at hr
      obtain ⟨r1, v1, h1, h2⟩ := hr
      have hm : t ∈ (fd :: fs).map (·.1) := List.mem_map.2 ⟨_, List.mem_of_getElem? hi, rfl⟩
      cases r1 with
      | success y =>
        simp only [mapVariant, bind_ok, applyFields_ok, pure_ok] at h2
        obtain ⟨_, _, rfl, h2, rfl⟩ := h2
        cases h2
        obtain ⟨c, hc, hch⟩ := (h t hm).clean _ _ _ hv (hl.back (.applyAll _ _)) h1
        have hs1 : Sorted source v1 := hv.sorted.adv hc.adv
        have hp : Parses S source v.pos t c y := hch.holds
        have happ := applyAll_groups (l := [y]) (cs := [c]) (sems := [sem]) (pre := v.cells) (v := v1)
          (by rw [hc.cells]; simp) hs1.store rfl (.cons (hp.fits (hs1.after hc.cells)) .nil) rfl
        rw [show [(y, sem)] = [y].zip [sem] from rfl, happ]
        have ht : toks (addAll [c] [sem]) = toks c := by simpa [addAll] using add_tokens sem c
        refine ⟨c.map (Cell.add sem), ⟨⟨hc.adv.src, toks c, hc.rest, ?_⟩, by simp [addAll]⟩, .enum hk hi ?_ hch⟩
        · show toks (v.cells ++ addAll [c] [sem]) = _
          rw [toks_append, ht]
        · rw [← hc.la, ← hv.look_la]; exact hj
      | recovered y e =>
        simp only [mapVariant, bind_ok, applyFields_ok, pure_ok] at h2
        obtain ⟨_, _, _, h2, _⟩ := h2
        cases h2
      | panic e => simp only [mapVariant, pure_ok, reduceCtorEq, false_and] at h2

theorem clean_option {t' t : Ty m n} {mk : Span → Option (Tree n) → Tree n} {p : P (View n) n} {i : PId m n}
    (h : Clean S md source root p t)
    (hnone : ∀ pos next, ¬ md.sees i next → Chosen S md source (.ty pos t' [] (mk ⟨pos, pos⟩ none) next))
    (hsome : ∀ pos c x next, md.sees i (ahead source c next) → Chosen S md source (.ty pos t c x next) →
      Chosen S md source (.ty pos t' c (mk x.span (some x)) next)) :
    Clean S md source root (produceOption View.ops (md.first.get i) p mk) t' := by
  intro v x v' hv hl hr
  simp only [produceOption, bind_ok, mPeekSrc_ok] at hr
  obtain ⟨tok, _, ⟨rfl, rfl, -⟩, hr⟩ := hr
  rename_i v
  split at hr
  · rename_i hg
    simp only [bind_ok] at hr
    obtain ⟨r1, v1, h1, h2⟩ := hr
    cases r1 with
    | success y =>
      simp only [pure_ok] at h2
      obtain ⟨h2, rfl⟩ := h2
      cases h2
      obtain ⟨c, hc, hch⟩ := h _ _ _ hv hl h1
      refine ⟨c, hc, hsome _ _ _ _ ?_ hch⟩
      rw [← hc.la, ← hv.look_la]; exact sees_iff.1 hg
    | recovered y e => simp only [pure_ok, reduceCtorEq, false_and] at h2
    | panic e =>
      simp only [bind_ok, mEmptySpan_ok, pure_ok] at h2
      obtain ⟨_, _, _, h2, _⟩ := h2
      cases h2
  · rename_i hg
    simp only [bind_ok, mEmptySpan_ok, pure_ok] at hr
    obtain ⟨_, _, ⟨rfl, rfl⟩, h2, rfl⟩ := hr
    cases h2
    refine ⟨[], .refl _, hnone _ _ ?_⟩
    rw [← hv.look_la]; exact not_sees_iff.1 hg

theorem clean_text {t' t : Ty m n} (ho : TextLike t' t) {p : P (View n) n} (h : Clean S md source root p t) :
    Clean S md source root (produceText View.ops p) t' := by
  intro v x v' hv hl hr
  simp only [produceText, bind_ok] at hr
  obtain ⟨r1, v1, h1, h2⟩ := hr
  cases r1 with
  | success y =>
    simp only [bind_ok, mGetSrc_ok, pure_ok] at h2
    obtain ⟨_, _, ⟨hs, rfl⟩, h2, rfl⟩ := h2
    cases h2
    obtain ⟨c, hc, hch⟩ := h _ _ _ hv hl h1
    have := get?_textOf hs
    rw [(hc.adv.src).trans hv.inSource.src] at this
    subst this
    refine ⟨c, hc, ?_⟩
    cases ho
    · exact .quote hch
    · exact .parse hch
  | recovered y e =>
    simp only [bind_ok, mGetSrc_ok, pure_ok] at h2
    obtain ⟨_, _, _, h2, _⟩ := h2
    cases h2
  | panic e => simp only [pure_ok, reduceCtorEq, false_and] at h2

theorem clean_iter {t : Ty m n} {p : P (View n) n} (h : CPart S md source root p t) :
    ∀ (fuel : Nat) (v : View n) acc hi acc' hi' v', Ready source v → Sure S root v' → Heard S t v' →
      iterLoop View.ops (md.first.get (Ty.plus t).pid) p fuel acc [] hi v = .ok (acc', [], hi') v' →
      ∃ cs xs, acc' = acc ++ xs ∧ hi' = (xs.getLast?.map (·.span.hi)).getD hi ∧ Took v cs.flatten v' ∧
        Chosen S md source (.more v.pos t cs xs (la source v'.rest)) := by
  intro fuel
  induction fuel with
  | zero => intro v acc hi acc' hi' v' _ _ _ hr; cases hr
  | succ fuel ih =>
    intro v acc hi acc' hi' v' hv hl hs hr
    simp only [iterLoop, bind_ok, mPeekSrc_ok] at hr
    obtain ⟨tok, _, ⟨rfl, rfl, -⟩, hr⟩ := hr
    rename_i v
    split at hr
    · rename_i hg
      simp only [bind_ok] at hr
      obtain ⟨r1, v1, h1, h2⟩ := hr
      have hv1 := h.ready hv h1
      cases r1 with
      | success x =>
        have hb : Adv v1 v' := (run_iter (S := S) h.desc _ _ _ _ _ _ _ _ h2).adv
        obtain ⟨c, hc, hch⟩ := h.clean _ _ _ hv (hl.back hb) h1
        obtain ⟨cs, xs, rfl, hhi, hcs, hchs⟩ := ih _ _ _ _ _ _ hv1 hl hs h2
        refine ⟨c :: cs, x :: xs, by simp, ?_, hc.trans hcs, .moreGo ?_ ?_ ?_⟩
        · rw [hhi]
          cases xs with
          | nil => simp
          | cons y ys => rw [last_hi (y :: ys) (by simp) x.span.hi hi, getLast?_tail x (by simp)]
        · rw [ahead_append, ← hcs.la, ← hc.la, ← hv.look_la]; exact sees_iff.1 hg
        · rw [← hcs.la]; exact hch
        · rw [← hc.pos]; exact hchs
      | recovered x e =>
        exfalso
        have hb := run_iter (S := S) h.desc _ _ _ _ _ _ _ _ h2
        obtain ⟨new, e2, _, h4, _⟩ := hb.sound hl hv1.sorted h.reach hs
        exact h.recovered hv (hl.back hb.adv) h1 (by simpa using h4 : e = [] ∧ e2 = []).1
      | panic e =>
        simp only [pure_ok, Prod.mk.injEq] at h2
        obtain ⟨⟨_, h2, _⟩, rfl⟩ := h2
        exact absurd (by simpa using h2) (h.panic hv hl hs h1)
    · rename_i hg
      simp only [pure_ok, Prod.mk.injEq] at hr
      obtain ⟨⟨rfl, _, rfl⟩, rfl⟩ := hr
      refine ⟨[], [], by simp, by simp, .refl _, .moreStop ?_⟩
      rw [← hv.look_la]; exact not_sees_iff.1 hg

/-- The successful results of `producePlus`. -/
theorem clean_plus {t : Ty m n} {p : P (View n) n} (h : CPart S md source root p t)
    (fuel : Nat) (v : View n) (x : Tree n) (v' : View n) (hv : Ready source v)
    (hl : Sure S root v') (hs : Heard S t v')
    (hr : producePlus View.ops (md.first.get (Ty.plus t).pid) p fuel v = .ok (.success x) v') :
    ∃ c cs y ys, x = .list (spanOf (y :: ys)) (y :: ys) ∧ Took v (c ++ cs.flatten) v' ∧
      Chosen S md source (.ty v.pos t c y (ahead source cs.flatten (la source v'.rest))) ∧
      Chosen S md source (.more (endOf v.pos c) t cs ys (la source v'.rest)) := by
  simp only [producePlus, bind_ok] at hr
  obtain ⟨r1, v1, h1, h2⟩ := hr
  have hv1 := h.ready hv h1
  cases r1 with
  | success y =>
    simp only [plusRest, bind_ok, pure_ok] at h2
    obtain ⟨⟨l, errs, hi⟩, v2, h2, h3, rfl⟩ := h2
    obtain ⟨he, rfl⟩ := ofPair_success h3
    dsimp only at he
    subst he
    have hb : Adv v1 v2 := (run_iter (S := S) h.desc _ _ _ _ _ _ _ _ h2).adv
    obtain ⟨c, hc, hch⟩ := h.clean _ _ _ hv (hl.back hb) h1
    obtain ⟨cs, ys, hys, hhi, hcs, hchs⟩ := clean_iter h _ _ _ _ _ _ _ hv1 hl hs h2
    subst hhi
    cases (show l = y :: ys by simpa using hys)
    refine ⟨c, cs, y, ys, ?_, hc.trans hcs, ?_, ?_⟩
    · cases ys with
      | nil => rfl
      | cons z zs =>
        rw [last_hi (z :: zs) (by simp) y.span.hi 0]
        simp only [spanOf, List.head?_cons, Option.map_some, Option.getD_some]
        rw [getLast?_tail y (l := z :: zs) (by simp)]
    · rw [← hcs.la]; exact hch
    · rw [← hc.pos]; exact hchs
  | recovered y e =>
    simp only [plusRest, bind_ok, pure_ok] at h2
    obtain ⟨⟨l, errs, hi⟩, v2, h2, h3, rfl⟩ := h2
    obtain ⟨he, rfl⟩ := ofPair_success h3
    have hb := run_iter (S := S) h.desc _ _ _ _ _ _ _ _ h2
    obtain ⟨new, e2, _, h4, _⟩ := hb.sound hl hv1.sorted h.reach hs
    dsimp only at he h4
    rw [he] at h4
    exact absurd (by simpa using h4 : e = [] ∧ e2 = []).1 (h.recovered hv (hl.back hb.adv) h1)
  | panic e => simp only [pure_ok, reduceCtorEq, false_and] at h2

theorem clean_loopLoop {t : Ty m n} {p : P (View n) n} (h : CPart S md source root p t) :
    ∀ (fuel : Nat) (v : View n) out out' v', Ready source v → Sure S root v' → Heard S t v' →
      loopLoop View.ops (md.first.get (Ty.loop t).pid) p fuel out [] v = .ok (out', []) v' →
      ∃ cs xs, out' = out ++ xs ∧ Took v cs.flatten v' ∧ v'.rest = [] ∧
        Chosen S md source (.loop v.pos t cs xs) := by
  intro fuel
  induction fuel with
  | zero => intro v out out' v' _ _ _ hr; cases hr
  | succ fuel ih =>
    intro v out out' v' hv hl hs hr
    simp only [loopLoop, bind_ok, mPeekSrc_ok] at hr
    obtain ⟨tok, _, ⟨rfl, rfl, -⟩, hr⟩ := hr
    rename_i v
    split at hr
    · rename_i hn
      simp only [pure_ok, Prod.mk.injEq, and_true] at hr
      obtain ⟨rfl, rfl⟩ := hr
      exact ⟨[], [], by simp, .refl _, (look_isNone _).1 hn, .loopStop⟩
    · rename_i hn
      have hne : v.rest ≠ [] := fun h => hn ((look_isNone _).2 h)
      simp only [bind_ok] at hr
      obtain ⟨⟨errs1, more⟩, v1, h1, hr⟩ := hr
      split at h1
      · exfalso
        simp only [loopSkip, bind_ok, mCurrentSpan_ok, mConsume_ok, pure_ok] at h1
        obtain ⟨_, _, ⟨rfl, rfl⟩, _, _, ⟨rfl, rfl⟩, ⟨hi, more'⟩, v2, h2, h3, rfl⟩ := h1
        obtain ⟨hsk, -, -⟩ := skipLoop_ok _ _ _ _ _ _ _ (.one hne) (skip_pos _ hne).symm h2
        simp only [Prod.mk.injEq] at h3
        obtain ⟨rfl, rfl⟩ := h3
        split at hr
        · simp only [pure_ok, Prod.mk.injEq] at hr
          obtain ⟨⟨_, hr⟩, _⟩ := hr
          exact absurd hr (by simp)
        · simp only [bind_ok] at hr
          obtain ⟨⟨go, out2, errs2⟩, v2, h2, hr⟩ := hr
          have hv2 := hv.adv hsk.adv
          rcases loopElem_ok h.desc h2 with ⟨hg, he⟩ | ⟨hg, he⟩
          · simp only at hg
            subst hg
            simp only [Bool.false_eq_true, if_false, pure_ok, Prod.mk.injEq] at hr
            obtain ⟨⟨rfl, rfl⟩, rfl⟩ := hr
            obtain ⟨new, e, _, h5, _⟩ := he.sound hl hv2.sorted h.reach hs
            simp at h5
          · simp only at hg
            subst hg
            simp only [if_true] at hr
            have he := he _ _ _ (run_loop h.desc _ _ _ _ _ _ _ hr)
            obtain ⟨new, e, _, h5, _⟩ := he.sound hl hv2.sorted h.reach hs
            simp at h5
      · rename_i hg0
        simp only [pure_ok, Prod.mk.injEq] at h1
        obtain ⟨⟨rfl, rfl⟩, rfl⟩ := h1
        simp only [Bool.not_true, Bool.false_eq_true, if_false, bind_ok] at hr
        obtain ⟨⟨go, out2, errs2⟩, v2, h2, hr⟩ := hr
        simp only [loopElem, bind_ok, mCurrentSpan_ok] at h2
        obtain ⟨_, _, ⟨rfl, rfl⟩, r1, v3, h3, _, _, ⟨rfl, rfl⟩, h2⟩ := h2
        have hv3 := h.ready hv h3
        split at h2
        · exfalso
          simp only [pure_ok, Prod.mk.injEq] at h2
          obtain ⟨⟨rfl, rfl, rfl⟩, rfl⟩ := h2
          simp only [Bool.false_eq_true, if_false, pure_ok, Prod.mk.injEq] at hr
          obtain ⟨⟨_, hr⟩, _⟩ := hr
          simp at hr
        · rename_i hadv
          simp only [pure_ok, Prod.mk.injEq] at h2
          obtain ⟨⟨rfl, rfl, rfl⟩, rfl⟩ := h2
          simp only [if_true] at hr
          cases r1 with
          | success x =>
            have hb : Adv _ v' := (run_loop h.desc _ _ _ _ _ _ _ hr).adv
            obtain ⟨c, hc, hch⟩ := h.clean _ _ _ hv (by exact hl.back hb) h3
            obtain ⟨cs, xs, rfl, hcs, hnil, hchs⟩ := ih _ _ _ _ hv3 hl hs hr
            have hla : la source v'.rest = none := by rw [hnil]; rfl
            refine ⟨c :: cs, x :: xs, by simp, hc.trans hcs, hnil, .loopGo ?_ ?_ ?_ ?_⟩
            · rw [ahead_append, ← hla, ← hcs.la, ← hc.la, ← hv.look_la]
              have h1 := (look_isSome _).2 hne
              simp only [Bool.not_eq_true', Bool.not_eq_false] at hg0
              exact sees_iff.1 (by rw [h1, hg0]; rfl)
            · rintro rfl
              have hrest := hc.rest
              simp only [toks, List.map_nil, List.nil_append] at hrest
              apply hadv
              unfold View.cur
              rw [hrest, hc.adv.src]
            · rw [← hla, ← hcs.la]; exact hch
            · rw [← hc.pos]; exact hchs
          | recovered x e =>
            exfalso
            have hb := run_loop h.desc _ _ _ _ _ _ _ hr
            obtain ⟨new, e2, _, h5, _⟩ := hb.sound hl hv3.sorted h.reach hs
            exact h.recovered hv (hl.back hb.adv) h3 (by simpa using h5 : e = [] ∧ e2 = []).1
          | panic e =>
            exfalso
            have hb := run_loop h.desc _ _ _ _ _ _ _ hr
            obtain ⟨new, e2, _, h5, _⟩ := hb.sound hl hv3.sorted h.reach hs
            exact h.panic hv (hl.back hb.adv) (hs.back hb.adv) h3 (by simpa using h5 : e = [] ∧ e2 = []).1

theorem clean_loop {t : Ty m n} {p : P (View n) n} (h : CPart S md source root p t) (hr : Reach S.tyParts root (.loop t))
    (fuel : Nat) : Clean S md source root (produceLoop View.ops (md.first.get (Ty.loop t).pid) p fuel) (.loop t) := by
  have hrl := hr
  intro v x v' hv hl hr
  have hs : Heard S t v' := hl.heard hrl (by simp [Ty.absorbed])
  simp only [produceLoop, bind_ok] at hr
  obtain ⟨⟨out, errs⟩, v1, h1, hr⟩ := hr
  split at hr
  · rename_i he
    simp only [bind_ok, mEmptySpan_ok, pure_ok] at hr
    obtain ⟨_, _, ⟨rfl, rfl⟩, h2, rfl⟩ := hr
    obtain ⟨rfl, rfl⟩ := ofPair_success h2
    obtain ⟨cs, xs, hxs, hcs, hnil, hch⟩ := clean_loopLoop h _ _ _ _ _ hv hl hs h1
    cases (show out = xs by simpa using hxs)
    have : out = [] := by simpa using he
    subst this
    have hc0 : cs = [] := by
      generalize hj : Claim.loop _ t cs [] = j at hch
      cases hch <;> first | (cases hj; done) | (cases hj; rfl)
    subst hc0
    refine ⟨[], hcs, ?_⟩
    rw [hcs.pos, hnil]
    exact .loopNone
  · rename_i he
    simp only [pure_ok] at hr
    obtain ⟨h2, rfl⟩ := hr
    obtain ⟨rfl, rfl⟩ := ofPair_success h2
    obtain ⟨cs, xs, hxs, hcs, hnil, hch⟩ := clean_loopLoop h _ _ _ _ _ hv hl hs h1
    cases (show out = xs by simpa using hxs)
    refine ⟨_, hcs, ?_⟩
    rw [hnil]
    exact .loopSome (by simpa using he) hch

theorem readyTry {t : Ty m n} {v v1 : View n} {panic panic1} (hv : Ready source v) (ht : Try S t v panic panic1 v1) :
    Ready source v1 := by
  cases ht with
  | fail hd => exact hv.adv hd.adv
  | note => exact hv

/-- The inner loop of `Split` without errors. -/
theorem clean_inner {t : Ty m n} {p : P (View n) n} (h : CPart S md source root p t)
    (pf fol : TSet n) (q : Tree n) (fuel : Nat) (v : View n) (a : Acc n) (go : Bool) (a' : Acc n) (v' : View n)
    (hv : Ready source v) (hl : Sure S root v') (hs : Heard S t v')
    (hr : splitInner View.ops (md.first.get t.pid) pf fol p q fuel a none v = .ok (go, a') v')
    (ha : a'.errs = a.errs) :
    ∃ c x, go = true ∧ a' = ⟨a.elems ++ [x], a.puncts ++ [q], a.errs⟩ ∧ Took v c v' ∧
      md.starts t.pid (ahead source c (la source v'.rest)) ∧
      Chosen S md source (.ty v.pos t c x (la source v'.rest)) := by
  cases fuel with
  | zero => cases hr
  | succ fuel =>
    have hrun := run_inner h.desc _ _ _ _ _ _ _ _ _ _ hr
    simp only [splitInner, bind_ok] at hr
    obtain ⟨r1, v1, h1, hr⟩ := hr
    have bad : ∀ {panic1}, Sure S root v1 → Heard S t v1 → Try S t v none panic1 v1 → panic1 ≠ none := by
      intro panic1 hl hs ht hn
      cases ht with
      | fail hd =>
        have := (mergePanic_none hn).2
        subst this
        exact (hd.sound hl hv.sorted h.reach).loud hd hs rfl
      | note hn' => exact hn'.some hn
    cases r1 with
    | error a1 =>
      simp only [pure_ok, Prod.mk.injEq] at hr
      obtain ⟨⟨rfl, rfl⟩, rfl⟩ := hr
      simp only [splitTry, bind_ok, mPeekSrc_ok] at h1
      obtain ⟨tok, _, ⟨rfl, rfl, -⟩, h1⟩ := h1
      rename_i v
      split at h1
      · rename_i hg
        simp only [bind_ok] at h1
        obtain ⟨r1, v2, h2, h3⟩ := h1
        cases r1 with
        | success x =>
          simp only [pure_ok, Except.error.injEq] at h3
          obtain ⟨rfl, rfl⟩ := h3
          obtain ⟨c, hc, hch⟩ := h.clean _ _ _ hv hl h2
          refine ⟨c, x, rfl, by simp, hc, ?_, hch⟩
          rw [← hc.la, ← hv.look_la]; exact starts_iff.1 hg
        | recovered x e =>
          simp only [pure_ok, Except.error.injEq] at h3
          obtain ⟨rfl, rfl⟩ := h3
          exact absurd (by simpa using ha) (h.recovered hv hl h2)
        | panic e =>
          simp only [bind_ok, pure_ok] at h3
          obtain ⟨_, _, _, h3, _⟩ := h3
          cases h3
      · simp only [bind_ok, pure_ok] at h1
        obtain ⟨_, _, _, h1, _⟩ := h1
        cases h1
    | ok b =>
      exfalso
      rcases splitTry_ok h.desc h1 with ⟨a', hh, _⟩ | ⟨panic1, hh, ht⟩
      · cases hh
      · cases hh
        simp only at hr
        split at hr
        · simp only [pure_ok, Prod.mk.injEq] at hr
          obtain ⟨⟨rfl, rfl⟩, rfl⟩ := hr
          cases panic1 with
          | none => exact bad hl hs ht rfl
          | some _ => simp at ha
        · split at hr
          · simp only [pure_ok, Prod.mk.injEq] at hr
            obtain ⟨⟨rfl, rfl⟩, rfl⟩ := hr
            cases panic1 with
            | none => exact bad hl hs ht rfl
            | some _ => simp at ha
          · simp only [bind_ok, mConsume_ok] at hr
            obtain ⟨_, _, ⟨rfl, rfl⟩, hr⟩ := hr
            have hv1 : Ready source v1 := by
              cases ht with
              | fail hd => exact hv.adv hd.adv
              | note => exact hv
            have hi := run_inner h.desc _ _ _ _ _ _ _ _ _ _ hr
            have hb := bad (hl.back ((Adv.skip _).trans hi.adv)) (hs.back ((Adv.skip _).trans hi.adv)) ht
            have hi := hi.sound hl (hv1.adv (.skip _)).sorted h.reach hs
            obtain ⟨e, h5, h6⟩ := hi
            simp only at h5
            rw [ha] at h5
            exact hb (h6 (by simpa using h5)).1

theorem inner_errs {t : Ty m n} {p : P (View n) n} (h : CPart S md source root p t)
    {ef pf fol : TSet n} {q : Tree n} {fuel : Nat} {v : View n} {a : Acc n} {panic} {go : Bool} {a' : Acc n}
    {v' : View n} (hv : Ready source v) (hl : Sure S root v') (hs : Heard S t v')
    (hr : splitInner View.ops ef pf fol p q fuel a panic v = .ok (go, a') v') :
    (∃ e, a'.errs = a.errs ++ e) ∧ Ready source v' ∧ Adv v v' := by
  have hi := run_inner h.desc _ _ _ _ _ _ _ _ _ _ hr
  obtain ⟨e, h5, -⟩ := hi.sound hl hv.sorted h.reach hs
  exact ⟨⟨e, h5⟩, hv.adv hi.adv, hi.adv⟩

theorem outer_errs {t u : Ty m n} {p pp : P (View n) n} (h : CPart S md source root p t)
    (hu : CPart S md source root pp u)
    {ef pf fol : TSet n} {fuel : Nat} {v : View n} {a a' : Acc n}
    {v' : View n} (hv : Ready source v) (hl : Sure S root v') (hs : Heard S t v') (hsu : Heard S u v')
    (hr : splitOuter View.ops ef pf fol p pp fuel a v = .ok a' v') : (∃ e, a'.errs = a.errs ++ e) ∧ Adv v v' := by
  have hi := run_outer h.desc hu.desc _ _ _ _ _ _ _ _ hr
  obtain ⟨e, h5, -⟩ := hi.sound hl hv.sorted h.reach hs hu.reach hsu
  exact ⟨⟨e, h5⟩, hi.adv⟩

/-- The outer loop of `Split` without errors. -/
theorem clean_outer {t u : Ty m n} {p pp : P (View n) n} (h : CPart S md source root p t)
    (hu : CPart S md source root pp u) (fol : TSet n) :
    ∀ (fuel : Nat) (v : View n) (a a' : Acc n) (v' : View n), Ready source v → Sure S root v' → Heard S t v' → Heard S u v' →
      splitOuter View.ops (md.first.get t.pid) (md.first.get u.pid) fol p pp fuel a v = .ok a' v' →
      a'.errs = a.errs →
      ∃ cs ps es, a' = ⟨a.elems ++ es, a.puncts ++ ps, a.errs⟩ ∧ Took v cs.flatten v' ∧ es.length = ps.length ∧
        Chosen S md source (.split v.pos t u cs ps es (la source v'.rest)) := by
  intro fuel
  induction fuel with
  | zero => intro v a a' v' _ _ _ _ hr; cases hr
  | succ fuel ih =>
    intro v a a' v' hv hl hs hsu hr ha
    simp only [splitOuter, bind_ok, mPeekSrc_ok] at hr
    obtain ⟨tok, _, ⟨rfl, rfl, -⟩, hr⟩ := hr
    rename_i v
    split at hr
    · rename_i hg
      simp only [bind_ok] at hr
      obtain ⟨r1, v1, h1, hr⟩ := hr
      have hv1 := hu.ready hv h1
      cases r1 with
      | panic e =>
        simp only [pure_ok] at hr
        obtain ⟨rfl, rfl⟩ := hr
        exact absurd (by simpa using ha) (hu.panic hv hl hsu h1)
      | success q =>
        simp only [bind_ok] at hr
        obtain ⟨⟨go, a1⟩, v2, h2, hr⟩ := hr
        have hb : Adv v2 v' := by
          simp only at hr
          split at hr
          · exact (run_outer h.desc hu.desc _ _ _ _ _ _ _ _ hr).adv
          · simp only [pure_ok] at hr
            obtain ⟨rfl, rfl⟩ := hr
            exact .refl _
        obtain ⟨⟨e1, he1⟩, hv2, hb2⟩ := inner_errs h hv1 (hl.back hb) (hs.back hb) h2
        have ha1 : a1.errs = a.errs := by
          simp only at hr
          split at hr
          · obtain ⟨⟨e2, he2⟩, _⟩ := outer_errs h hu hv2 hl hs hsu hr
            rw [he2, he1, List.append_assoc] at ha
            have := (by simpa using ha : e1 = [] ∧ e2 = []).1
            subst this; simpa using he1
          · simp only [pure_ok] at hr
            obtain ⟨rfl, rfl⟩ := hr
            exact ha
        obtain ⟨d, x, rfl, rfl, hd, hst, hchd⟩ := clean_inner h _ _ _ _ _ _ _ _ _ hv1 (hl.back hb) (hs.back hb) h2 ha1
        simp only [if_true] at hr
        obtain ⟨c, hc, hchc⟩ := hu.clean _ _ _ hv (hl.back (hb2.trans hb)) h1
        obtain ⟨cs, ps, es, rfl, hcs, hlen, hch⟩ := ih _ _ _ _ hv2 hl hs hsu hr ha
        refine ⟨c :: d :: cs, q :: ps, x :: es, by simp, ?_, by simp [hlen],
          .splitGo ?_ ?_ ?_ ?_ ?_⟩
        · simpa using hc.trans (hd.trans hcs)
        · rw [ahead_append, ← (hd.trans hcs).la, ← hc.la, ← hv.look_la]; exact sees_iff.1 hg
        · rw [← (hd.trans hcs).la]; exact hchc
        · rw [ahead_append, ← hcs.la]; exact hst
        · rw [← hcs.la, ← hc.pos]; exact hchd
        · rw [← hc.pos, ← hd.pos]; exact hch
      | recovered q e =>
        exfalso
        simp only [bind_ok] at hr
        obtain ⟨⟨go, a1⟩, v2, h2, hr⟩ := hr
        have hb : Adv v2 v' := by
          simp only at hr
          split at hr
          · exact (run_outer h.desc hu.desc _ _ _ _ _ _ _ _ hr).adv
          · simp only [pure_ok] at hr
            obtain ⟨rfl, rfl⟩ := hr
            exact .refl _
        obtain ⟨⟨e1, he1⟩, hv2, hb2⟩ := inner_errs h hv1 (hl.back hb) (hs.back hb) h2
        apply hu.recovered hv (hl.back (hb2.trans hb)) h1
        simp only at hr he1
        split at hr
        · obtain ⟨⟨e2, he2⟩, _⟩ := outer_errs h hu hv2 hl hs hsu hr
          rw [he2, he1, List.append_assoc, List.append_assoc] at ha
          exact (by simpa using ha : e = [] ∧ e1 = [] ∧ e2 = []).1
        · simp only [pure_ok] at hr
          obtain ⟨rfl, rfl⟩ := hr
          rw [he1, List.append_assoc] at ha
          exact (by simpa using ha : e = [] ∧ e1 = []).1
    · rename_i hg
      simp only [pure_ok] at hr
      obtain ⟨rfl, rfl⟩ := hr
      refine ⟨[], [], [], by simp, .refl _, rfl, .splitStop ?_⟩
      rw [← hv.look_la]; exact not_sees_iff.1 hg

theorem clean_split {t u : Ty m n} {p pp : P (View n) n} (h : CPart S md source root p t)
    (hu : CPart S md source root pp u) (hrl : Reach S.tyParts root (.split t u)) (fol : TSet n) (fuel : Nat) :
    Clean S md source root (produceSplit View.ops (md.first.get t.pid) (md.first.get u.pid) fol p pp fuel)
      (.split t u) := by
  intro v x v' hv hl hr
  have hs : Heard S t v' := hl.heard hrl (by simp [Ty.absorbed])
  have hsu : Heard S u v' := hl.heard hrl (by simp [Ty.absorbed])
  simp only [produceSplit, bind_ok] at hr
  obtain ⟨r1, v1, h1, hr⟩ := hr
  have hv1 := h.ready hv h1
  cases r1 with
  | panic e => simp only [pure_ok, reduceCtorEq, false_and] at hr
  | success y =>
    simp only [bind_ok, pure_ok] at hr
    obtain ⟨a, v2, h2, h3, rfl⟩ := hr
    obtain ⟨he, rfl⟩ := ofPair_success h3
    have hb : Adv v1 v2 := (run_outer h.desc hu.desc _ _ _ _ _ _ _ _ h2).adv
    obtain ⟨c, hc, hch⟩ := h.clean _ _ _ hv (hl.back hb) h1
    obtain ⟨cs, ps, es, rfl, hcs, hlen, hchs⟩ := clean_outer h hu fol _ _ _ _ _ hv1 hl hs hsu h2 he
    refine ⟨c ++ cs.flatten, hc.trans hcs, ?_⟩
    simp only [List.cons_append, List.nil_append]
    rw [split_span y es ps hlen]
    refine .split ?_ ?_
    · rw [← hcs.la]; exact hch
    · rw [← hc.pos]; exact hchs
  | recovered y e =>
    simp only [bind_ok, pure_ok] at hr
    obtain ⟨a, v2, h2, h3, rfl⟩ := hr
    obtain ⟨he, _⟩ := ofPair_success h3
    obtain ⟨⟨e2, he2⟩, hb⟩ := outer_errs h hu hv1 hl hs hsu h2
    rw [he] at he2
    exact absurd (by simpa using he2 : e = [] ∧ e2 = []).1 (h.recovered hv (hl.back hb) h1)

/-- The inner loop of `Punct` without errors. -/
theorem clean_pinner {t : Ty m n} {p : P (View n) n} (h : CPart S md source root p t)
    (pf fol : TSet n) (fuel : Nat) (v : View n) (a : Acc n) (go : Bool) (a' : Acc n) (v' : View n)
    (hv : Ready source v) (hl : Sure S root v') (hs : Heard S t v')
    (hr : punctInner View.ops (md.first.get t.pid) pf fol p fuel a none v = .ok (go, a') v')
    (ha : a'.errs = a.errs) :
    (∃ c x, go = true ∧ a' = ⟨a.elems ++ [x], a.puncts, a.errs⟩ ∧ Took v c v' ∧
      md.sees t.pid (ahead source c (la source v'.rest)) ∧
      Chosen S md source (.ty v.pos t c x (la source v'.rest))) ∨
    (go = false ∧ a' = a ∧ v' = v ∧ ¬ md.sees t.pid (la source v.rest) ∧
      ∀ w, la source v.rest = some w → fol.contains (some w) = true) := by
  cases fuel with
  | zero => cases hr
  | succ fuel =>
    have hrun := run_pinner h.desc _ _ _ _ _ _ _ _ _ hr
    simp only [punctInner, bind_ok] at hr
    obtain ⟨r1, v1, h1, hr⟩ := hr
    have bad : ∀ {panic1}, Sure S root v1 → Heard S t v1 → Try S t v none panic1 v1 → panic1 ≠ none := by
      intro panic1 hl hs ht hn
      cases ht with
      | fail hd =>
        have := (mergePanic_none hn).2
        subst this
        exact (hd.sound hl hv.sorted h.reach).loud hd hs rfl
      | note hn' => exact hn'.some hn
    cases r1 with
    | error a1 =>
      simp only [pure_ok, Prod.mk.injEq] at hr
      obtain ⟨rfl, rfl⟩ := hr
      simp only [punctTry, bind_ok, mPeekSrc_ok] at h1
      obtain ⟨tok, _, ⟨rfl, rfl, -⟩, h1⟩ := h1
      rename_i v
      split at h1
      · rename_i hn
        simp only [pure_ok, Except.error.injEq, Prod.mk.injEq] at h1
        obtain ⟨⟨rfl, rfl⟩, rfl⟩ := h1
        have hnone : la source v.rest = none := by rw [← hv.look_la]; simpa using hn
        exact .inr ⟨rfl, by simp, rfl, by rw [hnone]; exact not_sees_none, by rw [hnone]; simp⟩
      · rename_i hn
        split at h1
        · rename_i hg
          simp only [bind_ok] at h1
          obtain ⟨r1, v2, h2, h3⟩ := h1
          cases r1 with
          | success x =>
            simp only [pure_ok, Except.error.injEq, Prod.mk.injEq] at h3
            obtain ⟨⟨rfl, rfl⟩, rfl⟩ := h3
            obtain ⟨c, hc, hch⟩ := h.clean _ _ _ hv hl h2
            refine .inl ⟨c, x, rfl, by simp, hc, ?_, hch⟩
            rw [← hc.la, ← hv.look_la]
            refine sees_iff.1 ?_
            have h1 := (look_isSome v).2 (fun h => hn ((look_isNone _).2 h))
            rw [h1, hg]; rfl
          | recovered x e =>
            simp only [pure_ok, Except.error.injEq, Prod.mk.injEq] at h3
            obtain ⟨⟨rfl, rfl⟩, rfl⟩ := h3
            exact absurd (by simpa using ha) (h.recovered hv hl h2)
          | panic e => simp only [pure_ok, reduceCtorEq, false_and] at h3
        · rename_i hg
          split at h1
          · rename_i hf
            simp only [pure_ok, Except.error.injEq, Prod.mk.injEq] at h1
            obtain ⟨⟨rfl, rfl⟩, rfl⟩ := h1
            refine .inr ⟨rfl, by simp, rfl, ?_, ?_⟩
            · rw [← hv.look_la]
              rintro ⟨w, hw, hc⟩
              rw [hw] at hg
              exact hg hc
            · intro w hw
              rw [← hv.look_la] at hw
              rw [← hw]; exact hf
          · simp only [bind_ok, pure_ok] at h1
            obtain ⟨_, _, _, h1, _⟩ := h1
            cases h1
    | ok b =>
      exfalso
      rcases punctTry_ok h.desc h1 with ⟨a', hh, _⟩ | ⟨panic1, hh, ht⟩
      · cases hh
      · cases hh
        simp only [bind_ok, mPeekSrc_ok] at hr
        obtain ⟨_, _, ⟨rfl, rfl, -⟩, hr⟩ := hr
        split at hr
        · simp only [pure_ok, Prod.mk.injEq] at hr
          obtain ⟨⟨rfl, rfl⟩, rfl⟩ := hr
          cases b with
          | none => exact bad hl hs ht rfl
          | some _ => simp at ha
        · split at hr
          · simp only [pure_ok, Prod.mk.injEq] at hr
            obtain ⟨⟨rfl, rfl⟩, rfl⟩ := hr
            cases b with
            | none => exact bad hl hs ht rfl
            | some _ => simp at ha
          · simp only [bind_ok, mConsume_ok] at hr
            obtain ⟨_, _, ⟨rfl, rfl⟩, hr⟩ := hr
            have hv1 := readyTry hv ht
            have hi := run_pinner h.desc _ _ _ _ _ _ _ _ _ hr
            have hb := bad (hl.back ((Adv.skip _).trans hi.adv)) (hs.back ((Adv.skip _).trans hi.adv)) ht
            have hi := hi.sound hl (hv1.adv (.skip _)).sorted h.reach hs
            obtain ⟨e, h5, h6⟩ := hi
            simp only at h5
            rw [ha] at h5
            exact hb (h6 (by simpa using h5)).1

theorem pinner_errs {t : Ty m n} {p : P (View n) n} (h : CPart S md source root p t)
    {ef pf fol : TSet n} {fuel : Nat} {v : View n} {a : Acc n} {panic} {go : Bool} {a' : Acc n}
    {v' : View n} (hv : Ready source v) (hl : Sure S root v') (hs : Heard S t v')
    (hr : punctInner View.ops ef pf fol p fuel a panic v = .ok (go, a') v') :
    (∃ e, a'.errs = a.errs ++ e) ∧ Ready source v' ∧ Adv v v' := by
  have hi := run_pinner h.desc _ _ _ _ _ _ _ _ _ hr
  obtain ⟨e, h5, -⟩ := hi.sound hl hv.sorted h.reach hs
  exact ⟨⟨e, h5⟩, hv.adv hi.adv, hi.adv⟩

theorem pouter_errs {t u : Ty m n} {p pp : P (View n) n} (h : CPart S md source root p t)
    (hu : CPart S md source root pp u)
    {ef pf fol : TSet n} {fuel : Nat} {v : View n} {a a' : Acc n}
    {v' : View n} (hv : Ready source v) (hl : Sure S root v') (hs : Heard S t v') (hsu : Heard S u v')
    (hr : punctOuter View.ops ef pf fol p pp fuel a v = .ok a' v') : (∃ e, a'.errs = a.errs ++ e) ∧ Adv v v' := by
  have hi := run_pouter h.desc hu.desc _ _ _ _ _ _ _ _ hr
  obtain ⟨e, h5, -⟩ := hi.sound hl hv.sorted h.reach hs hu.reach hsu
  exact ⟨⟨e, h5⟩, hi.adv⟩

/-- The outer loop of `Punct` without errors. -/
theorem clean_pouter {t u : Ty m n} {p pp : P (View n) n} (h : CPart S md source root p t)
    (hu : CPart S md source root pp u) :
    ∀ (fuel : Nat) (v : View n) (a a' : Acc n) (v' : View n), Ready source v → Sure S root v' → Heard S t v' → Heard S u v' →
      punctOuter View.ops (md.first.get t.pid) (md.first.get u.pid) (md.follow.get (Ty.punct t u).pid) p pp fuel a v
        = .ok a' v' →
      a'.errs = a.errs →
      ∃ cs ps es, a' = ⟨a.elems ++ es, a.puncts ++ ps, a.errs⟩ ∧ Took v cs.flatten v' ∧
        (ps.length = es.length ∨ ps.length = es.length + 1) ∧
        Chosen S md source (.punct v.pos t u cs ps es (la source v'.rest)) := by
  intro fuel
  induction fuel with
  | zero => intro v a a' v' _ _ _ _ hr; cases hr
  | succ fuel ih =>
    intro v a a' v' hv hl hs hsu hr ha
    simp only [punctOuter, bind_ok, mPeekSrc_ok] at hr
    obtain ⟨tok, _, ⟨rfl, rfl, -⟩, hr⟩ := hr
    rename_i v
    split at hr
    · rename_i hg
      simp only [bind_ok] at hr
      obtain ⟨r1, v1, h1, hr⟩ := hr
      have hv1 := hu.ready hv h1
      cases r1 with
      | panic e =>
        simp only [pure_ok] at hr
        obtain ⟨rfl, rfl⟩ := hr
        exact absurd (by simpa using ha) (hu.panic hv hl hsu h1)
      | success q =>
        simp only [bind_ok] at hr
        obtain ⟨⟨go, a1⟩, v2, h2, hr⟩ := hr
        have hb : Adv v2 v' := by
          simp only at hr
          split at hr
          · exact (run_pouter h.desc hu.desc _ _ _ _ _ _ _ _ hr).adv
          · simp only [pure_ok] at hr
            obtain ⟨rfl, rfl⟩ := hr
            exact .refl _
        obtain ⟨⟨e1, he1⟩, hv2, hb2⟩ := pinner_errs h hv1 (hl.back hb) (hs.back hb) h2
        have ha1 : a1.errs = a.errs := by
          simp only at hr
          split at hr
          · obtain ⟨⟨e2, he2⟩, _⟩ := pouter_errs h hu hv2 hl hs hsu hr
            rw [he2, he1, List.append_assoc] at ha
            have := (by simpa using ha : e1 = [] ∧ e2 = []).1
            subst this; simpa using he1
          · simp only [pure_ok] at hr
            obtain ⟨rfl, rfl⟩ := hr
            exact ha
        obtain ⟨c, hc, hchc⟩ := hu.clean _ _ _ hv (hl.back (hb2.trans hb)) h1
        rcases clean_pinner h _ _ _ _ _ _ _ _ hv1 (hl.back hb) (hs.back hb) h2 ha1 with ⟨d, x, rfl, rfl, hd, hst, hchd⟩ | ⟨rfl, rfl, rfl, hns, hf⟩
        · simp only [if_true] at hr
          obtain ⟨cs, ps, es, rfl, hcs, hlen, hch⟩ := ih _ _ _ _ hv2 hl hs hsu hr ha
          refine ⟨c :: d :: cs, q :: ps, x :: es, by simp, ?_, by simpa using hlen,
            .punctGo ?_ ?_ ?_ ?_ ?_⟩
          · simpa using hc.trans (hd.trans hcs)
          · rw [ahead_append, ← (hd.trans hcs).la, ← hc.la, ← hv.look_la]; exact sees_iff.1 hg
          · rw [← (hd.trans hcs).la]; exact hchc
          · rw [ahead_append, ← hcs.la]; exact hst
          · rw [← hcs.la, ← hc.pos]; exact hchd
          · rw [← hc.pos, ← hd.pos]; exact hch
        · simp only [Bool.false_eq_true, if_false, pure_ok] at hr
          obtain ⟨rfl, rfl⟩ := hr
          refine ⟨[c], [q], [], by simp, by simpa using hc, .inr rfl, .punctTrail ?_ hchc hns hf⟩
          rw [← hc.la, ← hv.look_la]; exact sees_iff.1 hg
      | recovered q e =>
        exfalso
        simp only [bind_ok] at hr
        obtain ⟨⟨go, a1⟩, v2, h2, hr⟩ := hr
        have hb : Adv v2 v' := by
          simp only at hr
          split at hr
          · exact (run_pouter h.desc hu.desc _ _ _ _ _ _ _ _ hr).adv
          · simp only [pure_ok] at hr
            obtain ⟨rfl, rfl⟩ := hr
            exact .refl _
        obtain ⟨⟨e1, he1⟩, hv2, hb2⟩ := pinner_errs h hv1 (hl.back hb) (hs.back hb) h2
        apply hu.recovered hv (hl.back (hb2.trans hb)) h1
        simp only at hr he1
        split at hr
        · obtain ⟨⟨e2, he2⟩, _⟩ := pouter_errs h hu hv2 hl hs hsu hr
          rw [he2, he1, List.append_assoc, List.append_assoc] at ha
          exact (by simpa using ha : e = [] ∧ e1 = [] ∧ e2 = []).1
        · simp only [pure_ok] at hr
          obtain ⟨rfl, rfl⟩ := hr
          rw [he1, List.append_assoc] at ha
          exact (by simpa using ha : e = [] ∧ e1 = []).1
    · rename_i hg
      simp only [pure_ok] at hr
      obtain ⟨rfl, rfl⟩ := hr
      refine ⟨[], [], [], by simp, .refl _, .inl rfl, .punctStop ?_⟩
      rw [← hv.look_la]; exact not_sees_iff.1 hg

theorem clean_punct {t u : Ty m n} {p pp : P (View n) n} (h : CPart S md source root p t)
    (hu : CPart S md source root pp u) (hrl : Reach S.tyParts root (.punct t u)) (fuel : Nat) :
    Clean S md source root (producePunct View.ops (md.first.get t.pid) (md.first.get u.pid)
      (md.follow.get (Ty.punct t u).pid) p pp fuel) (.punct t u) := by
  intro v x v' hv hl hr
  have hs : Heard S t v' := hl.heard hrl (by simp [Ty.absorbed])
  have hsu : Heard S u v' := hl.heard hrl (by simp [Ty.absorbed])
  simp only [producePunct, bind_ok] at hr
  obtain ⟨r1, v1, h1, hr⟩ := hr
  have hv1 := h.ready hv h1
  cases r1 with
  | panic e => simp only [pure_ok, reduceCtorEq, false_and] at hr
  | success y =>
    simp only [bind_ok, pure_ok] at hr
    obtain ⟨a, v2, h2, h3, rfl⟩ := hr
    obtain ⟨he, rfl⟩ := ofPair_success h3
    have hb : Adv v1 v2 := (run_pouter h.desc hu.desc _ _ _ _ _ _ _ _ h2).adv
    obtain ⟨c, hc, hch⟩ := h.clean _ _ _ hv (hl.back hb) h1
    obtain ⟨cs, ps, es, rfl, hcs, hlen, hchs⟩ := clean_pouter h hu _ _ _ _ _ hv1 hl hs hsu h2 he
    refine ⟨c ++ cs.flatten, hc.trans hcs, ?_⟩
    simp only [List.cons_append, List.nil_append]
    have hp1 : Parses S source v.pos t c y := hch.holds
    have hp2 : ParsesSeq S source (endOf v.pos c) (alternate u t (ps.length + es.length)) cs (interleave ps es) := by
      rw [← hc.pos]; exact hchs.holds.2
    have hs2 := hv.sorted.adv (hc.trans hcs).adv
    have hpp : ParsesSeq S source v.pos (t :: alternate u t (ps.length + es.length)) (c :: cs)
        (y :: interleave ps es) := .cons hp1 hp2
    have hfit := hpp.fits (hs2.after (hc.trans hcs).cells)
    rw [← interleave_cons] at hfit
    rw [punct_span y es ps hlen hfit (hs2.after (hc.trans hcs).cells)]
    refine .punct ?_ ?_
    · rw [← hcs.la]; exact hch
    · rw [← hc.pos]; exact hchs
  | recovered y e =>
    simp only [bind_ok, pure_ok] at hr
    obtain ⟨a, v2, h2, h3, rfl⟩ := hr
    obtain ⟨he, _⟩ := ofPair_success h3
    obtain ⟨⟨e2, he2⟩, hb⟩ := pouter_errs h hu hv1 hl hs hsu h2
    rw [he] at he2
    exact absurd (by simpa using he2 : e = [] ∧ e2 = []).1 (h.recovered hv (hl.back hb) h1)

theorem clean_recover {t u : Ty m n} {p pp : P (View n) n} (h : CPart S md source root p t)
    (hu : CPart S md source root pp u) (hrl : Reach S.tyParts root (.recover t u)) (fuel : Nat) :
    Clean S md source root (produceRecover View.ops (md.first.get t.pid) (md.first.get u.pid) p pp fuel)
      (.recover t u) := by
  intro v x v' hv hl hr
  simp only [produceRecover, bind_ok] at hr
  obtain ⟨hd, v1, h1, ⟨tl, errs, panic⟩, w, h2, h3⟩ := hr
  have hh := run_head h.desc h1
  have hv1 : Ready source v1 := hv.adv hh.adv
  have htl := run_tail hu.desc _ _ _ _ _ _ _ h2
  cases tl with
  | none => simp only [pure_ok, reduceCtorEq, false_and] at h3
  | some y =>
    simp only [pure_ok] at h3
    obtain ⟨h3, hv2⟩ := h3
    obtain ⟨he, rfl⟩ := ofPair_success h3
    subst hv2
    have hl1 : Sure S root v1 := hl.back htl.adv
    have hs : Heard S t v1 := hl1.heard hrl (by simp [Ty.absorbed])
    obtain ⟨he1, hp1, _⟩ := (htl.sound hl hv1.sorted hu.reach).2 y rfl he
    simp only [List.append_eq_nil_iff, Option.toList_eq_nil_iff] at he
    obtain ⟨rfl, rfl⟩ := he
    obtain ⟨herrs, hpanic, hspan, hhead⟩ := hd
    simp only at he1 hp1
    subst he1
    subst hp1
    -- the head
    have key : ∃ c x, hspan = x.span ∧ hhead = some x ∧ Took v c v1 ∧
        md.starts t.pid (ahead source c (la source v1.rest)) ∧
        Chosen S md source (.ty v.pos t c x (la source v1.rest)) := by
      simp only [recoverHead, bind_ok, mPeekSrc_ok] at h1
      obtain ⟨tok, _, ⟨rfl, rfl, -⟩, h1⟩ := h1
      rename_i v
      split at h1
      · rename_i hg
        simp only [bind_ok] at h1
        obtain ⟨r1, v2, h4, h5⟩ := h1
        cases r1 with
        | success x =>
          simp only [pure_ok, RHead.mk.injEq, true_and] at h5
          obtain ⟨⟨rfl, rfl⟩, rfl⟩ := h5
          obtain ⟨c, hc, hch⟩ := h.clean _ _ _ hv hl1 h4
          refine ⟨c, x, rfl, rfl, hc, ?_, hch⟩
          rw [← hc.la, ← hv.look_la]; exact starts_iff.1 hg
        | recovered x e =>
          simp only [pure_ok, RHead.mk.injEq] at h5
          obtain ⟨⟨he, _⟩, rfl⟩ := h5
          exact absurd he (h.recovered hv hl1 h4)
        | panic e =>
          simp only [bind_ok, mEmptySpan_ok, pure_ok, RHead.mk.injEq] at h5
          obtain ⟨_, _, ⟨rfl, rfl⟩, ⟨_, he, _⟩, rfl⟩ := h5
          exact absurd (List.getLast?_eq_none_iff.1 he) (h.panic hv hl1 hs h4)
      · simp only [bind_ok, mEmptySpan_ok, mExpecting_ok, pure_ok, RHead.mk.injEq] at h1
        obtain ⟨_, _, _, _, _, _, ⟨_, he, _⟩, _⟩ := h1
        cases he
    -- the tail
    have tail : ∃ d, Took v1 d w ∧ md.starts u.pid (ahead source d (la source w.rest)) ∧
        Chosen S md source (.ty v1.pos u d y (la source w.rest)) := by
      have no : ∀ {panic1 fuel v3}, Ready source v3 → panic1 ≠ none →
          ¬ recoverLoop View.ops (md.first.get u.pid) pp fuel [] panic1 v3 = .ok (some y, [], none) w := by
        intro panic1 fuel v3 hv3 hb hlp
        exact hb (((run_tail hu.desc _ _ _ _ _ _ _ hlp).sound hl hv3.sorted hu.reach).2 y rfl rfl).2.1
      have give : md.starts u.pid v1.look → ∀ {r v2}, pp v1 = .ok r v2 → ∀ z, r = .success z →
          z = y → v2 = w → ∃ d, Took v1 d w ∧ md.starts u.pid (ahead source d (la source w.rest)) ∧
            Chosen S md source (.ty v1.pos u d y (la source w.rest)) := by
        rintro hg r v2 h5 z rfl rfl rfl
        obtain ⟨d, hd, hch⟩ := hu.clean _ _ _ hv1 hl h5
        exact ⟨d, hd, by rw [← hd.la, ← hv1.look_la]; exact hg, hch⟩
      cases fuel with
      | zero => cases h2
      | succ fuel =>
        simp only [recoverLoop, bind_ok, mPeekSrc_ok] at h2
        obtain ⟨tok, _, ⟨rfl, rfl, -⟩, h2⟩ := h2
        rename_i v1
        split at h2
        · split at h2
          · rename_i hg
            simp only [bind_ok] at h2
            obtain ⟨r1, v2, h4, h5⟩ := h2
            cases r1 with
            | success x =>
              simp only [pure_ok, Prod.mk.injEq, Option.some.injEq, and_true] at h5
              exact give (.inr hg) h4 _ rfl h5.1 h5.2
            | recovered x e =>
              simp only [pure_ok, Prod.mk.injEq, Option.some.injEq, List.nil_append, and_true] at h5
              obtain ⟨⟨_, h5⟩, rfl⟩ := h5
              exact absurd h5 (hu.recovered hv1 hl h4)
            | panic e =>
              simp only [pure_ok, Prod.mk.injEq, reduceCtorEq, false_and] at h5
          · simp only [pure_ok, Prod.mk.injEq, reduceCtorEq, false_and] at h2
        · split at h2
          · rename_i hg
            simp only [bind_ok] at h2
            obtain ⟨r1, v2, h4, h5⟩ := h2
            cases r1 with
            | success x =>
              simp only [pure_ok, Prod.mk.injEq, Option.some.injEq, and_true] at h5
              exact give (starts_iff.1 hg) h4 _ rfl h5.1 h5.2
            | recovered x e =>
              simp only [pure_ok, Prod.mk.injEq, Option.some.injEq, List.nil_append, and_true] at h5
              obtain ⟨⟨_, h5⟩, rfl⟩ := h5
              exact absurd h5 (hu.recovered hv1 hl h4)
            | panic e =>
              simp only [bind_ok] at h5
              obtain ⟨p1, v3, h6, h7⟩ := h5
              obtain ⟨hn, rfl⟩ := recoverSkip_ok h6
              exact absurd h7 (no ((hu.ready hv1 h4).adv (.skip _)) hn.some)
          · simp only [bind_ok] at h2
            obtain ⟨p1, v3, h6, h7⟩ := h2
            obtain ⟨hn, rfl⟩ := recoverSkip_ok h6
            exact absurd h7 (no (hv1.adv (.skip _)) hn.some)
    obtain ⟨c, x, rfl, rfl, hc, hst, hch⟩ := key
    obtain ⟨d, hd, hst2, hch2⟩ := tail
    refine ⟨c ++ d, hc.trans hd, .recover ?_ ?_ hst2 ?_⟩
    · rw [ahead_append, ← hd.la]; exact hst
    · rw [← hd.la]; exact hch
    · rw [← hc.pos]; exact hch2

/-- The parts of a predictive match of `Plus`. -/
theorem Chosen.plus_inv {pos : Nat} {t : Ty m n} {c x next} (h : Chosen S md source (.ty pos (.plus t) c x next)) :
    ∃ d y cs ys, c = d ++ cs.flatten ∧ x = .list (spanOf (y :: ys)) (y :: ys) ∧
      Chosen S md source (.ty pos t d y (ahead source cs.flatten next)) ∧
      Chosen S md source (.more (endOf pos d) t cs ys next) := by
  generalize hj : Claim.ty pos (Ty.plus t) c x next = j at h
  cases h with
  | plus h1 h2 => cases hj; exact ⟨_, _, _, _, rfl, rfl, h1, h2⟩
  | tuple ht => cases hj; exact absurd ht (by simp [Ty.isTuple])
  | _ => cases hj

/-- **An error-free parse is a predictive match.** -/
theorem chosen_of_produce : ∀ (fuel : Nat) (t : Ty m n), Reach S.tyParts root t →
    CPart S md source root (produce View.ops S md fuel t) t := by
  intro fuel
  induction fuel with
  | zero => exact fun t ht => ⟨run_of_produce S md 0 t, (by intro v x v' _ _ h; cases h), ht⟩
  | succ fuel ih =>
    intro t ht
    refine ⟨run_of_produce S md _ t, ?_, ht⟩
    have part : ∀ u ∈ S.tyParts t, CPart S md source root (produce View.ops S md fuel u) u :=
      fun u hu => ih u (.step ht hu)
    show Clean S md source root (produceStep View.ops S md fuel (produce View.ops S md fuel) t) t
    cases t with
    | term i k => exact clean_term i k _
    | user k =>
      cases hS : S k with
      | struct f fs =>
        simp only [produceStep, hS]
        exact clean_struct hS (fun u hu => part u (by simpa [Schema.tyParts, hS] using hu))
      | enum f fs =>
        simp only [produceStep, hS]
        exact clean_enum hS (fun u hu => part u (by simpa [Schema.tyParts, hS] using hu)) _
    | box t =>
      intro v x v' hv hl hr
      obtain ⟨c, hc, hch⟩ := (part t (by simp [Schema.tyParts])).clean v x v' hv hl hr
      exact ⟨c, hc, .box hch⟩
    | option t =>
      exact clean_option (part t (by simp [Schema.tyParts])).clean (fun _ _ h => .optNone h)
        (fun _ _ _ _ h h' => .optSome h h')
    | exist t =>
      exact clean_option (part t (by simp [Schema.tyParts])).clean (fun _ _ h => .existNone h)
        (fun _ _ _ _ h h' => .existSome h h')
    | quote t => exact clean_text (.quote t) (part t (by simp [Schema.tyParts])).clean
    | parse t => exact clean_text (.parse t) (part t (by simp [Schema.tyParts])).clean
    | plus t =>
      intro v x v' hv hl hr
      obtain ⟨c, cs, y, ys, rfl, h1, h2, h3⟩ := clean_plus (part t (by simp [Schema.tyParts]))
        _ _ _ _ hv hl (hl.heard ht (by simp [Ty.absorbed])) hr
      exact ⟨_, h1, .plus h2 h3⟩
    | star t =>
      have hp : Reach S.tyParts root (.plus t) := .step ht (by simp [Schema.tyParts])
      have hpt := ih t (.step hp (by simp [Schema.tyParts]))
      refine clean_option (t := .plus t) ?_ (fun _ _ h => .starNone h) ?_
      · intro v x v' hv hl hr
        obtain ⟨c, cs, y, ys, rfl, h1, h2, h3⟩ := clean_plus hpt
          _ _ _ _ hv hl (hl.heard hp (by simp [Ty.absorbed])) hr
        exact ⟨_, h1, .plus h2 h3⟩
      · intro pos c x next hse h
        obtain ⟨d, y, cs, ys, rfl, rfl, h1, h2⟩ := h.plus_inv
        exact .starSome hse h1 h2
    | loop t => exact clean_loop (part t (by simp [Schema.tyParts])) ht _
    | split t p =>
      exact clean_split (part t (by simp [Schema.tyParts])) (part p (by simp [Schema.tyParts])) ht _ _
    | punct t p =>
      exact clean_punct (part t (by simp [Schema.tyParts])) (part p (by simp [Schema.tyParts])) ht _
    | recover t r =>
      exact clean_recover (part t (by simp [Schema.tyParts])) (part r (by simp [Schema.tyParts])) ht _
    | tup2 a b => exact clean_tuple (.tup2 a b) (fun u hu => part u (by simpa [Schema.tyParts] using hu))
    | tup3 a b c => exact clean_tuple (.tup3 a b c) (fun u hu => part u (by simpa [Schema.tyParts] using hu))
    | tup4 a b c d => exact clean_tuple (.tup4 a b c d) (fun u hu => part u (by simpa [Schema.tyParts] using hu))
    | tup5 a b c d e => exact clean_tuple (.tup5 a b c d e) (fun u hu => part u (by simpa [Schema.tyParts] using hu))

end
end Teleparse

import Verif.Proof.SyntaxMacro
import Verif.Proof.Run
/-
The code generated by `derive_syntax` does what the model of user-defined types says.
-/
namespace Teleparse.Syn
variable {m n : Nat} {τ σ : Type}

theorem tokenSet_eq (resolve : Str → Option (Fin n)) (ids : List Str) : tokenSet resolve ids =
    if ids = [] then none else (ids.mapM resolve).map fun ts => ts.foldl LSet.insert LSet.new := by
  have fold : ∀ (ts : List (Fin n)) (b : Bits n),
      (⟨ts.foldl (fun b t => b ||| toBit t) b⟩ : LSet n) = ts.foldl LSet.insert ⟨b⟩ := by
    intro ts
    induction ts with
    | nil => intro b; rfl
    | cons t ts ih => intro b; simpa [LSet.insert] using ih _
  unfold tokenSet
  cases ids with
  | nil => simp
  | cons i is =>
    simp only [List.mapM_cons, bind, Option.bind, pure, reduceCtorEq, if_false]
    cases resolve i with
    | none => rfl
    | some t =>
      simp only
      cases is.mapM resolve with
      | none => rfl
      | some ts => simp [fold, LSet.insert, LSet.new]

theorem declared_eq (resolve : Str → Option (Fin n)) (p : Ty m n × Option (List Str)) : declared resolve p =
    match p.2 with
    | none => some (p.1, none)
    | some ids => (tokenSet resolve ids).map fun s => (p.1, some s) := by
  unfold declared
  split
  · rename_i h; simp [h]
  · rename_i h; simp [h, tokenSet]
  · rename_i ids h1 h2
    simp only [h2, tokenSet_eq]
    have : ids ≠ [] := by rintro rfl; exact h1 rfl
    simp [this, Function.comp_def]

/-! ## Structs -/

/-- A field with its accessor. -/
abbrev Trip (τ : Type) := Accessor × τ × Option (List Str)

def callsOf (l : List (Trip τ)) : List (Accessor × List Str) :=
  l.filterMap fun e => e.2.2.map fun s => (e.1, s)

def tripIdx : Nat → List (FieldD τ) → List (Trip τ)
  | _, [] => []
  | i, f :: fs => (.idx i, f.ty, f.attrs.semantic) :: tripIdx (i + 1) fs

def tripName (fs : List (FieldD τ)) : List (Trip τ) := fs.map fun f => (.name f.ident, f.ty, f.attrs.semantic)

theorem callsIdx_eq (fs : List (FieldD τ)) : ∀ i, callsIdx i fs = callsOf (tripIdx i fs) := by
  induction fs with
  | nil => intro i; rfl
  | cons f fs ih =>
    intro i
    cases h : f.attrs.semantic <;> simp [callsIdx, tripIdx, callsOf, h, ih]

theorem buildUnnamed_eq (fs : List (FieldD τ)) : ∀ i,
    buildUnnamed i fs = (tripIdx i fs).map fun e => (e.1, e.2.1) := by
  induction fs with
  | nil => intro i; rfl
  | cons f fs ih => intro i; simp [buildUnnamed, tripIdx, ih]

theorem tripIdx_parts (fs : List (FieldD τ)) : ∀ i,
    (tripIdx i fs).map (·.2) = fs.map fun f => (f.ty, f.attrs.semantic) := by
  induction fs with
  | nil => intro i; rfl
  | cons f fs ih => intro i; simp [tripIdx, ih]

theorem tripIdx_acc (fs : List (FieldD τ)) : ∀ i,
    (tripIdx i fs).map (·.1) = (List.range' i fs.length).map Accessor.idx := by
  induction fs with
  | nil => intro i; rfl
  | cons f fs ih => intro i; simp [tripIdx, ih, List.range'_succ]

theorem tripIdx_nodup (fs : List (FieldD τ)) (i : Nat) : ((tripIdx i fs).map (·.1)).Nodup := by
  rw [tripIdx_acc]
  refine List.Pairwise.map _ ?_ (List.nodup_range' (step := 1))
  intro a b h h'
  cases h'
  exact h rfl

theorem tripName_nodup {fs : List (FieldD τ)} (h : (fs.map FieldD.ident).Nodup) :
    ((tripName fs).map (·.1)).Nodup := by
  have : (tripName fs).map (·.1) = (fs.map FieldD.ident).map Accessor.name := by simp [tripName]
  rw [this]
  refine List.Pairwise.map _ ?_ h
  intro a b h h'
  cases h'
  exact h rfl

theorem place_at {pre suf : List (Trip τ)} {x : Trip τ} (h : ((pre ++ x :: suf).map (·.1)).Nodup) :
    place ((pre ++ x :: suf).map fun e => (e.1, e.2.1)) x.1 = some pre.length := by
  induction pre with
  | nil => simp [place, List.findIdx?_cons]
  | cons y pre ih =>
    simp only [List.cons_append, List.map_cons, List.nodup_cons] at h
    have hne : y.1 ≠ x.1 := by
      rintro h'
      apply h.1
      simp [h']
    have := ih h.2
    simp only [place] at this
    simp only [place, List.cons_append, List.map_cons, List.findIdx?_cons, this]
    simp [hne]

theorem calls_none {resolve : Str → Option (Fin n)} {b : List (Accessor × Ty m n)} {suf : List (Trip (Ty m n))}
    {pre : List (Trip (Ty m n))} (hb : b = (pre ++ suf).map fun e => (e.1, e.2.1))
    (h : ((pre ++ suf).map (·.1)).Nodup) :
    (callsOf suf).mapM (resolveCall resolve b) = none ↔ (suf.map (·.2)).mapM (declared resolve) = none := by
  induction suf generalizing pre with
  | nil => simp [callsOf]
  | cons x suf ih =>
    have ih := ih (pre := pre ++ [x]) (by simpa using hb) (by simpa using h)
    have hp := place_at h
    rw [← hb] at hp
    obtain ⟨a, t, s⟩ := x
    simp only at hp
    cases s with
    | none =>
      have : callsOf ((a, t, none) :: suf) = callsOf suf := rfl
      rw [this, ih]
      simp only [List.map_cons, List.mapM_cons, declared]
      cases (suf.map (·.2)).mapM (declared resolve) <;> simp
    | some ids =>
      have : callsOf ((a, t, some ids) :: suf) = (a, ids) :: callsOf suf := rfl
      rw [this]
      simp only [List.mapM_cons, List.map_cons, declared_eq]
      cases hs : tokenSet resolve ids with
      | none => simp [resolveCall, hp, hs]
      | some s =>
        simp only [resolveCall, hp, hs]
        cases h1 : (callsOf suf).mapM (resolveCall resolve b) with
        | none => simp [ih.1 h1]
        | some r =>
          cases h2 : (suf.map (·.2)).mapM (declared resolve) with
          | none => rw [ih.2 h2] at h1; cases h1
          | some r' => simp

variable (o : Ops σ n)

theorem calls_apply {resolve : Str → Option (Fin n)} {b : List (Accessor × Ty m n)} {suf : List (Trip (Ty m n))}
    {pre : List (Trip (Ty m n))} (hb : b = (pre ++ suf).map fun e => (e.1, e.2.1))
    (h : ((pre ++ suf).map (·.1)).Nodup) {ap : List (Nat × LSet n)} {fs : List (Field m n)}
    (h1 : (callsOf suf).mapM (resolveCall resolve b) = some ap)
    (h2 : (suf.map (·.2)).mapM (declared resolve) = some fs) :
    fs.map Prod.fst = suf.map (·.2.1) ∧ ∀ (lp l : List (Tree n)), lp.length = pre.length → l.length = suf.length →
      applyCalls o (lp ++ l) ap = applyFields o (l.zip (fs.map Prod.snd)) := by
  induction suf generalizing pre ap fs with
  | nil =>
    simp only [callsOf, List.filterMap_nil, List.mapM_nil, pure, Option.some.injEq, List.map_nil] at h1 h2
    subst h1; subst h2
    refine ⟨rfl, ?_⟩
    intro lp l _ hl
    simp only [List.length_nil, List.length_eq_zero_iff] at hl
    subst hl
    rfl
  | cons x suf ih =>
    have ih := @ih (pre ++ [x]) (hb := by simpa using hb) (h := by simpa using h)
    have hp := place_at h
    rw [← hb] at hp
    obtain ⟨a, t, s⟩ := x
    simp only at hp
    cases s with
    | none =>
      have : callsOf ((a, t, none) :: suf) = callsOf suf := rfl
      rw [this] at h1
      simp only [List.map_cons, List.mapM_cons, declared, bind, Option.bind, pure] at h2
      split at h2
      · cases h2
      · rename_i fs' h3
        simp only [Option.some.injEq] at h2
        subst h2
        obtain ⟨h4, h5⟩ := ih h1 h3
        refine ⟨by simp [h4], ?_⟩
        intro lp l hlp hl
        match l, hl with
        | x :: l, hl =>
          have := h5 (lp ++ [x]) l (by simp [hlp]) (by simpa using hl)
          simp only [List.append_assoc, List.singleton_append] at this
          rw [this]
          rfl
    | some ids =>
      have : callsOf ((a, t, some ids) :: suf) = (a, ids) :: callsOf suf := rfl
      rw [this] at h1
      simp only [List.mapM_cons, List.map_cons, declared_eq] at h1 h2
      cases hs : tokenSet resolve ids with
      | none => simp [resolveCall, hp, hs] at h1
      | some s =>
        simp only [resolveCall, hp, hs, bind, Option.bind, pure, Option.map] at h1 h2
        split at h1
        · cases h1
        · rename_i ap' h3
          split at h2
          · cases h2
          · rename_i fs' h4
            simp only [Option.some.injEq] at h1 h2
            subst h1; subst h2
            obtain ⟨h6, h7⟩ := ih h3 h4
            refine ⟨by simp [h6], ?_⟩
            intro lp l hlp hl
            match l, hl with
            | x :: l, hl =>
              have := h7 (lp ++ [x]) l (by simp [hlp]) (by simpa using hl)
              simp only [List.append_assoc, List.singleton_append] at this
              have h8 : (lp ++ x :: l)[pre.length]? = some x := by simp [← hlp]
              simp only [applyCalls, h8, this]
              rfl

theorem seqLoop_length (ps : List (P σ n)) : ∀ (acc : List (Tree n)) errs s s' l e,
    seqLoop ps acc errs s = .ok (.ok (l, e)) s' → l.length = acc.length + ps.length := by
  induction ps with
  | nil =>
    intro acc errs s s' l e h
    simp only [seqLoop, pure_ok, Except.ok.injEq, Prod.mk.injEq] at h
    simp [h.1.1]
  | cons p ps ih =>
    intro acc errs s s' l e h
    simp only [seqLoop, bind_ok] at h
    obtain ⟨r, s1, -, h⟩ := h
    cases r with
    | success t => have := ih _ _ _ _ _ _ h; simp at this ⊢; omega
    | recovered t e' => have := ih _ _ _ _ _ _ h; simp at this ⊢; omega
    | panic e' => simp [pure_ok] at h

theorem bind_congr_ok {α β : Type} {x : M σ α} {f g : α → M σ β} (h : ∀ s a s', x s = .ok a s' → f a = g a) :
    (x >>= f) = (x >>= g) := by
  funext s
  show M.bind x f s = M.bind x g s
  unfold M.bind
  cases hx : x s with
  | fuel => rfl
  | crash => rfl
  | ok a s' =>
    show f a s' = g a s'
    rw [h s a s' hx]

/-- A struct made of fields with accessors. -/
def structGen (l : List (Trip τ)) (lo hi : Accessor) : StructGen τ :=
  ⟨l.map (·.2.1), l.map fun e => (e.1, e.2.1), callsOf l, lo, hi⟩

structure EndsAt (l : List (Trip τ)) (lo hi : Accessor) : Prop where
  lo : l.head?.map (·.1) = some lo
  hi : l.getLast?.map (·.1) = some hi

theorem place_lo {l : List (Trip τ)} {lo hi : Accessor} (h : (l.map (·.1)).Nodup) (he : EndsAt l lo hi) :
    place (l.map fun e => (e.1, e.2.1)) lo = some 0 := by
  cases l with
  | nil => cases he.lo
  | cons x l =>
    have := he.lo
    simp at this
    have := place_at (pre := []) h
    simp_all

theorem place_hi {l : List (Trip τ)} {lo hi : Accessor} (h : (l.map (·.1)).Nodup) (he : EndsAt l lo hi) :
    place (l.map fun e => (e.1, e.2.1)) hi = some (l.length - 1) := by
  rcases List.eq_nil_or_concat l with rfl | ⟨pre, x, rfl⟩
  · cases he.lo
  · have := he.hi
    simp at this
    subst this
    have := place_at (pre := pre) (suf := []) (by simpa using h)
    simpa using this

theorem struct_compile {resolve : Str → Option (Fin n)} {l : List (Trip (Ty m n))} {lo hi : Accessor}
    (h : (l.map (·.1)).Nodup) (he : EndsAt l lo hi) {c : StructCode m n} :
    (structGen l lo hi).compile resolve = some c ↔ ∃ ap,
      (callsOf l).mapM (resolveCall resolve (l.map fun e => (e.1, e.2.1))) = some ap ∧
      c = ⟨l.map (·.2.1), l.map (·.2.1), ap, 0, l.length - 1⟩ := by
  unfold StructGen.compile
  simp only [structGen, place_lo h he, place_hi h he]
  cases (callsOf l).mapM (resolveCall resolve (l.map fun e => (e.1, e.2.1))) with
  | none => simp
  | some ap => simp [Function.comp_def, eq_comm]

theorem span_eq {l : List (Tree n)} {c : StructCode m n} (h1 : c.lo = 0) (h2 : c.hi = l.length - 1) :
    c.span l = spanOf l := by
  unfold StructCode.span spanOf
  rw [h1, h2, ← List.getLast?_eq_getElem?, ← List.head?_eq_getElem?]

theorem struct_produce {resolve : Str → Option (Fin n)} {l : List (Trip (Ty m n))} {lo hi : Accessor}
    (h : (l.map (·.1)).Nodup) (he : EndsAt l lo hi) {c : StructCode m n}
    (hc : (structGen l lo hi).compile resolve = some c) {fs : List (Field m n)}
    (hf : (l.map (·.2)).mapM (declared resolve) = some fs) (rec : Ty m n → P σ n) :
    c.register = fs.map Prod.fst ∧ c.produce o rec = produceStruct o (fs.map fun f => (rec f.1, f.2)) := by
  obtain ⟨ap, hap, rfl⟩ := (struct_compile h he).1 hc
  obtain ⟨h1, h2⟩ := calls_apply o (pre := []) rfl h hap hf
  refine ⟨h1.symm, ?_⟩
  unfold StructCode.produce produceStruct
  have h3 : (fs.map fun f => (rec f.1, f.2)).map Prod.fst = (l.map (·.2.1)).map rec := by
    rw [← h1]; simp
  have h4 : (fs.map fun f => (rec f.1, f.2)).map Prod.snd = fs.map Prod.snd := by simp
  rw [h3, h4]
  apply bind_congr_ok
  intro s a s' ha
  match a, ha with
  | .error e, _ => rfl
  | .ok (ts, errs), ha =>
    have hl := seqLoop_length _ _ _ _ _ _ _ ha
    simp only [List.length_nil, Nat.zero_add, List.length_map] at hl
    have h5 := h2 [] ts rfl hl
    simp only [List.nil_append] at h5
    dsimp only
    rw [h5, span_eq rfl (by simp [hl])]

/-! ## Enums -/

theorem ident_at {pre suf : List (VariantD τ)} {v : VariantD τ}
    (h : ((pre ++ v :: suf).map VariantD.ident).Nodup) :
    ((pre ++ v :: suf).map VariantD.ident).findIdx? (fun i => i = v.ident) = some pre.length := by
  induction pre with
  | nil => simp [List.findIdx?_cons]
  | cons y pre ih =>
    simp only [List.cons_append, List.map_cons, List.nodup_cons] at h
    have hne : y.ident ≠ v.ident := by
      intro h'
      apply h.1
      simp [h']
    have := ih h.2
    simp only [List.cons_append, List.map_cons]
    rw [List.findIdx?_cons, this]
    simp [hne]

/-- The parts of the variants. -/
def partsOf (vs : List (VariantD τ)) : List (τ × Option (List Str)) :=
  vs.flatMap fun v => v.fields.list.map fun f => (f.ty, v.attrs.semantic)

theorem arms_compile {resolve : Str → Option (Fin n)} {ids : List Str} {suf : List (VariantD (Ty m n))}
    {pre : List (VariantD (Ty m n))} (hi : ids = (pre ++ suf).map VariantD.ident)
    (h : ((pre ++ suf).map VariantD.ident).Nodup) (hs : ∀ v ∈ suf, v.single = true) :
    (armsOf pre.length suf).mapM (resolveArm resolve ids) =
      ((partsOf suf).mapM (declared resolve)).map fun fs =>
        (fs.zipIdx pre.length).map fun e => (e.2, e.1.1, e.1.2, e.2) := by
  induction suf generalizing pre with
  | nil => simp [armsOf, partsOf]
  | cons v suf ih =>
    have ih := @ih (pre ++ [v]) (by simpa using hi) (by simpa using h) (fun w hw => hs w (by simp [hw]))
    obtain ⟨f, hf⟩ := single_list (hs v (by simp))
    have hp := ident_at h
    rw [← hi] at hp
    have h1 : armsOf pre.length (v :: suf) =
        ⟨pre.length, f.ty, v.attrs.semantic, v.ident⟩ :: armsOf (pre.length + 1) suf := by simp [armsOf, hf]
    have h2 : partsOf (v :: suf) = (f.ty, v.attrs.semantic) :: partsOf suf := by simp [partsOf, hf]
    rw [h1, h2]
    simp only [List.length_append, List.length_singleton] at ih
    simp only [List.mapM_cons, ih, declared_eq]
    cases v.attrs.semantic with
    | none =>
      simp only [resolveArm, hp]
      cases (partsOf suf).mapM (declared resolve) <;> simp [List.zipIdx_cons]
    | some ids' =>
      cases hs : tokenSet resolve ids' with
      | none => simp [resolveArm, hs]
      | some s =>
        simp only [resolveArm, hp, hs]
        cases (partsOf suf).mapM (declared resolve) <;> simp [List.zipIdx_cons]

theorem find_arm (fs : List (Field m n)) (i k : Nat) :
    (((fs.zipIdx k).map fun e => (e.2, e.1.1, e.1.2, e.2)).find? fun a => a.1 = i + k) =
      fs[i]?.map fun f => (i + k, f.1, f.2, i + k) := by
  induction fs generalizing i k with
  | nil => simp
  | cons f fs ih =>
    simp only [List.zipIdx_cons, List.map_cons, List.find?_cons]
    cases i with
    | zero => simp
    | succ i =>
      have : ¬ (k = i + 1 + k) := by omega
      simp only [this, decide_false]
      have := ih i (k + 1)
      rw [show i + 1 + k = i + (k + 1) by omega, this]
      simp

theorem enum_produce {resolve : Str → Option (Fin n)} {vs : List (VariantD (Ty m n))}
    (h : (vs.map VariantD.ident).Nodup) (hs : ∀ v ∈ vs, v.single = true) {c : EnumCode m n}
    (hc : (EnumGen.compile resolve (vs.map VariantD.ident)
      ⟨vs.flatMap fun v => v.fields.list.map FieldD.ty, armsOf 0 vs⟩) = some c) :
    ∃ fs, (partsOf vs).mapM (declared resolve) = some fs ∧ c.register = fs.map Prod.fst ∧
      ∀ look first (rec : Ty m n → P σ n),
        c.produce o look first rec = produceEnum o look first (fs.map fun f => (rec f.1, f.2)) := by
  unfold EnumGen.compile at hc
  have h0 := arms_compile (resolve := resolve) (pre := []) (suf := vs) rfl h hs
  simp only [List.length_nil, List.nil_append] at h0
  rw [h0] at hc
  cases hf : (partsOf vs).mapM (declared resolve) with
  | none => rw [hf] at hc; cases hc
  | some fs =>
    rw [hf] at hc
    simp only [Option.map_some, bind, Option.bind, pure, Option.some.injEq] at hc
    subst hc
    refine ⟨fs, rfl, ?_, ?_⟩
    · have : ∀ (l : List (Ty m n × Option (List Str))) (fs : List (Field m n)),
          l.mapM (declared resolve) = some fs → fs.map Prod.fst = l.map Prod.fst := by
        intro l
        induction l with
        | nil => intro fs h; simp at h; simp [h]
        | cons x l ih =>
          intro fs h
          simp only [List.mapM_cons, declared_eq, bind, Option.bind, pure] at h
          obtain ⟨t, s⟩ := x
          cases s with
          | none =>
            dsimp only at h
            split at h
            · cases h
            · rename_i fs' h1
              simp only [Option.some.injEq] at h
              subst h
              simp [ih _ h1]
          | some ids =>
            dsimp only at h
            cases hs : tokenSet resolve ids with
            | none => simp [hs] at h
            | some s =>
              simp only [hs, Option.map_some] at h
              split at h
              · cases h
              · rename_i fs' h1
                simp only [Option.some.injEq] at h
                subst h
                simp [ih _ h1]
      rw [this _ _ hf]
      simp [partsOf, List.map_flatMap, Function.comp_def]
    · intro look first rec
      unfold EnumCode.produce produceEnum
      apply bind_congr_ok
      intro s tok s' _
      cases look tok with
      | none => rfl
      | some i =>
        have := find_arm fs i 0
        simp only [Nat.add_zero] at this
        simp only [Option.bind_some, this, List.getElem?_map]
        cases fs[i]? with
        | none => rfl
        | some f => rfl

/-! ## The whole macro -/

theorem ends_idx {fs : List (FieldD τ)} (h : fs ≠ []) :
    EndsAt (tripIdx 0 fs) (.idx 0) (.idx (fs.length - 1)) := by
  have h1 := tripIdx_acc fs 0
  have hl : 0 < fs.length := List.length_pos_iff.2 h
  constructor
  · rw [← List.head?_map, h1, List.head?_map, List.head?_range']
    simp [h]
  · rw [← List.getLast?_map, h1, List.getLast?_map, List.getLast?_range']
    simp [h]

theorem ends_name {fs : List (FieldD τ)} {a b : FieldD τ} (h1 : fs.head? = some a) (h2 : fs.getLast? = some b) :
    EndsAt (tripName fs) (.name a.ident) (.name b.ident) := by
  constructor
  · simp [tripName, h1]
  · simp [tripName, h2]

/-- The two forms of output. -/
inductive Shape (d : DeclD τ) : Body τ → Prop where
  | struct (fs : FieldsD τ) (l : List (Trip τ)) (lo hi : Accessor) (hd : d.data = .struct fs)
      (hn : (l.map (·.1)).Nodup) (he : EndsAt l lo hi) (hp : l.map (·.2) = d.parts) :
      Shape d (.struct (structGen l lo hi))
  | enum (vs : List (VariantD τ)) (hd : d.data = .enum vs) (h0 : vs ≠ []) (hn : (vs.map VariantD.ident).Nodup)
      (hs : ∀ v ∈ vs, v.single = true) :
      Shape d (.enum ⟨vs.flatMap fun v => v.fields.list.map FieldD.ty, armsOf 0 vs⟩)

theorem shape {d : DeclD τ} (hd : d.Distinct) {b : Body τ} (h : expandData d.data = .ok b) : Shape d b := by
  unfold expandData at h
  split at h
  · rename_i fs hf
    simp only [emap_ok, expandUnnamed_ok] at h
    obtain ⟨_, ⟨⟨h0, -⟩, rfl⟩, rfl⟩ := h
    have : (⟨fs.map FieldD.ty, buildUnnamed 0 fs, callsIdx 0 fs, .idx 0, .idx (fs.length - 1)⟩ : StructGen τ) =
        structGen (tripIdx 0 fs) (.idx 0) (.idx (fs.length - 1)) := by
      have h1 := congrArg (List.map Prod.fst) (tripIdx_parts fs 0)
      simp only [List.map_map] at h1
      simp only [structGen, callsIdx_eq, buildUnnamed_eq, StructGen.mk.injEq, and_true]
      exact h1.symm
    rw [this]
    refine .struct _ _ _ _ hf (tripIdx_nodup fs 0) (ends_idx h0) ?_
    rw [tripIdx_parts]
    simp [DeclD.parts, hf, FieldsD.list]
  · rename_i fs hf
    simp only [emap_ok, expandNamed_ok] at h
    obtain ⟨_, ⟨⟨h0, -⟩, a, b, h1, h2, rfl⟩, rfl⟩ := h
    have : (⟨fs.map FieldD.ty, fs.map fun f => (.name f.ident, f.ty), callsName fs, .name a.ident,
        .name b.ident⟩ : StructGen τ) = structGen (tripName fs) (.name a.ident) (.name b.ident) := by
      simp [structGen, tripName, callsOf, callsName, List.filterMap_map, Function.comp_def]
    rw [this]
    refine .struct _ _ _ _ hf (tripName_nodup ?_) (ends_name h1 h2) ?_
    · simpa [DeclD.Distinct, hf] using hd
    · simp [DeclD.parts, hf, FieldsD.list, tripName]
  · cases h
  · rename_i vs hf
    simp only [emap_ok, expandEnum_ok] at h
    obtain ⟨_, ⟨⟨h0, h1⟩, rfl⟩, rfl⟩ := h
    refine .enum vs hf h0 ?_ fun v hv => (h1 v hv).2.1
    simpa [DeclD.Distinct, hf] using hd
  · cases h

theorem mapM_length {α β : Type} {f : α → Option β} {l : List α} : ∀ {r : List β}, l.mapM f = some r →
    r.length = l.length := by
  induction l with
  | nil => intro r h; simp at h; simp [h]
  | cons x l ih =>
    intro r h
    simp only [List.mapM_cons, bind, Option.bind, pure] at h
    split at h
    · cases h
    · dsimp only at h
      split at h
      · cases h
      · rename_i h1
        simp only [Option.some.injEq] at h
        subst h
        simp [ih h1]

theorem def_struct {d : DeclD (Ty m n)} {fs : FieldsD (Ty m n)} (hd : d.data = .struct fs)
    {resolve : Str → Option (Fin n)} {l : List (Field m n)} (h : d.parts.mapM (declared resolve) = some l)
    (h0 : d.parts ≠ []) : ∃ f fs', l = f :: fs' ∧ d.def resolve = some (.struct f fs') := by
  cases l with
  | nil =>
    have := mapM_length h
    simp at this
    exact absurd this.symm (by simpa using h0)
  | cons f l => exact ⟨f, l, rfl, by simp [DeclD.def, h, hd]⟩

theorem def_enum {d : DeclD (Ty m n)} {vs : List (VariantD (Ty m n))} (hd : d.data = .enum vs)
    {resolve : Str → Option (Fin n)} {l : List (Field m n)} (h : d.parts.mapM (declared resolve) = some l)
    (h0 : d.parts ≠ []) : ∃ f fs', l = f :: fs' ∧ d.def resolve = some (.enum f fs') := by
  cases l with
  | nil =>
    have := mapM_length h
    simp at this
    exact absurd this.symm (by simpa using h0)
  | cons f l => exact ⟨f, l, rfl, by simp [DeclD.def, h, hd]⟩

theorem trip_ne {l : List (Trip τ)} {lo hi : Accessor} (he : EndsAt l lo hi) : l.map (·.2) ≠ [] := by
  cases l with
  | nil => cases he.lo
  | cons x l => simp

theorem parts_enum {d : DeclD τ} {vs : List (VariantD τ)} (hd : d.data = .enum vs) : d.parts = partsOf vs := by
  simp [DeclD.parts, hd, partsOf]

theorem partsOf_ne {vs : List (VariantD τ)} (h0 : vs ≠ []) (hs : ∀ v ∈ vs, v.single = true) : partsOf vs ≠ [] := by
  cases vs with
  | nil => exact absurd rfl h0
  | cons v vs =>
    obtain ⟨f, hf⟩ := single_list (hs v (by simp))
    simp [partsOf, hf]

theorem gen_implements {d : DeclD (Ty m n)} (hd : d.Distinct) {g : Gen (Ty m n)} (h : expand d = .ok g)
    {resolve : Str → Option (Fin n)} {c : Code m n} (hc : g.compile resolve d = some c) :
    ∃ D, d.def resolve = some D ∧ Implements c D := by
  obtain ⟨-, b, hb, rfl⟩ := expand_ok.1 h
  cases shape hd hb with
  | struct fs l lo hi hd' hn he hp =>
    simp only [Gen.compile, Option.map_eq_some_iff] at hc
    obtain ⟨c, hc, rfl⟩ := hc
    have hne : d.parts ≠ [] := hp ▸ trip_ne he
    obtain ⟨ap, hap, -⟩ := (struct_compile hn he).1 hc
    cases hf : d.parts.mapM (declared resolve) with
    | none =>
      rw [← hp] at hf
      have h1 := (calls_none (pre := []) rfl hn).2 hf
      rw [List.nil_append, hap] at h1
      cases h1
    | some fl =>
      obtain ⟨f, fl', rfl, hdef⟩ := def_struct hd' hf hne
      rw [← hp] at hf
      refine ⟨_, hdef, ?_⟩
      intro S k hk
      constructor
      · have := (struct_produce View.ops hn he hc hf (fun _ => M.fuel)).1
        simp only [Code.rule, this, Schema.rule, hk, List.map_map]
        rfl
      · intro σ o md fuel rec
        rw [Code.produce, (struct_produce o hn he hc hf rec).2]
        simp only [produceStep, hk]
  | enum vs hd' h0 hn hs =>
    simp only [Gen.compile, Option.map_eq_some_iff] at hc
    obtain ⟨c, hc, rfl⟩ := hc
    have hi : d.data.idents = vs.map VariantD.ident := by simp [hd', DataD.idents]
    rw [hi] at hc
    have hall := fun (σ : Type) (o : Ops σ n) => enum_produce o hn hs hc
    have hne : d.parts ≠ [] := parts_enum hd' ▸ partsOf_ne h0 hs
    cases hf : d.parts.mapM (declared resolve) with
    | none =>
      obtain ⟨fl, h1, -⟩ := hall _ View.ops
      rw [parts_enum hd', h1] at hf
      cases hf
    | some fl =>
      obtain ⟨f, fl', rfl, hdef⟩ := def_enum hd' hf hne
      rw [parts_enum hd'] at hf
      refine ⟨_, hdef, ?_⟩
      intro S k hk
      constructor
      · obtain ⟨fl, h1, h2, -⟩ := hall _ View.ops
        rw [hf, Option.some.injEq] at h1
        subst h1
        simp only [Code.rule, h2, Schema.rule, hk, List.map_map]
        rfl
      · intro σ o md fuel rec
        obtain ⟨fl, h1, -, h2⟩ := hall σ o
        rw [hf, Option.some.injEq] at h1
        subst h1
        rw [Code.produce, h2]
        simp only [produceStep, hk]

theorem gen_compiles {d : DeclD (Ty m n)} (hd : d.Distinct) {g : Gen (Ty m n)} (h : expand d = .ok g)
    {resolve : Str → Option (Fin n)} {D : Def m n} (hD : d.def resolve = some D) :
    ∃ c, g.compile resolve d = some c := by
  obtain ⟨-, b, hb, rfl⟩ := expand_ok.1 h
  have hsome : ∃ l, d.parts.mapM (declared resolve) = some l := by
    unfold DeclD.def at hD
    cases hf : d.parts.mapM (declared resolve) with
    | none => rw [hf] at hD; cases hD
    | some l => exact ⟨l, rfl⟩
  obtain ⟨l, hl⟩ := hsome
  cases shape hd hb with
  | struct fs l lo hi hd' hn he hp =>
    cases hc : (callsOf l).mapM (resolveCall resolve (l.map fun e => (e.1, e.2.1))) with
    | none =>
      have h1 := (calls_none (pre := []) rfl hn).1 hc
      rw [hp, hl] at h1
      cases h1
    | some ap =>
      exact ⟨.struct _, by simp only [Gen.compile]; rw [(struct_compile hn he).2 ⟨ap, hc, rfl⟩]; rfl⟩
  | enum vs hd' h0 hn hs =>
    have hi : d.data.idents = vs.map VariantD.ident := by simp [hd', DataD.idents]
    have h1 := arms_compile (resolve := resolve) (pre := []) (suf := vs) rfl hn hs
    simp only [List.length_nil, List.nil_append] at h1
    rw [parts_enum hd'] at hl
    rw [hl] at h1
    refine ⟨.enum ⟨vs.flatMap fun v => v.fields.list.map FieldD.ty, (l.zipIdx).map fun e => (e.2, e.1.1, e.1.2, e.2)⟩, ?_⟩
    simp only [Gen.compile, hi, EnumGen.compile, h1]
    rfl

theorem mapM_some_iff {α β : Type} {f : α → Option β} {l : List α} :
    (∃ r, l.mapM f = some r) ↔ ∀ a ∈ l, ∃ b, f a = some b := by
  induction l with
  | nil => simp
  | cons x l ih =>
    simp only [List.mapM_cons, List.forall_mem_cons, ← ih, bind, Option.bind, pure]
    cases f x with
    | none => simp
    | some b =>
      dsimp only
      cases l.mapM f <;> simp

theorem mem_mapM {α β : Type} {f : α → Option β} {l : List α} {b : β} : ∀ {r : List β}, l.mapM f = some r →
    (b ∈ r ↔ ∃ a ∈ l, f a = some b) := by
  induction l with
  | nil => intro r h; simp at h; simp [h]
  | cons x l ih =>
    intro r h
    simp only [List.mapM_cons, bind, Option.bind, pure] at h
    cases hx : f x with
    | none => simp [hx] at h
    | some c =>
      simp only [hx] at h
      cases hl : l.mapM f with
      | none => simp [hl] at h
      | some r' =>
        simp only [hl, Option.some.injEq] at h
        subst h
        simp [hx, ih hl, eq_comm]

theorem contains_foldl (hn : n ≤ 32) (ts : List (Fin n)) (x : Fin n) : ∀ s : LSet n,
    (ts.foldl LSet.insert s).contains x = true ↔ s.contains x = true ∨ x ∈ ts := by
  induction ts with
  | nil => intro s; simp
  | cons t ts ih =>
    intro s
    simp only [List.foldl_cons, ih, List.mem_cons]
    have : (s.insert t).contains x = true ↔ s.contains x = true ∨ x = t := by
      simp only [LSet.contains_iff hn, LSet.insert, BitVec.getLsbD_or, getLsbD_toBit hn, Bool.or_eq_true,
        decide_eq_true_eq, Fin.ext_iff]
    rw [this, or_assoc]

theorem contains_new (hn : n ≤ 32) (x : Fin n) : (LSet.new : LSet n).contains x = false := by
  simp [LSet.contains_iff hn, LSet.new]

end Teleparse.Syn

import Verif.Proof.RelabelGrammar
import Verif.Proof.Accept
/-
The analysis of two programs that are the same up to names.
-/
set_option linter.unusedSectionVars false
namespace Teleparse
variable {m n m' n' : Nat} {S : Schema m n} {S' : Schema m' n'} {r : Relabel m n m' n'} {root : Ty m n}

/-- The production in the other program. -/
def PId.relabel (r : Relabel m n m' n') : PId m n → PId m' n'
  | .term k t => .term (r.term k) (t.retok r.tok)
  | .eps => .eps
  | .user k => .user (r.ty k)
  | .opt p => .opt (p.relabel r)
  | .plus p => .plus (p.relabel r)
  | .punct t p => .punct (t.relabel r) (p.relabel r)
  | .box p => .box (p.relabel r)
  | .tup2 a b => .tup2 (a.relabel r) (b.relabel r)
  | .tup3 a b c => .tup3 (a.relabel r) (b.relabel r) (c.relabel r)
  | .tup4 a b c d => .tup4 (a.relabel r) (b.relabel r) (c.relabel r) (d.relabel r)
  | .tup5 a b c d e => .tup5 (a.relabel r) (b.relabel r) (c.relabel r) (d.relabel r) (e.relabel r)

theorem Ty.prod_relabel (t : Ty m n) : (t.relabel r).prod = t.prod.relabel r := by
  induction t <;> simp [Ty.relabel, Ty.prod, PId.relabel, *]

theorem PId.id_relabel (p : PId m n) : (p.relabel r).id = p.id.relabel r := by
  induction p <;> simp [PId.relabel, PId.id, *]

theorem Ty.pid_relabel (t : Ty m n) : (t.relabel r).pid = t.pid.relabel r := by
  rw [Ty.pid, Ty.pid, Ty.prod_relabel, PId.id_relabel]

theorem Terminal.retok_inj {ρ : Fin n → Fin n'} (h : ∀ a b, ρ a = ρ b → a = b) {t u : Terminal n}
    (e : t.retok ρ = u.retok ρ) : t = u := by
  obtain ⟨a, b⟩ := t
  obtain ⟨c, d⟩ := u
  simp only [Terminal.retok, Terminal.mk.injEq] at e
  rw [h _ _ e.1, e.2]

theorem PId.relabel_inj (h1 : ∀ a b, r.ty a = r.ty b → a = b) (h2 : ∀ a b, r.tok a = r.tok b → a = b)
    (h3 : ∀ a b, r.term a = r.term b → a = b) : ∀ {p q : PId m n}, p.relabel r = q.relabel r → p = q := by
  intro p
  induction p with
  | term k t =>
    intro q h
    cases q <;> simp only [PId.relabel, PId.term.injEq, reduceCtorEq] at h
    rw [h3 _ _ h.1, Terminal.retok_inj h2 h.2]
  | eps => intro q h; cases q <;> simp only [PId.relabel, reduceCtorEq] at h; rfl
  | user k =>
    intro q h
    cases q <;> simp only [PId.relabel, PId.user.injEq, reduceCtorEq] at h
    rw [h1 _ _ h]
  | opt p ih =>
    intro q h
    cases q <;> simp only [PId.relabel, PId.opt.injEq, reduceCtorEq] at h
    rw [ih h]
  | plus p ih =>
    intro q h
    cases q <;> simp only [PId.relabel, PId.plus.injEq, reduceCtorEq] at h
    rw [ih h]
  | box p ih =>
    intro q h
    cases q <;> simp only [PId.relabel, PId.box.injEq, reduceCtorEq] at h
    rw [ih h]
  | punct a b ia ib =>
    intro q h
    cases q <;> simp only [PId.relabel, PId.punct.injEq, reduceCtorEq] at h
    rw [ia h.1, ib h.2]
  | tup2 a b ia ib =>
    intro q h
    cases q <;> simp only [PId.relabel, PId.tup2.injEq, reduceCtorEq] at h
    rw [ia h.1, ib h.2]
  | tup3 a b c ia ib ic =>
    intro q h
    cases q <;> simp only [PId.relabel, PId.tup3.injEq, reduceCtorEq] at h
    rw [ia h.1, ib h.2.1, ic h.2.2]
  | tup4 a b c d ia ib ic id =>
    intro q h
    cases q <;> simp only [PId.relabel, PId.tup4.injEq, reduceCtorEq] at h
    rw [ia h.1, ib h.2.1, ic h.2.2.1, id h.2.2.2]
  | tup5 a b c d e ia ib ic id ie =>
    intro q h
    cases q <;> simp only [PId.relabel, PId.tup5.injEq, reduceCtorEq] at h
    rw [ia h.1, ib h.2.1, ic h.2.2.1, id h.2.2.2.1, ie h.2.2.2.2]

/-- The names. -/
abbrev asP (r : Relabel m n m' n') (p : PId m n) (p' : PId m' n') : Prop := p' = p.relabel r
abbrev asW (ρ : Fin n → Fin n') (a : Fin n) (b : Fin n') : Prop := b = ρ a

theorem pw_map {α β γ δ : Type} {R : α → β → Prop} {Q : γ → δ → Prop} {f : α → γ} {g : β → δ}
    (hq : ∀ a b, R a b → Q (f a) (g b)) {l : List α} {l' : List β} (h : Pointwise R l l') :
    Pointwise Q (l.map f) (l'.map g) := by
  induction h with
  | nil => exact .nil
  | cons h _ ih => exact .cons (hq _ _ h) ih

theorem ruleTwin_seq (r : Relabel m n m' n') (l : List (PId m n)) :
    RuleTwin (asP r) (asW r.tok) (.seq l) (.seq (l.map (PId.relabel r))) := by
  refine .seq ?_
  induction l with
  | nil => exact .nil
  | cons x l ih => exact .cons rfl ih

theorem ruleTwin_alt (r : Relabel m n m' n') (l : List (PId m n)) :
    RuleTwin (asP r) (asW r.tok) (.alt l) (.alt (l.map (PId.relabel r))) := by
  refine .alt (fun i j => i = j) ?_ ?_ (fun i j j' a b => a ▸ b) (fun i i' j a b => a.trans b.symm)
  · intro i a hi
    exact ⟨i, _, by rw [List.getElem?_map, hi]; rfl, rfl, rfl⟩
  · intro j b hj
    rw [List.getElem?_map] at hj
    cases hl : l[j]? with
    | none => rw [hl] at hj; cases hj
    | some a =>
      rw [hl] at hj
      cases hj
      exact ⟨j, a, hl, rfl, rfl⟩

theorem Relabelled.rule (h : Relabelled S S' r) (p : PId m n) :
    RuleTwin (asP r) (asW r.tok) (S.rule p) (S'.rule (p.relabel r)) := by
  induction p with
  | term k t => exact .term rfl rfl
  | eps => exact .eps
  | user k =>
    simp only [PId.relabel, Schema.rule]
    cases hk : S k with
    | struct f fs =>
      obtain ⟨f', fs', h1, h2⟩ := h.structs k f fs hk
      rw [h1]
      exact .seq (pw_map (fun a b hab => by
        show b.1.pid = _
        rw [hab.ty, Ty.pid_relabel]) h2)
    | enum v vs =>
      obtain ⟨v', vs', h1, h2, h3, h4⟩ := h.enums k v vs hk
      rw [h1]
      refine .alt (fun i j => i < (v :: vs).length ∧ j = r.variant k i) ?_ ?_ (fun i j j' a b => a.2.trans b.2.symm)
        (fun i i' j a b => h3 i i' a.1 b.1 (a.2.symm.trans b.2))
      · intro i a hi
        rw [List.getElem?_map] at hi
        cases hv : (v :: vs)[i]? with
        | none => rw [hv] at hi; cases hi
        | some f =>
          rw [hv] at hi
          cases hi
          obtain ⟨f', g1, g2⟩ := h2 i f hv
          refine ⟨r.variant k i, f'.1.pid, by rw [List.getElem?_map, g1]; rfl, ⟨(List.getElem?_eq_some_iff.1 hv).1, rfl⟩, ?_⟩
          show f'.1.pid = _
          rw [g2.ty, Ty.pid_relabel]
      · intro j b hj
        rw [List.getElem?_map] at hj
        cases hv : (v' :: vs')[j]? with
        | none => rw [hv] at hj; cases hj
        | some f' =>
          rw [hv] at hj
          cases hj
          obtain ⟨i, hi, rfl⟩ := h4 j (List.getElem?_eq_some_iff.1 hv).1
          obtain ⟨f'', g1, g2⟩ := h2 i _ (List.getElem?_eq_getElem hi)
          rw [hv] at g1
          cases g1
          refine ⟨i, (v :: vs)[i].1.pid, by rw [List.getElem?_map, List.getElem?_eq_getElem hi]; rfl, ⟨hi, rfl⟩, ?_⟩
          show f'.1.pid = _
          rw [g2.ty, Ty.pid_relabel]
  | opt p =>
    have := ruleTwin_alt r [p.id, .eps]
    simpa [PId.relabel, Schema.rule, PId.id_relabel] using this
  | plus p =>
    have := ruleTwin_seq r [p.id, .opt (.plus p)]
    simpa [PId.relabel, Schema.rule, PId.id_relabel] using this
  | punct t p =>
    have := ruleTwin_seq r [t.id, .opt (.tup2 p (.opt (.punct t p)))]
    simpa [PId.relabel, Schema.rule, PId.id_relabel] using this
  | box p ih => simpa [PId.relabel, Schema.rule] using ih
  | tup2 a b =>
    have := ruleTwin_seq r [a.id, b.id]
    simpa [PId.relabel, Schema.rule, PId.id_relabel] using this
  | tup3 a b c =>
    have := ruleTwin_seq r [a.id, b.id, c.id]
    simpa [PId.relabel, Schema.rule, PId.id_relabel] using this
  | tup4 a b c d =>
    have := ruleTwin_seq r [a.id, b.id, c.id, d.id]
    simpa [PId.relabel, Schema.rule, PId.id_relabel] using this
  | tup5 a b c d e =>
    have := ruleTwin_seq r [a.id, b.id, c.id, d.id, e.id]
    simpa [PId.relabel, Schema.rule, PId.id_relabel] using this

theorem Relabelled.preach (h : Relabelled S S' r) {i : PId m n} (hi : PReach S root i) :
    PReach S' (root.relabel r) (i.relabel r) := by
  induction hi with
  | refl => rw [← Ty.pid_relabel]; exact .refl
  | step _ hj ih =>
    obtain ⟨j', h1, rfl⟩ := (h.rule _).parts hj
    exact .step ih h1

theorem Relabelled.preach_back (h : Relabelled S S' r) {i' : PId m' n'} (hi : PReach S' (root.relabel r) i') :
    ∃ i, i' = i.relabel r ∧ PReach S root i := by
  induction hi with
  | refl => exact ⟨root.pid, Ty.pid_relabel root, .refl⟩
  | step _ hj ih =>
    obtain ⟨i, rfl, hi⟩ := ih
    obtain ⟨j, h1, h2⟩ := (h.rule i).flip.parts hj
    exact ⟨j, h2, .step hi h1⟩

section
variable {G : Grammar (PId m n) n} {G' : Grammar (PId m' n') n'}

theorem Relabelled.into (h : Relabelled S S' r) (hG : S.IsGrammar root G) (hG' : S'.IsGrammar (root.relabel r) G') :
    Into G G' (asP r) (asW r.tok) root.pid (root.relabel r).pid where
  rule := by
    intro i u hm
    obtain ⟨h1, rfl⟩ := (hG.2 _ _).1 hm
    exact ⟨_, _, rfl, (hG'.2 _ _).2 ⟨h.preach h1, rfl⟩, h.rule i⟩
  root := Ty.pid_relabel root
  uniq := fun a b => a.trans b.symm
  uniqW := fun _ _ _ a b => a.trans b.symm

theorem Relabelled.from (h : Relabelled S S' r) (hG : S.IsGrammar root G) (hG' : S'.IsGrammar (root.relabel r) G') :
    Into G' G (fun b a => asP r a b) (fun b a => asW r.tok a b) (root.relabel r).pid root.pid where
  rule := by
    intro i' u hm
    obtain ⟨h1, rfl⟩ := (hG'.2 _ _).1 hm
    obtain ⟨i, rfl, hi⟩ := h.preach_back h1
    exact ⟨i, _, rfl, (hG.2 _ _).2 ⟨hi, rfl⟩, (h.rule i).flip⟩
  root := Ty.pid_relabel root
  uniq := fun a b => PId.relabel_inj h.tys h.toks h.terms (a.symm.trans b)
  uniqW := fun _ _ _ a b => h.toks _ _ (a.symm.trans b)

theorem seeAs_iff {ρ : Fin n → Fin n'} {x : Option (TokenSrc n)} {x' : Option (TokenSrc n')} :
    SeeAs (asW ρ) x x' ↔ x' = x.map (TokenSrc.retok ρ) := by
  constructor
  · intro h
    cases h with
    | none => rfl
    | @some a b h =>
      obtain ⟨c, d⟩ := b
      obtain ⟨h1, h2⟩ := h
      dsimp only at h1 h2
      subst h1 h2
      rfl
  · rintro rfl
    cases x with
    | none => exact .none
    | some a => exact .some ⟨rfl, rfl⟩

theorem seeAs_flip {W : Fin n → Fin n' → Prop} {x : Option (TokenSrc n)} {x' : Option (TokenSrc n')} :
    SeeAs (fun b a => W a b) x' x ↔ SeeAs W x x' := by
  constructor
  · intro h
    cases h with
    | none => exact .none
    | some h => exact .some ⟨h.1, h.2.symm⟩
  · intro h
    cases h with
    | none => exact .none
    | some h => exact .some ⟨h.1, h.2.symm⟩

/-- Sets with the same members under other names. -/
theorem setAs_mk {ρ : Fin n → Fin n'} (hi : ∀ a b, ρ a = ρ b → a = b) {s : TSet n} {s' : TSet n'}
    (h1 : ∀ x, s.contains x = true → ∃ x', SeeAs (asW ρ) x x' ∧ s'.contains x' = true)
    (h2 : ∀ x', s'.contains x' = true → ∃ x, SeeAs (asW ρ) x x' ∧ s.contains x = true) : SetAs ρ s s' := by
  have key : ∀ x, s'.contains (x.map (TokenSrc.retok ρ)) = s.contains x := by
    intro x
    apply Bool.eq_iff_iff.2
    constructor
    · intro h
      obtain ⟨y, g1, g2⟩ := h2 _ h
      have e := SeeAs.uniq (fun a b b' p q => hi _ _ (p.symm.trans q)) (seeAs_flip.2 g1) (seeAs_flip.2 (seeAs_iff.2 rfl))
      rw [e] at g2
      exact g2
    · intro h
      obtain ⟨x', g1, g2⟩ := h1 _ h
      rw [seeAs_iff.1 g1] at g2
      exact g2
  refine ⟨key none, fun t => key (some t), ?_⟩
  intro t' h
  obtain ⟨x, g1, _⟩ := h2 _ h
  have := seeAs_iff.1 g1
  cases x with
  | none => cases this
  | some t => cases this; exact ⟨t, rfl⟩

theorem Relabelled.starts (h : Relabelled S S' r) (hG : S.IsGrammar root G) (hG' : S'.IsGrammar (root.relabel r) G')
    (i : PId m n) (x : Option (TokenSrc n)) :
    Starts G' (i.relabel r) (x.map (TokenSrc.retok r.tok)) ↔ Starts G i x := by
  have f1 : ∀ {k l : Nat} {H : Grammar (PId k l) l} {j : PId k l} {y : Option (TokenSrc l)}, Starts H j y ↔ firstFam H j y := by
    intro k l H j y
    cases y with
    | none => exact (firstFam_none H j).symm
    | some t => exact (firstFam_some H j t).symm
  rw [f1, f1]
  constructor
  · intro hf
    obtain ⟨x', g1, g2⟩ := (h.from hG hG').firstFam rfl _ hf
    have e := SeeAs.uniq (fun a b b' p q => h.toks _ _ (p.symm.trans q)) g1
      (seeAs_flip.2 (seeAs_iff.2 rfl))
    rw [e] at g2
    exact g2
  · intro hf
    obtain ⟨x', g1, g2⟩ := (h.into hG hG').firstFam rfl _ hf
    rw [seeAs_iff.1 g1] at g2
    exact g2

end

section
variable {fuel fuel' : Nat} {md : Metadata (PId m n) n} {md' : Metadata (PId m' n') n'}

theorem Relabelled.accepted (h : Relabelled S S' r) (h' : S'.metadata fuel' (root.relabel r) = some (.ok md'))
    {u : Except (GErr (PId m n)) (Metadata (PId m n) n)} (hr : S.metadata fuel root = some u) : ∃ md, u = .ok md := by
  obtain ⟨G', hG', _, hb'⟩ := metadata_build h'
  unfold Schema.metadata buildFor at hr
  cases hreg : registerFrom S.rule fuel root.pid with
  | none => rw [hreg] at hr; cases hr
  | some G =>
    rw [hreg] at hr
    have hG : S.IsGrammar root G := registerFrom_spec hreg
    exact build_into (h.into hG hG') hG.1 hG'.1 hb' hr

theorem Relabelled.accepts (h : Relabelled S S' r) (h' : S.metadata fuel root = some (.ok md))
    {u : Except (GErr (PId m' n')) (Metadata (PId m' n') n')} (hr : S'.metadata fuel' (root.relabel r) = some u) :
    ∃ md', u = .ok md' := by
  obtain ⟨G, hG, _, hb⟩ := metadata_build h'
  unfold Schema.metadata buildFor at hr
  cases hreg : registerFrom S'.rule fuel' (root.relabel r).pid with
  | none => rw [hreg] at hr; cases hr
  | some G' =>
    rw [hreg] at hr
    have hG' : S'.IsGrammar (root.relabel r) G' := registerFrom_spec hreg
    exact build_into (h.from hG hG') hG'.1 hG.1 hb hr

theorem Relabelled.first (h : Relabelled S S' r) (h1 : S.metadata fuel root = some (.ok md))
    (h2 : S'.metadata fuel' (root.relabel r) = some (.ok md')) (i : PId m n) :
    SetAs r.tok (md.first.get i) (md'.first.get (i.relabel r)) := by
  obtain ⟨G, hG, _, hb⟩ := metadata_build h1
  obtain ⟨G', hG', _, hb'⟩ := metadata_build h2
  refine setAs_mk h.toks ?_ ?_
  · intro x hx
    obtain ⟨x', g1, g2⟩ := (h.into hG hG').firstFam rfl x ((build_first_den hb i x).1 hx)
    exact ⟨x', g1, (build_first_den hb' _ x').2 g2⟩
  · intro x' hx
    obtain ⟨x, g1, g2⟩ := (h.from hG hG').firstFam rfl x' ((build_first_den hb' _ x').1 hx)
    exact ⟨x, seeAs_flip.1 g1, (build_first_den hb i x).2 g2⟩

theorem Relabelled.follow (h : Relabelled S S' r) (h1 : S.metadata fuel root = some (.ok md))
    (h2 : S'.metadata fuel' (root.relabel r) = some (.ok md')) (i : PId m n) :
    SetAs r.tok (md.follow.get i) (md'.follow.get (i.relabel r)) := by
  obtain ⟨G, hG, _, hb⟩ := metadata_build h1
  obtain ⟨G', hG', _, hb'⟩ := metadata_build h2
  refine setAs_mk h.toks ?_ ?_
  · intro x hx
    obtain ⟨x', g1, g2⟩ := (h.into hG hG').followC_at rfl x ((build_follow_den hb i x).1 hx)
    exact ⟨x', g1, (build_follow_den hb' _ x').2 g2⟩
  · intro x' hx
    obtain ⟨x, g1, g2⟩ := (h.from hG hG').followC_at rfl x' ((build_follow_den hb' _ x').1 hx)
    exact ⟨x, seeAs_flip.1 g1, (build_follow_den hb i x).2 g2⟩

/-- The tables of enums select the same variant. -/
theorem Relabelled.jump (h : Relabelled S S' r) (h1 : S.metadata fuel root = some (.ok md))
    (h2 : S'.metadata fuel' (root.relabel r) = some (.ok md')) {k : Fin m} {v vs} (hk : S k = .enum v vs)
    (hr : PReach S root (.user k)) (x : Option (TokenSrc n)) :
    md'.jump.lookUp (.user (r.ty k)) (x.map (TokenSrc.retok r.tok)) =
      (md.jump.lookUp (.user k) x).map (r.variant k) ∧
    ∀ i, md.jump.lookUp (.user k) x = some i → i < (v :: vs).length := by
  obtain ⟨G, hG, _, _⟩ := metadata_build h1
  obtain ⟨G', hG', _, _⟩ := metadata_build h2
  obtain ⟨v', vs', k1, k2, k3, k4⟩ := h.enums k v vs hk
  have e1 : S.rule (.user k) = .alt ((v :: vs).map fun f => f.1.pid) := by simp [Schema.rule, hk]
  have e2 : S'.rule (.user (r.ty k)) = .alt ((v' :: vs').map fun f => f.1.pid) := by simp [Schema.rule, k1]
  have hr' : PReach S' (root.relabel r) (.user (r.ty k)) := h.preach hr
  obtain ⟨a1, a2, _⟩ := metadata_jump h1 hG ((reach_iff_schema hG _).2 hr) e1 x
  obtain ⟨b1, b2, _⟩ := metadata_jump h2 hG' ((reach_iff_schema hG' _).2 hr') e2 (x.map (TokenSrc.retok r.tok))
  have fwd : ∀ i, md.jump.lookUp (.user k) x = some i → i < (v :: vs).length ∧
      md'.jump.lookUp (.user (r.ty k)) (x.map (TokenSrc.retok r.tok)) = some (r.variant k i) := by
    intro i hi
    obtain ⟨c, hc, hs⟩ := a1 i hi
    rw [List.getElem?_map] at hc
    cases hv : (v :: vs)[i]? with
    | none => rw [hv] at hc; cases hc
    | some f =>
      rw [hv] at hc
      cases hc
      obtain ⟨f', g1, g2⟩ := k2 i f hv
      refine ⟨(List.getElem?_eq_some_iff.1 hv).1, b2 _ f'.1.pid (by rw [List.getElem?_map, g1]; rfl) ?_⟩
      rw [g2.ty, Ty.pid_relabel]
      exact (h.starts hG hG' _ x).2 hs
  refine ⟨?_, fun i hi => (fwd i hi).1⟩
  cases hl : md.jump.lookUp (.user k) x with
  | some i => exact (fwd i hl).2
  | none =>
    cases hl' : md'.jump.lookUp (.user (r.ty k)) (x.map (TokenSrc.retok r.tok)) with
    | none => rfl
    | some j =>
      exfalso
      obtain ⟨c, hc, hs⟩ := b1 j hl'
      rw [List.getElem?_map] at hc
      cases hv : (v' :: vs')[j]? with
      | none => rw [hv] at hc; cases hc
      | some f' =>
        rw [hv] at hc
        cases hc
        obtain ⟨i, hi, rfl⟩ := k4 j (List.getElem?_eq_some_iff.1 hv).1
        obtain ⟨f'', g1, g2⟩ := k2 i _ (List.getElem?_eq_getElem hi)
        rw [hv] at g1
        cases g1
        dsimp only at hs
        rw [g2.ty, Ty.pid_relabel] at hs
        have := a2 i (v :: vs)[i].1.pid (by rw [List.getElem?_map, List.getElem?_eq_getElem hi]; rfl)
          ((h.starts hG hG' _ x).1 hs)
        rw [hl] at this
        cases this

end

end Teleparse

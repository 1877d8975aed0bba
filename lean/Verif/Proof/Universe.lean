import Verif.Model.Syntax
/-
A schema has finitely many productions.
-/
namespace Teleparse
variable {m n : Nat}

/-- The productions inside a production, up to user-defined ones. -/
def PId.subs : PId m n → List (PId m n)
  | .term k t => [.term k t]
  | .eps => [.eps]
  | .user k => [.user k]
  | .opt p => .opt p :: .eps :: p.subs
  | .plus p => .plus p :: .opt (.plus p) :: .eps :: p.subs
  | .punct t p => .punct t p :: .opt (.tup2 p (.opt (.punct t p))) :: .tup2 p (.opt (.punct t p)) ::
      .opt (.punct t p) :: .eps :: (t.subs ++ p.subs)
  | .box p => .box p :: p.subs
  | .tup2 a b => .tup2 a b :: (a.subs ++ b.subs)
  | .tup3 a b c => .tup3 a b c :: (a.subs ++ b.subs ++ c.subs)
  | .tup4 a b c d => .tup4 a b c d :: (a.subs ++ b.subs ++ c.subs ++ d.subs)
  | .tup5 a b c d e => .tup5 a b c d e :: (a.subs ++ b.subs ++ c.subs ++ d.subs ++ e.subs)

def Def.fields : Def m n → List (Field m n)
  | .struct f fs => f :: fs
  | .enum v vs => v :: vs

/-- The productions inside the fields of user-defined types. -/
def Schema.inFields (S : Schema m n) : List (PId m n) :=
  (List.finRange m).flatMap fun k => (S k).fields.flatMap fun f => f.1.prod.subs

theorem PId.id_mem : ∀ p : PId m n, p.id ∈ p.subs := by
  intro p
  induction p with
  | box p ih => exact List.mem_cons_of_mem _ ih
  | _ => simp [PId.id, PId.subs]

theorem Schema.field_mem (S : Schema m n) (k : Fin m) {f : Field m n} (h : f ∈ (S k).fields) :
    f.1.pid ∈ S.inFields :=
  List.mem_flatMap.2 ⟨k, List.mem_finRange k, List.mem_flatMap.2 ⟨f, h, PId.id_mem _⟩⟩

theorem Schema.parts_mem (S : Schema m n) (p : PId m n) :
    ∀ j ∈ (S.rule p).parts, j ∈ p.subs ∨ j ∈ S.inFields := by
  induction p with
  | user k =>
    intro j hj
    refine .inr ?_
    simp only [Schema.rule] at hj
    cases hk : S k with
    | struct f fs =>
      rw [hk] at hj
      obtain ⟨g, hg, rfl⟩ := List.mem_map.1 hj
      exact S.field_mem k (by rw [hk]; exact hg)
    | enum f fs =>
      rw [hk] at hj
      obtain ⟨g, hg, rfl⟩ := List.mem_map.1 hj
      exact S.field_mem k (by rw [hk]; exact hg)
  | box p ih =>
    intro j hj
    exact (ih j hj).imp (List.mem_cons_of_mem _) id
  | term => intro j hj; cases hj
  | eps => intro j hj; cases hj
  | opt p =>
    intro j hj
    refine .inl ?_
    have := p.id_mem
    simp only [Schema.rule, Rule.parts, List.mem_cons, List.not_mem_nil, or_false] at hj
    rcases hj with rfl | rfl <;> simp [PId.subs, this]
  | plus p =>
    intro j hj
    refine .inl ?_
    have := p.id_mem
    simp only [Schema.rule, Rule.parts, List.mem_cons, List.not_mem_nil, or_false] at hj
    rcases hj with rfl | rfl <;> simp [PId.subs, this]
  | punct t p =>
    intro j hj
    refine .inl ?_
    have := t.id_mem
    simp only [Schema.rule, Rule.parts, List.mem_cons, List.not_mem_nil, or_false] at hj
    rcases hj with rfl | rfl <;> simp [PId.subs, this]
  | tup2 a b =>
    intro j hj
    refine .inl ?_
    have := a.id_mem
    have := b.id_mem
    simp only [Schema.rule, Rule.parts, List.mem_cons, List.not_mem_nil, or_false] at hj
    rcases hj with rfl | rfl <;> simp [PId.subs, *]
  | tup3 a b c =>
    intro j hj
    refine .inl ?_
    have := a.id_mem
    have := b.id_mem
    have := c.id_mem
    simp only [Schema.rule, Rule.parts, List.mem_cons, List.not_mem_nil, or_false] at hj
    rcases hj with rfl | rfl | rfl <;> simp [PId.subs, *]
  | tup4 a b c d =>
    intro j hj
    refine .inl ?_
    have := a.id_mem
    have := b.id_mem
    have := c.id_mem
    have := d.id_mem
    simp only [Schema.rule, Rule.parts, List.mem_cons, List.not_mem_nil, or_false] at hj
    rcases hj with rfl | rfl | rfl | rfl <;> simp [PId.subs, *]
  | tup5 a b c d e =>
    intro j hj
    refine .inl ?_
    have := a.id_mem
    have := b.id_mem
    have := c.id_mem
    have := d.id_mem
    have := e.id_mem
    simp only [Schema.rule, Rule.parts, List.mem_cons, List.not_mem_nil, or_false] at hj
    rcases hj with rfl | rfl | rfl | rfl | rfl <;> simp [PId.subs, *]

theorem Schema.subs_closed (S : Schema m n) (p : PId m n) : ∀ q ∈ p.subs, ∀ j ∈ (S.rule q).parts,
    j ∈ p.subs ∨ j ∈ S.inFields := by
  induction p with
  | term => intro q hq; cases List.mem_singleton.1 hq; exact S.parts_mem _
  | eps => intro q hq; cases List.mem_singleton.1 hq; exact S.parts_mem _
  | user => intro q hq; cases List.mem_singleton.1 hq; exact S.parts_mem _
  | box p ih =>
    intro q hq j hj
    simp only [PId.subs, List.mem_cons] at hq
    rcases hq with rfl | hq
    · exact S.parts_mem _ j hj
    · exact (ih q hq j hj).imp (List.mem_cons_of_mem _) id
  | opt p ih =>
    intro q hq j hj
    simp only [PId.subs, List.mem_cons] at hq
    rcases hq with rfl | rfl | hq
    · exact S.parts_mem _ j hj
    · cases hj
    · exact (ih q hq j hj).imp (fun h => by simp [PId.subs, h]) id
  | plus p ih =>
    intro q hq j hj
    simp only [PId.subs, List.mem_cons] at hq
    rcases hq with rfl | rfl | rfl | hq
    · exact S.parts_mem _ j hj
    · simp only [Schema.rule, Rule.parts, List.mem_cons, List.not_mem_nil, or_false] at hj
      rcases hj with rfl | rfl <;> simp [PId.subs, PId.id]
    · cases hj
    · exact (ih q hq j hj).imp (fun h => by simp [PId.subs, h]) id
  | punct t p iht ihp =>
    intro q hq j hj
    have h1 := t.id_mem
    have h2 := p.id_mem
    simp only [PId.subs, List.mem_cons, List.mem_append] at hq
    rcases hq with rfl | rfl | rfl | rfl | rfl | hq | hq
    · exact S.parts_mem _ j hj
    · simp only [Schema.rule, Rule.parts, List.mem_cons, List.not_mem_nil, or_false] at hj
      rcases hj with rfl | rfl <;> simp [PId.subs, PId.id]
    · simp only [Schema.rule, Rule.parts, List.mem_cons, List.not_mem_nil, or_false] at hj
      rcases hj with rfl | rfl
      · simp [PId.subs, h2]
      · simp [PId.subs, PId.id]
    · simp only [Schema.rule, Rule.parts, List.mem_cons, List.not_mem_nil, or_false] at hj
      rcases hj with rfl | rfl <;> simp [PId.subs, PId.id]
    · cases hj
    · exact (iht q hq j hj).imp (fun h => by simp [PId.subs, h]) id
    · exact (ihp q hq j hj).imp (fun h => by simp [PId.subs, h]) id
  | tup2 a b iha ihb =>
    intro q hq j hj
    simp only [PId.subs, List.mem_cons, List.mem_append] at hq
    rcases hq with rfl | hq | hq
    · exact S.parts_mem _ j hj
    · exact (iha q hq j hj).imp (fun h => by simp [PId.subs, h]) id
    · exact (ihb q hq j hj).imp (fun h => by simp [PId.subs, h]) id
  | tup3 a b c iha ihb ihc =>
    intro q hq j hj
    simp only [PId.subs, List.mem_cons, List.mem_append] at hq
    rcases hq with rfl | (hq | hq) | hq
    · exact S.parts_mem _ j hj
    · exact (iha q hq j hj).imp (fun h => by simp [PId.subs, h]) id
    · exact (ihb q hq j hj).imp (fun h => by simp [PId.subs, h]) id
    · exact (ihc q hq j hj).imp (fun h => by simp [PId.subs, h]) id
  | tup4 a b c d iha ihb ihc ihd =>
    intro q hq j hj
    simp only [PId.subs, List.mem_cons, List.mem_append] at hq
    rcases hq with rfl | ((hq | hq) | hq) | hq
    · exact S.parts_mem _ j hj
    · exact (iha q hq j hj).imp (fun h => by simp [PId.subs, h]) id
    · exact (ihb q hq j hj).imp (fun h => by simp [PId.subs, h]) id
    · exact (ihc q hq j hj).imp (fun h => by simp [PId.subs, h]) id
    · exact (ihd q hq j hj).imp (fun h => by simp [PId.subs, h]) id
  | tup5 a b c d e iha ihb ihc ihd ihe =>
    intro q hq j hj
    simp only [PId.subs, List.mem_cons, List.mem_append] at hq
    rcases hq with rfl | (((hq | hq) | hq) | hq) | hq
    · exact S.parts_mem _ j hj
    · exact (iha q hq j hj).imp (fun h => by simp [PId.subs, h]) id
    · exact (ihb q hq j hj).imp (fun h => by simp [PId.subs, h]) id
    · exact (ihc q hq j hj).imp (fun h => by simp [PId.subs, h]) id
    · exact (ihd q hq j hj).imp (fun h => by simp [PId.subs, h]) id
    · exact (ihe q hq j hj).imp (fun h => by simp [PId.subs, h]) id

/-- All productions that `root` can reach. -/
def Schema.universe (S : Schema m n) (root : Ty m n) : List (PId m n) := root.prod.subs ++ S.inFields

theorem Schema.root_mem (S : Schema m n) (root : Ty m n) : root.pid ∈ S.universe root :=
  List.mem_append.2 (.inl (PId.id_mem _))

theorem Schema.universe_closed (S : Schema m n) (root : Ty m n) :
    ∀ i ∈ S.universe root, ∀ j ∈ (S.rule i).parts, j ∈ S.universe root := by
  intro i hi j hj
  rcases List.mem_append.1 hi with hi | hi
  · exact List.mem_append.2 (S.subs_closed _ i hi j hj)
  · obtain ⟨k, _, hi⟩ := List.mem_flatMap.1 hi
    obtain ⟨f, hf, hi⟩ := List.mem_flatMap.1 hi
    rcases S.subs_closed _ i hi j hj with h | h
    · exact List.mem_append.2 (.inr (List.mem_flatMap.2 ⟨k, List.mem_finRange k,
        List.mem_flatMap.2 ⟨f, hf, h⟩⟩))
    · exact List.mem_append.2 (.inr h)

end Teleparse

import Verif.Proof.Yields
/-
Types that always return a tree.
-/
namespace Teleparse
variable {m n : Nat} {S : Schema m n}

theorem ofPair_tree? (x : Tree n) (e : List (Err n)) : (Res.ofPair x e).tree?.isSome = true := by
  unfold Res.ofPair; split <;> rfl

theorem run_seq_error {ts : List (Ty m n)} : ∀ {v acc errs e v'},
    Run S (.seq ts v acc errs (.error e) v') → ∃ t ∈ ts, ∃ w e' w', Run S (.ty t w (.panic e') w') := by
  induction ts with
  | nil => intro v acc errs e v' h; cases h
  | cons t ts ih =>
    intro v acc errs e v' h
    cases h with
    | seqGive _ _ h2 =>
      obtain ⟨t', ht, hx⟩ := ih h2
      exact ⟨t', List.mem_cons_of_mem _ ht, hx⟩
    | seqPanic h1 => exact ⟨t, List.mem_cons_self .., _, _, _, h1⟩

theorem run_tuple_fail {t : Ty m n} {ts : List (Ty m n)} (ht : TupLike t ts)
    (hp : ∀ t ∈ ts, ∀ v r v', Run S (.ty t v r v') → r.tree?.isSome = true) {v r v'}
    (h : Run S (.ty t v r v')) : r.tree?.isSome = true := by
  have key : ∀ ts', TupLike t ts' → ts' = ts := by
    intro ts' h'; cases ht <;> cases h' <;> rfl
  have bad : ∀ {e}, Run S (.seq ts v [] [] (.error e) v') → False := by
    intro e hs
    obtain ⟨t', ht', _, _, _, h3⟩ := run_seq_error hs
    simpa [Res.tree?] using hp t' ht' _ _ _ h3
  cases ht <;> cases h with
  | tuple h1 h2 => exact ofPair_tree? _ _
  | tuplePanic h1 h2 => exact (bad (key _ h1 ▸ h2)).elim
  | optNone ho => cases ho
  | optSuccess ho => cases ho
  | optRecovered ho => cases ho
  | optPanic ho => cases ho
  | textSuccess ho => cases ho
  | textRecovered ho => cases ho
  | textPanic ho => cases ho

theorem run_optLike {t t0 : Ty m n} {mk : Span → Option (Tree n) → Tree n} (hl : OptLike t t0 mk) {v r v'}
    (h : Run S (.ty t v r v')) : r.tree?.isSome = true := by
  cases hl <;> cases h with
  | tuple h1 h2 => cases h1
  | tuplePanic h1 h2 => cases h1
  | optNone ho => rfl
  | optSuccess ho => rfl
  | optRecovered ho => rfl
  | optPanic ho => rfl
  | textSuccess ho => cases ho
  | textRecovered ho => cases ho
  | textPanic ho => cases ho

theorem run_cannotFail {t : Ty m n} (hc : CannotFail S t) : ∀ v r v', Run S (.ty t v r v') →
    r.tree?.isSome = true := by
  have np : ∀ {t : Ty m n} {v e v'}, (∀ v r v', Run S (.ty t v r v') → r.tree?.isSome = true) →
      Run S (.ty t v (.panic e) v') → False := by
    intro t v e v' ih h; simpa [Res.tree?] using ih _ _ _ h
  induction hc with
  | option t => intro v r v' h; exact run_optLike (.option t) h
  | exist t => intro v r v' h; exact run_optLike (.exist t) h
  | star t => intro v r v' h; exact run_optLike (.star t) h
  | loop t =>
    intro v r v' h
    cases h with
    | loopEmpty => exact ofPair_tree? _ _
    | loopList => exact ofPair_tree? _ _
    | tuple h1 h2 => cases h1
    | tuplePanic h1 h2 => cases h1
    | optNone ho => cases ho
    | optSuccess ho => cases ho
    | optRecovered ho => cases ho
    | optPanic ho => cases ho
    | textSuccess ho => cases ho
    | textRecovered ho => cases ho
    | textPanic ho => cases ho
  | box _ ih =>
    intro v r v' h
    cases h with
    | box h => exact ih _ _ _ h
    | tuple h1 h2 => cases h1
    | tuplePanic h1 h2 => cases h1
    | optNone ho => cases ho
    | optSuccess ho => cases ho
    | optRecovered ho => cases ho
    | optPanic ho => cases ho
    | textSuccess ho => cases ho
    | textRecovered ho => cases ho
    | textPanic ho => cases ho
  | quote _ ih =>
    intro v r v' h
    cases h with
    | tuple h1 h2 => cases h1
    | tuplePanic h1 h2 => cases h1
    | optNone ho => cases ho
    | optSuccess ho => cases ho
    | optRecovered ho => cases ho
    | optPanic ho => cases ho
    | textSuccess ho => rfl
    | textRecovered ho => rfl
    | textPanic ho h => cases ho; exact (np ih h).elim
  | parse _ ih =>
    intro v r v' h
    cases h with
    | tuple h1 h2 => cases h1
    | tuplePanic h1 h2 => cases h1
    | optNone ho => cases ho
    | optSuccess ho => cases ho
    | optRecovered ho => cases ho
    | optPanic ho => cases ho
    | textSuccess ho => rfl
    | textRecovered ho => rfl
    | textPanic ho h => cases ho; exact (np ih h).elim
  | plus _ ih =>
    intro v r v' h
    cases h with
    | plus => exact ofPair_tree? _ _
    | plusPanic h => exact (np ih h).elim
    | tuple h1 h2 => cases h1
    | tuplePanic h1 h2 => cases h1
    | optNone ho => cases ho
    | optSuccess ho => cases ho
    | optRecovered ho => cases ho
    | optPanic ho => cases ho
    | textSuccess ho => cases ho
    | textRecovered ho => cases ho
    | textPanic ho => cases ho
  | split p _ ih =>
    intro v r v' h
    cases h with
    | split => exact ofPair_tree? _ _
    | splitPanic h => exact (np ih h).elim
    | tuple h1 h2 => cases h1
    | tuplePanic h1 h2 => cases h1
    | optNone ho => cases ho
    | optSuccess ho => cases ho
    | optRecovered ho => cases ho
    | optPanic ho => cases ho
    | textSuccess ho => cases ho
    | textRecovered ho => cases ho
    | textPanic ho => cases ho
  | punct p _ ih =>
    intro v r v' h
    cases h with
    | punct => exact ofPair_tree? _ _
    | punctPanic h => exact (np ih h).elim
    | tuple h1 h2 => cases h1
    | tuplePanic h1 h2 => cases h1
    | optNone ho => cases ho
    | optSuccess ho => cases ho
    | optRecovered ho => cases ho
    | optPanic ho => cases ho
    | textSuccess ho => cases ho
    | textRecovered ho => cases ho
    | textPanic ho => cases ho
  | tup2 _ _ iha ihb =>
    intro v r v' h
    exact run_tuple_fail (.tup2 ..) (by simp only [List.forall_mem_cons, List.not_mem_nil, false_implies, implies_true, and_true]; exact ⟨iha, ihb⟩) h
  | tup3 _ _ _ iha ihb ihc =>
    intro v r v' h
    exact run_tuple_fail (.tup3 ..) (by simp only [List.forall_mem_cons, List.not_mem_nil, false_implies, implies_true, and_true]; exact ⟨iha, ihb, ihc⟩) h
  | tup4 _ _ _ _ iha ihb ihc ihd =>
    intro v r v' h
    exact run_tuple_fail (.tup4 ..) (by simp only [List.forall_mem_cons, List.not_mem_nil, false_implies, implies_true, and_true]; exact ⟨iha, ihb, ihc, ihd⟩) h
  | tup5 _ _ _ _ _ iha ihb ihc ihd ihe =>
    intro v r v' h
    exact run_tuple_fail (.tup5 ..) (by simp only [List.forall_mem_cons, List.not_mem_nil, false_implies, implies_true, and_true]; exact ⟨iha, ihb, ihc, ihd, ihe⟩) h
  | struct hk _ ih =>
    intro v r v' h
    cases h with
    | struct hk' h1 => exact ofPair_tree? _ _
    | structPanic hk' h1 =>
      rw [hk] at hk'; cases hk'
      obtain ⟨t', ht', _, _, _, h3⟩ := run_seq_error h1
      obtain ⟨g, hg, rfl⟩ := List.mem_map.1 ht'
      exact (np (ih g hg) h3).elim
    | enumSuccess hk' => rw [hk] at hk'; cases hk'
    | enumRecovered hk' => rw [hk] at hk'; cases hk'
    | enumPanic hk' => rw [hk] at hk'; cases hk'
    | enumNone hk' => rw [hk] at hk'; cases hk'
    | tuple h1 h2 => cases h1
    | tuplePanic h1 h2 => cases h1
    | optNone ho => cases ho
    | optSuccess ho => cases ho
    | optRecovered ho => cases ho
    | optPanic ho => cases ho
    | textSuccess ho => cases ho
    | textRecovered ho => cases ho
    | textPanic ho => cases ho

end Teleparse

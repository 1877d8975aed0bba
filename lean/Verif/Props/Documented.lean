import Verif.Props.Termination
import Verif.Proof.Whole
/-
Property C71: the LL(1) violations that the book lists are always rejected.
-/
namespace Teleparse
variable {m n : Nat}

/-! ## C71: documented LL(1) violations -/

/-- `Root::parse` returns a grammar error, the same for every input. -/
def Rejected (S : Schema m n) (root : Ty m n) : Prop :=
  ∃ e fuel, ∀ fuel' ≥ fuel, S.metadata fuel' root = some (.error e) ∧
    ∀ ext source items, rootParse ext S fuel' root source items = .ok (.error e) (Parser.new source items)

theorem rejected_of (S : Schema m n) (root : Ty m n)
    (h : ∀ fuel md, S.metadata fuel root = some (.ok md) → False) : Rejected S root := by
  obtain ⟨r, fuel, hr⟩ := C33_schema_total S root
  cases r with
  | ok md => exact (h fuel md (hr fuel (Nat.le_refl _))).elim
  | error e => exact ⟨e, fuel, fun f hf => ⟨hr f hf, fun ext source items => (C48_grammar_error ..).2 ⟨hr f hf, rfl⟩⟩⟩

section
variable {S : Schema m n} {root : Ty m n} {G : Grammar (PId m n) n}

theorem no_nullable_opt (hG : S.IsGrammar root G) {i : PId m n} (hr : PReach S root (.opt i))
    (hn : Nullable G i.id) {fuel : Nat} {md : Metadata (PId m n) n} (h : S.metadata fuel root = some (.ok md)) :
    False := by
  have he : Nullable G (.eps : PId m n) :=
    Derives.one (.eps (IsGrammar.mem hG (hr.part (by simp [Schema.rule, Rule.parts]))))
  have := (metadata_jump h hG (l := [i.id, .eps]) ((reach_iff_schema hG _).2 hr) rfl none).2.2 0 1 i.id .eps rfl rfl
    hn he
  omega

theorem null_plus (hG : S.IsGrammar root G) {i : PId m n} (hr : PReach S root (.plus i)) (hn : Nullable G i.id) :
    Nullable G (.plus i) := by
  have ho : PReach S root (.opt (.plus i)) := hr.part (by simp [Schema.rule, Rule.parts])
  exact Der.seq1 (u := []) (v := []) (IsGrammar.mem hG hr) hn (der_opt_none ho hG)

theorem no_overlap_seq (hG : S.IsGrammar root G) {i a b : PId m n} {pre mid post : List (PId m n)}
    (hr : PReach S root i) (hs : S.rule i = .seq (pre ++ a :: (mid ++ b :: post))) (ha : Nullable G a)
    (hmid : ∀ k ∈ mid, Nullable G k) {tok : TokenSrc n} (h1 : FirstOf G a tok) (h2 : FirstOf G b tok) {fuel : Nat}
    {md : Metadata (PId m n) n} (h : S.metadata fuel root = some (.ok md)) : False := by
  obtain ⟨G', hG', _, hb⟩ := metadata_build h
  have hsame := hG.same hG'
  have key : ∀ k x, Starts G k x → Starts G' k x := fun k x hk => (Starts.congr hsame x).1 hk
  have hm := IsGrammar.mem hG' hr
  rw [hs] at hm
  exact accepted_seq hG'.1 hb ((reach_iff_schema hG' _).2 hr) hm (key a none ha) (fun k hk => key k none (hmid k hk))
    tok (key a (some tok) h1) (key b (some tok) h2)

end

/-- An optional type that can be empty is rejected. -/
theorem C71_option (S : Schema m n) (root t : Ty m n) (G : Grammar (PId m n) n) (hG : S.IsGrammar root G)
    (hr : Reach S.tyParts root (.option t) ∨ Reach S.tyParts root (.exist t)) (hn : Nullable G t.pid) :
    Rejected S root := by
  refine rejected_of S root fun fuel md h => ?_
  have : PReach S root (.opt t.prod) := hr.elim reach_pid reach_pid
  exact no_nullable_opt hG this hn h

/-- A repetition of a type that can be empty is rejected. -/
theorem C71_iter (S : Schema m n) (root t : Ty m n) (G : Grammar (PId m n) n) (hG : S.IsGrammar root G)
    (hr : Reach S.tyParts root (.plus t) ∨ Reach S.tyParts root (.star t) ∨ Reach S.tyParts root (.loop t))
    (hn : Nullable G t.pid) : Rejected S root := by
  refine rejected_of S root fun fuel md h => ?_
  have hp : PReach S root (.plus t.prod) := by
    rcases hr with hr | hr | hr
    · exact reach_pid hr
    · have ho : PReach S root (.opt (.plus t.prod)) := reach_pid hr
      exact ho.part (by simp [Schema.rule, Rule.parts, PId.id])
    · exact reach_pid hr
  have ho : PReach S root (.opt (.plus t.prod)) := hp.part (by simp [Schema.rule, Rule.parts])
  exact no_nullable_opt hG ho (null_plus hG hp hn) h

/-- The parts of a tuple, a `Recover` or a struct. -/
def SeqParts (S : Schema m n) (u : Ty m n) (ts : List (Ty m n)) : Prop :=
  u.isTuple ts ∨ (∃ t r, u = .recover t r ∧ ts = [t, r]) ∨
    ∃ k f fs, u = .user k ∧ S k = .struct f fs ∧ ts = (f :: fs).map (·.1)

/-- A part that can be empty, and after it, with nothing but parts that can be empty between them, a part that can
begin with the same token, is rejected. -/
theorem C71_sequence (S : Schema m n) (root u a b : Ty m n) (G : Grammar (PId m n) n) (hG : S.IsGrammar root G)
    (hr : Reach S.tyParts root u) (pre mid post : List (Ty m n)) (hs : SeqParts S u (pre ++ a :: (mid ++ b :: post)))
    (ha : Nullable G a.pid) (hmid : ∀ k ∈ mid, Nullable G k.pid) (tok : TokenSrc n) (h1 : FirstOf G a.pid tok)
    (h2 : FirstOf G b.pid tok) : Rejected S root := by
  refine rejected_of S root fun fuel md h => ?_
  refine no_overlap_seq hG (reach_pid hr) (pre := pre.map Ty.pid) (mid := mid.map Ty.pid) (post := post.map Ty.pid)
    ?_ ha ?_ h1 h2 h
  · have : S.rule u.pid = .seq ((pre ++ a :: (mid ++ b :: post)).map Ty.pid) := by
      rcases hs with hs | ⟨t, r, rfl, h'⟩ | ⟨k, f, fs, rfl, hk, h'⟩
      · exact tuple_pid hs
      · rw [h']; rfl
      · rw [h']
        show S.rule (.user k) = _
        simp only [Schema.rule, hk, List.map_map]; rfl
    simpa using this
  · intro k hk
    obtain ⟨k, hk', rfl⟩ := List.mem_map.1 hk
    exact hmid k hk'

/-- The examples of the book: `Option<Option<T>>` and the like, lists of `Option<T>`, and `(Option<T>, T)`, anywhere
in the grammar and for every `T` (that begins with some token, in the last case). -/
theorem C71_documented (S : Schema m n) (root t : Ty m n) (G : Grammar (PId m n) n) (hG : S.IsGrammar root G)
    (tok : TokenSrc n) (hf : FirstOf G t.pid tok) (u : Ty m n) (hr : Reach S.tyParts root u)
    (hu : u = .option (.option t) ∨ u = .option (.star t) ∨ u = .exist (.option t) ∨ u = .star (.option t) ∨
      u = .plus (.option t) ∨ u = .loop (.option t) ∨ u = .tup2 (.option t) t) : Rejected S root := by
  have key {v : Ty m n} (hv : Reach S.tyParts root v) (ho : v = .option t ∨ v = .star t) : Nullable G v.pid := by
    rcases ho with rfl | rfl
    · exact der_opt_none (reach_pid hv : PReach S root (.opt t.prod)) hG
    · exact der_opt_none (reach_pid hv : PReach S root (.opt (.plus t.prod))) hG
  have part {v : Ty m n} (hv : v ∈ S.tyParts u) : Reach S.tyParts root v := .step hr hv
  rcases hu with rfl | rfl | rfl | rfl | rfl | rfl | rfl
  · exact C71_option S root _ G hG (.inl hr) (key (part (by simp [Schema.tyParts])) (.inl rfl))
  · exact C71_option S root _ G hG (.inl hr) (key (part (by simp [Schema.tyParts])) (.inr rfl))
  · exact C71_option S root _ G hG (.inr hr) (key (part (by simp [Schema.tyParts])) (.inl rfl))
  · have hp : Reach S.tyParts root (.plus (.option t)) := part (by simp [Schema.tyParts])
    exact C71_iter S root _ G hG (.inl hp) (key (.step hp (by simp [Schema.tyParts])) (.inl rfl))
  · exact C71_iter S root _ G hG (.inl hr) (key (part (by simp [Schema.tyParts])) (.inl rfl))
  · exact C71_iter S root _ G hG (.inr (.inr hr)) (key (part (by simp [Schema.tyParts])) (.inl rfl))
  · have hp : Reach S.tyParts root (.option t) := part (by simp [Schema.tyParts])
    refine C71_sequence S root _ (.option t) t G hG hr [] [] [] (.inl (.inl ⟨_, _, rfl, rfl⟩)) (key hp (.inl rfl))
      (fun k hk => by cases hk) tok ?_ hf
    obtain ⟨α, h⟩ := hf
    exact ⟨α, (Derives.one (.alt (IsGrammar.mem hG (reach_pid hp)) (List.mem_cons_self ..))).trans h⟩

/-- Example: a struct with a field `Option<Option<word>>` behind a number. -/
def dcS : Schema 1 3 := fun _ => .struct (.term 1 ⟨1, none⟩, none) [(.option (.option (.term 0 ⟨0, none⟩)), none)]
def dcG : Grammar (PId 1 3) 3 := (registerFrom dcS.rule 30 (.user 0)).getD []
example : dcS.IsGrammar (.user 0) dcG ∧ FirstOf dcG (Ty.term 0 ⟨0, none⟩ : Ty 1 3).pid ⟨0, [97]⟩ ∧
    Reach dcS.tyParts (.user 0) (.option (.option (.term 0 ⟨0, none⟩))) :=
  ⟨.of_register (fuel := 30) rfl, ⟨[], Derives.one (.term (t := ⟨0, none⟩) (by decide) ⟨rfl, by simp⟩)⟩, .step .refl (by simp [Schema.tyParts, dcS])⟩

end Teleparse

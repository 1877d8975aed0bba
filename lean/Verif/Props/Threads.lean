import Verif.Model.Threads
import Verif.Spec.Threads
import Verif.Props.Termination
import Verif.Proof.Whole
/-
Properties of threads: C100.
-/
namespace Teleparse
variable {m n k : Nat} {ext : Fin n → Bool} {S : Schema m n}

theorem update_self {α β : Type} [DecidableEq α] {f : α → β} {a : α} {b : β} : update f a b a = b := if_pos rfl

theorem update_ne {α β : Type} [DecidableEq α] {f : α → β} {a x : α} {b : β} (h : x ≠ a) : update f a b x = f x :=
  if_neg h

/-- What holds at any time. -/
structure World.Good (S : Schema m n) (w : World m n k) : Prop where
  full : ∀ r v, w.cell r = .full v → ∃ fuel, S.metadata fuel r = some v
  busy : ∀ r t, w.cell r = .busy t → ∃ cs, (w.thread t).calls = r :: cs
  built : ∀ r, r ∈ w.built ↔ ∃ v, w.cell r = .full v
  nodup : w.built.Nodup

theorem World.Good.start (thread : Fin k → Thread m n) : (World.start thread).Good S :=
  ⟨fun _ _ h => (by cases h), fun _ _ h => (by cases h), fun r => ⟨fun h => (by cases h), fun ⟨_, h⟩ => (by cases h)⟩,
    List.nodup_nil⟩

theorem World.Good.thread {w : World m n k} (h : w.Good S) {t : Fin k} {x : Thread m n} {r : Ty m n} {cs : List (Ty m n)}
    {v} (h1 : (w.thread t).calls = r :: cs) (h2 : w.cell r = .full v) :
    World.Good S { w with thread := update w.thread t x } := by
  refine ⟨h.full, fun r' t' hb => ?_, h.built, h.nodup⟩
  obtain ⟨cs', hc⟩ := h.busy r' t' hb
  by_cases ht : t' = t
  · subst ht
    rw [h1] at hc
    cases hc
    rw [h2] at hb
    cases hb
  · exact ⟨cs', by show (update w.thread t x t').calls = _; rw [update_ne ht]; exact hc⟩

theorem World.Step.good {w w' : World m n k} {t : Fin k} (h : w.Good S) (hs : World.Step ext S t w w') : w'.Good S := by
  cases hs with
  | @start r cs h1 h2 =>
    refine ⟨fun r' v hv => ?_, fun r' t' hb => ?_, fun r' => ?_, h.nodup⟩
    · by_cases hr : r' = r
      · subst hr; change update _ _ _ _ = _ at hv; rw [update_self] at hv; cases hv
      · change update _ _ _ _ = _ at hv; rw [update_ne hr] at hv; exact h.full r' v hv
    · by_cases hr : r' = r
      · subst hr
        change update _ _ _ _ = _ at hb; rw [update_self] at hb
        cases hb
        exact ⟨cs, h1⟩
      · change update _ _ _ _ = _ at hb; rw [update_ne hr] at hb; exact h.busy r' t' hb
    · by_cases hr : r' = r
      · subst hr
        refine ⟨fun hm => ?_, fun ⟨v, hv⟩ => ?_⟩
        · obtain ⟨v, hv⟩ := (h.built _).1 hm
          rw [h2] at hv; cases hv
        · change update _ _ _ _ = _ at hv; rw [update_self] at hv; cases hv
      · show r' ∈ w.built ↔ ∃ v, update w.cell r _ r' = _
        rw [update_ne hr]; exact h.built r'
  | @finish r cs fuel v h1 h2 h3 =>
    refine ⟨fun r' v' hv => ?_, fun r' t' hb => ?_, fun r' => ?_, ?_⟩
    · by_cases hr : r' = r
      · subst hr
        change update _ _ _ _ = _ at hv; rw [update_self] at hv
        cases hv
        exact ⟨fuel, h3⟩
      · change update _ _ _ _ = _ at hv; rw [update_ne hr] at hv; exact h.full r' v' hv
    · by_cases hr : r' = r
      · subst hr; change update _ _ _ _ = _ at hb; rw [update_self] at hb; cases hb
      · change update _ _ _ _ = _ at hb; rw [update_ne hr] at hb; exact h.busy r' t' hb
    · show r' ∈ w.built ++ [r] ↔ ∃ v', update w.cell r _ r' = _
      by_cases hr : r' = r
      · subst hr
        rw [update_self]
        exact ⟨fun _ => ⟨v, rfl⟩, fun _ => by simp⟩
      · rw [update_ne hr, ← h.built r']
        simp [hr]
    · refine List.nodup_append.2 ⟨h.nodup, by simp, ?_⟩
      intro a ha b hb
      rw [List.mem_singleton] at hb
      subst hb
      rintro rfl
      obtain ⟨v', hv⟩ := (h.built _).1 ha
      rw [h2] at hv
      cases hv
  | refuse h1 h2 => exact h.thread h1 h2
  | parse h1 h2 _ => exact h.thread h1 h2

theorem World.Steps.good {w w' : World m n k} (h : w.Good S) (hs : World.Steps ext S w w') : w'.Good S := by
  induction hs with
  | refl => exact h
  | step _ hs ih => exact hs.good ih

theorem parseWithMeta_more {md : Metadata (PId m n) n} {r : Ty m n} {p p' : Parser n} {x} {f f' : Nat}
    (h : p.parseWithMeta ext S md f r = .ok x p') (hf : f ≤ f') : p.parseWithMeta ext S md f' r = .ok x p' := by
  unfold Parser.parseWithMeta at h ⊢
  cases hp : produce (Parser.ops ext) S md f r p with
  | fuel => rw [hp] at h; cases h
  | crash => rw [hp] at h; cases h
  | ok y q => rw [hp] at h; rw [produce_more hp hf]; exact h

theorem Parser.parse_more {r : Ty m n} {p p' : Parser n} {x} {f f' : Nat}
    (h : p.parse ext S f r = .ok x p') (hf : f ≤ f') : p.parse ext S f' r = .ok x p' := by
  unfold Parser.parse at h ⊢
  cases hm : S.metadata f r with
  | none => rw [hm] at h; cases h
  | some v =>
    rw [hm] at h
    rw [metadata_any hm hf]
    cases v with
    | error e => exact h
    | ok md =>
      dsimp only at h ⊢
      cases hp : p.parseWithMeta ext S md f r with
      | fuel => rw [hp] at h; cases h
      | crash => rw [hp] at h; cases h
      | ok y q => rw [hp] at h; rw [parseWithMeta_more hp hf]; exact h

theorem Alone.snoc {cs : List (Ty m n)} {p q q' : Parser n} {xs} {r : Ty m n} {fuel : Nat} {x}
    (h : Alone ext S cs p xs q) (hx : q.parse ext S fuel r = .ok x q') : Alone ext S (cs ++ [r]) p (xs ++ [x]) q' := by
  induction h with
  | nil => exact .cons hx .nil
  | cons h _ ih => exact .cons h (ih hx)

/-! ## C100 -/

/-- At any time, whatever the threads have done in whatever order, the results of a thread are those it would have got
alone with metadata computed anew for every call, and so is its parser. -/
theorem C100_results (thread : Fin k → Thread m n) (w : World m n k)
    (h : World.Steps ext S (World.start thread) w) (t : Fin k) :
    ∃ done xs, (thread t).calls = done ++ (w.thread t).calls ∧ (w.thread t).results = (thread t).results ++ xs ∧
      Alone ext S done (thread t).parser xs (w.thread t).parser := by
  induction h with
  | refl => exact ⟨[], [], rfl, (List.append_nil _).symm, .nil⟩
  | @step w w' s h hs ih =>
    obtain ⟨done, xs, h1, h2, h3⟩ := ih
    have hg := h.good (World.Good.start thread)
    cases hs with
    | start => exact ⟨done, xs, h1, h2, h3⟩
    | finish => exact ⟨done, xs, h1, h2, h3⟩
    | @refuse r cs e g1 g2 =>
      by_cases ht : t = s
      · subst ht
        obtain ⟨f, hf⟩ := hg.full _ _ g2
        refine ⟨done ++ [r], xs ++ [.error e], ?_, ?_, ?_⟩
        · rw [h1, g1]; simp [update_self]
        · simp [update_self, h2]
        · show Alone _ _ _ _ _ (update w.thread t _ t).parser
          rw [update_self]
          refine h3.snoc (fuel := f) ?_
          unfold Parser.parse
          rw [hf]
      · refine ⟨done, xs, ?_, ?_, ?_⟩ <;> simp only [update_ne ht] <;> assumption
    | @parse r cs md fuel x p' g1 g2 g3 =>
      by_cases ht : t = s
      · subst ht
        obtain ⟨f, hf⟩ := hg.full _ _ g2
        refine ⟨done ++ [r], xs ++ [.ok x], ?_, ?_, ?_⟩
        · rw [h1, g1]; simp [update_self]
        · simp [update_self, h2]
        · show Alone _ _ _ _ _ (update w.thread t _ t).parser
          rw [update_self]
          refine h3.snoc (fuel := max f fuel) ?_
          unfold Parser.parse
          rw [metadata_any hf (Nat.le_max_left _ _)]
          simp only [parseWithMeta_more g3 (Nat.le_max_right _ _)]
      · refine ⟨done, xs, ?_, ?_, ?_⟩ <;> simp only [update_ne ht] <;> assumption

/-- What a thread gets alone is determined. -/
theorem C100_determined {cs : List (Ty m n)} {p q q' : Parser n} {xs ys : List (Outcome m n)}
    (h : Alone ext S cs p xs q) (h' : Alone ext S cs p ys q') : xs = ys ∧ q = q' := by
  induction h generalizing ys q' with
  | nil => cases h'; exact ⟨rfl, rfl⟩
  | @cons r cs p f x p' xs q h _ ih =>
    cases h' with
    | @cons _ _ _ f2 x2 p2 xs2 _ h2 h3 =>
      have h4 := Parser.parse_more h (Nat.le_max_left f f2)
      rw [Parser.parse_more h2 (Nat.le_max_right f f2)] at h4
      cases h4
      obtain ⟨rfl, rfl⟩ := ih h3
      exact ⟨rfl, rfl⟩

/-- The order in which threads run does not matter: a thread that has made its calls has the same results and the same
parser in every run of the program. -/
theorem C100_schedule (thread : Fin k → Thread m n) (w w' : World m n k)
    (h : World.Steps ext S (World.start thread) w) (h' : World.Steps ext S (World.start thread) w') (t : Fin k)
    (hd : (w.thread t).calls = []) (hd' : (w'.thread t).calls = []) : w.thread t = w'.thread t := by
  obtain ⟨d1, x1, a1, a2, a3⟩ := C100_results thread w h t
  obtain ⟨d2, x2, b1, b2, b3⟩ := C100_results thread w' h' t
  rw [hd, List.append_nil] at a1
  rw [hd', List.append_nil] at b1
  subst a1 b1
  obtain ⟨e1, e2⟩ := C100_determined a3 b3
  subst e1
  have e3 : (w.thread t).results = (w'.thread t).results := by rw [a2, b2]
  have e4 : (w.thread t).calls = (w'.thread t).calls := by rw [hd, hd']
  cases hx : w.thread t
  cases hy : w'.thread t
  rw [hx, hy] at e2 e3 e4
  cases e2; cases e3; cases e4
  rfl

/-- The metadata of a root is computed once at most, and what is kept is the metadata of that root. -/
theorem C100_once (thread : Fin k → Thread m n) (w : World m n k)
    (h : World.Steps ext S (World.start thread) w) :
    w.built.Nodup ∧ ∀ r v, w.cell r = .full v → ∃ fuel, S.metadata fuel r = some v :=
  ⟨(h.good (World.Good.start thread)).nodup, (h.good (World.Good.start thread)).full⟩

/-- No thread waits for ever: if the next call of a thread would return if it were alone, it can be completed in a few
steps, of this thread and of the one it may have to wait for, and of no other; whatever the threads have done before. -/
theorem C100_progress (thread : Fin k → Thread m n) (w : World m n k)
    (h : World.Steps ext S (World.start thread) w) (t : Fin k) (r : Ty m n) (cs : List (Ty m n))
    (hc : (w.thread t).calls = r :: cs) (fuel : Nat) (x : Outcome m n) (p' : Parser n)
    (hx : (w.thread t).parser.parse ext S fuel r = .ok x p') :
    ∃ w', World.Steps ext S w w' ∧ w'.thread t = ⟨cs, p', (w.thread t).results ++ [x]⟩ ∧
      ∀ s ≠ t, w'.thread s = w.thread s := by
  have hg := h.good (World.Good.start thread)
  obtain ⟨v, f, hv⟩ := C33_schema_total S r
  have hv := hv f (Nat.le_refl _)
  -- once the cell is full
  have last : ∀ w0 : World m n k, World.Steps ext S w w0 → w0.thread = w.thread → w0.cell r = .full v →
      ∃ w', World.Steps ext S w w' ∧ w'.thread t = ⟨cs, p', (w.thread t).results ++ [x]⟩ ∧
        ∀ s ≠ t, w'.thread s = w.thread s := by
    intro w0 h0 ht hf
    have hc0 : (w0.thread t).calls = r :: cs := by rw [ht]; exact hc
    unfold Parser.parse at hx
    cases hm : S.metadata fuel r with
    | none => rw [hm] at hx; cases hx
    | some v' =>
      have hvv : v' = v := by
        have h1 := metadata_any hm (Nat.le_max_left fuel f)
        have h2 := metadata_any hv (Nat.le_max_right fuel f)
        rw [h1] at h2
        cases h2
        rfl
      subst hvv
      rw [hm] at hx
      cases v' with
      | error e =>
        cases hx
        refine ⟨_, .step h0 (.refuse hc0 hf), ?_, fun s hs => ?_⟩
        · show update _ _ _ _ = _; rw [update_self, ht]
        · show update _ _ _ _ = _; rw [update_ne hs, ht]
      | ok md =>
        dsimp only at hx
        cases hp : (w.thread t).parser.parseWithMeta ext S md fuel r with
        | fuel => rw [hp] at hx; cases hx
        | crash => rw [hp] at hx; cases hx
        | ok y q =>
          rw [hp] at hx
          cases hx
          refine ⟨_, .step h0 (.parse hc0 hf (by rw [ht]; exact hp)), ?_, fun s hs => ?_⟩
          · show update _ _ _ _ = _; rw [update_self, ht]
          · show update _ _ _ _ = _; rw [update_ne hs, ht]
  cases hcell : w.cell r with
  | full v' =>
    obtain ⟨f', hf'⟩ := hg.full r v' hcell
    have h1 := metadata_any hf' (Nat.le_max_left f' f)
    have h2 := metadata_any hv (Nat.le_max_right f' f)
    rw [h1] at h2
    cases h2
    exact last w .refl rfl hcell
  | busy t' =>
    obtain ⟨cs', hc'⟩ := hg.busy r t' hcell
    exact last _ (.step .refl (.finish hc' hcell hv)) rfl update_self
  | empty =>
    refine last _ (.step (.step .refl (.start hc hcell)) (.finish (t := t) (r := r) hc update_self hv)) rfl update_self

/-! Two threads that parse the same root, with two calls and with one. The first begins to compute the metadata; the
second has to wait, and is then the first to parse. -/

def thT : Ty 0 3 := .tup2 exWord exNum
def thW : Fin 2 → Thread 0 3 := fun t =>
  if t = 0 then ⟨[thT, exWord], Parser.new exSource exItems, []⟩ else ⟨[thT], Parser.new exSource exItems, []⟩

example : ∃ w : World 0 3 2, World.Steps exExt exS (World.start thW) w ∧ w.cell thT = .busy 0 ∧
    (w.thread 1).calls = [thT] ∧
    ∃ w' x, World.Steps exExt exS w w' ∧ (w'.thread 1).calls = [] ∧ (w'.thread 1).results = [.ok (some x)] ∧
      (w'.thread 0).results = [] := by
  refine ⟨_, .step (t := 0) .refl (.start (r := thT) (cs := [exWord]) (by rfl) (by rfl)), by rfl, by rfl, ?_⟩
  have hx : ∃ x p', (Parser.new exSource exItems).parse exExt exS 30 thT = .ok (.ok (some x)) p' := ⟨_, _, by rfl⟩
  obtain ⟨x, p', hx⟩ := hx
  obtain ⟨w', h1, h2, h3⟩ := C100_progress thW _
    (.step (t := 0) .refl (.start (ext := exExt) (S := exS) (r := thT) (cs := [exWord]) (by rfl) (by rfl)))
    1 thT [] (by rfl) 30 _ p' hx
  exact ⟨w', x, h1, by rw [h2], by rw [h2]; rfl, by rw [h3 0 (by decide)]; rfl⟩

end Teleparse

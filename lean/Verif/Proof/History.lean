import Verif.Spec.History
import Verif.Proof.State
import Verif.Props.Layout
/-
What a parser does depends only on what is to come.
-/
namespace Teleparse
variable {m n : Nat}

/-! ### Records are only written -/

/-- More records before those of a parser. -/
def Parser.under (r : Records n) (p : Parser n) : Parser n := p.withRecords (r.then p.records)

theorem Records.then_none (r : Records n) : r.then .none = r := by simp [Records.then, Records.none]

theorem Records.none_then (r : Records n) : Records.none.then r = r := by simp [Records.then, Records.none]

theorem under_withRecords (r : Records n) (p : Parser n) : (p.withRecords .none).under r = p.withRecords r := by
  simp [Parser.under, Parser.withRecords, Parser.records, Records.then, Records.none]

theorem withRecords_self (p : Parser n) : p.withRecords p.records = p := rfl

theorem readLoop_under (ext : Fin n → Bool) (r : Records n) : ∀ (fuel : Nat) (p : Parser n),
    Parser.readLoop ext fuel (p.under r) = (Parser.readLoop ext fuel p).under r := by
  intro fuel
  induction fuel with
  | zero => intro p; rfl
  | succ fuel ih =>
    intro p
    unfold Parser.readLoop
    rw [show (p.under r).lexer = p.lexer from rfl]
    generalize p.lexer.next = x
    obtain ⟨⟨invalid, token⟩, lexer⟩ := x
    cases token with
    | none => cases invalid <;> simp [Parser.under, Parser.withRecords, Parser.records, Records.then, Parser.noteInvalid]
    | some t =>
      dsimp only
      by_cases he : ext t.ty = true
      · rw [if_pos he, if_pos he, ← ih]
        congr 1
        cases invalid <;> simp [Parser.under, Parser.withRecords, Parser.records, Records.then, Parser.noteInvalid]
      · rw [if_neg he, if_neg he]
        cases invalid <;> simp [Parser.under, Parser.withRecords, Parser.records, Records.then, Parser.noteInvalid]

theorem fill_under (ext : Fin n → Bool) (r : Records n) (p : Parser n) : (p.under r).fill ext = (p.fill ext).under r := by
  unfold Parser.fill
  rw [show (p.under r).peeked = p.peeked from rfl]
  cases p.peeked with
  | none => exact readLoop_under ext r _ p
  | some _ => rfl

theorem peek_under (ext : Fin n → Bool) (r : Records n) (p : Parser n) :
    (p.under r).peek ext = ((p.peek ext).1, (p.peek ext).2.under r) := by
  unfold Parser.peek
  simp only [fill_under]
  rfl

theorem consume_under (ext : Fin n → Bool) (r : Records n) (p : Parser n) :
    (p.under r).consume ext = ((p.consume ext).1, (p.consume ext).2.under r) := by
  unfold Parser.consume
  simp only [fill_under]
  rw [show ((p.fill ext).under r).peeked = (p.fill ext).peeked from rfl]
  cases (p.fill ext).peeked with
  | none => rfl
  | some t => rfl

theorem under_closed (ext : Fin n → Bool) (r : Records n) :
    Closed 0 (fun {α} (x : M (Parser n) α) (y : M (Parser n) α) =>
      ∀ p, y (p.under r) = (x p).mapState (Parser.under r)) (Parser.ops ext) (Parser.ops ext) where
  pure a p := rfl
  bind {α β x y f g} hx hf p := by
    show M.bind y g (p.under r) = (M.bind x f p).mapState (Parser.under r)
    unfold M.bind
    rw [hx p]
    cases x p with
    | fuel => rfl
    | crash => rfl
    | ok a s => exact hf a s
  fuel y hy p := by rw [hy rfl]; rfl
  crash p := rfl
  peek p := by
    show Out.ok _ _ = Out.ok _ _
    show Out.ok ((p.under r).peek ext).1 ((p.under r).peek ext).2 = Out.ok (p.peek ext).1 ((p.peek ext).2.under r)
    rw [peek_under]
  consume p := by
    show Out.ok ((p.under r).consume ext).1 ((p.under r).consume ext).2 = Out.ok (p.consume ext).1 ((p.consume ext).2.under r)
    rw [consume_under]
  source p := rfl
  emptySpan p := rfl
  apply sp sem p := rfl

theorem produce_under (ext : Fin n → Bool) (r : Records n) (S : Schema m n) (md : Metadata (PId m n) n) (fuel : Nat)
    (t : Ty m n) (p : Parser n) : produce (Parser.ops ext) S md fuel t (p.under r) =
      (produce (Parser.ops ext) S md fuel t p).mapState (Parser.under r) :=
  (under_closed ext r).produce S md fuel t p

theorem parse_under (ext : Fin n → Bool) (r : Records n) (S : Schema m n) (fuel : Nat) (t : Ty m n) (p : Parser n) :
    (p.under r).parse ext S fuel t = (p.parse ext S fuel t).mapState (Parser.under r) := by
  unfold Parser.parse
  cases S.metadata fuel t with
  | none => rfl
  | some x =>
    cases x with
    | error e => rfl
    | ok md =>
      dsimp only
      unfold Parser.parseWithMeta
      rw [produce_under]
      cases produce (Parser.ops ext) S md fuel t p with
      | fuel => rfl
      | crash => rfl
      | ok a q =>
        cases a with
        | success t => rfl
        | recovered t e =>
          simp [Out.mapState, Parser.under, Parser.withRecords, Parser.records, Records.then]
        | panic e => simp [Out.mapState, Parser.under, Parser.withRecords, Parser.records, Records.then]

/-! ### What was parsed before -/

section
variable {ext ext' : Fin n → Bool} {p p' : Parser n}

theorem Standing.twins (h : Standing ext p) (h' : Standing ext' p') (hw : p.coming ext = p'.coming ext') :
    Twins (p.layout ext) (p'.layout ext') :=
  ⟨h.sorted, h'.sorted, h.inside, h'.inside, hw⟩

theorem Parser.alike_self (h : Standing ext p) (h' : Standing ext' p') (hw : p.coming ext = p'.coming ext') :
    Alike (p.layout ext) (p'.layout ext') (p.view ext) (p'.view ext') :=
  ⟨rfl, rfl, [], [], (List.append_nil _).symm, (List.append_nil _).symm, rfl, rfl, rfl⟩

/-- Corresponding streams stand at the same words. -/
theorem Alike.coming {L L' : Layout n} (hT : Twins L L') {v v' : View n} (h : Alike L L' v v') :
    v.rest.map (Token.word L.source) = v'.rest.map (Token.word L'.source) := by
  obtain ⟨new, new', c1, c2, t1, t2, hs⟩ := h.toks
  have hw := hT.words
  have hl : new.length = new'.length := by simpa using congrArg List.length hs
  unfold Layout.words at hw
  rw [← t1, ← t2, List.map_append, List.map_append] at hw
  exact (List.append_inj hw (by simpa using hl)).2

theorem Alike.standing {L L' : Layout n} (hT : Twins L L') {q q' : Parser n}
    (h : Alike L L' (q.view ext) (q'.view ext')) : Standing ext q ∧ Standing ext' q' := by
  obtain ⟨new, new', c1, c2, t1, t2, hs⟩ := h.toks
  have e1 : q.info.tokens.map (·.token) ++ (q.view ext).rest = L.before.map (·.token) ++ L.tokens := by
    show (q.view ext).cells.map (·.token) ++ _ = _
    rw [c1, ← t1, List.map_append, List.append_assoc]
  have e2 : q'.info.tokens.map (·.token) ++ (q'.view ext').rest = L'.before.map (·.token) ++ L'.tokens := by
    show (q'.view ext').cells.map (·.token) ++ _ = _
    rw [c2, ← t2, List.map_append, List.append_assoc]
  have s1 : q.info.source = L.source := h.src
  have s2 : q'.info.source = L'.source := h.src'
  exact ⟨⟨by rw [e1]; exact hT.all, by rw [e1, s1]; exact hT.inside⟩, ⟨by rw [e2]; exact hT.all', by rw [e2, s2]; exact hT.inside'⟩⟩

theorem Reached.standing {source : Str} {items : List (Item n)} (hw : ItemsWF source items)
    (h : Reached ext source items p) : Standing ext p := by
  have ht := h.total
  refine ⟨by rw [ht]; exact hw.sorted, ?_⟩
  intro t hm
  rw [ht] at hm
  rw [h.source]
  exact hw.inSource (ext := ext) t hm

end
end Teleparse

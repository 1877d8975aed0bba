import Verif.Proof.History
/-
Property C104: what a parser does depends only on what is to come.
-/
namespace Teleparse
variable {m n : Nat}

/-! ## C104: what was parsed before, and what was done with the records, does not matter -/

section
variable {ext ext' : Fin n → Bool} {p p' : Parser n}

/-- The records (errors, invalid parts, invalid tokens, extracted tokens) are only written: if a program takes or
replaces them through `info_mut`, then `parse` gives the same answer, leaves the same tokens, and adds the same
records. -/
theorem C104_records {S : Schema m n} {fuel : Nat} {t : Ty m n} {a} {q : Parser n}
    (h : p.parse ext S fuel t = .ok a q) : ∃ new, q.records = p.records.then new ∧
      ∀ r, (p.withRecords r).parse ext S fuel t = .ok a (q.withRecords (r.then new)) := by
  have key : ∀ r, (p.withRecords r).parse ext S fuel t =
      ((p.withRecords .none).parse ext S fuel t).mapState (Parser.under r) := fun r => by
    rw [← under_withRecords r p, parse_under]
  have h0 := key p.records
  rw [withRecords_self, h] at h0
  cases hc : (p.withRecords .none).parse ext S fuel t with
  | fuel => rw [hc] at h0; cases h0
  | crash => rw [hc] at h0; cases h0
  | ok b q0 =>
    rw [hc] at h0
    cases h0
    refine ⟨q0.records, rfl, fun r => ?_⟩
    rw [key r, hc]
    rfl

/-- The same for a type that is produced, and for reading tokens. -/
theorem C104_records_produce {S : Schema m n} {md : Metadata (PId m n) n} {fuel : Nat} {t : Ty m n} {a} {q : Parser n}
    (h : produce (Parser.ops ext) S md fuel t p = .ok a q) : ∃ new, q.records = p.records.then new ∧
      ∀ r, produce (Parser.ops ext) S md fuel t (p.withRecords r) = .ok a (q.withRecords (r.then new)) := by
  have key : ∀ r, produce (Parser.ops ext) S md fuel t (p.withRecords r) =
      (produce (Parser.ops ext) S md fuel t (p.withRecords .none)).mapState (Parser.under r) := fun r => by
    rw [← under_withRecords r p, produce_under]
  have h0 := key p.records
  rw [withRecords_self, h] at h0
  cases hc : produce (Parser.ops ext) S md fuel t (p.withRecords .none) with
  | fuel => rw [hc] at h0; cases h0
  | crash => rw [hc] at h0; cases h0
  | ok b q0 =>
    rw [hc] at h0
    cases h0
    refine ⟨q0.records, rfl, fun r => ?_⟩
    rw [key r, hc]
    rfl

theorem C104_records_read (ext : Fin n → Bool) (p : Parser n) :
    (∃ new, (p.peek ext).2.records = p.records.then new ∧
      ∀ r, (p.withRecords r).peek ext = ((p.peek ext).1, (p.peek ext).2.withRecords (r.then new))) ∧
    ∃ new, (p.consume ext).2.records = p.records.then new ∧
      ∀ r, (p.withRecords r).consume ext = ((p.consume ext).1, (p.consume ext).2.withRecords (r.then new)) := by
  have k1 : ∀ r, (p.withRecords r).peek ext =
      (((p.withRecords .none).peek ext).1, ((p.withRecords .none).peek ext).2.under r) := fun r => by
    rw [← under_withRecords r p, peek_under]
  have k2 : ∀ r, (p.withRecords r).consume ext =
      (((p.withRecords .none).consume ext).1, ((p.withRecords .none).consume ext).2.under r) := fun r => by
    rw [← under_withRecords r p, consume_under]
  have e1 := k1 p.records
  have e2 := k2 p.records
  rw [withRecords_self] at e1 e2
  refine ⟨⟨((p.withRecords .none).peek ext).2.records, ?_, fun r => ?_⟩,
    ⟨((p.withRecords .none).consume ext).2.records, ?_, fun r => ?_⟩⟩
  · rw [e1]; rfl
  · rw [k1 r, e1]; rfl
  · rw [e2]; rfl
  · rw [k2 r, e2]; rfl

/-- Two parsers that stand before the same words, whatever their sources, what they parsed before, and what is in
their records: any type has the same result, with all spans corresponding, and the parsers add corresponding tokens
with the same semantic types and stand before the same words again. -/
theorem C104_produce (h : Standing ext p) (h' : Standing ext' p') (hw : p.coming ext = p'.coming ext')
    (S : Schema m n) (md : Metadata (PId m n) n) (fuel : Nat) (t : Ty m n) :
    SameRun (p.layout ext) (p'.layout ext') ext ext' p p' (SameRes (p.layout ext) (p'.layout ext'))
      (produce (Parser.ops ext) S md fuel t p) (produce (Parser.ops ext') S md fuel t p') := by
  have hT := h.twins h' hw
  have hr := produce_rel hT S md fuel t _ _ (Parser.alike_self h h' hw)
  rw [produce_view, produce_view] at hr
  cases hx : produce (Parser.ops ext) S md fuel t p with
  | fuel =>
    cases hy : produce (Parser.ops ext') S md fuel t p' with
    | fuel => exact .fuel
    | crash => rw [hx, hy] at hr; cases hr
    | ok _ _ => rw [hx, hy] at hr; cases hr
  | crash =>
    cases hy : produce (Parser.ops ext') S md fuel t p' with
    | fuel => rw [hx, hy] at hr; cases hr
    | crash => exact .crash
    | ok _ _ => rw [hx, hy] at hr; cases hr
  | ok r q =>
    cases hy : produce (Parser.ops ext') S md fuel t p' with
    | fuel => rw [hx, hy] at hr; cases hr
    | crash => rw [hx, hy] at hr; cases hr
    | ok r' q' =>
      rw [hx, hy] at hr
      cases hr with
      | ok hres hv =>
        obtain ⟨new, new', c1, c2, hc⟩ := hv.cells hT
        have hst := hv.standing hT
        refine .ok hres ⟨⟨new, new', c1, c2, hc⟩, ⟨[], [], ?_, ?_, .nil⟩, ?_, hst.1, hst.2⟩
        · rw [syntaxErrors_produce hx, List.append_nil]
        · rw [syntaxErrors_produce hy, List.append_nil]
        · have := hv.coming hT
          have s1 : q.info.source = p.info.source := hv.src
          have s2 : q'.info.source = p'.info.source := hv.src'
          unfold Parser.coming
          rw [s1, s2]
          exact this

/-- The same for `Parser::parse`. -/
theorem C104_parse (h : Standing ext p) (h' : Standing ext' p') (hw : p.coming ext = p'.coming ext')
    (S : Schema m n) (fuel : Nat) (t : Ty m n) :
    SameRun (p.layout ext) (p'.layout ext') ext ext' p p' (SameAnswer (p.layout ext) (p'.layout ext'))
      (p.parse ext S fuel t) (p'.parse ext' S fuel t) := by
  unfold Parser.parse
  cases hmd : S.metadata fuel t with
  | none => exact .fuel
  | some x =>
    cases x with
    | error e =>
      exact .ok (.error e) ⟨⟨[], [], by simp, by simp, .nil⟩, ⟨[], [], by simp, by simp, .nil⟩, hw, h, h'⟩
    | ok md =>
      have hr := C104_produce h h' hw S md fuel t
      dsimp only
      unfold Parser.parseWithMeta
      generalize hx : produce (Parser.ops ext) S md fuel t p = o at hr
      generalize hy : produce (Parser.ops ext') S md fuel t p' = o' at hr
      cases hr with
      | fuel => exact .fuel
      | crash => exact .crash
      | ok hres hs =>
        have k1 := produce_kinds hx
        have k2 := produce_kinds hy
        have e1 := syntaxErrors_produce hx
        have e2 := syntaxErrors_produce hy
        have st1 : ∀ {q : Parser n} {e : List (Err n)}, Standing ext q →
            Standing ext { q with info := { q.info with errors := e } } := fun s => ⟨s.sorted, s.inside⟩
        have st2 : ∀ {q : Parser n} {e : List (Err n)}, Standing ext' q →
            Standing ext' { q with info := { q.info with errors := e } } := fun s => ⟨s.sorted, s.inside⟩
        cases hres with
        | success ht => exact .ok (.some ht) hs
        | recovered ht he =>
          dsimp only [Res.errs] at k1 k2
          refine .ok (.some ht) ⟨hs.tokens, ⟨_, _, ?_, ?_, he⟩, hs.coming, st1 hs.standing, st2 hs.standing'⟩
          · rw [syntaxErrors_append, syntaxErrors_all k1, e1]
          · rw [syntaxErrors_append, syntaxErrors_all k2, e2]
        | panic he =>
          dsimp only [Res.errs] at k1 k2
          refine .ok .none ⟨hs.tokens, ⟨_, _, ?_, ?_, he⟩, hs.coming, st1 hs.standing, st2 hs.standing'⟩
          · rw [syntaxErrors_append, syntaxErrors_all k1, e1]
          · rw [syntaxErrors_append, syntaxErrors_all k2, e2]

/-- Which parsers stand: those used in any way, also after tokens were taken out of the store or their semantic types
were changed. -/
theorem C104_standing :
    (∀ {source : Str} {items : List (Item n)}, ItemsWF source items → Reached ext source items p → Standing ext p) ∧
    (Standing ext p → ∀ r, Standing ext (p.withRecords r)) ∧
    (Standing ext p → ∀ v : TokenVec n, (v.map (·.token)).Sublist (p.info.tokens.map (·.token)) →
      Standing ext (p.withTokens v)) := by
  refine ⟨fun hw h => h.standing hw, fun h _ => ⟨h.sorted, h.inside⟩, fun h v hv => ?_⟩
  have hs : (v.map (·.token) ++ (p.view ext).rest).Sublist (p.info.tokens.map (·.token) ++ (p.view ext).rest) :=
    hv.append_right _
  exact ⟨⟨fun t ht => h.sorted.1 t (hs.subset ht), h.sorted.2.sublist hs⟩, fun t ht => h.inside t (hs.subset ht)⟩

/-- If a program takes tokens out of the store of a parser between two parses, or changes their semantic types, then
the only positions that are different afterwards are those of things that are missing directly at the beginning: they
are where the last token in the store ends. -/
theorem C104_places (v : TokenVec n) {x x' : Nat}
    (h : SamePlace (p.layout ext) ((p.withTokens v).layout ext) x x') :
    x = x' ∨ (x = p.emptySpan.lo ∧ x' = (p.withTokens v).emptySpan.lo) := by
  cases h with
  | start => exact .inr ⟨rfl, rfl⟩
  | eof => exact .inl rfl
  | lo h1 h2 =>
    change (p.view ext).rest[_]? = _ at h1
    change (p.view ext).rest[_]? = _ at h2
    rw [h1] at h2; cases h2; exact .inl rfl
  | hi h1 h2 =>
    change (p.view ext).rest[_]? = _ at h1
    change (p.view ext).rest[_]? = _ at h2
    rw [h1] at h2; cases h2; exact .inl rfl

/-- In particular a parser that parsed something before gives what a new parser gives for the words that are left. -/
theorem C104_fresh {source source' : Str} {items items' : List (Item n)} (hi : ItemsWF source items)
    (hi' : ItemsWF source' items') (hp : Reached ext source items p)
    (hw : p.coming ext = inputWords ext' source' items') (S : Schema m n) (fuel : Nat) (t : Ty m n) :
    SameRun (p.layout ext) ⟨source', streamOf ext' items', []⟩ ext ext' p (Parser.new source' items')
      (SameAnswer (p.layout ext) ⟨source', streamOf ext' items', []⟩)
      (p.parse ext S fuel t) (rootParse ext' S fuel t source' items') :=
  C104_parse (p' := Parser.new source' items') (hp.standing hi) (Reached.standing hi' .new) hw S fuel t

end

/-! Example: `a 1 a` for `(Option<Num>, Word)` after `Word Num` was parsed. With an emptied store the missing number
is at 0, otherwise at 3 where the last token ends; nothing else is different. -/

def hiT : Ty 0 3 := .tup2 (.option exNum) exWord
def hiSource : Str := [97, 32, 49, 32, 97]
def hiItems : List (Item 3) := [.token ⟨⟨0, 1⟩, 0⟩, .token ⟨⟨2, 3⟩, 1⟩, .token ⟨⟨4, 5⟩, 0⟩]
def hiP : Parser 3 := (((Parser.new hiSource hiItems).consume noExt).2.consume noExt).2

theorem hiP_reached : Reached noExt hiSource hiItems hiP := .consume (.consume .new)

example : ItemsWF hiSource hiItems ∧ hiP.coming noExt = [⟨0, [97]⟩] := by
  unfold ItemsWF hiItems hiSource
  decide

example : ∃ q, hiP.parse noExt exS 30 hiT = .ok (.ok (some (.seq ⟨3, 5⟩ [.optNone ⟨3, 3⟩, .tok ⟨⟨4, 5⟩, 0⟩]))) q :=
  ⟨_, rfl⟩

theorem C104_drained_differs : ∃ q, (hiP.withTokens []).parse noExt exS 30 hiT =
    .ok (.ok (some (.seq ⟨0, 5⟩ [.optNone ⟨0, 0⟩, .tok ⟨⟨4, 5⟩, 0⟩]))) q := ⟨_, rfl⟩

/-- A new parser for the rest of the text. -/
example : hiP.coming noExt = inputWords noExt [97] [.token ⟨⟨0, 1⟩, 0⟩] := by decide

example : ∃ q, rootParse noExt exS 30 hiT [97] [.token ⟨⟨0, 1⟩, 0⟩] =
    .ok (.ok (some (.seq ⟨0, 1⟩ [.optNone ⟨0, 0⟩, .tok ⟨⟨0, 1⟩, 0⟩]))) q := ⟨_, rfl⟩

end Teleparse

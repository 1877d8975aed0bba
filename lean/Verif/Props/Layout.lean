import Verif.Proof.LayoutStep
import Verif.Proof.State
import Verif.Props.Completeness
/-
Property C74: what is between the tokens does not matter.
-/
namespace Teleparse
variable {m n : Nat}

theorem Twins.of_words {ext ext' : Fin n → Bool} {source source' : Str} {items items' : List (Item n)}
    (hw : ItemsWF source items) (hw' : ItemsWF source' items')
    (h : inputWords ext source items = inputWords ext' source' items') :
    Twins ⟨source, streamOf ext items, []⟩ ⟨source', streamOf ext' items', []⟩ :=
  ⟨hw.sorted, hw'.sorted, hw.inSource, hw'.inSource, h⟩

theorem Pointwise.map_eq {α β γ : Type} {R : α → β → Prop} {f : α → γ} {g : β → γ} (hR : ∀ a b, R a b → f a = g b)
    {l l'} (h : Pointwise R l l') : l.map f = l'.map g := by
  induction h with
  | nil => rfl
  | cons h _ ih => rw [List.map_cons, List.map_cons, hR _ _ h, ih]

theorem Pointwise.of_get {α β : Type} {R : α → β → Prop} : ∀ {l : List α} {l' : List β}, l.length = l'.length →
    (∀ (i : Nat) a b, l[i]? = some a → l'[i]? = some b → R a b) → Pointwise R l l'
  | [], [], _, _ => .nil
  | [], _ :: _, h, _ => by cases h
  | _ :: _, [], h, _ => by cases h
  | a :: l, b :: l', h, hR =>
    .cons (hR 0 a b rfl rfl) (.of_get (by simpa using h) fun i x y hx hy => hR (i + 1) x y (by simpa using hx) (by simpa using hy))

/-- Cells consumed since. -/
theorem Alike.cells {L L' : Layout n} (hT : Twins L L') {v v' : View n} (h : Alike L L' v v') :
    ∃ new new', v.cells = L.before ++ new ∧ v'.cells = L'.before ++ new' ∧ Pointwise (SameCell L L') new new' := by
  obtain ⟨new, new', c1, c2, t1, t2, hs⟩ := h.toks
  refine ⟨new, new', c1, c2, .of_get (by simpa using congrArg List.length hs) ?_⟩
  intro i c c' hc hc'
  have ht : L.tokens[i]? = some c.token := by
    have hlt := (List.getElem?_eq_some_iff.1 hc).1
    rw [← t1, List.getElem?_append_left (by simpa using hlt), List.getElem?_map, hc]; rfl
  have ht' : L'.tokens[i]? = some c'.token := by
    have hlt := (List.getElem?_eq_some_iff.1 hc').1
    rw [← t2, List.getElem?_append_left (by simpa using hlt), List.getElem?_map, hc']; rfl
  have hs : (new.map (·.semantic))[i]? = (new'.map (·.semantic))[i]? := by rw [hs]
  rw [List.getElem?_map, List.getElem?_map, hc, hc'] at hs
  exact ⟨⟨.lo ht ht', .hi ht ht'⟩, congrArg TokenSrc.ty (hT.at ht ht'), by simpa using hs⟩

section
variable {ext ext' : Fin n → Bool} {source source' : Str} {items items' : List (Item n)} {p p' : Parser n}

theorem SameParser.alike (hp : Reached ext source items p) (hp' : Reached ext' source' items' p')
    (h : SameParser ⟨source, streamOf ext items, []⟩ ⟨source', streamOf ext' items', []⟩ p p') :
    Alike ⟨source, streamOf ext items, []⟩ ⟨source', streamOf ext' items', []⟩ (p.view ext) (p'.view ext') :=
  ⟨hp.source, hp'.source, _, _, rfl, rfl, hp.total, hp'.total, h.tokens.map_eq fun _ _ h => h.semantic⟩

theorem syntaxErrors_append (a b : List (Err n)) : syntaxErrors (a ++ b) = syntaxErrors a ++ syntaxErrors b :=
  List.filter_append ..

theorem syntaxErrors_chars {a : List (Err n)} (h : ∀ e ∈ a, e.kind = .unexpectedCharacters) : syntaxErrors a = [] := by
  unfold syntaxErrors
  refine List.filter_eq_nil_iff.2 fun e he => ?_
  simp [h e he]

theorem syntaxErrors_all {a : List (Err n)} (h : ∀ e ∈ a, e.kind ≠ .unexpectedCharacters) : syntaxErrors a = a := by
  unfold syntaxErrors
  refine List.filter_eq_self.2 fun e he => ?_
  simp [h e he]

theorem syntaxErrors_produce {S : Schema m n} {md : Metadata (PId m n) n} {fuel : Nat} {t : Ty m n} {r : Res n (Tree n)}
    {q : Parser n} (h : produce (Parser.ops ext) S md fuel t p = .ok r q) :
    syntaxErrors q.info.errors = syntaxErrors p.info.errors := by
  obtain ⟨es, h1, h2⟩ := produce_grows h
  rw [h1, syntaxErrors_append, syntaxErrors_chars h2, List.append_nil]

end

/-! ## C74: parsing depends only on the tokens -/

/-- Two inputs, possibly for lexicons that extract different types, with the same words (types and texts of the
tokens that are not extracted): any type has the same result on parsers in corresponding states, with all spans
corresponding, and leaves them in corresponding states. -/
theorem C74_produce (ext ext' : Fin n → Bool) (source source' : Str) (items items' : List (Item n))
    (hw : ItemsWF source items) (hw' : ItemsWF source' items')
    (hwords : inputWords ext source items = inputWords ext' source' items') (p p' : Parser n)
    (hp : Reached ext source items p) (hp' : Reached ext' source' items' p')
    (hsame : SameParser ⟨source, streamOf ext items, []⟩ ⟨source', streamOf ext' items', []⟩ p p')
    (S : Schema m n) (md : Metadata (PId m n) n) (fuel : Nat) (t : Ty m n) :
    SameOut ⟨source, streamOf ext items, []⟩ ⟨source', streamOf ext' items', []⟩
      (SameRes ⟨source, streamOf ext items, []⟩ ⟨source', streamOf ext' items', []⟩)
      (produce (Parser.ops ext) S md fuel t p) (produce (Parser.ops ext') S md fuel t p') := by
  have hT := Twins.of_words hw hw' hwords
  have h := produce_rel hT S md fuel t _ _ (hsame.alike hp hp')
  rw [produce_view, produce_view] at h
  cases hx : produce (Parser.ops ext) S md fuel t p with
  | fuel =>
    cases hy : produce (Parser.ops ext') S md fuel t p' with
    | fuel => exact .fuel
    | crash => rw [hx, hy] at h; cases h
    | ok _ _ => rw [hx, hy] at h; cases h
  | crash =>
    cases hy : produce (Parser.ops ext') S md fuel t p' with
    | fuel => rw [hx, hy] at h; cases h
    | crash => exact .crash
    | ok _ _ => rw [hx, hy] at h; cases h
  | ok r q =>
    cases hy : produce (Parser.ops ext') S md fuel t p' with
    | fuel => rw [hx, hy] at h; cases h
    | crash => rw [hx, hy] at h; cases h
    | ok r' q' =>
      rw [hx, hy] at h
      cases h with
      | ok hr hv =>
        obtain ⟨new, new', c1, c2, hc⟩ := hv.cells hT
        refine .ok hr ⟨?_, ?_⟩
        · change q.info.tokens = [] ++ new at c1
          change q'.info.tokens = [] ++ new' at c2
          rw [c1, c2]
          exact hc
        rw [syntaxErrors_produce hx, syntaxErrors_produce hy]
        exact hsame.errors

/-- The same for `Parser::parse`: the same grammar error, or corresponding trees, the same syntax errors at
corresponding places, and the same semantic types of the tokens. -/
theorem C74_parse (ext ext' : Fin n → Bool) (source source' : Str) (items items' : List (Item n))
    (hw : ItemsWF source items) (hw' : ItemsWF source' items')
    (hwords : inputWords ext source items = inputWords ext' source' items') (p p' : Parser n)
    (hp : Reached ext source items p) (hp' : Reached ext' source' items' p')
    (hsame : SameParser ⟨source, streamOf ext items, []⟩ ⟨source', streamOf ext' items', []⟩ p p')
    (S : Schema m n) (fuel : Nat) (t : Ty m n) :
    SameOut ⟨source, streamOf ext items, []⟩ ⟨source', streamOf ext' items', []⟩
      (SameAnswer ⟨source, streamOf ext items, []⟩ ⟨source', streamOf ext' items', []⟩)
      (p.parse ext S fuel t) (p'.parse ext' S fuel t) := by
  unfold Parser.parse
  cases hmd : S.metadata fuel t with
  | none => exact .fuel
  | some x =>
    cases x with
    | error e => exact .ok (.error e) hsame
    | ok md =>
      have h := C74_produce ext ext' source source' items items' hw hw' hwords p p' hp hp' hsame S md fuel t
      dsimp only
      unfold Parser.parseWithMeta
      generalize hx : produce (Parser.ops ext) S md fuel t p = o at h
      generalize hy : produce (Parser.ops ext') S md fuel t p' = o' at h
      cases h with
      | fuel => exact .fuel
      | crash => exact .crash
      | ok hr hs =>
        have k1 := produce_kinds hx
        have k2 := produce_kinds hy
        cases hr with
        | success ht => exact .ok (.some ht) hs
        | recovered ht he =>
          dsimp only [Res.errs] at k1 k2
          refine .ok (.some ht) ⟨hs.tokens, ?_⟩
          show SameErrs _ _ (syntaxErrors (_ ++ _)) (syntaxErrors (_ ++ _))
          rw [syntaxErrors_append, syntaxErrors_append, syntaxErrors_all k1, syntaxErrors_all k2]
          exact hs.errors.append he
        | panic he =>
          dsimp only [Res.errs] at k1 k2
          refine .ok .none ⟨hs.tokens, ?_⟩
          show SameErrs _ _ (syntaxErrors (_ ++ _)) (syntaxErrors (_ ++ _))
          rw [syntaxErrors_append, syntaxErrors_append, syntaxErrors_all k1, syntaxErrors_all k2]
          exact hs.errors.append he

/-- In particular for `Root::parse`. -/
theorem C74_root (ext ext' : Fin n → Bool) (source source' : Str) (items items' : List (Item n))
    (hw : ItemsWF source items) (hw' : ItemsWF source' items')
    (hwords : inputWords ext source items = inputWords ext' source' items') (S : Schema m n) (fuel : Nat) (t : Ty m n) :
    SameOut ⟨source, streamOf ext items, []⟩ ⟨source', streamOf ext' items', []⟩
      (SameAnswer ⟨source, streamOf ext items, []⟩ ⟨source', streamOf ext' items', []⟩)
      (rootParse ext S fuel t source items) (rootParse ext' S fuel t source' items') :=
  C74_parse ext ext' source source' items items' hw hw' hwords _ _ .new .new ⟨.nil, .nil⟩ S fuel t

/-- Example: `a 1` and ` a # 1`, where `#` is extracted by the second lexicon, have the same words, and the text of
a `Quote` of both tokens is the only thing that differs. -/
def lyT : Ty 0 3 := .quote (.tup2 exWord exNum)
def lySource : Str := [97, 32, 49]
def lyItems : List (Item 3) := [.token ⟨⟨0, 1⟩, 0⟩, .token ⟨⟨2, 3⟩, 1⟩]
def lySource' : Str := [32, 97, 32, 35, 32, 49]
def lyItems' : List (Item 3) := [.token ⟨⟨1, 2⟩, 0⟩, .token ⟨⟨3, 4⟩, 2⟩, .token ⟨⟨5, 6⟩, 1⟩]
def lyExt : Fin 3 → Bool := fun t => t == 2

example : ItemsWF lySource lyItems ∧ ItemsWF lySource' lyItems' ∧
    inputWords noExt lySource lyItems = inputWords lyExt lySource' lyItems' := by
  unfold ItemsWF lyItems lySource lyItems' lySource'
  decide

example : ∃ p p', rootParse noExt exS 30 lyT lySource lyItems = .ok (.ok (some (.text ⟨0, 3⟩ [97, 32, 49]))) p ∧
    rootParse lyExt exS 30 lyT lySource' lyItems' = .ok (.ok (some (.text ⟨1, 6⟩ [97, 32, 35, 32, 49]))) p' :=
  ⟨_, _, rfl, rfl⟩

end Teleparse

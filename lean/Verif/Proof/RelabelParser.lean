import Verif.Proof.Relabel
/-
The parser does the same on the same tokens with other numbers.
-/
set_option linter.unusedSectionVars false
namespace Teleparse
open Relab
variable {n n' : Nat} {ρ : Fin n → Fin n'}

/-! ### Semantic types -/

theorem LSet.contains_new (t : Fin n) : (LSet.new : LSet n).contains t = false := by
  simp [LSet.new, LSet.contains]

theorem LSet.contains_union (a b : LSet n) (t : Fin n) : (a.union b).contains t = (a.contains t || b.contains t) := by
  simp only [LSet.union, LSet.contains]
  have e : (a.bits ||| b.bits) &&& toBit t = (a.bits &&& toBit t) ||| (b.bits &&& toBit t) := BitVec.and_or_distrib_right
  rw [e]
  generalize a.bits &&& toBit t = x
  generalize b.bits &&& toBit t = y
  apply Bool.eq_iff_iff.2
  simp only [bne_iff_ne, ne_eq, Bool.or_eq_true]
  constructor
  · intro h
    by_cases hx : x = 0
    · right
      intro hy
      subst hx hy
      exact h (by simp)
    · exact .inl hx
  · intro h hz
    have hx : x = 0 := by
      apply BitVec.eq_of_getLsbD_eq
      intro i hi
      have := congrArg (fun z => z.getLsbD i) hz
      simp at this
      simp [this.1]
    have hy : y = 0 := by
      apply BitVec.eq_of_getLsbD_eq
      intro i hi
      have := congrArg (fun z => z.getLsbD i) hz
      simp at this
      simp [this.2]
    rcases h with h | h
    · exact h hx
    · exact h hy

theorem SemAs.new : SemAs ρ (LSet.new : LSet n) (LSet.new : LSet n') where
  same t := by rw [LSet.contains_new, LSet.contains_new]
  only t' h := by rw [LSet.contains_new] at h; cases h

theorem SemAs.union {a b : LSet n} {a' b' : LSet n'} (ha : SemAs ρ a a') (hb : SemAs ρ b b') :
    SemAs ρ (a.union b) (a'.union b') where
  same t := by rw [LSet.contains_union, LSet.contains_union, ha.same, hb.same]
  only t' h := by
    rw [LSet.contains_union, Bool.or_eq_true] at h
    exact h.elim (ha.only t') (hb.only t')

/-! ### The token store -/

theorem pw_length {α β : Type} {R : α → β → Prop} {l : List α} {l' : List β} (h : Pointwise R l l') : l'.length = l.length := by
  induction h with
  | nil => rfl
  | cons _ _ ih => simp [ih]

theorem pw_take {α β : Type} {R : α → β → Prop} {l : List α} {l' : List β} (h : Pointwise R l l') (k : Nat) :
    Pointwise R (l.take k) (l'.take k) := by
  induction h generalizing k with
  | nil => simp; exact .nil
  | cons h _ ih =>
    cases k with
    | zero => exact .nil
    | succ k => exact .cons h (ih k)

theorem pw_drop {α β : Type} {R : α → β → Prop} {l : List α} {l' : List β} (h : Pointwise R l l') (k : Nat) :
    Pointwise R (l.drop k) (l'.drop k) := by
  induction h generalizing k with
  | nil => simp; exact .nil
  | cons h hl ih =>
    cases k with
    | zero => exact .cons h hl
    | succ k => exact ih k

theorem pw_at {α β : Type} {R : α → β → Prop} {l : List α} {l' : List β} (h : Pointwise R l l') (k : Nat) :
    OptRel R l[k]? l'[k]? := by
  induction h generalizing k with
  | nil => exact .none
  | cons h _ ih =>
    cases k with
    | zero => exact .some h
    | succ k => simpa using ih k

abbrev CellsAs (ρ : Fin n → Fin n') (v : TokenVec n) (v' : TokenVec n') : Prop := Pointwise (CellAs ρ) v v'

theorem CellsAs.lo {v : TokenVec n} {v' : TokenVec n'} (h : CellsAs ρ v v') (i : Nat) : v'.loAt i = v.loAt i := by
  unfold TokenVec.loAt
  have := pw_at h i
  generalize v[i]? = a at this
  generalize v'[i]? = b at this
  cases this with
  | none => rfl
  | some h => simp [h.token, Token.retok]

theorem CellsAs.hi {v : TokenVec n} {v' : TokenVec n'} (h : CellsAs ρ v v') (i : Nat) : v'.hiAt i = v.hiAt i := by
  unfold TokenVec.hiAt
  have := pw_at h i
  generalize v[i]? = a at this
  generalize v'[i]? = b at this
  cases this with
  | none => rfl
  | some h => simp [h.token, Token.retok]

theorem CellsAs.bounds {v : TokenVec n} {v' : TokenVec n'} (h : CellsAs ρ v v') (sp : Span) :
    v'.insideBounds sp = v.insideBounds sp := by
  have e1 : v'.searchLo sp.lo = v.searchLo sp.lo := by
    unfold TokenVec.searchLo
    rw [pw_length h]
    congr 1
    funext i
    rw [CellsAs.lo h]
  have e2 : v'.searchHi sp.hi = v.searchHi sp.hi := by
    unfold TokenVec.searchHi
    rw [pw_length h]
    congr 1
    funext i
    rw [CellsAs.hi h]
  unfold TokenVec.insideBounds
  rw [e1, e2]

theorem CellsAs.applyAll {v : TokenVec n} {v' : TokenVec n'} (h : CellsAs ρ v v') {a : LSet n} {a' : LSet n'}
    (ha : SemAs ρ a a') : CellsAs ρ (TokenVec.applySemantic v a) (TokenVec.applySemantic v' a') := by
  unfold TokenVec.applySemantic
  induction h with
  | nil => exact .nil
  | cons h _ ih => exact .cons ⟨h.token, h.semantic.union ha⟩ ih

theorem CellsAs.apply {v : TokenVec n} {v' : TokenVec n'} (h : CellsAs ρ v v') (sp : Span) {a : LSet n} {a' : LSet n'}
    (ha : SemAs ρ a a') : CellsAs ρ (v.applySemanticInside sp a) (v'.applySemanticInside sp a') := by
  unfold TokenVec.applySemanticInside
  rw [h.bounds]
  cases v.insideBounds sp with
  | none => exact h
  | some b => exact pw_append (pw_append (pw_take h _) (CellsAs.applyAll (pw_take (pw_drop h _) _) ha)) (pw_drop h _)

/-! ### Reading -/

theorem nextLoop_retok : ∀ (l : List (Item n)) (last : Span) (has : Bool) (a b : Nat),
    Lexer.nextLoop (l.map (Item.retok ρ)) last has a b =
      (((Lexer.nextLoop l last has a b).1.1, (Lexer.nextLoop l last has a b).1.2.map (Token.retok ρ)),
        ⟨(Lexer.nextLoop l last has a b).2.items.map (Item.retok ρ), (Lexer.nextLoop l last has a b).2.last⟩)
  | [], _, _, _, _ => rfl
  | .token t :: l, _, _, _, _ => rfl
  | .error sp :: l, _, has, a, _ => nextLoop_retok l sp true (if has then a else sp.lo) sp.hi

variable {ext : Fin n → Bool} {ext' : Fin n' → Bool}

theorem readLoop_retok (hext : ∀ t, ext' (ρ t) = ext t) : ∀ (fuel : Nat) {p : Parser n} {p' : Parser n'},
    ParserAs ρ p p' → ParserAs ρ (Parser.readLoop ext fuel p) (Parser.readLoop ext' fuel p') := by
  intro fuel
  induction fuel with
  | zero => intro p p' h; exact h
  | succ fuel ih =>
    intro p p' h
    unfold Parser.readLoop
    have hn : p'.lexer.next = ((p.lexer.next.1.1, p.lexer.next.1.2.map (Token.retok ρ)),
        ⟨p.lexer.next.2.items.map (Item.retok ρ), p.lexer.next.2.last⟩) := by
      unfold Lexer.next
      rw [h.items, h.last]
      exact nextLoop_retok _ _ _ _ _
    rw [hn]
    generalize p.lexer.next = x
    obtain ⟨⟨inv, tok⟩, lx⟩ := x
    dsimp only
    have he : Pointwise (ErrAs ρ) (Parser.noteInvalid p.info inv).errors (Parser.noteInvalid p'.info inv).errors := by
      rw [noteInvalid_errors, noteInvalid_errors]
      refine pw_append h.errors ?_
      cases inv with
      | none => exact .nil
      | some sp => exact pw_one .unexpectedCharacters
    have hi : (Parser.noteInvalid p'.info inv).invalidSource = (Parser.noteInvalid p.info inv).invalidSource := by
      rw [noteInvalid_invalid, noteInvalid_invalid, h.invalidSource]
    obtain ⟨a1, a3, a4, a2⟩ := noteInvalid_rest p.info inv
    obtain ⟨b1, b3, b4, b2⟩ := noteInvalid_rest p'.info inv
    generalize Parser.noteInvalid p.info inv = i at *
    generalize Parser.noteInvalid p'.info inv = i' at *
    have s1 : i'.source = i.source := by rw [a1, b1, h.source]
    have s2 : i'.invalidTokens = i.invalidTokens.map (Token.retok ρ) := by rw [a2, b2, h.invalidTokens]
    have s3 : Pointwise (CellAs ρ) i.tokens i'.tokens := by rw [a3, b3]; exact h.tokens
    have s4 : i'.extracted = i.extracted.map (Token.retok ρ) := by rw [a4, b4, h.extracted]
    cases tok with
    | none => exact ⟨s1, hi, s2, s3, s4, he, rfl, rfl, h.peeked⟩
    | some t =>
      dsimp only [Option.map]
      have : ext' (t.retok ρ).ty = ext t.ty := hext t.ty
      rw [this]
      split
      · refine ih ⟨s1, hi, s2, s3, ?_, he, rfl, rfl, h.peeked⟩
        dsimp only
        rw [s4, List.map_append]
        rfl
      · exact ⟨s1, hi, s2, s3, s4, he, rfl, rfl, rfl⟩

theorem fill_retok (hext : ∀ t, ext' (ρ t) = ext t) {p : Parser n} {p' : Parser n'} (h : ParserAs ρ p p') :
    ParserAs ρ (p.fill ext) (p'.fill ext') := by
  unfold Parser.fill
  have := h.peeked
  cases hp : p.peeked with
  | some t =>
    rw [hp] at this
    rw [this]
    exact h
  | none =>
    rw [hp] at this
    rw [this]
    dsimp only [Option.map]
    unfold Parser.tryRead
    rw [h.items, List.length_map]
    exact readLoop_retok hext _ h

theorem parser_prims (hi : ∀ a b, ρ a = ρ b → a = b) (hext : ∀ t, ext' (ρ t) = ext t) :
    Prims ρ (Parser.ops ext) (Parser.ops ext') (ParserAs ρ) where
  inj := hi
  peek s s' h := ⟨(fill_retok hext h).peeked, fill_retok hext h⟩
  consume s s' h := by
    have hf := fill_retok hext h
    show ParserAs ρ (Parser.consume ext s).2 (Parser.consume ext' s').2
    unfold Parser.consume
    generalize s.fill ext = p at hf
    generalize s'.fill ext' = p' at hf
    have := hf.peeked
    cases hp : p.peeked with
    | none =>
      rw [hp] at this
      simp only [this, hp, Option.map]
      exact hf
    | some t =>
      rw [hp] at this
      simp only [this, hp, Option.map]
      exact ⟨hf.source, hf.invalidSource, hf.invalidTokens, pw_append hf.tokens (pw_one ⟨rfl, .new⟩), hf.extracted, hf.errors,
        hf.items, hf.last, rfl⟩
  source s s' h := h.source
  emptySpan s s' h := by
    show s'.emptySpan = s.emptySpan
    unfold Parser.emptySpan
    have := pw_last h.tokens
    generalize s.info.tokens.getLast? = a at this
    generalize s'.info.tokens.getLast? = b at this
    cases this with
    | none => rfl
    | some h => simp [h.token, Token.retok]
  apply s s' sp a a' h ha := ⟨h.source, h.invalidSource, h.invalidTokens, CellsAs.apply h.tokens sp ha, h.extracted, h.errors,
    h.items, h.last, h.peeked⟩

/-! ### Parsing -/

variable {m m' : Nat} {S : Schema m n} {S' : Schema m' n'} {r : Relabel m n m' n'} {root : Ty m n}

theorem ParserAs.errs {p : Parser n} {p' : Parser n'} (h : ParserAs ρ p p') {e : List (Err n)} {e' : List (Err n')}
    (he : Pointwise (ErrAs ρ) e e') : ParserAs ρ { p with info := { p.info with errors := p.info.errors ++ e } }
      { p' with info := { p'.info with errors := p'.info.errors ++ e' } } :=
  ⟨h.source, h.invalidSource, h.invalidTokens, h.tokens, h.extracted, pw_append h.errors he, h.items, h.last, h.peeked⟩

theorem parseWithMeta_relabel (h : Relabelled S S' r) {ext : Fin n → Bool} {ext' : Fin n' → Bool}
    (hext : ∀ t, ext' (r.tok t) = ext t) {fuel₁ fuel₂ : Nat}
    {md : Metadata (PId m n) n} {md' : Metadata (PId m' n') n'} (h1 : S.metadata fuel₁ root = some (.ok md))
    (h2 : S'.metadata fuel₂ (root.relabel r) = some (.ok md')) (fuel : Nat) {p : Parser n} {p' : Parser n'}
    (hp : ParserAs r.tok p p') :
    Relab.OutRel (ParserAs r.tok) (fun x y => y = x.map (Tree.relabel S r root)) (p.parseWithMeta ext S md fuel root)
      (p'.parseWithMeta ext' S' md' fuel (root.relabel r)) := by
  have := produce_relabel (parser_prims h.toks hext) h h1 h2 fuel root .refl p p' hp
  unfold Parser.parseWithMeta
  generalize produce (Parser.ops ext) S md fuel root p = a at this
  generalize produce (Parser.ops ext') S' md' fuel (root.relabel r) p' = b at this
  cases this with
  | fuel => exact .fuel
  | crash => exact .crash
  | ok hr hs =>
    cases hr with
    | success ht => exact .ok (by rw [show _ = _ from ht]; rfl) hs
    | recovered ht he => exact .ok (by rw [show _ = _ from ht]; rfl) (hs.errs he)
    | panic he => exact .ok rfl (hs.errs he)

end Teleparse

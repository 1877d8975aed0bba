import Verif.Spec.FirstError
import Verif.Spec.Steps
import Verif.Proof.Parser
/-
Helper lemmas for C126: an input for every sentence that begins with given tokens.
-/
namespace Teleparse
variable {I : Type} {n : Nat}

/-! ### Sentences of words that can be written down -/

open Classical in
/-- The word itself if it is the text of a token, otherwise a word of the same type. -/
noncomputable def TokenSrc.norm (w : TokenSrc n) : TokenSrc n := if TokenText w.src then w else ⟨w.ty, [97]⟩

theorem TokenSrc.norm_ty (w : TokenSrc n) : w.norm.ty = w.ty := by
  unfold TokenSrc.norm; split <;> rfl

theorem TokenSrc.norm_text (w : TokenSrc n) : TokenText w.norm.src := by
  unfold TokenSrc.norm
  split
  · assumption
  · exact ⟨97, [], rfl, .inl (by decide)⟩

theorem TokenSrc.norm_eq {w : TokenSrc n} (h : TokenText w.src) : w.norm = w := by
  unfold TokenSrc.norm; rw [if_pos h]

noncomputable def Sym.norm : Sym I n → Sym I n
  | .nt i => .nt i
  | .tok t => .tok t.norm

theorem norm_toks (w : List (TokenSrc n)) :
    (w.map (Sym.tok (I := I))).map Sym.norm = (w.map TokenSrc.norm).map .tok := by
  rw [List.map_map, List.map_map]; rfl

variable {G : Grammar I n} {ext : Fin n → Bool}

theorem Expands.norm (hs : Spellable ext G) {i : I} {γ : List (Sym I n)} (h : Expands G i γ) :
    Expands G i (γ.map Sym.norm) := by
  cases h with
  | eps h => exact .eps h
  | @term k tok h hm =>
    refine .term h ⟨(TokenSrc.norm_ty _).trans hm.1, fun l hl => ?_⟩
    have e := hm.2 l hl
    rw [TokenSrc.norm_eq (by rw [e]; exact (hs _ _ h).2 l hl)]
    exact e
  | @seq l h =>
    rw [List.map_map]
    exact .seq h
  | alt h hj => exact .alt h hj

theorem Derives.norm (hs : Spellable ext G) {α β : List (Sym I n)} (h : Derives G α β) :
    Derives G (α.map Sym.norm) (β.map Sym.norm) := by
  induction h with
  | refl => exact .refl _
  | step he _ ih =>
    rw [List.map_append, List.map_cons]
    simp only [List.map_append] at ih
    exact .step (he.norm hs) ih

theorem Derives.kept (hs : Spellable ext G) {α β : List (Sym I n)} (h : Derives G α β)
    (ha : ∀ w, Sym.tok w ∈ α → ext w.ty = false) : ∀ w, Sym.tok w ∈ β → ext w.ty = false := by
  induction h with
  | refl => exact ha
  | step he _ ih =>
    refine ih fun w hw => ?_
    simp only [List.mem_append] at hw
    rcases hw with (hw | hw) | hw
    · exact ha w (by simp [hw])
    · cases he with
      | eps => cases hw
      | term h hm =>
        simp only [List.mem_singleton, Sym.tok.injEq] at hw
        subst hw
        rw [hm.1]
        exact (hs _ _ h).1
      | seq h => simp at hw
      | alt h hj => simp at hw
    · exact ha w (by simp [hw])

/-- `Spellable`, computed. -/
def spellOk (ext : Fin n → Bool) : Rule I n → Bool
  | .term k => !ext k.ty && (match k.lit with
    | none => true
    | some [] => false
    | some (b :: _) => decide (b < 128 ∨ 192 ≤ b))
  | _ => true

theorem spellable_of_check (h : G.all (fun x => spellOk ext x.2) = true) : Spellable ext G := by
  intro i k hk
  have h := List.all_eq_true.1 h _ hk
  simp only [spellOk, Bool.and_eq_true, Bool.not_eq_true'] at h
  refine ⟨h.1, fun l hl => ?_⟩
  rw [hl] at h
  match l, h.2 with
  | b :: l, h => exact ⟨b, l, rfl, of_decide_eq_true h⟩

/-- A beginning that is made of texts of tokens has a continuation that is. -/
theorem Begins.spelled (hs : Spellable ext G) {i : I} {w : List (TokenSrc n)} (hw : ∀ a ∈ w, TokenText a.src)
    (h : Begins G i w) : ∃ ws, Derives G [.nt i] ((w ++ ws).map .tok) ∧
      ∀ a ∈ ws, TokenText a.src ∧ ext a.ty = false := by
  obtain ⟨ws, h⟩ := h
  have h1 := h.norm hs
  rw [norm_toks, List.map_append, List.map_congr_left (fun a ha => TokenSrc.norm_eq (hw a ha)), List.map_id'] at h1
  refine ⟨_, h1, fun a ha => ⟨?_, ?_⟩⟩
  · obtain ⟨b, -, rfl⟩ := List.mem_map.1 ha
    exact b.norm_text
  · refine h1.kept hs (by simp [Sym.norm]) a ?_
    simp only [List.map_append, List.mem_append]
    exact .inr (List.mem_map.2 ⟨a, ha, rfl⟩)

/-! ### Writing the words one after the other -/

/-- The words from `pos` on, without anything in between. -/
def layFrom (pos : Nat) : List (TokenSrc n) → List (Item n)
  | [] => []
  | w :: ws => .token ⟨⟨pos, pos + w.src.length⟩, w.ty⟩ :: layFrom (pos + w.src.length) ws

def textsOf (ws : List (TokenSrc n)) : Str := (ws.map (·.src)).flatten

theorem joins_texts {ws : List (TokenSrc n)} (h : ∀ a ∈ ws, TokenText a.src) : Joins (textsOf ws) := by
  cases ws with
  | nil => exact .inl rfl
  | cons w ws =>
    obtain ⟨b, l, e, hb⟩ := h w (by simp)
    exact .inr ⟨b, l ++ textsOf ws, by simp [textsOf, e], hb⟩

theorem boundary_join {c q : Str} (h : Joins q) : isBoundary (c ++ q) c.length = true := by
  unfold isBoundary
  split
  · rfl
  split
  · rfl
  rcases h with rfl | ⟨b, l, rfl, hb⟩
  · simp at *
  · simp [hb]

theorem boundary_swap {c q q' : Str} (h : Joins q') {y : Nat} (hy : y ≤ c.length)
    (hb : isBoundary (c ++ q) y = true) : isBoundary (c ++ q') y = true := by
  by_cases e : y = c.length
  · subst e; exact boundary_join h
  have hy : y < c.length := by omega
  unfold isBoundary at hb ⊢
  split
  · rfl
  rename_i h0
  rw [if_neg h0] at hb
  split
  · rfl
  rw [if_neg (by rw [List.length_append]; omega)] at hb
  rw [List.getElem?_append_left hy] at hb ⊢
  exact hb

theorem layFrom_wf {ws : List (TokenSrc n)} (h : ∀ a ∈ ws, TokenText a.src) : ∀ (c : Str) (pos : Nat),
    pos = c.length → ItemsWF (c ++ textsOf ws) (layFrom pos ws) ∧ ∀ i ∈ layFrom pos ws, pos ≤ i.span.lo := by
  induction ws with
  | nil => intro c pos _; exact ⟨⟨by simp [layFrom], .nil⟩, by simp [layFrom]⟩
  | cons w ws ih =>
    intro c pos hp
    obtain ⟨⟨h1, h2⟩, h3⟩ := ih (fun a ha => h a (List.mem_cons_of_mem _ ha)) (c ++ w.src) (pos + w.src.length)
      (by rw [List.length_append, hp])
    have e : c ++ textsOf (w :: ws) = c ++ w.src ++ textsOf ws := by simp [textsOf]
    have hlen : 0 < w.src.length := by
      obtain ⟨b, l, e, -⟩ := h w (by simp)
      rw [e]; simp
    refine ⟨⟨?_, ?_⟩, ?_⟩
    · intro i hi
      rcases List.mem_cons.1 hi with rfl | hi
      · refine ⟨?_, ?_, ?_, ?_⟩
        · show pos < pos + w.src.length
          omega
        · show pos + w.src.length ≤ _
          rw [e]; simp [hp]
        · show isBoundary _ pos = true
          rw [hp]; exact boundary_join (joins_texts h)
        · show isBoundary _ (pos + w.src.length) = true
          rw [e, hp, ← List.length_append]
          exact boundary_join (joins_texts fun a ha => h a (List.mem_cons_of_mem _ ha))
      · rw [e]; exact h1 i hi
    · exact List.pairwise_cons.2 ⟨fun i hi => h3 i hi, h2⟩
    · intro i hi
      rcases List.mem_cons.1 hi with rfl | hi
      · exact Nat.le_refl _
      · have := h3 i hi; omega

theorem textOf_common (c q q' : Str) {sp : Span} (h : sp.hi ≤ c.length) :
    textOf (c ++ q) sp = textOf (c ++ q') sp := by
  unfold textOf
  by_cases hl : sp.lo ≤ c.length
  · rw [List.drop_append_of_le_length hl, List.drop_append_of_le_length hl,
      List.take_append_of_le_length (by rw [List.length_drop]; omega),
      List.take_append_of_le_length (by rw [List.length_drop]; omega)]
  · rw [show sp.hi - sp.lo = 0 by omega, List.take_zero, List.take_zero]

theorem layFrom_words {ws : List (TokenSrc n)} (h : ∀ a ∈ ws, ext a.ty = false) : ∀ (c : Str) (pos : Nat),
    pos = c.length → (streamOf ext (layFrom pos ws)).map (·.word (c ++ textsOf ws)) = ws := by
  induction ws with
  | nil => intro c pos _; rfl
  | cons w ws ih =>
    intro c pos hp
    have e : c ++ textsOf (w :: ws) = c ++ w.src ++ textsOf ws := by simp [textsOf]
    have h2 := ih (fun a ha => h a (List.mem_cons_of_mem _ ha)) (c ++ w.src) (pos + w.src.length)
      (by rw [List.length_append, hp])
    rw [← e] at h2
    have hs : streamOf ext (layFrom pos (w :: ws)) =
        ⟨⟨pos, pos + w.src.length⟩, w.ty⟩ :: streamOf ext (layFrom (pos + w.src.length) ws) := by
      simp only [streamOf, layFrom, tokensOf]
      rw [List.filter_cons_of_pos (by simp [h w (by simp)])]
    rw [hs, List.map_cons, h2]
    congr 1
    unfold Token.word textOf
    simp only
    rw [e, hp, List.append_assoc, List.drop_left, Nat.add_sub_cancel_left, List.take_left]

theorem mem_of_streamOf {items : List (Item n)} {t : Token n} (h : t ∈ streamOf ext items) : Item.token t ∈ items := by
  replace h : t ∈ tokensOf items := (List.mem_filter.1 h).1
  induction items with
  | nil => cases h
  | cons i items ih =>
    cases i with
    | error sp => exact List.mem_cons_of_mem _ (ih h)
    | token b =>
      rcases List.mem_cons.1 h with rfl | h
      · exact List.mem_cons_self
      · exact List.mem_cons_of_mem _ (ih h)

/-- The outcomes up to a token of the stream. -/
theorem split_stream {items : List (Item n)} {ts rest : List (Token n)} {a : Token n}
    (h : streamOf ext items = ts ++ a :: rest) : ∃ pre post, items = pre ++ .token a :: post ∧
      streamOf ext (pre ++ [.token a]) = ts ++ [a] ∧ streamOf ext post = rest := by
  induction items generalizing ts with
  | nil => cases ts <;> cases h
  | cons i items ih =>
    have key : ∀ hi : streamOf ext [i] = [], ∃ pre post, i :: items = pre ++ .token a :: post ∧
        streamOf ext (pre ++ [.token a]) = ts ++ [a] ∧ streamOf ext post = rest := by
      intro hi
      have h' : streamOf ext ([i] ++ items) = ts ++ a :: rest := h
      rw [streamOf_append, hi, List.nil_append] at h'
      obtain ⟨pre, post, rfl, h2, h3⟩ := ih h'
      refine ⟨i :: pre, post, rfl, ?_, h3⟩
      show streamOf ext ([i] ++ (pre ++ [.token a])) = _
      rw [streamOf_append, hi, h2]; rfl
    cases i with
    | error sp => exact key rfl
    | token b =>
      cases hb : ext b.ty with
      | true => exact key (by simp [streamOf, tokensOf, hb])
      | false =>
        have hi : streamOf ext [.token b] = [b] := by simp [streamOf, tokensOf, hb]
        have h' : streamOf ext ([.token b] ++ items) = ts ++ a :: rest := h
        rw [streamOf_append, hi] at h'
        cases ts with
        | nil =>
          simp only [List.nil_append, List.cons_append, List.cons.injEq] at h'
          obtain ⟨rfl, h'⟩ := h'
          exact ⟨[], items, rfl, hi, h'⟩
        | cons t ts =>
          simp only [List.nil_append, List.cons_append, List.cons.injEq] at h'
          obtain ⟨rfl, h'⟩ := h'
          obtain ⟨pre, post, rfl, h2, h3⟩ := ih h'
          refine ⟨.token b :: pre, post, rfl, ?_, h3⟩
          show streamOf ext ([.token b] ++ (pre ++ [.token a])) = _
          rw [streamOf_append, hi, h2]; rfl

theorem word_text {source : Str} (hj : Joins source) {sp : Span} (h1 : sp.lo < sp.hi) (h2 : sp.hi ≤ source.length)
    (h3 : isBoundary source sp.lo = true) : TokenText (textOf source sp) := by
  have hlt : sp.lo < source.length := by omega
  have hb : source[sp.lo] < 128 ∨ 192 ≤ source[sp.lo] := by
    by_cases h0 : sp.lo = 0
    · rcases hj with rfl | ⟨b, l, rfl, hb⟩
      · cases hlt
      · simpa [h0] using hb
    · unfold isBoundary at h3
      rw [if_neg h0, if_neg (by omega), List.getElem?_eq_getElem hlt] at h3
      simpa using h3
  refine ⟨source[sp.lo], (source.drop (sp.lo + 1)).take (sp.hi - sp.lo - 1), ?_, hb⟩
  unfold textOf
  obtain ⟨k, hk⟩ : ∃ k, sp.hi - sp.lo = k + 1 := ⟨sp.hi - sp.lo - 1, by omega⟩
  rw [List.drop_eq_getElem_cons hlt, hk, List.take_succ_cons, Nat.add_sub_cancel]

end Teleparse

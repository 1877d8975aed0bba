import Verif.Proof.Value
/-
Properties of the examples of the book: C101.
-/
namespace Teleparse.Book
open Macro Syn Prog

variable {V : Type} {A : Alg V} {E : Engine} {G : Logos} {L : Lexicon}

/-! ## C101 -/

/-- An expression has one value, whatever words, sums and products mean. So the conventional reading, with products
before sums and both from left to right, is unambiguous. -/
theorem C101_unique {w : List Tok} {v v' : V} (h : Value A .sum w v) (h' : Value A .sum w v') : v = v' :=
  (one_sum w.length w w v v' [] [] (Nat.le_refl _) h h' rfl ⟨nofun, nofun⟩ ⟨nofun, nofun⟩).2

/-- The expressions are what has a value. -/
theorem C101_defined (A : Alg V) {w : List Tok} : Expr w ↔ ∃ v, Value A .sum w v := by
  refine ⟨fun h => sep_value (h.sep (F := fun w => ∃ v, Value A .factor w v) (fun s => ⟨_, .word s⟩) ?_),
    fun ⟨_, h⟩ => h.expr⟩
  intro w hw
  obtain ⟨v, hv⟩ := sep_value hw
  exact ⟨v, .paren hv⟩

/-- The value of the tree that `E::parse` of the first example returns is the value of the text. -/
theorem C101_recur (hG : G.Agrees E) (h : Macro.expand E decl = .ok L) (hcl : decl.Clear G) {c : Fin 7 → Code 7 3}
    (hc : ∀ k, recur.code L k = some (c k)) {source : Str} (hu : Utf8 source) {toks : List (Nat × Str)}
    (hs : decl.Splits G source toks) {items : List (Item 3)} (hscan : L.Scan G source 0 items) (v : V) :
    (∃ x p' N, (∀ fuel' ≥ N, rootParseOf L.shouldExtract c fuel' (.user 0) source items = .ok (.ok (some x)) p') ∧
      p'.info.errors = [] ∧ (p'.view L.shouldExtract).rest = [] ∧ recurE A source x = some v) ↔
    Value A .sum (Decl.words vars toks) v := by
  have hw : ItemsWF source items := C81_wf hG h decl_texts hu hscan
  obtain ⟨S, -, h1, -, h2⟩ := C92_program (P := recur) (vs := vars) h rfl recur_distinct hc
  cases h1 recurS recur_declares
  have words := C83_words_partial hG h rfl decl_texts recur_distinct.variants vars_blank hcl hs hscan
  have val : ∀ x p' N, (∀ fuel' ≥ N, rootParseOf L.shouldExtract c fuel' (.user 0) source items = .ok (.ok (some x)) p') →
      p'.info.errors = [] → (p'.view L.shouldExtract).rest = [] →
      ∃ v, recurE A source x = some v ∧ Value A .sum (Decl.words vars toks) v := by
    intro x p' N k1 k2 k3
    obtain ⟨k, g1, g2⟩ := (C98_exact L.shouldExtract recurS 60 (.user 0) recur_plain source items hw x).1
      ⟨p', N, fun f hf => ((h2 L.shouldExtract f (.user (0 : Fin 7)) source items).symm.trans (k1 f hf)),
        by rw [k2]; rfl, k3⟩
    obtain ⟨v, hv, hval⟩ := recur_value (A := A) _ x (Nat.lt_succ_self _) 0 k g1
    refine ⟨v, hv, ?_⟩
    rw [← words]
    have : wds source k = inputWords (n := 3) L.shouldExtract source items := by
      unfold inputWords
      rw [← g2, List.map_map]
      rfl
    rw [this] at hval
    exact hval
  constructor
  · rintro ⟨x, p', N, k1, k2, k3, k4⟩
    obtain ⟨v', h5, h6⟩ := val x p' N k1 k2 k3
    rw [k4] at h5
    cases h5
    exact h6
  · intro hv
    obtain ⟨x, p', N, k1, k2, k3⟩ := (C99_recur hG h hcl hc hu hs hscan).2 hv.expr
    obtain ⟨v', h5, h6⟩ := val x p' N k1 k2 k3
    exact ⟨x, p', N, k1, k2, k3, by rw [h5, C101_unique h6 hv]⟩

/-- And so is the value of the tree of the second example. -/
theorem C101_simple (hG : G.Agrees E) (h : Macro.expand E decl = .ok L) (hcl : decl.Clear G) {c : Fin 3 → Code 3 3}
    (hc : ∀ k, simple.code L k = some (c k)) {source : Str} (hu : Utf8 source) {toks : List (Nat × Str)}
    (hs : decl.Splits G source toks) {items : List (Item 3)} (hscan : L.Scan G source 0 items) (v : V) :
    (∃ x p' N, (∀ fuel' ≥ N, rootParseOf L.shouldExtract c fuel' (.user 0) source items = .ok (.ok (some x)) p') ∧
      p'.info.errors = [] ∧ (p'.view L.shouldExtract).rest = [] ∧ simpleE A source x = some v) ↔
    Value A .sum (Decl.words vars toks) v := by
  have hw : ItemsWF source items := C81_wf hG h decl_texts hu hscan
  obtain ⟨S, -, h1, -, h2⟩ := C92_program (P := simple) (vs := vars) h rfl simple_distinct hc
  cases h1 simpleS simple_declares
  have words := C83_words_partial hG h rfl decl_texts simple_distinct.variants vars_blank hcl hs hscan
  have val : ∀ x p' N, (∀ fuel' ≥ N, rootParseOf L.shouldExtract c fuel' (.user 0) source items = .ok (.ok (some x)) p') →
      p'.info.errors = [] → (p'.view L.shouldExtract).rest = [] →
      ∃ v, simpleE A source x = some v ∧ Value A .sum (Decl.words vars toks) v := by
    intro x p' N k1 k2 k3
    obtain ⟨k, g1, g2⟩ := (C98_exact L.shouldExtract simpleS 60 (.user 0) simple_plain source items hw x).1
      ⟨p', N, fun f hf => ((h2 L.shouldExtract f (.user (0 : Fin 3)) source items).symm.trans (k1 f hf)),
        by rw [k2]; rfl, k3⟩
    obtain ⟨v, hv, hval⟩ := simple_value (A := A) _ x (Nat.lt_succ_self _) 0 k g1
    refine ⟨v, hv, ?_⟩
    rw [← words]
    have : wds source k = inputWords (n := 3) L.shouldExtract source items := by
      unfold inputWords
      rw [← g2, List.map_map]
      rfl
    rw [this] at hval
    exact hval
  constructor
  · rintro ⟨x, p', N, k1, k2, k3, k4⟩
    obtain ⟨v', h5, h6⟩ := val x p' N k1 k2 k3
    rw [k4] at h5
    cases h5
    exact h6
  · intro hv
    obtain ⟨x, p', N, k1, k2, k3⟩ := (C99_simple hG h hcl hc hu hs hscan).2 hv.expr
    obtain ⟨v', h5, h6⟩ := val x p' N k1 k2 k3
    exact ⟨x, p', N, k1, k2, k3, by rw [h5, C101_unique h6 hv]⟩

/-! ### Examples -/

/-- Terms: the reading itself. -/
inductive Term where
  | word (s : Str)
  | add (a b : Term)
  | mul (a b : Term)

def terms : Alg Term := ⟨.word, .add, .mul⟩

/-- `a + b * c + d` is `(a + (b * c)) + d`. -/
example : Value terms .sum [⟨(0 : Fin 3), [97]⟩, plus, ⟨(0 : Fin 3), [98]⟩, times, ⟨(0 : Fin 3), [99]⟩, plus,
    ⟨(0 : Fin 3), [100]⟩] (.add (.add (.word [97]) (.mul (.word [98]) (.word [99]))) (.word [100])) :=
  .plus (u := [⟨(0 : Fin 3), [97]⟩, plus, ⟨(0 : Fin 3), [98]⟩, times, ⟨(0 : Fin 3), [99]⟩])
    (.plus (u := [⟨(0 : Fin 3), [97]⟩]) (.product (.factor (.word [97])))
      (.times (u := [⟨(0 : Fin 3), [98]⟩]) (.factor (.word [98])) (.word [99]))) (.factor (.word [100]))

/-- `(ab + b)*c` -/
theorem text_value : Value terms .sum (Decl.words vars textToks)
    (.mul (.add (.word (ascii "ab")) (.word (ascii "b"))) (.word (ascii "c"))) :=
  .product (.times (u := [opening, ⟨(0 : Fin 3), ascii "ab"⟩, plus, ⟨(0 : Fin 3), ascii "b"⟩, closing])
    (.factor (.paren (u := [⟨(0 : Fin 3), ascii "ab"⟩, plus, ⟨(0 : Fin 3), ascii "b"⟩])
      (.plus (u := [⟨(0 : Fin 3), ascii "ab"⟩]) (.product (.factor (.word _))) (.factor (.word _)))))
    (.word (ascii "c")))

/-- Both programs parse the text to trees with this value. -/
example : ∃ (L : Lexicon) (c : Fin 7 → Code 7 3) (c' : Fin 3 → Code 3 3) (items : List (Item 3)) (x y : Tree 3)
    (p q : Parser 3) (N : Nat), Macro.expand engine decl = .ok L ∧ L.Scan scanner text 0 items ∧
      rootParseOf L.shouldExtract c N (.user 0) text items = .ok (.ok (some x)) p ∧
      recurE terms text x = some (.mul (.add (.word (ascii "ab")) (.word (ascii "b"))) (.word (ascii "c"))) ∧
      rootParseOf L.shouldExtract c' N (.user 0) text items = .ok (.ok (some y)) q ∧
      simpleE terms text y = some (.mul (.add (.word (ascii "ab")) (.word (ascii "b"))) (.word (ascii "c"))) := by
  obtain ⟨L, hL⟩ := expands
  obtain ⟨⟨c, hc⟩, c', hc'⟩ := C99_compiles hL
  obtain ⟨items, hs⟩ := C81_total agrees hL decl_texts (vs := vars) rfl text
  have hu : Utf8 text := utf8_ascii (by decide +kernel)
  obtain ⟨x, p, N, h1, -, -, h2⟩ := (C101_recur agrees hL clear hc hu text_splits hs _).2 text_value
  obtain ⟨y, q, M, h3, -, -, h4⟩ := (C101_simple agrees hL clear hc' hu text_splits hs _).2 text_value
  exact ⟨L, c, c', items, x, y, p, q, max N M, hL, hs, h1 _ (by omega), h2, h3 _ (by omega), h4⟩

end Teleparse.Book

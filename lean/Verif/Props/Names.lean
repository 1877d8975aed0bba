import Verif.Proof.Names
/-
Property C80: names of types in grammar errors.
-/
namespace Teleparse
variable {m n : Nat}

/-- The name of a type, read as an expression, stands for the same sequences of user-defined types and terminals as
its production. Missing for the full statement: names with blanks or brackets, such as the literal `(` (see
`C80_false_literal`), and options of tuples that begin with an option or repetition and end with a repetition (see
`C80_false`). -/
theorem C80_reads_partial (S : Schema m n) (N : Idents m) (p : PId m n) (hp : p.Plain N) (hc : p.Clear) :
    ∃ L, readName (p.debug N) = some L ∧ ∀ w, L w ↔ Stands S N [p.id] w :=
  ⟨p.den N, read_debug N p hp hc, fun w => (stands_iff S N p w).symm⟩

/-- So types with the same name stand for the same sequences. -/
theorem C80_distinct_partial (S : Schema m n) (N : Idents m) (p q : PId m n) (hp : p.Plain N) (hc : p.Clear)
    (hq : q.Plain N) (hd : q.Clear) (h : p.debug N = q.debug N) (w : List Str) :
    Stands S N [p.id] w ↔ Stands S N [q.id] w := by
  obtain ⟨L, h1, h2⟩ := C80_reads_partial S N p hp hc
  obtain ⟨L', h3, h4⟩ := C80_reads_partial S N q hq hd
  rw [h, h3] at h1
  cases h1
  rw [← h2, ← h4]

/-- Names for the examples. -/
def naN : Idents 1 := ⟨fun _ => ascii "E", fun k => ascii (if k = 0 then "Word" else "Num")⟩
def naW : PId 1 3 := .term 0 ⟨0, none⟩
def naM : PId 1 3 := .term 1 ⟨1, none⟩
def naX : PId 1 3 := .term 2 ⟨2, some [43]⟩

/-- A list of types with separators, an optional type and a repetition, with the literal `+`. -/
example : (PId.tup3 (.punct (.opt (.tup2 naW (.plus naM))) naX) (.opt naX) (.opt (.plus (.user 0)))).debug naN =
    ascii "( (Word ( Num )+)? )[+]+ (+)? ( E )*" := by decide
example : (PId.tup3 (.punct (.opt (.tup2 naW (.plus naM))) naX) (.opt naX) (.opt (.plus (.user 0)))).Plain naN := by
  simp only [PId.Plain, naW, naM, naX, PlainName]
  decide
example : (PId.tup3 (.punct (.opt (.tup2 naW (.plus naM))) naX) (.opt naX) (.opt (.plus (.user 0)))).Clear := by
  simp only [PId.Clear, naW, naM, naX]
  decide

/-- The claim is false in general: `Option<(Plus<Word>, Plus<Num>)>` is shown as `( Word )+ ( Num )*`, although it can
be nothing and cannot be a single `Word`. -/
theorem C80_false (S : Schema 1 3) :
    (PId.opt (.tup2 (.plus naW) (.plus naM))).debug naN = ascii "( Word )+ ( Num )*" ∧
    ∃ L, readName (ascii "( Word )+ ( Num )*") = some L ∧
      (L [ascii "Word"] ∧ ¬ Stands S naN [.opt (.tup2 (.plus naW) (.plus naM))] [ascii "Word"]) ∧
      (¬ L [] ∧ Stands S naN [.opt (.tup2 (.plus naW) (.plus naM))] []) := by
  have hp : (PId.tup2 (.plus naW) (.opt (.plus naM))).Plain naN := by
    simp only [PId.Plain, naW, naM, PlainName]; decide
  have hc : (PId.tup2 (.plus naW) (.opt (.plus naM))).Clear := by simp only [PId.Clear, naW, naM]; decide
  refine ⟨by decide, _, read_debug naN _ hp hc, ⟨?_, ?_⟩, ?_, ?_⟩
  · exact ⟨[ascii "Word"], [], rfl, ⟨_, [], rfl, rfl, .nil⟩, .inl rfl⟩
  · intro h
    have h := (stands_iff S naN (PId.opt (.tup2 (.plus naW) (.plus naM))) _).1 h
    rcases h with h | ⟨u, v, h, ⟨a, b, rfl, ha, -⟩, ⟨c, d, rfl, hc', -⟩⟩
    · cases h
    · have ha : a = [ascii "Word"] := ha
      have hc' : c = [ascii "Num"] := hc'
      subst ha hc'
      simp at h
  · rintro ⟨u, v, h, ⟨a, b, rfl, ha, -⟩, -⟩
    have ha : a = [ascii "Word"] := ha
    subst ha
    simp at h
  · exact (stands_iff S naN (PId.opt (.tup2 (.plus naW) (.plus naM))) _).2 (.inl rfl)

/-- And for literals with brackets: `Option<("(", Plus<Num>)>` is shown as `( ( Num )*`, which is no expression. -/
theorem C80_false_literal :
    (PId.opt (.tup2 (.term 2 ⟨2, some [40]⟩) (.plus naM))).debug naN = ascii "( ( Num )*" ∧
    readName (ascii "( ( Num )*") = none := ⟨by decide, rfl⟩

end Teleparse

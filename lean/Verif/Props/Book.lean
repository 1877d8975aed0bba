import Verif.Proof.Book
/-
Properties of the examples of the book: C99.
-/
namespace Teleparse.Book
open Macro Syn Prog

/-! ## The meaning of the declarations -/

section
variable {P : Program} {m : Nat}

def word : Ty m 3 := .term 0 ⟨0, none⟩
def opAdd : Ty m 3 := .term 1 ⟨1, some (ascii "+")⟩
def opMul : Ty m 3 := .term 2 ⟨1, some (ascii "*")⟩
def parenOpen : Ty m 3 := .term 3 ⟨2, some (ascii "(")⟩
def parenClose : Ty m 3 := .term 4 ⟨2, some (ascii ")")⟩

theorem means_word : Means P vars (ty "Ident") word :=
  .term (vs := vars) (i := 0) (k := (0 : Fin 3)) (t := ⟨some (ascii "Ident"), .path⟩) rfl rfl
theorem means_add : Means P vars (ty "OpAdd") opAdd :=
  .term (vs := vars) (i := 1) (k := (1 : Fin 3)) (t := lit "OpAdd" "+") rfl rfl
theorem means_mul : Means P vars (ty "OpMul") opMul :=
  .term (vs := vars) (i := 2) (k := (1 : Fin 3)) (t := lit "OpMul" "*") rfl rfl
theorem means_open : Means P vars (ty "ParenOpen") parenOpen :=
  .term (vs := vars) (i := 3) (k := (2 : Fin 3)) (t := lit "ParenOpen" "(") rfl rfl
theorem means_close : Means P vars (ty "ParenClose") parenClose :=
  .term (vs := vars) (i := 4) (k := (2 : Fin 3)) (t := lit "ParenClose" ")") rfl rfl

end

/-- The types of `recur`: E, Eprime, Eplus, T, Tprime, Tstar, F. -/
def recurS : Schema 7 3
  | 0 => .struct (.user 3, none) [(.user 1, none)]
  | 1 => .struct (.option (.user 2), none) []
  | 2 => .struct (opAdd, none) [(.user 3, none), (.box (.user 1), none)]
  | 3 => .struct (.user 6, none) [(.user 4, none)]
  | 4 => .struct (.option (.user 5), none) []
  | 5 => .struct (opMul, none) [(.user 6, none), (.box (.user 4), none)]
  | 6 => .enum (word, none) [(.tup3 parenOpen (.box (.user 0)) parenClose, none)]

/-- The types of `simple`: E, T, F. -/
def simpleS : Schema 3 3
  | 0 => .struct (.split (.user 1) opAdd, none) []
  | 1 => .struct (.split (.user 2) opMul, none) []
  | 2 => .enum (word, none) [(.tup3 parenOpen (.box (.user 0)) parenClose, none)]

theorem recur_user (k : Fin 7) : Means recur vars (.name recur.types[k].ident) (.user k) := .user (P := recur) k
theorem simple_user (k : Fin 3) : Means simple vars (.name simple.types[k].ident) (.user k) := .user (P := simple) k

theorem recur_declares : recur.Declares vars recurS := by
  intro k
  match k with
  | ⟨0, _⟩ => exact .struct rfl (.cons (.plain (recur_user 3)) (.cons (.plain (recur_user 1)) .nil))
  | ⟨1, _⟩ => exact .struct rfl (.cons (.plain (.option (recur_user 2))) .nil)
  | ⟨2, _⟩ => exact .struct rfl (.cons (.plain means_add) (.cons (.plain (recur_user 3))
      (.cons (.plain (.box (recur_user 1))) .nil)))
  | ⟨3, _⟩ => exact .struct rfl (.cons (.plain (recur_user 6)) (.cons (.plain (recur_user 4)) .nil))
  | ⟨4, _⟩ => exact .struct rfl (.cons (.plain (.option (recur_user 5))) .nil)
  | ⟨5, _⟩ => exact .struct rfl (.cons (.plain means_mul) (.cons (.plain (recur_user 6))
      (.cons (.plain (.box (recur_user 4))) .nil)))
  | ⟨6, _⟩ => exact .enum rfl (.cons (.plain means_word)
      (.cons (.plain (.tup3 means_open (.box (recur_user 0)) means_close)) .nil))

theorem simple_declares : simple.Declares vars simpleS := by
  intro k
  match k with
  | ⟨0, _⟩ => exact .struct rfl (.cons (.plain (.split (simple_user 1) means_add)) .nil)
  | ⟨1, _⟩ => exact .struct rfl (.cons (.plain (.split (simple_user 2) means_mul)) .nil)
  | ⟨2, _⟩ => exact .enum rfl (.cons (.plain means_word)
      (.cons (.plain (.tup3 means_open (.box (simple_user 0)) means_close)) .nil))

theorem recur_distinct : recur.Distinct vars where
  items := by decide +kernel
  variants := by decide +kernel
  fields := by
    intro d hd
    simp only [recur, List.mem_cons, List.not_mem_nil, or_false] at hd
    rcases hd with rfl | rfl | rfl | rfl | rfl | rfl | rfl
    all_goals first | trivial | (show (_ : List _).Nodup; decide +kernel)

theorem simple_distinct : simple.Distinct vars where
  items := by decide +kernel
  variants := by decide +kernel
  fields := by
    intro d hd
    simp only [simple, List.mem_cons, List.not_mem_nil, or_false] at hd
    rcases hd with rfl | rfl | rfl
    all_goals first | trivial | (show (_ : List _).Nodup; decide +kernel)

/-- Both pass the check. -/
theorem recur_plain : recurS.plain 60 (.user 0) = true := by decide +kernel
theorem simple_plain : simpleS.plain 60 (.user 0) = true := by decide +kernel

theorem decl_texts : decl.Texts := by
  rintro vs ⟨⟩ v hv lit hlit
  have : ∀ v ∈ vars, ∀ lit ∈ v.lits, (lit.all (· < 128)) = true := by decide +kernel
  exact utf8_ascii (this v hv lit hlit)

theorem vars_blank : vars.Pairwise fun a b => ¬ (a.Blank ∧ b.Lexed) := by decide +kernel

theorem Attrs.ok_nil : Attrs.OK [] := ⟨by decide, by simp, by simp [Attrs.metas], by simp [Attrs.metas],
  by simp [Attrs.metas], by simp [Attrs.metas], by simp [Attrs.metas]⟩

theorem named_ok {name : String} {root : Bool} {fs : List (String × TyE)} (h : fs ≠ []) : (named name root fs).OK := by
  refine ⟨?_, ?_, ?_, ?_, ?_, ?_, ?_⟩
  · cases root <;> simp [named]
  · cases root <;> simp [named]
  · cases root <;> simp [named, DeclD.metas]
  · cases root <;> simp [named, DeclD.metas]
  · cases root <;> simp [named, DeclD.metas]
  · simpa [named, FieldsD.list] using h
  · intro f hf
    simp only [FieldsD.list, List.mem_map] at hf
    obtain ⟨_, -, rfl⟩ := hf
    exact Attrs.ok_nil

theorem tuple_ok {name : String} {ts : List TyE} (h : ts ≠ []) : (tuple name ts).OK := by
  refine ⟨by simp [tuple], by simp [tuple], by simp [tuple, DeclD.metas], by simp [tuple, DeclD.metas],
    by simp [tuple, DeclD.metas], ?_, ?_⟩
  · simpa [tuple, FieldsD.list] using h
  · intro f hf
    simp only [FieldsD.list, List.mem_map] at hf
    obtain ⟨_, -, rfl⟩ := hf
    exact Attrs.ok_nil

theorem factor_ok : factor.OK := by
  refine ⟨by simp [factor], by simp [factor], by simp [factor, DeclD.metas], by simp [factor, DeclD.metas],
    by simp [factor, DeclD.metas], by simp, ?_⟩
  intro v hv
  simp only [List.mem_cons, List.not_mem_nil, or_false] at hv
  rcases hv with rfl | rfl <;> exact ⟨rfl, rfl, Attrs.ok_nil⟩

theorem recur_good : recur.Good vars := by
  refine recur_declares.good ?_
  intro d hd
  simp only [recur, List.mem_cons, List.not_mem_nil, or_false] at hd
  rcases hd with rfl | rfl | rfl | rfl | rfl | rfl | rfl
  all_goals first | exact factor_ok | exact named_ok (by simp) | exact tuple_ok (by simp)

theorem simple_good : simple.Good vars := by
  refine simple_declares.good ?_
  intro d hd
  simp only [simple, List.mem_cons, List.not_mem_nil, or_false] at hd
  rcases hd with rfl | rfl | rfl
  all_goals first | exact factor_ok | exact named_ok (by simp)

/-! ## C99 -/

variable {E : Engine} {G : Logos} {L : Lexicon}

/-- Both programs compile. -/
theorem C99_compiles (h : Macro.expand E decl = .ok L) :
    (∃ c : Fin 7 → Code 7 3, ∀ k, recur.code L k = some (c k)) ∧
      ∃ c : Fin 3 → Code 3 3, ∀ k, simple.code L k = some (c k) := by
  have h1 := (C92_compiles (P := recur) (vs := vars) h rfl recur_distinct).2 recur_good
  have h2 := (C92_compiles (P := simple) (vs := vars) h rfl simple_distinct).2 simple_good
  exact ⟨⟨fun k => (h1 k).choose, fun k => (h1 k).choose_spec⟩, fun k => (h2 k).choose, fun k => (h2 k).choose_spec⟩

/-- `E::parse` of the first example returns a tree without an error and with nothing left exactly for expressions. -/
theorem C99_recur (hG : G.Agrees E) (h : Macro.expand E decl = .ok L) (hcl : decl.Clear G) {c : Fin 7 → Code 7 3}
    (hc : ∀ k, recur.code L k = some (c k)) {source : Str} (hu : Utf8 source) {toks : List (Nat × Str)}
    (hs : decl.Splits G source toks) {items : List (Item 3)} (hscan : L.Scan G source 0 items) :
    (∃ x p' N, (∀ fuel' ≥ N, rootParseOf L.shouldExtract c fuel' (.user 0) source items = .ok (.ok (some x)) p') ∧
      p'.info.errors = [] ∧ (p'.view L.shouldExtract).rest = []) ↔ Expr (Decl.words vars toks) :=
  (C98_program (P := recur) (vs := vars) hG h rfl decl_texts vars_blank hcl recur_distinct hc recur_declares
    (recur_user 0) recur_plain hu hs hscan).trans recur_iff

/-- `E::parse` of the second example too. -/
theorem C99_simple (hG : G.Agrees E) (h : Macro.expand E decl = .ok L) (hcl : decl.Clear G) {c : Fin 3 → Code 3 3}
    (hc : ∀ k, simple.code L k = some (c k)) {source : Str} (hu : Utf8 source) {toks : List (Nat × Str)}
    (hs : decl.Splits G source toks) {items : List (Item 3)} (hscan : L.Scan G source 0 items) :
    (∃ x p' N, (∀ fuel' ≥ N, rootParseOf L.shouldExtract c fuel' (.user 0) source items = .ok (.ok (some x)) p') ∧
      p'.info.errors = [] ∧ (p'.view L.shouldExtract).rest = []) ↔ Expr (Decl.words vars toks) :=
  (C98_program (P := simple) (vs := vars) hG h rfl decl_texts vars_blank hcl simple_distinct hc simple_declares
    (simple_user 0) simple_plain hu hs hscan).trans simple_iff

/-- Whatever the text is, the parsers of both examples return, and they do not refuse the grammar. -/
theorem C99_returns (hG : G.Agrees E) (h : Macro.expand E decl = .ok L) {c : Fin 7 → Code 7 3}
    (hc : ∀ k, recur.code L k = some (c k)) {c' : Fin 3 → Code 3 3} (hc' : ∀ k, simple.code L k = some (c' k))
    {source : Str} (hu : Utf8 source) {items : List (Item 3)} (hscan : L.Scan G source 0 items) :
    ∃ N x p x' p', ∀ fuel ≥ N, rootParseOf L.shouldExtract c fuel (.user 0) source items = .ok (.ok x) p ∧
      rootParseOf L.shouldExtract c' fuel (.user 0) source items = .ok (.ok x') p' := by
  have hw : ItemsWF source items := C81_wf hG h decl_texts hu hscan
  obtain ⟨S, -, h1, -, h2⟩ := C92_program (P := recur) (vs := vars) h rfl recur_distinct hc
  cases h1 recurS recur_declares
  obtain ⟨S, -, h3, -, h4⟩ := C92_program (P := simple) (vs := vars) h rfl simple_distinct hc'
  cases h3 simpleS simple_declares
  obtain ⟨x, p, N, h5⟩ := C98_returns L.shouldExtract recurS 60 (.user 0) recur_plain source items hw _ .new
  obtain ⟨x', p', N', h6⟩ := C98_returns L.shouldExtract simpleS 60 (.user 0) simple_plain source items hw _ .new
  refine ⟨max N N', x, p, x', p', fun f hf => ⟨?_, ?_⟩⟩
  · exact (h2 L.shouldExtract f (.user (0 : Fin 7)) source items).trans (h5 f (by omega))
  · exact (h4 L.shouldExtract f (.user (0 : Fin 3)) source items).trans (h6 f (by omega))

/-! ### Example -/

/-- The characters of `\w` and `\s`, in ASCII. -/
def inClass (r : Str) (c : Nat) : Bool :=
  if r = ascii "\\w+" then (48 ≤ c ∧ c ≤ 57) ∨ (65 ≤ c ∧ c ≤ 90) ∨ c = 95 ∨ (97 ≤ c ∧ c ≤ 122)
  else if r = ascii "\\s+" then c = 32 ∨ (9 ≤ c ∧ c ≤ 13)
  else false

def runFind (p : Nat → Bool) : Nat → Str → Option (Nat × Nat)
  | _, [] => none
  | i, c :: s => if p c then some (i, i + 1 + (s.takeWhile p).length) else runFind p (i + 1) s

def engine : Engine := ⟨fun _ => true, fun r s => runFind (inClass r) 0 s⟩

def scanner : Logos where
  mat
    | .token lit, text => text = lit
    | .regex r, text => text ≠ [] ∧ text.all (inClass r) = true
  prio
    | .token _ => 2
    | .regex _ => 1

theorem runFind_some {p : Nat → Bool} : ∀ {s : Str} {i a b : Nat}, runFind p i s = some (a, b) →
    ∃ a' b', a = i + a' ∧ b = i + b' ∧ a' < b' ∧ b' ≤ s.length ∧ (piece s a' b').all p = true ∧
      ∀ x < a', ∀ y, x ≤ y → y ≤ s.length → piece s x y ≠ [] → (piece s x y).all p = false
  | [], i, a, b, h => by cases h
  | c :: s, i, a, b, h => by
    unfold runFind at h
    split at h
    · next hp =>
      cases h
      refine ⟨0, 1 + (s.takeWhile p).length, rfl, by omega, by omega, ?_, ?_, by omega⟩
      · have := (List.takeWhile_prefix (l := s) p).length_le
        simp only [List.length_cons]; omega
      · rw [Nat.add_comm 1]
        simp only [piece, List.drop_zero, Nat.sub_zero, List.take_succ_cons, List.all_cons, hp, Bool.true_and]
        rw [List.prefix_iff_eq_take.1 (List.takeWhile_prefix p) |>.symm]
        exact List.all_takeWhile
    · next hn =>
      obtain ⟨a', b', rfl, rfl, h1, h2, h3, h4⟩ := runFind_some h
      refine ⟨a' + 1, b' + 1, by omega, by omega, by omega, by simpa using h2, ?_, ?_⟩
      · simpa [piece] using h3
      · intro x hx y hxy hy hne
        cases x with
        | zero =>
          cases y with
          | zero => simp [piece] at hne
          | succ y => simp [piece, hn]
        | succ x =>
          have := h4 x (by omega) (y - 1) (by omega) (by simp at hy; omega)
          unfold piece at this hne ⊢
          rw [List.drop_succ_cons, show y - (x + 1) = y - 1 - x by omega] at hne ⊢
          exact this hne

theorem runFind_none {p : Nat → Bool} : ∀ {s : Str} {i : Nat}, runFind p i s = none →
    ∀ a b, piece s a b ≠ [] → (piece s a b).all p = false
  | [], i, h, a, b, hne => by simp [piece] at hne
  | c :: s, i, h, a, b, hne => by
    unfold runFind at h
    split at h
    · cases h
    · next hn =>
      cases a with
      | zero =>
        cases b with
        | zero => simp [piece] at hne
        | succ b => simp [piece, hn]
      | succ a =>
        have := runFind_none h a (b - 1)
        unfold piece at this hne ⊢
        rw [List.drop_succ_cons, show b - (a + 1) = b - 1 - a by omega] at hne ⊢
        exact this hne

theorem class_ascii {r : Str} {c : Nat} (h : inClass r c = true) : c < 128 := by
  unfold inClass at h
  split at h
  · simp at h; omega
  · split at h
    · simp at h; omega
    · cases h

theorem agrees : scanner.Agrees engine where
  token _ _ := Iff.rfl
  utf8 r text h := utf8_ascii (List.all_eq_true.2 fun c hc => by
    simpa using class_ascii (List.all_eq_true.1 h.2 c hc))
  found r s a b h := by
    obtain ⟨a', b', rfl, rfl, h1, h2, h3, h4⟩ := runFind_some h
    simp only [Nat.zero_add]
    refine ⟨by omega, h2, ⟨?_, h3⟩, ?_⟩
    · intro h5
      have := congrArg List.length h5
      simp [piece] at this
      omega
    · rintro x hx y hy hxy ⟨h5, h6⟩
      rw [h4 x hx y hxy hy h5] at h6
      cases h6
  missing _ _ h a b _ _ := by
    rintro ⟨h5, h6⟩
    rw [runFind_none h a b h5] at h6
    cases h6

theorem expands : ∃ L, Macro.expand engine decl = .ok L := by
  have : (match Macro.expand engine decl with | .ok _ => true | .error _ => false) = true := by decide +kernel
  split at this
  · next L h => exact ⟨L, h⟩
  · cases this

instance (r : LexRule) (text : Str) : Decidable (scanner.mat r text) := by
  cases r
  · exact inferInstanceAs (Decidable (text ≠ [] ∧ _ = true))
  · exact inferInstanceAs (Decidable (text = _))

/-- Characters that begin what a rule matches. -/
def begins (c : Nat) : LexRule → Bool
  | .token lit => lit.head? == some c
  | .regex r => inClass r c

theorem mat_head {r : LexRule} {c : Nat} {s : Str} (h : scanner.mat r (c :: s)) : begins c r = true := by
  cases r with
  | regex r => exact List.all_eq_true.1 h.2 c (by simp)
  | token l =>
    have h : c :: s = l := h
    subst h
    simp [begins]

theorem clear : decl.Clear scanner := by
  have key : ∀ e ∈ decl.ruleList, ∀ e' ∈ decl.ruleList, e.2 ≠ e'.2 → ∀ c < 128,
      ¬ (begins c e.1 = true ∧ begins c e'.1 = true) := by decide +kernel
  intro r t r' t' text h1 h2 h3 h4 _
  refine Classical.not_not.1 fun hne => ?_
  cases text with
  | nil =>
    have key : ∀ e ∈ decl.ruleList, ¬ scanner.mat e.1 [] := by decide +kernel
    exact key _ (mem_ruleList.1 h1) h3
  | cons c s =>
    have h5 := mat_head h3
    have hc : c < 128 := by
      have key : ∀ e ∈ decl.ruleList, (match e.1 with | .token lit => lit.all (· < 128) | .regex _ => true) = true := by
        decide +kernel
      have := key _ (mem_ruleList.1 h1)
      cases r with
      | regex r => exact class_ascii h5
      | token l =>
        have h3 : c :: s = l := h3
        subst h3
        simp at this
        exact this.1
    exact key _ (mem_ruleList.1 h1) _ (mem_ruleList.1 h2) hne c hc ⟨h5, mat_head h4⟩

theorem best {s : Str} {len : Nat} {r : LexRule} {t : Option Nat}
    (h : (r, t) ∈ decl.ruleList ∧ len ≤ s.length ∧ scanner.mat r (s.take len) ∧
      ∀ e ∈ decl.ruleList, ∀ len' ≤ s.length, scanner.mat e.1 (s.take len') →
        len' < len ∨ (len' = len ∧ scanner.prio e.1 ≤ scanner.prio r)) : decl.Best scanner s len r t :=
  ⟨mem_ruleList.2 h.1, h.2.1, h.2.2.1, fun r' t' h' => h.2.2.2 (r', t') (mem_ruleList.1 h')⟩

/-- `(ab + b)*c` -/
def text : Str := ascii "(ab + b)*c"
def textToks : List (Nat × Str) := [(2, ascii "("), (0, ascii "ab"), (1, ascii "+"), (0, ascii "b"), (2, ascii ")"),
  (1, ascii "*"), (0, ascii "c")]

theorem text_splits : decl.Splits scanner text textToks :=
  .token (len := 1) (r := .token (ascii "(")) (best (by decide +kernel))
    (.token (len := 2) (r := .regex (ascii "\\w+")) (best (by decide +kernel))
    (.skip (len := 1) (r := .regex (ascii "\\s+")) (best (by decide +kernel))
    (.token (len := 1) (r := .token (ascii "+")) (best (by decide +kernel))
    (.skip (len := 1) (r := .regex (ascii "\\s+")) (best (by decide +kernel))
    (.token (len := 1) (r := .regex (ascii "\\w+")) (best (by decide +kernel))
    (.token (len := 1) (r := .token (ascii ")")) (best (by decide +kernel))
    (.token (len := 1) (r := .token (ascii "*")) (best (by decide +kernel))
    (.token (len := 1) (r := .regex (ascii "\\w+")) (best (by decide +kernel)) .done))))))))

theorem text_expr : Expr (Decl.words vars textToks) :=
  .product (.paren (.sum (.word (ascii "ab")) (.word (ascii "b")))) (.word (ascii "c"))

/-- The text is accepted by both programs. -/
example : ∃ (L : Lexicon) (c : Fin 7 → Code 7 3) (c' : Fin 3 → Code 3 3) (items : List (Item 3)) (x y : Tree 3)
    (p q : Parser 3) (N : Nat), Macro.expand engine decl = .ok L ∧ (∀ k, recur.code L k = some (c k)) ∧
      (∀ k, simple.code L k = some (c' k)) ∧ L.Scan scanner text 0 items ∧
      rootParseOf L.shouldExtract c N (.user 0) text items = .ok (.ok (some x)) p ∧ p.info.errors = [] ∧
      rootParseOf L.shouldExtract c' N (.user 0) text items = .ok (.ok (some y)) q ∧ q.info.errors = [] := by
  obtain ⟨L, hL⟩ := expands
  obtain ⟨⟨c, hc⟩, c', hc'⟩ := C99_compiles hL
  obtain ⟨items, hs⟩ := C81_total agrees hL decl_texts (vs := vars) rfl text
  have hu : Utf8 text := utf8_ascii (by decide +kernel)
  obtain ⟨x, p, N, h1, h2, -⟩ := (C99_recur agrees hL clear hc hu text_splits hs).2 text_expr
  obtain ⟨y, q, M, h3, h4, -⟩ := (C99_simple agrees hL clear hc' hu text_splits hs).2 text_expr
  exact ⟨L, c, c', items, x, y, p, q, max N M, hL, hc, hc', hs, h1 _ (by omega), h2, h3 _ (by omega), h4⟩

end Teleparse.Book

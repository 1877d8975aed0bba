import Verif.Spec.Book
import Verif.Props.Plain
/-
For C99: the declared languages of the examples of the book are those of the expressions.
-/
namespace Teleparse.Prog
open Macro Syn

theorem All2.left {α β : Type} {R : α → β → Prop} {l : List α} {k : List β} (h : All2 R l k) {a : α} (ha : a ∈ l) :
    ∃ b, R a b := by
  induction h with
  | nil => cases ha
  | cons h _ ih =>
    rcases List.mem_cons.1 ha with rfl | ha
    · exact ⟨_, h⟩
    · exact ih ha

/-- A program that means something compiles, if the macro accepts the declarations. -/
theorem Program.Declares.good {P : Program} {vs : List Variant} {S : Schema P.types.length vs.length}
    (hS : P.Declares vs S) (h : ∀ d ∈ P.types, d.OK) : P.Good vs := by
  have part : ∀ {p f}, PartMeans P vs p f → (∃ t, Means P vs p.1 t) ∧
      ∀ ids, p.2 = some ids → ids ≠ [] ∧ ∀ i ∈ ids, ∃ v ∈ vs, v.ident = i := by
    rintro _ _ (h | ⟨h1, h2, h3⟩)
    · exact ⟨⟨_, h⟩, by rintro _ ⟨⟩⟩
    · refine ⟨⟨_, h1⟩, ?_⟩
      rintro _ ⟨⟩
      refine ⟨h2, fun i hi => ?_⟩
      obtain ⟨x, hx⟩ := All2.left h3 hi
      exact ⟨_, List.getElem_mem _, hx⟩
  intro d hd
  refine ⟨h d hd, ?_⟩
  obtain ⟨k, hk, rfl⟩ := List.mem_iff_getElem.1 hd
  intro p hp
  have := hS ⟨k, hk⟩
  generalize hD : S ⟨k, hk⟩ = D at this
  cases this with
  | struct _ h2 =>
    obtain ⟨f, hf⟩ := All2.left h2 hp
    exact part hf
  | enum _ h2 =>
    obtain ⟨f, hf⟩ := All2.left h2 hp
    exact part hf

end Teleparse.Prog

namespace Teleparse.Book
open Macro Syn Prog

/-- One or more, separated. -/
inductive Sep (A : List Tok → Prop) (op : Tok) : List Tok → Prop
  | one {u} : A u → Sep A op u
  | more {u v} : A u → Sep A op v → Sep A op (u ++ op :: v)

theorem Sep.append {A : List Tok → Prop} {op : Tok} {u v : List Tok} (h : Sep A op u)
    (h' : Sep A op v) : Sep A op (u ++ op :: v) := by
  induction h with
  | one h => exact .more h h'
  | more h _ ih => rw [List.append_assoc, List.cons_append]; exact .more h ih

theorem Sep.times {F : List Tok → Prop} {a m : Tok} {u v : List Tok} (h : Sep (Sep F m) a u)
    (h' : Sep (Sep F m) a v) : Sep (Sep F m) a (u ++ m :: v) := by
  induction h with
  | one h =>
    cases h' with
    | one h' => exact .one (h.append h')
    | more h1 h2 => rw [← List.cons_append, ← List.append_assoc]; exact .more (h.append h1) h2
  | more h _ ih => rw [List.append_assoc, List.cons_append]; exact .more h ih

/-- A language of factors with words and sums of products in parentheses. -/
theorem Expr.sep {F : List Tok → Prop} (h1 : ∀ s, F [⟨(0 : Fin 3), s⟩])
    (h2 : ∀ w, Sep (Sep F times) plus w → F (opening :: w ++ [closing])) {w : List Tok} (h : Expr w) :
    Sep (Sep F times) plus w := by
  induction h with
  | word s => exact .one (.one (h1 s))
  | sum _ _ ih1 ih2 => exact ih1.append ih2
  | product _ _ ih1 ih2 => exact ih1.times ih2
  | paren _ ih => exact .one (.one (h2 _ ih))

section
variable {P : Program} {s : String} {w : List Tok}

theorem sent_term (k : Fin 3) (t : TMeta) (ht : t ∈ vars[k.val].terms) (hs : t.ident = some (ascii s)) {x : Str}
    (hx : ∀ l, t.lit = some l → x = l) : Sent P vars (ty s) [(⟨k, x⟩ : Tok)] :=
  .term (vs := vars) (tok := ⟨k, x⟩) ht hs hx

theorem sent_word (x : Str) : Sent P vars (ty "Ident") [⟨(0 : Fin 3), x⟩] :=
  sent_term 0 ⟨some (ascii "Ident"), .path⟩ List.mem_cons_self rfl (by intro l h; cases h)
theorem sent_plus : Sent P vars (ty "OpAdd") [plus] :=
  sent_term 1 (lit "OpAdd" "+") List.mem_cons_self rfl (by intro l h; cases h; rfl)
theorem sent_times : Sent P vars (ty "OpMul") [times] :=
  sent_term 1 (lit "OpMul" "*") (List.mem_cons_of_mem _ List.mem_cons_self) rfl (by intro l h; cases h; rfl)
theorem sent_open : Sent P vars (ty "ParenOpen") [opening] :=
  sent_term 2 (lit "ParenOpen" "(") List.mem_cons_self rfl (by intro l h; cases h; rfl)
theorem sent_close : Sent P vars (ty "ParenClose") [closing] :=
  sent_term 2 (lit "ParenClose" ")") (List.mem_cons_of_mem _ List.mem_cons_self) rfl (by intro l h; cases h; rfl)

theorem sent_factor (hf : factor ∈ P.types) :
    (∀ x, Sent P vars (ty "F") [⟨(0 : Fin 3), x⟩]) ∧
    ∀ w, Sent P vars (ty "E") w → Sent P vars (ty "F") (opening :: w ++ [closing]) := by
  constructor
  · intro x
    exact .enum (d := factor) hf rfl List.mem_cons_self List.mem_cons_self (sent_word x)
  · intro w hw
    refine .enum (d := factor) hf rfl (List.mem_cons_of_mem _ List.mem_cons_self) List.mem_cons_self ?_
    refine .tuple (.inr (.inl ⟨_, _, _, rfl, rfl⟩)) ?_
    show SentSeq P vars _ ([opening] ++ (w ++ ([closing] ++ [])))
    exact .cons sent_open (.cons (.box hw) (.cons sent_close .nil))

end

/-! ## Expressions are sentences -/

/-- `X = A X'`, `X' = Option<Y>`, `Y = op A X'` -/
theorem sent_rest {P : Program} {A : List Tok → Prop} {op : Tok} {a y r o : String} {w : List Tok}
    (hA : ∀ w, A w → Sent P vars (ty a) w) (ho : Sent P vars (ty o) [op])
    (hr : tuple r [.option (ty y)] ∈ P.types)
    (hy : ∀ w, SentSeq P vars [ty o, ty a, .box (ty r)] w → Sent P vars (ty y) w) (h : Sep A op w) :
    SentSeq P vars [ty a, ty r] w := by
  have rest : ∀ w, Sent P vars (.option (ty y)) w → Sent P vars (ty r) w := by
    intro w hw
    refine .struct (d := tuple r [.option (ty y)]) hr rfl ?_
    have := SentSeq.cons hw .nil
    rwa [List.append_nil] at this
  induction h with
  | @one u h =>
    have := SentSeq.cons (hA u h) (.cons (rest [] .optNone) .nil)
    simpa using this
  | @more u v h _ ih =>
    have h1 : Sent P vars (ty y) (op :: v) := by
      refine hy _ (.cons (w := [op]) ho ?_)
      cases ih with
      | cons h2 h3 => cases h3 with
        | cons h4 h5 => exact .cons h2 (.cons (.box h4) h5)
    have := SentSeq.cons (hA u h) (.cons (rest _ (.optSome h1)) .nil)
    simpa using this

theorem recur_complete {w : List Tok} (h : Expr w) : Sent recur vars (ty "E") w := by
  have hF := sent_factor (P := recur) (by simp [recur])
  have hT : ∀ w, Sep (Sent recur vars (ty "F")) times w → Sent recur vars (ty "T") w := fun w hw =>
    .struct (d := named "T" false [("first", ty "F"), ("rest", ty "Tprime")]) (by simp [recur]) rfl
      (sent_rest (a := "F") (y := "Tstar") (r := "Tprime") (fun _ h => h) sent_times (by simp [recur])
        (fun w hw => .struct (d := named "Tstar" false [("op", ty "OpMul"), ("_f", ty "F"), ("rest", .box (ty "Tprime"))])
          (by simp [recur]) rfl hw) hw)
  have hE : ∀ w, Sep (Sep (Sent recur vars (ty "F")) times) plus w → Sent recur vars (ty "E") w := fun w hw =>
    .struct (d := named "E" true [("first", ty "T"), ("rest", ty "Eprime")]) (by simp [recur]) rfl
      (sent_rest (a := "T") (y := "Eplus") (r := "Eprime") hT sent_plus (by simp [recur])
        (fun w hw => .struct (d := named "Eplus" false [("op", ty "OpAdd"), ("_t", ty "T"), ("rest", .box (ty "Eprime"))])
          (by simp [recur]) rfl hw) hw)
  exact hE w (h.sep hF.1 fun w hw => hF.2 w (hE w hw))

/-- `X = Split<A, op>` -/
theorem sent_split {P : Program} {A : List Tok → Prop} {op : Tok} {a o : String} {w : List Tok}
    (hA : ∀ w, A w → Sent P vars (ty a) w) (ho : Sent P vars (ty o) [op]) (h : Sep A op w) :
    Sent P vars (.split (ty a) (ty o)) w := by
  suffices hs : ∃ k, SentSeq P vars (alternate (ty a) (ty o) (2 * k + 1)) w by
    obtain ⟨k, hk⟩ := hs
    exact .split hk
  induction h with
  | one h =>
    have := SentSeq.cons (hA _ h) .nil
    rw [List.append_nil] at this
    exact ⟨0, this⟩
  | more h _ ih =>
    obtain ⟨k, hk⟩ := ih
    exact ⟨k + 1, .cons (hA _ h) (.cons (w := [op]) ho hk)⟩

theorem simple_complete {w : List Tok} (h : Expr w) : Sent simple vars (ty "E") w := by
  have hF := sent_factor (P := simple) (by simp [simple])
  have one : ∀ {e w}, Sent simple vars e w → SentSeq simple vars [e] w := by
    intro e w h
    have := SentSeq.cons h .nil
    rwa [List.append_nil] at this
  have hT : ∀ w, Sep (Sent simple vars (ty "F")) times w → Sent simple vars (ty "T") w := fun w hw =>
    .struct (d := named "T" false [("factors", .split (ty "F") (ty "OpMul"))]) (by simp [simple]) rfl
      (one (sent_split (fun _ h => h) sent_times hw))
  have hE : ∀ w, Sep (Sep (Sent simple vars (ty "F")) times) plus w → Sent simple vars (ty "E") w := fun w hw =>
    .struct (d := named "E" true [("terms", .split (ty "T") (ty "OpAdd"))]) (by simp [simple]) rfl
      (one (sent_split hT sent_plus hw))
  exact hE w (h.sep hF.1 fun w hw => hF.2 w (hE w hw))

/-! ## Sentences are expressions -/

/-- What follows an expression and gives an expression. -/
def After (w : List Tok) : Prop := ∀ u, Expr u → Expr (u ++ w)

/-- What the types in the examples stand for. -/
def Lang : TyE → List Tok → Prop
  | .name s, w =>
    if s = ascii "E" ∨ s = ascii "T" ∨ s = ascii "F" ∨ s = ascii "Ident" then Expr w
    else if s = ascii "Eprime" ∨ s = ascii "Eplus" ∨ s = ascii "Tprime" ∨ s = ascii "Tstar" then After w
    else if s = ascii "OpAdd" then w = [plus]
    else if s = ascii "OpMul" then w = [times]
    else if s = ascii "ParenOpen" then w = [opening]
    else if s = ascii "ParenClose" then w = [closing]
    else True
  | .box e, w => Lang e w
  | .option e, w => w = [] ∨ Lang e w
  | .split e p, w => (∀ u, Lang e u → Expr u) → (∀ u, Lang p u → u = [plus] ∨ u = [times]) → Expr w
  | .tup3 a b c, w => ∃ u v x, w = u ++ (v ++ (x ++ [])) ∧ Lang a u ∧ Lang b v ∧ Lang c x
  | _, _ => True

def LangSeq : List TyE → List Tok → Prop
  | [], w => w = []
  | e :: es, w => ∃ u v, w = u ++ v ∧ Lang e u ∧ LangSeq es v

theorem lang_split {e p : TyE} (he : ∀ u, Lang e u → Expr u) (hp : ∀ u, Lang p u → u = [plus] ∨ u = [times]) :
    ∀ (k : Nat) (w : List Tok), LangSeq (alternate e p (2 * k + 1)) w → Expr w
  | 0, w, ⟨u, v, h1, h2, h3⟩ => by
    cases h3
    rw [h1, List.append_nil]
    exact he u h2
  | k + 1, w, ⟨u, v, h1, h2, x, y, h3, h4, h5⟩ => by
    have := lang_split he hp k y h5
    subst h1 h3
    rcases hp x h4 with rfl | rfl
    · exact .sum (he u h2) this
    · exact .product (he u h2) this

theorem lang_term {s : Str} {tok : Tok} {t : TMeta} (h1 : t ∈ vars[tok.ty.val].terms) (h2 : t.ident = some s)
    (h3 : ∀ l, t.lit = some l → tok.src = l) : Lang (.name s) [tok] := by
  obtain ⟨k, x⟩ := tok
  match k, h1 with
  | ⟨0, _⟩, h1 =>
    have h1 : t ∈ [(⟨some (ascii "Ident"), .path⟩ : TMeta)] := h1
    simp only [List.mem_cons, List.not_mem_nil, or_false] at h1
    subst h1
    cases h2
    simp only [Lang, or_true, if_true]
    exact .word x
  | ⟨1, _⟩, h1 =>
    have h1 : t ∈ [lit "OpAdd" "+", lit "OpMul" "*"] := h1
    simp only [List.mem_cons, List.not_mem_nil, or_false] at h1
    rcases h1 with rfl | rfl
    · cases h2
      cases h3 _ rfl
      exact rfl
    · cases h2
      cases h3 _ rfl
      exact rfl
  | ⟨2, _⟩, h1 =>
    have h1 : t ∈ [lit "ParenOpen" "(", lit "ParenClose" ")"] := h1
    simp only [List.mem_cons, List.not_mem_nil, or_false] at h1
    rcases h1 with rfl | rfl
    · cases h2
      cases h3 _ rfl
      exact rfl
    · cases h2
      cases h3 _ rfl
      exact rfl

section
variable {P : Program}
  (hs : ∀ d ∈ P.types, ∀ fs, d.data = .struct fs → ∀ w, LangSeq (fs.list.map FieldD.ty) w → Lang (.name d.ident) w)
  (he : ∀ d ∈ P.types, ∀ us, d.data = .enum us → ∀ u ∈ us, ∀ f ∈ u.fields.list, ∀ w, Lang f.ty w →
    Lang (.name d.ident) w)
include hs he

mutual
theorem lang : ∀ {e : TyE} {w : List Tok}, Sent P vars e w → Lang e w
  | _, _, .term h1 h2 h3 => lang_term h1 h2 h3
  | _, _, .struct h1 h2 h3 => hs _ h1 _ h2 _ (langSeq h3)
  | _, _, .enum h1 h2 h3 h4 h5 => he _ h1 _ h2 _ h3 _ h4 _ (lang h5)
  | _, _, .tuple h1 h2 => by
    have := langSeq h2
    rcases h1 with ⟨_, _, rfl, rfl⟩ | ⟨_, _, _, rfl, rfl⟩ | ⟨_, _, _, _, rfl, rfl⟩ | ⟨_, _, _, _, _, rfl, rfl⟩
    · trivial
    · obtain ⟨u, v, rfl, g1, v, x, rfl, g2, x, y, rfl, g3, rfl⟩ := this
      exact ⟨_, _, _, rfl, g1, g2, g3⟩
    · trivial
    · trivial
  | _, _, .box h => by have h := lang h; exact h
  | _, _, .quote _ => trivial
  | _, _, .parse _ => trivial
  | _, _, .optNone => .inl rfl
  | _, _, .optSome h => .inr (lang h)
  | _, _, .existNone => trivial
  | _, _, .existSome _ => trivial
  | _, _, .plus _ => trivial
  | _, _, .star _ => trivial
  | _, _, .loop _ => trivial
  | _, _, .split h => fun h1 h2 => lang_split h1 h2 _ _ (langSeq h)
  | _, _, .punct _ => trivial
  | _, _, .recover _ => trivial
theorem langSeq : ∀ {es : List TyE} {w : List Tok}, SentSeq P vars es w → LangSeq es w
  | _, _, .nil => rfl
  | _, _, .cons h h' => ⟨_, _, rfl, lang h, langSeq h'⟩
end
end

theorem lang_E {w : List Tok} : Lang (ty "E") w ↔ Expr w := Iff.rfl
theorem lang_T {w : List Tok} : Lang (ty "T") w ↔ Expr w := Iff.rfl
theorem lang_F {w : List Tok} : Lang (ty "F") w ↔ Expr w := Iff.rfl
theorem lang_Eprime {w : List Tok} : Lang (ty "Eprime") w ↔ After w := Iff.rfl
theorem lang_Tprime {w : List Tok} : Lang (ty "Tprime") w ↔ After w := Iff.rfl

theorem lang_factor {us : List (VariantD TyE)} (h : factor.data = .enum us) {u : VariantD TyE} (hu : u ∈ us)
    {f : FieldD TyE} (hf : f ∈ u.fields.list) {w : List Tok} (hw : Lang f.ty w) : Lang (ty "F") w := by
  cases h
  simp only [List.mem_cons, List.not_mem_nil, or_false] at hu
  rcases hu with rfl | rfl
  · have hf : f ∈ [(⟨[], ty "Ident", []⟩ : FieldD TyE)] := hf
    simp only [List.mem_cons, List.not_mem_nil, or_false] at hf
    subst hf
    exact hw
  · have hf : f ∈ [(⟨[], .tup3 (ty "ParenOpen") (.box (ty "E")) (ty "ParenClose"), []⟩ : FieldD TyE)] := hf
    simp only [List.mem_cons, List.not_mem_nil, or_false] at hf
    subst hf
    obtain ⟨u, v, x, rfl, h1, h2, h3⟩ := hw
    cases (show u = [opening] from h1)
    cases (show x = [closing] from h3)
    exact Expr.paren (show Expr v from h2)

theorem After.nil : After [] := fun u hu => by rwa [List.append_nil]

theorem recur_sound {w : List Tok} (h : Sent recur vars (ty "E") w) : Expr w := by
  refine lang (P := recur) ?_ ?_ h
  · intro d hd fs hfs w hw
    simp only [recur, List.mem_cons, List.not_mem_nil, or_false] at hd
    rcases hd with rfl | rfl | rfl | rfl | rfl | rfl | rfl <;> cases hfs
    · obtain ⟨u, v, rfl, h1, v, x, rfl, h2, rfl⟩ := hw
      have h1 : Expr u := h1
      have h2 : After v := h2
      show Expr _
      rw [List.append_nil]
      exact h2 u h1
    · obtain ⟨u, v, rfl, h1, rfl⟩ := hw
      have h1 : u = [] ∨ After u := h1
      show After _
      rw [List.append_nil]
      rcases h1 with rfl | h1
      · exact .nil
      · exact h1
    · obtain ⟨u, v, rfl, h1, v, x, rfl, h2, x, y, rfl, h3, rfl⟩ := hw
      cases (show u = [plus] from h1)
      have h2 : Expr v := h2
      have h3 : After x := h3
      intro u hu
      have := h3 _ (Expr.sum hu h2)
      simpa using this
    · obtain ⟨u, v, rfl, h1, v, x, rfl, h2, rfl⟩ := hw
      have h1 : Expr u := h1
      have h2 : After v := h2
      show Expr _
      rw [List.append_nil]
      exact h2 u h1
    · obtain ⟨u, v, rfl, h1, rfl⟩ := hw
      have h1 : u = [] ∨ After u := h1
      show After _
      rw [List.append_nil]
      rcases h1 with rfl | h1
      · exact .nil
      · exact h1
    · obtain ⟨u, v, rfl, h1, v, x, rfl, h2, x, y, rfl, h3, rfl⟩ := hw
      cases (show u = [times] from h1)
      have h2 : Expr v := h2
      have h3 : After x := h3
      intro u hu
      have := h3 _ (Expr.product hu h2)
      simpa using this
  · intro d hd us hus u hu f hf w hw
    simp only [recur, List.mem_cons, List.not_mem_nil, or_false] at hd
    rcases hd with rfl | rfl | rfl | rfl | rfl | rfl | rfl
    all_goals first | exact lang_factor hus hu hf hw | cases hus

theorem simple_sound {w : List Tok} (h : Sent simple vars (ty "E") w) : Expr w := by
  refine lang (P := simple) ?_ ?_ h
  · intro d hd fs hfs w hw
    simp only [simple, List.mem_cons, List.not_mem_nil, or_false] at hd
    rcases hd with rfl | rfl | rfl <;> cases hfs
    · obtain ⟨u, v, rfl, h1, rfl⟩ := hw
      show Expr _
      rw [List.append_nil]
      exact h1 (fun _ h => h) fun _ h => .inl h
    · obtain ⟨u, v, rfl, h1, rfl⟩ := hw
      show Expr _
      rw [List.append_nil]
      exact h1 (fun _ h => h) fun _ h => .inr h
  · intro d hd us hus u hu f hf w hw
    simp only [simple, List.mem_cons, List.not_mem_nil, or_false] at hd
    rcases hd with rfl | rfl | rfl
    all_goals first | exact lang_factor hus hu hf hw | cases hus

theorem recur_iff {w : List Tok} : Sent recur vars (ty "E") w ↔ Expr w := ⟨recur_sound, recur_complete⟩
theorem simple_iff {w : List Tok} : Sent simple vars (ty "E") w ↔ Expr w := ⟨simple_sound, simple_complete⟩

end Teleparse.Book

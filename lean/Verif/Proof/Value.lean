import Verif.Spec.Value
import Verif.Props.Book
/-
For C101: the values of trees of the examples of the book are the values of the expressions.
-/
namespace Teleparse.Book

section
variable {V : Type} {A : Alg V}

/-! ## Expressions as a first part and a rest -/

/-- `op u op u' ..`, with `a` to the left of it. -/
inductive Rest (Q : List Tok → V → Prop) (op : Tok) (f : V → V → V) : V → List Tok → V → Prop
  | nil {a} : Rest Q op f a [] a
  | cons {a u b w v} : Q u b → Rest Q op f (f a b) w v → Rest Q op f a (op :: (u ++ w)) v

theorem Rest.snoc {Q : List Tok → V → Prop} {op : Tok} {f : V → V → V} {a v b : V} {w u : List Tok}
    (h : Rest Q op f a w v) (hu : Q u b) : Rest Q op f a (w ++ op :: u) (f v b) := by
  induction h with
  | @nil a =>
    have := Rest.cons (a := a) (op := op) (f := f) hu .nil
    rw [List.append_nil] at this
    exact this
  | cons h _ ih =>
    rw [List.cons_append, List.append_assoc]
    exact .cons h ih

/-- A first part and a rest. -/
def Chain (Q : List Tok → V → Prop) (op : Tok) (f : V → V → V) (w : List Tok) (v : V) : Prop :=
  ∃ u a w', w = u ++ w' ∧ Q u a ∧ Rest Q op f a w' v

theorem Value.chain : ∀ {l : Level} {w : List Tok} {v : V}, Value A l w v → match l with
    | .factor => True
    | .product => Chain (Value A .factor) Book.times A.mul w v
    | .sum => Chain (Value A .product) Book.plus A.add w v := by
  intro l w v h
  induction h with
  | word | paren => trivial
  | factor h => exact ⟨_, _, [], (List.append_nil _).symm, h, .nil⟩
  | product h => exact ⟨_, _, [], (List.append_nil _).symm, h, .nil⟩
  | times _ h ih =>
    obtain ⟨u, a, w', rfl, h1, h2⟩ := ih
    exact ⟨u, a, _, List.append_assoc _ _ _, h1, h2.snoc h⟩
  | plus _ h ih =>
    obtain ⟨u, a, w', rfl, h1, h2⟩ := ih
    exact ⟨u, a, _, List.append_assoc _ _ _, h1, h2.snoc h⟩

theorem Chain.product {w : List Tok} {v : V} (h : Chain (Value A .factor) Book.times A.mul w v) : Value A .product w v := by
  obtain ⟨u, a, w, rfl, h1, h2⟩ := h
  replace h1 := Value.factor h1
  induction h2 generalizing u with
  | nil => rw [List.append_nil]; exact h1
  | cons h _ ih =>
    have := ih _ (.times h1 h)
    simpa using this

theorem Chain.sum {w : List Tok} {v : V} (h : Chain (Value A .product) Book.plus A.add w v) : Value A .sum w v := by
  obtain ⟨u, a, w, rfl, h1, h2⟩ := h
  replace h1 := Value.product h1
  induction h2 generalizing u with
  | nil => rw [List.append_nil]; exact h1
  | cons h _ ih =>
    have := ih _ (.plus h1 h)
    simpa using this

/-! ## One value -/

/-- Values are determined, also of what is before `r`. -/
def One (Q : List Tok → V → Prop) (ok : List Tok → Prop) (k : Nat) : Prop :=
  ∀ u u' v v' r r', u.length ≤ k → Q u v → Q u' v' → u ++ r = u' ++ r' → ok r → ok r' → u = u' ∧ v = v'

/-- Does not begin with `op`. -/
def Not (op : Tok) (r : List Tok) : Prop := r.head? ≠ some op

theorem Rest.one {Q : List Tok → V → Prop} {op : Tok} {f : V → V → V} {ok ok' : List Tok → Prop} {k : Nat}
    (hQ : One Q ok k) (h1 : ∀ w, ok (op :: w)) (h2 : ∀ w, ok' w → ok w ∧ Not op w) {a v v' : V} {w w' r r' : List Tok}
    (hk : w.length ≤ k) (h : Rest Q op f a w v) (h' : Rest Q op f a w' v') (he : w ++ r = w' ++ r') (hr : ok' r)
    (hr' : ok' r') : w = w' ∧ v = v' := by
  have after : ∀ {a w v r}, Rest Q op f a w v → ok' r → ok (w ++ r) := by
    intro a w v r h hr
    cases h with
    | nil => exact (h2 r hr).1
    | cons => exact h1 _
  induction h generalizing w' v' with
  | nil =>
    cases h' with
    | nil => exact ⟨rfl, rfl⟩
    | cons =>
      rw [List.nil_append] at he
      subst he
      exact absurd rfl (h2 _ hr).2
  | @cons a u b w v hu h ih =>
    cases h' with
    | nil =>
      rw [List.nil_append] at he
      subst he
      exact absurd rfl (h2 _ hr').2
    | @cons _ u' b' w' _ hu' h' =>
      simp only [List.cons_append, List.append_assoc, List.cons.injEq, true_and] at he
      simp only [List.length_cons, List.length_append] at hk
      obtain ⟨rfl, rfl⟩ := hQ u u' b b' _ _ (by omega) hu hu' he (after h hr) (after h' hr')
      obtain ⟨rfl, rfl⟩ := ih (by omega) h' (List.append_cancel_left he)
      exact ⟨rfl, rfl⟩

theorem Chain.one {Q : List Tok → V → Prop} {op : Tok} {f : V → V → V} {ok ok' : List Tok → Prop} {k : Nat}
    (hQ : One Q ok k) (h1 : ∀ w, ok (op :: w)) (h2 : ∀ w, ok' w → ok w ∧ Not op w) : One (Chain Q op f) ok' k := by
  rintro _ _ v v' r r' hk ⟨u, a, w, rfl, g1, g2⟩ ⟨u', a', w', rfl, g1', g2'⟩ he hr hr'
  rw [List.length_append] at hk
  have after : ∀ {a w v r}, Rest Q op f a w v → ok' r → ok (w ++ r) := by
    intro a w v r h hr
    cases h with
    | nil => exact (h2 r hr).1
    | cons => exact h1 _
  rw [List.append_assoc, List.append_assoc] at he
  obtain ⟨rfl, rfl⟩ := hQ u u' a a' _ _ (by omega) g1 g1' he (after g2 hr) (after g2' hr')
  obtain ⟨rfl, rfl⟩ := g2.one hQ h1 h2 (by omega) g2' (List.append_cancel_left he) hr hr'
  exact ⟨rfl, rfl⟩

def okSum (r : List Tok) : Prop := Not plus r ∧ Not times r

theorem one_sum : ∀ k, One (Value A .sum) okSum k := by
  intro k
  induction k with
  | zero =>
    intro u u' v v' r r' hk h _ _ _ _
    have : ∀ {l w v}, Value A l w v → w ≠ [] := by
      intro l w v h
      induction h <;> simp_all
    exact absurd (List.length_eq_zero_iff.1 (Nat.le_zero.1 hk)) (this h)
  | succ k ih =>
    have hf : One (Value A .factor) (fun _ => True) (k + 1) := by
      intro u u' v v' r r' hk h h' he _ _
      cases h with
      | word s =>
        cases h' with
        | word s' =>
          simp only [List.cons_append, List.nil_append, List.cons.injEq] at he
          cases he.1
          exact ⟨rfl, rfl⟩
        | paren => cases he
      | @paren u _ h =>
        cases h' with
        | word s' => cases he
        | @paren u' _ h' =>
          simp only [List.cons_append, List.append_assoc, List.cons.injEq, true_and, List.nil_append] at he
          simp only [List.cons_append, List.length_cons, List.length_append] at hk
          have hok : ∀ r, okSum (closing :: r) := fun r => by
            constructor <;> intro h <;> cases h
          obtain ⟨rfl, rfl⟩ := ih u u' v v' _ _ (by omega) h h' he (hok _) (hok _)
          exact ⟨rfl, rfl⟩
    have hp : One (Value A .product) (Not times) (k + 1) := by
      intro u u' v v' r r' hk h h'
      exact (Chain.one hf (fun _ => trivial) fun w hw => ⟨trivial, hw⟩) u u' v v' r r' hk h.chain h'.chain
    intro u u' v v' r r' hk h h'
    refine (Chain.one hp (fun w => ?_) fun w hw => ⟨hw.2, hw.1⟩) u u' v v' r r' hk h.chain h'.chain
    intro h
    exact absurd (Option.some.inj h) (by decide)

theorem Value.expr {l : Level} {w : List Tok} {v : V} (h : Value A l w v) : Expr w := by
  induction h with
  | word s => exact .word s
  | paren _ ih => exact .paren ih
  | factor _ ih => exact ih
  | product _ ih => exact ih
  | times _ _ ih1 ih2 => exact .product ih1 ih2
  | plus _ _ ih1 ih2 => exact .sum ih1 ih2

theorem Sep.mono {P Q : List Tok → Prop} {op : Tok} (h : ∀ w, P w → Q w) {w : List Tok} (hw : Sep P op w) :
    Sep Q op w := by
  induction hw with
  | one hu => exact .one (h _ hu)
  | more hu _ ih => exact .more (h _ hu) ih

theorem Sep.chain {Q : List Tok → V → Prop} {op : Tok} {f : V → V → V} {w : List Tok}
    (h : Sep (fun w => ∃ v, Q w v) op w) : ∃ v, Chain Q op f w v := by
  have rest : ∀ {w}, Sep (fun w => ∃ v, Q w v) op w → ∀ a, ∃ v, Rest Q op f a (op :: w) v := by
    intro w h
    induction h with
    | one hu =>
      intro a
      obtain ⟨b, hb⟩ := hu
      have := Rest.cons (a := a) (op := op) (f := f) hb .nil
      rw [List.append_nil] at this
      exact ⟨_, this⟩
    | more hu _ ih =>
      intro a
      obtain ⟨b, hb⟩ := hu
      obtain ⟨v, hv⟩ := ih (f a b)
      exact ⟨v, .cons hb hv⟩
  cases h with
  | one hu =>
    obtain ⟨a, ha⟩ := hu
    exact ⟨a, _, a, [], (List.append_nil _).symm, ha, .nil⟩
  | more hu h =>
    obtain ⟨a, ha⟩ := hu
    obtain ⟨v, hv⟩ := rest h a
    exact ⟨v, _, a, _, rfl, ha, hv⟩

theorem sep_value {w : List Tok} (h : Sep (Sep (fun w => ∃ v, Value A .factor w v) times) plus w) :
    ∃ v, Value A .sum w v := by
  have h : Sep (fun w => ∃ v, Value A .product w v) plus w := h.mono fun _ h =>
    let ⟨v, hv⟩ := Sep.chain (f := A.mul) h
    ⟨v, hv.product⟩
  obtain ⟨v, hv⟩ := Sep.chain (f := A.add) h
  exact ⟨v, hv.sum⟩

/-! ## Values of trees -/

variable {m : Nat} {S : Schema m 3} {source : Str}

/-- The tokens of cells. -/
def wds (source : Str) (c : List (Cell 3)) : List Tok := wordOf (n := 3) source c

theorem wds_append {c d : List (Cell 3)} : wds source (c ++ d) = wds source c ++ wds source d :=
  List.map_append

theorem wds_one {t : Token 3} : wds source [Cell.ofToken t] = [(⟨t.ty, textOf source t.span⟩ : Tok)] := rfl

/-- The elements after the first of a list. -/
theorem rest_value {t p : Ty m 3} {op : Tok} {ev : Tree 3 → Option V} {Q : List Tok → V → Prop} (f : V → V → V)
    (hp : ∀ pos c y, Parses S source pos p c y → wds source c = [op]) :
    ∀ (es ps : List (Tree 3)) pos cs, es.length = ps.length →
      ParsesSeq S source pos (alternate p t (ps.length + es.length)) cs (interleave ps es) →
      (∀ x ∈ es, ∀ pos c, Parses S source pos t c x → ∃ v, ev x = some v ∧ Q (wds source c) v) → ∀ a,
      ∃ v, Rest Q op f a (wds source cs.flatten) v ∧
        (es.map ev).foldl (fun a b => a.bind fun a => b.map fun b => f a b) (some a) = some v
  | [], [], pos, cs, _, h, _, a => by
    simp only [List.length_nil, alternate, interleave] at h
    cases h
    exact ⟨a, .nil, rfl⟩
  | e :: es, q :: ps, pos, cs, hl, h, hev, a => by
    have hl : es.length = ps.length := by simpa using hl
    rw [show (q :: ps).length + (e :: es).length = ps.length + es.length + 1 + 1 by simp; omega] at h
    simp only [alternate, interleave] at h
    cases h with
    | cons h1 h2 => cases h2 with
      | cons h3 h4 =>
        obtain ⟨b, hb, hq⟩ := hev e List.mem_cons_self _ _ h3
        obtain ⟨v, g1, g2⟩ := rest_value f hp es ps _ _ hl h4 (fun x hx => hev x (List.mem_cons_of_mem _ hx)) (f a b)
        refine ⟨v, ?_, ?_⟩
        · simp only [List.flatten_cons, wds_append, hp _ _ _ h1, List.singleton_append]
          exact .cons hq g1
        · simp only [List.map_cons, List.foldl_cons, hb, Option.bind_some, Option.map_some]
          exact g2
  | [], _ :: _, _, _, hl, _, _, _ => by cases hl
  | _ :: _, [], _, _, hl, _, _, _ => by cases hl

theorem split_value {t p : Ty m 3} {op : Tok} {ev : Tree 3 → Option V} {Q : List Tok → V → Prop} (f : V → V → V)
    (hp : ∀ pos c y, Parses S source pos p c y → wds source c = [op])
    {es ps : List (Tree 3)} {pos : Nat} {cs : List (List (Cell 3))} (hl : es.length = ps.length + 1)
    (h : ParsesSeq S source pos (alternate t p (es.length + ps.length)) cs (interleave es ps))
    (hev : ∀ x ∈ es, ∀ pos c, Parses S source pos t c x → ∃ v, ev x = some v ∧ Q (wds source c) v) :
    ∃ v, reduce f (es.map ev) = some v ∧ Chain Q op f (wds source cs.flatten) v := by
  cases es with
  | nil => cases hl
  | cons e es =>
    have hl : es.length = ps.length := by simpa using hl
    rw [show (e :: es).length + ps.length = ps.length + es.length + 1 by simp; omega] at h
    simp only [alternate, interleave] at h
    cases h with
    | cons h1 h2 =>
      obtain ⟨a, ha, hq⟩ := hev e List.mem_cons_self _ _ h1
      obtain ⟨v, g1, g2⟩ := rest_value f hp es ps _ _ hl h2 (fun x hx => hev x (List.mem_cons_of_mem _ hx)) a
      refine ⟨v, ?_, _, a, _, ?_, hq, g1⟩
      · simp only [List.map_cons, reduce, ha]
        exact g2
      · simp only [List.flatten_cons, wds_append]

theorem parses_lit {i : Nat} {k : Fin 3} {l : Str} {pos : Nat} {c : List (Cell 3)} {y : Tree 3}
    (h : Parses S source pos (.term i ⟨k, some l⟩) c y) : wds source c = [(⟨k, l⟩ : Tok)] := by
  cases h with
  | term h =>
    obtain ⟨h1, h2⟩ := h
    have h2 := h2 l rfl
    dsimp only at h1 h2
    rw [wds_one, h1, h2]
  | tuple h => rcases h with ⟨_, _, h, _⟩ | ⟨_, _, _, h, _⟩ | ⟨_, _, _, _, h, _⟩ | ⟨_, _, _, _, _, h, _⟩ <;> cases h

theorem not_tuple {k : Fin m} {ts : List (Ty m 3)} (h : (Ty.user k : Ty m 3).isTuple ts) : False := by
  rcases h with ⟨_, _, h, _⟩ | ⟨_, _, _, h, _⟩ | ⟨_, _, _, _, h, _⟩ | ⟨_, _, _, _, _, h, _⟩ <;> cases h

theorem simpleTs_map {ts : List (Tree 3)} : simpleTs A source ts = ts.map (simpleT A source) := by
  induction ts with
  | nil => simp only [simpleTs, List.map_nil]
  | cons t ts ih => simp only [simpleTs, List.map_cons, ih]

theorem simpleFs_map {ts : List (Tree 3)} : simpleFs A source ts = ts.map (simpleF A source) := by
  induction ts with
  | nil => simp only [simpleFs, List.map_nil]
  | cons t ts ih => simp only [simpleFs, List.map_cons, ih]

theorem addAll_one {c : List (Cell 3)} : addAll [c] [none] = c := by
  have : (Cell.add none : Cell 3 → Cell 3) = id := rfl
  simp only [addAll, List.append_nil, this, List.map_id]

/-- `F` of both examples. -/
theorem factor_value {k e : Fin m} (hk : S k = .enum (word, none) [(.tup3 parenOpen (.box (.user e)) parenClose, none)])
    {ev : Tree 3 → Option V} {evF : Tree 3 → Option V}
    (h1 : ∀ t, evF (.variant 0 (.tok t)) = some (A.word (textOf source t.span)))
    (h2 : ∀ sp a x b, evF (.variant 1 (.seq sp [a, x, b])) = ev x) {x : Tree 3}
    (hev : ∀ y, sizeOf y < sizeOf x → ∀ pos c, Parses S source pos (.user e) c y →
      ∃ v, ev y = some v ∧ Value A .sum (wds source c) v)
    {pos : Nat} {c : List (Cell 3)} (h : Parses S source pos (.user k) c x) :
    ∃ v, evF x = some v ∧ Value A .factor (wds source c) v := by
  cases h with
  | struct h => rw [hk] at h; cases h
  | tuple h => exact (not_tuple h).elim
  | @enum _ _ f fs i t sem c x h g1 g2 =>
    rw [hk] at h
    cases h
    match i with
    | 0 =>
      cases g1
      cases g2 with
      | tuple h => rcases h with ⟨_, _, h, _⟩ | ⟨_, _, _, h, _⟩ | ⟨_, _, _, _, h, _⟩ | ⟨_, _, _, _, _, h, _⟩ <;> cases h
      | @term _ _ _ t hm =>
        refine ⟨_, h1 t, ?_⟩
        obtain ⟨ht, _⟩ := hm
        dsimp only at ht
        have : (Cell.add none : Cell 3 → Cell 3) = id := rfl
        rw [this, List.map_id, wds_one, ht]
        exact .word _
    | 1 =>
      cases g1
      cases g2 with
      | tuple h g =>
        rcases h with ⟨_, _, h, _⟩ | ⟨_, _, _, h, rfl⟩ | ⟨_, _, _, _, h, _⟩ | ⟨_, _, _, _, _, h, _⟩ <;> cases h
        cases g with
        | cons g1 g => cases g with
          | cons g2 g => cases g with
            | cons g3 g =>
              cases g
              cases g2 with
              | tuple h =>
                rcases h with ⟨_, _, h, _⟩ | ⟨_, _, _, h, _⟩ | ⟨_, _, _, _, h, _⟩ | ⟨_, _, _, _, _, h, _⟩ <;> cases h
              | box g2 =>
                rw [h2]
                obtain ⟨v, hv, hq⟩ := hev _ (by simp; omega) _ _ g2
                refine ⟨v, hv, ?_⟩
                have : (Cell.add none : Cell 3 → Cell 3) = id := rfl
                simp only [this, List.map_id, List.flatten_cons, List.flatten_nil, List.append_nil, wds_append,
                  parses_lit g1, parses_lit g3]
                exact .paren hq
    | i + 2 => cases g1

theorem simple_value : ∀ (k : Nat) (x : Tree 3), sizeOf x < k → ∀ pos c, Parses simpleS source pos (.user 0) c x →
    ∃ v, simpleE A source x = some v ∧ Value A .sum (wds source c) v := by
  intro k
  induction k with
  | zero => intro x hx; cases hx
  | succ k ih =>
    intro x hx pos c h
    have hF : ∀ y, sizeOf y < sizeOf x → ∀ pos c, Parses simpleS source pos (.user 2) c y →
        ∃ v, simpleF A source y = some v ∧ Value A .factor (wds source c) v := by
      intro y hy pos c h
      refine factor_value (S := simpleS) (k := 2) (e := 0) rfl (ev := simpleE A source) (fun t => by simp only [simpleF])
        (fun _ _ _ _ => by simp only [simpleF]) (fun z hz => ih z (by omega)) h
    have hT : ∀ y, sizeOf y < sizeOf x → ∀ pos c, Parses simpleS source pos (.user 1) c y →
        ∃ v, simpleT A source y = some v ∧ Value A .product (wds source c) v := by
      intro y hy pos c h
      cases h with
      | enum h => cases h
      | tuple h => exact (not_tuple h).elim
      | struct h g =>
        cases h
        cases g with
        | cons g g' =>
          cases g'
          cases g with
          | tuple h =>
            rcases h with ⟨_, _, h, _⟩ | ⟨_, _, _, h, _⟩ | ⟨_, _, _, _, h, _⟩ | ⟨_, _, _, _, _, h, _⟩ <;> cases h
          | @split _ _ _ cs es ps hl g =>
            obtain ⟨v, hv, hc⟩ := split_value (op := times) (ev := simpleF A source) (Q := Value A .factor) A.mul
              (fun _ _ _ h => parses_lit h) hl g (fun z hz pos c h => hF z (by
                have := List.sizeOf_lt_of_mem hz
                simp at hy
                omega) pos c h)
            refine ⟨v, ?_, ?_⟩
            · simp only [simpleT, simpleFs_map, hv]
            · rw [show addAll [cs.flatten] ([((.split (.user 2) opMul : Ty 3 3), none)].map (·.2)) = cs.flatten from
                addAll_one]
              exact hc.product
    cases h with
    | enum h => cases h
    | tuple h => exact (not_tuple h).elim
    | struct h g =>
      cases h
      cases g with
      | cons g g' =>
        cases g'
        cases g with
        | tuple h =>
          rcases h with ⟨_, _, h, _⟩ | ⟨_, _, _, h, _⟩ | ⟨_, _, _, _, h, _⟩ | ⟨_, _, _, _, _, h, _⟩ <;> cases h
        | @split _ _ _ cs es ps hl g =>
          obtain ⟨v, hv, hc⟩ := split_value (op := plus) (ev := simpleT A source) (Q := Value A .product) A.add
            (fun _ _ _ h => parses_lit h) hl g (fun z hz pos c h => hT z (by
              have := List.sizeOf_lt_of_mem hz
              simp
              omega) pos c h)
          refine ⟨v, ?_, ?_⟩
          · simp only [simpleE, simpleTs_map, hv]
          · rw [show addAll [cs.flatten] ([((.split (.user 1) opAdd : Ty 3 3), none)].map (·.2)) = cs.flatten from
              addAll_one]
            exact hc.sum

theorem addAll_none : ∀ {cs : List (List (Cell 3))}, addAll cs (List.replicate cs.length none) = cs.flatten
  | [] => rfl
  | c :: cs => by
    have : (Cell.add none : Cell 3 → Cell 3) = id := rfl
    simp only [List.length_cons, List.replicate_succ, addAll, this, List.map_id, addAll_none, List.flatten_cons]

/-- `X' = Option<Y>`, `Y = op Q X'` -/
theorem recur_rest {q r s : Fin m} {op : Tok} {p : Ty m 3} (hr : S r = .struct (.option (.user s), none) [])
    (hs : S s = .struct (p, none) [(.user q, none), (.box (.user r), none)])
    (hp : ∀ pos c y, Parses S source pos p c y → wds source c = [op]) (f : V → V → V)
    {evQ : Tree 3 → Option V} {evR : V → Tree 3 → Option V} {Q : List Tok → V → Prop}
    (h1 : ∀ a sp sp', evR a (.seq sp [.optNone sp']) = some a)
    (h2 : ∀ a sp sp' sp'' o t y, evR a (.seq sp [.optSome sp' (.seq sp'' [o, t, y])]) =
      (evQ t).bind fun b => evR (f a b) y)
    (k : Nat) (hev : ∀ y, sizeOf y < k → ∀ pos c, Parses S source pos (.user q) c y →
      ∃ v, evQ y = some v ∧ Q (wds source c) v) :
    ∀ (j : Nat) (x : Tree 3), sizeOf x < j → sizeOf x < k → ∀ pos c a, Parses S source pos (.user r) c x →
      ∃ v, evR a x = some v ∧ Rest Q op f a (wds source c) v := by
  intro j
  induction j with
  | zero => intro x hx; cases hx
  | succ j ih =>
    intro x hj hk pos c a h
    cases h with
    | enum h => rw [hr] at h; cases h
    | tuple h => exact (not_tuple h).elim
    | struct h g =>
      rw [hr] at h
      cases h
      cases g with
      | cons g g' =>
        cases g'
        rw [show ([((.option (.user s) : Ty m 3), (none : Option (LSet 3)))].map (·.2)) = [none] from rfl, addAll_one]
        cases g with
        | tuple h =>
          rcases h with ⟨_, _, h, _⟩ | ⟨_, _, _, h, _⟩ | ⟨_, _, _, _, h, _⟩ | ⟨_, _, _, _, _, h, _⟩ <;> cases h
        | optNone => exact ⟨a, h1 _ _ _, .nil⟩
        | optSome g =>
          cases g with
          | enum h => rw [hs] at h; cases h
          | tuple h => exact (not_tuple h).elim
          | struct h g =>
            rw [hs] at h
            cases h
            cases g with
            | cons g1 g => cases g with
              | cons g2 g => cases g with
                | cons g3 g =>
                  cases g
                  cases g3 with
                  | tuple h =>
                    rcases h with ⟨_, _, h, _⟩ | ⟨_, _, _, h, _⟩ | ⟨_, _, _, _, h, _⟩ | ⟨_, _, _, _, _, h, _⟩ <;> cases h
                  | box g3 =>
                    simp at hj hk
                    obtain ⟨b, hb, hq⟩ := hev _ (by omega) _ _ g2
                    obtain ⟨v, hv, hrest⟩ := ih _ (by omega) (by omega) _ _ (f a b) g3
                    refine ⟨v, by rw [h2, hb]; exact hv, ?_⟩
                    rw [show ∀ u v w : List (Cell 3), addAll [u, v, w] ([((p : Ty m 3), (none : Option (LSet 3))),
                      (.user q, none), (.box (.user r), none)].map (·.2)) = [u, v, w].flatten from
                      fun u v w => addAll_none (cs := [u, v, w])]
                    simp only [List.flatten_cons, List.flatten_nil, List.append_nil, wds_append, hp _ _ _ g1,
                      List.singleton_append]
                    exact .cons hq hrest

/-- `X = Q X'` -/
theorem recur_chain {x q r s : Fin m} {op : Tok} {p : Ty m 3} (hx : S x = .struct (.user q, none) [(.user r, none)])
    (hr : S r = .struct (.option (.user s), none) [])
    (hs : S s = .struct (p, none) [(.user q, none), (.box (.user r), none)])
    (hp : ∀ pos c y, Parses S source pos p c y → wds source c = [op]) (f : V → V → V)
    {ev evQ : Tree 3 → Option V} {evR : V → Tree 3 → Option V} {Q : List Tok → V → Prop}
    (h0 : ∀ sp t y, ev (.seq sp [t, y]) = (evQ t).bind fun a => evR a y)
    (h1 : ∀ a sp sp', evR a (.seq sp [.optNone sp']) = some a)
    (h2 : ∀ a sp sp' sp'' o t y, evR a (.seq sp [.optSome sp' (.seq sp'' [o, t, y])]) =
      (evQ t).bind fun b => evR (f a b) y)
    (k : Nat) (hev : ∀ y, sizeOf y < k → ∀ pos c, Parses S source pos (.user q) c y →
      ∃ v, evQ y = some v ∧ Q (wds source c) v)
    {z : Tree 3} (hz : sizeOf z ≤ k) {pos : Nat} {c : List (Cell 3)} (h : Parses S source pos (.user x) c z) :
    ∃ v, ev z = some v ∧ Chain Q op f (wds source c) v := by
  cases h with
  | enum h => rw [hx] at h; cases h
  | tuple h => exact (not_tuple h).elim
  | struct h g =>
    rw [hx] at h
    cases h
    cases g with
    | cons g1 g => cases g with
      | cons g2 g =>
        cases g
        simp at hz
        obtain ⟨a, ha, hq⟩ := hev _ (by omega) _ _ g1
        obtain ⟨v, hv, hrest⟩ := recur_rest hr hs hp f h1 h2 k hev _ _ (Nat.lt_succ_self _) (by omega) _ _ a g2
        refine ⟨v, by rw [h0, ha]; exact hv, _, a, _, ?_, hq, hrest⟩
        rw [show ∀ u v : List (Cell 3), addAll [u, v] ([((.user q : Ty m 3), (none : Option (LSet 3))),
          (.user r, none)].map (·.2)) = [u, v].flatten from fun u v => addAll_none (cs := [u, v])]
        simp only [List.flatten_cons, List.flatten_nil, List.append_nil, wds_append]

theorem recur_value : ∀ (k : Nat) (x : Tree 3), sizeOf x < k → ∀ pos c, Parses recurS source pos (.user 0) c x →
    ∃ v, recurE A source x = some v ∧ Value A .sum (wds source c) v := by
  intro k
  induction k with
  | zero => intro x hx; cases hx
  | succ k ih =>
    intro x hx pos c h
    have hF : ∀ y, sizeOf y < sizeOf x → ∀ pos c, Parses recurS source pos (.user 6) c y →
        ∃ v, recurF A source y = some v ∧ Value A .factor (wds source c) v := by
      intro y hy pos c h
      refine factor_value (S := recurS) (k := 6) (e := 0) rfl (ev := recurE A source) (fun t => by simp only [recurF])
        (fun _ _ _ _ => by simp only [recurF]) (fun z hz => ih z (by omega)) h
    have hT : ∀ y, sizeOf y < sizeOf x → ∀ pos c, Parses recurS source pos (.user 3) c y →
        ∃ v, recurT A source y = some v ∧ Value A .product (wds source c) v := by
      intro y hy pos c h
      obtain ⟨v, hv, hc⟩ := recur_chain (S := recurS) (x := 3) (q := 6) (r := 4) (s := 5) (op := times) rfl rfl rfl
        (fun _ _ _ h => parses_lit h) A.mul (ev := recurT A source) (evQ := recurF A source) (evR := recurT' A source)
        (fun _ _ _ => by simp only [recurT]) (fun _ _ _ => by simp only [recurT'])
        (fun _ _ _ _ _ _ _ => by simp only [recurT']) _ hF (Nat.le_of_lt hy) h
      exact ⟨v, hv, hc.product⟩
    obtain ⟨v, hv, hc⟩ := recur_chain (S := recurS) (x := 0) (q := 3) (r := 1) (s := 2) (op := plus) rfl rfl rfl
      (fun _ _ _ h => parses_lit h) A.add (ev := recurE A source) (evQ := recurT A source) (evR := recurE' A source)
      (fun _ _ _ => by simp only [recurE]) (fun _ _ _ => by simp only [recurE'])
      (fun _ _ _ _ _ _ _ => by simp only [recurE']) _ hT (Nat.le_refl _) h
    exact ⟨v, hv, hc.sum⟩

end
end Teleparse.Book

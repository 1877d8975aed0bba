import Verif.Model.Debug
import Verif.Spec.Debug
import Verif.Proof.Message
import Verif.Proof.Sets
/-
Reading back `Debug` texts.
-/
namespace Teleparse
variable {n : Nat}

/-- `x` is empty or does not go on with a `P`. -/
def Stops (P : Nat → Prop) (x : Str) : Prop := ∀ c l, x = c :: l → ¬ P c

theorem Stops.nil (P : Nat → Prop) : Stops P [] := by intro c l h; cases h

theorem Stops.cons {P : Nat → Prop} {c : Nat} {l : Str} (h : ¬ P c) : Stops P (c :: l) := by
  intro d m he; cases he; exact h

theorem run_split {P : Nat → Prop} (a : Str) : ∀ b x y : Str, (∀ c ∈ a, P c) → (∀ c ∈ b, P c) → Stops P x → Stops P y →
    a ++ x = b ++ y → a = b ∧ x = y := by
  induction a with
  | nil =>
    intro b x y _ hb hx _ he
    cases b with
    | nil => exact ⟨rfl, he⟩
    | cons c b => exact absurd (hb c (by simp)) (hx c _ he)
  | cons c a ih =>
    intro b x y ha hb hx hy he
    cases b with
    | nil => exact absurd (ha c (by simp)) (hy c _ he.symm)
    | cons d b =>
      simp only [List.cons_append, List.cons.injEq] at he
      obtain ⟨rfl, he⟩ := he
      obtain ⟨rfl, h2⟩ := ih b x y (fun c hc => ha c (by simp [hc])) (fun c hc => hb c (by simp [hc])) hx hy he
      exact ⟨rfl, h2⟩

/-! ### Numbers -/

def Digit (c : Nat) : Prop := 48 ≤ c ∧ c ≤ 57

theorem dec_digits (k : Nat) : ∀ c ∈ dec k, Digit c := by
  induction k using Nat.strongRecOn with
  | _ k ih =>
    intro c hc
    rw [dec] at hc
    split at hc
    · simp at hc; subst hc; constructor <;> omega
    · rcases List.mem_append.1 hc with h | h
      · exact ih (k / 10) (by omega) c h
      · simp at h; subst h; constructor <;> omega

def undec (l : Str) : Nat := l.foldl (fun a c => a * 10 + (c - 48)) 0

theorem undec_dec (k : Nat) : undec (dec k) = k := by
  induction k using Nat.strongRecOn with
  | _ k ih =>
    rw [dec]
    split
    · simp [undec]
    · have := ih (k / 10) (by omega)
      unfold undec at this ⊢
      rw [List.foldl_append, this]
      simp
      omega

theorem dec_ne_nil (k : Nat) : dec k ≠ [] := by
  rw [dec]; split <;> simp

theorem dec_split {a b : Nat} {x y : Str} (hx : Stops Digit x) (hy : Stops Digit y) (h : dec a ++ x = dec b ++ y) :
    a = b ∧ x = y := by
  obtain ⟨h1, h2⟩ := run_split _ _ _ _ (dec_digits a) (dec_digits b) hx hy h
  refine ⟨?_, h2⟩
  rw [← undec_dec a, h1, undec_dec]

theorem span_split {s t : Span} {x y : Str} (hx : Stops (fun c => Digit c ∨ c = 46) x)
    (hy : Stops (fun c => Digit c ∨ c = 46) y) (h : s.debug ++ x = t.debug ++ y) : s.Alike t ∧ x = y := by
  have dx : Stops Digit x := fun c l he hc => hx c l he (.inl hc)
  have dy : Stops Digit y := fun c l he hc => hy c l he (.inl hc)
  have d46 : ∀ l, Stops Digit (46 :: l) := fun l => Stops.cons (by simp [Digit])
  have hdots : ascii ".." = [46, 46] := by decide
  unfold Span.debug at h
  rw [hdots] at h
  split at h
  · rename_i h1
    split at h
    · rename_i h2
      obtain ⟨ha, hb⟩ := dec_split dx dy h
      exact ⟨⟨ha, .inr ⟨h1, h2⟩⟩, hb⟩
    · simp only [List.append_assoc] at h
      obtain ⟨_, hb⟩ := dec_split dx (d46 _) h
      exact absurd (.inr rfl) (hx 46 _ hb)
  · split at h
    · simp only [List.append_assoc] at h
      obtain ⟨_, hb⟩ := dec_split (d46 _) dy h
      exact absurd (.inr rfl) (hy 46 _ hb.symm)
    · simp only [List.append_assoc] at h
      obtain ⟨ha, hb⟩ := dec_split (d46 _) (d46 _) h
      replace hb : dec s.hi ++ x = dec t.hi ++ y := by simpa using hb
      obtain ⟨hc, hd⟩ := dec_split dx dy hb
      exact ⟨⟨ha, .inl hc⟩, hd⟩

/-! ### Names and sets -/

theorem name_split {name : Fin n → Str} (hn : GoodNames name) {a b : Fin n} {x y : Str} (hx : Stops IdentByte x)
    (hy : Stops IdentByte y) (h : name a ++ x = name b ++ y) : a = b ∧ x = y := by
  obtain ⟨h1, h2⟩ := run_split _ _ _ _ (hn.ident a).2 (hn.ident b).2 hx hy h
  exact ⟨hn.inj _ _ h1, h2⟩

theorem name_first {name : Fin n → Str} (hn : GoodNames name) {a : Fin n} {c : Nat} {x y : Str} (hc : ¬ IdentByte c) :
    name a ++ x ≠ c :: y := by
  obtain ⟨h1, h2⟩ := hn.ident a
  cases hl : name a with
  | nil => exact absurd hl h1
  | cons d l =>
    intro he
    simp at he
    exact hc (he.1 ▸ h2 d (by rw [hl]; simp))

theorem token_split {name : Fin n → Str} (hn : GoodNames name) {t u : Token n} {x y : Str}
    (h : t.debug name ++ x = u.debug name ++ y) : (t.ty = u.ty ∧ t.span.Alike u.span) ∧ x = y := by
  have hp : ascii "(" = [40] := by decide
  have hq : ascii ")" = [41] := by decide
  simp only [Token.debug, List.append_assoc, hp, hq] at h
  obtain ⟨h1, h2⟩ := name_split hn (Stops.cons (by simp [IdentByte])) (Stops.cons (by simp [IdentByte]))
    (List.append_cancel_left h)
  simp only [List.cons.injEq, true_and] at h2
  obtain ⟨h3, h4⟩ := span_split (Stops.cons (by simp [Digit])) (Stops.cons (by simp [Digit])) h2
  exact ⟨⟨h1, h3⟩, by simpa using h4⟩

/-- What can come after an entry of a set. -/
def AfterEntry (x : Str) : Prop := ∃ l, x = 44 :: l ∨ x = 125 :: l

/-- Entries can be told apart, also with text after them. -/
structure Separate {α : Type} (enc : α → Str) : Prop where
  split : ∀ a b x y, AfterEntry x → AfterEntry y → enc a ++ x = enc b ++ y → a = b ∧ x = y
  first : ∀ a x y, enc a ++ x ≠ 125 :: y

theorem join_cons (sep x : Str) (l : List Str) : join sep (x :: l) = x ++ (l.flatMap fun y => sep ++ y) := by
  induction l generalizing x with
  | nil => simp [join]
  | cons y l ih => simp [join, ih]

theorem tail_split {α : Type} {enc : α → Str} (he : Separate enc) (l : List α) : ∀ l' : List α,
    (l.flatMap fun y => ascii ", " ++ enc y) ++ [125] = (l'.flatMap fun y => ascii ", " ++ enc y) ++ [125] → l = l' := by
  have hsep : ascii ", " = [44, 32] := by decide
  have hafter : ∀ l : List α, AfterEntry ((l.flatMap fun y => ascii ", " ++ enc y) ++ [125]) := by
    intro l
    cases l with
    | nil => exact ⟨[], .inr rfl⟩
    | cons a l => exact ⟨_, .inl (by rw [hsep]; rfl)⟩
  induction l with
  | nil =>
    intro l' h
    cases l' with
    | nil => rfl
    | cons b l' => rw [hsep] at h; simp at h
  | cons a l ih =>
    intro l' h
    cases l' with
    | nil => rw [hsep] at h; simp at h
    | cons b l' =>
      have h' : enc a ++ ((l.flatMap fun y => ascii ", " ++ enc y) ++ [125]) =
          enc b ++ ((l'.flatMap fun y => ascii ", " ++ enc y) ++ [125]) := by
        rw [hsep] at h ⊢
        simpa using h
      obtain ⟨rfl, h2⟩ := he.split _ _ _ _ (hafter l) (hafter l') h'
      rw [ih l' h2]

theorem debugSet_inj {α : Type} {enc : α → Str} (he : Separate enc) {l l' : List α}
    (h : debugSet (l.map enc) = debugSet (l'.map enc)) : l = l' := by
  have h1 : ascii "{" = [123] := by decide
  have h2 : ascii "}" = [125] := by decide
  unfold debugSet at h
  rw [h1, h2] at h
  simp only [List.cons_append, List.nil_append, List.cons.injEq, true_and] at h
  have hafter : ∀ l : List α, AfterEntry ((l.flatMap fun y => ascii ", " ++ enc y) ++ [125]) := by
    intro l
    cases l with
    | nil => exact ⟨[], .inr rfl⟩
    | cons a l => exact ⟨_, .inl (by rw [show ascii ", " = [44, 32] by decide]; rfl)⟩
  cases l with
  | nil =>
    cases l' with
    | nil => rfl
    | cons b l' =>
      rw [List.map_cons, join_cons, List.append_assoc] at h
      exact absurd h.symm (he.first b _ _)
  | cons a l =>
    cases l' with
    | nil =>
      rw [List.map_cons, join_cons, List.append_assoc] at h
      exact absurd h (he.first a _ _)
    | cons b l' =>
      simp only [List.map_cons, join_cons, List.append_assoc, List.flatMap_map] at h
      obtain ⟨rfl, h3⟩ := he.split _ _ _ _ (hafter l) (hafter l') h
      rw [tail_split he l l' h3]

theorem AfterEntry.stops {x : Str} (h : AfterEntry x) : Stops IdentByte x := by
  obtain ⟨l, rfl | rfl⟩ := h <;> exact Stops.cons (by simp [IdentByte])

theorem separate_names {name : Fin n → Str} (hn : GoodNames name) : Separate name where
  split _ _ _ _ hx hy h := name_split hn hx.stops hy.stops h
  first _ _ _ := name_first hn (by simp [IdentByte])

theorem separate_entries {name : Fin n → Str} (hn : GoodNames name) {quote : Str → Str} (hq : GoodQuote quote)
    (hs : ∀ a x y, quote a ++ x ≠ 42 :: y) : Separate (TermEntry.debug name quote) := by
  have he : ascii "<empty>" = [60, 101, 109, 112, 116, 121, 62] := by decide
  have hc : ascii ":" = [58] := by decide
  have hcs : ascii ":*" = [58, 42] := by decide
  have s58 : ∀ l, Stops IdentByte (58 :: l) := fun l => Stops.cons (by simp [IdentByte])
  refine ⟨?_, ?_⟩
  · intro a b x y hx hy h
    match a, b with
    | none, none => exact ⟨rfl, List.append_cancel_left h⟩
    | none, some (ty, none) =>
      simp only [TermEntry.debug, he, List.append_assoc, List.cons_append] at h
      exact absurd h.symm (name_first hn (by simp [IdentByte]))
    | none, some (ty, some l) =>
      simp only [TermEntry.debug, he, List.append_assoc, List.cons_append] at h
      exact absurd h.symm (name_first hn (by simp [IdentByte]))
    | some (ty, none), none =>
      simp only [TermEntry.debug, he, List.append_assoc, List.cons_append] at h
      exact absurd h (name_first hn (by simp [IdentByte]))
    | some (ty, some l), none =>
      simp only [TermEntry.debug, he, List.append_assoc, List.cons_append] at h
      exact absurd h (name_first hn (by simp [IdentByte]))
    | some (ty, none), some (ty', none) =>
      simp only [TermEntry.debug, hcs, List.append_assoc, List.cons_append] at h
      obtain ⟨rfl, h⟩ := name_split hn (s58 _) (s58 _) h
      simp at h
      exact ⟨rfl, h⟩
    | some (ty, none), some (ty', some l) =>
      simp only [TermEntry.debug, hcs, hc, List.append_assoc, List.cons_append] at h
      obtain ⟨rfl, h⟩ := name_split hn (s58 _) (s58 _) h
      simp at h
      exact absurd h.symm (hs _ _ _)
    | some (ty, some l), some (ty', none) =>
      simp only [TermEntry.debug, hcs, hc, List.append_assoc, List.cons_append] at h
      obtain ⟨rfl, h⟩ := name_split hn (s58 _) (s58 _) h
      simp at h
      exact absurd h (hs _ _ _)
    | some (ty, some l), some (ty', some l') =>
      simp only [TermEntry.debug, hc, List.append_assoc, List.cons_append] at h
      obtain ⟨rfl, h⟩ := name_split hn (s58 _) (s58 _) h
      simp at h
      obtain ⟨h1, h2⟩ := hq _ _ _ _ h
      subst h1
      exact ⟨rfl, h2⟩
  · intro a x y h
    match a with
    | none => simp [TermEntry.debug, he] at h
    | some (ty, none) =>
      simp only [TermEntry.debug, List.append_assoc] at h
      exact name_first hn (by simp [IdentByte]) h
    | some (ty, some l) =>
      simp only [TermEntry.debug, List.append_assoc] at h
      exact name_first hn (by simp [IdentByte]) h

theorem TSet.mem_entries (s : TSet n) (x : TermEntry n) : x ∈ s.entries ↔
    (x = none ∧ s.e = true) ∨ ∃ ty, x ∈ (s.map.get ty).entries ty := by
  unfold TSet.entries
  cases h : s.e <;> simp [List.mem_flatMap]

theorem LitSet.mem_entries (ty : Fin n) (l : LitSet) (x : TermEntry n) : x ∈ l.entries ty ↔
    match l with
    | .mat lits => ∃ t ∈ lits, x = some (ty, some t)
    | .any => x = some (ty, none) := by
  cases l with
  | mat lits => simp [LitSet.entries, mem_bsOf, eq_comm]
  | any => simp [LitSet.entries]

/-- The entries tell what is in the set. -/
theorem TSet.contains_entries (s : TSet n) (x : Option (TokenSrc n)) : s.contains x = true ↔
    match x with
    | none => none ∈ s.entries
    | some t => some (t.ty, none) ∈ s.entries ∨ some (t.ty, some t.src) ∈ s.entries := by
  cases x with
  | none =>
    simp only [TSet.contains, TSet.mem_entries, true_and]
    refine ⟨.inl, fun h => h.elim id fun ⟨ty, h⟩ => ?_⟩
    rw [LitSet.mem_entries] at h
    cases hg : s.map.get ty <;> simp [hg] at h
  | some t =>
    simp only [TSet.contains, TSet.mem_entries, LitSet.mem_entries]
    constructor
    · intro h
      cases hg : s.map.get t.ty with
      | any => exact .inl (.inr ⟨t.ty, by rw [hg]⟩)
      | mat lits =>
        rw [hg] at h
        exact .inr (.inr ⟨t.ty, by rw [hg]; exact ⟨t.src, by simpa [LitSet.contains] using h, rfl⟩⟩)
    · rintro ((⟨h, _⟩ | ⟨ty, h⟩) | (⟨h, _⟩ | ⟨ty, h⟩))
      · cases h
      · cases hg : s.map.get ty with
        | any => simp [hg] at h; rw [h, hg]; rfl
        | mat lits => simp [hg] at h
      · cases h
      · cases hg : s.map.get ty with
        | any => simp [hg] at h
        | mat lits =>
          simp [hg] at h
          rw [h.2, hg]
          simpa [LitSet.contains] using h.1

theorem sorted_same {r : Str → Str → Prop} (ht : ∀ a, ¬ r a a) (has : ∀ a b c, r a b → r b c → r a c) (l : List Str) :
    ∀ m : List Str, l.Pairwise r → m.Pairwise r → (∀ x, x ∈ l ↔ x ∈ m) → l = m := by
  induction l with
  | nil =>
    intro m _ _ h
    cases m with
    | nil => rfl
    | cons b m => exact absurd ((h b).2 (by simp)) (by simp)
  | cons a l ih =>
    intro m hl hm h
    cases m with
    | nil => exact absurd ((h a).1 (by simp)) (by simp)
    | cons b m =>
      rw [List.pairwise_cons] at hl hm
      have hab : a = b := by
        rcases List.mem_cons.1 ((h a).1 (by simp)) with h1 | h1
        · exact h1
        · rcases List.mem_cons.1 ((h b).2 (by simp)) with h2 | h2
          · exact h2.symm
          · exact absurd (has _ _ _ (hl.1 b h2) (hm.1 a h1)) (ht a)
      subst hab
      rw [ih m hl.2 hm.2 fun x => ?_]
      constructor
      · intro hx
        rcases List.mem_cons.1 ((h x).1 (by simp [hx])) with h1 | h1
        · exact absurd (h1 ▸ hl.1 x hx) (ht _)
        · exact h1
      · intro hx
        rcases List.mem_cons.1 ((h x).2 (by simp [hx])) with h1 | h1
        · exact absurd (h1 ▸ hm.1 x hx) (ht _)
        · exact h1

theorem LitSet.entries_same (ty : Fin n) {l m : LitSet} (h : ∀ x, l.contains x = m.contains x) : l.entries ty = m.entries ty := by
  cases l with
  | any =>
    cases m with
    | any => rfl
    | mat b =>
      obtain ⟨x, hx⟩ := exists_not_mem b
      have := h x
      simp [LitSet.contains, hx] at this
  | mat a =>
    cases m with
    | any =>
      obtain ⟨x, hx⟩ := exists_not_mem a
      have := h x
      simp [LitSet.contains, hx] at this
    | mat b =>
      have : bsOf a = bsOf b := sorted_same (r := (· < ·)) List.lt_irrefl (fun _ _ _ => List.lt_trans) _ _
        (bsOf_sorted a) (bsOf_sorted b) fun x => by
          have := h x
          simpa [LitSet.contains, mem_bsOf] using this
      simp [LitSet.entries, this]

theorem TSet.entries_same {s t : TSet n} (h : ∀ x, s.contains x = t.contains x) : s.entries = t.entries := by
  have h1 : s.e = t.e := h none
  unfold TSet.entries
  rw [h1]
  congr 2
  funext ty
  exact LitSet.entries_same ty fun x => h (some ⟨ty, x⟩)

/-! ### Quoted texts -/

def unhex (l : Str) : Nat := l.foldl (fun a d => a * 16 + (if d < 58 then d - 48 else d - 87)) 0

theorem unescape (c : Nat) : escapeByte c = [c] ∧ c ≠ 34 ∧ c ≠ 92 ∨
    (∃ d, escapeByte c = [92, d] ∧ d ≠ 117 ∧ (c, d) ∈ [(0, 48), (9, 116), (10, 110), (13, 114), (34, 34), (92, 92)]) ∨
    (∃ l, escapeByte c = 92 :: 117 :: 123 :: (l ++ [125]) ∧ (∀ d ∈ l, d ≠ 125) ∧ unhex l = c) := by
  unfold escapeByte
  split
  · exact .inr (.inl ⟨_, rfl, by simp, by simp [*]⟩)
  split
  · exact .inr (.inl ⟨_, rfl, by simp, by simp [*]⟩)
  split
  · exact .inr (.inl ⟨_, rfl, by simp, by simp [*]⟩)
  split
  · exact .inr (.inl ⟨_, rfl, by simp, by simp [*]⟩)
  split
  · exact .inr (.inl ⟨_, rfl, by simp, by simp [*]⟩)
  split
  · exact .inr (.inl ⟨_, rfl, by simp, by simp [*]⟩)
  split
  · rename_i h
    refine .inr (.inr ⟨if c < 16 then [hexDigit c] else [hexDigit (c / 16), hexDigit (c % 16)], rfl, ?_, ?_⟩)
    · intro d hd
      have hx : ∀ k, k < 16 → hexDigit k ≠ 125 := by
        intro k hk
        unfold hexDigit
        split <;> omega
      split at hd
      · simp at hd
        exact hd ▸ hx c (by omega)
      · simp at hd
        rcases hd with rfl | rfl
        · exact hx _ (by omega)
        · exact hx _ (by omega)
    · split
      · simp only [unhex, hexDigit, List.foldl]
        split <;> split <;> omega
      · simp only [unhex, hexDigit, List.foldl]
        repeat' split
        all_goals omega
  · exact .inl ⟨rfl, by assumption, by assumption⟩

theorem escape_first (c : Nat) (x y : Str) : escapeByte c ++ x ≠ 34 :: y := by
  rcases unescape c with ⟨h, h1, _⟩ | ⟨d, h, _⟩ | ⟨l, h, _⟩ <;> rw [h] <;> simp
  intro h2; exact absurd h2 h1

theorem escape_split {c d : Nat} {x y : Str} (h : escapeByte c ++ x = escapeByte d ++ y) : c = d ∧ x = y := by
  rcases unescape c with ⟨hc, _, hc2⟩ | ⟨c', hc, hc1, hc2⟩ | ⟨l, hc, hl, hc2⟩ <;>
  rcases unescape d with ⟨hd, _, hd2⟩ | ⟨d', hd, hd1, hd2⟩ | ⟨m, hd, hm, hd2⟩ <;> rw [hc, hd] at h <;> simp at h
  · exact h
  · exact absurd h.1 hc2
  · exact absurd h.1 hc2
  · exact absurd h.1.symm hd2
  · obtain ⟨rfl, h⟩ := h
    refine ⟨?_, h⟩
    simp at hc2 hd2
    omega
  · exact absurd h.1 hc1
  · exact absurd h.1.symm hd2
  · exact absurd h.1.symm hd1
  · obtain ⟨h1, h2⟩ := run_split (P := fun d => d ≠ 125) l m _ _ hl hm (Stops.cons (by simp)) (Stops.cons (by simp)) h
    subst h1
    simp at h2
    exact ⟨hc2 ▸ hd2 ▸ rfl, h2⟩

theorem goodQuote_debugText : GoodQuote debugText := by
  intro a b x y h
  simp only [debugText, List.append_assoc, List.cons_append, List.nil_append, List.cons.injEq, true_and] at h
  induction a generalizing b with
  | nil =>
    cases b with
    | nil => simpa using h
    | cons d b =>
      simp only [List.flatMap_nil, List.flatMap_cons, List.nil_append, List.append_assoc] at h
      exact absurd h.symm (escape_first _ _ _)
  | cons c a ih =>
    cases b with
    | nil =>
      simp only [List.flatMap_nil, List.flatMap_cons, List.nil_append, List.append_assoc] at h
      exact absurd h (escape_first _ _ _)
    | cons d b =>
      simp only [List.flatMap_cons, List.append_assoc] at h
      obtain ⟨h1, h2⟩ := escape_split h
      obtain ⟨h3, h4⟩ := ih b h2
      exact ⟨by rw [h1, h3], h4⟩

theorem debugText_first (a x y : Str) : debugText a ++ x ≠ 42 :: y := by simp [debugText]

end Teleparse

import Verif.Proof.Tags
import Verif.Proof.Lines
import Verif.Props.Soundness
import Verif.Props.Completeness
/-
Property C111: the semantic types of a token are those of the fields and variants it is in.
-/
namespace Teleparse
variable {m n : Nat}

/-! ## C111: the semantic types of a token are those of the fields it is in -/

/-- All results with a tree, recovered ones too, for any table and in any state: the tokens in the value of a field
or a variant, at any depth, have the semantic types it is declared with. -/
theorem C111_all (ext : Fin n → Bool) (source : Str) (items : List (Item n)) (hw : ItemsWF source items)
    (S : Schema m n) (md : Metadata (PId m n) n) (t : Ty m n) (p p' : Parser n) (hp : Reached ext source items p)
    (r : Res n (Tree n)) (x : Tree n) (h : Yields ext S md t p r p') (hx : r.tree? = some x)
    (sem : LSet n) (y : Tree n) (hy : Tagged S t x sem y) :
    ∀ c ∈ p'.info.tokens, c.token.span.Inside y.span → ∀ V, sem.contains V = true → c.semantic.contains V = true := by
  have hg : ∃ e, r.Gives x e := by
    cases r with
    | success y => cases hx; exact ⟨_, .success _⟩
    | recovered y e => cases hx; exact ⟨_, .recovered _ _⟩
    | panic e => cases hx
  obtain ⟨e, hg⟩ := hg
  exact ((RunX.mark h.run (hp.ready hw) x e hg).marked sem y hy).2

/-- Successful parses: a token has a semantic type if and only if it is in the value of a field or a variant declared
with it, if nothing declared is hidden by `Quote`, `Parse` or `Exists`. The tokens before are unchanged. -/
theorem C111_exact (ext : Fin n → Bool) (source : Str) (items : List (Item n)) (hw : ItemsWF source items)
    (S : Schema m n) (md : Metadata (PId m n) n) (t : Ty m n) (hsh : TreeShows S t) (p p' : Parser n)
    (hl : Loud S t ∨ (p'.view ext).rest ≠ []) (hp : Reached ext source items p) (x : Tree n)
    (h : Yields ext S md t p (.success x) p') :
    ∃ c, p'.info.tokens = p.info.tokens ++ c ∧ ∀ d ∈ c, ∀ V, d.semantic.contains V = true ↔
      ∃ sem y, Tagged S t x sem y ∧ sem.contains V = true ∧ d.token.span.Inside y.span := by
  obtain ⟨c, h1, h2, -⟩ := C34_loud ext source items hw S md t p p' hl hp x h
  refine ⟨c, h1, fun d hd V => ⟨fun hV => ?_, ?_⟩⟩
  · have ha : After p.emptySpan.lo c := by
      have hs := ((h.reached hp).sortedView hw).store
      have ha : After 0 (p.info.tokens ++ c) := ⟨by rw [← h1]; exact hs, fun _ _ => Nat.zero_le _⟩
      exact ha.right
    rcases h2.comes ha d hd V hV with h | ⟨u, v, h3, h4, h5⟩
    · exact h
    · exact absurd h5 (hsh u v h3 h4 V)
  · rintro ⟨sem, y, h3, h4, h5⟩
    exact C111_all ext source items hw S md t p p' hp _ x h rfl sem y h3 d (by rw [h1]; exact List.mem_append_right _ hd) h5 V h4

/-- Any result, failures too, for any table: the tokens consumed before are unchanged, and the new ones have only
semantic types that are declared in the parsed type. -/
theorem C111_declared (ext : Fin n → Bool) (source : Str) (items : List (Item n)) (hw : ItemsWF source items)
    (S : Schema m n) (md : Metadata (PId m n) n) (t : Ty m n) (p p' : Parser n) (hp : Reached ext source items p)
    (r : Res n (Tree n)) (h : Yields ext S md t p r p') :
    ∃ c, p'.info.tokens = p.info.tokens ++ c ∧ ∀ d ∈ c, ∀ V, d.semantic.contains V = true → Declares S t V := by
  obtain ⟨c, hc⟩ := Lines.on_prefix (hp.ready hw) (On.of_yields h)
  have hc' : p'.info.tokens = p.info.tokens ++ c := hc
  refine ⟨c, hc', fun d hd V hV => ?_⟩
  have hg : MGrown (Declares S t) (p.view ext) (p'.view ext) :=
    RunX.mgrown (W := Reach S.tyParts t) (fun _ _ hr hu => .step hr hu)
      (fun k hr g hg sem hs V hV => ⟨k, g, sem, hr, hg, hs, hV⟩) h.run (hp.ready hw)
      (fun u hu => by rw [List.mem_singleton.1 hu]; exact .refl)
  obtain ⟨i, hi⟩ := List.getElem?_of_mem hd
  have hi' : (p'.view ext).cells[p.info.tokens.length + i]? = some d := by
    rw [hc, show (p.view ext).cells = p.info.tokens from rfl, List.getElem?_append_right (by omega),
      Nat.add_sub_cancel_left]
    exact hi
  rcases hg.only _ d hi' V hV with ⟨d0, h1, -⟩ | h1
  · rw [show (p.view ext).cells = p.info.tokens from rfl, List.getElem?_eq_none (by omega)] at h1
    cases h1
  · exact h1

/-! ### Example -/

/-- `struct A { #[semantic(2)] items: Plus<B>, number }` and `struct B { #[semantic(1)] word }`. -/
def tgS : Schema 2 3 := fun k =>
  if k = 0 then .struct (.plus (.user 1), some (LSet.new.insert 2)) [(.term 1 ⟨1, none⟩, none)]
  else .struct (.term 0 ⟨0, none⟩, some (LSet.new.insert 1)) []
def tgMd : Metadata (PId 2 3) 3 := okOf ⟨[], [], []⟩ (tgS.metadata 30 (.user 0))
/-- `a b 1` -/
def tgSource : Str := [97, 32, 98, 32, 49]
def tgItems : List (Item 3) := [.token ⟨⟨0, 1⟩, 0⟩, .token ⟨⟨2, 3⟩, 0⟩, .token ⟨⟨4, 5⟩, 1⟩]
def tgX : Tree 3 := .seq ⟨0, 5⟩ [.list ⟨0, 3⟩ [.seq ⟨0, 1⟩ [.tok ⟨⟨0, 1⟩, 0⟩], .seq ⟨2, 3⟩ [.tok ⟨⟨2, 3⟩, 0⟩]], .tok ⟨⟨4, 5⟩, 1⟩]

theorem tg_parts : ∀ u, Reach tgS.tyParts (.user 0) u →
    u = .user 0 ∨ u = .plus (.user 1) ∨ u = .user 1 ∨ u = .term 0 ⟨0, none⟩ ∨ u = .term 1 ⟨1, none⟩ := by
  intro u hu
  induction hu with
  | refl => exact .inl rfl
  | step _ hj ih =>
    rcases ih with rfl | rfl | rfl | rfl | rfl <;> simp [Schema.tyParts, tgS] at hj ⊢
    · rcases hj with rfl | rfl <;> simp
    · simp [hj]
    · simp [hj]
theorem tg_loud : Loud tgS (.user 0) := by
  have : RecoverFree tgS (.user 0) := by
    intro u hu
    rcases tg_parts u hu with rfl | rfl | rfl | rfl | rfl <;> intro a b h <;> cases h
  exact this.loud.1
theorem tg_shows : TreeShows tgS (.user 0) := by
  intro u v hu hv
  rcases tg_parts u hu with rfl | rfl | rfl | rfl | rfl <;> cases hv

/-- The words are in `items` and in `B`, the number is in no declared field. -/
example : tgS.metadata 30 (.user 0) = some (.ok tgMd) ∧ ItemsWF tgSource tgItems ∧ Loud tgS (.user 0) ∧ TreeShows tgS (.user 0) ∧
    Tagged tgS (.user 0) tgX (LSet.new.insert 1) (.tok ⟨⟨2, 3⟩, 0⟩) ∧
    Declares tgS (.user 0) 1 ∧ ∃ p', Yields noExt tgS tgMd (.user 0) (Parser.new tgSource tgItems) (.success tgX) p' ∧
    p'.info.tokens.map (fun c => (c.token.ty, (List.finRange 3).filter c.semantic.contains)) = [(0, [1, 2]), (0, [1, 2]), (1, [])] :=
  ⟨by rfl, by unfold ItemsWF tgItems tgSource; decide, tg_loud, tg_shows,
    .inField (i := 0) (t := .plus (.user 1)) (k := 0) rfl rfl rfl (.plus (.tail _ (.head _)) (.field (i := 0) (k := 1) rfl rfl rfl)),
    ⟨1, _, _, .step (i := .plus (.user 1)) (.step .refl (.head _)) (.head _), .head _, rfl, by rfl⟩, _, ⟨20, by rfl⟩, by rfl⟩

/-! ### What is not claimed -/

/-- Recovered parses: a token may have more. `Option<(B, number)>` on a lone word is absent with an error, and the word
has the semantic type of the field in the abandoned `B`. -/
def tgT : Ty 2 3 := .option (.tup2 (.user 1) (.term 1 ⟨1, none⟩))
def tgMd2 : Metadata (PId 2 3) 3 := okOf ⟨[], [], []⟩ (tgS.metadata 30 tgT)
theorem C111_recovered_more : tgS.metadata 30 tgT = some (.ok tgMd2) ∧
    (∃ e p', Yields noExt tgS tgMd2 tgT (Parser.new [97] [.token ⟨⟨0, 1⟩, 0⟩]) (.recovered (.optNone ⟨1, 1⟩) [e]) p' ∧
      p'.info.tokens.map (fun c => (c.token.ty, (List.finRange 3).filter c.semantic.contains)) = [(0, [1])]) ∧
    ∀ sem y, ¬ Tagged tgS tgT (.optNone ⟨1, 1⟩) sem y :=
  ⟨by rfl, ⟨_, _, ⟨20, by rfl⟩, by rfl⟩, by intro sem y h; cases h⟩

/-- Without `Loud` the same can happen in a success: `(Option<Recover<B, number>>, Option<X>)` on a lone word. -/
def tgT3 : Ty 2 3 := .tup2 (.option (.recover (.user 1) (.term 1 ⟨1, none⟩))) (.option (.term 2 ⟨2, none⟩))
def tgMd3 : Metadata (PId 2 3) 3 := okOf ⟨[], [], []⟩ (tgS.metadata 30 tgT3)
theorem C111_silent_more : tgS.metadata 30 tgT3 = some (.ok tgMd3) ∧
    (∃ p', Yields noExt tgS tgMd3 tgT3 (Parser.new [97] [.token ⟨⟨0, 1⟩, 0⟩])
        (.success (.seq ⟨1, 1⟩ [.optNone ⟨1, 1⟩, .optNone ⟨1, 1⟩])) p' ∧
      p'.info.tokens.map (fun c => (c.token.ty, (List.finRange 3).filter c.semantic.contains)) = [(0, [1])]) ∧
    ∀ sem y, ¬ Tagged tgS tgT3 (.seq ⟨1, 1⟩ [.optNone ⟨1, 1⟩, .optNone ⟨1, 1⟩]) sem y := by
  refine ⟨by rfl, ⟨_, ⟨20, by rfl⟩, by rfl⟩, fun sem y h => ?_⟩
  obtain ⟨i, u, z, h1, h2, h3⟩ := h.of_tuple (.inl ⟨_, _, rfl, rfl⟩)
  match i with
  | 0 => simp at h1 h2; subst h1 h2; cases h3
  | 1 => simp at h1 h2; subst h1 h2; cases h3
  | i + 2 => simp at h1

end Teleparse

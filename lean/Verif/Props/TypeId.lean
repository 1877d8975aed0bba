import Verif.Proof.TypeId
import Verif.Props.Termination
/-
C130: the order of type ids cannot be observed.
-/
namespace Teleparse
variable {m n : Nat}

/-- The model: all productions, in the order of the type ids. -/
theorem C130_order (ids : PId m n → Nat) (G : Grammar (PId m n) n) :
    (G.byId ids).Perm G ∧ (G.byId ids).Pairwise fun p q => ids p.1 ≤ ids q.1 := ⟨byId_perm ids G, byId_sorted ids G⟩

/-- Whatever the order of the type ids, building the metadata ends; the grammar error is the same, or all sets have the
same members and all tables the same entries. -/
theorem C130_metadata (ids : PId m n → Nat) (S : Schema m n) (root : Ty m n) : ∃ N v v', SameVerdict v v' ∧
    ∀ f ≥ N, S.metadata f root = some v ∧ S.metadataById ids f root = some v' := by
  obtain ⟨G, hG⟩ := C32_terminates S.rule (S.universe root) (S.universe_closed root) root.pid (S.root_mem root)
  obtain ⟨v, f, hv⟩ := C33_schema_total S root
  obtain ⟨N, v', h1, h2⟩ := metadataById_same ids (N := f + (S.universe root).length + 1) (fun g hg => hG g (by omega))
    (fun g hg => hv g (by omega))
  exact ⟨N, v, v', h1, h2⟩

/-- Two orders of the type ids. -/
theorem C130_orders (ids ids' : PId m n → Nat) (S : Schema m n) (root : Ty m n) : ∃ N v v', SameVerdict v v' ∧
    ∀ f ≥ N, S.metadataById ids f root = some v ∧ S.metadataById ids' f root = some v' := by
  obtain ⟨N, u, v, h1, h2⟩ := C130_metadata ids S root
  obtain ⟨N', u', v', h1', h2'⟩ := C130_metadata ids' S root
  cases (h2 (N + N') (by omega)).1.symm.trans (h2' (N + N') (by omega)).1
  refine ⟨N + N', v, v', ?_, fun f hf => ⟨(h2 f (by omega)).2, (h2' f (by omega)).2⟩⟩
  cases h1 with
  | error => cases h1'; exact .error
  | ok a =>
    cases h1' with
    | ok b =>
      exact .ok ⟨fun i x => (b.first i x).trans (a.first i x).symm, fun i x => (b.follow i x).trans (a.follow i x).symm,
        fun i x => (b.jump i x).trans (a.jump i x).symm⟩

/-- The text of a grammar error, with the terminals it lists. -/
theorem C130_text (ids : PId m n → Nat) (S : Schema m n) (root : Ty m n) (G : Grammar (PId m n) n) (hG : S.IsGrammar root G)
    (fuel : Nat) (first follow follow' : Tbl (PId m n) n) (h1 : buildFirst fuel G = some first)
    (h2 : buildFollow fuel first G root.pid = some follow) (h3 : buildFollow fuel first (G.byId ids) root.pid = some follow')
    (pname : PId m n → Str) (name : Fin n → Str) (e : GErr (PId m n)) :
    e.message pname name (G.byId ids) first follow' = e.message pname name G first follow := by
  refine errorText_same (byId_aget ids hG.1) ?_ pname name e
  intro i x
  rw [Bool.eq_iff_iff]
  have hfd : ∀ i x, first.den i x ↔ firstFam (G.byId ids) i x := fun i x =>
    (buildFirst_den h1 i x).trans (firstFam_congr (byId_mem ids G) i x)
  exact (buildFollow_den hfd h3 i x).trans ((followC_congr (byId_mem ids G) i x).symm.trans
    (buildFollow_den (buildFirst_den h1) h2 i x).symm)

/-- Parsing on any parser: the same grammar error; or the same tree or none, and the same parser. -/
theorem C130_parse (ids : PId m n → Nat) (ext : Fin n → Bool) (S : Schema m n) (root : Ty m n) :
    ∃ N, ∀ f ≥ N, ∀ p : Parser n, AlikeOut (p.parse ext S f root) (p.parseById ids ext S f root) := by
  obtain ⟨N, v, v', h1, h2⟩ := C130_metadata ids S root
  refine ⟨N, fun f hf p => ?_⟩
  unfold Parser.parse Parser.parseById
  rw [(h2 f hf).1, (h2 f hf).2]
  cases h1 with
  | error => exact .rejected
  | @ok md md' h =>
    have := parseWithMeta_same (S := S) (ext := ext) h root f (parserAs_refl p)
    dsimp only
    generalize p.parseWithMeta ext S md f root = a at this
    generalize p.parseWithMeta ext S md' f root = b at this
    cases this with
    | fuel => exact .fuel
    | crash => exact .crash
    | ok ht hs => rw [show _ = _ from ht]; exact .parsed hs

/-- `Root::parse`: the same tree, and errors at the same places with the same texts. -/
theorem C130_root (ids : PId m n → Nat) (ext : Fin n → Bool) (S : Schema m n) (root : Ty m n) :
    ∃ N, ∀ f ≥ N, ∀ (source : Str) (items : List (Item n)) (x : Option (Tree n)) (p : Parser n),
      rootParse ext S f root source items = .ok (.ok x) p →
      ∃ p', rootParseById ids ext S f root source items = .ok (.ok x) p' ∧
        ∀ name : Fin n → Str, p'.info.errors.map (fun e => (e.span, e.message? name source)) =
          p.info.errors.map fun e => (e.span, e.message? name source) := by
  obtain ⟨N, h⟩ := C130_parse ids ext S root
  refine ⟨N, fun f hf source items x p hp => ?_⟩
  have := h f hf (Parser.new source items)
  unfold rootParse at hp
  rw [hp] at this
  unfold rootParseById
  generalize (Parser.new source items).parseById ids ext S f root = b at this
  cases this with
  | parsed hs =>
    refine ⟨_, rfl, fun name => ?_⟩
    have he := hs.errors
    clear hs
    generalize p.info.errors = l at he
    rename_i p'
    generalize p'.info.errors = l' at he
    induction he with
    | nil => rfl
    | cons h _ ih =>
      rw [List.map_cons, List.map_cons, ih, message_same name source h]
      cases h <;> rfl

/-! ### Examples -/

/-- A list of `a` or `b` separated by commas, between parentheses. -/
def tiS : Schema 2 4 := fun k =>
  if k = 0 then .struct (.term 0 ⟨0, none⟩, none) [(.punct (.user 1) (.term 1 ⟨1, none⟩), none), (.term 2 ⟨2, none⟩, none)]
  else .enum (.term 3 ⟨3, some [97]⟩, none) [(.term 4 ⟨3, some [98]⟩, none)]

/-- Terminals first, the last one before the others; then lists; then the types of the program. -/
def tiIds : PId 2 4 → Nat
  | .term k _ => 4 - k
  | .user k => 20 - k.1
  | _ => 10

/-- The order is another one. -/
example : (registerFrom tiS.rule 30 (Ty.user 0).pid).map (fun G => G.map fun p => tiIds p.1) ≠
    (registerFrom tiS.rule 30 (Ty.user 0).pid).map (fun G => (G.byId tiIds).map fun p => tiIds p.1) := by decide +kernel

/-- Whether there is a tree, and the texts of the errors. -/
def tiSee : Out (Parser 4) (Except (GErr (PId 2 4)) (Option (Tree 4))) → Option (Bool × List (Option Str))
  | .ok (.ok x) p => some (x.isSome, p.info.errors.map fun e => e.message? (fun t => [65 + t.1]) p.info.source)
  | _ => none

def tiItems : List (Item 4) := [.token ⟨⟨0, 1⟩, 0⟩, .token ⟨⟨1, 2⟩, 3⟩, .token ⟨⟨2, 3⟩, 1⟩, .token ⟨⟨3, 4⟩, 3⟩, .token ⟨⟨4, 5⟩, 2⟩]
def tiBroken : List (Item 4) := [.token ⟨⟨0, 1⟩, 0⟩, .token ⟨⟨1, 2⟩, 3⟩, .token ⟨⟨3, 4⟩, 3⟩, .token ⟨⟨4, 5⟩, 2⟩]

/-- `(a,b)`, and `(a b)` with an error. -/
example :
    tiSee (rootParse (fun _ => false) tiS 60 (.user 0) [40, 97, 44, 98, 41] tiItems) = some (true, []) ∧
    tiSee (rootParseById tiIds (fun _ => false) tiS 60 (.user 0) [40, 97, 44, 98, 41] tiItems) = some (true, []) ∧
    tiSee (rootParse (fun _ => false) tiS 60 (.user 0) [40, 97, 32, 98, 41] tiBroken) =
      some (false, [some (ascii "Expecting one of C")]) ∧
    tiSee (rootParseById tiIds (fun _ => false) tiS 60 (.user 0) [40, 97, 32, 98, 41] tiBroken) =
      some (false, [some (ascii "Expecting one of C")]) := ⟨by rfl, by rfl, by rfl, by rfl⟩

/-- The tables of FOLLOW sets are filled in another order. -/
example : (tiS.metadata 60 (.user 0)).map (fun v => v.toOption.map fun md => md.follow.map fun p => tiIds p.1) ≠
    (tiS.metadataById tiIds 60 (.user 0)).map fun v => v.toOption.map fun md => md.follow.map fun p => tiIds p.1 := by
  decide +kernel

end Teleparse

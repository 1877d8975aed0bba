import Verif.Props.Plain
import Verif.Props.Stray
/-
Properties of roots that pass the check of C98, among errors: C105.
-/
namespace Teleparse
variable {m n : Nat} {ext : Fin n → Bool} {S : Schema m n} {fuel : Nat} {source : Str} {items : List (Item n)}

/-- `C105_parse` for roots that pass the check. -/
theorem C105_plain (t : Ty m n) (h : S.plain fuel (.loop t) = true) (hl : S.lacks fuel Ty.isLoopB t = true)
    (hw : ItemsWF source items) : ∃ G, S.IsGrammar (.loop t) G ∧ ∀ l : List (Chunk n), Chunks S G source t 0 l →
    streamOf ext items = l.flatMap Chunk.tokens →
    ∃ sp p' N, (∀ fuel' ≥ N, rootParse ext S fuel' (.loop t) source items =
        .ok (.ok (some (.list sp (l.filterMap Chunk.tree?)))) p') ∧
      syntaxErrors p'.info.errors = l.flatMap Chunk.errs ∧
      p'.info.tokens = l.flatMap Chunk.cells ∧ (p'.view ext).rest = [] := by
  obtain ⟨md, G, g⟩ := Plain.good h
  exact ⟨G, g.gram, fun l hc hin => C105_parse t g.md g.gram g.safe (fun _ _ _ _ _ hb => g.punct hb)
    (fun k v vs hk _ hn => absurd hn (g.enum k v vs hk)) g.sep (Plain.loopFree hl) hw l hc hin⟩

/-- `E = num | L`, `L = word E* "x"`: numbers and lists among stray tokens. -/
example : ∃ G, cxS.IsGrammar (.loop (.user 0)) G ∧ ∀ l : List (Chunk 3), Chunks cxS G srSource (.user 0) 0 l →
    streamOf noExt srItems = l.flatMap Chunk.tokens → ∃ sp p' N, ∀ fuel' ≥ N,
      rootParse noExt cxS fuel' (.loop (.user 0)) srSource srItems = .ok (.ok (some (.list sp (l.filterMap Chunk.tree?)))) p' := by
  obtain ⟨G, h1, h2⟩ := C105_plain (ext := noExt) (source := srSource) (items := srItems) (.user 0) cx_plain
    (by decide +kernel) (by unfold ItemsWF srItems srSource; decide)
  refine ⟨G, h1, fun l hl he => ?_⟩
  obtain ⟨sp, p', N, h3, -⟩ := h2 l hl he
  exact ⟨sp, p', N, h3⟩

end Teleparse

import Verif.Model.Produce
/-
Model of the metadata of roots in `static` variables, and of threads that use them at the same time. Every thread has
its own parser (`&mut Parser` cannot be shared).

* `static METADATA: OnceLock<..>` of `Root::metadata`, macros/src/root.rs:5-28: one cell for each root. `get_or_init` of
  std: the first thread that finds the cell empty runs the closure, others wait, and all get the value. The closure
  (`Metadata::build_for`, syntax/metadata.rs) does not call `metadata` of any root.
* `Parser::parse`, parser/parser_impl.rs:45-54: gets the metadata, returns a clone of the error, or goes on with
  `parse_with_meta`.
-/
namespace Teleparse
variable {m n k : Nat}

/-- A result of `Parser::parse`. -/
abbrev Outcome (m n : Nat) := Except (GErr (PId m n)) (Option (Tree n))

/-- The state of a `OnceLock`. -/
inductive Once (m n k : Nat) where
  | empty
  /-- the thread runs the closure -/
  | busy (t : Fin k)
  | full (v : Except (GErr (PId m n)) (Metadata (PId m n) n))

/-- A thread: the calls of `parse` it has yet to make (the roots), its parser, and the results it has. -/
structure Thread (m n : Nat) where
  calls : List (Ty m n)
  parser : Parser n
  results : List (Outcome m n)

/-- A program that runs. `built` records the roots for which the closure was run to its end. -/
structure World (m n k : Nat) where
  cell : Ty m n → Once m n k
  thread : Fin k → Thread m n
  built : List (Ty m n)

/-- `f` with another value at `a`. -/
def update {α β : Type} [DecidableEq α] (f : α → β) (a : α) (b : β) : α → β := fun x => if x = a then b else f x

/-- What thread `t` can do next. -/
inductive World.Step (ext : Fin n → Bool) (S : Schema m n) (t : Fin k) : World m n k → World m n k → Prop
  /-- `get_or_init` of an empty cell -/
  | start {w r cs} : (w.thread t).calls = r :: cs → w.cell r = .empty →
      World.Step ext S t w { w with cell := update w.cell r (.busy t) }
  /-- the closure returns -/
  | finish {w r cs fuel v} : (w.thread t).calls = r :: cs → w.cell r = .busy t → S.metadata fuel r = some v →
      World.Step ext S t w { w with cell := update w.cell r (.full v), built := w.built ++ [r] }
  /-- `Err(err) => return Err(err.clone())` -/
  | refuse {w r cs e} : (w.thread t).calls = r :: cs → w.cell r = .full (.error e) →
      World.Step ext S t w { w with
        thread := update w.thread t ⟨cs, (w.thread t).parser, (w.thread t).results ++ [.error e]⟩ }
  /-- `Ok(self.parse_with_meta::<T>(meta))` -/
  | parse {w r cs md fuel x p'} : (w.thread t).calls = r :: cs → w.cell r = .full (.ok md) →
      (w.thread t).parser.parseWithMeta ext S md fuel r = .ok x p' →
      World.Step ext S t w { w with
        thread := update w.thread t ⟨cs, p', (w.thread t).results ++ [.ok x]⟩ }

/-- Any number of steps of any threads. -/
inductive World.Steps (ext : Fin n → Bool) (S : Schema m n) : World m n k → World m n k → Prop
  | refl {w} : World.Steps ext S w w
  | step {w w' w'' t} : World.Steps ext S w w' → World.Step ext S t w' w'' → World.Steps ext S w w''

/-- The start of a program: nothing is computed yet. -/
def World.start (thread : Fin k → Thread m n) : World m n k := ⟨fun _ => .empty, thread, []⟩

end Teleparse

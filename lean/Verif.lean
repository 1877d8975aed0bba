import Verif.Model.Collect
import Verif.Model.Debug
import Verif.Model.First
import Verif.Model.Follow
import Verif.Model.Grammar
import Verif.Model.Infer
import Verif.Model.Jump
import Verif.Model.Lex
import Verif.Model.Lexer
import Verif.Model.LexiconMacro
import Verif.Model.MacroItem
import Verif.Model.Map
import Verif.Model.Message
import Verif.Model.Metadata
import Verif.Model.Names
import Verif.Model.NodeMacro
import Verif.Model.Parser
import Verif.Model.Produce
import Verif.Model.Program
import Verif.Model.Repair
import Verif.Model.RepairAll
import Verif.Model.RepairBlame
import Verif.Model.RepairKeep
import Verif.Model.RepairLeft
import Verif.Model.RepairLexicon
import Verif.Model.RepairProgram
import Verif.Model.RepairRecover
import Verif.Model.RepairRetry
import Verif.Model.Set
import Verif.Model.Sets
import Verif.Model.Sized
import Verif.Model.Syntax
import Verif.Model.SyntaxMacro
import Verif.Model.Threads
import Verif.Model.TokenChecked
import Verif.Model.TokenCost
import Verif.Model.TokenMut
import Verif.Model.TokenVec
import Verif.Model.TypeId
import Verif.Spec.Accepted
import Verif.Spec.Blame
import Verif.Spec.Book
import Verif.Spec.Calls
import Verif.Spec.Chosen
import Verif.Spec.Collect
import Verif.Spec.Corrected
import Verif.Spec.Cost
import Verif.Spec.Debug
import Verif.Spec.Delimited
import Verif.Spec.Depth
import Verif.Spec.ErrOrder
import Verif.Spec.Exact
import Verif.Spec.Expects
import Verif.Spec.FirstError
import Verif.Spec.Grammar
import Verif.Spec.Growth
import Verif.Spec.History
import Verif.Spec.Infer
import Verif.Spec.Interchange
import Verif.Spec.Layout
import Verif.Spec.Lexicon
import Verif.Spec.Lexing
import Verif.Spec.Lines
import Verif.Spec.MacroItem
import Verif.Spec.Marking
import Verif.Spec.Message
import Verif.Spec.Names
import Verif.Spec.Nodes
import Verif.Spec.Parses
import Verif.Spec.Plain
import Verif.Spec.Produce
import Verif.Spec.Program
import Verif.Spec.Relabel
import Verif.Spec.RepairLexicon
import Verif.Spec.RepairRecover
import Verif.Spec.RepairRetry
import Verif.Spec.Reparse
import Verif.Spec.Scanning
import Verif.Spec.Size
import Verif.Spec.Sized
import Verif.Spec.Steps
import Verif.Spec.Stray
import Verif.Spec.SyntaxMacro
import Verif.Spec.Tags
import Verif.Spec.Terminals
import Verif.Spec.Threads
import Verif.Spec.TokenStore
import Verif.Spec.Tokens
import Verif.Spec.Tree
import Verif.Spec.TypeId
import Verif.Spec.Value
import Verif.Spec.Viable
import Verif.Proof.Accept
import Verif.Proof.Accepted
import Verif.Proof.Alarm
import Verif.Proof.Bisim
import Verif.Proof.Blame
import Verif.Proof.Book
import Verif.Proof.Calls
import Verif.Proof.Check
import Verif.Proof.Chosen
import Verif.Proof.ChosenCut
import Verif.Proof.ChosenFront
import Verif.Proof.ChosenNode
import Verif.Proof.ChosenOf
import Verif.Proof.ChosenShift
import Verif.Proof.Collect
import Verif.Proof.Complete
import Verif.Proof.CompleteLoop
import Verif.Proof.Conflict
import Verif.Proof.Corrected
import Verif.Proof.Cost
import Verif.Proof.CostAll
import Verif.Proof.CostRun
import Verif.Proof.CostStep
import Verif.Proof.Covered
import Verif.Proof.Debug
import Verif.Proof.Delimited
import Verif.Proof.Depth
import Verif.Proof.Dfs
import Verif.Proof.Ends
import Verif.Proof.ErrCount
import Verif.Proof.ErrOrder
import Verif.Proof.ErrSpan
import Verif.Proof.Expects
import Verif.Proof.Faithful
import Verif.Proof.First
import Verif.Proof.FirstError
import Verif.Proof.FirstExact
import Verif.Proof.FirstTerm
import Verif.Proof.Fits
import Verif.Proof.Follow
import Verif.Proof.Good
import Verif.Proof.Grammar
import Verif.Proof.Growth
import Verif.Proof.Halt
import Verif.Proof.Halts
import Verif.Proof.History
import Verif.Proof.Idle
import Verif.Proof.Infer
import Verif.Proof.Interchange
import Verif.Proof.Items
import Verif.Proof.Jump
import Verif.Proof.Kept
import Verif.Proof.KeptAlarm
import Verif.Proof.KeptTwin
import Verif.Proof.KeptView
import Verif.Proof.LL1
import Verif.Proof.Late
import Verif.Proof.Layout
import Verif.Proof.LayoutStep
import Verif.Proof.Lead
import Verif.Proof.LeftCycle
import Verif.Proof.LeftRec
import Verif.Proof.LexiconErr
import Verif.Proof.LexiconMacro
import Verif.Proof.Lines
import Verif.Proof.Literal
import Verif.Proof.Local
import Verif.Proof.Marking
import Verif.Proof.Measure
import Verif.Proof.Message
import Verif.Proof.Metadata
import Verif.Proof.Names
import Verif.Proof.Nest
import Verif.Proof.Never
import Verif.Proof.Nodes
import Verif.Proof.Order
import Verif.Proof.Parser
import Verif.Proof.Parts
import Verif.Proof.Plain
import Verif.Proof.Program
import Verif.Proof.ProgramMap
import Verif.Proof.ProgramSent
import Verif.Proof.Quiet
import Verif.Proof.RecoverFix
import Verif.Proof.RecoverSame
import Verif.Proof.RecoverTwin
import Verif.Proof.RecoverYields
import Verif.Proof.Rel
import Verif.Proof.Relabel
import Verif.Proof.RelabelGrammar
import Verif.Proof.RelabelLoop
import Verif.Proof.RelabelParser
import Verif.Proof.RelabelProgram
import Verif.Proof.RelabelStep
import Verif.Proof.Repair
import Verif.Proof.RepairAll
import Verif.Proof.RepairEnum
import Verif.Proof.RepairLeft
import Verif.Proof.RepairLexicon
import Verif.Proof.RepairProgram
import Verif.Proof.RepairRetry
import Verif.Proof.Reparse
import Verif.Proof.Rounds
import Verif.Proof.Run
import Verif.Proof.ScanCut
import Verif.Proof.Scanning
import Verif.Proof.Sentence
import Verif.Proof.Set
import Verif.Proof.Sets
import Verif.Proof.Shape
import Verif.Proof.Size
import Verif.Proof.Sized
import Verif.Proof.Sound
import Verif.Proof.State
import Verif.Proof.Steps
import Verif.Proof.Stray
import Verif.Proof.SyntaxCode
import Verif.Proof.SyntaxErr
import Verif.Proof.SyntaxMacro
import Verif.Proof.Tags
import Verif.Proof.Terminates
import Verif.Proof.Terms
import Verif.Proof.TokenCost
import Verif.Proof.TokenVec
import Verif.Proof.Tokens
import Verif.Proof.Transfer
import Verif.Proof.Trees
import Verif.Proof.TypeId
import Verif.Proof.Unique
import Verif.Proof.Universe
import Verif.Proof.Value
import Verif.Proof.Viable
import Verif.Proof.Whole
import Verif.Proof.Yields
import Verif.Props.Accepted
import Verif.Props.Alarm
import Verif.Props.Analysis
import Verif.Props.Blame
import Verif.Props.Book
import Verif.Props.Calls
import Verif.Props.Chosen
import Verif.Props.Collect
import Verif.Props.Combinators
import Verif.Props.Completeness
import Verif.Props.Corrected
import Verif.Props.Cost
import Verif.Props.Debug
import Verif.Props.Delimited
import Verif.Props.Depth
import Verif.Props.Documented
import Verif.Props.ErrCount
import Verif.Props.ErrOrder
import Verif.Props.ErrSpan
import Verif.Props.Exact
import Verif.Props.Expects
import Verif.Props.FirstError
import Verif.Props.Growth
import Verif.Props.Halt
import Verif.Props.History
import Verif.Props.InTime
import Verif.Props.InTimeExact
import Verif.Props.Infer
import Verif.Props.Interchange
import Verif.Props.Items
import Verif.Props.Layout
import Verif.Props.LexMap
import Verif.Props.LexSet
import Verif.Props.Lexicon
import Verif.Props.Lines
import Verif.Props.Local
import Verif.Props.Lookahead
import Verif.Props.MacroItem
import Verif.Props.Marking
import Verif.Props.Messages
import Verif.Props.Names
import Verif.Props.NodeMacro
import Verif.Props.Nodes
import Verif.Props.Parser
import Verif.Props.Parts
import Verif.Props.Plain
import Verif.Props.Prefix
import Verif.Props.Program
import Verif.Props.Relabel
import Verif.Props.Repair
import Verif.Props.RepairAll
import Verif.Props.RepairEnum
import Verif.Props.RepairLeft
import Verif.Props.RepairLexicon
import Verif.Props.RepairProgram
import Verif.Props.RepairRecover
import Verif.Props.RepairRecovery
import Verif.Props.RepairRetry
import Verif.Props.Reparse
import Verif.Props.Rounds
import Verif.Props.Safety
import Verif.Props.Scanning
import Verif.Props.Size
import Verif.Props.Sized
import Verif.Props.Soundness
import Verif.Props.Steps
import Verif.Props.Stray
import Verif.Props.SyntaxMacro
import Verif.Props.Tags
import Verif.Props.TermSets
import Verif.Props.Termination
import Verif.Props.Threads
import Verif.Props.TokenChecked
import Verif.Props.TokenCost
import Verif.Props.TokenMut
import Verif.Props.TokenStore
import Verif.Props.Tokens
import Verif.Props.TypeId
import Verif.Props.Value
import Verif.Props.Viable
import Verif.Conform.Base
import Verif.Conform.Grammars
import Verif.Conform.Iter
import Verif.Conform.Lists
import Verif.Conform.Sets
import Verif.Conform.Tokens

import Verif.Golden.Json
import Verif.Golden.Refs
import Verif.Golden.Tables
import Verif.Golden.TestGrammars
import Verif.Model.AnyReader
import Verif.Model.Ast
import Verif.Model.Basic
import Verif.Model.ByteSet
import Verif.Model.ByteSetShared
import Verif.Model.Concurrent
import Verif.Model.Cst
import Verif.Model.Examples
import Verif.Model.Foreign
import Verif.Model.ForeignOp
import Verif.Model.ForeignText
import Verif.Model.FromCst
import Verif.Model.FromCstCost
import Verif.Model.Live
import Verif.Model.Memory
import Verif.Model.OpList
import Verif.Model.Parser
import Verif.Model.ParserHeap
import Verif.Model.Reader
import Verif.Model.SelfGrammar
import Verif.Model.SelfLiteral
import Verif.Model.Slices
import Verif.Model.Stdout
import Verif.Model.StringCalls
import Verif.Model.TableGen
import Verif.Model.TableGenCost
import Verif.Model.TableHeap
import Verif.Model.TableText
import Verif.Model.TestDriver
import Verif.Model.TestReader
import Verif.Model.TestTools
import Verif.Model.ToAstCalls
import Verif.Model.ToAstGraph
import Verif.Model.ToAstHeap
import Verif.Model.ToAstRaces
import Verif.Model.TypeCalls
import Verif.Model.WalkDepth
import Verif.Model.WalkGraph
import Verif.Model.World
import Verif.Proofs.AnyReader
import Verif.Proofs.BindingsHistory
import Verif.Proofs.BnfParse
import Verif.Proofs.BnfSentence
import Verif.Proofs.Budget
import Verif.Proofs.ByteSet
import Verif.Proofs.CanHang
import Verif.Proofs.Checker
import Verif.Proofs.Cut
import Verif.Proofs.DTree
import Verif.Proofs.Dichotomy
import Verif.Proofs.Edit
import Verif.Proofs.Extract
import Verif.Proofs.Foreign
import Verif.Proofs.FromCst
import Verif.Proofs.FromCstCost
import Verif.Proofs.GrammarFacts
import Verif.Proofs.GrammarHistory
import Verif.Proofs.Grow
import Verif.Proofs.Hang
import Verif.Proofs.HangMemory
import Verif.Proofs.Inline
import Verif.Proofs.Join
import Verif.Proofs.Join2
import Verif.Proofs.Join3
import Verif.Proofs.JsonGrammar
import Verif.Proofs.JsonLex
import Verif.Proofs.JsonSentence
import Verif.Proofs.JsonText
import Verif.Proofs.JsonTree
import Verif.Proofs.JsonUnique
import Verif.Proofs.Language
import Verif.Proofs.LinearAll
import Verif.Proofs.LinearTime
import Verif.Proofs.Live
import Verif.Proofs.LiveFacts
import Verif.Proofs.LiveLinear
import Verif.Proofs.Messages
import Verif.Proofs.Parser
import Verif.Proofs.ParserHeap
import Verif.Proofs.ParserMore
import Verif.Proofs.ParserTop
import Verif.Proofs.Predictive
import Verif.Proofs.Printing
import Verif.Proofs.Reading
import Verif.Proofs.Rearrange
import Verif.Proofs.Recode
import Verif.Proofs.Remedy
import Verif.Proofs.Rename
import Verif.Proofs.Renumber
import Verif.Proofs.Reshape
import Verif.Proofs.Restart
import Verif.Proofs.SelfTable
import Verif.Proofs.SliceMem
import Verif.Proofs.Stdout
import Verif.Proofs.Steered
import Verif.Proofs.StringCalls
import Verif.Proofs.TableClosed
import Verif.Proofs.TableFirst
import Verif.Proofs.TableFirstExact
import Verif.Proofs.TableFollow
import Verif.Proofs.TableGenCost
import Verif.Proofs.TableGenSlow
import Verif.Proofs.TableLoop
import Verif.Proofs.TableRow
import Verif.Proofs.TableText
import Verif.Proofs.TableTop
import Verif.Proofs.TestDriver
import Verif.Proofs.TestLanguages
import Verif.Proofs.ToAstCalls
import Verif.Proofs.ToAstGraph
import Verif.Proofs.ToAstHeap
import Verif.Proofs.ToAstRaces
import Verif.Proofs.Truth
import Verif.Proofs.TypeCalls
import Verif.Proofs.Vanish
import Verif.Props.Acceptance
import Verif.Props.AnyGrammar
import Verif.Props.AnyReader
import Verif.Props.AnySymbol
import Verif.Props.Ast
import Verif.Props.BindingsHistory
import Verif.Props.Bnf
import Verif.Props.Budget
import Verif.Props.ByteSet
import Verif.Props.ByteSetShared
import Verif.Props.CanHang
import Verif.Props.Concurrent
import Verif.Props.Cst
import Verif.Props.Cut
import Verif.Props.Dichotomy
import Verif.Props.Edit
import Verif.Props.EndToEnd
import Verif.Props.Exact
import Verif.Props.Examples
import Verif.Props.Extract
import Verif.Props.FirstError
import Verif.Props.Foreign
import Verif.Props.ForeignOp
import Verif.Props.FromCst
import Verif.Props.FromCstCost
import Verif.Props.GrammarHistory
import Verif.Props.Grow
import Verif.Props.Hang
import Verif.Props.Inline
import Verif.Props.Join
import Verif.Props.Language
import Verif.Props.Linear
import Verif.Props.Live
import Verif.Props.LiveLinear
import Verif.Props.Memory
import Verif.Props.Messages
import Verif.Props.OpList
import Verif.Props.Parser
import Verif.Props.ParserHeap
import Verif.Props.Races
import Verif.Props.Reader
import Verif.Props.Reading
import Verif.Props.Rearrange
import Verif.Props.Recode
import Verif.Props.Remedy
import Verif.Props.Rename
import Verif.Props.Restart
import Verif.Props.SelfGrammar
import Verif.Props.Slices
import Verif.Props.Stdout
import Verif.Props.Steered
import Verif.Props.StringCalls
import Verif.Props.TableGen
import Verif.Props.TableGenCost
import Verif.Props.TableHeap
import Verif.Props.TableText
import Verif.Props.TestDriver
import Verif.Props.TestLanguages
import Verif.Props.TestReader
import Verif.Props.TestTools
import Verif.Props.ToAstCalls
import Verif.Props.ToAstFaults
import Verif.Props.ToAstGraph
import Verif.Props.ToAstHeap
import Verif.Props.ToAstRaces
import Verif.Props.Truth
import Verif.Props.TypeCalls
import Verif.Props.Unused
import Verif.Props.Vanish
import Verif.Props.WalkDepth
import Verif.Props.WalkGraph
import Verif.Props.World
import Verif.Spec.Acceptance
import Verif.Spec.AnyGrammar
import Verif.Spec.AnyReader
import Verif.Spec.AnySymbol
import Verif.Spec.BindingsHistory
import Verif.Spec.Bnf
import Verif.Spec.Budget
import Verif.Spec.CanHang
import Verif.Spec.Complaint
import Verif.Spec.Cut
import Verif.Spec.DTree
import Verif.Spec.Derivation
import Verif.Spec.Edit
import Verif.Spec.Extract
import Verif.Spec.Foreign
import Verif.Spec.Grammar
import Verif.Spec.GrammarHistory
import Verif.Spec.Graph
import Verif.Spec.Grow
import Verif.Spec.Hang
import Verif.Spec.Inline
import Verif.Spec.Join
import Verif.Spec.Json
import Verif.Spec.Live
import Verif.Spec.MemGrammar
import Verif.Spec.MemTree
import Verif.Spec.Messages
import Verif.Spec.Predictive
import Verif.Spec.Reading
import Verif.Spec.Recode
import Verif.Spec.Remedy
import Verif.Spec.Rename
import Verif.Spec.Renumber
import Verif.Spec.Restart
import Verif.Spec.Steered
import Verif.Spec.StringCalls
import Verif.Spec.TableText
import Verif.Spec.Tables
import Verif.Spec.TestDriver
import Verif.Spec.TestLanguages
import Verif.Spec.ToAst
import Verif.Spec.ToAstCalls
import Verif.Spec.ToAstFaults
import Verif.Spec.ToAstGraph
import Verif.Spec.ToAstRaces
import Verif.Spec.Tree
import Verif.Spec.TypeCalls
import Verif.Spec.Vanish

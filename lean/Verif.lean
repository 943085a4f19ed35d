import Verif.Util.Map
import Verif.Model.Types
import Verif.Model.Ir
import Verif.Model.Dfg
import Verif.Model.IrBuilder
import Verif.Model.Layout
import Verif.Model.Program
import Verif.Model.History
import Verif.Spec.Uses
import Verif.Lemmas.Uses
import Verif.Lemmas.Edit
import Verif.Lemmas.Inv
import Verif.Lemmas.InvStep
import Verif.Lemmas.InvStep2
import Verif.Lemmas.Blocks
import Verif.Props.Uses
import Verif.Lemmas.Total
import Verif.Props.Edits
import Verif.Model.Idman
import Verif.Props.Ids
import Verif.Model.TypePool
import Verif.Props.TypeEq
import Verif.Props.LayoutParent
import Verif.Props.ValueEq
import Verif.Spec.Typing
import Verif.Lemmas.Typing
import Verif.Lemmas.TypingStep
import Verif.Lemmas.TypingOps
import Verif.Props.Typing
import Verif.Util.Show
import Verif.Model.Front.Token
import Verif.Model.Front.Lexer
import Verif.Spec.Lexical
import Verif.Lemmas.Front.Lexer
import Verif.Lemmas.Front.LexSpec
import Verif.Lemmas.Front.LexRun
import Verif.Lemmas.Front.Digits
import Verif.Props.Lexer
import Verif.Model.Front.Ast
import Verif.Model.Front.Parser
import Verif.Spec.Grammar
import Verif.Lemmas.Front.ParseRun
import Verif.Lemmas.Front.ParseSound
import Verif.Lemmas.Front.ParseRecover
import Verif.Lemmas.Front.ParseComplete
import Verif.Lemmas.Front.ParseFuel
import Verif.Props.Parser
import Verif.Lemmas.View
import Verif.Props.Params
import Verif.Model.Front.Builder
import Verif.Model.Front.Driver
import Verif.Lemmas.Front.BuildErrs
import Verif.Lemmas.Front.BuildInv
import Verif.Spec.Elab
import Verif.Props.Driver
import Verif.Lemmas.Front.Done
import Verif.Lemmas.Front.BuildRel
import Verif.Lemmas.Front.ElabStmt
import Verif.Lemmas.Front.Bfs
import Verif.Lemmas.Front.ElabFun
import Verif.Lemmas.Front.ElabProg
import Verif.Lemmas.Front.ElabDriver
import Verif.Props.Elab
import Verif.Lemmas.Front.AstEq
import Verif.Props.FrontCases
import Verif.Model.Back.Names
import Verif.Model.Back.Koopa
import Verif.Model.Back.Llvm
import Verif.Spec.Names
import Verif.Spec.Edges
import Verif.Lemmas.Back.Names
import Verif.Lemmas.Back.Pieces
import Verif.Lemmas.Back.Stable
import Verif.Props.Names
import Verif.Props.Phi
import Verif.Model.Lib.Ffi
import Verif.Props.Ffi
import Verif.Model.Opt.Pass
import Verif.Props.Passes
import Verif.Lemmas.Front.Text
import Verif.Lemmas.Front.TypeText
import Verif.Lemmas.Front.Accept
import Verif.Props.TypeText
import Verif.Lemmas.Front.BuildTotal
import Verif.Model.Examples.Brainfuck
import Verif.Spec.Brainfuck
import Verif.Lemmas.Examples.Brainfuck
import Verif.Props.Brainfuck
import Verif.Spec.BfMeaning
import Verif.Lemmas.Examples.BfCode
import Verif.Lemmas.Examples.BfSimple
import Verif.Lemmas.Examples.BfRun
import Verif.Lemmas.Examples.BfText
import Verif.Lemmas.Examples.BfSim
import Verif.Lemmas.Examples.BfWhole
import Verif.Props.BfMeaning
import Verif.Model.Examples.Interp
import Verif.Props.Interp
import Verif.Lemmas.Examples.Sim
import Verif.Model.Examples.ConstFold
import Verif.Lemmas.Examples.ConstFold
import Verif.Props.ConstFold
import Verif.Lemmas.Examples.ParamFold
import Verif.Props.ParamFold
import Verif.Model.Examples.Opt
import Verif.Props.Optimizer
import Verif.Lemmas.Examples.Whole
import Verif.Props.OptText
import Verif.Props.OptParams
import Verif.Props.FoldEnds
import Verif.Props.ParamFoldEnds
import Verif.Props.DceEnds
import Verif.Props.DceSweep
import Verif.Props.DceParams
import Verif.Model.Examples.Dce
import Verif.Lemmas.Examples.Dce
import Verif.Spec.Dce
import Verif.Lemmas.Examples.DceRound
import Verif.Props.Dce
import Verif.Model.Lib.Raw
import Verif.Lemmas.Lib.RawBuild
import Verif.Lemmas.Lib.RawReuse
import Verif.Props.RawReuse
import Verif.Spec.Raw
import Verif.Lemmas.Lib.RawTotal
import Verif.Lemmas.Lib.RawGen
import Verif.Lemmas.Lib.RawGenInv
import Verif.Lemmas.Lib.RawGenStep
import Verif.Lemmas.Lib.RawGenStep2
import Verif.Lemmas.Lib.RawGenTotal
import Verif.Lemmas.Lib.RawGenTotal2
import Verif.Lemmas.Lib.RawGenTotal3
import Verif.Lemmas.Lib.RawGenGlob
import Verif.Lemmas.Lib.RawRound
import Verif.Lemmas.Front.Tidy
import Verif.Lemmas.Front.Kept
import Verif.Lemmas.Front.Convert
import Verif.Lemmas.Front.NamesIn
import Verif.Lemmas.Lib.RawFuel
import Verif.Lemmas.Lib.RawCheck
import Verif.Props.Raw
import Verif.Spec.Typed
import Verif.Lemmas.Front.Search
import Verif.Lemmas.Front.Runs
import Verif.Lemmas.Front.RunsFun
import Verif.Lemmas.Front.RunsInit
import Verif.Lemmas.Front.RunsProg
import Verif.Props.Typed
import Verif.Spec.Print
import Verif.Lemmas.Back.Show
import Verif.Lemmas.Back.Tree
import Verif.Lemmas.Back.TreeText
import Verif.Lemmas.Back.TreeRun
import Verif.Lemmas.Back.TreeLex
import Verif.Lemmas.Back.TreeOk
import Verif.Lemmas.Back.SameItems
import Verif.Lemmas.Back.SameFun
import Verif.Lemmas.Back.SameProg
import Verif.Lemmas.Back.Readable
import Verif.Props.RoundTrip
import Verif.Lemmas.Back.Lock
import Verif.Lemmas.Back.Place
import Verif.Lemmas.Back.Again
import Verif.Props.Machine
import Verif.Spec.LlvmText
import Verif.Spec.LlvmMachine
import Verif.Spec.LlvmProg
import Verif.Lemmas.Back.LlvmTrans
import Verif.Lemmas.Back.LlvmWords
import Verif.Lemmas.Back.LlvmLines
import Verif.Lemmas.Back.LlvmShape
import Verif.Lemmas.Back.LlvmRun
import Verif.Lemmas.Back.LlvmSim
import Verif.Lemmas.Back.LlvmStep
import Verif.Lemmas.Back.LlvmWhole
import Verif.Lemmas.Back.LlvmReady
import Verif.Lemmas.Back.LlvmStatic
import Verif.Props.Llvm
import Verif.Lemmas.Back.LlvmGrammar
import Verif.Lemmas.Back.LlvmUnique
import Verif.Lemmas.Back.LlvmOnly
import Verif.Lemmas.Back.LlvmCore
import Verif.Spec.Behave
import Verif.Lemmas.Same.Match
import Verif.Lemmas.Same.Step
import Verif.Lemmas.Same.Run
import Verif.Lemmas.Same.Whole
import Verif.Lemmas.Same.Text
import Verif.Lemmas.Same.KeptNames
import Verif.Lemmas.Same.Raw
import Verif.Props.Same
import Verif.Spec.LlvmValid
import Verif.Spec.Ssa
import Verif.Lemmas.Back.LlvmTyped
import Verif.Lemmas.Back.LlvmApart
import Verif.Lemmas.Back.LlvmBlocks
import Verif.Lemmas.Back.LlvmSsa
import Verif.Props.LlvmValid
import Verif.Lemmas.Front.OneMeaning
import Verif.Props.OneMeaning
import Verif.Spec.NameForm
import Verif.Lemmas.NameForm
import Verif.Props.NameForm
import Verif.Model.TypeSize
import Verif.Spec.TypeSize
import Verif.Props.TypeSize
import Verif.Spec.LlvmCut
import Verif.Lemmas.Back.LlvmPrints
import Verif.Lemmas.Back.Total
import Verif.Lemmas.Back.LlvmCut
import Verif.Props.LlvmPrints
import Verif.Model.Back.Writer
import Verif.Spec.Reuse
import Verif.Lemmas.Back.Reuse
import Verif.Props.Reuse
import Verif.Spec.Harmless
import Verif.Lemmas.Front.NoPanic
import Verif.Lemmas.Front.NoPanicFun
import Verif.Lemmas.Front.NoPanicItem
import Verif.Lemmas.Front.ParseTrees
import Verif.Props.NoPanic
import Verif.Lemmas.Examples.BfLlvm
import Verif.Props.BfLlvm
import Verif.Model.Front.Span
import Verif.Model.Front.LexPos
import Verif.Spec.Position
import Verif.Spec.Message
import Verif.Lemmas.Front.LexErase
import Verif.Lemmas.Front.LexPos
import Verif.Lemmas.Front.Here
import Verif.Lemmas.Front.Message
import Verif.Props.Position
import Verif.Props.Message

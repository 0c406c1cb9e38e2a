import Verif.Props.Queue
import Verif.Props.IntSet
import Verif.Props.Source
import Verif.Props.SrcQueue
import Verif.Props.Lexer
import Verif.Props.Llx
import Verif.Props.Tree
import Verif.Props.TreeWalk
import Verif.Props.Compile
import Verif.Props.Nodes
import Verif.Props.Tables
import Verif.Props.Keys
import Verif.Props.ParseTokens
import Verif.Props.ParseTree
import Verif.Model.Pipeline
import Verif.Props.Sound
import Verif.Props.Types
import Verif.Props.Lookahead
import Verif.Props.Pipeline
import Verif.Props.Errors
import Verif.Props.FullSource
import Verif.Props.Eoi
import Verif.Props.TreeHook
import Verif.Props.Layers
import Verif.Props.Indent
import Verif.Props.Escape
import Verif.Props.LangDef
import Verif.Props.LangSyntax
import Verif.Props.LangParse
import Verif.Props.CompileTotal
import Verif.Props.LlxGen
import Verif.Props.ParseHalts
import Verif.Spec.HookLimits
import Verif.Proof.HooksHalt
import Verif.Proof.HooksRest
import Verif.Props.HookHalts
import Verif.Props.NewParser
import Verif.Props.HookChoice
import Verif.Props.OneToken
import Verif.Props.OneTokenIff
import Verif.Props.OneTokenTree
import Verif.Props.TextIff
import Verif.Props.TextGroups
import Verif.Props.Lossless
import Verif.Model.GrammarTool
import Verif.Spec.Samples
import Verif.Spec.Print
import Verif.Proof.Samples
import Verif.Proof.Printer
import Verif.Props.GrammarTool
import Verif.Props.Printer
import Verif.Spec.Fold
import Verif.Model.Objects
import Verif.Proof.Fold
import Verif.Props.Fold
import Verif.Model.Examples
import Verif.Proof.CompileOrder
import Verif.Props.CompileOrder
import Verif.Model.Calc.Grammar
import Verif.Model.Calc.Lib
import Verif.Spec.Calc
import Verif.Proof.CalcCompute
import Verif.Proof.CalcWords
import Verif.Proof.CalcRead
import Verif.Proof.CalcPerform
import Verif.Proof.Shapes
import Verif.Proof.CalcAhead
import Verif.Props.SoundOn
import Verif.Props.Calc
import Verif.Proof.CalcUnique
import Verif.Model.ConfEdit
import Verif.Model.ConfGrammar
import Verif.Spec.Conf
import Verif.Proof.ConfTree
import Verif.Proof.ConfOps
import Verif.Proof.ConfIndex
import Verif.Proof.ConfChange
import Verif.Proof.ConfEntry
import Verif.Proof.ConfValue
import Verif.Proof.ConfAdd
import Verif.Proof.ConfSection
import Verif.Proof.ConfOpen
import Verif.Proof.ConfDrop
import Verif.Proof.ConfLoad
import Verif.Proof.ConfSession
import Verif.Proof.ConfBuild
import Verif.Props.ConfEdit
import Verif.Props.NoPanic
import Verif.Proof.HooksPanic
import Verif.Props.HookPanics
import Verif.Spec.ManyTokens
import Verif.Proof.ManyTokens
import Verif.Proof.ManyTokensAhead
import Verif.Proof.ManyTokensParse
import Verif.Proof.ManyTokensCheck
import Verif.Props.ManyTokens
import Verif.Model.StyleCheck
import Verif.Model.StyleGrammar
import Verif.Spec.Style
import Verif.Proof.Style
import Verif.Proof.StyleChecks
import Verif.Proof.StyleSpaces
import Verif.Proof.StyleLines
import Verif.Proof.Names
import Verif.Proof.StyleParse
import Verif.Props.StyleTables
import Verif.Props.Style
import Verif.Props.StyleSamples
import Verif.Model.TestTree
import Verif.Spec.TestTree
import Verif.Proof.TestTree
import Verif.Props.TestTree
import Verif.Spec.Cuts
import Verif.Proof.Cuts
import Verif.Proof.CutsPart
import Verif.Props.TextSound
import Verif.Spec.ConfFile
import Verif.Proof.ConfParse
import Verif.Props.ConfTables
import Verif.Props.ConfFile
import Verif.Props.ConfSamples
import Verif.Proof.CutsWhole
import Verif.Spec.ConfText
import Verif.Proof.ConfLines
import Verif.Proof.ConfCut
import Verif.Proof.ConfStates
import Verif.Props.ConfLines
import Verif.Proof.ConfClean
import Verif.Proof.ConfPlain
import Verif.Props.ConfAgain
import Verif.Model.Calc.Compute
import Verif.Spec.CalcText
import Verif.Proof.Wide
import Verif.Proof.CalcStop
import Verif.Proof.Captured
import Verif.Proof.CutsEnd
import Verif.Props.CalcText
import Verif.Props.CalcTextSamples
import Verif.Spec.Series
import Verif.Props.Rest
import Verif.Spec.Failing
import Verif.Proof.Failing
import Verif.Props.Failing
import Verif.Proof.CalcCalm
import Verif.Proof.CalcKeeps
import Verif.Props.CalcCalm
import Verif.Spec.Fetch
import Verif.Proof.Fetch
import Verif.Props.Fetch

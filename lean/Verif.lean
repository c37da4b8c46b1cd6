import Verif.Lemmas.BigFloat
import Verif.Lemmas.Depth
import Verif.Lemmas.DepthImports
import Verif.Lemmas.Div
import Verif.Lemmas.DivAny
import Verif.Lemmas.DivExact
import Verif.Lemmas.Double
import Verif.Lemmas.GrammarImports
import Verif.Lemmas.GrammarNames
import Verif.Lemmas.Graph
import Verif.Lemmas.GraphFrozen
import Verif.Lemmas.GraphPanic
import Verif.Lemmas.GraphReach
import Verif.Lemmas.GraphStep
import Verif.Lemmas.Layout
import Verif.Lemmas.Limbs
import Verif.Lemmas.LowDivision
import Verif.Lemmas.MemDecode
import Verif.Lemmas.MemDrop
import Verif.Lemmas.MemNew
import Verif.Lemmas.MemRel
import Verif.Lemmas.MemRun
import Verif.Lemmas.MemStep
import Verif.Lemmas.MemStore
import Verif.Lemmas.MemWord
import Verif.Lemmas.Mul
import Verif.Lemmas.ParserAccept
import Verif.Lemmas.ParserAcceptFiles
import Verif.Lemmas.ParserAcceptModule
import Verif.Lemmas.ParserComplete
import Verif.Lemmas.ParserCrash
import Verif.Lemmas.ParserCrashFiles
import Verif.Lemmas.ParserCrashModule
import Verif.Lemmas.ParserCtx
import Verif.Lemmas.ParserDeadEnd
import Verif.Lemmas.ParserHeap
import Verif.Lemmas.ParserMap
import Verif.Lemmas.ParserMix
import Verif.Lemmas.ParserProgram
import Verif.Lemmas.ParserProject
import Verif.Lemmas.ParserRun
import Verif.Lemmas.ParserSound
import Verif.Lemmas.ParserTotal
import Verif.Lemmas.Path
import Verif.Lemmas.PathDot
import Verif.Lemmas.ProjectUnique
import Verif.Lemmas.Release
import Verif.Lemmas.ReleaseApp
import Verif.Lemmas.ReleaseFloat
import Verif.Lemmas.Sequential
import Verif.Lemmas.SerBig
import Verif.Lemmas.SerCopy
import Verif.Lemmas.SerCost
import Verif.Lemmas.SerCostDoc
import Verif.Lemmas.SerDjs
import Verif.Lemmas.SerDjsRead
import Verif.Lemmas.SerInjective
import Verif.Lemmas.SerRead
import Verif.Lemmas.SerReject
import Verif.Lemmas.SerSame
import Verif.Lemmas.SerTrack
import Verif.Lemmas.Shift
import Verif.Lemmas.ShiftLost
import Verif.Lemmas.ShowExact
import Verif.Lemmas.Threads
import Verif.Lemmas.TokNum
import Verif.Lemmas.TokNumRun
import Verif.Lemmas.TokRun
import Verif.Lemmas.TokStep
import Verif.Lemmas.TokTables
import Verif.Lemmas.Twos
import Verif.Model.Analyzer
import Verif.Model.AnyWord
import Verif.Model.App
import Verif.Model.BigFloat
import Verif.Model.BigInt
import Verif.Model.BigUint
import Verif.Model.BitSubset
import Verif.Model.Depth
import Verif.Model.Err
import Verif.Model.ForEach
import Verif.Model.Graph
import Verif.Model.Handles
import Verif.Model.JsBigint
import Verif.Model.Layout
import Verif.Model.Limbs
import Verif.Model.Memory
import Verif.Model.Parser
import Verif.Model.Path
import Verif.Model.RangeMap
import Verif.Model.RefMut
import Verif.Model.Release
import Verif.Model.ReleaseApp
import Verif.Model.ReleaseFloat
import Verif.Model.Serializer
import Verif.Model.SerializerCost
import Verif.Model.Threads
import Verif.Model.Tokenizer
import Verif.Model.Utf16
import Verif.Props.Analyzer
import Verif.Props.AnyEq
import Verif.Props.AnyWord
import Verif.Props.App
import Verif.Props.AppCrash
import Verif.Props.BigFloat
import Verif.Props.BigFloatAny
import Verif.Props.BigFloatWell
import Verif.Props.BigNumbers
import Verif.Props.Conversions
import Verif.Props.Depth
import Verif.Props.DepthImports
import Verif.Props.Division
import Verif.Props.DivisionExact
import Verif.Props.DivisionLow
import Verif.Props.ForEach
import Verif.Props.Graph
import Verif.Props.GraphFrozen
import Verif.Props.GraphPanic
import Verif.Props.GraphTyped
import Verif.Props.Handles
import Verif.Props.Histories
import Verif.Props.JsBigint
import Verif.Props.JsBigintBits
import Verif.Props.JsBigintDiv
import Verif.Props.Layout
import Verif.Props.LiteralWell
import Verif.Props.Main
import Verif.Props.Memory
import Verif.Props.ParserAccept
import Verif.Props.ParserCrash
import Verif.Props.ParserDeadEnd
import Verif.Props.ParserFiles
import Verif.Props.ParserFrame
import Verif.Props.ParserLang
import Verif.Props.ParserProject
import Verif.Props.ParserPure
import Verif.Props.Path
import Verif.Props.RangeMap
import Verif.Props.RefMut
import Verif.Props.Release
import Verif.Props.ReleaseApp
import Verif.Props.ReleaseFloat
import Verif.Props.SerializerAccept
import Verif.Props.SerializerCanonical
import Verif.Props.SerializerCost
import Verif.Props.SerializerDjs
import Verif.Props.SerializerDjsRead
import Verif.Props.SerializerJson
import Verif.Props.SerializerShort
import Verif.Props.SerializerString
import Verif.Props.Sharing
import Verif.Props.ShiftRight
import Verif.Props.ShiftU64
import Verif.Props.SmallLiterals
import Verif.Props.SourceText
import Verif.Props.Steps
import Verif.Props.Threads
import Verif.Props.TokenizerGrammar
import Verif.Props.TokenizerNumber
import Verif.Props.TokenizerRender
import Verif.Props.TokenizerRun
import Verif.Props.TokenizerSpace
import Verif.Props.TokenizerString
import Verif.Props.TokenizerTotal
import Verif.Props.TokenizerWell
import Verif.Props.Utf16
import Verif.Spec.Accepts
import Verif.Spec.Chars
import Verif.Spec.Crashes
import Verif.Spec.Depth
import Verif.Spec.DepthImports
import Verif.Spec.Djs
import Verif.Spec.Double
import Verif.Spec.Grammar
import Verif.Spec.Graph
import Verif.Spec.GraphTyped
import Verif.Spec.HappensBefore
import Verif.Spec.Json
import Verif.Spec.LongDivision
import Verif.Spec.LowDivision
import Verif.Spec.Memory
import Verif.Spec.Num
import Verif.Spec.NumLit
import Verif.Spec.Path
import Verif.Spec.Project
import Verif.Spec.Sequential
import Verif.Spec.Shift
import Verif.Spec.Source
import Verif.Spec.StringLit
import Verif.Spec.Utf16
import Verif.Spec.Values
import Verif.Tests.App
import Verif.Tests.BigFloat
import Verif.Tests.BigInt
import Verif.Tests.BigUint
import Verif.Tests.Blocks
import Verif.Tests.JsBigint
import Verif.Tests.Parser
import Verif.Tests.Path
import Verif.Tests.RangeMap
import Verif.Tests.Tokenizer
import Verif.Tests.Words

import Verif.Model.StdString
import Verif.Model.Flags
import Verif.Props.Flags
import Verif.Props.FlagEngines
import Verif.Model.Tokenizer
import Verif.Lemmas.Trie
import Verif.Props.Tokenizer
import Verif.Model.Utf8
import Verif.Props.Utf8
import Verif.Model.Graph
import Verif.Spec.Path
import Verif.Lemmas.Graph
import Verif.Model.GraphEdit
import Verif.Props.GraphEdit
import Verif.Props.GraphOps
import Verif.Props.GraphPaths
import Verif.Props.GraphTrie
import Verif.Props.GraphSplice
import Verif.Model.Text
import Verif.Lemmas.Text
import Verif.Model.Att
import Verif.Props.Att
import Verif.Model.Prolog
import Verif.Props.Prolog
import Verif.Model.PairString
import Verif.Props.PairString
import Verif.Model.Escapes
import Verif.Props.Escapes
import Verif.Props.Quoted
import Verif.Model.Med
import Verif.Props.Med
import Verif.Model.Stream
import Verif.Props.Stream
import Verif.Model.Lookup
import Verif.Spec.Lookup
import Verif.Props.Lookup
import Verif.Props.Ambiguity
import Verif.Model.Distance
import Verif.Props.Distance
import Verif.Model.Intersect
import Verif.Props.Intersect
import Verif.Model.Harmonize
import Verif.Props.Harmonize
import Verif.Model.OlFile
import Verif.Props.OlFile
import Verif.Model.Symbols
import Verif.Props.Symbols
import Verif.Model.Compose
import Verif.Spec.Compose
import Verif.Props.Compose
import Verif.Props.ComposeLang
import Verif.Props.ComposeCases
import Verif.Model.OlEncode
import Verif.Spec.OlEncode
import Verif.Props.OlEncode
import Verif.Model.OlLookup
import Verif.Spec.OlLookup
import Verif.Props.OlLookup
import Verif.Model.OlConvert
import Verif.Spec.OlConvert
import Verif.Props.OlConvertTables
import Verif.Props.OlConvertSymbols
import Verif.Props.OlConvert
import Verif.Props.OlConvertLookup
import Verif.Props.OlConvertDemo
import Verif.Model.OlWalk
import Verif.Spec.OlWalk
import Verif.Props.OlWalk
import Verif.Props.OlWalkBasic
import Verif.Props.OlExtract
import Verif.Props.OlWalkGraph
import Verif.Props.OlWalkDemo
import Verif.Model.OlLoops
import Verif.Spec.OlLoops
import Verif.Props.OlLoops
import Verif.Props.OlLoopsGraph
import Verif.Props.OlLoopsDemo
import Verif.Model.OlSpell
import Verif.Spec.OlSpell
import Verif.Props.OlSpell
import Verif.Props.OlSpellRun
import Verif.Props.OlSpellCorrect
import Verif.Props.OlSpellText
import Verif.Props.OlSpellMain
import Verif.Props.OlSpellGraph
import Verif.Props.OlSpellDemo
import Verif.Model.Pmatch
import Verif.Spec.Pmatch
import Verif.Props.Pmatch
import Verif.Props.PmatchRun
import Verif.Props.PmatchText
import Verif.Props.PmatchTags
import Verif.Props.PmatchDemo
import Verif.Spec.PmatchRuns
import Verif.Props.PmatchRuns
import Verif.Props.PmatchScan
import Verif.Props.PmatchScanDemo
import Verif.Model.Sfst
import Verif.Spec.Sfst
import Verif.Lemmas.SfstBuild
import Verif.Lemmas.SfstCopy
import Verif.Lemmas.SfstVisit
import Verif.Lemmas.SfstReverse
import Verif.Lemmas.SfstDet
import Verif.Props.SfstOps
import Verif.Props.SfstStar
import Verif.Props.SfstDet
import Verif.Props.SfstCompose
import Verif.Props.SfstDemo
import Verif.Model.SfstMin
import Verif.Lemmas.SfstHop
import Verif.Lemmas.SfstHopLoop
import Verif.Lemmas.SfstMin
import Verif.Props.SfstMin
import Verif.Model.SfstCmp
import Verif.Lemmas.SfstCmp
import Verif.Lemmas.SfstNeg
import Verif.Props.SfstCmp
import Verif.Props.SfstPath
import Verif.Model.Lexc
import Verif.Spec.Lexc
import Verif.Props.LexcCut
import Verif.Props.LexcCost
import Verif.Props.LexcSplice
import Verif.Props.LexcSyms
import Verif.Props.LexcCompile
import Verif.Props.LexcRun
import Verif.Props.LexcMain
import Verif.Props.Lexc
import Verif.Props.LexcBackend
import Verif.Props.LexcDemo
import Verif.Model.Transducer
import Verif.Spec.Transducer
import Verif.Props.TransducerMeans
import Verif.Props.TransducerCompose
import Verif.Props.TransducerOps
import Verif.Props.TransducerRepeat
import Verif.Props.TransducerPriority
import Verif.Props.TransducerBackend
import Verif.Props.TransducerDemo
import Verif.Props.LexcErrors
import Verif.Props.TransducerCross
import Verif.Model.Rules
import Verif.Spec.Rules
import Verif.Props.RulesBasic
import Verif.Props.TwoLevel
import Verif.Props.Replace
import Verif.Props.Markers
import Verif.Props.MarkerErase
import Verif.Props.Restriction
import Verif.Model.Shuffle
import Verif.Spec.Shuffle
import Verif.Props.Shuffle
import Verif.Props.ShuffleMain
import Verif.Props.ShuffleProps
import Verif.Model.FlagElim
import Verif.Spec.FlagElim
import Verif.Props.FlagLogic
import Verif.Props.FlagFilter
import Verif.Props.FlagUnescape
import Verif.Props.FlagPurge
import Verif.Props.FlagElim
import Verif.Model.Convert
import Verif.Spec.Convert
import Verif.Props.Convert
import Verif.Props.ConvertLog
import Verif.Model.ProcBuffer
import Verif.Spec.ProcBuffer
import Verif.Props.ProcBuffer
import Verif.Model.ProcToken
import Verif.Spec.ProcToken
import Verif.Props.ProcToken
import Verif.Model.ProcAnalysis
import Verif.Spec.ProcAnalysis
import Verif.Props.ProcAnalysis
import Verif.Model.SfstFile
import Verif.Spec.SfstFile
import Verif.Props.SfstFile
import Verif.Model.SfstBasic
import Verif.Spec.SfstBasic
import Verif.Props.SfstBasic
import Verif.Props.SfstBasicDemo
import Verif.Model.Extract
import Verif.Spec.Extract
import Verif.Props.Extract
import Verif.Props.ExtractDemo
import Verif.Model.TwolcVars
import Verif.Spec.TwolcVars
import Verif.Lemmas.TwolcVars
import Verif.Lemmas.TwolcMap
import Verif.Props.TwolcVars
import Verif.Props.TwolcRules
import Verif.Props.TwolcVarsDemo
import Verif.Model.TwolcRules
import Verif.Spec.TwolcRules
import Verif.Lemmas.TwolcRules
import Verif.Lemmas.TwolcGrammar
import Verif.Lemmas.TwolcInv
import Verif.Lemmas.TwolcElems
import Verif.Lemmas.TwolcLast
import Verif.Props.TwolcMeaning
import Verif.Props.TwolcOrder
import Verif.Model.ToolStreams
import Verif.Spec.ToolStreams
import Verif.Props.ToolArchives
import Verif.Props.ToolPairs
import Verif.Model.FlagHarmonize
import Verif.Props.ToolConstant
import Verif.Spec.FlagHarmonize
import Verif.Lemmas.FlagHarmonize
import Verif.Props.FlagHarmonize
import Verif.Props.FlagConjunct
import Verif.Props.FlagHarmonizeDemo
import Verif.Model.Reweight
import Verif.Spec.Reweight
import Verif.Props.Reweight
import Verif.Props.ReweightRules
import Verif.Model.XfstStack
import Verif.Spec.XfstStack
import Verif.Props.XfstStack
import Verif.Props.XfstStackDemo
import Verif.Model.PairTest
import Verif.Spec.PairTest
import Verif.Props.PairTest
import Verif.Props.PairTestDemo
import Verif.Model.KillPaths
import Verif.Spec.KillPaths
import Verif.Props.KillPaths
import Verif.Props.KillPathsDemo
import Verif.Model.ExpandEquiv
import Verif.Spec.ExpandEquiv
import Verif.Props.ExpandEquiv
import Verif.Props.ExpandEquivDemo
import Verif.Model.ToolSubstitute
import Verif.Spec.ToolSubstitute
import Verif.Props.ToolSubstitute
import Verif.Props.ToolSubstituteDemo
import Verif.Model.ToolRepeat
import Verif.Spec.ToolRepeat
import Verif.Props.ToolRepeat
import Verif.Model.Summarize
import Verif.Spec.Summarize
import Verif.Props.Summarize
import Verif.Model.ToolInfo
import Verif.Spec.ToolInfo
import Verif.Props.ToolInfo
import Verif.Model.EditMetadata
import Verif.Spec.EditMetadata
import Verif.Props.EditMetadata
import Verif.Model.CheckAlpha
import Verif.Spec.CheckAlpha
import Verif.Props.CheckAlpha
import Verif.Model.Traverse
import Verif.Spec.Traverse
import Verif.Props.Traverse
import Verif.Model.StripHeader
import Verif.Spec.StripHeader
import Verif.Props.StripHeader
import Verif.Model.ToolName
import Verif.Spec.ToolName
import Verif.Props.ToolName
import Verif.Model.AffixGuess
import Verif.Props.AffixGuess

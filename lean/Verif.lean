import Verif.Basic.Tree
import Verif.Basic.Str
import Verif.Basic.StrLemmas
import Verif.Binarize.Model
import Verif.Binarize.Lemmas
import Verif.Binarize.Props
import Verif.Binarize.SaveHeads
import Verif.Bits.Model
import Verif.Bits.Lemmas
import Verif.Bits.Props
import Verif.Bits.Runs
import Verif.Bits.Yield
import Verif.Heap.Heapq
import Verif.Util.Merge
import Verif.Basic.Dict
import Verif.Util.Agenda
import Verif.Util.CppAgenda
import Verif.Basic.Sort
import Verif.Trees.Canonical
import Verif.Trees.Fanout
import Verif.Trees.RemoveTerminals
import Verif.Trees.IntroPreterm
import Verif.Trees.Traversal
import Verif.Trees.MinSort
import Verif.Trees.SplitDisc
import Verif.Trees.MergeDisc
import Verif.Format.Escape
import Verif.Format.Bracket
import Verif.Format.ExportText
import Verif.Format.Export
import Verif.Format.ExportProof
import Verif.Format.ExportRound
import Verif.Format.ExportRewrite
import Verif.Format.ExportCorpus
import Verif.Format.ExportAny
import Verif.Format.TigerXml
import Verif.Format.ExportMore
import Verif.Util.OrderedSet
import Verif.Grammar.Cartpi
import Verif.Parse.CellIdx
import Verif.Grammar.SumRuns
import Verif.Eval.Closure
import Verif.Eval.EditDist
import Verif.Eval.Parseval
import Verif.Eval.AlignSent
import Verif.Grammar.Productions
import Verif.Basic.Counter
import Verif.Grammar.TreebankGrammar
import Verif.Bits.Tricks
import Verif.Parse.Concat
import Verif.Grammar.YieldBits
import Verif.Grammar.Convert
import Verif.Grammar.IndexRules
import Verif.Grammar.WriteGrammar
import Verif.Grammar.DopReduction
import Verif.Parse.Plcfrs
import Verif.Parse.PlcfrsItems
import Verif.Parse.Cky
import Verif.Parse.Partition
import Verif.Parse.Kbest
import Verif.Parse.KbestInv
import Verif.Parse.KbestRun
import Verif.Parse.KbestProps
import Verif.Trees.Factor
import Verif.Grammar.DoubleDop
import Verif.Grammar.DoubleDopFlat
import Verif.Grammar.DoubleDopRules
import Verif.Grammar.DoubleDopFrag
import Verif.Grammar.DoubleDopInv
import Verif.Grammar.DoubleDopProps
import Verif.Grammar.DoubleDopExamples
import Verif.Grammar.DopWeights
import Verif.Format.DepText
import Verif.Grammar.PackedGraph
import Verif.Grammar.PackedDop
import Verif.Trees.Dependencies
import Verif.Trees.HeadRules
import Verif.Eval.TreeEdit
import Verif.Eval.ZhangShasha
import Verif.Eval.TreeDist
import Verif.Eval.TreeDistPrepare
import Verif.Trees.Parented
import Verif.Trees.Punctuation
import Verif.Trees.PunctMove
import Verif.Trees.PunctProps
import Verif.Trees.PunctApply
import Verif.Trees.PunctRoot
import Verif.Trees.PunctExamples
import Verif.Frag.Model
import Verif.Frag.Kernel
import Verif.Frag.Extract
import Verif.Frag.Maximal
import Verif.Frag.Counts
import Verif.Frag.All
import Verif.Frag.Treebank
import Verif.Frag.Examples
import Verif.Frag.Vocab
import Verif.Frag.Ctrees
import Verif.Frag.CtreesProps
import Verif.Frag.CtreesHist
import Verif.Frag.CtreesText
import Verif.Parse.Inside
import Verif.Parse.Outside
import Verif.Parse.Posterior
import Verif.Parse.LexProb
import Verif.Lexicon.Model
import Verif.Lexicon.Props
import Verif.Lexicon.Cover
import Verif.Lexicon.Examples
import Verif.Disamb.Marginalize
import Verif.Disamb.MarginalizeProps
import Verif.Disamb.Constraints
import Verif.Disamb.DerivFrags
import Verif.Disamb.LogProb
import Verif.Disamb.DoubleDop
import Verif.Ctf.Whitelist
import Verif.Ctf.Filter
import Verif.Ctf.Lossless
import Verif.Ctf.Select
import Verif.Ctf.Mapping
import Verif.Estimate.Sx
import Verif.Estimate.Astar
import Verif.Estimate.SxParser
import Verif.Estimate.Lr
import Verif.Disamb.DopProb
import Verif.Disamb.Mcp
import Verif.Trees.OptBin
import Verif.Trees.OptBinTop
import Verif.Trees.RelReal
import Verif.Format.Incremental
import Verif.Trees.Equality
import Verif.Trees.Transform
import Verif.Grammar.Gen
import Verif.Search.Cache
import Verif.Search.Lines
import Verif.Draw.Coords
import Verif.Draw.Place
import Verif.Run.Batch
import Verif.Run.ParseCmd
import Verif.Trees.FuncTags
import Verif.Run.Pipeline
import Verif.Format.Alpino
import Verif.Eval.Transform
import Verif.Eval.LeafAncestor
import Verif.Grammar.OsTag
import Verif.Trees.Raise
import Verif.Format.MixedReader
import Verif.Run.CorpusSel
import Verif.Eval.Params
import Verif.Trees.RuleFiles
import Verif.Trees.CollapseLabels
import Verif.Format.PtbEscape
import Verif.Binarize.MarkovThreshold
import Verif.Format.AlpinoCorpus
import Verif.Grammar.AddIndices

import Verif.Py.Str
import Verif.Py.Sort
import Verif.DualDict.Props
import Verif.Tree.Props
import Verif.Tree.RootShift
import Verif.Tree.CrossShift
import Verif.Mwt.Props
import Verif.Py.Num
import Verif.Py.Text
import Verif.Empty.Props
import Verif.Deps.Props
import Verif.Deprel.Props
import Verif.Bundle.Props
import Verif.Conllu.Read
import Verif.Conllu.RoundTrip
import Verif.Conllu.FileProps
import Verif.Conllu.MetaProps
import Verif.Conllu.SpaceAfter
import Verif.Eval.Lcs
import Verif.Eval.F1
import Verif.Eval.Parsing
import Verif.Run.CommandLine
import Verif.Run.Execute
import Verif.Run.Split
import Verif.Run.Files
import Verif.Run.Dispatch
import Verif.Run.Writer
import Verif.Run.Reader
import Verif.Run.ReaderProps
import Verif.Run.ReaderDocs
import Verif.Run.ReaderMax
import Verif.Run.FastLoad
import Verif.Coref.Entity
import Verif.Coref.Span
import Verif.Coref.Order
import Verif.Coref.Mentions
import Verif.Coref.Sorted
import Verif.Coref.Store
import Verif.Coref.Disc
import Verif.Coref.MergeSpan
import Verif.Coref.Interleaved
import Verif.Coref.Index
import Verif.Coref.Links
import Verif.Coref.Other
import Verif.Text.Compute
import Verif.Text.SpaceAfter
import Verif.Text.Tokenize
import Verif.Text.Segment
import Verif.Tree.Flatten
import Verif.Tree.Steal
import Verif.Tree.StealLoop
import Verif.Tree.StealProps
import Verif.Blocks.Basic
import Verif.Blocks.PunctChild
import Verif.Blocks.Chain
import Verif.Blocks.Root
import Verif.Blocks.Subjects
import Verif.Blocks.Leaf
import Verif.Blocks.Rightheaded
import Verif.Blocks.Proj
import Verif.Coref.Bridging
import Verif.Coref.BridgeText
import Verif.Blocks.JoinSent
import Verif.Blocks.SplitSent
import Verif.Blocks.Merge
import Verif.Blocks.JoinToken
import Verif.Coref.DeleteEmpty
import Verif.Coref.MoveHead
import Verif.Blocks.FixPunctPair
import Verif.Eval.Conll18Scores
import Verif.Eval.MarkDiffProps
import Verif.Eval.MarkDiffExact
import Verif.Blocks.Reseg
import Verif.Blocks.ResegRoot
import Verif.Write.DrawProps
import Verif.Write.DrawGaps
import Verif.Text.ComplyProps
import Verif.Run.ReaderSplit
import Verif.Run.Filter
import Verif.Text.AddMwtProps
import Verif.Text.AddMwtWords
import Verif.Text.SetSpace
import Verif.Text.JoinMwt
import Verif.Text.SplitUnder
import Verif.Blocks.FilterTree
import Verif.Text.Goeswith
import Verif.Blocks.Advmod
import Verif.Blocks.Names
import Verif.Blocks.PseudoCop
import Verif.Text.MwtSpace
import Verif.Deps.Enhance
import Verif.DualDict.PunctType
import Verif.Conllu.Translation
import Verif.Empty.OrdTuple
import Verif.Tree.Attrs
import Verif.Tree.TreeletAny
import Verif.Deps.SingleParent
import Verif.Blocks.Rehang
import Verif.Blocks.Validate
import Verif.Blocks.HeadFinal
import Verif.Blocks.Coord
import Verif.Blocks.Remnant
import Verif.Blocks.Local
import Verif.Conllu.AddComment
import Verif.Blocks.Mwe
import Verif.Empty.NormOrd
import Verif.Bundle.NormIds
import Verif.Blocks.Deproj
import Verif.Text.AddText
import Verif.Text.Sentences
import Verif.Write.Vislcg
import Verif.Coref.Parens
import Verif.Coref.MarkPairs
import Verif.Coref.Gaps
import Verif.DualDict.Bugs
import Verif.DualDict.MiscBlocks
import Verif.Coref.GuessSpan
import Verif.Eval.See
import Verif.Deps.Normalize
import Verif.Coref.Print
import Verif.Write.Sdparse
import Verif.Conllu.Conll
import Verif.Coref.OldFormat
import Verif.Coref.Grp
import Verif.Coref.Conll2012
import Verif.Blocks.MarkBugs
import Verif.Text.Boundary
import Verif.Conllu.Conllup
import Verif.Blocks.TagParse
import Verif.Bundle.Udpipe
import Verif.Text.SetSpaceLang
import Verif.Coref.Subspans
import Verif.Blocks.PrintFixed
import Verif.Text.Wc
import Verif.Write.Html
import Verif.Run.Ccv
import Verif.Empty.Address
import Verif.Write.Tikz
import Verif.Coref.Html
import Verif.Coref.HtmlDoc
import Verif.Write.HtmlJson
import Verif.Write.Treex
import Verif.Coref.Stats
import Verif.Coref.StatsTable
import Verif.Coref.FixUd02
import Verif.Run.EvalCode
import Verif.Coref.PrintEnt
import Verif.Blocks.MwePoss
import Verif.Deps.Secondary
import Verif.Blocks.Msf
import Verif.Write.Complexity
import Verif.Text.Hyphen
import Verif.Deps.Reattach
import Verif.Blocks.DaSubjects
import Verif.Coref.Gum
import Verif.Text.GoogleMerge
import Verif.Blocks.GoogleSwap
import Verif.Text.Marathi
import Verif.Coref.MiscStats
import Verif.Blocks.SpuriousAux
import Verif.Text.Tutorial
import Verif.Text.Marks
import Verif.Blocks.Galician
import Verif.Text.Lemmas
import Verif.Deps.Contexts
import Verif.Blocks.Slavic
import Verif.Blocks.Articles
import Verif.Blocks.ElQue
import Verif.Blocks.SlavicPre
import Verif.Blocks.Indonesian
import Verif.Blocks.Hdt
import Verif.Deps.Edeprels
import Verif.Text.Newspeak
import Verif.Text.EsVerbs
import Verif.Text.Affix
import Verif.Text.GaTo2

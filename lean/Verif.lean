import Verif.Props.Lyndon
import Verif.Props.LyndonMore
import Verif.Props.Borders
import Verif.Props.Arrays
import Verif.Props.Bwt
import Verif.Props.Bbwt
import Verif.Props.Lz
import Verif.Props.Mus
import Verif.Props.Attractor
import Verif.Props.Entropy
import Verif.Props.Streams
import Verif.Props.Generators
import Verif.Props.WordUniform
import Verif.Props.Fibonacci
import Verif.Props.Kolakoski
import Verif.Props.WordMore
import Verif.Props.Necklace
import Verif.Props.LyndonTool
import Verif.Props.Distinct
import Verif.Props.Parallel
import Verif.Props.MaxLyndon
import Verif.Props.FibMore
import Verif.Props.PdMore
import Verif.Props.LzAttractor
import Verif.Props.BwtMore
import Verif.Props.Mains
import Verif.Props.FactorFiles
import Verif.Props.Readme
import Verif.Props.Probe
import Verif.Props.LexEnum
import Verif.Props.LyndonFile
import Verif.Props.Repetition
import Verif.Props.Measures
import Verif.Props.AttractorReport
import Verif.Props.EntropyBounds
import Verif.Props.Unescape
import Verif.Props.LexRuns
import Verif.Props.LexAttractor
import Verif.Props.MaxRecord
import Verif.Props.RleZero
import Verif.Props.SigmaWrap
import Verif.Props.BinaryExact
import Verif.Props.EntropyClosed
import Verif.Props.ResultLines
import Verif.Props.GenArtificial
import Verif.Props.StatsTable
import Verif.Lemmas.Conjugates
import Verif.Props.WorkerLines
import Verif.Props.MaxReport
import Verif.Lemmas.LyndonCount
import Verif.Props.LyndonCount
import Verif.Props.Domains
import Verif.Model.Cost
import Verif.Lemmas.Cost
import Verif.Props.Cost
import Verif.Model.EntropyF
import Verif.Spec.Rounding
import Verif.Lemmas.Rounding
import Verif.Lemmas.RoundingKmer
import Verif.Lemmas.Binary64
import Verif.Props.Rounding
import Verif.Model.WordF
import Verif.Lemmas.WordF
import Verif.Props.WordF
import Verif.Spec.Cli
import Verif.Model.Cli
import Verif.Model.Commands
import Verif.Lemmas.CliVal
import Verif.Lemmas.Cli
import Verif.Lemmas.CliLine
import Verif.Lemmas.CliParse
import Verif.Lemmas.CliFields
import Verif.Props.Cli
import Verif.Props.CliOrder
import Verif.Props.CliDocs
import Verif.Props.CliRle
import Verif.Props.RleRelease
import Verif.Lemmas.LzCount
import Verif.Lemmas.LzWords
import Verif.Lemmas.LzTrib
import Verif.Lemmas.LzPaper
import Verif.Props.LzWords
import Verif.Spec.Settings
import Verif.Props.CliCommands
import Verif.Props.BwtWords
import Verif.Spec.BwtRuns
import Verif.Lemmas.BwtMorph
import Verif.Lemmas.BwtTm
import Verif.Lemmas.BwtPd
import Verif.Lemmas.BwtVtm
import Verif.Lemmas.BwtFibWord
import Verif.Props.Refusals
import Verif.Spec.Devices
import Verif.Model.Devices
import Verif.Lemmas.Devices
import Verif.Props.Devices
import Verif.Props.ReadFailures
import Verif.Props.CliInstances
import Verif.Props.Poison
import Verif.Props.Release
import Verif.Props.LyndonLog
import Verif.Props.BwtDollarWords
import Verif.Props.LzLaws
import Verif.Props.BwtLaws
import Verif.Props.AttractorLaws
import Verif.Props.SmallestAttractor
import Verif.Props.LyndonWords
import Verif.Props.Tests
import Verif.Props.ReleaseTools
import Verif.Props.MaxRelease
import Verif.Model.MaxRelease
import Verif.Spec.MaxRelease
import Verif.Lemmas.MaxRelease
import Verif.Lemmas.MaxRelease2
import Verif.Props.LexWords
import Verif.Spec.LexWords
import Verif.Spec.LexLaws
import Verif.Lemmas.LexWords
import Verif.Lemmas.LexLaws
import Verif.Lemmas.LexTm
import Verif.Lemmas.LexPow2
import Verif.Lemmas.LexPd
import Verif.Lemmas.LexFib
import Verif.Lemmas.LexFibOdd
import Verif.Spec.CliUsage
import Verif.Props.CliUsage
import Verif.Props.LexLaws
import Verif.Model.ToolLogs
import Verif.Model.SmallLogs
import Verif.Lemmas.ToolLogs
import Verif.Props.ToolLogs
import Verif.Props.AttractorLog
import Verif.Spec.SuffixTree
import Verif.Lemmas.SuffixTree
import Verif.Lemmas.TreeSize
import Verif.Lemmas.AttractorLog
import Verif.Model.AttractorLog
import Verif.Lemmas.PeriodLaws
import Verif.Props.PeriodLaws
import Verif.Lemmas.DuvalLaws
import Verif.Props.DuvalLaws
import Verif.Lemmas.MusLaws
import Verif.Props.MusLaws
import Verif.Lemmas.BigArrays
import Verif.Props.BigArrays
import Verif.Props.SmallLogs
import Verif.Lemmas.MusWords
import Verif.Props.MusWords
import Verif.Lemmas.MusPower2
import Verif.Props.MusPower2
import Verif.Props.MusRuns

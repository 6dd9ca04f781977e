import Verif.Props.Encoding
import Verif.Props.Order
import Verif.Props.Node
import Verif.Props.Meta
import Verif.Props.File
import Verif.Props.PageFile
import Verif.Props.Tree
import Verif.Props.TreeWitness
import Verif.Props.Crash
import Verif.Props.Slots
import Verif.Props.Index
import Verif.Props.IndexWitness
import Verif.Props.Jsonl
import Verif.Props.JsonlWitness
import Verif.Props.Stuck
import Verif.Props.JsonlBytes
import Verif.Props.CsvLine
import Verif.Props.VecFloat
import Verif.Props.Values
import Verif.Props.Csv
import Verif.Props.TsClient
import Verif.Props.TsWitness
import Verif.Props.TsValidation
import Verif.Props.TsCache
import Verif.Props.TsBuilder
import Verif.Props.Ngram
import Verif.Props.NgramRunes
import Verif.Lemmas.Writes
import Verif.Props.SyncCrash
import Verif.Lemmas.Torn
import Verif.Lemmas.Takes
import Verif.Props.Torn
import Verif.Props.TornFile
import Verif.Props.TornPoints
import Verif.Props.SyncTorn
import Verif.Props.TornWitness
import Verif.Model.Cmd
import Verif.Spec.Cmd
import Verif.Props.Cmd
import Verif.Props.CmdStuck
import Verif.Props.CmdWitness
import Verif.Props.Misses
import Verif.Props.Table
import Verif.Props.Heap
import Verif.Props.VecTree
import Verif.Props.TsMultipart
import Verif.Props.TsRange
import Verif.Props.Hnsw
import Verif.Props.VecRun
import Verif.Props.VectorPage
import Verif.Props.Search
import Verif.Props.SearchJsonl
import Verif.Props.SearchWitness
import Verif.Props.Accepts
import Verif.Props.Space
import Verif.Props.QueryJsonl
import Verif.Props.Select
import Verif.Props.QueryWitness
import Verif.Props.Session
import Verif.Props.Stale
import Verif.Props.StaleWitness
import Verif.Props.Race
import Verif.Props.QueryCsv
import Verif.Props.QueryCsvWitness
import Verif.Lemmas.AlikeCsv
import Verif.Lemmas.Shrink
import Verif.Props.CsvStuck
import Verif.Props.CsvLines
import Verif.Props.CsvBytes
import Verif.Model.TypeNames
import Verif.Props.TypeNames
import Verif.Lemmas.Cuts
import Verif.Props.CrashSplit
import Verif.Props.CrashFirst
import Verif.Props.CrashFirstWitness
import Verif.Props.CrashSplitWitness
import Verif.Model.Spawn
import Verif.Props.Spawn
import Verif.Spec.Depth
import Verif.Lemmas.AtMost
import Verif.Props.Depth
import Verif.Lemmas.Fill
import Verif.Spec.Size
import Verif.Lemmas.Size
import Verif.Lemmas.JobSize
import Verif.Props.Size
import Verif.Props.SizeWitness
import Verif.Props.Reads
import Verif.Props.Reach
import Verif.Props.Foreign
import Verif.Props.CutFile
import Verif.Props.TsHeaders
import Verif.Spec.Utf16
import Verif.Props.Utf16
import Verif.Props.JsonUtf8
import Verif.Spec.SearchJson
import Verif.Props.SearchJson
import Verif.Props.SearchJsonWitness
import Verif.Spec.CmdCsv
import Verif.Props.CmdRuns
import Verif.Lemmas.TsMid
import Verif.Lemmas.Alloc2
import Verif.Props.Midway
import Verif.Props.MidwayWitness
import Verif.Lemmas.NullTree
import Verif.Props.QueryCsvNull
import Verif.Props.QueryCsvNullWitness
import Verif.Lemmas.CutIndex
import Verif.Props.CutIndex
import Verif.Model.TsFull
import Verif.Spec.Ask
import Verif.Props.Ask
import Verif.Props.AskJsonl
import Verif.Props.AskWitness
import Verif.Spec.Fails
import Verif.Props.Fails
import Verif.Props.Short
import Verif.Props.ShortWitness
import Verif.Props.Integrity

import Verif.Base
import Verif.Tree.Model
import Verif.Tree.Lemmas
import Verif.Map.Model
import Verif.Map.Spec
import Verif.Map.Lemmas
import Verif.Tree.Props
import Verif.Map.Props
import Verif.Set.Model
import Verif.Set.Spec
import Verif.Set.Lemmas
import Verif.Set.Props
import Verif.Set.InPlace
import Verif.List.Model
import Verif.List.Props
import Verif.Stack.Model
import Verif.Stack.Props
import Verif.Hash.Model
import Verif.Hash.Lemmas
import Verif.Hash.Props
import Verif.Chain.Model
import Verif.Chain.Props
import Verif.Gc.Model
import Verif.Gc.Props
import Verif.Rc.Model
import Verif.Rc.Lemmas
import Verif.Rc.Props
import Verif.Rc.GrowRcProps
import Verif.Rc.PolicyRc
import Verif.Rc.PolicyRcProps
import Verif.Rc.Env
import Verif.Str.Model
import Verif.Str.Lemmas
import Verif.Str.Props
import Verif.Str.Replace
import Verif.Str.End
import Verif.Str.Format
import Verif.Str.FormatProps
import Verif.Strview.Model
import Verif.Strview.Props
import Verif.Json.Utf8
import Verif.Json.Utf8Props
import Verif.Json.Html
import Verif.Json.Unescape
import Verif.Json.UnescapeProps
import Verif.Json.Value
import Verif.Json.Print
import Verif.Json.PrintProps
import Verif.Json.DPrint
import Verif.Json.Token
import Verif.Json.Parse
import Verif.Json.ParseProps
import Verif.Json.TokenProps
import Verif.Json.Reformat
import Verif.Json.ReformatProps
import Verif.Json.RoundTrip
import Verif.Json.Entries
import Verif.Json.Heap
import Verif.Json.HeapProps
import Verif.Json.MergeProps
import Verif.Json.MergeAll
import Verif.Json.MergeAllProps
import Verif.Json.Local
import Verif.Json.Files
import Verif.Json.FilesProps
import Verif.Json.Select
import Verif.Json.SelectProps
import Verif.Json.Build
import Verif.Json.BuildProps
import Verif.Json.Array
import Verif.Json.Lexeme
import Verif.Json.LexemeProps
import Verif.Json.ErrorLine
import Verif.Json.Escape
import Verif.Json.EscapeProps
import Verif.Boxed.Model
import Verif.Boxed.Props
import Verif.Boxed.Cmp
import Verif.Env
import Verif.Search
import Verif.Sqlite.Bind
import Verif.Sqlite.BindProps
import Verif.Sqlite.Json
import Verif.Sqlite.JsonProps
import Verif.Sqlite.Dbm
import Verif.Sqlite.DbmProps
import Verif.Sqlite.Ops
import Verif.Sqlite.OpsProps
import Verif.Sqlite.FlowProps
import Verif.Sqlite.AsProps
import Verif.Sqlite.GenericProps
import Verif.Sqlite.Join
import Verif.Sqlite.JoinProps
import Verif.Sqlite.Mkdir
import Verif.Sqlite.MkdirProps
import Verif.Sqlite.Open
import Verif.Sqlite.OpenProps
import Verif.Rc.MapRc
import Verif.Rc.MapRcProps
import Verif.Rc.Context
import Verif.Rc.ContextProps
import Verif.Rc.SetRc
import Verif.Rc.SetRcProps
import Verif.Sqlite.Start
import Verif.Sqlite.StartProps
import Verif.Rc.JsonRc
import Verif.Rc.JsonSim
import Verif.Rc.JsonRcProps
import Verif.Rc.AppendRc
import Verif.Rc.ParseRc
import Verif.Rc.ParseGrow
import Verif.Rc.ParseInv
import Verif.Rc.ParseVal
import Verif.Rc.ParseSim
import Verif.Rc.ParseUp
import Verif.Rc.ParseStep
import Verif.Rc.ParseRun
import Verif.Rc.ParseDemo
import Verif.Rc.ParseEnd
import Verif.Rc.ParseRcProps
import Verif.Rc.ParseText
import Verif.Rc.PrintRc
import Verif.Rc.PrintMem
import Verif.Rc.PrintSim
import Verif.Rc.PrintRun
import Verif.Rc.PrintRcProps
import Verif.Rc.RoundRc
import Verif.Rc.RoundRcProps
import Verif.Rc.SaveRc
import Verif.Rc.ServeRc
import Verif.Rc.ServeAll
import Verif.Rc.HoldAll
import Verif.Rc.Session
import Verif.Json.Sizes
import Verif.Rc.GcRc
import Verif.Rc.GcRcProps
import Verif.Rc.MergeRc
import Verif.Rc.MergeHold
import Verif.Rc.MergeRcProps
import Verif.Sqlite.InsertAll
import Verif.Sqlite.InsertAllProps
import Verif.Sqlite.UpdateProps
import Verif.Sqlite.ReportProps
import Verif.Sqlite.RoundTrip
import Verif.Sqlite.KeyedTable
import Verif.Sqlite.KeyedOps
import Verif.Sqlite.TextProps
import Verif.Sqlite.OrInsertProps
import Verif.Tree.Mem
import Verif.Tree.MemLemmas
import Verif.Tree.MemRefine
import Verif.Tree.MemProps
import Verif.Own.Model
import Verif.Own.Lemmas
import Verif.Own.Trees
import Verif.Own.Refine
import Verif.Own.Steps
import Verif.Own.Dict
import Verif.Own.Maps
import Verif.Own.MapOps
import Verif.Own.Links
import Verif.Own.Props
import Verif.Own.Walk
import Verif.Own.WalkLemmas
import Verif.Own.WalkSteps
import Verif.Own.WalkProps
import Verif.Own.Iterate
import Verif.Own.IterateProps
import Verif.Json.MergeLaws
import Verif.Json.MergeLawsProps
import Verif.Cost.Model
import Verif.Cost.Lemmas
import Verif.Cost.Props
import Verif.Cost.Growth
import Verif.Block.Model
import Verif.Block.Props

import Verif.Alloc
import Verif.AllocInv
import Verif.AllocLemmas
import Verif.AllocRun
import Verif.Answers
import Verif.Arith
import Verif.AutoGuide
import Verif.Build
import Verif.BuildLemmas
import Verif.Calendar
import Verif.Clausal
import Verif.ClauseMetaLemmas
import Verif.Clausify
import Verif.Compare
import Verif.CompareLemmas
import Verif.Complete
import Verif.Convert
import Verif.ConvertLemmas
import Verif.ConvertSpec
import Verif.Cuts
import Verif.Derive
import Verif.DeriveLemmas
import Verif.DistEnds
import Verif.DistLemmas
import Verif.Distribute
import Verif.DoubleStore
import Verif.Dump
import Verif.DumpLemmas
import Verif.Encode
import Verif.ExtHash
import Verif.ExtHashLemmas
import Verif.Fields
import Verif.FieldsLemmas
import Verif.Frm
import Verif.FrmLemmas
import Verif.Guide
import Verif.HashIndex
import Verif.HashIndexLemmas
import Verif.HashKeyLemmas
import Verif.HistLemmas
import Verif.HistSpec
import Verif.History
import Verif.Include
import Verif.Index
import Verif.IndexHooks
import Verif.InputStats
import Verif.InstGen
import Verif.JsLogic
import Verif.JsLogicLemmas
import Verif.JsLogicRun
import Verif.JsLogicSpec
import Verif.Json
import Verif.JsonLemmas
import Verif.JsonQuery
import Verif.JsonQueryLemmas
import Verif.JsonRead
import Verif.JsonSpec
import Verif.KeySetLemmas
import Verif.KeySizes
import Verif.Lock
import Verif.LockInv
import Verif.LockOps
import Verif.Loop
import Verif.LoopFair
import Verif.LoopInv
import Verif.LoopLemmas
import Verif.LoopSound
import Verif.Meta
import Verif.MetaLemmas
import Verif.Order
import Verif.OrderLemmas
import Verif.ParaIndex
import Verif.ParaLemmas
import Verif.Parse
import Verif.ParseLemmas
import Verif.ParseSpec
import Verif.Problem
import Verif.PropInst
import Verif.PropInstLemmas
import Verif.PropSpec
import Verif.Props.Alloc
import Verif.Props.AnsPos
import Verif.Props.Answers
import Verif.Props.Arith
import Verif.Props.ArithData
import Verif.Props.ArithDiv
import Verif.Props.ArithSem
import Verif.Props.AutoGuide
import Verif.Props.Build
import Verif.Props.Calc
import Verif.Props.CalcCases
import Verif.Props.Calendar
import Verif.Props.Clausal
import Verif.Props.ClausalBack
import Verif.Props.ClausalRoles
import Verif.Props.ClauseMeta
import Verif.Props.Compare
import Verif.Props.Complete
import Verif.Props.Convert
import Verif.Props.Cuts
import Verif.Props.Derive
import Verif.Props.Distribute
import Verif.Props.DoubleStore
import Verif.Props.Dump
import Verif.Props.Encode
import Verif.Props.EvalRun
import Verif.Props.ExtHash
import Verif.Props.Fair
import Verif.Props.Fields
import Verif.Props.Guide
import Verif.Props.HashIndex
import Verif.Props.History
import Verif.Props.Include
import Verif.Props.Index
import Verif.Props.IndexHooks
import Verif.Props.InputStats
import Verif.Props.InstGen
import Verif.Props.JsAdm
import Verif.Props.JsLogic
import Verif.Props.JsProblem
import Verif.Props.Json
import Verif.Props.JsonQuery
import Verif.Props.Lock
import Verif.Props.Miniscope
import Verif.Props.Negpush
import Verif.Props.Order
import Verif.Props.ParaIndex
import Verif.Props.Parse
import Verif.Props.Problem
import Verif.Props.ProblemSearch
import Verif.Props.PropInst
import Verif.Props.Pure
import Verif.Props.Query
import Verif.Props.Queue
import Verif.Props.Records
import Verif.Props.Rewrite
import Verif.Props.Roles
import Verif.Props.Saturate
import Verif.Props.Sine
import Verif.Props.Skolem
import Verif.Props.StrHash
import Verif.Props.Strategy
import Verif.Props.StrongDup
import Verif.Props.Subsume
import Verif.Props.SymbolCount
import Verif.Props.TTree
import Verif.Props.Unify
import Verif.Props.Vec
import Verif.Query
import Verif.QueryBounds
import Verif.QueryLemmas
import Verif.Queue
import Verif.Records
import Verif.Rewrite
import Verif.RewriteLemmas
import Verif.Saturate
import Verif.Scan
import Verif.ScanLemmas
import Verif.Sem
import Verif.Sine
import Verif.SineLemmas
import Verif.SkolemLemmas
import Verif.StrHash
import Verif.Strategy
import Verif.StrategyLemmas
import Verif.StrongDup
import Verif.Subsume
import Verif.SubsumeLemmas
import Verif.SymbolCount
import Verif.TTree
import Verif.TTreeLemmas
import Verif.TTreeOps
import Verif.TTreeRemove
import Verif.Term
import Verif.Unify
import Verif.UnifyLemmas
import Verif.Vec
import Verif.Audit

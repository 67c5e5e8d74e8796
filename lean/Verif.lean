import Verif.Props.EnvProps
import Verif.Props.JacProps
import Verif.Props.JvpProps
import Verif.Props.HessProps
import Verif.Props.CustomProps
import Verif.Props.TreeProps
import Verif.Props.ProgProps
import Verif.Props.InitProps
import Verif.Props.InterpProps
import Verif.Props.ScanProps
import Verif.Props.LibProps
import Verif.Props.RegistryProps
import Verif.Props.LoggingProps
import Verif.Props.BatchProps
import Verif.Props.TreeUtilProps
import Verif.Props.MemoryProps
import Verif.Props.VmapProps
import Verif.Props.LayoutProps
import Verif.Props.DotProps
import Verif.Props.AdProps
import Verif.Props.OperatorProps
import Verif.Props.SlogdetProps
import Verif.Calc.CNorm
import Verif.Prog.CAbs
import Verif.Prog.CAbsProofs
import Verif.Props.CAbsProps
import Verif.Props.ScatterProps
import Verif.Props.InlineProps
import Verif.Props.CounterProps
import Verif.Prog.Run
import Verif.Props.RunProps
import Verif.Prog.IndexOps
import Verif.Prog.LinearOps
import Verif.Props.ArrayProps
import Verif.Props.TakeProps
import Verif.Props.BuiltInProps
import Verif.Props.BoundsProps
import Verif.Props.ComposeProps
import Verif.Core.ReturnProofs
import Verif.Prog.Returns
import Verif.Prog.ReturnRun
import Verif.Prog.ReturnLib
import Verif.Prog.ReturnBuiltIn
import Verif.Props.ReturnProps
import Verif.Core.RaiseProofs
import Verif.Prog.Raise
import Verif.Props.RaiseProps
import Verif.ND.SumRule
import Verif.ND.SumRuleProofs
import Verif.ND.SumRuleMain
import Verif.ND.ReduceRule
import Verif.ND.ReduceRuleProofs
import Verif.ND.ReduceRuleMain
import Verif.ND.RuleSpec
import Verif.ND.RuleSpecProofs
import Verif.Props.SumRuleProps
import Verif.ND.Hess
import Verif.ND.HessSpec
import Verif.ND.HessProofs
import Verif.ND.HessIdx
import Verif.ND.HessFind
import Verif.ND.HessVmap
import Verif.ND.HessMain
import Verif.ND.HessDot
import Verif.ND.HessRaise
import Verif.ND.HessSlice
import Verif.ND.HessSliceProofs
import Verif.ND.HessExact
import Verif.Props.HessArrProps
import Verif.ND.FirstRule
import Verif.ND.FirstSpec
import Verif.ND.FirstProofs
import Verif.ND.FirstDiag
import Verif.ND.FirstIndex
import Verif.ND.FirstAdd
import Verif.ND.FirstMain
import Verif.ND.FirstOne
import Verif.ND.FirstRed
import Verif.Props.FirstProps
import Verif.ND.Convert
import Verif.ND.Split
import Verif.ND.SplitProofs
import Verif.ND.Cover
import Verif.ND.BigRows
import Verif.ND.WrapSound
import Verif.ND.CallSpec
import Verif.ND.CallProofs
import Verif.ND.Realize
import Verif.ND.CallMain
import Verif.ND.CallPrim
import Verif.ND.WrapWhole
import Verif.ND.CallLib
import Verif.Props.WrapProps
import Verif.Props.ArrProgProps
import Verif.Props.SumCallProps
import Verif.AD.General
import Verif.AD.OffDiag
import Verif.Props.GeneralProps
import Verif.ND.ElemArr
import Verif.ND.CallTotal
import Verif.ND.ElemTotal
import Verif.Props.ElemArrProps
import Verif.Prog.TotalInv
import Verif.ND.CallReturns
import Verif.ND.CallRaises
import Verif.Props.ArrReturnProps
import Verif.Form.Spec
import Verif.Form.Core
import Verif.Form.Rules
import Verif.Form.Second
import Verif.Form.Prims
import Verif.Form.Prog
import Verif.Form.Run
import Verif.Form.Init
import Verif.Interp.ScanTraced
import Verif.Form.Scan
import Verif.Props.FormProps
import Verif.Interp.Entry
import Verif.Tree.Paths
import Verif.Props.EntryProps
import Verif.Prog.ScanTotal
import Verif.Props.ScanTotalProps
import Verif.ND.RedArr
import Verif.Props.RedArrProps
import Verif.ND.DotArr
import Verif.ND.DotArrProofs
import Verif.ND.ArrGood
import Verif.Props.DotArrProps
import Verif.ND.ArrRun
import Verif.Props.ArrRunProps
import Verif.ND.MoveArr
import Verif.ND.BuiltInArr
import Verif.Props.BuiltInArrProps
import Verif.Props.ReadProps
import Verif.Props.PipelineProps
import Verif.Props.MoveValueProps
import Verif.Props.TableProps

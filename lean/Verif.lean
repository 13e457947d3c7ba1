import Verif.Evidence.Props
import Verif.Io.Props
import Verif.Bytes.Props
import Verif.Tls.Props
import Verif.Rope.Props
import Verif.IntText.Props
import Verif.Layout.Props
import Verif.Dominance.Props
import Verif.Arith.Props
import Verif.Dce.Props
import Verif.GlobalDce.Props
import Verif.CallGraph.Props
import Verif.RcLower.Props
import Verif.EffectRow.Props
import Verif.CallConv.Props
import Verif.NameEnv.Props
import Verif.DataReg.Props
import Verif.Rtti.Props
import Verif.IrText.Props
import Verif.LspPos.Props
import Verif.Literals.Props
import Verif.Solver.Props
import Verif.Scheme.Props
import Verif.Mono.Props
import Verif.Case.Props
import Verif.Live.Props
import Verif.RcPair.Props
import Verif.RcInsert.Props
import Verif.Inline.Props
import Verif.Operators.Props
import Verif.ScfToCf.Props
import Verif.IrStore.Props
import Verif.Scope.Props
import Verif.ModEnv.Props
import Verif.Normalize.Props
import Verif.Closure.Props
import Verif.Effects.Props
import Verif.EffectTrack.Props
import Verif.WasmCf.Props
import Verif.Typing.Props
import Verif.Run.Props
import Verif.Borrow.Props
import Verif.TempBorrow.Props
import Verif.ListLower.Props
import Verif.Boxing.Props
import Verif.Canon.Props
import Verif.Instances.Props
import Verif.WasmIo.Props
import Verif.Fields.Props
import Verif.WasmGc.Props
import Verif.WasmGc.BehaviourProps
import Verif.WasmCall.Props
import Verif.Hover.Props
import Verif.SigHelp.Props
import Verif.Report.Props
import Verif.Const.Props
import Verif.Names.Props
import Verif.Convert.Props
import Verif.Validate.Props
import Verif.PassMgr.Props
import Verif.BackendReady.Props
import Verif.Analyses.Props
import Verif.PrimNorm.Props
import Verif.PreludeOps.Props
import Verif.Perform.Props
import Verif.NativeCall.Props
import Verif.Display.Props
import Verif.DocHelp.Props
import Verif.Complete.Props
import Verif.Intern.Props
import Verif.TailResume.Props
import Verif.SourcePath.Props

import Verif.Util.AList
import Verif.Util.Dec
import Verif.Util.Json
import Verif.Capture.Ctx
import Verif.Capture.CtxLemmas
import Verif.Capture.CtxInv
import Verif.Capture.CtxProps
import Verif.Capture.Base64
import Verif.Capture.Base64Props
import Verif.Sym.Expr
import Verif.Sym.ExprProps
import Verif.Sym.Cond
import Verif.Sym.CNFProps
import Verif.Sym.Extreme
import Verif.Sym.ExtremeLemmas
import Verif.Sym.ExtremeProps
import Verif.Types.Primitive
import Verif.Types.PrimitiveProps
import Verif.Sym.Assumptions
import Verif.Sym.AssumptionsProps
import Verif.Types.Tensor
import Verif.Types.TensorProps
import Verif.Types.Ty
import Verif.Types.TyProps
import Verif.Sym.Simplify
import Verif.Sym.SimplifyProps
import Verif.Sym.CondOps
import Verif.IR.Syntax
import Verif.IR.Sem
import Verif.IR.Sim
import Verif.IR.Users
import Verif.IR.UsersProps
import Verif.IR.SeqFusion
import Verif.IR.SeqFusionProps
import Verif.Sym.Poly
import Verif.Sym.PolyProps
import Verif.Sym.Series
import Verif.Sym.SeriesProps
import Verif.IR.LoopInfo
import Verif.Sym.CNFOps
import Verif.IR.LoopInfoProps
import Verif.IR.Bis
import Verif.IR.Replace
import Verif.IR.ReplaceProps
import Verif.IR.Jump
import Verif.IR.DeadCFG
import Verif.IR.DeadCFGProps
import Verif.Graph.Paths
import Verif.Graph.PathsProps
import Verif.Builder.Misc
import Verif.Builder.MiscProps
import Verif.IR.AgreeS
import Verif.IR.CondElimProps
import Verif.IR.TransProps
import Verif.IR.CommonAssignProps
import Verif.IR.TilingProps
import Verif.IR.WhileToFor
import Verif.IR.WhileToForProps
import Verif.Builder.Tree
import Verif.Builder.TreeProps
import Verif.Builder.TreeWF
import Verif.Opt.Schedule
import Verif.Opt.ScheduleProps
import Verif.Builder.Containers
import Verif.Builder.ContainersProps
import Verif.Sym.Delin
import Verif.Sym.DelinProps
import Verif.Sym.Maps
import Verif.Sym.MapsProps
import Verif.IR.LoopNorm
import Verif.IR.LoopNormProps
import Verif.IR.Skew
import Verif.IR.SkewProps
import Verif.IR.Par
import Verif.IR.Interchange
import Verif.IR.InterchangeProps
import Verif.IR.DataDep
import Verif.IR.For2Map
import Verif.IR.For2MapProps
import Verif.IR.For2MapViol
import Verif.IR.Distribute
import Verif.IR.DistributeProps
import Verif.Ser.Json
import Verif.Ser.Types
import Verif.Ser.Lib
import Verif.Ser.Tree
import Verif.Ser.TreeLemmas
import Verif.Ser.Sdfg
import Verif.Ser.SdfgProps
import Verif.Ser.SerProps
import Verif.IR.LoopTree
import Verif.IR.LoopTreeProps
import Verif.Flow.Topo
import Verif.Flow.TopoLemmas
import Verif.Flow.TopoDfs
import Verif.Flow.TopoProps
import Verif.Codegen.CExpr
import Verif.Codegen.Tasklet
import Verif.Codegen.TaskletSpec
import Verif.Codegen.TaskletLemmas
import Verif.Codegen.TaskletProps
import Verif.Codegen.Signed
import Verif.Codegen.Promote
import Verif.Codegen.PromoteLemmas
import Verif.Codegen.PromoteProps
import Verif.IR.Evolution
import Verif.IR.EvolutionProps
import Verif.IR.Defs
import Verif.IR.DefsLemmas
import Verif.IR.DefsSim
import Verif.IR.DefsProps
import Verif.IR.DefsViol
import Verif.Codegen.SymC
import Verif.Codegen.SymCLemmas
import Verif.Codegen.SymCProps
import Verif.Codegen.SymCText
import Verif.Codegen.SymCMain
import Verif.Expand.Nest
import Verif.Expand.Tensor
import Verif.Expand.TensorLemmas
import Verif.Expand.TensorProps
import Verif.Expand.TensorViol
import Verif.Expand.Reduce
import Verif.Expand.ReduceProps
import Verif.Expand.MeanProps
import Verif.Expand.Gemm
import Verif.Expand.GemmProps
import Verif.Expand.MatMul
import Verif.Expand.MatMulProps
import Verif.Expand.GemmViol
import Verif.IR.AssumAn
import Verif.IR.Visit
import Verif.IR.AssumAnLemmas
import Verif.IR.AssumAnProps
import Verif.IR.AssumAnViol
import Verif.Struct.Mach
import Verif.Struct.Props
import Verif.Struct.Correct
import Verif.Struct.Main
import Verif.Struct.Nested
import Verif.Struct.Viol
import Verif.IR.UGraph
import Verif.IR.UGraphLemmas
import Verif.IR.UGraphDom
import Verif.IR.UGraphDomProps
import Verif.IR.UGraphFlow
import Verif.IR.UGraphFlowProps
import Verif.IR.UGraphRun
import Verif.IR.UGraphPost
import Verif.IR.UGraphPostProps
import Verif.IR.UGraphViol
import Verif.IR.UView
import Verif.IR.UViewProps
import Verif.IR.SymProp
import Verif.IR.SymPropLemmas
import Verif.IR.SymPropProps
import Verif.IR.SymPropMain
import Verif.IR.SymPropViol
import Verif.IR.ConstProp
import Verif.IR.ConstPropProps
import Verif.IR.ConstPropViol
import Verif.IR.Exchange
import Verif.IR.BlockFusion
import Verif.IR.BlockFusionProps
import Verif.IR.BlockFusionCrit
import Verif.IR.BlockFusionViol
import Verif.IR.TaskletFusion
import Verif.IR.TaskletFusionIn
import Verif.IR.TaskletFusionOut
import Verif.IR.TaskletFusionViol
import Verif.Struct.Unify
import Verif.Struct.UnifyProps
import Verif.Struct.Edit
import Verif.Struct.EditProps
import Verif.Struct.EditViol
import Verif.Sym.ExtremeClosed
import Verif.IR.Rewrite
import Verif.IR.TypeMin
import Verif.IR.TypeMinProps
import Verif.IR.TypeMinViol
import Verif.Types.Memlet
import Verif.Types.MemletProps
import Verif.Types.MemletProps2
import Verif.IR.MapFusion
import Verif.IR.MapFusionLemmas
import Verif.IR.MapFusionProps
import Verif.IR.MapFusionViol
import Verif.Sym.ExtremeShape
import Verif.IR.Ranges
import Verif.IR.RangesLemmas
import Verif.IR.RangesProps
import Verif.IR.RangesUse
import Verif.IR.RangesViol
import Verif.IR.Args
import Verif.IR.ArgsProps
import Verif.IR.Fresh
import Verif.IR.ArgsViol
import Verif.IR.Offload
import Verif.IR.OffloadLemmas
import Verif.IR.OffloadProps
import Verif.IR.OffloadViol
import Verif.IR.Cuda
import Verif.IR.CudaLemmas
import Verif.IR.CudaGrid
import Verif.IR.CudaProps
import Verif.IR.CudaViol
import Verif.IR.Pipeline
import Verif.IR.PipelineLemmas
import Verif.IR.PipelineProps
import Verif.IR.CudaNest
import Verif.Builder.Clear
import Verif.Builder.ClearProps
import Verif.IR.DeadRef
import Verif.IR.DeadRefProps
import Verif.Types.RefProp
import Verif.Types.RefPropProps
import Verif.IR.RefFlow
import Verif.IR.RefFlowProps
import Verif.IR.OutLocal
import Verif.IR.OutLocalLemmas
import Verif.IR.OutLocalProps
import Verif.IR.OutLocalArray
import Verif.IR.OutLocalThm
import Verif.IR.RefLine
import Verif.IR.GpuCond
import Verif.IR.GpuCondProps
import Verif.IR.GpuCondThm
import Verif.IR.Xfer
import Verif.IR.XferProps
import Verif.IR.XferThm
import Verif.IR.XferViol
import Verif.IR.Untouched
import Verif.IR.Leads
import Verif.IR.Alloc
import Verif.IR.AllocLemmas
import Verif.IR.AllocProps
import Verif.IR.AllocMain
import Verif.IR.AllocThm
import Verif.IR.AllocViol
import Verif.IR.Escape
import Verif.IR.EscapeLemmas
import Verif.IR.EscapeProps
import Verif.IR.EscapeViol
import Verif.IR.Flop
import Verif.IR.FlopCost
import Verif.IR.FlopLemmas
import Verif.IR.FlopProps
import Verif.IR.FlopViol
import Verif.IR.BlockSort
import Verif.IR.BlockSortProps
import Verif.IR.BlockSortViol
import Verif.IR.Hoist
import Verif.IR.HoistProps
import Verif.IR.HoistMap
import Verif.IR.HoistThm
import Verif.IR.HoistViol
import Verif.IR.Cfa
import Verif.IR.CfaProps
import Verif.IR.CfaThm
import Verif.IR.CfaTree
import Verif.IR.CfaExit
import Verif.IR.CfaExitProps
import Verif.IR.CfaViol
import Verif.IR.PtrEvo
import Verif.IR.PtrEvoProps
import Verif.IR.PtrEvoThm
import Verif.IR.PtrEvoViol
import Verif.IR.Scope
import Verif.IR.ScopeProps
import Verif.IR.ScopeThm
import Verif.IR.DeepCopy
import Verif.IR.DeepCopyProps
import Verif.IR.DeepCopyThm
import Verif.Types.Outer
import Verif.Types.OuterProps
import Verif.Types.OuterViol
import Verif.Types.ByteRef
import Verif.Types.ByteRefProps
import Verif.Types.ByteRefViol

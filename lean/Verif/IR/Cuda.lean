import Verif.IR.Par
import Verif.IR.LoopInfo

/-
Maps executed as CUDA kernels (opt/src/targets/cuda/cuda_map_dispatcher.cpp, opt/src/targets/cuda/cuda.cpp,
opt/src/transformations/offloading/cuda_parallelize_nested_map.cpp).
-/
namespace Docc.IR
open Docc.Sym

/-- cuda.h `CUDADimension` -/
inductive CDim | x | y | z
  deriving DecidableEq, Repr, Inhabited

/-- the header of a loop -/
structure CMap where
  i : String
  init : Expr
  cond : Cond
  upd : Expr

/-- The schedules of the maps, a map being identified by its loop variable (maps of one kernel have different loop variables): the CUDA dimension
of a map scheduled on CUDA, `none` for a sequential one (other schedules make the dispatcher throw, cuda_map_dispatcher.cpp:395-398), its properties
block size and `nested_sync` (cuda.cpp:29-60), what `is_monotonic` says, and the order in which the set of loops is iterated (a hash set of pointers). -/
structure Cuda where
  dim : String → Option CDim
  blockProp : String → Option Int
  sync : String → Bool
  mono : String → Bool
  order : List CMap → List CMap

/-- cuda.cpp:34-48 `ScheduleType_CUDA::block_size` -/
def Cuda.block (K : Cuda) (d : CDim) (i : String) : Int :=
  match K.blockProp i, d with
  | some b, _ => b
  | none, .x => 32
  | none, .y => 8
  | none, .z => 4

/-- the dimension of a loop: only maps are scheduled (map.h) -/
def Cuda.dimOf (K : Cuda) (isMap : Bool) (i : String) : Option CDim := if isMap then K.dim i else none

mutual
/-- cuda_map_dispatcher.cpp:388-391: the maps scheduled on CUDA among the node and its descendants -/
def Node.cmaps (K : Cuda) : Node → List CMap
  | .loop m i a c u s => (if (K.dimOf m i).isSome then [⟨i, a, c, u⟩] else []) ++ s.cmaps K
  | .seq s => s.cmaps K
  | .ifElse b => b.cmaps K
  | .whileL s => s.cmaps K
  | _ => []
/-- the maps scheduled on CUDA in a sequence -/
def Seq.cmaps (K : Cuda) : Seq → List CMap
  | .nil => []
  | .cons n _ r => n.cmaps K ++ r.cmaps K
/-- the maps scheduled on CUDA in the branches -/
def Brs.cmaps (K : Cuda) : Brs → List CMap
  | .nil => []
  | .cons _ s r => s.cmaps K ++ r.cmaps K
end

/-- the first map of dimension `d` in the iteration order -/
def Cuda.first (K : Cuda) (d : CDim) (n : Node) : Option CMap :=
  (K.order (n.cmaps K)).find? fun m => K.dim m.i == some d

/-- cuda_map_dispatcher.cpp:380-453 `find_nested_cuda_iterations`: the loop returns at the first map of the dimension; `none`: an exception.
(`bound / 1 - 0` is the bound.) -/
def Cuda.iterations (K : Cuda) (d : CDim) (n : Node) : Option Expr :=
  match K.first d n with
  | none => some (.int 1)
  | some m => if m.init = .int 0 ∧ loopStride m.i m.upd = some 1 then canonicalBound (K.mono m.i) m.i m.cond else none

/-- cuda_map_dispatcher.cpp:357-378 `find_nested_cuda_blocksize` -/
def Cuda.blockSize (K : Cuda) (d : CDim) (n : Node) : Int :=
  match K.first d n with
  | none => 1
  | some m => K.block d m.i

/-- symbolic.cpp:56-65 `divide_ceil`: a quotient rounded up when the dividend is constant, else integer division of C. -/
def ceilDiv (E : Env) (σ : St) (n : Expr) (b : Int) : Int :=
  if n.atoms = [] then -(-(σ.ev E n) / b) else (σ.ev E n + (b - 1)).tdiv b

/-- cuda_map_dispatcher.cpp:123-129: number of blocks -/
def Cuda.blocks (K : Cuda) (E : Env) (σ : St) (d : CDim) (n : Node) : Int :=
  match K.iterations d n with
  | some e => max (ceilDiv E σ e (K.blockSize d n)) 1
  | none => 1

/-- cuda_map_dispatcher.cpp:299-325: the indices `threadIdx + blockIdx * blockDim` of one dimension.  (Mathematical integers instead of `int`; the
limits of the hardware on grid and block sizes are not modelled.) -/
def lanes (grid block : Int) : List Int :=
  (List.range grid.toNat).flatMap fun (B : Nat) => (List.range block.toNat).map fun (t : Nat) => (t : Int) + (B : Int) * block

/-- a thread: its index in each dimension -/
structure Thread where
  x : Int
  y : Int
  z : Int
  deriving DecidableEq, Repr

/-- the index of a thread in a dimension -/
def Thread.at (t : Thread) : CDim → Int
  | .x => t.x
  | .y => t.y
  | .z => t.z

/-- cuda_map_dispatcher.cpp:231-262: the threads of a launch -/
def Cuda.threads (K : Cuda) (E : Env) (σ : St) (n : Node) : List Thread :=
  (lanes (K.blocks E σ .x n) (K.blockSize .x n)).flatMap fun x =>
  (lanes (K.blocks E σ .y n) (K.blockSize .y n)).flatMap fun y =>
  (lanes (K.blocks E σ .z n) (K.blockSize .z n)).map fun z => ⟨x, y, z⟩

mutual
/-- The code a thread executes (cuda_map_dispatcher.cpp:180-229, 137-168): maps scheduled on CUDA are replaced by a boundary check of their loop variable
against their own number of iterations and their body; with `nested_sync` the check is omitted.  Everything else is generated as on the host. -/
def Node.thread (K : Cuda) : Node → Node
  | .loop m i a c u s =>
    match K.dimOf m i with
    | some d =>
      if K.sync i then .seq (s.thread K)
      else .ifElse (.cons (.lt (.sym i) ((K.iterations d (.loop m i a c u s)).getD (.int 0))) (s.thread K) .nil)
    | none => .loop m i a c u (s.thread K)
  | .seq s => .seq (s.thread K)
  | .ifElse b => .ifElse (b.thread K)
  | .whileL s => .whileL (s.thread K)
  | n => n
/-- the code of a sequence -/
def Seq.thread (K : Cuda) : Seq → Seq
  | .nil => .nil
  | .cons n t r => .cons (n.thread K) t (r.thread K)
/-- the code of the branches -/
def Brs.thread (K : Cuda) : Brs → Brs
  | .nil => .nil
  | .cons c s r => .cons c (s.thread K) (r.thread K)
end

/-- cuda_map_dispatcher.cpp:311-325: every loop variable of a map scheduled on CUDA is the index of the thread in its dimension. -/
def Cuda.setVars (K : Cuda) (t : Thread) : List CMap → St → St
  | [], σ => σ
  | m :: r, σ => K.setVars t r (match K.dim m.i with | some d => σ.setS m.i (t.at d) | none => σ)

/-- A launch: the threads run one after the other in some order.  Locals and loop variables, `X`, are declared in the kernel
(cuda_map_dispatcher.cpp:189-206): each thread has its own, with arbitrary content.  (Threads that run at the same time and
interleave their accesses are not modelled.) -/
inductive Launch (K : Cuda) (E : Env) (X : String → Prop) (n : Node) : List Thread → St → St → Prop
  | nil {σ} : Launch K E X n [] σ σ
  | cons {t ts σ τ σ1 σ'} : OffX X σ τ → (n.thread K).den E (K.setVars t (n.cmaps K) τ) .normal σ1 → Launch K E X n ts σ1 σ' →
    Launch K E X n (t :: ts) σ σ'

mutual
/-- No exception when the kernel is generated (cuda_map_dispatcher.cpp:327-356, 404-446): no dimension is used twice on a path into the map (`used`: the dimensions of the
maps around), and every CUDA map has a number of iterations. -/
def Node.launchable (K : Cuda) (used : List CDim) : Node → Bool
  | .loop m i a c u s =>
    match K.dimOf m i with
    | some d => !used.contains d && (K.iterations d (.loop m i a c u s)).isSome && s.launchable K (d :: used)
    | none => s.launchable K used
  | .seq s => s.launchable K used
  | .ifElse b => b.launchable K used
  | .whileL s => s.launchable K used
  | _ => true
/-- the same for a sequence -/
def Seq.launchable (K : Cuda) (used : List CDim) : Seq → Bool
  | .nil => true
  | .cons n _ r => n.launchable K used && r.launchable K used
/-- the same for branches -/
def Brs.launchable (K : Cuda) (used : List CDim) : Brs → Bool
  | .nil => true
  | .cons _ s r => s.launchable K used && r.launchable K used
end

/-- the dimension after `d` (cuda_parallelize_nested_map.cpp:79-86) -/
def CDim.next : CDim → Option CDim
  | .x => some .y
  | .y => some .z
  | .z => none

/-- cuda_parallelize_nested_map.cpp:17-68 `can_be_applied`: `anc` are the loops around the map, innermost first, with a flag for maps.  (The map has the
schedule sequential: `K.dim` is `none`.) -/
def Cuda.canNest (K : Cuda) (anc : List (Bool × CMap)) (m : CMap) : Bool :=
  (K.dim m.i).isNone &&
  (match anc with
   | (true, p) :: _ => (match K.dim p.i with | some d => d.next.isSome | none => false) &&
      anc.all fun q => !q.1 || !(m.cond.atoms.contains q.2.i)
   | _ => false) && m.init == .int 0 && loopStride m.i m.upd == some 1

/-- cuda_parallelize_nested_map.cpp:70-92 `apply`: the nested map gets the next dimension and the block size -/
def Cuda.nested (K : Cuda) (parent m : String) (b : Int) : Cuda :=
  { K with dim := fun i => if i = m then (K.dim parent).bind CDim.next else K.dim i
           blockProp := fun i => if i = m then some b else K.blockProp i
           sync := fun i => if i = m then false else K.sync i }

end Docc.IR

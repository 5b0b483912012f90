import Verif.IR.UsersProps
import Verif.IR.OutLocalProps

/-
Removing transfers between host and device: DataTransferMinimization (opt/src/passes/offloading/data_transfer_minimization_pass.cpp) and
RemoveRedundantTransfersPass (opt/src/passes/offloading/remove_redundant_transfers_pass.cpp).
-/
namespace Docc.IR
open Docc.Sym

/-- data_offloading_node.h:47-100 `DataOffloadingNode`, cuda_data_offloading_node.h: a node with a transfer, and the containers at `_src` and `_dst`.  `life` is
-1 (free), 0 or 1 (alloc); the size is kept as its text and its symbols. -/
structure Xfer where
  code : String
  d2h : Bool
  life : Int
  size : String
  syms : List String
  dev : String
  src : String
  dst : String

/-- The block of the transfer.  Copying leaves the destination unchanged beyond the size, so it is listed among the inputs. -/
def Xfer.node (x : Xfer) : Node := .block [.lib (x.code ++ x.size) (x.src :: x.dst :: x.syms) [x.dst]]

/-- Meaning of a transfer (cuda_data_offloading_node.cpp `cudaMemcpy`): the elements below the size are copied.  `cover` tells, from the values of the
symbols of the size, which elements these are; it is the same for equal sizes. -/
def Env.copies (E : Env) (op : String) (cover : List (List Int → Int) → List Int → Bool) : Prop :=
  ∀ s d vs j, E.lib op 0 (s :: d :: vs) j = if cover vs j then s j else d j

/-- data_offloading_node.cpp:81-101, cuda_data_offloading_node.cpp:103-114 `redundant_with` (both are transfers) -/
def Xfer.redundant (o i : Xfer) : Bool :=
  o.code == i.code && o.d2h != i.d2h && o.life + i.life == 0 && o.size == i.size && o.syms == i.syms && o.dev == i.dev

/-- data_offloading_node.cpp:103-119, cuda_data_offloading_node.cpp:118-129 `equal_with` -/
def Xfer.equal (o i : Xfer) : Bool :=
  o.code == i.code && o.d2h == i.d2h && o.life == i.life && o.size == i.size && o.syms == i.syms && o.dev == i.dev

/-- the original sequence: a transfer `o` and a later one `i`, each with its transition -/
def xferSeq (pre : Seq) (o : Xfer) (t : Trans) (mid : Seq) (i : Xfer) (u : Trans) (post : Seq) : Seq :=
  pre ++ .cons o.node t (mid ++ .cons i.node u post)

/-- data_transfer_minimization_pass.cpp:133-140: the host container is read later on (by another use than the copy-in) -/
def xferReadAfter (o : Xfer) (t : Trans) (mid : Seq) (u : Trans) (post : Seq) : Bool :=
  decide (reads (transUsers t ++ mid.users ++ transUsers u ++ post.users) o.dst)

/-- data_transfer_minimization_pass.cpp:38-190, one pair of a copy-out `o` and a copy-in `i` in the root sequence of the function (so that `all_uses_between` and
`all_uses_after` are the uses of what is between and behind), with the same host container (:110-121).  `none`: not changed.  The copy-in is removed, the
copy-out too if the host container is not read any more (:156-160), otherwise only its `free`; the blocks stay.  If the device containers differ, the second one
becomes another name for the first one from here on (:163-178 makes it point to the same buffer). -/
def dtmStep (pre : Seq) (o : Xfer) (t : Trans) (mid : Seq) (i : Xfer) (u : Trans) (post : Seq) : Option Seq :=
  if o.d2h && o.redundant i && o.dst == i.src && !decide (writes (transUsers t ++ mid.users) o.dst) then
    some (pre ++ .cons (if xferReadAfter o t mid u post then { o with life := 0 }.node else .block []) t
      (mid ++ (if o.src = i.dst then .cons (.block []) u post else (Seq.cons (.block []) u post).replace i.dst (.sym o.src))))
  else none

/-- remove_redundant_transfers_pass.cpp:30-80 for two copy-outs in the root sequence: the second one post-dominates the first one (nothing between them leaves the
sequence), and no use of the host container between them. -/
def rrtStep (pre : Seq) (o : Xfer) (t : Trans) (mid : Seq) (i : Xfer) (u : Trans) (post : Seq) : Option Seq :=
  if o.d2h && i.d2h && o.dst == i.dst && o.equal i && mid.noJump && !mid.returns &&
      !((transUsers t ++ mid.users).any fun q => q.2 == o.dst) then
    some (pre ++ .cons (.block []) t (mid ++ .cons i.node u post))
  else none

end Docc.IR

import Verif.IR.XferThm

namespace Docc.IR
open Docc.Sym

/-- the elements below the value of the (first) symbol; everything if there is no symbol -/
def exCover : List (List Int → Int) → List Int → Bool
  | [], _ => true
  | n :: _, [a] => decide (0 ≤ a) && decide (a < n [])
  | _, _ => true

/-- library nodes are copies -/
def exEnvX : Env := ⟨fun _ _ => 0, fun _ l => l.sum, fun _ _ r j => match r with | s :: d :: vs => if exCover vs j then s j else d j | _ => 0, 0⟩

theorem exEnvX_copies (op : String) : exEnvX.copies op exCover := fun _ _ _ _ => rfl

/-- a copy-out `s → d` -/
def exXOut (life : Int) (syms : List String) (s d : String) : Xfer := ⟨"copy", true, life, "size", syms, "0", s, d⟩
/-- a copy-in `s → d` -/
def exXIn (life : Int) (syms : List String) (s d : String) : Xfer := ⟨"copy", false, life, "size", syms, "0", s, d⟩

/-- `D[k] = v` (`v` a container) -/
def exXPut (D : String) (k : Int) (v : String) : Node := .block [.tasklet "assign" [(v, [])] D [.int k]]
/-- `out = D[k]` -/
def exXGet (D : String) (k : Int) : Node := .block [.tasklet "assign" [(D, [.int k])] "out" []]

/-- `seven = 7, eight = 8, five = 5` and the host container holds 3 -/
def exHost (n : Int) : St := fun x _ => if x = "seven" then 7 else if x = "eight" then 8 else if x = "five" then 5 else if x = "X" then 3 else if x = "n" then n else 0

/-- a kernel writes the buffers `D[0] = 7, D[1] = 8` -/
def exKernel : Seq := .cons (exXPut "dX" 0 "seven") [] (.cons (exXPut "dX" 1 "eight") [] .nil)

/-- both programs come to an end, with these values of the cell -/
def Differ (E : Env) (s s' : Seq) (σ : St) (x : String) (j : List Int) (v w : Int) : Prop :=
  (∃ σ', s.den E σ .normal σ' ∧ σ' x j = v) ∧ (∀ c σ', s.den E σ c σ' → c = .normal ∧ σ' x j = v) ∧
  (∃ σ', s'.den E σ .normal σ' ∧ σ' x j = w) ∧ (∀ c σ', s'.den E σ c σ' → c = .normal ∧ σ' x j = w)

theorem differ_of {E : Env} {s s' : Seq} {σ : St} {x : String} {j : List Int} {v w : Int} (f : Nat)
    (h : (s.run E f σ).map (fun r => (r.1, r.2 x j)) = some (.normal, v)) (h' : (s'.run E f σ).map (fun r => (r.1, r.2 x j)) = some (.normal, w)) :
    Differ E s s' σ x j v w :=
  ⟨Seq.run_obs f h, fun _ _ hd => Seq.run_obs_all f h hd, Seq.run_obs f h', fun _ _ hd => Seq.run_obs_all f h' hd⟩

/-- The hypotheses are met: the kernel writes `dX`, which is copied to `X` and back to `dX` for another kernel. -/
example : (∃ s', dtmStep exKernel (exXOut (-1) ["n"] "dX" "X") [] .nil (exXIn 1 ["n"] "X" "dX") [] (.one (exXGet "dX" 1)) = some s') ∧
    XferCalm (exXOut (-1) ["n"] "dX" "X") [] .nil ∧ "dX" ≠ "X" ∧ "X" ∉ ["n"] :=
  ⟨⟨_, rfl⟩, ⟨by decide, by decide⟩, by decide, by decide⟩

/-- … and with two buffers -/
example : (∃ s', dtmStep exKernel (exXOut (-1) [] "dX" "X") [] .nil (exXIn 1 [] "X" "dY") [] (.one (exXGet "dY" 1)) = some s') ∧
    XferCalm (exXOut (-1) [] "dX" "X") [] .nil ∧ "dX" ∉ (Seq.cons (.block []) [] (.one (exXGet "dY" 1))).names ∧
    "dY" ∉ (Seq.cons (.block []) [] (.one (exXGet "dY" 1))).rets :=
  ⟨⟨_, rfl⟩, ⟨by decide, by decide⟩, by decide, by decide⟩

/-- … and for two copy-outs -/
example : (∃ s', rrtStep exKernel (exXOut 0 ["n"] "dX" "X") [] (.one (exXPut "dX" 1 "five")) (exXOut 0 ["n"] "dX" "X") [] .nil = some s') ∧
    (∀ x ∈ ["n"], ¬ writes (transUsers [] ++ (Seq.one (exXPut "dX" 1 "five")).users) x) :=
  ⟨⟨_, rfl⟩, by decide⟩

/-- **C94, refuted (results).** The host container is not read any more in the function, but it is an output of it: a kernel writes `dX`, the result is copied to
`X`, and another kernel gets `X` as its input.  The pass removes the copy-out, so the caller finds the old value in `X`. -/
theorem dtm_output_violated : ∃ s', dtmStep exKernel (exXOut (-1) [] "dX" "X") [] .nil (exXIn 1 [] "X" "dX") [] (.one (exXGet "dX" 0)) = some s' ∧
    XferCalm (exXOut (-1) [] "dX" "X") [] .nil ∧
    Differ exEnvX (xferSeq exKernel (exXOut (-1) [] "dX" "X") [] .nil (exXIn 1 [] "X" "dX") [] (.one (exXGet "dX" 0))) s' (exHost 2) "X" [0] 7 3 :=
  ⟨_, rfl, ⟨by decide, by decide⟩, differ_of 40 (by decide) (by decide)⟩

/-- **C94, refuted (device buffer written in between).** Without `free` and `alloc`: the buffer is changed after the copy-out, then the copy-in restores it.  The pass only
looks at the host container and removes the copy-in. -/
theorem dtm_buffer_violated : ∃ s', dtmStep exKernel (exXOut 0 [] "dX" "X") [] (.one (exXPut "dX" 0 "five")) (exXIn 0 [] "X" "dX") [] (.one (exXGet "dX" 0)) = some s' ∧
    Differ exEnvX (xferSeq exKernel (exXOut 0 [] "dX" "X") [] (.one (exXPut "dX" 0 "five")) (exXIn 0 [] "X" "dX") [] (.one (exXGet "dX" 0))) s' (exHost 2) "out" [] 7 5 :=
  ⟨_, rfl, differ_of 40 (by decide) (by decide)⟩

/-- **C94, refuted (size).** The sizes are equal as expressions, but the symbol is assigned in between: one element is copied out, two are copied in. -/
theorem dtm_size_violated : ∃ s', dtmStep exKernel (exXOut 0 ["n"] "dX" "X") [("n", .int 2)] .nil (exXIn 0 ["n"] "X" "dX") [] (.one (exXGet "dX" 1)) = some s' ∧
    Differ exEnvX (xferSeq exKernel (exXOut 0 ["n"] "dX" "X") [("n", .int 2)] .nil (exXIn 0 ["n"] "X" "dX") [] (.one (exXGet "dX" 1))) s' (exHost 1) "out" [] 3 8 :=
  ⟨_, rfl, differ_of 40 (by decide) (by decide)⟩

/-- **C94, refuted (alias).** Without `free` and `alloc` both buffers stay in use; afterwards they are the same, and writing one changes the other. -/
theorem dtm_alias_violated : ∃ s', dtmStep exKernel (exXOut 0 [] "dX" "X") [] .nil (exXIn 0 [] "X" "dY") [] (.cons (exXPut "dX" 0 "five") [] (.one (exXGet "dY" 0))) = some s' ∧
    XferCalm (exXOut 0 [] "dX" "X") [] .nil ∧
    Differ exEnvX (xferSeq exKernel (exXOut 0 [] "dX" "X") [] .nil (exXIn 0 [] "X" "dY") [] (.cons (exXPut "dX" 0 "five") [] (.one (exXGet "dY" 0)))) s' (exHost 2) "out" [] 7 5 :=
  ⟨_, rfl, ⟨by decide, by decide⟩, differ_of 40 (by decide) (by decide)⟩

/-- **C94, refuted (size of the second copy-out).** Two elements are copied out, then one: the first copy-out is removed although it is only partly overwritten. -/
theorem rrt_size_violated : ∃ s', rrtStep exKernel (exXOut 0 ["n"] "dX" "X") [("n", .int 1)] .nil (exXOut 0 ["n"] "dX" "X") [] .nil = some s' ∧
    Differ exEnvX (xferSeq exKernel (exXOut 0 ["n"] "dX" "X") [("n", .int 1)] .nil (exXOut 0 ["n"] "dX" "X") [] .nil) s' (exHost 2) "X" [1] 8 3 :=
  ⟨_, rfl, differ_of 40 (by decide) (by decide)⟩

end Docc.IR

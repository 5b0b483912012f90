import Verif.IR.SeqFusion
import Verif.IR.Sim
import Verif.IR.UsersProps

/-
C13: SequenceFusion and the meaning of programs.
-/
namespace Docc.IR
open Docc.Sym

theorem runTrans_nil (E : Env) : runTrans E [] = id := rfl

mutual
theorem Node.fuse_den (E : Env) : (n : Node) → n.plainSubs → n.fuse.den E = n.den E
  | .seq s => fun h => by rw [Node.fuse, Node.den, Node.den]; exact s.fuse_den E h
  | .ifElse b => fun h => by rw [Node.fuse, Node.den, Node.den]; exact b.fuse_den E h
  | .whileL s => fun h => by rw [Node.fuse, Node.den, Node.den, s.fuse_den E h]
  | .loop m i a c u s => fun h => by rw [Node.fuse, Node.den, Node.den, s.fuse_den E h]
  | .block l => fun _ => rfl
  | .brk => fun _ => rfl
  | .cont => fun _ => rfl
  | .ret d q => fun _ => rfl
theorem Seq.fuse_den (E : Env) : (s : Seq) → s.plainSubs → s.fuse.den E = s.den E
  | .nil => fun _ => rfl
  | .cons n t r => fun h => by
    rw [Seq.plainSubs] at h
    have hr := r.fuse_den E h.2.2
    have hn := n.fuse_den E h.2.1
    cases n with
    | seq s =>
      have ht : t = [] := h.1 rfl
      subst ht
      rw [Seq.fuse, Seq.den_append, Seq.den, hr, runTrans_nil, Rel.skip_seq]
      rw [Node.fuse, Node.den, Node.den] at hn
      rw [hn, Node.den]
    | _ => rw [Seq.fuse, Seq.den, Seq.den, hr, hn]; nofun
theorem Brs.fuse_den (E : Env) : (b : Brs) → b.plainSubs → b.fuse.den E = b.den E
  | .nil => fun _ => rfl
  | .cons c s r => fun h => by rw [Brs.fuse, Brs.den, Brs.den, s.fuse_den E h.1, r.fuse_den E h.2]
end

/-- **C13 (partial).** If no transition with assignments follows a sequence nested directly in another sequence, fusion leaves all
executions of the program unchanged: same outcome, same final memory.  Missing: programs with such a transition, for
which the claim is false (`sequenceFusion_violated`). -/
theorem sequenceFusion_preserves_partial (E : Env) (root : Seq) (h : root.plainSubs) (σ : St) (c : Ctl) (σ' : St) :
    root.fuse.den E σ c σ' ↔ root.den E σ c σ' := by rw [Seq.fuse_den E root h]

/-- `{ { x = 1 } y = 2; { } while (1) { { break; } } }` meets the hypothesis and is changed by the pass. -/
example : let p : Seq := .cons (.seq (.cons (.block []) [("x", .int 1)] .nil)) [] (.cons (.block []) [("y", .int 2)]
      (.one (.whileL (.one (.seq (.one .brk))))))
    p.plainSubs ∧ p.fuse.size = 3 ∧ p.fuse ≠ p := by
  refine ⟨by simp [Seq.plainSubs, Node.plainSubs, Node.seq?, Seq.one], by rfl, by simp [Seq.fuse, Seq.one, Node.fuse]⟩

/-- **C13 is false in general**: the assignments after a nested sequence are lost.
`{ { } x = 1; }` sets x to 1, the fused program `{ }` does not. -/
theorem sequenceFusion_violated : ∃ (E : Env) (root : Seq) (σ σ' : St), root.den E σ .normal σ' ∧
    ¬ root.fuse.den E σ .normal σ' := by
  refine ⟨exEnv, .cons (.seq .nil) [("x", .int 1)] .nil, fun _ _ => 0, _, Seq.run_sound (f := 3) rfl, ?_⟩
  intro h
  have h1 : (Seq.fuse (.cons (.seq .nil) [("x", .int 1)] .nil)).den exEnv (fun _ _ => 0) .normal (fun _ _ => 0) :=
    Seq.run_sound (f := 3) rfl
  have := (Seq.den_det exEnv _ _ _ _ _ _ h h1).2
  have := congrFun (congrFun this "x") []
  revert this
  decide

theorem Seq.flat_append (a b : Seq) (ha : a.flat) (hb : b.flat) : (a ++ b).flat := by
  match a with
  | .nil => exact hb
  | .cons n t r => exact ⟨ha.1, ha.2.1, Seq.flat_append r b ha.2.2 hb⟩

mutual
theorem Node.fuse_flat : (n : Node) → n.fuse.flat
  | .seq s => by rw [Node.fuse]; exact s.fuse_flat
  | .ifElse b => by rw [Node.fuse]; exact b.fuse_flat
  | .whileL s => by rw [Node.fuse]; exact s.fuse_flat
  | .loop m i a c u s => by rw [Node.fuse]; exact s.fuse_flat
  | .block l => by rw [Node.fuse]; trivial
  | .brk => by rw [Node.fuse]; trivial
  | .cont => by rw [Node.fuse]; trivial
  | .ret d q => by rw [Node.fuse]; trivial
theorem Seq.fuse_flat : (s : Seq) → s.fuse.flat
  | .nil => by rw [Seq.fuse]; trivial
  | .cons n t r => by
    have hr := r.fuse_flat
    have hn := n.fuse_flat
    cases n with
    | seq s => rw [Seq.fuse]; rw [Node.fuse, Node.flat] at hn; exact Seq.flat_append _ _ hn hr
    | _ => rw [Seq.fuse]; refine ⟨by rw [Node.fuse]; rfl, hn, hr⟩; nofun
theorem Brs.fuse_flat : (b : Brs) → b.fuse.flat
  | .nil => by rw [Brs.fuse]; trivial
  | .cons c s r => by rw [Brs.fuse]; exact ⟨s.fuse_flat, r.fuse_flat⟩
end

/-- **C13 (effect).** After the pass no sequence is a direct child of a sequence, at any depth. -/
theorem sequenceFusion_flat (root : Seq) : root.fuse.flat := root.fuse_flat

end Docc.IR

import Verif.IR.TaskletFusionOut
import Verif.IR.BlockFusionViol

/-! C78: fusing an "input" assignment moves the read of the source behind later writes of the source. -/
namespace Docc.IR
open Docc.Sym
open Docc.Flow (Gr Kind Edge Before)

theorem raceFree_by {g : DF} (ps : List (Nat × Nat)) (hp : ∀ p ∈ ps, Reaches g.gr p.1 p.2)
    (h : ∀ a ∈ g.gr.vs, ∀ b ∈ g.gr.vs, a ≠ b → (∀ u ∈ ((g.stmt a).map Stmt.users).getD [],
      ∀ w ∈ ((g.stmt b).map Stmt.users).getD [], u.2 = w.2 → u.1 = .read ∧ w.1 = .read) ∨ (a, b) ∈ ps ∨ (b, a) ∈ ps) : RaceFree g := by
  intro a ha b hb hne hc
  rcases h a ha b hb hne with h | h | h
  · obtain ⟨s, t, hs, ht, hc⟩ := hc
    refine absurd hc (no_conflict fun u hu w hw => h u ?_ w ?_)
    · rw [hs]; exact hu
    · rw [ht]; exact hw
  · exact Or.inl (hp _ h)
  · exact Or.inr (hp _ h)

theorem valid_of {g : DF} (h : (g.nodes.all fun n => match n.kind with
    | .tasklet code i o => decide ((g.ins n.v).length = i.length ∧ (g.outs n.v).length = 1 ∧ o.length = 1 ∧ (code = 0 → i.length = 1))
    | _ => true) = true) (hn : g.gr.vs.Nodup) : g.Valid := by
  have key : ∀ v code i o, g.gr.kind v = .tasklet code i o →
      (g.ins v).length = i.length ∧ (g.outs v).length = 1 ∧ o.length = 1 ∧ (code = 0 → i.length = 1) := by
    intro v code i o hk
    by_cases hv : v ∈ g.gr.vs
    · obtain ⟨n, hm, rfl⟩ := List.mem_map.mp hv
      rw [kind_of_mem hn hm] at hk
      have := List.all_eq_true.mp h n hm
      rw [hk] at this
      exact of_decide_eq_true this
    · rw [kind_notMem hv] at hk; cases hk
  exact ⟨fun v c i o hk => (key v c i o hk).1, fun v c i o hk => ⟨(key v c i o hk).2.1, (key v c i o hk).2.2.1⟩, fun v i o hk => (key v 0 i o hk).2.2.2 rfl⟩

/-- t = x; x = t + t; z = t + b -/
def exTf : DF where
  nodes := [⟨0, 1, .access "x"⟩, ⟨1, 2, .tasklet 0 ["_in"] ["_out"]⟩, ⟨2, 3, .access "t"⟩, ⟨3, 4, .tasklet 2 ["_in1", "_in2"] ["_out"]⟩, ⟨4, 5, .access "x"⟩,
    ⟨5, 6, .tasklet 2 ["_in1", "_in2"] ["_out"]⟩, ⟨6, 7, .access "z"⟩, ⟨7, 8, .access "b"⟩]
  edges := [(⟨0, "void", 1, "_in"⟩, []), (⟨1, "_out", 2, "void"⟩, []), (⟨2, "void", 3, "_in1"⟩, []), (⟨2, "void", 3, "_in2"⟩, []), (⟨3, "_out", 4, "void"⟩, []),
    (⟨2, "void", 5, "_in1"⟩, []), (⟨7, "void", 5, "_in2"⟩, []), (⟨5, "_out", 6, "void"⟩, [])]

theorem exTf_wf : exTf.Wf := wf_of (by decide) (by decide) (by decide) (by decide) (by decide) (by decide)
theorem exTf_valid : exTf.Valid := valid_of (by decide) (by decide)

theorem exTf_free : RaceFree exTf := by
  refine raceFree_by [(1, 3), (1, 5)] ?_ (by decide)
  have h1 : exTf.gr.Arc 1 2 := ⟨⟨1, "_out", 2, "void"⟩, by decide, rfl, rfl⟩
  have h2 : exTf.gr.Arc 2 3 := ⟨⟨2, "void", 3, "_in1"⟩, by decide, rfl, rfl⟩
  have h3 : exTf.gr.Arc 2 5 := ⟨⟨2, "void", 5, "_in1"⟩, by decide, rfl, rfl⟩
  intro p hp
  simp only [List.mem_cons, List.not_mem_nil, or_false] at hp
  rcases hp with rfl | rfl
  · exact .step h1 (.one h2)
  · exact .step h1 (.one h3)

/-- **C78 fails**: in the block  t = x; x = t + t; z = t + b  (a post-increment), which has no races, the pass fuses `t = x` into both readers of `t`; in the order
in which the fused block is executed, `z` is computed from the new value of `x`. -/
theorem tasklet_fusion_violated : ∃ (g : DF) (cst : Nat → Bool) (n : Nat) (i e0 : Edge × List Expr) (comp : Nat → Nat) (o o' : List Nat),
    g.Wf ∧ g.Valid ∧ RaceFree g ∧ tfInAccepts g n i e0 = true ∧ Flow.Components g.gr 1 comp ∧ Flow.Components (tfIn g cst n e0).gr 1 comp ∧
    Flow.topoSort g.gr 1 comp = .ok o ∧ Flow.topoSort (tfIn g cst n e0).gr 1 comp = .ok o' ∧ Order g.gr o ∧ Order (tfIn g cst n e0).gr o' ∧
    ∃ (E : Env) (σ : St) (y : String), (∀ v, E.op (toString 0) [v] = v) ∧ y ≠ g.name n ∧
      runOrder E (tfIn g cst n e0).stmt o' σ y [] ≠ runOrder E g.stmt o σ y [] :=
  ⟨exTf, fun _ => false, 2, (⟨1, "_out", 2, "void"⟩, []), (⟨0, "void", 1, "_in"⟩, []), fun _ => 0, [0, 1, 2, 3, 4, 7, 5, 6], [0, 3, 4, 7, 5, 6],
    exTf_wf, exTf_valid, exTf_free, by decide, ⟨by decide, by decide⟩, ⟨by decide, by decide⟩, by decide, by decide,
    order_of (by decide), order_of (by decide), exEnv, exBfSt, "z", fun v => by simp [exEnv], by decide, by decide⟩

/-- t = A[i]; z = t + A[j]; y[k] = u with u = z + z -/
def exTf2 : DF where
  nodes := [⟨0, 1, .access "A"⟩, ⟨1, 2, .tasklet 0 ["_in"] ["_out"]⟩, ⟨2, 3, .access "t"⟩, ⟨3, 4, .tasklet 2 ["_in1", "_in2"] ["_out"]⟩, ⟨4, 5, .access "z"⟩,
    ⟨5, 6, .tasklet 2 ["_in1", "_in2"] ["_out"]⟩, ⟨6, 7, .access "u"⟩, ⟨7, 8, .tasklet 0 ["_in"] ["_out"]⟩, ⟨8, 9, .access "y"⟩, ⟨9, 10, .access "A"⟩]
  edges := [(⟨0, "void", 1, "_in"⟩, [.sym "i"]), (⟨1, "_out", 2, "void"⟩, []), (⟨2, "void", 3, "_in1"⟩, []), (⟨9, "void", 3, "_in2"⟩, [.sym "j"]), (⟨3, "_out", 4, "void"⟩, []),
    (⟨4, "void", 5, "_in1"⟩, []), (⟨4, "void", 5, "_in2"⟩, []), (⟨5, "_out", 6, "void"⟩, []), (⟨6, "void", 7, "_in"⟩, []), (⟨7, "_out", 8, "void"⟩, [.sym "k"])]

theorem exTf2_wf : exTf2.Wf := wf_of (by decide) (by decide) (by decide) (by decide) (by decide) (by decide)
theorem exTf2_valid : exTf2.Valid := valid_of (by decide) (by decide)

theorem exTf2_free : RaceFree exTf2 := by
  refine raceFree_by [(1, 3), (3, 5), (5, 7)] ?_ (by decide)
  intro p hp
  simp only [List.mem_cons, List.not_mem_nil, or_false] at hp
  rcases hp with rfl | rfl | rfl
  · exact .step ⟨⟨1, "_out", 2, "void"⟩, by decide, rfl, rfl⟩ (.one ⟨⟨2, "void", 3, "_in1"⟩, by decide, rfl, rfl⟩)
  · exact .step ⟨⟨3, "_out", 4, "void"⟩, by decide, rfl, rfl⟩ (.one ⟨⟨4, "void", 5, "_in1"⟩, by decide, rfl, rfl⟩)
  · exact .step ⟨⟨5, "_out", 6, "void"⟩, by decide, rfl, rfl⟩ (.one ⟨⟨6, "void", 7, "_in"⟩, by decide, rfl, rfl⟩)

/-- the assignment of the result is fused -/
example (σ : St) (y : String) (hy : y ≠ "u") :
    runOrder exEnv (tfOut exTf2 6 (⟨6, "void", 7, "_in"⟩, []) (⟨7, "_out", 8, "void"⟩, [.sym "k"])).stmt [9, 0, 1, 2, 3, 4, 5, 8] σ y =
      runOrder exEnv exTf2.stmt [0, 1, 2, 9, 3, 4, 5, 6, 7, 8] σ y :=
  tasklet_fusion_output (i := (⟨5, "_out", 6, "void"⟩, [])) (fun v => by simp [exEnv]) exTf2_wf exTf2_valid (by decide) exTf2_free (order_of (by decide)) (order_of (by decide)) σ y hy

/-- the assignment of the operand is fused; the two access nodes of A become one -/
example (σ : St) (y : String) (hy : y ≠ "t") :
    runOrder exEnv (tfIn exTf2 (fun _ => false) 2 (⟨0, "void", 1, "_in"⟩, [.sym "i"])).stmt [0, 3, 4, 5, 6, 7, 8] σ y =
      runOrder exEnv exTf2.stmt [0, 1, 2, 9, 3, 4, 5, 6, 7, 8] σ y := by
  refine tasklet_fusion_input_partial (i := (⟨1, "_out", 2, "void"⟩, [])) (fun v => by simp [exEnv]) exTf2_wf exTf2_valid (by decide) exTf2_free
    (order_of (by decide)) (order_of (by decide)) ?_ σ y hy
  rintro w d ⟨e, he, rfl, rfl⟩ _ h
  have : ∀ e ∈ exTf2.gr.edges, exTf2.isAccess e.dst = true → ¬ (exTf2.name e.dst = "A" ∨ exTf2.name e.dst ∈ Expr.atomsL [.sym "i"]) := by decide
  exact absurd h (this e he (by assumption))

end Docc.IR

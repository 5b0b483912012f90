import Verif.IR.BlockFusionCrit

/-! C77: the criterion of BlockFusion only asks for some connection between two components, not that conflicting accesses are connected. -/
namespace Docc.IR
open Docc.Sym
open Docc.Flow (Gr Kind Edge Before)

theorem order_of {g : Gr} {o : List Nat} (h : o.Nodup ∧ (∀ v ∈ o, v ∈ g.vs) ∧ (∀ v ∈ g.vs, v ∈ o) ∧
    ∀ e ∈ g.edges, e.src ∈ o ∧ e.dst ∈ o ∧ o.idxOf e.src < o.idxOf e.dst) : Order g o :=
  ⟨h.1, fun v => ⟨h.2.1 v, h.2.2.1 v⟩, fun a b ⟨e, he, ha, hb⟩ => by
    subst ha; subst hb
    exact (before_idx h.1).mpr (h.2.2.2 e he)⟩

theorem no_conflict {s t : Stmt} (h : ∀ u ∈ s.users, ∀ w ∈ t.users, u.2 = w.2 → u.1 = .read ∧ w.1 = .read) : ¬ s.Conflict t := by
  rintro ⟨y, ⟨h1, h2 | h2⟩ | ⟨h1, h2⟩⟩
  · exact absurd (h _ h1 _ h2 rfl).1 (by simp)
  · exact absurd (h _ h1 _ h2 rfl).1 (by simp)
  · exact absurd (h _ h1 _ h2 rfl).2 (by simp)

/-- no two computations conflict -/
theorem raceFree_of {g : DF} (h : ∀ a ∈ g.gr.vs, ∀ b ∈ g.gr.vs, a ≠ b → ∀ u ∈ ((g.stmt a).map Stmt.users).getD [],
    ∀ w ∈ ((g.stmt b).map Stmt.users).getD [], u.2 = w.2 → u.1 = .read ∧ w.1 = .read) : RaceFree g := by
  rintro a ha b hb hne ⟨s, t, hs, ht, hc⟩
  refine absurd hc (no_conflict fun u hu w hw => h a ha b hb hne u ?_ w ?_)
  · rw [hs]; exact hu
  · rw [ht]; exact hw

theorem wf_of {g : DF} (h1 : g.gr.vs.Nodup) (h2 : ∀ e ∈ g.gr.edges, e.src ∈ g.gr.vs ∧ e.dst ∈ g.gr.vs)
    (h3 : ∀ e ∈ g.gr.edges, g.isAccess e.src = !g.isAccess e.dst)
    (h4 : ∀ v ∈ g.gr.vs, ((g.gr.kind v).conns.all fun p => p.1.all fun c => g.gr.edges.any fun e => e.dst == v && e.dc == c) = true)
    (h5 : ∀ v ∈ g.gr.vs, ((g.gr.kind v).conns.all fun p => !p.2.isEmpty && p.2.all fun c => g.gr.edges.any fun e => e.src == v && e.sc == c) = true)
    (h6 : ∀ v ∈ g.gr.vs, g.isAccess v = true → ∃ e ∈ g.gr.edges, e.src = v ∨ e.dst = v) : g.Wf := by
  refine ⟨h1, h2, h3, fun v hv i o hk c hc => ?_, fun v hv i o hk => ⟨?_, fun c hc => ?_⟩, h6⟩
  · have := h4 v hv
    rw [hk] at this
    simpa using List.all_eq_true.mp this c hc
  · have := h5 v hv
    rw [hk] at this
    simp only [Option.all_some, Bool.and_eq_true] at this
    rintro rfl
    simp at this
  · have := h5 v hv
    rw [hk] at this
    simp only [Option.all_some, Bool.and_eq_true] at this
    simpa using List.all_eq_true.mp this.2 c hc

/-- y = x -/
def exBf1 : DF where
  nodes := [⟨0, 1, .access "x"⟩, ⟨1, 2, .tasklet 0 ["_in"] ["_out"]⟩, ⟨2, 3, .access "y"⟩]
  edges := [(⟨0, "void", 1, "_in"⟩, []), (⟨1, "_out", 2, "void"⟩, [])]

/-- z = y + a; x = a * a -/
def exBf2 : DF where
  nodes := [⟨0, 11, .access "y"⟩, ⟨1, 12, .access "a"⟩, ⟨2, 13, .tasklet 2 ["_in1", "_in2"] ["_out"]⟩, ⟨3, 14, .access "z"⟩,
    ⟨4, 15, .tasklet 4 ["_in1", "_in2"] ["_out"]⟩, ⟨5, 16, .access "x"⟩]
  edges := [(⟨0, "void", 2, "_in1"⟩, []), (⟨1, "void", 2, "_in2"⟩, []), (⟨2, "_out", 3, "void"⟩, []),
    (⟨1, "void", 4, "_in1"⟩, []), (⟨1, "void", 4, "_in2"⟩, []), (⟨4, "_out", 5, "void"⟩, [])]

/-- z = y + a -/
def exBf3 : DF where
  nodes := [⟨0, 11, .access "y"⟩, ⟨1, 12, .access "a"⟩, ⟨2, 13, .tasklet 2 ["_in1", "_in2"] ["_out"]⟩, ⟨3, 14, .access "z"⟩]
  edges := [(⟨0, "void", 2, "_in1"⟩, []), (⟨1, "void", 2, "_in2"⟩, []), (⟨2, "_out", 3, "void"⟩, [])]

/-- the blocks  y = x  and  z = y + a; x = a * a,  fused -/
def exBfF : DF := bfuse exBf1 exBf2 [0, 1, 2] (· + 10) (· + 20)

theorem exBf1_wf : exBf1.Wf := wf_of (by decide) (by decide) (by decide) (by decide) (by decide) (by decide)
theorem exBf2_wf : exBf2.Wf := wf_of (by decide) (by decide) (by decide) (by decide) (by decide) (by decide)
theorem exBf3_wf : exBf3.Wf := wf_of (by decide) (by decide) (by decide) (by decide) (by decide) (by decide)
theorem exBf1_free : RaceFree exBf1 := raceFree_of (by decide)
theorem exBf2_free : RaceFree exBf2 := raceFree_of (by decide)
theorem exBf3_free : RaceFree exBf3 := raceFree_of (by decide)

/-- all containers 1, except a = 5 -/
def exBfSt : St := fun y _ => if y = "a" then 5 else 1

/-- **C77 fails**: the blocks  y = x  and  z = y + a; x = a * a  are both without races; the pass accepts them since `y` connects them; in the fused block, listed
in the order in which it is executed, `x` is overwritten before it is read. -/
theorem block_fusion_violated : ∃ (isSym cst : String → Bool) (g1 g2 : DF) (comp1 comp2 comp : Nat → Nat) (o1 o2 o : List Nat) (fr ids : Nat → Nat),
    g1.Wf ∧ g2.Wf ∧ RaceFree g1 ∧ RaceFree g2 ∧ FreshFor g1 g2 fr ∧
    Flow.Components g1.gr 1 comp1 ∧ Flow.Components g2.gr 1 comp2 ∧ Flow.Components (bfuse g1 g2 o1 fr ids).gr 1 comp ∧
    Flow.topoSort g1.gr 1 comp1 = .ok o1 ∧ Flow.topoSort g2.gr 1 comp2 = .ok o2 ∧ Flow.topoSort (bfuse g1 g2 o1 fr ids).gr 1 comp = .ok o ∧
    Order g1.gr o1 ∧ Order g2.gr o2 ∧ Order (bfuse g1 g2 o1 fr ids).gr o ∧ bfAccepts isSym cst g1 g2 comp1 comp2 = true ∧
    ∃ (E : Env) (σ : St) (y : String), runOrder E (bfuse g1 g2 o1 fr ids).stmt o σ y [] ≠ runOrder E g2.stmt o2 (runOrder E g1.stmt o1 σ) y [] := by
  refine ⟨fun _ => false, fun _ => false, exBf1, exBf2, fun _ => 0, fun _ => 0, fun _ => 0, [0, 1, 2], [1, 4, 5, 0, 2, 3],
    [11, 14, 15, 0, 1, 2, 12, 13], (· + 10), (· + 20), exBf1_wf, exBf2_wf, exBf1_free, exBf2_free, ⟨by decide, by decide⟩,
    ⟨by decide, by decide⟩, ⟨by decide, by decide⟩, ⟨by decide, by decide⟩, by decide, by decide, by decide,
    order_of (by decide), order_of (by decide), order_of (by decide), by decide, exEnv, exBfSt, "y", by decide⟩

/-- the hypotheses of `block_fusion_criterion` are met by  y = x  and  z = y + a -/
example (σ : St) : runOrder exEnv (bfuse exBf1 exBf3 [0, 1, 2] (· + 10) (· + 20)).stmt [0, 1, 2, 11, 12, 13] σ =
    runOrder exEnv exBf3.stmt [0, 1, 2, 3] (runOrder exEnv exBf1.stmt [0, 1, 2] σ) := by
  refine block_fusion_criterion (isSym := fun _ => false) (cst := fun _ => false) (comp1 := fun _ => 0) (comp2 := fun _ => 0)
    exBf1_wf exBf3_wf ⟨by decide, by decide⟩ (order_of (by decide)) (order_of (by decide)) (order_of (by decide)) exBf1_free exBf3_free (by decide)
    (fun _ _ _ => rfl) (fun _ _ _ => rfl) ?_ (fun _ _ _ _ => rfl) (fun _ _ _ _ => rfl) ?_ ?_ ?_ σ
  · rintro y (h | h)
    · exact absurd h (by decide +revert)
    · exact absurd h (by decide +revert)
  · intro m hm n hn h1 h2 h3 h4 h5
    have : ∀ m ∈ exBf1.gr.vs, ∀ n ∈ exBf1.gr.vs, exBf1.isAccess m = true → exBf1.isAccess n = true → exBf1.name n = exBf1.name m → n = m := by decide
    exact absurd (this m hm n hn h1 h2 h3) h4
  · rintro a m1 m2 ha hca ⟨hm1, _, hx, _, _, hs, _⟩ _
    have h1 : ∀ a ∈ exBf1.gr.vs, exBf1.isAccess a = false → a = 1 := by decide
    have h2 : ∀ m ∈ exBf1.gr.vs, exBf1.isAccess m = true → (exBf1.gr.outE m).isEmpty = true → m = 2 := by decide
    rw [h1 a ha hca, h2 m1 hm1 hx hs]
    exact .one ⟨⟨1, "_out", 2, "void"⟩, by decide, rfl, rfl⟩
  · rintro b m1 m2 hb hcb ⟨_, hm2, _, hx, _, _, hs⟩ _
    have h1 : ∀ b ∈ exBf3.gr.vs, exBf3.isAccess b = false → b = 2 := by decide
    have h2 : ∀ m ∈ exBf3.gr.vs, exBf3.isAccess m = true → (exBf3.gr.inE m).isEmpty = true → m = 0 ∨ m = 1 := by decide
    rw [h1 b hb hcb]
    rcases h2 m2 hm2 hx hs with rfl | rfl
    · exact .one ⟨⟨0, "void", 2, "_in1"⟩, by decide, rfl, rfl⟩
    · exact .one ⟨⟨1, "void", 2, "_in2"⟩, by decide, rfl, rfl⟩

end Docc.IR

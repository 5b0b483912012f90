import Verif.IR.Bis
import Verif.IR.UsersProps

/-
Memories that agree except for the scalar values of some names.
-/
namespace Docc.IR
open Docc.Sym

/-- The memories agree except possibly for the scalar values of the names in `X`. -/
def AgreeS (X : String → Prop) (σ τ : St) : Prop := ∀ x j, (X x → j ≠ []) → σ x j = τ x j

namespace AgreeS
variable {X Y : String → Prop} {σ τ υ : St}

theorem refl (X : String → Prop) (σ : St) : AgreeS X σ σ := fun _ _ _ => rfl
theorem symm (h : AgreeS X σ τ) : AgreeS X τ σ := fun x j hx => (h x j hx).symm
theorem trans (h : AgreeS X σ τ) (h' : AgreeS X τ υ) : AgreeS X σ υ := fun x j hx => (h x j hx).trans (h' x j hx)
theorem mono (hXY : ∀ x, X x → Y x) (h : AgreeS X σ τ) : AgreeS Y σ τ := fun x j hx => h x j fun hX => hx (hXY x hX)
theorem off (h : AgreeS X σ τ) : AgreeOff X σ τ := fun x hx => funext fun j => h x j fun hX => absurd hX hx

theorem ev (h : AgreeS X σ τ) (E : Env) {e : Expr} (he : ∀ x ∈ e.atoms, ¬ X x) : σ.ev E e = τ.ev E e := h.off.ev E he
theorem cond (h : AgreeS X σ τ) (E : Env) {c : Cond} (hc : ∀ x ∈ c.atoms, ¬ X x) : σ.cond E c = τ.cond E c := h.off.cond E hc

theorem set (h : AgreeS X σ τ) (x : String) (i : List Int) (v : Int) : AgreeS X (σ.set x i v) (τ.set x i v) := by
  intro y j hy
  simp only [St.set, h y j hy]

theorem setMany (h : AgreeS X σ τ) (ws : List String) (f : Nat → List Int → Int) :
    AgreeS X (σ.setMany ws f) (τ.setMany ws f) := by
  unfold St.setMany
  generalize ws.zipIdx = l
  induction l generalizing σ τ with
  | nil => exact h
  | cons a r ih =>
    refine ih ?_
    intro y j hy
    show (if y = a.1 then f a.2 else σ y) j = (if y = a.1 then f a.2 else τ y) j
    split
    · rfl
    · exact h y j hy

/-- assigning the same value to a name on both sides makes it agree -/
theorem setS (h : AgreeS X σ τ) (x : String) (v : Int) : AgreeS (fun y => X y ∧ y ≠ x) (σ.setS x v) (τ.setS x v) := by
  intro y j hy
  simp only [St.setS, St.set]
  split
  · rfl
  · rename_i hn
    refine h y j fun hX he => ?_
    by_cases e : y = x
    · exact hn ⟨e, he⟩
    · exact hy ⟨hX, e⟩ he

theorem setS_left (h : AgreeS X σ τ) {x : String} (hx : X x) (v : Int) : AgreeS X (σ.setS x v) τ := by
  intro y j hy
  simp only [St.setS, St.set]
  split
  · rename_i hn; obtain ⟨rfl, rfl⟩ := hn; exact absurd rfl (hy hx)
  · exact h y j hy

theorem setS_right (h : AgreeS X σ τ) {x : String} (hx : X x) (v : Int) : AgreeS X σ (τ.setS x v) :=
  (h.symm.setS_left hx v).symm

theorem runTrans (E : Env) (t : Trans) (h : ∀ x, X x → ¬ reads (transUsers t) x) (hA : AgreeS X σ τ) :
    AgreeS X (runTrans E t σ) (runTrans E t τ) := by
  have h' : ∀ a ∈ t, ∀ x ∈ a.2.atoms, ¬ X x := by
    intro a ha x hx hX
    exact h x hX (by rw [transUsers, reads_append, reads_readsOf, List.mem_flatMap]; exact Or.inl ⟨a, ha, hx⟩)
  clear h
  unfold IR.runTrans
  induction t generalizing σ τ with
  | nil => exact hA
  | cons a r ih =>
    simp only [List.foldl_cons]
    refine ih ?_ (fun b hb => h' b (List.mem_cons_of_mem _ hb))
    rw [hA.ev E (h' a (by simp))]
    exact (hA.setS _ _).mono fun x hx => hx.1

theorem runStmt (E : Env) (s : Stmt) (h : ∀ x, X x → ¬ reads s.users x) (hA : AgreeS X σ τ) :
    AgreeS X (s.run E σ) (s.run E τ) := by
  cases s with
  | tasklet op ins out sub =>
    simp only [Stmt.run]
    simp only [Stmt.users, reads_append, reads_readsOf] at h
    have h1 : sub.map (σ.ev E) = sub.map (τ.ev E) := by
      refine List.map_congr_left fun e he => hA.ev E fun x hx hX => ?_
      exact h x hX (Or.inl (Or.inr ((Expr.mem_atomsL x sub).2 ⟨e, he, hx⟩)))
    have h2 : (ins.map fun r => σ r.1 (r.2.map (σ.ev E))) = ins.map fun r => τ r.1 (r.2.map (τ.ev E)) := by
      refine List.map_congr_left fun r hr => ?_
      have e1 : r.2.map (σ.ev E) = r.2.map (τ.ev E) := by
        refine List.map_congr_left fun e he => hA.ev E fun x hx hX => ?_
        exact h x hX (Or.inl (Or.inl (Or.inr (List.mem_flatMap.2 ⟨r, hr, (Expr.mem_atomsL x r.2).2 ⟨e, he, hx⟩⟩))))
      have e2 : σ r.1 = τ r.1 := hA.off _ fun hX =>
        h r.1 hX (Or.inl (Or.inl (Or.inl (List.mem_map.2 ⟨r, hr, rfl⟩))))
      rw [e1, e2]
    rw [h1, h2]
    exact hA.set _ _ _
  | lib op rs ws =>
    simp only [Stmt.run]
    simp only [Stmt.users, reads_append, reads_readsOf] at h
    have : rs.map σ = rs.map τ := List.map_congr_left fun r hr => hA.off _ fun hX => h r hX (Or.inl hr)
    rw [this]
    exact hA.setMany _ _

theorem runBlock (E : Env) (l : List Stmt) (h : ∀ x, X x → ¬ reads (l.flatMap Stmt.users) x) (hA : AgreeS X σ τ) :
    AgreeS X (runBlock E l σ) (runBlock E l τ) := by
  unfold IR.runBlock
  induction l generalizing σ τ with
  | nil => exact hA
  | cons s r ih =>
    simp only [List.flatMap_cons, reads_append, not_or] at h
    exact ih (fun x hx => (h x hx).2) (runStmt E s (fun x hx => (h x hx).1) hA)

end AgreeS

theorem Rel.bis_of_sim_symm {A : St → St → Prop} (hA : ∀ σ τ, A σ τ → A τ σ) {R : Rel} (h : Rel.sim A R R) : Rel.bis A R R :=
  ⟨h, fun σ τ c σ' hAB hr => by
    obtain ⟨τ', h1, h2⟩ := h σ τ c σ' (hA _ _ hAB) hr
    exact ⟨τ', h1, hA _ _ h2⟩⟩

/-- a loop with a transformed body, entered from memories that may differ on the loop variable -/
theorem loop_bisS (E : Env) (X : String → Prop) (m m' : Bool) (i : String) (a : Expr) (k : Cond) (u : Expr) (s s' : Seq)
    (Q : Prop) (hQ : Q → X i) (hq : Q → i ∉ k.atoms ∧ i ∉ u.atoms)
    (ha : ∀ x, X x → x ∉ a.atoms) (hk : ∀ x, X x → x ≠ i → x ∉ k.atoms) (hu : ∀ x, X x → x ≠ i → x ∉ u.atoms)
    (h : Rel.bis (AgreeS fun x => X x ∧ (x ≠ i ∨ Q)) (s.den E) (s'.den E)) :
    Rel.bis (AgreeS X) ((Node.loop m i a k u s).den E) ((Node.loop m' i a k u s').den E) := by
  have hk' : ∀ x, (X x ∧ (x ≠ i ∨ Q)) → x ∉ k.atoms := by
    rintro x ⟨hx, hn⟩ hm
    by_cases he : x = i
    · subst he; exact (hq (hn.resolve_left (· rfl))).1 hm
    · exact hk x hx he hm
  have hu' : ∀ x, (X x ∧ (x ≠ i ∨ Q)) → x ∉ u.atoms := by
    rintro x ⟨hx, hn⟩ hm
    by_cases he : x = i
    · subst he; exact (hq (hn.resolve_left (· rfl))).2 hm
    · exact hu x hx he hm
  have key := Rel.iter_bis (A := AgreeS fun x => X x ∧ (x ≠ i ∨ Q)) (b := fun σ => σ.cond E k) (b' := fun σ => σ.cond E k)
    (u := fun σ => σ.setS i (σ.ev E u)) (u' := fun σ => σ.setS i (σ.ev E u))
    (fun σ τ hA => hA.cond E fun x hx hX => hk' x hX hx)
    (fun σ τ hA => by
      show AgreeS _ (σ.setS i (σ.ev E u)) (τ.setS i (τ.ev E u))
      rw [hA.ev E fun x hx hX => hu' x hX hx]; exact (hA.setS _ _).mono fun x hx => hx.1) h
  have hin : ∀ σ τ, AgreeS X σ τ →
      AgreeS (fun x => X x ∧ (x ≠ i ∨ Q)) (σ.setS i (σ.ev E a)) (τ.setS i (τ.ev E a)) := by
    intro σ τ hA
    rw [hA.ev E fun x hx hX => ha x hX hx]
    exact (hA.setS _ _).mono fun x hx => ⟨hx.1, Or.inl hx.2⟩
  rw [Node.den, Node.den, Rel.upd_seq, Rel.upd_seq]
  constructor
  · intro σ τ c σ' hA hr
    obtain ⟨τ', h1, h2⟩ := key.1 _ _ _ _ (hin σ τ hA) hr
    exact ⟨τ', h1, h2.mono fun x hx => hx.1⟩
  · intro τ σ c σ' hA hr
    obtain ⟨τ', h1, h2⟩ := key.2 _ _ _ _ (hin σ τ hA) hr
    exact ⟨τ', h1, h2.mono fun x hx => hx.1⟩

mutual
/-- a node that does not read `X` cannot distinguish memories that differ in the scalar values of `X` -/
theorem Node.agreeS (E : Env) (X : String → Prop) : (n : Node) → (∀ x, X x → ¬ reads n.users x) →
    Rel.bis (AgreeS X) (n.den E) (n.den E)
  | .block l, h => by rw [Node.den]; exact Rel.upd_bis fun σ τ hA => AgreeS.runBlock E l h hA
  | .seq s, h => by rw [Node.den]; exact s.agreeS E X h
  | .ifElse b, h => by
    rw [Node.den]
    refine b.agreeS E X (fun x hx hm => ?_) (fun x hx hm => ?_) <;> apply h x hx <;>
      rw [Node.users, reads_append, reads_readsOf]
    · exact Or.inl hm
    · exact Or.inr hm
  | .whileL s, h => by rw [Node.den]; exact Rel.forever_bis (s.agreeS E X h)
  | .loop m i a k u s, h => by
    simp only [Node.users, reads_append, reads_readsOf, not_or] at h
    refine loop_bisS E X m m i a k u s s (X i) id (fun hq => ⟨(h i hq).1.1.1.2, (h i hq).1.2⟩) (fun x hx => (h x hx).1.1.1.1.1)
      (fun x hx _ => (h x hx).1.1.1.2) (fun x hx _ => (h x hx).1.2)
      (s.agreeS E _ fun x hx => (h x hx.1).1.1.2)
  | .brk, _ => by rw [Node.den]; exact Rel.exit_bis _ _
  | .cont, _ => by rw [Node.den]; exact Rel.exit_bis _ _
  | .ret _ _, _ => by rw [Node.den]; exact Rel.exit_bis _ _
theorem Seq.agreeS (E : Env) (X : String → Prop) : (s : Seq) → (∀ x, X x → ¬ reads s.users x) →
    Rel.bis (AgreeS X) (s.den E) (s.den E)
  | .nil, _ => by rw [Seq.den]; exact Rel.upd_bis fun _ _ h => h
  | .cons n t r, h => by
    rw [Seq.den]
    by_cases hr : n.isRet = true
    · cases n <;> simp [Node.isRet] at hr
      rename_i d q
      rw [Node.den, Rel.exit_seq _ (by simp)]; exact Rel.exit_bis _ _
    · simp only [Seq.users, hr, Bool.false_eq_true, if_false, reads_append, not_or] at h
      exact Rel.seq_bis (n.agreeS E X fun x hx => (h x hx).1.1)
        (Rel.seq_bis (Rel.upd_bis fun σ τ hA => AgreeS.runTrans E t (fun x hx => (h x hx).1.2) hA)
          (r.agreeS E X fun x hx => (h x hx).2))
theorem Brs.agreeS (E : Env) (X : String → Prop) : (b : Brs) → (∀ x, X x → x ∉ b.condAtoms) →
    (∀ x, X x → ¬ reads b.users x) → Rel.bis (AgreeS X) (b.den E) (b.den E)
  | .nil, _, _ => by rw [Brs.den]; exact Rel.upd_bis fun _ _ h => h
  | .cons c s r, hc, h => by
    simp only [Brs.users, reads_append, not_or, Brs.condAtoms, List.mem_append] at h hc
    rw [Brs.den]
    exact Rel.ite_bis (fun σ τ hA => hA.cond E fun x hx hX => (hc x hX).1 hx) (s.agreeS E X fun x hx => (h x hx).1)
      (r.agreeS E X (fun x hx => (hc x hx).2) fun x hx => (h x hx).2)
end

end Docc.IR

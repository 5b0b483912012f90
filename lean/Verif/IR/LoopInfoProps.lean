import Verif.IR.LoopInfo
import Verif.Sym.CNFOps
import Verif.IR.Sim

/-
C11: the canonical bound describes the loop condition; C50: the stride describes the update.
-/
namespace Docc.IR
open Docc.Sym

/-- the expression has a defined integer value in the state -/
def St.defd (E : Env) (σ : St) (e : Expr) : Prop := ∃ n, e.eval (σ.val E) = .fin n

theorem St.ev_of_eval {E : Env} {σ : St} {e : Expr} {n : Int} (h : e.eval (σ.val E) = .fin n) : σ.ev E e = n := by
  simp [St.ev, h]

theorem St.eval_of_defd {E : Env} {σ : St} {e : Expr} (h : σ.defd E e) : e.eval (σ.val E) = .fin (σ.ev E e) := by
  obtain ⟨n, hn⟩ := h
  rw [St.ev_of_eval hn, hn]

theorem defd_min2 {E : Env} {σ : St} {a b : Expr} (ha : σ.defd E a) (hb : σ.defd E b) :
    σ.defd E (.min [a, b]) ∧ σ.ev E (.min [a, b]) = min (σ.ev E a) (σ.ev E b) := by
  have : (Expr.min [a, b]).eval (σ.val E) = .fin (min (σ.ev E a) (σ.ev E b)) := by
    simp only [Expr.eval, Expr.evalL, List.foldl_cons, List.foldl_nil, St.eval_of_defd ha, St.eval_of_defd hb, V.min]
    congr 1
  exact ⟨⟨_, this⟩, St.ev_of_eval this⟩

theorem defd_add1 {E : Env} {σ : St} {a : Expr} (ha : σ.defd E a) :
    σ.defd E (.add [a, .int 1]) ∧ σ.ev E (.add [a, .int 1]) = σ.ev E a + 1 := by
  have : (Expr.add [a, .int 1]).eval (σ.val E) = .fin (σ.ev E a + 1) := by
    simp [Expr.eval, Expr.evalL, St.eval_of_defd ha, V.add]
  exact ⟨⟨_, this⟩, St.ev_of_eval this⟩

theorem ev_sym (E : Env) (σ : St) (x : String) : σ.ev E (.sym x) = σ x [] := by
  simp [St.ev, Expr.eval, St.val]

theorem literalBound_correct {E : Env} {σ : St} {i : String} {l : Cond} {b : Expr} (h : literalBound i l = some b)
    (hd : ∀ e ∈ l.ops, σ.defd E e) : σ.defd E b ∧ (σ.cond E l = true ↔ σ i [] < σ.ev E b) := by
  unfold literalBound at h
  split at h
  · rename_i x e
    split at h
    · rename_i hx
      simp only [Option.some.injEq] at h; subst h; subst hx
      refine ⟨hd _ (by simp [Cond.ops]), ?_⟩
      simp [St.cond, Cond.eval, ev_sym]
    · simp at h
  · rename_i x e
    split at h
    · rename_i hx
      simp only [Option.some.injEq] at h; subst h; subst hx
      have he := hd e (by simp [Cond.ops])
      obtain ⟨h1, h2⟩ := defd_add1 he
      refine ⟨h1, ?_⟩
      rw [h2]
      simp [St.cond, Cond.eval, ev_sym]
      omega
    · simp at h
  · simp at h

theorem foldBound_correct {E : Env} {σ : St} {i : String} (ls : List Cond) :
    ∀ acc b, foldBound i ls acc = some (some b) → (∀ l ∈ ls, ∀ e ∈ l.ops, σ.defd E e) →
      (∀ a, acc = some a → σ.defd E a) →
      σ.defd E b ∧ (((∀ l ∈ ls, σ.cond E l = true) ∧ (∀ a, acc = some a → σ i [] < σ.ev E a)) ↔ σ i [] < σ.ev E b) := by
  induction ls with
  | nil =>
    intro acc b h _ ha
    simp only [foldBound, Option.some.injEq] at h
    subst h
    exact ⟨ha b rfl, by simp⟩
  | cons l r ih =>
    intro acc b h hd ha
    rw [foldBound] at h
    split at h
    · simp at h
    · rename_i e he
      obtain ⟨h1, h2⟩ := literalBound_correct he (hd l (by simp))
      have hd' : ∀ l ∈ r, ∀ e ∈ l.ops, σ.defd E e := fun l hl => hd l (List.mem_cons_of_mem _ hl)
      cases acc with
      | none =>
        obtain ⟨h3, h4⟩ := ih _ b h hd' (by rintro a ⟨⟩; exact h1)
        refine ⟨h3, ?_⟩
        rw [← h4]
        simp only [List.forall_mem_cons, h2]
        simp only [reduceCtorEq, false_implies, implies_true, and_true, Option.some.injEq, forall_eq']
        exact And.comm
      | some a =>
        obtain ⟨m1, m2⟩ := defd_min2 (ha a rfl) h1
        obtain ⟨h3, h4⟩ := ih _ b h hd' (by rintro a ⟨⟩; exact m1)
        refine ⟨h3, ?_⟩
        rw [← h4]
        simp only [List.forall_mem_cons, h2]
        simp only [Option.some.injEq, forall_eq', m2]
        constructor
        · rintro ⟨⟨p, q⟩, s⟩; exact ⟨q, by omega⟩
        · rintro ⟨q, s⟩; exact ⟨⟨by omega, q⟩, by omega⟩

/-- **C11.** If `canonical_bound` returns an expression `b`, the condition of the loop holds exactly when the loop variable
is below the value of `b`, in every state in which the expressions the condition compares are defined. -/
theorem canonical_bound_correct (E : Env) (σ : St) (mono : Bool) (i : String) (c : Cond) (b : Expr)
    (h : canonicalBound mono i c = some b) (hd : ∀ e ∈ c.ops, σ.defd E e) :
    σ.defd E b ∧ (σ.cond E c = true ↔ σ i [] < σ.ev E b) := by
  unfold canonicalBound at h
  split at h
  · simp at h
  split at h
  · simp at h
  rename_i f hf
  split at h
  · simp at h
  rename_i hlen
  have hops := cnf_ops (fun e => σ.defd E e) c f hf hd
  have hone : ∀ cl ∈ f, ∃ l, cl = [l] := by
    intro cl hcl
    have h1 := (hops cl hcl).1
    have h2 : ¬ cl.length > 1 := fun hgt => hlen (List.any_eq_true.2 ⟨cl, hcl, by simpa using hgt⟩)
    match cl with
    | [] => exact absurd rfl h1
    | [l] => exact ⟨l, rfl⟩
    | _ :: _ :: _ => exact absurd (by simp) h2
  split at h
  · rename_i b' hb
    subst h
    have hd' : ∀ l ∈ f.flatten, ∀ e ∈ l.ops, σ.defd E e := by
      intro l hl
      obtain ⟨cl, hcl, hlc⟩ := List.mem_flatten.1 hl
      exact (hops cl hcl).2 l hlc
    obtain ⟨h1, h2⟩ := foldBound_correct f.flatten none b hb hd' (by simp)
    refine ⟨h1, ?_⟩
    rw [← h2]
    unfold St.cond
    rw [← cnf_sound c f hf]
    simp only [CNF.eval, List.all_eq_true, List.any_eq_true, reduceCtorEq, false_implies, implies_true, and_true]
    constructor
    · intro hall l hl
      obtain ⟨cl, hcl, hlc⟩ := List.mem_flatten.1 hl
      obtain ⟨l', rfl⟩ := hone cl hcl
      obtain ⟨l'', hl'', hv⟩ := hall _ hcl
      simp only [List.mem_singleton] at hlc hl''
      subst hlc hl''; exact hv
    · intro hall cl hcl
      obtain ⟨l', rfl⟩ := hone cl hcl
      exact ⟨l', by simp, hall l' (List.mem_flatten.2 ⟨_, hcl, by simp⟩)⟩
  · simp at h

/-- Non-vacuity: `!(N <= i) && i <= M` has the bound `min(N, M + 1)`. -/
example : canonicalBound true "i" (.and [.not (.le (.sym "N") (.sym "i")), .le (.sym "i") (.sym "M")]) =
    some (.min [.sym "N", .add [.sym "M", .int 1]]) := by
  simp [canonicalBound, cnf, cnfL, foldBound, literalBound]

/-- **C50.** If `stride` returns `n`, the update of the loop adds exactly `n` to the loop variable, in every state. -/
theorem stride_correct (E : Env) (σ : St) (i : String) (u : Expr) (n : Int) (h : loopStride i u = some n) :
    σ.ev E u = σ i [] + n := by
  unfold loopStride at h
  split at h
  · rename_i x m
    split at h
    · rename_i hx
      simp only [Option.some.injEq] at h; subst h; subst hx
      simp [St.ev, Expr.eval, Expr.evalL, V.add, St.val]
    · simp at h
  · rename_i m x
    split at h
    · rename_i hx
      simp only [Option.some.injEq] at h; subst h; subst hx
      simp [St.ev, Expr.eval, Expr.evalL, V.add, St.val]; omega
    · simp at h
  · simp at h

example : loopStride "i" (.add [.int 4, .sym "i"]) = some 4 := by simp [loopStride]

end Docc.IR

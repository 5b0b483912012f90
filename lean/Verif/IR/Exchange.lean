import Verif.IR.UsersProps
import Verif.Flow.TopoProps

/-! Computations that do not conflict commute; two orders of the same computations that agree on conflicting ones have the same effect. -/
namespace Docc.IR
open Docc.Sym
open Docc.Flow (Before)

/-- two computations access a common container and at least one of them writes it -/
def Stmt.Conflict (s t : Stmt) : Prop :=
  ∃ y, (writes s.users y ∧ (reads t.users y ∨ writes t.users y)) ∨ (reads s.users y ∧ writes t.users y)

theorem Stmt.Conflict.symm {s t : Stmt} (h : s.Conflict t) : t.Conflict s := by
  obtain ⟨y, ⟨h1, h2 | h2⟩ | ⟨h1, h2⟩⟩ := h
  · exact ⟨y, Or.inr ⟨h2, h1⟩⟩
  · exact ⟨y, Or.inl ⟨h2, Or.inr h1⟩⟩
  · exact ⟨y, Or.inl ⟨h2, Or.inl h1⟩⟩

theorem Stmt.keepOff (E : Env) (s : Stmt) (σ : St) (y : String) (h : ¬ writes s.users y) : s.run E σ y = σ y :=
  runBlock_frame E [s] σ y (by simpa using h)

theorem setMany_congr {ws : List (String × Nat)} {g : Nat → List Int → Int} : ∀ {σ τ : St} {z : String}, σ z = τ z →
    ws.foldl (fun s wk => fun y => if y = wk.1 then g wk.2 else s y) σ z = ws.foldl (fun s wk => fun y => if y = wk.1 then g wk.2 else s y) τ z := by
  induction ws with
  | nil => intro σ τ z h; exact h
  | cons w ws ih =>
    intro σ τ z h
    simp only [List.foldl_cons]
    exact ih (by simp only [h])

theorem ev_at {E : Env} {σ τ : St} {e : Expr} (h : ∀ y ∈ e.atoms, σ y = τ y) : σ.ev E e = τ.ev E e := by
  unfold St.ev
  rw [eval_congr_atoms e (σ.val E) (τ.val E) rfl fun y hy => by simp only [St.val, h y hy]]

theorem evs_at {E : Env} {σ τ : St} {l : List Expr} (h : ∀ y ∈ Expr.atomsL l, σ y = τ y) : l.map (σ.ev E) = l.map (τ.ev E) := by
  refine List.map_congr_left fun e he => ev_at fun y hy => h y ?_
  rw [Expr.mem_atomsL]; exact ⟨e, he, hy⟩

/-- what a computation leaves in a container depends on what it reads and on the container -/
theorem Stmt.run_congr (E : Env) (s : Stmt) {σ τ : St} (h : ∀ y, reads s.users y → σ y = τ y) (z : String) (hz : σ z = τ z) :
    s.run E σ z = s.run E τ z := by
  cases s with
  | tasklet op ins out sub =>
    have h1 : sub.map (σ.ev E) = sub.map (τ.ev E) := evs_at fun y hy => h y (by simp [Stmt.users, reads, readsOf, hy])
    have h2 : (ins.map fun r => σ r.1 (r.2.map (σ.ev E))) = ins.map fun r => τ r.1 (r.2.map (τ.ev E)) := by
      refine List.map_congr_left fun m hm => ?_
      have h3 : m.2.map (σ.ev E) = m.2.map (τ.ev E) := evs_at fun y hy => h y (by
        simp only [Stmt.users, reads, readsOf, List.mem_append, List.mem_map, List.mem_flatMap]
        exact Or.inl (Or.inl (Or.inr ⟨y, ⟨m, hm, hy⟩, rfl⟩)))
      rw [h m.1 (by
        simp only [Stmt.users, reads, readsOf, List.mem_append, List.mem_map]
        exact Or.inl (Or.inl (Or.inl ⟨m.1, ⟨m, hm, rfl⟩, rfl⟩))), h3]
    simp only [Stmt.run, h1, h2]
    funext j
    simp only [St.set, hz]
  | lib op rs ws =>
    have h2 : rs.map σ = rs.map τ := List.map_congr_left fun y hy => h y (by simp [Stmt.users, reads, readsOf, hy])
    simp only [Stmt.run, h2]
    unfold St.setMany
    exact setMany_congr (g := fun k => E.lib op k (rs.map τ)) hz

theorem Stmt.commute (E : Env) {s t : Stmt} (h : ¬ s.Conflict t) (σ : St) : s.run E (t.run E σ) = t.run E (s.run E σ) := by
  funext z
  have hs : ∀ y, reads s.users y → t.run E σ y = σ y := fun y hy => t.keepOff E σ y fun hw => h ⟨y, Or.inr ⟨hy, hw⟩⟩
  have ht : ∀ y, reads t.users y → s.run E σ y = σ y := fun y hy => s.keepOff E σ y fun hw => h ⟨y, Or.inl ⟨hw, Or.inl hy⟩⟩
  by_cases hz : writes s.users z
  · have hzt : ¬ writes t.users z := fun hw => h ⟨z, Or.inl ⟨hz, Or.inr hw⟩⟩
    rw [t.keepOff E _ z hzt]
    exact s.run_congr E hs z (t.keepOff E σ z hzt)
  · rw [s.keepOff E _ z hz]
    exact (t.run_congr E ht z (s.keepOff E σ z hz)).symm

/-- the effect of the computations of the nodes `l` in this order -/
def runOrder (E : Env) (f : Nat → Option Stmt) (l : List Nat) (σ : St) : St := runBlock E (l.filterMap f) σ

theorem runOrder_append (E : Env) (f : Nat → Option Stmt) (l m : List Nat) (σ : St) :
    runOrder E f (l ++ m) σ = runOrder E f m (runOrder E f l σ) := by
  simp [runOrder, runBlock, List.filterMap_append, List.foldl_append]

/-- the nodes have computations that conflict -/
def ConflictAt (f : Nat → Option Stmt) (a b : Nat) : Prop := ∃ s t, f a = some s ∧ f b = some t ∧ s.Conflict t

/-- a node without conflicts with the nodes `p` can be moved in front of them -/
theorem move_front {E : Env} {f : Nat → Option Stmt} {a : Nat} : ∀ (p : List Nat) (q : List Nat) (σ : St), (∀ b ∈ p, ¬ ConflictAt f b a) →
    runOrder E f (p ++ a :: q) σ = runOrder E f (a :: (p ++ q)) σ
  | [], _, _, _ => rfl
  | b :: p, q, σ, h => by
    have ih := fun σ => move_front p q (E := E) (f := f) σ fun c hc => h c (by simp [hc])
    have h1 : runOrder E f (b :: (p ++ a :: q)) σ = runOrder E f (b :: a :: (p ++ q)) σ := by
      show runOrder E f ([b] ++ (p ++ a :: q)) σ = runOrder E f ([b] ++ (a :: (p ++ q))) σ
      rw [runOrder_append E f [b], ih, ← runOrder_append E f [b]]
    rw [List.cons_append, h1]
    show runOrder E f ([b, a] ++ (p ++ q)) σ = runOrder E f ([a, b] ++ (p ++ q)) σ
    rw [runOrder_append E f [b, a], runOrder_append E f [a, b]]
    congr 1
    unfold runOrder
    cases hb : f b with
    | none => simp [List.filterMap_cons, hb]
    | some s =>
      cases ha : f a with
      | none => simp [hb, ha]
      | some t =>
        simp only [List.filterMap_cons, hb, ha, List.filterMap_nil, runBlock, List.foldl_cons, List.foldl_nil]
        exact (Stmt.commute E (fun hc => h b (by simp) ⟨s, t, hb, ha, hc⟩) σ).symm

/-- **exchange theorem**: two orders of the same nodes that agree on conflicting nodes have the same effect -/
theorem exchange {E : Env} {f : Nat → Option Stmt} : ∀ (l m : List Nat), List.Perm l m → l.Nodup →
    (∀ a b, Before l a b → ConflictAt f a b → Before m a b) → ∀ σ, runOrder E f l σ = runOrder E f m σ
  | [], m, hp, _, _, σ => by rw [List.nil_perm.mp hp]
  | a :: l, m, hp, hn, hc, σ => by
    obtain ⟨p, q, rfl⟩ := List.append_of_mem (hp.mem_iff.mp (List.mem_cons_self ..))
    have hn' : (p ++ a :: q).Nodup := hp.nodup_iff.mp hn
    have hp' : List.Perm l (p ++ q) := List.Perm.cons_inv (hp.trans List.perm_middle)
    rw [move_front p q σ ?_]
    · show runOrder E f ([a] ++ l) σ = runOrder E f ([a] ++ (p ++ q)) σ
      rw [runOrder_append E f [a], runOrder_append E f [a]]
      refine exchange l (p ++ q) hp' (List.nodup_cons.mp hn).2 (fun b c hbc hcf => ?_) _
      obtain ⟨x, y, z, hxyz⟩ := hc b c (by obtain ⟨x, y, z, h⟩ := hbc; exact ⟨a :: x, y, z, by simp [h]⟩) hcf
      -- `a` is neither `b` nor `c`
      have hab : a ≠ b := by
        rintro rfl
        obtain ⟨x, y, z, h⟩ := hbc
        exact (List.nodup_cons.mp hn).1 (by rw [h]; simp)
      have hac : a ≠ c := by
        rintro rfl
        obtain ⟨x, y, z, h⟩ := hbc
        exact (List.nodup_cons.mp hn).1 (by rw [h]; simp)
      have ha : a ∉ p ++ q := by
        rw [List.perm_middle.nodup_iff] at hn'
        exact (List.nodup_cons.mp hn').1
      have hf : (p ++ a :: q).filter (· != a) = p ++ q := by
        rw [List.filter_append, List.filter_cons_of_neg (by simp), List.filter_eq_self.mpr, List.filter_eq_self.mpr]
        · intro z hz
          simp only [bne_iff_ne]
          rintro rfl
          exact ha (by simp [hz])
        · intro z hz
          simp only [bne_iff_ne]
          rintro rfl
          exact ha (by simp [hz])
      rw [← hf, hxyz, List.filter_append, List.filter_cons_of_pos (by simpa using hab.symm), List.filter_append,
        List.filter_cons_of_pos (by simpa using hac.symm)]
      exact ⟨_, _, _, rfl⟩
    · intro b hb hcf
      obtain ⟨s, t, h1, h2, h3⟩ := hcf
      have hbl : b ∈ l := hp'.mem_iff.mpr (by simp [hb])
      obtain ⟨x, y, rfl⟩ := List.append_of_mem hbl
      have hbf : Before (p ++ a :: q) a b := hc a b ⟨[], x, y, rfl⟩ ⟨t, s, h2, h1, h3.symm⟩
      obtain ⟨p1, p2, rfl⟩ := List.append_of_mem hb
      have : ¬ Before ((p1 ++ b :: p2) ++ a :: q) a b := by
        rintro ⟨x', y', z', h⟩
        -- both positions of `a`
        have hn2 := hn'
        rw [List.perm_middle.nodup_iff, List.nodup_cons] at hn2
        have hx : x' = p1 ++ b :: p2 ∧ y' ++ b :: z' = q := by
          have hax : a ∉ x' := by
            intro hm
            have := hn'
            rw [h, List.perm_middle.nodup_iff, List.nodup_cons] at this
            exact this.1 (by simp [hm])
          have haq : a ∉ p1 ++ b :: p2 := fun hm => hn2.1 (by rw [List.mem_append]; exact Or.inl hm)
          rcases List.append_eq_append_iff.mp h with ⟨c, h1, h2⟩ | ⟨c, h1, h2⟩
          · cases c with
            | nil => simp at h1 h2; exact ⟨h1.symm ▸ rfl, h2.symm⟩
            | cons d c => simp at h2; exact absurd (by rw [h1, ← h2.1]; simp) hax
          · cases c with
            | nil => simp at h1 h2; exact ⟨h1 ▸ rfl, h2⟩
            | cons d c => simp at h2; exact absurd (by rw [h1, ← h2.1]; simp) haq
        rw [← hx.2] at hn'
        have := (List.nodup_append.mp hn').2.2 b (by simp) b (by simp)
        exact this rfl
      exact absurd hbf this

end Docc.IR

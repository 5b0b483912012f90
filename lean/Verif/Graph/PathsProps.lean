import Verif.Graph.Paths
import Mathlib.Data.Fintype.Card

/-
C35: all_simple_paths.
-/
namespace Docc.Graph

variable (G : Digraph)

/-- an edge path from `s` to `d` -/
def IsPath : G.V → G.V → List G.E → Prop
  | s, d, [] => s = d
  | s, d, e :: p => G.src e = s ∧ IsPath (G.dst e) d p

/-- the vertices entered by a path -/
def entered (p : List G.E) : List G.V := p.map G.dst

/-- a path with at least one edge that visits no vertex twice (the source included) -/
def Simple (s d : G.V) (p : List G.E) : Prop := p ≠ [] ∧ IsPath G s d p ∧ (s :: entered G p).Nodup

/-- a path with at least one edge that enters no vertex twice (but may return to the source) -/
def Trail (s d : G.V) (p : List G.E) : Prop := p ≠ [] ∧ IsPath G s d p ∧ (entered G p).Nodup

/-- every path with distinct entered vertices is at most `k` edges long: satisfied by `k` = number of vertices -/
def Bounded (k : Nat) : Prop := ∀ l : List G.V, l.Nodup → l.length ≤ k

variable [DecidableEq G.V]

theorem dfs_mem (d : G.V) (f : Nat) (e : G.E) (vis : List G.V) (p : List G.E) (h : p ∈ dfs G d f e vis) :
    ∃ q, p = e :: q ∧ IsPath G (G.dst e) d q ∧ (entered G p).Nodup ∧ ∀ u ∈ entered G p, u ∉ vis := by
  induction f generalizing e vis p with
  | zero => simp [dfs] at h
  | succ f ih =>
    simp only [dfs] at h
    split at h
    · simp at h
    · rename_i hv
      split at h
      · rename_i hd
        simp only [List.mem_singleton] at h
        subst h
        exact ⟨[], rfl, hd, by simp [entered], by simpa [entered] using hv⟩
      · simp only [List.mem_flatMap, List.mem_map] at h
        obtain ⟨n, hn, q, hq, rfl⟩ := h
        obtain ⟨r, rfl, h1, h2, h3⟩ := ih n _ q hq
        refine ⟨n :: r, rfl, ⟨(G.out_src _ _).1 hn, h1⟩, ?_, ?_⟩
        · simp only [entered, List.map_cons, List.nodup_cons] at h2 h3 ⊢
          refine ⟨?_, h2⟩
          intro hm
          exact h3 _ hm (by simp)
        · intro u hu
          simp only [entered, List.map_cons] at hu h3
          rcases List.mem_cons.1 hu with rfl | hu
          · exact hv
          · exact fun hvis => h3 u hu (by simp [hvis])

theorem dfs_complete (d : G.V) (f : Nat) (e : G.E) (vis : List G.V) (q : List G.E) (hf : q.length < f)
    (hp : IsPath G (G.dst e) d q) (hn : (entered G (e :: q)).Nodup) (hv : ∀ u ∈ entered G (e :: q), u ∉ vis) :
    e :: q ∈ dfs G d f e vis := by
  induction f generalizing e vis q with
  | zero => omega
  | succ f ih =>
    simp only [dfs]
    have h0 : G.dst e ∉ vis := hv _ (by simp [entered])
    rw [if_neg h0]
    cases q with
    | nil =>
      have : G.dst e = d := hp
      rw [if_pos this]; simp
    | cons n r =>
      obtain ⟨h1, h2⟩ := hp
      have hne : G.dst e ≠ d := by
        intro he
        -- the path ends at `d`, entered again at the end
        have hlast : ∀ (r : List G.E) (a : G.V), IsPath G a d r → d = a ∨ d ∈ entered G r := by
          intro r
          induction r with
          | nil => intro a h; exact Or.inl h.symm
          | cons x y ihy =>
            intro a h
            rcases ihy _ h.2 with h' | h'
            · exact Or.inr (by simp [entered, h'])
            · exact Or.inr (by simp only [entered, List.map_cons] at h' ⊢; exact List.mem_cons_of_mem _ h')
        have hd : d ∈ entered G (n :: r) := by
          rcases hlast r _ h2 with h' | h'
          · simp [entered, ← h']
          · simp only [entered, List.map_cons] at h' ⊢; exact List.mem_cons_of_mem _ h'
        simp only [entered, List.map_cons, List.nodup_cons] at hn hd
        exact hn.1 (he ▸ hd)
      rw [if_neg hne]
      simp only [List.mem_flatMap, List.mem_map]
      refine ⟨n, (G.out_src _ _).2 h1, n :: r, ih n _ r (by simp at hf; omega) h2 ?_ ?_, rfl⟩
      · simp only [entered, List.map_cons, List.nodup_cons] at hn ⊢; exact hn.2
      · intro u hu hmem
        simp only [entered, List.map_cons, List.nodup_cons] at hn hu
        rcases List.mem_cons.1 hmem with rfl | hmem
        · exact hn.1 (by simpa using hu)
        · exact hv u (by simp only [entered, List.map_cons]; exact List.mem_cons_of_mem _ hu) hmem

theorem dfs_nodup (d : G.V) (f : Nat) (e : G.E) (vis : List G.V) : (dfs G d f e vis).Nodup := by
  induction f generalizing e vis with
  | zero => simp [dfs]
  | succ f ih =>
    simp only [dfs]
    split
    · simp
    · split
      · simp
      · have : ∀ l : List G.E, l.Nodup →
            (l.flatMap fun n => (dfs G d f n (G.dst e :: vis)).map (e :: ·)).Nodup := by
          intro l
          induction l with
          | nil => simp
          | cons a r ihr =>
            intro hl
            rw [List.nodup_cons] at hl
            rw [List.flatMap_cons, List.nodup_append]
            refine ⟨?_, ihr hl.2, ?_⟩
            · exact List.Pairwise.map _ (fun x y hxy he => hxy (by simpa using he)) (ih a _)
            · intro x hx y hy hxy
              subst hxy
              obtain ⟨q, hq, rfl⟩ := List.mem_map.1 hx
              obtain ⟨n, hn, hy⟩ := List.mem_flatMap.1 hy
              obtain ⟨q', hq', he⟩ := List.mem_map.1 hy
              have : q' = q := by simpa using he
              subst this
              obtain ⟨_, h1, _⟩ := dfs_mem G d f a _ _ hq
              obtain ⟨_, h2, _⟩ := dfs_mem G d f n _ _ hq'
              rw [h1] at h2
              have : a = n := by simpa using (List.cons.inj h2).1
              exact hl.1 (this ▸ hn)
        exact this _ (G.out_nodup _)

/-- **C35 (partial).** With enough fuel (more than the number of vertices), `all_simple_paths` lists, each once, exactly
the paths that enter no vertex twice.  Missing: such a path may return to its source (`all_simple_paths_violated`). -/
theorem all_simple_paths_partial (k : Nat) (hk : Bounded G k) (s d : G.V) :
    (∀ p, p ∈ allSimplePaths G (k + 1) s d ↔ Trail G s d p) ∧ (allSimplePaths G (k + 1) s d).Nodup := by
  constructor
  · intro p
    simp only [allSimplePaths, List.mem_flatMap, Trail]
    constructor
    · rintro ⟨e, he, hp⟩
      obtain ⟨q, rfl, h1, h2, _⟩ := dfs_mem G d _ e _ _ hp
      exact ⟨by simp, ⟨(G.out_src _ _).1 he, h1⟩, h2⟩
    · rintro ⟨h1, h2, h3⟩
      cases p with
      | nil => exact absurd rfl h1
      | cons e q =>
        refine ⟨e, (G.out_src _ _).2 h2.1, dfs_complete G d _ e [] q ?_ h2.2 h3 (by simp)⟩
        have := hk _ h3
        simp [entered] at this
        omega
  · have : ∀ l : List G.E, l.Nodup → (l.flatMap fun e => dfs G d (k + 1) e []).Nodup := by
      intro l
      induction l with
      | nil => simp
      | cons a r ihr =>
        intro hl
        rw [List.nodup_cons] at hl
        rw [List.flatMap_cons, List.nodup_append]
        refine ⟨dfs_nodup G d _ a _, ihr hl.2, ?_⟩
        intro x hx y hy hxy
        subst hxy
        obtain ⟨n, hn, hy⟩ := List.mem_flatMap.1 hy
        obtain ⟨_, h1, _⟩ := dfs_mem G d _ a _ _ hx
        obtain ⟨_, h2, _⟩ := dfs_mem G d _ n _ _ hy
        rw [h1] at h2
        exact hl.1 ((List.cons.inj h2).1 ▸ hn)
    exact this _ (G.out_nodup _)

/-- no path with at least one edge leads from a vertex to itself -/
def Acyclic : Prop := ∀ v p, p ≠ [] → ¬ IsPath G v v p

theorem isPath_prefix (s d : G.V) (p : List G.E) (h : IsPath G s d p) (u : G.V) (hu : u ∈ entered G p) :
    ∃ q, q ≠ [] ∧ IsPath G s u q := by
  induction p generalizing s with
  | nil => simp [entered] at hu
  | cons e r ih =>
    simp only [entered, List.map_cons] at hu
    rcases List.mem_cons.1 hu with rfl | hu
    · exact ⟨[e], by simp, h.1, rfl⟩
    · obtain ⟨q, _, hq⟩ := ih _ h.2 hu
      exact ⟨e :: q, by simp, h.1, hq⟩

/-- **C35 on acyclic graphs** (dataflow graphs are acyclic): `all_simple_paths` lists, each once, exactly the simple paths. -/
theorem all_simple_paths_acyclic (hG : Acyclic G) (k : Nat) (hk : Bounded G k) (s d : G.V) :
    (∀ p, p ∈ allSimplePaths G (k + 1) s d ↔ Simple G s d p) ∧ (allSimplePaths G (k + 1) s d).Nodup := by
  have h := all_simple_paths_partial G k hk s d
  refine ⟨fun p => (h.1 p).trans ?_, h.2⟩
  simp only [Trail, Simple, List.nodup_cons]
  constructor
  · rintro ⟨h1, h2, h3⟩
    refine ⟨h1, h2, fun hs => ?_, h3⟩
    obtain ⟨q, hq, hp⟩ := isPath_prefix G s d p h2 s hs
    exact hG s q hq hp
  · rintro ⟨h1, h2, _, h3⟩; exact ⟨h1, h2, h3⟩

/-- three vertices `0 → 1`, `1 → 0`, `0 → 2`; edges are numbered 0, 1, 2 -/
def exLoop : Digraph where
  V := Fin 3
  E := Fin 3
  src := fun e => if e = 1 then 1 else 0
  dst := fun e => if e = 0 then 1 else if e = 1 then 0 else 2
  out := fun v => if v = 0 then [0, 2] else if v = 1 then [1] else []
  out_src := by decide
  out_nodup := by decide

instance : DecidableEq exLoop.V := inferInstanceAs (DecidableEq (Fin 3))
instance : DecidableEq exLoop.E := inferInstanceAs (DecidableEq (Fin 3))

/-- **C35 is false**: from `0` to `2` the listed path `0 → 1 → 0 → 2` visits its source twice. -/
theorem all_simple_paths_violated :
    ∃ p, p ∈ allSimplePaths exLoop 4 (0 : Fin 3) (2 : Fin 3) ∧ ¬ Simple exLoop (0 : Fin 3) (2 : Fin 3) p := by
  refine ⟨[(0 : Fin 3), (1 : Fin 3), (2 : Fin 3)], by decide, ?_⟩
  rintro ⟨_, _, h⟩
  revert h
  decide

/-- a diamond `0 → 1 → 3`, `0 → 2 → 3` with a double edge `1 → 3`: acyclic, three simple paths -/
def exDiamond : Digraph where
  V := Fin 4
  E := Fin 5
  src := fun e => if e = 0 then 0 else if e = 1 then 0 else if e = 2 then 1 else if e = 3 then 2 else 1
  dst := fun e => if e = 0 then 1 else if e = 1 then 2 else 3
  out := fun v => if v = 0 then [0, 1] else if v = 1 then [2, 4] else if v = 2 then [3] else []
  out_src := by decide
  out_nodup := by decide

instance : DecidableEq exDiamond.V := inferInstanceAs (DecidableEq (Fin 4))

theorem exDiamond_acyclic : Acyclic exDiamond := by
  let num : exDiamond.V → Nat := fun v => Fin.val (n := 4) v
  have hlt : ∀ e : exDiamond.E, num (exDiamond.src e) < num (exDiamond.dst e) := by
    show ∀ e : Fin 5, _; decide
  have : ∀ (p : List exDiamond.E) (a b : exDiamond.V), IsPath exDiamond a b p →
      num a ≤ num b ∧ (p ≠ [] → num a < num b) := by
    intro p
    induction p with
    | nil => intro a b h; exact ⟨Nat.le_of_eq (congrArg num h), fun h => absurd rfl h⟩
    | cons e r ih =>
      intro a b h
      have h1 := (ih _ _ h.2).1
      have h2 := hlt e
      rw [h.1] at h2
      exact ⟨by omega, fun _ => by omega⟩
  intro v p hp h
  exact absurd ((this p v v h).2 hp) (Nat.lt_irrefl _)

/-- the fuel bound is met by the number of vertices -/
theorem bounded_fin (n : Nat) (l : List (Fin n)) (h : l.Nodup) : l.length ≤ n := by
  have h1 := List.Nodup.length_le_card h
  simpa using h1

example : Bounded exDiamond 4 := bounded_fin 4
example : (allSimplePaths exDiamond 5 (0 : Fin 4) (3 : Fin 4)).length = 3 := by decide

end Docc.Graph

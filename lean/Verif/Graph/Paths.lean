/-
Simple paths (sdfg/src/graph/graph.cpp:222-276).
-/
namespace Docc.Graph

/-- graph.h:22 `Graph`: a directed multigraph; an edge has its own identity. `out v` lists the out edges of `v` in
iteration order (each edge once). -/
structure Digraph where
  V : Type
  E : Type
  src : E → V
  dst : E → V
  out : V → List E
  out_src : ∀ v e, e ∈ out v ↔ src e = v
  out_nodup : ∀ v, (out v).Nodup

variable (G : Digraph) [DecidableEq G.V]

/-- graph.cpp:222-258 `all_simple_paths_dfs`: the paths appended to `all_paths`, each as the extension of `current_path`
(which is restored on return, like `visited`).  The recursion is bounded by fuel (out of fuel: no path); it ends by
itself once every vertex is visited. -/
def dfs (v : G.V) : Nat → G.E → List G.V → List (List G.E)
  | 0, _, _ => []
  | f + 1, e, visited =>
    let u := G.dst e
    if u ∈ visited then []
    else if u = v then [[e]]
    else (G.out u).flatMap fun n => (dfs v f n (u :: visited)).map (e :: ·)

/-- graph.cpp:260-276 `all_simple_paths`: the source is not marked as visited. -/
def allSimplePaths (fuel : Nat) (s d : G.V) : List (List G.E) := (G.out s).flatMap fun e => dfs G d fuel e []

end Docc.Graph

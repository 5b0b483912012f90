import Verif.IR.AllocLemmas
import Verif.IR.Alloc

/-!
`EscapeAnalysis` (sdfg/src/analysis/escape_analysis.cpp): which heap blocks stay inside the function, and where they are used last.
-/
namespace Docc.IR
open Docc.Sym

/-- escape_analysis.cpp:47-49: the containers a computation allocates -/
def Stmt.mallocs : Stmt → List String
  | .lib op _ ws => if op == "malloc" then ws else []
  | .tasklet _ _ _ _ => []

/-- a loop of the function and the number of its first vertex -/
abbrev LoopAt := Nat × Node

mutual
/-- escape_analysis.cpp:28-58 `find_containing_loop`, `MallocFinder`: allocated containers, in the order of the visitor, with the innermost
loop around the block (`L`: the innermost loop around the node) -/
def Node.mallocSites (L : Option LoopAt) : Node → Nat → List (String × Option LoopAt)
  | .block l, _ => (l.flatMap Stmt.mallocs).map (·, L)
  | .seq s, k => s.mallocSites L (k + 2)
  | .ifElse b, k => b.mallocSites L (k + 2 + (readsOnce b.condAtoms).length)
  | .whileL s, k => s.mallocSites (some (k, .whileL s)) (k + 4)
  | .loop q i a c u s, k => s.mallocSites (some (k, .loop q i a c u s)) (k + 2 + (initUses i a).length + (condUses c).length + 2)
  | .brk, _ => []
  | .cont, _ => []
  | .ret _ _, _ => []
def Seq.mallocSites (L : Option LoopAt) : Seq → Nat → List (String × Option LoopAt)
  | .nil, _ => []
  | .cons n t r, k => n.mallocSites L k ++ r.mallocSites L (k + n.vn + (transUses t).length)
def Brs.mallocSites (L : Option LoopAt) : Brs → Nat → List (String × Option LoopAt)
  | .nil, _ => []
  | .cons _ s r, k => s.mallocSites L (k + 2) ++ r.mallocSites L (k + 2 + s.kn)
end

mutual
/-- escape_analysis.cpp:155-166: the uses by access nodes and library nodes, with the innermost loop around their block.  (Simplification: symbols of
memlet subsets count as well; an allocated container is a pointer and does not occur there.) -/
def Node.blockUses (L : Option LoopAt) : Node → Nat → List (V × Option LoopAt)
  | .block l, k => (evs (k + 2) (l.flatMap Stmt.users)).map (·, L)
  | .seq s, k => s.blockUses L (k + 2)
  | .ifElse b, k => b.blockUses L (k + 2 + (readsOnce b.condAtoms).length)
  | .whileL s, k => s.blockUses (some (k, .whileL s)) (k + 4)
  | .loop q i a c u s, k => s.blockUses (some (k, .loop q i a c u s)) (k + 2 + (initUses i a).length + (condUses c).length + 2)
  | .brk, _ => []
  | .cont, _ => []
  | .ret _ _, _ => []
def Seq.blockUses (L : Option LoopAt) : Seq → Nat → List (V × Option LoopAt)
  | .nil, _ => []
  | .cons n t r, k => if n.isRet then [] else n.blockUses L k ++ r.blockUses L (k + n.vn + (transUses t).length)
def Brs.blockUses (L : Option LoopAt) : Brs → Nat → List (V × Option LoopAt)
  | .nil, _ => []
  | .cons _ s r, k => s.blockUses L (k + 2) ++ r.blockUses L (k + 2 + s.kn)
end

mutual
/-- escape_analysis.cpp:62-72 `ReturnEscapeChecker`: the containers returned as data -/
def Node.returned : Node → List String
  | .block _ => []
  | .seq s => s.returned
  | .ifElse b => b.returned
  | .whileL s => s.returned
  | .loop _ _ _ _ _ s => s.returned
  | .brk => []
  | .cont => []
  | .ret d q => if q then [] else [d]
def Seq.returned : Seq → List String
  | .nil => []
  | .cons n _ r => n.returned ++ r.returned
def Brs.returned : Brs → List String
  | .nil => []
  | .cons _ s r => s.returned ++ r.returned
end

/-- escape_analysis.cpp:45-58: the recorded allocation of `A`: the one visited last, with the innermost loop around it -/
def Seq.mallocOf (s : Seq) (A : String) : Option (Option LoopAt) := (((s.mallocSites none 2).filter fun p => p.1 == A).getLast?).map (·.2)

/-- escape_analysis.cpp:98-122, 264-270 `escapes`: `A` is allocated, and returned or not a transient (`ext`: arguments and externals).
Not modelled: the second check, uses of `A` by pointer memlets; the model has none. -/
def Escapes (ext : List String) (s : Seq) (A : String) : Prop := (s.mallocOf A).isSome = true ∧ (A ∈ s.returned ∨ A ∈ ext)

/-- escape_analysis.cpp:285-293 `non_escaping_allocations` -/
def NonEscaping (ext : List String) (s : Seq) (A : String) : Prop := (s.mallocOf A).isSome = true ∧ ¬ Escapes ext s A

/-- users.cpp:946-978 `UsersView::all_uses_after`: the uses reached from `a`; the search does not go on behind the last vertex of the node -/
def ViewAfter (G : List (V × V)) (exit a b : V) : Prop := a ≠ b ∧ ∃ p, Path G (a :: p) ∧ (a :: p).getLast? = some b ∧ exit ∉ (a :: p).dropLast

/-- escape_analysis.cpp:133-151, 219-236: a use in the view of a loop with no later one of the same container in the view -/
def LastInView (C : Brs → Bool) (s : Seq) (A : String) (m : LoopAt) (v : V) : Prop :=
  v ∈ s.allUses ∧ v.of A = true ∧ InView (s.graph C) (m.2.first m.1) (m.2.exit m.1) v ∧
    ∀ b, b.of A = true → ¬ ViewAfter (s.graph C) (m.2.exit m.1) v b

/-- escape_analysis.cpp:170-216: a use by a block outside all loops with no later one of this kind -/
def LastOutside (C : Brs → Bool) (s : Seq) (A : String) (v : V) : Prop :=
  (v, none) ∈ s.blockUses none 2 ∧ v.of A = true ∧ ∀ b, b.of A = true → UsedAfter (s.graph C) v b → (b, none) ∉ s.blockUses none 2

/-- escape_analysis.cpp:238-252: a use with no later one of the same container -/
def LastOfAll (C : Brs → Bool) (s : Seq) (A : String) (v : V) : Prop :=
  v ∈ s.allUses ∧ v.of A = true ∧ ∀ b, b.of A = true → ¬ UsedAfter (s.graph C) v b

/-- some block inside a loop uses `A` -/
def Seq.loopUse (s : Seq) (A : String) : Bool := (s.blockUses none 2).any fun p => p.1.of A && p.2.isSome

/-- escape_analysis.cpp:124-258 `last_use`: `v` may be reported for `A`.  A relation: the uses are tried in the order of a vector that
other analyses fill, and the loop of the fallback is any that contains a use. -/
def LastUse (C : Brs → Bool) (ext : List String) (s : Seq) (A : String) (v : V) : Prop :=
  NonEscaping ext s A ∧ match s.mallocOf A with
    | none => False
    | some (some m) => LastInView C s A m v
    | some none =>
      if s.loopUse A then LastOutside C s A v ∨ ((∀ w, ¬ LastOutside C s A w) ∧ ∃ w m, (w, some m) ∈ s.blockUses none 2 ∧ w.of A = true ∧ LastInView C s A m v)
      else LastOfAll C s A v

end Docc.IR

import Verif.IR.BlockSort

/-
Sorting blocks preserves the program, permutes the children of each sequence, and leaves no block that could be moved further down.
-/
namespace Docc.IR
open Docc.Sym

/-- Library nodes that access containers without memlets report side effects and are none of the kinds the pass trusts. -/
def SortEnv.Honest (P : SortEnv) : Prop := ∀ op, P.hidden op ≠ [] → P.kind op = .other ∧ P.side op = true

theorem Seq.ofKids_kids : ∀ s : Seq, Seq.ofKids s.kids = s
  | .nil => rfl
  | .cons n t r => by rw [Seq.kids, Seq.ofKids, Seq.ofKids_kids r]

theorem Seq.kids_ofKids : ∀ l : List Kid, (Seq.ofKids l).kids = l
  | [] => rfl
  | (n, t) :: r => by rw [Seq.ofKids, Seq.kids, Seq.kids_ofKids r]

theorem Seq.ofKids_append : ∀ a b : List Kid, Seq.ofKids (a ++ b) = Seq.ofKids a ++ Seq.ofKids b
  | [], b => by rw [List.nil_append, Seq.ofKids, Seq.nil_append]
  | (n, t) :: r, b => by rw [List.cons_append, Seq.ofKids, Seq.ofKids, Seq.cons_append, Seq.ofKids_append r b]

theorem stmt_block_commute (E : Env) (s : Stmt) : ∀ (l : List Stmt) (σ : St), (∀ t ∈ l, ¬ s.Conflict t) →
    runBlock E l (s.run E σ) = s.run E (runBlock E l σ)
  | [], _, _ => rfl
  | t :: r, σ, h => by
    show runBlock E r (t.run E (s.run E σ)) = s.run E (runBlock E r (t.run E σ))
    rw [← Stmt.commute E (h t (by simp)) σ, stmt_block_commute E s r _ fun u hu => h u (by simp [hu])]

theorem blocks_commute (E : Env) (c : List Stmt) : ∀ (n : List Stmt) (σ : St), (∀ s ∈ n, ∀ t ∈ c, ¬ s.Conflict t) →
    runBlock E n (runBlock E c σ) = runBlock E c (runBlock E n σ)
  | [], _, _ => rfl
  | s :: r, σ, h => by
    show runBlock E r (s.run E (runBlock E c σ)) = runBlock E c (runBlock E r (s.run E σ))
    rw [← stmt_block_commute E s c σ fun t ht => h s (by simp) t ht, blocks_commute E c r _ fun u hu => h u (by simp [hu])]

theorem seen_of_use (P : SortEnv) {s : Stmt} (h : ∀ op r w, s = .lib op r w → P.hidden op = []) {y : String}
    (hy : reads s.users y ∨ writes s.users y) : y ∈ P.seen s := by
  cases s with
  | tasklet op ins out sub =>
    simp only [SortEnv.seen, List.mem_map]
    rcases hy with hy | hy
    · exact ⟨_, hy, rfl⟩
    · exact ⟨_, hy, rfl⟩
  | lib op r w =>
    simp only [SortEnv.seen, h op r w rfl]
    rcases hy with hy | hy
    · simp only [reads, Stmt.users, readsOf, List.mem_append, List.mem_map] at hy
      rcases hy with ⟨x, hx, e⟩ | ⟨x, hx, e⟩
      · cases e; simp [hx]
      · cases e
    · simp only [writes, Stmt.users, readsOf, List.mem_append, List.mem_map] at hy
      rcases hy with ⟨x, hx, e⟩ | ⟨x, hx, e⟩
      · cases e
      · cases e; simp [hx]

/-- the libraries of a block have no hidden accesses -/
def SortEnv.Open (P : SortEnv) (l : List Stmt) : Prop := ∀ op r w, Stmt.lib op r w ∈ l → P.hidden op = []

theorem apart_commute {P : SortEnv} {c n : List Stmt} (hc : P.Open c) (hn : P.Open n) (hs : P.shared c n = false) (E : Env) (σ : St) :
    runBlock E n (runBlock E c σ) = runBlock E c (runBlock E n σ) := by
  refine blocks_commute E c n σ fun s hs' t ht hcf => ?_
  obtain ⟨y, hy⟩ := hcf
  have h1 : reads s.users y ∨ writes s.users y := by
    rcases hy with ⟨h, _⟩ | ⟨h, _⟩
    · exact .inr h
    · exact .inl h
  have h2 : reads t.users y ∨ writes t.users y := by
    rcases hy with ⟨_, h⟩ | ⟨_, h⟩
    · exact h
    · exact .inr h
  have k1 := seen_of_use P (fun op r w e => hn op r w (e ▸ hs')) h1
  have k2 := seen_of_use P (fun op r w e => hc op r w (e ▸ ht)) h2
  have : P.shared c n = true := by
    simp only [SortEnv.shared, List.any_eq_true, List.mem_flatMap, List.contains_iff_mem]
    exact ⟨y, ⟨s, hs', k1⟩, t, ht, k2⟩
  rw [hs] at this; cases this

theorem open_of_effects {P : SortEnv} (hP : P.Honest) {c : List Stmt} (h : P.effects c = false) : P.Open c := by
  intro op r w hm
  refine Classical.byContradiction fun hh => ?_
  have := hP op hh
  have h2 : P.effects c = true := by
    simp only [SortEnv.effects, List.any_eq_true]
    exact ⟨_, hm, by simp [SortEnv.white, this.1, this.2]⟩
  rw [h] at h2; cases h2

theorem open_of_kind {P : SortEnv} (hP : P.Honest) {op : String} {r w : List String} (h : P.kind op ≠ .other) : P.Open [.lib op r w] := by
  intro op' r' w' hm
  simp only [List.mem_singleton, Stmt.lib.injEq] at hm
  rw [hm.1]
  exact Classical.byContradiction fun hh => h (hP op hh).1

theorem open_of_up {P : SortEnv} (hP : P.Honest) {n : List Stmt} (h : P.canUp n = true) : P.Open n := by
  simp only [SortEnv.canUp, Bool.or_eq_true] at h
  rcases h with h | h
  · unfold isRefBlock at h
    split at h
    · intro op r w hm; simp at hm
    · cases h
  · split at h
    · rename_i op r w
      refine open_of_kind hP fun e => ?_
      rw [e] at h; cases h
    · cases h

theorem open_of_down {P : SortEnv} (hP : P.Honest) {n : List Stmt} (h : P.canDown n = true) : P.Open n := by
  unfold SortEnv.canDown at h
  split at h
  · rename_i op r w
    refine open_of_kind hP fun e => ?_
    rw [e] at h; cases h
  · cases h

/-- two neighbouring blocks without assignments that have the same effect in either order change places -/
inductive Exchanged : List Kid → List Kid → Prop
  | mk (p q : List Kid) (c n : List Stmt) : (∀ E σ, runBlock E n (runBlock E c σ) = runBlock E c (runBlock E n σ)) →
    Exchanged (p ++ (.block c, []) :: (.block n, []) :: q) (p ++ (.block n, []) :: (.block c, []) :: q)

/-- any number of exchanges -/
inductive Sorted : List Kid → List Kid → Prop
  | refl (l : List Kid) : Sorted l l
  | step {a b c : List Kid} : Exchanged a b → Sorted b c → Sorted a c

theorem Sorted.trans {a b c : List Kid} (h : Sorted a b) (k : Sorted b c) : Sorted a c := by
  induction h with
  | refl => exact k
  | step h1 _ ih => exact .step h1 (ih k)

theorem Sorted.perm {a b : List Kid} (h : Sorted a b) : a.Perm b := by
  induction h with
  | refl => exact .refl _
  | step h1 _ ih =>
    refine .trans ?_ ih
    cases h1 with
    | mk p q c n _ => exact .append_left _ (.swap ..)

theorem Exchanged.den {a b : List Kid} (h : Exchanged a b) (E : Env) : (Seq.ofKids a).den E = (Seq.ofKids b).den E := by
  cases h with
  | mk p q c n hcn =>
    rw [Seq.ofKids_append, Seq.ofKids_append, Seq.den_append, Seq.den_append]
    congr 1
    simp only [Seq.ofKids, Seq.den, Node.den, Rel.upd_seq]
    funext σ
    show (Seq.ofKids q).den E (runBlock E n (runBlock E c σ)) = (Seq.ofKids q).den E (runBlock E c (runBlock E n σ))
    rw [hcn]

theorem Sorted.den {a b : List Kid} (h : Sorted a b) (E : Env) : (Seq.ofKids a).den E = (Seq.ofKids b).den E := by
  induction h with
  | refl => rfl
  | step h1 _ ih => rw [h1.den E, ih]

theorem split_two {cs : List Kid} {k : Nat} {x y : Kid} (hx : cs[k]? = some x) (hy : cs[k + 1]? = some y) :
    ∃ p q, p.length = k ∧ cs = p ++ x :: y :: q := by
  obtain ⟨hk, rfl⟩ := List.getElem?_eq_some_iff.mp hx
  obtain ⟨hk', rfl⟩ := List.getElem?_eq_some_iff.mp hy
  refine ⟨cs.take k, cs.drop (k + 2), by simp; omega, ?_⟩
  rw [← List.drop_eq_getElem_cons hk', ← List.drop_eq_getElem_cons hk, List.take_append_drop]

theorem insertIdx_append (x : Kid) (r : List Kid) (j : Nat) : ∀ p : List Kid, (p ++ r).insertIdx (p.length + j) x = p ++ r.insertIdx j x
  | [] => by simp
  | a :: p => by
    have : (a :: p).length + j = (p.length + j) + 1 := by simp; omega
    rw [this, List.cons_append, List.insertIdx_succ_cons, insertIdx_append x r j p, List.cons_append]

theorem move_up (p q : List Kid) (x y : Kid) : moveKid (p ++ x :: y :: q) (p.length + 1) p.length = p ++ y :: x :: q := by
  have h : (p ++ x :: y :: q)[p.length + 1]? = some y := by simp
  unfold moveKid
  rw [h]
  simp only
  rw [List.eraseIdx_append_of_length_le (by omega)]
  simpa using insertIdx_append y (x :: q) 0 p

theorem move_down (p q : List Kid) (x y : Kid) : moveKid (p ++ x :: y :: q) p.length (p.length + 1) = p ++ y :: x :: q := by
  have h : (p ++ x :: y :: q)[p.length]? = some x := by simp
  unfold moveKid
  rw [h]
  simp only
  rw [List.eraseIdx_append_of_length_le (by omega)]
  simpa using insertIdx_append x (y :: q) 1 p

theorem mayPass_blocks {P : SortEnv} {can : List Stmt → Bool} {c n : Kid} (h : P.mayPass can c n = true) :
    ∃ l m, c = (.block l, []) ∧ n = (.block m, []) ∧ P.effects l = false ∧ P.shared l m = false ∧ can m = true ∧ P.higher l m = true := by
  unfold SortEnv.mayPass at h
  split at h
  · rename_i l m
    simp only [Bool.and_eq_true, Bool.not_eq_true'] at h
    exact ⟨l, m, rfl, rfl, h.1.1.1, h.1.1.2, h.1.2, h.2⟩
  · cases h

/-- what a move up does -/
theorem bubbleUp_some {P : SortEnv} {cs cs' : List Kid} {k : Nat} (h : P.bubbleUp cs k = some cs') :
    ∃ p q c n, p.length = k ∧ cs = p ++ c :: n :: q ∧ cs' = p ++ n :: c :: q ∧ P.mayPass P.canUp c n = true := by
  unfold SortEnv.bubbleUp at h
  split at h
  · rename_i c n hc hn
    split at h
    · rename_i hm
      cases h
      obtain ⟨p, q, rfl, rfl⟩ := split_two hc hn
      exact ⟨p, q, c, n, rfl, rfl, move_up .., hm⟩
    · cases h
  · cases h

/-- what a move down does -/
theorem bubbleDown_some {P : SortEnv} {cs cs' : List Kid} {k : Nat} (h : P.bubbleDown cs k = some cs') :
    ∃ p q c n, p.length = k ∧ cs = p ++ n :: c :: q ∧ cs' = p ++ c :: n :: q ∧ P.mayPass P.canDown c n = true := by
  unfold SortEnv.bubbleDown at h
  split at h
  · rename_i c n hc hn
    split at h
    · rename_i hm
      cases h
      obtain ⟨p, q, rfl, rfl⟩ := split_two hn hc
      exact ⟨p, q, c, n, rfl, rfl, move_down .., hm⟩
    · cases h
  · cases h

theorem bubbleUp_exchanged {P : SortEnv} (hP : P.Honest) {cs cs' : List Kid} {k : Nat} (h : P.bubbleUp cs k = some cs') : Exchanged cs cs' := by
  obtain ⟨p, q, c, n, _, rfl, rfl, hm⟩ := bubbleUp_some h
  obtain ⟨l, m, rfl, rfl, h1, h2, h3, _⟩ := mayPass_blocks hm
  exact .mk p q l m (apart_commute (open_of_effects hP h1) (open_of_up hP h3) h2)

theorem bubbleDown_exchanged {P : SortEnv} (hP : P.Honest) {cs cs' : List Kid} {k : Nat} (h : P.bubbleDown cs k = some cs') : Exchanged cs cs' := by
  obtain ⟨p, q, c, n, _, rfl, rfl, hm⟩ := bubbleDown_some h
  obtain ⟨l, m, rfl, rfl, h1, h2, h3, _⟩ := mayPass_blocks hm
  exact .mk p q m l fun E σ => (apart_commute (open_of_effects hP h1) (open_of_down hP h3) h2 E σ).symm

theorem upAt_sorted {P : SortEnv} (hP : P.Honest) : ∀ (k : Nat) (cs : List Kid), Sorted cs (P.upAt cs k).1
  | 0, cs => by
    unfold SortEnv.upAt
    split
    · rename_i h; exact .step (bubbleUp_exchanged hP h) (.refl _)
    · exact .refl _
  | k + 1, cs => by
    unfold SortEnv.upAt
    split
    · rename_i h; exact .step (bubbleUp_exchanged hP h) (upAt_sorted hP k _)
    · exact .refl _

theorem ups_sorted {P : SortEnv} (hP : P.Honest) : ∀ (f i : Nat) (cs : List Kid), Sorted cs (P.ups f i cs).2.1
  | 0, _, cs => .refl _
  | f + 1, i, cs => by
    unfold SortEnv.ups
    split
    · exact .refl _
    · split
      · exact .refl _
      · split
        · exact .refl _
        · exact (upAt_sorted hP i cs).trans (ups_sorted hP f (i + 1) _)

theorem downAt_sorted {P : SortEnv} (hP : P.Honest) : ∀ (f : Nat) (cs : List Kid) (k : Nat), Sorted cs (P.downAt f cs k).1
  | 0, cs, _ => .refl _
  | f + 1, cs, k => by
    unfold SortEnv.downAt
    split
    · rename_i h; exact .step (bubbleDown_exchanged hP h) (downAt_sorted hP f _ _)
    · exact .refl _

theorem downs_sorted {P : SortEnv} (hP : P.Honest) (i : Nat) : ∀ (j : Nat) (cs : List Kid), Sorted cs (P.downs i j cs).1
  | 0, cs => .refl _
  | j + 1, cs => by
    unfold SortEnv.downs
    exact (downAt_sorted hP _ cs j).trans (downs_sorted hP i j _)

theorem kids_sorted {P : SortEnv} (hP : P.Honest) (cs : List Kid) : Sorted cs (P.kids cs).1 := by
  unfold SortEnv.kids
  exact (ups_sorted hP _ _ cs).trans (downs_sorted hP _ _ _)

theorem kids_den {P : SortEnv} (hP : P.Honest) (s : Seq) (E : Env) : (Seq.ofKids (P.kids s.kids).1).den E = s.den E := by
  rw [← (kids_sorted hP s.kids).den E, Seq.ofKids_kids]

mutual
theorem Node.sort_den {P : SortEnv} (hP : P.Honest) (E : Env) : ∀ n : Node, ((n.sort P).1).den E = n.den E
  | .seq s => by rw [Node.sort, Node.den, Node.den, kids_den hP, s.inner_den hP E]
  | .whileL s => by rw [Node.sort, Node.den, Node.den, kids_den hP, s.inner_den hP E]
  | .loop m i a c u s => by rw [Node.sort, Node.den, Node.den, kids_den hP, s.inner_den hP E]
  | .ifElse b => by rw [Node.sort, Node.den, Node.den, b.sort_den hP E]
  | .block l => by rw [Node.sort]
  | .brk => by rw [Node.sort]
  | .cont => by rw [Node.sort]
  | .ret d q => by rw [Node.sort]
theorem Seq.inner_den {P : SortEnv} (hP : P.Honest) (E : Env) : ∀ s : Seq, ((s.inner P).1).den E = s.den E
  | .nil => by rw [Seq.inner]
  | .cons n t r => by
    rw [Seq.inner]
    split
    · rfl
    · rw [Seq.den, Seq.den, n.sort_den hP E, r.inner_den hP E]
theorem Brs.sort_den {P : SortEnv} (hP : P.Honest) (E : Env) : ∀ b : Brs, ((b.sort P).1).den E = b.den E
  | .nil => by rw [Brs.sort]
  | .cons c s r => by rw [Brs.sort, Brs.den, Brs.den, kids_den hP, s.inner_den hP E, r.sort_den hP E]
end

/-- **C98** (partial): sorting the blocks leaves every execution of the program as it was: from every state the same outcome and the same
final state.  Missing: containers that share memory, see `aliased_violated`. -/
theorem block_sort_partial {P : SortEnv} (hP : P.Honest) (s : Seq) (E : Env) (σ : St) (c : Ctl) (σ' : St) :
    (s.sort P).1.den E σ c σ' ↔ s.den E σ c σ' := by
  rw [Seq.sort, kids_den hP, s.inner_den hP E]

theorem sorted_stays {cs ds : List Kid} (h : Sorted cs ds) (k : Nat) (n : Node) (t : Trans) (hn : ∀ l, n ≠ .block l) :
    cs[k]? = some (n, t) ↔ ds[k]? = some (n, t) := by
  induction h with
  | refl => exact Iff.rfl
  | step h1 _ ih =>
    refine Iff.trans ?_ ih
    clear ih
    cases h1 with
    | mk p q c m _ =>
      by_cases hk : k < p.length
      · rw [List.getElem?_append_left hk, List.getElem?_append_left hk]
      · rw [List.getElem?_append_right (by omega), List.getElem?_append_right (by omega)]
        match hj : k - p.length with
        | 0 =>
          simp only [List.getElem?_cons_zero, Option.some.injEq, Prod.mk.injEq]
          exact ⟨fun e => absurd e.1.symm (hn c), fun e => absurd e.1.symm (hn m)⟩
        | 1 =>
          simp only [List.getElem?_cons_succ, List.getElem?_cons_zero, Option.some.injEq, Prod.mk.injEq]
          exact ⟨fun e => absurd e.1.symm (hn m), fun e => absurd e.1.symm (hn c)⟩
        | j + 2 => simp

/-- **C98**: the children of a sequence are the same afterwards, in another order; those that are no blocks stay where they are. -/
theorem block_sort_perm {P : SortEnv} (hP : P.Honest) (cs : List Kid) : cs.Perm (P.kids cs).1 ∧
    ∀ (k : Nat) (n : Node) (t : Trans), (∀ l, n ≠ .block l) → (cs[k]? = some (n, t) ↔ (P.kids cs).1[k]? = some (n, t)) :=
  ⟨(kids_sorted hP cs).perm, sorted_stays (kids_sorted hP cs)⟩

theorem upAt_flag {P : SortEnv} : ∀ (k : Nat) (cs : List Kid), (P.upAt cs k).2 = false → (P.upAt cs k).1 = cs
  | 0, cs => by
    unfold SortEnv.upAt
    split
    · intro h; cases h
    · intro _; rfl
  | k + 1, cs => by
    unfold SortEnv.upAt
    split
    · intro h; cases h
    · intro _; rfl

theorem ups_flag {P : SortEnv} : ∀ (f i : Nat) (cs : List Kid), (P.ups f i cs).2.2 = false → (P.ups f i cs).2.1 = cs
  | 0, _, cs => fun _ => rfl
  | f + 1, i, cs => by
    unfold SortEnv.ups
    split
    · intro _; rfl
    · split
      · intro _; rfl
      · split
        · intro _; rfl
        · intro h
          simp only [Bool.or_eq_false_iff] at h
          show (P.ups f (i + 1) (P.upAt cs i).1).2.1 = cs
          rw [ups_flag f (i + 1) _ h.2, upAt_flag i cs h.1]

theorem downAt_flag {P : SortEnv} : ∀ (f : Nat) (cs : List Kid) (k : Nat), (P.downAt f cs k).2 = false → (P.downAt f cs k).1 = cs
  | 0, cs, _ => fun _ => rfl
  | f + 1, cs, k => by
    unfold SortEnv.downAt
    split
    · intro h; cases h
    · intro _; rfl

theorem downs_flag {P : SortEnv} (i : Nat) : ∀ (j : Nat) (cs : List Kid), (P.downs i j cs).2 = false → (P.downs i j cs).1 = cs
  | 0, cs => fun _ => rfl
  | j + 1, cs => by
    unfold SortEnv.downs
    intro h
    simp only [Bool.or_eq_false_iff] at h
    show (P.downs i j (P.downAt (i - j) cs j).1).1 = cs
    rw [downs_flag i j _ h.2, downAt_flag _ cs j h.1]

theorem kids_flag {P : SortEnv} {cs : List Kid} (h : (P.kids cs).2 = false) : (P.kids cs).1 = cs := by
  unfold SortEnv.kids at h ⊢
  simp only [Bool.or_eq_false_iff] at h
  show (P.downs _ _ _).1 = cs
  rw [downs_flag _ _ _ h.2, ups_flag _ _ _ h.1]

theorem kids_same {P : SortEnv} {s : Seq} (h : (P.kids s.kids).2 = false) : Seq.ofKids (P.kids s.kids).1 = s := by
  rw [kids_flag h, Seq.ofKids_kids]

mutual
theorem Node.sort_flag {P : SortEnv} : ∀ n : Node, (n.sort P).2 = false → (n.sort P).1 = n
  | .seq s, h => by
    rw [Node.sort, Bool.or_eq_false_iff] at h
    rw [Node.sort, kids_same h.2, s.inner_flag h.1]
  | .whileL s, h => by
    rw [Node.sort, Bool.or_eq_false_iff] at h
    rw [Node.sort, kids_same h.2, s.inner_flag h.1]
  | .loop m i a c u s, h => by
    rw [Node.sort, Bool.or_eq_false_iff] at h
    rw [Node.sort, kids_same h.2, s.inner_flag h.1]
  | .ifElse b, h => by
    rw [Node.sort] at h
    rw [Node.sort, b.sort_flag h]
  | .block l, _ => by rw [Node.sort]
  | .brk, _ => by rw [Node.sort]
  | .cont, _ => by rw [Node.sort]
  | .ret d q, _ => by rw [Node.sort]
theorem Seq.inner_flag {P : SortEnv} : ∀ s : Seq, (s.inner P).2 = false → (s.inner P).1 = s
  | .nil, _ => by rw [Seq.inner]
  | .cons n t r, h => by
    rw [Seq.inner] at h ⊢
    split at h
    · rename_i hj; rw [if_pos hj]
    · rename_i hj
      rw [if_neg hj]
      simp only [Bool.or_eq_false_iff] at h
      rw [n.sort_flag h.1, r.inner_flag h.2]
theorem Brs.sort_flag {P : SortEnv} : ∀ b : Brs, (b.sort P).2 = false → (b.sort P).1 = b
  | .nil, _ => by rw [Brs.sort]
  | .cons c s r, h => by
    rw [Brs.sort, Bool.or_eq_false_iff, Bool.or_eq_false_iff] at h
    rw [Brs.sort, kids_same h.1.2, s.inner_flag h.1.1, r.sort_flag h.2]
end

/-- **C98**: a run that reports that nothing was done leaves the program untouched. -/
theorem block_sort_reports {P : SortEnv} {s : Seq} (h : (s.sort P).2 = false) : (s.sort P).1 = s := by
  rw [Seq.sort, Bool.or_eq_false_iff] at h
  rw [Seq.sort, kids_same h.2, s.inner_flag h.1]

end Docc.IR

import Verif.IR.UGraphPostProps

/-
`UsersView` (sdfg/src/analysis/users.cpp:749-782): the uses inside a node.
-/
namespace Docc.IR
open Docc.Sym

/-- users.cpp:749-782: the vertices of a view: those from which the last vertex of the node can be reached without passing the first -/
def InView (G : List (V × V)) (entry exit v : V) : Prop := ∃ p, Path G (v :: p) ∧ (v :: p).getLast? = some exit ∧ entry ∉ v :: p

mutual
/-- `m`, numbered from `j`, occurs in the node, numbered from `k`.  The bodies of loops and the cases of an if-else are sequences of their
own; what follows a `Return` is not part of the graph, and the `Return` itself is not considered. -/
def Node.Has (m : Node) (j : Nat) : Node → Nat → Prop
  | .block l, k => m = .block l ∧ j = k
  | .seq s, k => (m = .seq s ∧ j = k) ∨ s.Has m j (k + 2)
  | .ifElse b, k => (m = .ifElse b ∧ j = k) ∨ b.Has m j (k + 2 + (readsOnce b.condAtoms).length)
  | .whileL s, k => (m = .whileL s ∧ j = k) ∨ (m = .seq s ∧ j = k + 2) ∨ s.Has m j (k + 4)
  | .loop q i a c u s, k => (m = .loop q i a c u s ∧ j = k) ∨ (m = .seq s ∧ j = k + 2 + (initUses i a).length + (condUses c).length) ∨
      s.Has m j (k + 2 + (initUses i a).length + (condUses c).length + 2)
  | .brk, k => m = .brk ∧ j = k
  | .cont, k => m = .cont ∧ j = k
  | .ret _ _, _ => False
def Seq.Has (m : Node) (j : Nat) : Seq → Nat → Prop
  | .nil, _ => False
  | .cons n t r, k => n.isRet = false ∧ (Node.Has m j n k ∨ r.Has m j (k + n.vn + (transUses t).length))
def Brs.Has (m : Node) (j : Nat) : Brs → Nat → Prop
  | .nil, _ => False
  | .cons _ s r, k => (m = .seq s ∧ j = k) ∨ s.Has m j (k + 2) ∨ r.Has m j (k + 2 + s.kn)
end

/-- the node `m`, numbered from `j`, occurs in the function -/
def Seq.Contains (s : Seq) (m : Node) (j : Nat) : Prop := Node.Has m j (.seq s) 0

/-! ### nothing else is listed -/

theorem chainE_tgt : ∀ (us : List V) (a : V), ∀ e ∈ chainE a us, e.2 ∈ us
  | [], _, e, h => by simp [chainE] at h
  | v :: r, a, e, h => by
    rw [chainE] at h
    rcases List.mem_cons.mp h with rfl | h
    · simp
    · exact List.mem_cons_of_mem _ (chainE_tgt r v e h)

mutual
theorem Node.tgt (C : Brs → Bool) : (n : Node) → ∀ k, ∀ e ∈ n.ge C k, k ≤ e.2.id ∧ e.2.id < k + n.vn
  | .block l, k, e, h => by
    rw [Node.ge] at h; rw [Node.vn]
    rcases List.mem_append.mp (chainE_tgt _ _ e h) with h | h
    · have := evs_id h; omega
    · simp only [List.mem_singleton] at h; rw [h]; simp only [V.id_nop]; omega
  | .seq s, k, e, h => by
    rw [Node.ge] at h; rw [Node.vn]
    rcases Seq.tgt C s _ _ _ e h with h | h
    · rw [h]; simp only [V.id_nop]; omega
    · omega
  | .ifElse b, k, e, h => by
    rw [Node.ge, evs_length] at h; rw [Node.vn]
    rcases List.mem_append.mp h with h | h
    · rcases List.mem_append.mp h with h | h
      · have := evs_id (chainE_tgt _ _ e h); omega
      · rcases Brs.tgt C b _ _ _ e h with h | h
        · rw [h]; simp only [V.id_nop]; omega
        · omega
    · split at h
      · cases h
      · simp only [List.mem_singleton] at h; subst h; simp only [V.id_nop]; omega
  | .whileL s, k, e, h => by
    rw [Node.ge] at h; rw [Node.vn]
    rcases List.mem_cons.mp h with rfl | h
    · simp only [V.id_nop]; omega
    · rcases List.mem_append.mp h with h | h
      · rcases Seq.tgt C s _ _ _ e h with h | h
        · rw [h]; simp only [V.id_nop]; omega
        · omega
      · simp only [List.mem_cons, List.not_mem_nil, or_false] at h
        rcases h with rfl | rfl | rfl <;> simp only [V.id_nop] <;> omega
  | .loop m i init cond upd s, k, e, h => by
    rw [Node.ge] at h; rw [Node.vn]
    simp only [evs_length] at h
    have h0 : k ≤ (chainEnd (.nop k) (evs (k + 2) (initUses i init))).id ∧
        (chainEnd (.nop k) (evs (k + 2) (initUses i init))).id < k + 2 + (initUses i init).length := by
      rcases chainEnd_id (initUses i init) (k + 2) (.nop k) with h0 | h0
      · rw [h0]; simp only [V.id_nop]; omega
      · omega
    have h1 : k ≤ (chainEnd (chainEnd (.nop k) (evs (k + 2) (initUses i init))) (evs (k + 2 + (initUses i init).length) (condUses cond))).id ∧
        (chainEnd (chainEnd (.nop k) (evs (k + 2) (initUses i init))) (evs (k + 2 + (initUses i init).length) (condUses cond))).id <
          k + 2 + (initUses i init).length + (condUses cond).length := by
      rcases chainEnd_id (condUses cond) (k + 2 + (initUses i init).length) (chainEnd (.nop k) (evs (k + 2) (initUses i init))) with h1 | h1
      · rw [h1]; omega
      · omega
    rcases List.mem_append.mp h with h | h
    · rcases List.mem_append.mp h with h | h
      · rcases List.mem_append.mp h with h | h
        · have := evs_id (chainE_tgt _ _ e h); omega
        · have := evs_id (chainE_tgt _ _ e h); omega
      · obtain ⟨v, hv, rfl⟩ := List.mem_map.mp h
        simp only [V.id_nop]; omega
    · rcases List.mem_cons.mp h with rfl | h
      · simp only [V.id_nop]; omega
      · rcases List.mem_append.mp h with h | h
        · rcases List.mem_append.mp h with h | h
          · rcases Seq.tgt C s _ _ _ e h with h | h
            · rw [h]; simp only [V.id_nop]; omega
            · omega
          · rcases List.mem_append.mp (chainE_tgt _ _ e h) with h | h
            · have := evs_id h; omega
            · simp only [List.mem_singleton] at h; rw [h]; simp only [V.id_nop]; omega
        · simp only [List.mem_singleton] at h; subst h
          dsimp only; omega
  | .brk, _, e, h => by simp [Node.ge] at h
  | .cont, _, e, h => by simp [Node.ge] at h
  | .ret _ _, _, e, h => by simp [Node.ge] at h
theorem Seq.tgt (C : Brs → Bool) : (s : Seq) → ∀ cur t k, ∀ e ∈ s.ge C cur t k, e.2 = t ∨ (k ≤ e.2.id ∧ e.2.id < k + s.kn)
  | .nil, cur, t, k, e, h => by rw [Seq.ge] at h; simp only [List.mem_singleton] at h; subst h; exact Or.inl rfl
  | .cons n tr r, cur, t, k, e, h => by
    have hv := vn_pos n
    rw [Seq.ge] at h; rw [Seq.kn]
    split at h
    · simp only [List.mem_cons, List.not_mem_nil, or_false] at h
      rcases h with rfl | rfl
      · right; rw [first_id]; omega
      · exact Or.inl rfl
    · dsimp only at h
      rw [evs_length] at h
      rcases List.mem_cons.mp h with rfl | h
      · right; rw [first_id]; omega
      · rcases List.mem_append.mp h with h | h
        · right
          rcases List.mem_append.mp h with h | h
          · have := Node.tgt C n k e h; omega
          · have := evs_id (chainE_tgt _ _ e h); omega
        · rcases Seq.tgt C r _ _ _ e h with h | h
          · exact Or.inl h
          · right; omega
theorem Brs.tgt (C : Brs → Bool) : (b : Brs) → ∀ last t k, ∀ e ∈ b.ge C last t k, e.2 = t ∨ (k ≤ e.2.id ∧ e.2.id < k + b.vn)
  | .nil, _, _, _, e, h => by simp [Brs.ge] at h
  | .cons c s r, last, t, k, e, h => by
    rw [Brs.ge] at h; rw [Brs.vn]
    rcases List.mem_cons.mp h with rfl | h
    · right; simp only [V.id_nop]; omega
    · rcases List.mem_append.mp h with h | h
      · right
        rcases Seq.tgt C s _ _ _ e h with h | h
        · rw [h]; simp only [V.id_nop]; omega
        · omega
      · rcases List.mem_cons.mp h with rfl | h
        · exact Or.inl rfl
        · rcases Brs.tgt C r _ _ _ e h with h | h
          · exact Or.inl h
          · right; omega
end

mutual
theorem Node.has_id {m : Node} {j : Nat} : (n : Node) → ∀ k, Node.Has m j n k → k ≤ j ∧ j + m.vn ≤ k + n.vn
  | .block l, k, h => by rw [Node.Has] at h; obtain ⟨rfl, rfl⟩ := h; omega
  | .seq s, k, h => by
    rw [Node.Has] at h
    rcases h with ⟨rfl, rfl⟩ | h
    · omega
    · have := Seq.has_id s _ h; rw [Node.vn.eq_def (.seq s)]; dsimp only; omega
  | .ifElse b, k, h => by
    rw [Node.Has] at h
    rcases h with ⟨rfl, rfl⟩ | h
    · omega
    · have := Brs.has_id b _ h; rw [Node.vn.eq_def (.ifElse b)]; dsimp only; omega
  | .whileL s, k, h => by
    rw [Node.Has] at h
    rcases h with ⟨rfl, rfl⟩ | ⟨rfl, rfl⟩ | h
    · omega
    · rw [Node.vn.eq_def (.whileL s), Node.vn.eq_def (.seq s)]; dsimp only; omega
    · have := Seq.has_id s _ h; rw [Node.vn.eq_def (.whileL s)]; dsimp only; omega
  | .loop q i a c u s, k, h => by
    rw [Node.Has] at h
    rcases h with ⟨rfl, rfl⟩ | ⟨rfl, rfl⟩ | h
    · omega
    · rw [Node.vn.eq_def (.loop q i a c u s), Node.vn.eq_def (.seq s)]; dsimp only; omega
    · have := Seq.has_id s _ h; rw [Node.vn.eq_def (.loop q i a c u s)]; dsimp only; omega
  | .brk, k, h => by rw [Node.Has] at h; obtain ⟨rfl, rfl⟩ := h; omega
  | .cont, k, h => by rw [Node.Has] at h; obtain ⟨rfl, rfl⟩ := h; omega
  | .ret _ _, k, h => by simp [Node.Has] at h
theorem Seq.has_id {m : Node} {j : Nat} : (s : Seq) → ∀ k, s.Has m j k → k ≤ j ∧ j + m.vn ≤ k + s.kn
  | .nil, _, h => by simp [Seq.Has] at h
  | .cons n t r, k, h => by
    rw [Seq.Has] at h
    rw [Seq.kn]
    rcases h with ⟨_, h | h⟩
    · have := Node.has_id n _ h; omega
    · have := Seq.has_id r _ h; omega
theorem Brs.has_id {m : Node} {j : Nat} : (b : Brs) → ∀ k, b.Has m j k → k ≤ j ∧ j + m.vn ≤ k + b.vn
  | .nil, _, h => by simp [Brs.Has] at h
  | .cons c s r, k, h => by
    rw [Brs.Has] at h
    rw [Brs.vn]
    rcases h with ⟨rfl, rfl⟩ | h | h
    · rw [Node.vn]; omega
    · have := Seq.has_id s _ h; omega
    · have := Brs.has_id r _ h; omega
end

/-- edges into the vertices of `m` start there or lead to the first vertex -/
def Encl (m : Node) (j : Nat) (G : List (V × V)) : Prop :=
  ∀ e ∈ G, j ≤ e.2.id → e.2.id < j + m.vn → (j ≤ e.1.id ∧ e.1.id < j + m.vn) ∨ e.2 = .nop j

theorem Encl.out {m : Node} {j : Nat} {G : List (V × V)} (h : ∀ e ∈ G, e.2.id < j ∨ j + m.vn ≤ e.2.id) : Encl m j G := by
  intro e he h1 h2
  have := h e he
  omega

theorem Encl.append {m : Node} {j : Nat} {G H : List (V × V)} (h : Encl m j G) (h' : Encl m j H) : Encl m j (G ++ H) := by
  intro e he
  rcases List.mem_append.mp he with he | he
  · exact h e he
  · exact h' e he

theorem Encl.cons {m : Node} {j : Nat} {a : V × V} {H : List (V × V)} (h : Encl m j [a]) (h' : Encl m j H) : Encl m j (a :: H) :=
  Encl.append (G := [a]) h h'

theorem Encl.one {m : Node} {j : Nat} {a b : V} (h : b = .nop j ∨ b.id < j ∨ j + m.vn ≤ b.id) : Encl m j [(a, b)] := by
  intro e he h1 h2
  simp only [List.mem_singleton] at he
  subst he
  rcases h with h | h | h
  · exact Or.inr h
  · exfalso; dsimp only at h1; omega
  · exfalso; dsimp only at h2; omega

theorem Encl.self (C : Brs → Bool) (n : Node) (k : Nat) : Encl n k (n.ge C k) := fun e he _ _ => Or.inl (Node.src C n k e he)

/-- the edges of a body -/
theorem Encl.body (C : Brs → Bool) (s : Seq) (k : Nat) : Encl (.seq s) k (s.ge C (.nop k) (.nop (k + 1)) (k + 2)) := by
  have := Encl.self C (.seq s) k
  rwa [Node.ge] at this

theorem Encl.chain {m : Node} {j : Nat} {a : V} {k : Nat} {us : List User} (h : k + us.length ≤ j ∨ j + m.vn ≤ k) :
    Encl m j (chainE a (evs k us)) := by
  refine Encl.out fun e he => ?_
  have := evs_id (chainE_tgt _ _ e he)
  omega

theorem Encl.chain' {m : Node} {j : Nat} {a : V} {k x : Nat} {us : List User} (h : k + us.length ≤ j ∨ j + m.vn ≤ k)
    (hx : x < j ∨ j + m.vn ≤ x) : Encl m j (chainE a (evs k us ++ [.nop x])) := by
  refine Encl.out fun e he => ?_
  rcases List.mem_append.mp (chainE_tgt _ _ e he) with h | h
  · have := evs_id h; omega
  · simp only [List.mem_singleton] at h; rw [h]; exact hx

mutual
theorem Node.encl (C : Brs → Bool) {m : Node} {j : Nat} : (n : Node) → ∀ k, Node.Has m j n k → Encl m j (n.ge C k)
  | .block l, k, h => by rw [Node.Has] at h; obtain ⟨rfl, rfl⟩ := h; exact Encl.self C _ _
  | .seq s, k, h => by
    rw [Node.Has] at h
    rcases h with ⟨rfl, rfl⟩ | h
    · exact Encl.self C _ _
    · have hi := s.has_id _ h
      rw [Node.ge]
      exact Seq.encl C s _ _ _ h (by simp only [V.id_nop]; omega)
  | .ifElse b, k, h => by
    rw [Node.Has] at h
    rcases h with ⟨rfl, rfl⟩ | h
    · exact Encl.self C _ _
    · have hi := b.has_id _ h
      rw [Node.ge, evs_length]
      refine ((Encl.chain (Or.inl (by omega))).append (Brs.encl C b _ _ _ h (by simp only [V.id_nop]; omega))).append ?_
      split
      · intro e he; cases he
      · exact Encl.one (Or.inr (Or.inl (by simp only [V.id_nop]; omega)))
  | .whileL s, k, h => by
    rw [Node.Has] at h
    rcases h with ⟨rfl, rfl⟩ | h
    · exact Encl.self C _ _
    · have hj : k + 2 ≤ j := by
        rcases h with ⟨rfl, rfl⟩ | h
        · omega
        · have := s.has_id _ h; omega
      rw [Node.ge]
      refine Encl.cons (Encl.one ?_) (Encl.append ?_ (Encl.cons (Encl.one ?_) (Encl.cons (Encl.one ?_) (Encl.one ?_))))
      · rcases h with ⟨_, rfl⟩ | h
        · exact Or.inl rfl
        · have := s.has_id _ h; simp only [V.id_nop]; omega
      · rcases h with ⟨rfl, rfl⟩ | h
        · exact Encl.body C s (k + 2)
        · have := s.has_id _ h
          exact Seq.encl C s _ _ _ h (by simp only [V.id_nop]; omega)
      all_goals (simp only [V.id_nop]; omega)
  | .loop q i a c u s, k, h => by
    rw [Node.Has] at h
    rcases h with ⟨rfl, rfl⟩ | h
    · exact Encl.self C _ _
    · have hj : k + 2 + (initUses i a).length + (condUses c).length ≤ j ∧ j + m.vn ≤ k + 2 + (initUses i a).length + (condUses c).length + 2 + s.kn := by
        rcases h with ⟨rfl, rfl⟩ | h
        · rw [Node.vn]; omega
        · have := s.has_id _ h; omega
      have h0 : (chainEnd (.nop k) (evs (k + 2) (initUses i a))).id < k + 2 + (initUses i a).length := by
        rcases chainEnd_id (initUses i a) (k + 2) (.nop k) with h0 | h0
        · rw [h0]; simp only [V.id_nop]; omega
        · omega
      have h1 : (chainEnd (chainEnd (.nop k) (evs (k + 2) (initUses i a))) (evs (k + 2 + (initUses i a).length) (condUses c))).id <
          k + 2 + (initUses i a).length + (condUses c).length := by
        rcases chainEnd_id (condUses c) (k + 2 + (initUses i a).length) (chainEnd (.nop k) (evs (k + 2) (initUses i a))) with h1 | h1
        · rw [h1]; omega
        · omega
      rw [Node.ge]
      simp only [evs_length]
      refine (((Encl.chain (Or.inl (by omega))).append (Encl.chain (Or.inl (by omega)))).append ?_).append
        (Encl.cons (Encl.one ?_) ((Encl.append ?_ (Encl.chain' (Or.inr (by omega)) (by omega))).append (Encl.one ?_)))
      · refine Encl.out fun e he => ?_
        obtain ⟨v, hv, rfl⟩ := List.mem_map.mp he
        simp only [V.id_nop]; omega
      · rcases h with ⟨_, rfl⟩ | h
        · exact Or.inl rfl
        · have := s.has_id _ h; simp only [V.id_nop]; omega
      · rcases h with ⟨rfl, rfl⟩ | h
        · exact Encl.body C s _
        · have := s.has_id _ h
          exact Seq.encl C s _ _ _ h (by simp only [V.id_nop]; omega)
      · omega
  | .brk, k, h => by rw [Node.Has] at h; obtain ⟨rfl, rfl⟩ := h; exact Encl.self C _ _
  | .cont, k, h => by rw [Node.Has] at h; obtain ⟨rfl, rfl⟩ := h; exact Encl.self C _ _
  | .ret _ _, k, h => by simp [Node.Has] at h
theorem Seq.encl (C : Brs → Bool) {m : Node} {j : Nat} : (s : Seq) → ∀ cur t k, s.Has m j k → (t.id < j ∨ j + m.vn ≤ t.id) →
    Encl m j (s.ge C cur t k)
  | .nil, _, _, _, h, _ => by simp [Seq.Has] at h
  | .cons n t r, cur, t', k, h, ht => by
    rw [Seq.Has] at h
    obtain ⟨hn, h⟩ := h
    have hv := vn_pos m
    rw [Seq.ge, hn]
    simp only [Bool.false_eq_true, ↓reduceIte, evs_length]
    rcases h with h | h
    · have hi := Node.has_id n _ h
      refine Encl.cons (Encl.one ?_) (((Node.encl C n k h).append (Encl.chain (Or.inr (by omega)))).append (Encl.out fun e he => ?_))
      · rw [first_nop hn]
        by_cases hk : k = j
        · subst hk; exact Or.inl rfl
        · simp only [V.id_nop]; omega
      · rcases Seq.tgt C r _ _ _ e he with h | h
        · rw [h]; exact ht
        · omega
    · have hi := r.has_id _ h
      have hvn := vn_pos n
      refine Encl.cons (Encl.one ?_) (((Encl.out fun e he => ?_).append (Encl.chain (Or.inl (by omega)))).append (Seq.encl C r _ _ _ h ht))
      · rw [first_id]; omega
      · have := Node.tgt C n k e he; omega
theorem Brs.encl (C : Brs → Bool) {m : Node} {j : Nat} : (b : Brs) → ∀ last t k, b.Has m j k → (t.id < j ∨ j + m.vn ≤ t.id) →
    Encl m j (b.ge C last t k)
  | .nil, _, _, _, h, _ => by simp [Brs.Has] at h
  | .cons c s r, last, t, k, h, ht => by
    rw [Brs.Has] at h
    rw [Brs.ge]
    rcases h with ⟨rfl, rfl⟩ | h | h
    · refine Encl.cons (Encl.one (Or.inl rfl)) ((Encl.body C s _).append (Encl.cons (Encl.one (Or.inr ht)) (Encl.out fun e he => ?_)))
      rcases Brs.tgt C r _ _ _ e he with h | h
      · rw [h]; exact ht
      · rw [Node.vn]; omega
    · have hi := s.has_id _ h
      refine Encl.cons (Encl.one (by simp only [V.id_nop]; omega)) ((Seq.encl C s _ _ _ h (by simp only [V.id_nop]; omega)).append
        (Encl.cons (Encl.one (Or.inr ht)) (Encl.out fun e he => ?_)))
      rcases Brs.tgt C r _ _ _ e he with h | h
      · rw [h]; exact ht
      · omega
    · have hi := r.has_id _ h
      refine Encl.cons (Encl.one (by simp only [V.id_nop]; omega)) ((Encl.out fun e he => ?_).append
        (Encl.cons (Encl.one (Or.inr ht)) (Brs.encl C r _ _ _ h ht)))
      rcases Seq.tgt C s _ _ _ e he with h | h
      · rw [h]; simp only [V.id_nop]; omega
      · omega
end

theorem encl_path {m : Node} {j : Nat} {G : List (V × V)} (h : Encl m j G) :
    ∀ (p : List V) (v z : V), Path G (v :: p) → (v :: p).getLast? = some z → (V.nop j) ∉ v :: p → j ≤ z.id → z.id < j + m.vn →
      j ≤ v.id ∧ v.id < j + m.vn
  | [], v, z, _, hl, _, h1, h2 => by simp at hl; subst hl; exact ⟨h1, h2⟩
  | w :: p, v, z, hp, hl, hn, h1, h2 => by
    have hw := encl_path h p w z hp.2 (by simpa using hl) (fun hm => hn (List.mem_cons_of_mem _ hm)) h1 h2
    rcases h _ hp.1 hw.1 hw.2 with h3 | h3
    · exact h3
    · exact absurd (by dsimp only at h3; simp [h3]) hn

/-- the graph of the function is that of its root -/
theorem graph_root (C : Brs → Bool) (s : Seq) : s.graph C = (Node.seq s).ge C 0 := by rw [Node.ge, Seq.graph]

mutual
theorem Node.has_ret {m : Node} {j : Nat} : (n : Node) → ∀ k, Node.Has m j n k → m.isRet = false
  | .block l, k, h => by rw [Node.Has] at h; obtain ⟨rfl, rfl⟩ := h; rfl
  | .seq s, k, h => by
    rw [Node.Has] at h
    rcases h with ⟨rfl, rfl⟩ | h
    · rfl
    · exact Seq.has_ret s _ h
  | .ifElse b, k, h => by
    rw [Node.Has] at h
    rcases h with ⟨rfl, rfl⟩ | h
    · rfl
    · exact Brs.has_ret b _ h
  | .whileL s, k, h => by
    rw [Node.Has] at h
    rcases h with ⟨rfl, rfl⟩ | ⟨rfl, rfl⟩ | h
    · rfl
    · rfl
    · exact Seq.has_ret s _ h
  | .loop q i a c u s, k, h => by
    rw [Node.Has] at h
    rcases h with ⟨rfl, rfl⟩ | ⟨rfl, rfl⟩ | h
    · rfl
    · rfl
    · exact Seq.has_ret s _ h
  | .brk, k, h => by rw [Node.Has] at h; obtain ⟨rfl, rfl⟩ := h; rfl
  | .cont, k, h => by rw [Node.Has] at h; obtain ⟨rfl, rfl⟩ := h; rfl
  | .ret _ _, k, h => by simp [Node.Has] at h
theorem Seq.has_ret {m : Node} {j : Nat} : (s : Seq) → ∀ k, s.Has m j k → m.isRet = false
  | .nil, _, h => by simp [Seq.Has] at h
  | .cons n t r, k, h => by
    rw [Seq.Has] at h
    rcases h with ⟨_, h | h⟩
    · exact Node.has_ret n _ h
    · exact Seq.has_ret r _ h
theorem Brs.has_ret {m : Node} {j : Nat} : (b : Brs) → ∀ k, b.Has m j k → m.isRet = false
  | .nil, _, h => by simp [Brs.Has] at h
  | .cons c s r, k, h => by
    rw [Brs.Has] at h
    rcases h with ⟨rfl, rfl⟩ | h | h
    · rfl
    · exact Seq.has_ret s _ h
    · exact Brs.has_ret r _ h
end

/-- **C74.** A view lists nothing but vertices of the node. -/
theorem view_sound (C : Brs → Bool) {s : Seq} {m : Node} {j : Nat} (hm : s.Contains m j) {v : V}
    (hv : InView (s.graph C) (.nop j) (m.exit j) v) : j ≤ v.id ∧ v.id < j + m.vn := by
  obtain ⟨p, hp, hl, hn⟩ := hv
  rw [graph_root] at hp
  have hx := exit_id m j
  exact encl_path (Node.encl C (.seq s) 0 hm) p v _ hp hl hn hx.1 (hx.2 (Node.has_ret _ _ hm))

mutual
/-- the edges of an occurrence are edges of the graph -/
theorem Node.has_edges (C : Brs → Bool) {m : Node} {j : Nat} : (n : Node) → ∀ k, Node.Has m j n k → ∀ e ∈ m.ge C j, e ∈ n.ge C k
  | .block l, k, h, e, he => by rw [Node.Has] at h; obtain ⟨rfl, rfl⟩ := h; exact he
  | .seq s, k, h, e, he => by
    rw [Node.Has] at h
    rcases h with ⟨rfl, rfl⟩ | h
    · exact he
    · rw [Node.ge]; exact Seq.has_edges C s _ _ _ h e he
  | .ifElse b, k, h, e, he => by
    rw [Node.Has] at h
    rcases h with ⟨rfl, rfl⟩ | h
    · exact he
    · rw [Node.ge, evs_length]
      simp only [List.mem_append]
      exact Or.inl (Or.inr (Brs.has_edges C b _ _ _ h e he))
  | .whileL s, k, h, e, he => by
    rw [Node.Has] at h
    rcases h with ⟨rfl, rfl⟩ | ⟨rfl, rfl⟩ | h
    · exact he
    · rw [Node.ge] at he
      rw [Node.ge]
      simp [he]
    · rw [Node.ge]
      have := Seq.has_edges C s (.nop (k + 2)) (.nop (k + 3)) _ h e he
      simp [this]
  | .loop q i a c u s, k, h, e, he => by
    rw [Node.Has] at h
    rcases h with ⟨rfl, rfl⟩ | ⟨rfl, rfl⟩ | h
    · exact he
    · rw [Node.ge] at he
      rw [Node.ge]
      simp only [evs_length]
      simp [he]
    · rw [Node.ge]
      simp only [evs_length]
      have := Seq.has_edges C s (.nop (k + 2 + (initUses i a).length + (condUses c).length))
        (.nop (k + 2 + (initUses i a).length + (condUses c).length + 1)) _ h e he
      simp [this]
  | .brk, k, h, e, he => by rw [Node.Has] at h; obtain ⟨rfl, rfl⟩ := h; exact he
  | .cont, k, h, e, he => by rw [Node.Has] at h; obtain ⟨rfl, rfl⟩ := h; exact he
  | .ret _ _, k, h, _, _ => by simp [Node.Has] at h
theorem Seq.has_edges (C : Brs → Bool) {m : Node} {j : Nat} : (s : Seq) → ∀ cur t k, s.Has m j k → ∀ e ∈ m.ge C j, e ∈ s.ge C cur t k
  | .nil, _, _, _, h, _, _ => by simp [Seq.Has] at h
  | .cons n t r, cur, t', k, h, e, he => by
    rw [Seq.Has] at h
    obtain ⟨hn, h⟩ := h
    rw [Seq.ge, hn]
    simp only [Bool.false_eq_true, ↓reduceIte, evs_length, List.mem_cons, List.mem_append]
    rcases h with h | h
    · exact Or.inr (Or.inl (Or.inl (Node.has_edges C n _ h e he)))
    · exact Or.inr (Or.inr (Seq.has_edges C r _ _ _ h e he))
theorem Brs.has_edges (C : Brs → Bool) {m : Node} {j : Nat} : (b : Brs) → ∀ last t k, b.Has m j k → ∀ e ∈ m.ge C j, e ∈ b.ge C last t k
  | .nil, _, _, _, h, _, _ => by simp [Brs.Has] at h
  | .cons c s r, last, t, k, h, e, he => by
    rw [Brs.Has] at h
    rw [Brs.ge]
    simp only [List.mem_cons, List.mem_append]
    rcases h with ⟨rfl, rfl⟩ | h | h
    · rw [Node.ge] at he; exact Or.inr (Or.inl he)
    · exact Or.inr (Or.inl (Seq.has_edges C s _ _ _ h e he))
    · exact Or.inr (Or.inr (Or.inr (Brs.has_edges C r _ _ _ h e he)))
end

/-! ### everything inside is listed -/

mutual
/-- the vertices of the uses in a node, except those of returns -/
def Node.useV : Node → Nat → List V
  | .block l, k => evs (k + 2) (l.flatMap Stmt.users)
  | .seq s, k => s.useV (k + 2)
  | .ifElse b, k => evs (k + 2) (readsOnce b.condAtoms) ++ b.useV (k + 2 + (readsOnce b.condAtoms).length)
  | .whileL s, k => s.useV (k + 4)
  | .loop _ i a c u s, k =>
    evs (k + 2) (initUses i a) ++ evs (k + 2 + (initUses i a).length) (condUses c) ++
      s.useV (k + 2 + (initUses i a).length + (condUses c).length + 2) ++
      evs (k + 2 + (initUses i a).length + (condUses c).length + 2 + s.kn) (updUses i u)
  | .brk, _ => []
  | .cont, _ => []
  | .ret _ _, _ => []
def Seq.useV : Seq → Nat → List V
  | .nil, _ => []
  | .cons n t r, k => if n.isRet then [] else
      n.useV k ++ evs (k + n.vn) (transUses t) ++ r.useV (k + n.vn + (transUses t).length)
def Brs.useV : Brs → Nat → List V
  | .nil, _ => []
  | .cons _ s r, k => s.useV (k + 2) ++ r.useV (k + 2 + s.kn)
end

/-- all uses performed satisfy `S` -/
def TR.Only (S : V → Prop) (R : TR) : Prop := ∀ σ l o, R σ l o → ∀ v ∈ l, S v

theorem TR.Only.mono {S T : V → Prop} {R : TR} (h : R.Only S) (hs : ∀ v, S v → T v) : R.Only T := fun σ l o hr v hv => hs v (h σ l o hr v hv)

theorem only_emit {S : V → Prop} {us : List V} {f : St → St} (h : ∀ v ∈ us, S v) : (TR.emit us f).Only S := by
  rintro σ l o (⟨rfl, _⟩ | ⟨hl, _⟩) v hv
  · exact h v hv
  · exact h v (hl.subset hv)
theorem only_jump {S : V → Prop} {us : List V} {c : Ctl} (h : ∀ v ∈ us, S v) : (TR.jump us c).Only S := by
  rintro σ l o (⟨rfl, _⟩ | ⟨hl, _⟩) v hv
  · exact h v hv
  · exact h v (hl.subset hv)
theorem only_seq {S : V → Prop} {R T : TR} (h : R.Only S) (h' : T.Only S) : (TR.seq R T).Only S := by
  rintro σ l o (⟨l1, l2, σ1, h1, h2, rfl⟩ | ⟨h1, _⟩) v hv
  · rcases List.mem_append.mp hv with hv | hv
    · exact h _ _ _ h1 v hv
    · exact h' _ _ _ h2 v hv
  · exact h _ _ _ h1 v hv
theorem only_forever {S : V → Prop} {R : TR} (h : R.Only S) : (TR.forever R).Only S := by
  intro σ l o hr
  induction hr with
  | cut h1 => exact h _ _ _ h1
  | step k h1 _ _ ih =>
    intro v hv
    rcases List.mem_append.mp hv with hv | hv
    · exact h _ _ _ h1 v hv
    · exact ih v hv
  | stop h1 => exact h _ _ _ h1
  | ret d q h1 => exact h _ _ _ h1
theorem only_iter {S : V → Prop} {b : St → Bool} {u : St → St} {cs us : List V} {R : TR} (h : R.Only S) (hc : ∀ v ∈ cs, S v)
    (hu : ∀ v ∈ us, S v) : (TR.iter b u cs us R).Only S := by
  intro σ l o hr
  induction hr with
  | cut h1 => exact fun v hv => hc v (h1.subset hv)
  | done _ => exact hc
  | cutBody _ h1 =>
    intro v hv
    rcases List.mem_append.mp hv with hv | hv
    · exact hc v hv
    · exact h _ _ _ h1 v hv
  | cutUpd k _ h1 _ h2 =>
    intro v hv
    simp only [List.mem_append] at hv
    rcases hv with hv | hv | hv
    · exact hc v hv
    · exact h _ _ _ h1 v hv
    · exact hu v (h2.subset hv)
  | step k _ h1 _ _ ih =>
    intro v hv
    simp only [List.mem_append] at hv
    rcases hv with hv | hv | hv | hv
    · exact hc v hv
    · exact h _ _ _ h1 v hv
    · exact hu v hv
    · exact ih v hv
  | stop _ h1 =>
    intro v hv
    rcases List.mem_append.mp hv with hv | hv
    · exact hc v hv
    · exact h _ _ _ h1 v hv
  | ret d q _ h1 =>
    intro v hv
    rcases List.mem_append.mp hv with hv | hv
    · exact hc v hv
    · exact h _ _ _ h1 v hv

mutual
theorem Node.only (E : Env) : (n : Node) → n.isRet = false → ∀ k, (n.tr E k).Only fun v => v ∈ n.useV k ∨ v ∈ n.retV k
  | .block l, _, k => by rw [Node.tr, Node.useV]; exact only_emit fun v hv => Or.inl hv
  | .seq s, _, k => by rw [Node.tr, Node.useV, Node.retV]; exact Seq.only E s _
  | .ifElse b, _, k => by
    rw [Node.tr, Node.useV, Node.retV]
    exact only_seq (only_emit fun v hv => by simp [hv]) ((Brs.only E b _).mono fun v hv => by
      rcases hv with hv | hv <;> simp [hv])
  | .whileL s, _, k => by rw [Node.tr, Node.useV, Node.retV]; exact only_forever (Seq.only E s _)
  | .loop _ i a c u s, _, k => by
    rw [Node.tr, Node.useV, Node.retV]
    exact only_seq (only_emit fun v hv => by simp [hv]) (only_iter ((Seq.only E s _).mono fun v hv => by
      rcases hv with hv | hv <;> simp [hv]) (fun v hv => by simp [hv]) fun v hv => by simp [hv])
  | .brk, _, _ => by rw [Node.tr]; exact only_jump (by simp)
  | .cont, _, _ => by rw [Node.tr]; exact only_jump (by simp)
  | .ret _ _, h, _ => by simp [Node.isRet] at h
theorem Seq.only (E : Env) : (s : Seq) → ∀ k, (s.tr E k).Only fun v => v ∈ s.useV k ∨ v ∈ s.retV k
  | .nil, _ => by rw [Seq.tr]; exact only_emit (by simp)
  | .cons n t r, k => by
    rw [Seq.tr, Seq.useV, Seq.retV]
    by_cases hn : n.isRet = true
    · obtain ⟨d, q, rfl⟩ := isRet_cases hn
      rw [if_pos hn, if_pos hn, Node.tr]
      rintro σ l o (⟨l1, l2, σ1, h1, h2, rfl⟩ | ⟨h1, h2⟩)
      · rcases h1 with ⟨_, h⟩ | ⟨_, h⟩ <;> cases h
      · refine only_jump (fun v hv => ?_) σ l o h1
        rw [Node.first]
        split at hv
        · cases hv
        · rename_i hq
          rw [if_neg hq]; exact Or.inr hv
    · rw [if_neg hn, if_neg hn]
      refine only_seq ((Node.only E n (by simpa using hn) k).mono fun v hv => ?_) (only_seq (only_emit fun v hv => by simp [hv])
        ((Seq.only E r _).mono fun v hv => ?_)) <;> rcases hv with hv | hv <;> simp [hv]
theorem Brs.only (E : Env) : (b : Brs) → ∀ k, (b.tr E k).Only fun v => v ∈ b.useV k ∨ v ∈ b.retV k
  | .nil, _ => by rw [Brs.tr]; exact only_emit (by simp)
  | .cons c s r, k => by
    rw [Brs.tr, Brs.useV, Brs.retV]
    intro σ l o hr
    unfold TR.ite at hr
    split at hr
    · exact ((Seq.only E s _).mono fun v hv => by rcases hv with hv | hv <;> simp [hv]) σ l o hr
    · exact ((Brs.only E r _).mono fun v hv => by rcases hv with hv | hv <;> simp [hv]) σ l o hr
end

/-- a path in a graph whose edges start in vertices that satisfy `P` -/
theorem Reach.of_src {G : List (V × V)} {P : V → Prop} {a b : V} (h : Reach G (fun _ => True) a b) (hs : ∀ e ∈ G, P e.1) : Reach G P a b := by
  induction h with
  | refl => exact .refl
  | step _ _ he ih => exact .step ih (hs _ he) he

/-- from every vertex of a chain to its end -/
theorem chain_end {G : List (V × V)} {P : V → Prop} : ∀ (us : List V) (a : V), (∀ e ∈ chainE a us, e ∈ G) → (∀ v ∈ us, P v) →
    ∀ v ∈ us, Reach G P v (chainEnd a us)
  | [], _, _, _, v, hv => by cases hv
  | w :: r, a, hG, hP, v, hv => by
    rw [chainE] at hG
    rcases List.mem_cons.mp hv with rfl | hv
    · exact chain_all r v (fun e he => hG e (List.mem_cons_of_mem _ he)) (hP v (by simp)) fun x hx => hP x (by simp [hx])
    · exact chain_end r w (fun e he => hG e (List.mem_cons_of_mem _ he)) (fun x hx => hP x (by simp [hx])) v hv

end Docc.IR

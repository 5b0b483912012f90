import Verif.IR.LoopTree
/-
C58: what LoopAnalysis reports about the loop nests of a function.
-/
namespace Docc.IR.LoopTree

/-! ### Specification, by recursion over the program text -/

mutual
/-- every loop written in a node, at any depth, in program order -/
def Nd.inside : Nd → List Lp
  | .seq l => insideL l
  | .ite l => insideL l
  | .loop k i c b => ⟨k, i, c, b⟩ :: insideL b
  | _ => []
@[inherit_doc Nd.inside] def insideL : List Nd → List Lp
  | [] => []
  | n :: r => n.inside ++ insideL r
end

mutual
/-- the loops of a node that are in no other loop of it -/
def Nd.direct : Nd → List Lp
  | .seq l => directL l
  | .ite l => directL l
  | .loop k i c b => [⟨k, i, c, b⟩]
  | _ => []
@[inherit_doc Nd.direct] def directL : List Nd → List Lp
  | [] => []
  | n :: r => n.direct ++ directL r
end

mutual
/-- the maps of a node that are in no other map of it -/
def Nd.topMaps : Nd → List Lp
  | .seq l => topMapsL l
  | .ite l => topMapsL l
  | .loop .map i c b => [⟨.map, i, c, b⟩]
  | .loop _ _ _ b => topMapsL b
  | _ => []
@[inherit_doc Nd.topMaps] def topMapsL : List Nd → List Lp
  | [] => []
  | n :: r => n.topMaps ++ topMapsL r
end

mutual
/-- the number of loops around the most deeply nested loop -/
def Nd.depth : Nd → Nat
  | .seq l => depthL l
  | .ite l => depthL l
  | .loop _ _ _ b => 1 + depthL b
  | _ => 0
@[inherit_doc Nd.depth] def depthL : List Nd → Nat
  | [] => 0
  | n :: r => max n.depth (depthL r)
end

mutual
/-- a return statement or a block with a side effect, not counting what is inside a Map -/
def Nd.eff : Nd → Bool
  | .block e => e
  | .seq l => effL l
  | .ite l => effL l
  | .loop .map _ _ _ => false
  | .loop _ _ _ b => effL b
  | .ret => true
  | _ => false
@[inherit_doc Nd.eff] def effL : List Nd → Bool
  | [] => false
  | n :: r => n.eff || effL r
end

/-- the loop as a node -/
def Lp.nd (l : Lp) : Nd := .loop l.k l.i l.contig l.body

/-- a loop nest is perfect: the body has no loop at all, or is one perfect loop and nothing else -/
inductive Perfect : Lp → Prop
  | leaf {l : Lp} : insideL l.body = [] → Perfect l
  | step {l c : Lp} : l.body = [c.nd] → Perfect c → Perfect l

/-- a chain of directly nested loops from `l` to a loop with no loop inside -/
inductive Chain : Lp → List Lp → Prop
  | leaf {l : Lp} : insideL l.body = [] → Chain l [l]
  | step {l c : Lp} {p : List Lp} : c ∈ directL l.body → Chain c p → Chain l (l :: p)

/-- different loops of the function are different objects -/
def Distinct (root : List Nd) : Prop := ((insideL root).map (·.i)).Nodup

instance (root : List Nd) : Decidable (Distinct root) := inferInstanceAs (Decidable (List.Nodup _))

/-! ### Lemmas -/

theorem insideL_append (a b : List Nd) : insideL (a ++ b) = insideL a ++ insideL b := by
  induction a with
  | nil => simp [insideL]
  | cons n r ih => simp [insideL, ih]

theorem directL_append (a b : List Nd) : directL (a ++ b) = directL a ++ directL b := by
  induction a with
  | nil => simp [directL]
  | cons n r ih => simp [directL, ih]

theorem topMapsL_append (a b : List Nd) : topMapsL (a ++ b) = topMapsL a ++ topMapsL b := by
  induction a with
  | nil => simp [topMapsL]
  | cons n r ih => simp [topMapsL, ih]

theorem depthL_append (a b : List Nd) : depthL (a ++ b) = max (depthL a) (depthL b) := by
  induction a with
  | nil => simp [depthL]
  | cons n r ih => simp [depthL, ih, Nat.max_assoc]

theorem effL_append (a b : List Nd) : effL (a ++ b) = (effL a || effL b) := by
  induction a with
  | nil => simp [effL]
  | cons n r ih => simp [effL, ih, Bool.or_assoc]

theorem runQ_loop (p : Option Lp) (k : LKind) (i : Nat) (c : Bool) (b q : List Nd) :
    runQ p (.loop k i c b :: q) = (⟨k, i, c, b⟩, p) :: (runQ (some ⟨k, i, c, b⟩) [.seq b] ++ runQ p q) := by
  conv => lhs; rw [runQ]

/-- the entries are the loops of the code -/
theorem runQ_inside (p : Option Lp) (q : List Nd) : List.Perm ((runQ p q).map (·.1)) (insideL q) := by
  induction p, q using runQ.induct with
  | case1 p => simp [runQ, insideL]
  | case2 p e q ih => simpa [runQ, insideL, Nd.inside] using ih
  | case3 p l q ih =>
      simp only [runQ, insideL, Nd.inside]
      exact ih.trans (by rw [insideL_append]; exact List.perm_append_comm)
  | case4 p l q ih =>
      simp only [runQ, insideL, Nd.inside]
      exact ih.trans (by rw [insideL_append]; exact List.perm_append_comm)
  | case5 p k i c b q ih1 ih2 =>
      rw [runQ_loop]
      simp only [insideL, Nd.inside, List.map_cons, List.map_append, List.cons_append]
      refine List.Perm.cons _ (List.Perm.append ?_ ih2)
      simpa [insideL, Nd.inside] using ih1
  | case6 p q ih => simpa [runQ, insideL, Nd.inside] using ih
  | case7 p q ih => simpa [runQ, insideL, Nd.inside] using ih
  | case8 p q ih => simpa [runQ, insideL, Nd.inside] using ih

/-- the parent test of `children` -/
def isPar (x : Nat) (e : Lp × Option Lp) : Bool := match e.2 with | some p => p.i == x | none => false

theorem children_eq (t : List (Lp × Option Lp)) (l : Lp) : children t l = (t.filter (isPar l.i)).map (·.1) := rfl

theorem runQ_child_none (x : Nat) (p : Option Lp) (q : List Nd) (hp : ∀ a, p = some a → a.i ≠ x)
    (hx : ∀ a ∈ insideL q, a.i ≠ x) : (runQ p q).filter (isPar x) = [] := by
  induction p, q using runQ.induct with
  | case1 p => simp [runQ]
  | case2 p e q ih => simpa [runQ] using ih hp (by simpa [insideL, Nd.inside] using hx)
  | case3 p l q ih =>
      simpa [runQ] using ih hp (by
        intro a ha; rw [insideL_append, List.mem_append] at ha
        exact hx a (by simp only [insideL, Nd.inside, List.mem_append]; exact ha.symm))
  | case4 p l q ih =>
      simpa [runQ] using ih hp (by
        intro a ha; rw [insideL_append, List.mem_append] at ha
        exact hx a (by simp only [insideL, Nd.inside, List.mem_append]; exact ha.symm))
  | case5 p k i c b q ih1 ih2 =>
      have h1 := ih1 (by rintro a ⟨⟩; exact hx _ (by simp [insideL, Nd.inside]))
        (by intro a ha; simp only [insideL, Nd.inside, List.append_nil] at ha
            exact hx a (by simp [insideL, Nd.inside, ha]))
      have h2 := ih2 hp (by intro a ha; exact hx a (by simp [insideL, ha]))
      have h3 : isPar x (⟨k, i, c, b⟩, p) = false := by
        cases p with
        | none => rfl
        | some a => simpa [isPar] using hp a rfl
      rw [runQ_loop]
      simp only [List.filter_cons, h3, List.filter_append, h1, h2]
      rfl
  | case6 p q ih => simpa [runQ] using ih hp (by simpa [insideL, Nd.inside] using hx)
  | case7 p q ih => simpa [runQ] using ih hp (by simpa [insideL, Nd.inside] using hx)
  | case8 p q ih => simpa [runQ] using ih hp (by simpa [insideL, Nd.inside] using hx)

/-- the entries whose parent is the loop the walk started from -/
theorem runQ_child_top (x : Lp) (q : List Nd) (hx : ∀ a ∈ insideL q, a.i ≠ x.i) :
    List.Perm (((runQ (some x) q).filter (isPar x.i)).map (·.1)) (directL q) := by
  generalize hp : some x = p
  induction p, q using runQ.induct with
  | case1 p => simp [runQ, directL]
  | case2 p e q ih => simpa [runQ, directL, Nd.direct] using ih (by simpa [insideL, Nd.inside] using hx) hp
  | case3 p l q ih =>
      simp only [runQ, directL, Nd.direct]
      refine (ih (by
        intro a ha; rw [insideL_append, List.mem_append] at ha
        exact hx a (by simp only [insideL, Nd.inside, List.mem_append]; exact ha.symm)) hp).trans ?_
      rw [directL_append]; exact List.perm_append_comm
  | case4 p l q ih =>
      simp only [runQ, directL, Nd.direct]
      refine (ih (by
        intro a ha; rw [insideL_append, List.mem_append] at ha
        exact hx a (by simp only [insideL, Nd.inside, List.mem_append]; exact ha.symm)) hp).trans ?_
      rw [directL_append]; exact List.perm_append_comm
  | case5 p k i c b q ih1 ih2 =>
      have h1 := runQ_child_none x.i (some ⟨k, i, c, b⟩) [.seq b] (by rintro a ⟨⟩; exact hx _ (by simp [insideL, Nd.inside]))
        (by intro a ha; simp only [insideL, Nd.inside, List.append_nil] at ha
            exact hx a (by simp [insideL, Nd.inside, ha]))
      have h2 := ih2 (by intro a ha; exact hx a (by simp [insideL, ha])) hp
      have h3 : isPar x.i (⟨k, i, c, b⟩, p) = true := by subst hp; simp [isPar]
      rw [runQ_loop]
      simp only [List.filter_cons, h3, List.filter_append, h1, directL, Nd.direct, List.nil_append, if_true, List.map_cons,
        List.cons_append]
      exact List.Perm.cons _ h2
  | case6 p q ih => simpa [runQ, directL, Nd.direct] using ih (by simpa [insideL, Nd.inside] using hx) hp
  | case7 p q ih => simpa [runQ, directL, Nd.direct] using ih (by simpa [insideL, Nd.inside] using hx) hp
  | case8 p q ih => simpa [runQ, directL, Nd.direct] using ih (by simpa [insideL, Nd.inside] using hx) hp

theorem Distinct.perm {a b : List Nd} (h : Distinct a) (hp : List.Perm (insideL a) (insideL b)) : Distinct b :=
  (hp.map (fun x : Lp => x.i)).nodup_iff.mp h

theorem perm_swap (l q : List Nd) (s : Nd) (hs : s.inside = insideL l) : List.Perm (insideL (s :: q)) (insideL (q ++ l)) := by
  rw [insideL_append, insideL, hs]; exact List.perm_append_comm

/-- the entries whose parent is a loop inside the code -/
theorem runQ_child (x : Lp) (p : Option Lp) (q : List Nd) (hd : Distinct q) (hm : x ∈ insideL q)
    (hp : ∀ a, p = some a → a.i ≠ x.i) :
    List.Perm (((runQ p q).filter (isPar x.i)).map (·.1)) (directL x.body) := by
  induction p, q using runQ.induct with
  | case1 p => simp [insideL] at hm
  | case2 p e q ih => simpa [runQ] using ih (by simpa [Distinct, insideL, Nd.inside] using hd) (by simpa [insideL, Nd.inside] using hm) hp
  | case3 p l q ih =>
      have hsw := perm_swap l q (.seq l) (by simp [Nd.inside])
      simp only [runQ]
      exact ih (hd.perm hsw) (hsw.mem_iff.mp hm) hp
  | case4 p l q ih =>
      have hsw := perm_swap l q (.ite l) (by simp [Nd.inside])
      simp only [runQ]
      exact ih (hd.perm hsw) (hsw.mem_iff.mp hm) hp
  | case5 p k i c b q ih1 ih2 =>
      have hd' := hd
      simp only [Distinct, insideL, Nd.inside, List.cons_append, List.map_cons, List.map_append, List.nodup_cons, List.mem_append,
        List.nodup_append, not_or] at hd'
      obtain ⟨⟨hib, hiq⟩, hnb, hnq, hbq⟩ := hd'
      have h3 : isPar x.i (⟨k, i, c, b⟩, p) = false := by
        cases p with
        | none => rfl
        | some a => simpa [isPar] using hp a rfl
      rw [runQ_loop]
      simp only [List.filter_cons, h3, List.filter_append, List.map_append, Bool.false_eq_true, if_false]
      simp only [insideL, Nd.inside, List.cons_append, List.mem_cons, List.mem_append] at hm
      rcases hm with rfl | hm | hm
      · have e2 := runQ_child_none i p q hp (by
          intro a ha e; exact hiq (List.mem_map.mpr ⟨a, ha, e⟩))
        dsimp only at e2 ⊢
        rw [e2, List.map_nil, List.append_nil]
        have := runQ_child_top ⟨k, i, c, b⟩ [.seq b] (by
          intro a ha e; simp only [insideL, Nd.inside, List.append_nil] at ha
          exact hib (List.mem_map.mpr ⟨a, ha, e⟩))
        simpa [directL, Nd.direct] using this
      · have e2 := runQ_child_none x.i p q hp (by
          intro a ha e
          exact hbq _ (List.mem_map_of_mem hm) _ (List.mem_map_of_mem ha) e.symm)
        rw [e2, List.map_nil, List.append_nil]
        refine ih1 (by simpa [Distinct, insideL, Nd.inside] using hnb) (by simpa [insideL, Nd.inside] using hm) ?_
        rintro a ⟨⟩ e
        exact hib (List.mem_map.mpr ⟨x, hm, e.symm⟩)
      · have e2 := runQ_child_none x.i (some ⟨k, i, c, b⟩) [.seq b] (by
            rintro a ⟨⟩ e; exact hiq (List.mem_map.mpr ⟨x, hm, e.symm⟩)) (by
          intro a ha e; simp only [insideL, Nd.inside, List.append_nil] at ha
          exact hbq _ (List.mem_map_of_mem ha) _ (List.mem_map_of_mem hm) e)
        rw [e2, List.map_nil, List.nil_append]
        exact ih2 hnq hm hp
  | case6 p q ih => simpa [runQ] using ih (by simpa [Distinct, insideL, Nd.inside] using hd) (by simpa [insideL, Nd.inside] using hm) hp
  | case7 p q ih => simpa [runQ] using ih (by simpa [Distinct, insideL, Nd.inside] using hd) (by simpa [insideL, Nd.inside] using hm) hp
  | case8 p q ih => simpa [runQ] using ih (by simpa [Distinct, insideL, Nd.inside] using hd) (by simpa [insideL, Nd.inside] using hm) hp

theorem insideL_seq (b : List Nd) : insideL [.seq b] = insideL b := by simp [insideL, Nd.inside]
theorem directL_seq (b : List Nd) : directL [.seq b] = directL b := by simp [directL, Nd.direct]

mutual
theorem Nd.body_inside (n : Nd) (l : Lp) (h : l ∈ n.inside) : ∀ x ∈ insideL l.body, x ∈ n.inside := by
  match n, h with
  | .seq b, h => rw [Nd.inside] at h ⊢; exact insideL_body b l h
  | .ite b, h => rw [Nd.inside] at h ⊢; exact insideL_body b l h
  | .loop k i c b, h =>
      rw [Nd.inside] at h ⊢
      intro x hx
      rcases List.mem_cons.mp h with rfl | h
      · exact List.mem_cons_of_mem _ hx
      · exact List.mem_cons_of_mem _ (insideL_body b l h x hx)
  | .block _, h => simp [Nd.inside] at h
  | .brk, h => simp [Nd.inside] at h
  | .cont, h => simp [Nd.inside] at h
  | .ret, h => simp [Nd.inside] at h
termination_by 2 * n.w
decreasing_by all_goals (simp only [Nd.w]; omega)
theorem insideL_body (q : List Nd) (l : Lp) (h : l ∈ insideL q) : ∀ x ∈ insideL l.body, x ∈ insideL q := by
  match q, h with
  | [], h => simp [insideL] at h
  | n :: r, h =>
      rw [insideL] at h ⊢
      intro x hx
      rcases List.mem_append.mp h with h | h
      · exact List.mem_append_left _ (n.body_inside l h x hx)
      · exact List.mem_append_right _ (insideL_body r l h x hx)
termination_by 2 * wL q + 1
decreasing_by all_goals (simp only [wL]; have := Nd.w_pos n; omega)
end

mutual
/-- the loops of a node: the direct ones and what is inside them -/
theorem Nd.inside_direct (n : Nd) : List.Perm n.inside (n.direct ++ n.direct.flatMap fun l => insideL l.body) := by
  match n with
  | .seq b => rw [Nd.inside, Nd.direct]; exact inside_directL b
  | .ite b => rw [Nd.inside, Nd.direct]; exact inside_directL b
  | .loop k i c b => simp [Nd.inside, Nd.direct]
  | .block _ => simp [Nd.inside, Nd.direct]
  | .brk => simp [Nd.inside, Nd.direct]
  | .cont => simp [Nd.inside, Nd.direct]
  | .ret => simp [Nd.inside, Nd.direct]
termination_by 2 * n.w
decreasing_by all_goals (simp only [Nd.w]; omega)
@[inherit_doc Nd.inside_direct]
theorem inside_directL (q : List Nd) : List.Perm (insideL q) (directL q ++ (directL q).flatMap fun l => insideL l.body) := by
  match q with
  | [] => simp [insideL, directL]
  | n :: r =>
      rw [insideL, directL, List.flatMap_append]
      refine (List.Perm.append n.inside_direct (inside_directL r)).trans ?_
      rw [List.append_assoc, List.append_assoc]
      refine List.Perm.append_left _ ?_
      rw [← List.append_assoc, ← List.append_assoc]
      exact List.Perm.append_right _ List.perm_append_comm
termination_by 2 * wL q + 1
decreasing_by all_goals (simp only [wL]; have := Nd.w_pos n; omega)
end

theorem direct_inside {q : List Nd} {l : Lp} (h : l ∈ directL q) : l ∈ insideL q :=
  (inside_directL q).mem_iff.mpr (List.mem_append_left _ h)

theorem direct_nil (q : List Nd) : directL q = [] ↔ insideL q = [] := by
  have h := inside_directL q
  constructor
  · intro e; rw [e] at h; simpa using h
  · intro e; rw [e] at h; exact (List.append_eq_nil_iff.mp (List.Perm.nil_eq h).symm).1

theorem Distinct.body {root : List Nd} (hd : Distinct root) {l : Lp} (h : l ∈ insideL root) : Distinct l.body ∧ ∀ x ∈ insideL l.body, x.i ≠ l.i := by
  suffices H : (∀ (n : Nd), (n.inside.map (·.i)).Nodup → l ∈ n.inside → Distinct l.body ∧ ∀ x ∈ insideL l.body, x.i ≠ l.i) ∧
      (∀ (q : List Nd), Distinct q → l ∈ insideL q → Distinct l.body ∧ ∀ x ∈ insideL l.body, x.i ≠ l.i) from H.2 root hd h
  have key : ∀ m, (∀ (n : Nd), n.w ≤ m → (n.inside.map (·.i)).Nodup → l ∈ n.inside → Distinct l.body ∧ ∀ x ∈ insideL l.body, x.i ≠ l.i) ∧
      (∀ (q : List Nd), wL q ≤ m → Distinct q → l ∈ insideL q → Distinct l.body ∧ ∀ x ∈ insideL l.body, x.i ≠ l.i) := by
    intro m
    induction m with
    | zero =>
        refine ⟨fun n hn => absurd n.w_pos (by omega), fun q hq _ hm => ?_⟩
        cases q with
        | nil => simp [insideL] at hm
        | cons n r => simp only [wL] at hq; have := n.w_pos; omega
    | succ m ih =>
        have hA : ∀ (n : Nd), n.w ≤ m + 1 → (n.inside.map (·.i)).Nodup → l ∈ n.inside →
            Distinct l.body ∧ ∀ x ∈ insideL l.body, x.i ≠ l.i := by
          intro n hn hnd hm
          cases n with
          | seq b => rw [Nd.inside] at hnd hm; exact ih.2 b (by simp only [Nd.w] at hn; omega) hnd hm
          | ite b => rw [Nd.inside] at hnd hm; exact ih.2 b (by simp only [Nd.w] at hn; omega) hnd hm
          | loop k i c b =>
              rw [Nd.inside] at hnd hm
              rw [List.map_cons, List.nodup_cons] at hnd
              rcases List.mem_cons.mp hm with rfl | hm
              · exact ⟨hnd.2, fun x hx e => hnd.1 (List.mem_map.mpr ⟨x, hx, e⟩)⟩
              · exact ih.2 b (by simp only [Nd.w] at hn; omega) hnd.2 hm
          | _ => simp [Nd.inside] at hm
        refine ⟨hA, fun q hq hnd hm => ?_⟩
        have hB : ∀ (q : List Nd), wL q ≤ m + 1 → Distinct q → l ∈ insideL q → Distinct l.body ∧ ∀ x ∈ insideL l.body, x.i ≠ l.i := by
          intro q
          induction q with
          | nil => intro _ _ hm; simp [insideL] at hm
          | cons n r ihr =>
              intro hq hnd hm
              simp only [wL] at hq
              rw [Distinct, insideL, List.map_append, List.nodup_append] at hnd
              rw [insideL] at hm
              rcases List.mem_append.mp hm with hm | hm
              · exact hA n (by omega) hnd.1 hm
              · exact ihr (by omega) hnd.2.1 hm
        exact hB q hq hnd hm
  exact ⟨fun n => (key n.w).1 n (Nat.le_refl _), fun q => (key (wL q)).2 q (Nat.le_refl _)⟩

/-! ### C58: loops, parents, children, nesting -/

/-- C58: `loops()` lists every loop of the function exactly once, whatever the nesting -/
theorem loops_exact (root : List Nd) : List.Perm (loops root) (insideL root) := by
  have := runQ_inside none [.seq root]
  rwa [insideL_seq] at this

theorem no_outermost : ∀ (p : Option Lp) (q : List Nd) (a : Lp), p = some a → (runQ p q).filter (fun e => e.2.isNone) = [] := by
  intro p q
  induction p, q using runQ.induct with
  | case1 p => intros; simp [runQ]
  | case2 p e q ih => intro a ha; rw [runQ]; exact ih a ha
  | case3 p l q ih => intro a ha; rw [runQ]; exact ih a ha
  | case4 p l q ih => intro a ha; rw [runQ]; exact ih a ha
  | case5 p k i c b q ih1 ih2 =>
      intro a ha
      rw [runQ_loop, List.filter_cons, List.filter_append, ih1 _ rfl, ih2 a ha]
      subst ha; rfl
  | case6 p q ih => intro a ha; rw [runQ]; exact ih a ha
  | case7 p q ih => intro a ha; rw [runQ]; exact ih a ha
  | case8 p q ih => intro a ha; rw [runQ]; exact ih a ha

/-- C58: `outermost_loops()` are exactly the loops inside no other loop -/
theorem outermost_exact (root : List Nd) : List.Perm (outermost (loopTree root)) (directL root) := by
  have key : ∀ (q : List Nd), List.Perm (((runQ none q).filter fun e => e.2.isNone).map (·.1)) (directL q) := by
    have hS := no_outermost
    intro q
    generalize hp : (none : Option Lp) = p
    induction p, q using runQ.induct with
    | case1 p => simp [runQ, directL]
    | case2 p e q ih => simpa [runQ, directL, Nd.direct] using ih hp
    | case3 p l q ih =>
        simp only [runQ, directL, Nd.direct]
        exact (ih hp).trans (by rw [directL_append]; exact List.perm_append_comm)
    | case4 p l q ih =>
        simp only [runQ, directL, Nd.direct]
        exact (ih hp).trans (by rw [directL_append]; exact List.perm_append_comm)
    | case5 p k i c b q ih1 ih2 =>
        rw [runQ_loop, List.filter_cons, List.filter_append, hS _ _ _ rfl]
        subst hp
        simp only [directL, Nd.direct, List.nil_append, Option.isNone_none, if_true, List.map_cons, List.cons_append]
        exact List.Perm.cons _ (ih2 rfl)
    | case6 p q ih => simpa [runQ, directL, Nd.direct] using ih hp
    | case7 p q ih => simpa [runQ, directL, Nd.direct] using ih hp
    | case8 p q ih => simpa [runQ, directL, Nd.direct] using ih hp
  have := key [.seq root]
  rwa [directL_seq] at this

/-- C58: `children(l)` are exactly the loops in the body of `l` that are in no other loop of the body -/
theorem children_exact (root : List Nd) (hd : Distinct root) (l : Lp) (hl : l ∈ insideL root) :
    List.Perm (children (loopTree root) l) (directL l.body) := by
  rw [children_eq]
  exact runQ_child l none [.seq root] (by rw [Distinct, insideL_seq]; exact hd) (by rw [insideL_seq]; exact hl) (by simp)

/-- C58: the map of loops to parents: the parent of `l` is the loop that directly contains it -/
theorem entries_exact (root : List Nd) (hd : Distinct root) (l p : Lp) (hp : p ∈ insideL root) :
    (∃ q, (l, some q) ∈ loopTree root ∧ q.i = p.i) ↔ l ∈ directL p.body := by
  rw [← (children_exact root hd p hp).mem_iff, children_eq]
  simp only [List.mem_map, List.mem_filter, isPar]
  constructor
  · rintro ⟨q, hq, e⟩; exact ⟨(l, some q), ⟨hq, by simpa using e⟩, rfl⟩
  · rintro ⟨⟨l', q⟩, ⟨hq, e⟩, rfl⟩
    cases q with
    | none => simp at e
    | some q => exact ⟨q, hq, by simpa using e⟩

/-- C58: the listing is a depth first one: a loop is followed at once by all loops inside it, so a parent comes before its
children and different nests do not interleave -/
theorem nest_contiguous (root : List Nd) (l : Lp) (hl : l ∈ insideL root) :
    ∃ a s b, loops root = a ++ l :: (s ++ b) ∧ List.Perm s (insideL l.body) := by
  have key : ∀ (p : Option Lp) (q : List Nd), l ∈ insideL q →
      ∃ a s b, (runQ p q).map (·.1) = a ++ l :: (s ++ b) ∧ List.Perm s (insideL l.body) := by
    intro p q
    induction p, q using runQ.induct with
    | case1 p => intro h; simp [insideL] at h
    | case2 p e q ih => intro h; rw [runQ]; exact ih (by simpa [insideL, Nd.inside] using h)
    | case3 p b q ih => intro h; rw [runQ]; exact ih ((perm_swap b q (.seq b) (by simp [Nd.inside])).mem_iff.mp h)
    | case4 p b q ih => intro h; rw [runQ]; exact ih ((perm_swap b q (.ite b) (by simp [Nd.inside])).mem_iff.mp h)
    | case5 p k i c b q ih1 ih2 =>
        intro h
        rw [runQ_loop, List.map_cons, List.map_append]
        simp only [insideL, Nd.inside, List.cons_append, List.mem_cons, List.mem_append] at h
        rcases h with rfl | h | h
        · exact ⟨[], _, _, rfl, by have := runQ_inside (some ⟨k, i, c, b⟩) [.seq b]; rwa [insideL_seq] at this⟩
        · obtain ⟨a, s, d, e, hp⟩ := ih1 (by rw [insideL_seq]; exact h)
          exact ⟨⟨k, i, c, b⟩ :: a, s, d ++ (runQ p q).map (·.1), by rw [e]; simp, hp⟩
        · obtain ⟨a, s, d, e, hp⟩ := ih2 h
          exact ⟨⟨k, i, c, b⟩ :: ((runQ (some ⟨k, i, c, b⟩) [.seq b]).map (·.1) ++ a), s, d, by rw [e]; simp, hp⟩
    | case6 p q ih => intro h; rw [runQ]; exact ih (by simpa [insideL, Nd.inside] using h)
    | case7 p q ih => intro h; rw [runQ]; exact ih (by simpa [insideL, Nd.inside] using h)
    | case8 p q ih => intro h; rw [runQ]; exact ih (by simpa [insideL, Nd.inside] using h)
  exact key none [.seq root] (by rw [insideL_seq]; exact hl)

theorem tree_ids (root : List Nd) (hd : Distinct root) : ((loopTree root).map (·.1.i)).Nodup := by
  have h := (loops_exact root).map (fun x : Lp => x.i)
  rw [loops, List.map_map] at h
  exact h.nodup_iff.mpr hd

theorem find_of_ids : ∀ (t : List (Lp × Option Lp)), (t.map (·.1.i)).Nodup → ∀ e ∈ t, ∀ l : Lp, l.i = e.1.i →
    t.find? (fun x => x.1.i == l.i) = some e := by
  intro t
  induction t with
  | nil => intro _ e he; simp at he
  | cons x r ih =>
      intro hn e he l hl
      rw [List.map_cons, List.nodup_cons] at hn
      rw [List.find?_cons]
      rcases List.mem_cons.mp he with rfl | he
      · simp [hl]
      · have : (x.1.i == l.i) = false := by
          rw [beq_eq_false_iff_ne]
          intro e'; exact hn.1 (List.mem_map.mpr ⟨e, he, by rw [← hl, e']⟩)
        rw [this]; exact ih hn.2 e he l hl

/-- C58: `parent_loop(l)` is the recorded parent, for every listed loop -/
theorem parent_entry (root : List Nd) (hd : Distinct root) (l : Lp) (p : Option Lp) (h : (l, p) ∈ loopTree root) :
    parentOf (loopTree root) l = some p := by
  rw [parentOf, find_of_ids _ (tree_ids root hd) _ h l rfl]; rfl

theorem outermost_mem (t : List (Lp × Option Lp)) (l : Lp) : l ∈ outermost t ↔ (l, none) ∈ t := by
  simp only [outermost, List.mem_map, List.mem_filter]
  constructor
  · rintro ⟨⟨a, p⟩, ⟨h, e⟩, rfl⟩
    cases p with
    | none => exact h
    | some p => simp at e
  · intro h; exact ⟨_, ⟨h, rfl⟩, rfl⟩

/-- C58: `is_outermost_loop(l)` for a loop of the function -/
theorem is_outermost_exact (root : List Nd) (hd : Distinct root) (l : Lp) (hl : l ∈ insideL root) :
    isOutermost (loopTree root) l = true ↔ l ∈ directL root := by
  have hm := (loops_exact root).mem_iff.mpr hl
  obtain ⟨⟨a, p⟩, he, rfl⟩ := List.mem_map.mp hm
  rw [← (outermost_exact root).mem_iff, outermost_mem, isOutermost, parent_entry root hd a p he]
  cases p with
  | none => simpa using he
  | some p =>
      simp only [Bool.false_eq_true, false_iff]
      intro h
      have h1 := parent_entry root hd a _ he
      rw [parent_entry root hd a _ h] at h1
      cases h1

/-- C58: `is_outermost_loop` of a loop that is not part of the function -/
theorem is_outermost_unknown (root : List Nd) (l : Lp) (hl : ∀ x ∈ insideL root, x.i ≠ l.i) :
    isOutermost (loopTree root) l = false := by
  have h : (loopTree root).find? (fun e => e.1.i == l.i) = none := by
    rw [List.find?_eq_none]
    intro e he
    have := hl e.1 ((loops_exact root).mem_iff.mp (List.mem_map_of_mem he))
    simpa using this
  rw [isOutermost, parentOf, h]; rfl

/-! #### chains and depth -/

/-- a tree whose `children` are the direct loops, up to order, for all loops in the code -/
def Good (t : List (Lp × Option Lp)) (q : List Nd) : Prop := ∀ l ∈ insideL q, List.Perm (children t l) (directL l.body)

theorem good (root : List Nd) (hd : Distinct root) : Good (loopTree root) root := fun l hl => children_exact root hd l hl

theorem Good.body {t : List (Lp × Option Lp)} {q : List Nd} (h : Good t q) {l : Lp} (hl : l ∈ insideL q) : Good t l.body :=
  fun x hx => h x (insideL_body q l hl x hx)

mutual
theorem Nd.depth_mem (n : Nd) : ∀ l ∈ n.direct, 1 + depthL l.body ≤ n.depth := by
  match n with
  | .seq b => rw [Nd.direct, Nd.depth]; exact depthL_mem b
  | .ite b => rw [Nd.direct, Nd.depth]; exact depthL_mem b
  | .loop k i c b => simp [Nd.direct, Nd.depth]
  | .block _ => simp [Nd.direct]
  | .brk => simp [Nd.direct]
  | .cont => simp [Nd.direct]
  | .ret => simp [Nd.direct]
termination_by 2 * n.w
decreasing_by all_goals (simp only [Nd.w]; omega)
theorem depthL_mem (q : List Nd) : ∀ l ∈ directL q, 1 + depthL l.body ≤ depthL q := by
  match q with
  | [] => simp [directL]
  | n :: r =>
      intro l hl
      rw [directL] at hl; rw [depthL]
      rcases List.mem_append.mp hl with hl | hl
      · have := n.depth_mem l hl; omega
      · have := depthL_mem r l hl; omega
termination_by 2 * wL q + 1
decreasing_by all_goals (simp only [wL]; have := Nd.w_pos n; omega)
end

mutual
theorem Nd.depth_attained (n : Nd) : n.depth = 0 ∧ n.direct = [] ∨ ∃ l ∈ n.direct, n.depth = 1 + depthL l.body := by
  match n with
  | .seq b => rw [Nd.direct, Nd.depth]; exact depthL_attained b
  | .ite b => rw [Nd.direct, Nd.depth]; exact depthL_attained b
  | .loop k i c b => simp [Nd.direct, Nd.depth]
  | .block _ => simp [Nd.direct, Nd.depth]
  | .brk => simp [Nd.direct, Nd.depth]
  | .cont => simp [Nd.direct, Nd.depth]
  | .ret => simp [Nd.direct, Nd.depth]
termination_by 2 * n.w
decreasing_by all_goals (simp only [Nd.w]; omega)
theorem depthL_attained (q : List Nd) : depthL q = 0 ∧ directL q = [] ∨ ∃ l ∈ directL q, depthL q = 1 + depthL l.body := by
  match q with
  | [] => simp [directL, depthL]
  | n :: r =>
      rw [directL, depthL]
      have h1 := n.depth_attained
      have h2 := depthL_attained r
      rcases h1 with ⟨h1, e1⟩ | ⟨l1, m1, h1⟩
      · rcases h2 with ⟨h2, e2⟩ | ⟨l2, m2, h2⟩
        · exact .inl ⟨by omega, by rw [e1, e2]; rfl⟩
        · exact .inr ⟨l2, List.mem_append_right _ m2, by omega⟩
      · rcases h2 with ⟨h2, e2⟩ | ⟨l2, m2, h2⟩
        · exact .inr ⟨l1, List.mem_append_left _ m1, by omega⟩
        · by_cases hc : n.depth ≤ depthL r
          · exact .inr ⟨l2, List.mem_append_right _ m2, by omega⟩
          · exact .inr ⟨l1, List.mem_append_left _ m1, by omega⟩
termination_by 2 * wL q + 1
decreasing_by all_goals (simp only [wL]; have := Nd.w_pos n; omega)
end

mutual
theorem Nd.depth_le (n : Nd) : n.depth ≤ n.inside.length := by
  match n with
  | .seq b => rw [Nd.inside, Nd.depth]; exact depthL_le b
  | .ite b => rw [Nd.inside, Nd.depth]; exact depthL_le b
  | .loop k i c b => rw [Nd.inside, Nd.depth, List.length_cons]; have := depthL_le b; omega
  | .block _ => simp [Nd.inside, Nd.depth]
  | .brk => simp [Nd.inside, Nd.depth]
  | .cont => simp [Nd.inside, Nd.depth]
  | .ret => simp [Nd.inside, Nd.depth]
termination_by 2 * n.w
decreasing_by all_goals (simp only [Nd.w]; omega)
theorem depthL_le (q : List Nd) : depthL q ≤ (insideL q).length := by
  match q with
  | [] => simp [insideL, depthL]
  | n :: r =>
      rw [insideL, depthL, List.length_append]
      have h1 := n.depth_le
      have h2 := depthL_le r
      omega
termination_by 2 * wL q + 1
decreasing_by all_goals (simp only [wL]; have := Nd.w_pos n; omega)
end

theorem pathsF_iff (t : List (Lp × Option Lp)) (f : Nat) : ∀ (l : Lp), Good t l.body → List.Perm (children t l) (directL l.body) →
    depthL l.body < f → ∀ p, p ∈ pathsF t f l ↔ Chain l p := by
  induction f with
  | zero => intro l _ _ h; omega
  | succ f ih =>
      intro l hg hc hf p
      rw [pathsF]
      split
      · rename_i e
        rw [e] at hc
        have e0 : directL l.body = [] := (List.Perm.nil_eq hc).symm
        constructor
        · intro h; rw [List.mem_singleton.mp h]; exact .leaf ((direct_nil _).mp e0)
        · intro h
          cases h with
          | leaf _ => simp
          | step hm _ => rw [e0] at hm; simp at hm
      · rename_i hne
        have hne' : directL l.body ≠ [] := by
          intro e; rw [e] at hc; exact hne (List.Perm.eq_nil hc)
        simp only [List.mem_flatMap, List.mem_map]
        have hrec : ∀ c ∈ directL l.body, ∀ p, p ∈ pathsF t f c ↔ Chain c p := fun c hcm =>
          ih c (hg.body (direct_inside hcm)) (hg c (direct_inside hcm)) (by have := depthL_mem l.body c hcm; omega)
        constructor
        · rintro ⟨c, hcm, p', hp', rfl⟩
          have hcm' := hc.mem_iff.mp hcm
          exact .step hcm' ((hrec c hcm' p').mp hp')
        · intro h
          cases h with
          | leaf h => exact absurd ((direct_nil _).mpr h) hne'
          | step hm hch => exact ⟨_, hc.mem_iff.mpr hm, _, (hrec _ hm _).mpr hch, rfl⟩

theorem loopTree_length (root : List Nd) : (loopTree root).length = (insideL root).length := by
  have := (loops_exact root).length_eq
  rwa [loops, List.length_map] at this

theorem depth_inside (q : List Nd) : ∀ l ∈ insideL q, depthL l.body < (insideL q).length := by
  intro l hl
  have h1 : depthL l.body ≤ (insideL l.body).length := depthL_le _
  obtain ⟨a, s, b, e, hp⟩ := nest_contiguous q l hl
  have h2 := (loops_exact q).length_eq
  rw [e] at h2
  simp only [List.length_append, List.length_cons, hp.length_eq] at h2
  omega

/-- C58: `loop_tree_paths(l)` are exactly the chains of nested loops from `l` down to a loop without loops inside -/
theorem paths_exact (root : List Nd) (hd : Distinct root) (l : Lp) (hl : l ∈ insideL root) (p : List Lp) :
    p ∈ loopTreePaths (loopTree root) l ↔ Chain l p :=
  pathsF_iff _ _ l ((good root hd).body hl) (children_exact root hd l hl)
    (by rw [loopTree_length]; have := depth_inside root l hl; omega) p

theorem Chain.length_le {l : Lp} {p : List Lp} (h : Chain l p) : p.length ≤ 1 + depthL l.body := by
  induction h with
  | leaf _ => simp
  | step hm _ ih => rw [List.length_cons]; have := depthL_mem _ _ hm; omega

theorem Chain.exists_max (n : Nat) : ∀ l : Lp, depthL l.body ≤ n → ∃ p, Chain l p ∧ p.length = 1 + depthL l.body := by
  induction n with
  | zero =>
      intro l h
      rcases depthL_attained l.body with ⟨h1, e1⟩ | ⟨c, hc, e⟩
      · exact ⟨[l], .leaf ((direct_nil _).mp e1), by simp [h1]⟩
      · omega
  | succ n ih =>
      intro l h
      rcases depthL_attained l.body with ⟨h1, e1⟩ | ⟨c, hc, e⟩
      · exact ⟨[l], .leaf ((direct_nil _).mp e1), by simp [h1]⟩
      · obtain ⟨p, hp, e'⟩ := ih c (by omega)
        exact ⟨l :: p, .step hc hp, by rw [List.length_cons]; omega⟩

theorem foldl_max_ge {α : Type _} (g : α → Nat) : ∀ (l : List α) (m : Nat), m ≤ l.foldl (fun m p => max m (g p)) m ∧
    (∀ x ∈ l, g x ≤ l.foldl (fun m p => max m (g p)) m) := by
  intro l
  induction l with
  | nil => intro m; simp
  | cons x r ih =>
      intro m
      rw [List.foldl_cons]
      have h := ih (max m (g x))
      refine ⟨by omega, ?_⟩
      intro y hy
      rcases List.mem_cons.mp hy with rfl | hy
      · omega
      · exact h.2 y hy

theorem foldl_max_le {α : Type _} (g : α → Nat) (B : Nat) : ∀ (l : List α) (m : Nat), m ≤ B → (∀ x ∈ l, g x ≤ B) →
    l.foldl (fun m p => max m (g p)) m ≤ B := by
  intro l
  induction l with
  | nil => intro m h _; simpa using h
  | cons x r ih =>
      intro m hm h
      rw [List.foldl_cons]
      exact ih _ (by have := h x (List.mem_cons_self ..); omega) (fun y hy => h y (List.mem_cons_of_mem _ hy))

/-- C59: the reported depth of a nest is the real nesting depth -/
theorem max_depth_exact (root : List Nd) (hd : Distinct root) (l : Lp) (hl : l ∈ insideL root) (idx : Nat) :
    (infoOf (loopTree root) idx l).maxDepth = 1 + depthL l.body := by
  simp only [infoOf]
  obtain ⟨p, hp, e⟩ := Chain.exists_max _ l (Nat.le_refl _)
  have h1 := (foldl_max_ge (fun p : List Lp => p.length) (loopTreePaths (loopTree root) l) 0).2 p ((paths_exact root hd l hl p).mpr hp)
  have h2 := foldl_max_le (fun p : List Lp => p.length) (1 + depthL l.body) (loopTreePaths (loopTree root) l) 0 (by omega)
    (fun p hp => ((paths_exact root hd l hl p).mp hp).length_le)
  omega

/-! #### descendants -/

theorem insertNew_fresh : ∀ (cs d q : List Lp), (d.map (·.i) ++ cs.map (·.i)).Nodup → insertNew d q cs = (d ++ cs, q ++ cs) := by
  intro cs
  induction cs with
  | nil => intro d q _; simp [insertNew]
  | cons c r ih =>
      intro d q hn
      rw [insertNew]
      have h1 : (d.any fun x => x.i == c.i) = false := by
        rw [Bool.eq_false_iff]
        intro h
        rw [List.any_eq_true] at h
        obtain ⟨x, hx, e⟩ := h
        rw [List.nodup_append] at hn
        exact hn.2.2 x.i (List.mem_map_of_mem hx) c.i (by simp) (by simpa using e)
      rw [h1]
      simp only [Bool.false_eq_true, if_false]
      rw [ih _ _ (by simpa using hn)]
      simp

/-- everything inside the loops of a work list -/
def bodies (q : List Lp) : List Lp := q.flatMap fun l => insideL l.body

theorem descF_perm (t : List (Lp × Option Lp)) (f : Nat) : ∀ (q d : List Lp),
    (∀ l ∈ q, Good t l.body ∧ List.Perm (children t l) (directL l.body)) → ((d ++ bodies q).map (·.i)).Nodup →
    q.length + (bodies q).length ≤ f → List.Perm (descF t f q d) (d ++ bodies q) := by
  induction f with
  | zero =>
      intro q d _ _ hf
      have : q = [] := List.eq_nil_of_length_eq_zero (by omega)
      subst this
      simp [descF, bodies]
  | succ f ih =>
      intro q d hg hn hf
      cases q with
      | nil => simp [descF, bodies]
      | cons c q =>
          rw [descF]
          obtain ⟨hgc, hcc⟩ := hg c (List.mem_cons_self ..)
          have hB : bodies (c :: q) = insideL c.body ++ bodies q := by simp [bodies]
          have hA : bodies (q ++ children t c) = bodies q ++ bodies (children t c) := by simp [bodies]
          have hI : List.Perm (insideL c.body) (children t c ++ bodies (children t c)) := by
            refine (inside_directL c.body).trans (List.Perm.append hcc.symm ?_)
            exact (List.Perm.flatMap_right _ hcc.symm)
          have hP : List.Perm (d ++ bodies (c :: q)) ((d ++ children t c) ++ bodies (q ++ children t c)) := by
            rw [hB, hA, List.append_assoc]
            refine List.Perm.append_left _ ((List.Perm.append_right _ hI).trans ?_)
            rw [List.append_assoc]
            exact List.Perm.append_left _ List.perm_append_comm
          have hn' := ((hP.map (fun x : Lp => x.i)).nodup_iff).mp hn
          have hfr : insertNew d q (children t c) = (d ++ children t c, q ++ children t c) := by
            refine insertNew_fresh _ _ _ ?_
            rw [List.map_append, List.map_append] at hn'
            exact (List.nodup_append.mp hn').1
          simp only [hfr]
          refine (ih (q ++ children t c) (d ++ children t c) ?_ hn' ?_).trans hP.symm
          · intro l hl
            rcases List.mem_append.mp hl with hl | hl
            · exact hg l (List.mem_cons_of_mem _ hl)
            · have := direct_inside (hcc.mem_iff.mp hl)
              exact ⟨hgc.body this, hgc l this⟩
          · have := hP.length_eq
            simp only [List.length_append, List.length_cons] at this hf ⊢
            omega

/-- C58: `descendants(l)` are exactly the loops inside the body of `l`, each once -/
theorem descendants_exact (root : List Nd) (hd : Distinct root) (l : Lp) (hl : l ∈ insideL root) :
    List.Perm (descendants (loopTree root) l) (insideL l.body) := by
  have hb : bodies [l] = insideL l.body := by simp [bodies]
  have h := descF_perm (loopTree root) ((loopTree root).length + 1) [l] []
    (by intro x hx; rw [List.mem_singleton.mp hx]; exact ⟨(good root hd).body hl, children_exact root hd l hl⟩)
    (by rw [List.nil_append, hb]; exact (hd.body hl).1)
    (by
      rw [hb, loopTree_length]
      obtain ⟨a, s, b, e, hp⟩ := nest_contiguous root l hl
      have h2 := (loops_exact root).length_eq
      rw [e] at h2
      simp only [List.length_append, List.length_cons, hp.length_eq, List.length_nil] at h2 ⊢
      omega)
  rwa [List.nil_append, hb] at h

/-- the loops a summary counts: the loop and those inside it -/
theorem summary_loops (root : List Nd) (hd : Distinct root) (l : Lp) (hl : l ∈ insideL root) :
    List.Perm (insertNew (descendants (loopTree root) l) [] [l]).1 (l :: insideL l.body) := by
  have hp := descendants_exact root hd l hl
  rw [insertNew_fresh]
  · exact (List.Perm.append_right _ hp).trans List.perm_append_comm
  · rw [List.nodup_append]
    refine ⟨((hp.map (fun x : Lp => x.i)).nodup_iff).mpr (hd.body hl).1, by simp, ?_⟩
    intro a ha b hb e
    simp only [List.map_cons, List.map_nil, List.mem_singleton] at hb
    obtain ⟨x, hx, rfl⟩ := List.mem_map.mp ha
    exact (hd.body hl).2 x (hp.mem_iff.mp hx) (e.trans hb)

/-- C59: the loop counts of a summary -/
theorem counts_exact (root : List Nd) (hd : Distinct root) (l : Lp) (hl : l ∈ insideL root) (idx : Nat) :
    (infoOf (loopTree root) idx l).numLoops = 1 + (insideL l.body).length ∧
    (infoOf (loopTree root) idx l).numMaps = ((l :: insideL l.body).filter fun x => decide (x.k = .map)).length ∧
    (infoOf (loopTree root) idx l).numFors = ((l :: insideL l.body).filter fun x => decide (x.k = .for_)).length ∧
    (infoOf (loopTree root) idx l).numWhiles = ((l :: insideL l.body).filter fun x => decide (x.k = .whil)).length := by
  have h := summary_loops root hd l hl
  simp only [infoOf]
  refine ⟨?_, (h.filter _).length_eq, (h.filter _).length_eq, (h.filter _).length_eq⟩
  rw [h.length_eq, List.length_cons]; omega

/-- C59: the three kinds account for all loops -/
theorem counts_add (root : List Nd) (hd : Distinct root) (l : Lp) (hl : l ∈ insideL root) (idx : Nat) :
    (infoOf (loopTree root) idx l).numLoops = (infoOf (loopTree root) idx l).numMaps + (infoOf (loopTree root) idx l).numFors +
      (infoOf (loopTree root) idx l).numWhiles := by
  obtain ⟨h1, h2, h3, h4⟩ := counts_exact root hd l hl idx
  rw [h1, h2, h3, h4]
  have key : ∀ x : List Lp, x.length = (x.filter fun x => decide (x.k = .map)).length +
      (x.filter fun x => decide (x.k = .for_)).length + (x.filter fun x => decide (x.k = .whil)).length := by
    intro x
    induction x with
    | nil => rfl
    | cons a r ih =>
        rcases hk : a.k with _ | _ | _ <;> simp [hk] <;> omega
  have := key (l :: insideL l.body)
  rw [List.length_cons] at this
  omega

theorem filter_length_eq {α : Type _} (p : α → Bool) : ∀ l : List α, l.length = (l.filter p).length ↔ ∀ x ∈ l, p x = true := by
  intro l
  rw [← List.filter_eq_self]
  constructor
  · intro h; exact List.Sublist.eq_of_length (List.filter_sublist) h.symm
  · intro h; rw [h]

/-- C59: a nest is reported perfectly parallel exactly when all its loops are Maps -/
theorem parallel_exact (root : List Nd) (hd : Distinct root) (l : Lp) (hl : l ∈ insideL root) (idx : Nat) :
    (infoOf (loopTree root) idx l).perfectlyParallel = true ↔ l.k = .map ∧ ∀ x ∈ insideL l.body, x.k = .map := by
  have h := summary_loops root hd l hl
  simp only [infoOf, beq_iff_eq]
  rw [filter_length_eq]
  constructor
  · intro h'
    exact ⟨by simpa using h' l (h.mem_iff.mpr (List.mem_cons_self ..)),
      fun x hx => by simpa using h' x (h.mem_iff.mpr (List.mem_cons_of_mem _ hx))⟩
  · rintro ⟨h1, h2⟩ x hx
    rcases List.mem_cons.mp (h.mem_iff.mp hx) with rfl | hx
    · simpa using h1
    · simpa using h2 x hx

/-! #### perfect nests -/

theorem perfectF_iff (t : List (Lp × Option Lp)) (f : Nat) : ∀ (l : Lp), Good t l.body → List.Perm (children t l) (directL l.body) →
    depthL l.body < f → (perfectF t f l = true ↔ Perfect l) := by
  induction f with
  | zero => intro l _ _ h; omega
  | succ f ih =>
      intro l hg hc hf
      rw [perfectF]
      split
      · rename_i e
        rw [e] at hc
        have e0 : directL l.body = [] := (List.Perm.nil_eq hc).symm
        simp only [true_iff]
        exact .leaf ((direct_nil _).mp e0)
      · rename_i c e
        rw [e] at hc
        have hcm : directL l.body = [c] := by simpa using hc.symm
        split
        · rename_i k i cg b eb
          rw [eb] at hcm
          simp only [directL, Nd.direct, List.append_nil, List.cons.injEq, and_true] at hcm
          subst hcm
          simp only [if_true]
          have hm : (⟨k, i, cg, b⟩ : Lp) ∈ directL l.body := by rw [eb]; simp [directL, Nd.direct]
          rw [ih _ (hg.body (direct_inside hm)) (hg _ (direct_inside hm)) (by have := depthL_mem l.body _ hm; omega)]
          constructor
          · intro h; exact .step (c := ⟨k, i, cg, b⟩) eb h
          · intro h
            cases h with
            | leaf h => rw [← direct_nil, eb] at h; simp [directL, Nd.direct] at h
            | @step _ c h hp =>
                rw [eb, Lp.nd] at h
                simp only [List.cons.injEq, Nd.loop.injEq, and_true] at h
                obtain ⟨rfl, rfl, rfl, rfl⟩ := h
                exact hp
        · rename_i hb
          simp only [Bool.false_eq_true, false_iff]
          intro h
          cases h with
          | leaf h => rw [← direct_nil, hcm] at h; simp at h
          | step h _ => exact hb _ _ _ _ h
      · rename_i h1 h2
        simp only [Bool.false_eq_true, false_iff]
        intro h
        cases h with
        | leaf h => rw [(direct_nil _).mpr h] at hc; exact h1 (List.Perm.eq_nil hc)
        | step h _ =>
            rw [h] at hc
            simp only [directL, Nd.direct, Lp.nd, List.append_nil] at hc
            exact h2 _ (List.perm_singleton.mp hc)

/-- C59: `is_perfectly_nested` -/
theorem perfect_exact (root : List Nd) (hd : Distinct root) (l : Lp) (hl : l ∈ insideL root) (idx : Nat) :
    (infoOf (loopTree root) idx l).perfectlyNested = true ↔ Perfect l :=
  perfectF_iff _ _ l ((good root hd).body hl) (children_exact root hd l hl)
    (by rw [loopTree_length]; have := depth_inside root l hl; omega)

/-- C59: `is_elementwise`: a perfect nest of Maps, all contiguous -/
theorem elementwise_exact (root : List Nd) (hd : Distinct root) (l : Lp) (hl : l ∈ insideL root) (idx : Nat) :
    (infoOf (loopTree root) idx l).elementwise = true ↔
      Perfect l ∧ ∀ x ∈ l :: insideL l.body, x.k = .map ∧ x.contig = true := by
  have h := summary_loops root hd l hl
  have hp := perfect_exact root hd l hl idx
  have hq := parallel_exact root hd l hl idx
  simp only [infoOf] at hp hq ⊢
  rw [Bool.and_eq_true, Bool.and_eq_true, hp, hq]
  simp only [List.all_eq_true, Bool.and_eq_true, decide_eq_true_eq]
  constructor
  · rintro ⟨⟨h1, h2, h3⟩, h4⟩
    refine ⟨h1, fun x hx => ⟨?_, (h4 x (h.mem_iff.mpr hx)).2⟩⟩
    rcases List.mem_cons.mp hx with rfl | hx
    · exact h2
    · exact h3 x hx
  · rintro ⟨h1, h2⟩
    refine ⟨⟨h1, (h2 l (List.mem_cons_self ..)).1, fun x hx => (h2 x (List.mem_cons_of_mem _ hx)).1⟩, fun x hx => ?_⟩
    have := h2 x (h.mem_iff.mp hx)
    exact ⟨by rw [this.1]; decide, this.2⟩

/-! #### side effects -/

theorem effQ_eff (q : List Nd) : effQ q = effL q := by
  induction q using effQ.induct with
  | case1 => simp [effQ, effL]
  | case2 e q ih => simp [effQ, effL, Nd.eff, ih]
  | case3 l q ih => rw [effQ, ih, effL_append, effL, Nd.eff, Bool.or_comm]
  | case4 l q ih => rw [effQ, ih, effL_append, effL, Nd.eff, Bool.or_comm]
  | case5 => simp_all [effQ, effL, Nd.eff]
  | case6 i c b q ih =>
      rw [show effQ (Nd.loop .whil i c b :: q) = effQ (q ++ [.seq b]) by conv => lhs; rw [effQ]]
      rw [ih, effL_append]; simp only [effL, Nd.eff, Bool.or_false]; rw [Bool.or_comm]
  | case7 i c b q ih =>
      rw [show effQ (Nd.loop .for_ i c b :: q) = effQ (q ++ [.seq b]) by conv => lhs; rw [effQ]]
      rw [ih, effL_append]; simp only [effL, Nd.eff, Bool.or_false]; rw [Bool.or_comm]
  | case8 q ih => simp [effQ, effL, Nd.eff, ih]
  | case9 q ih => simp [effQ, effL, Nd.eff, ih]
  | case10 q => simp [effQ, effL, Nd.eff]

/-- C59 (part): `has_side_effects` of a nest: a return or a block with a side effect, *outside all Maps* -/
theorem effects_exact_partial (root : List Nd) (l : Lp) (idx : Nat) :
    (infoOf (loopTree root) idx l).sideEffects = l.nd.eff := by
  simp only [infoOf, Lp.nd]
  rcases hk : l.k with _ | _ | _ <;> simp [Nd.eff, effQ_eff, effL]

mutual
/-- the full property: a return statement or a block with a side effect anywhere -/
def Nd.effAll : Nd → Bool
  | .block e => e
  | .seq l => effAllL l
  | .ite l => effAllL l
  | .loop _ _ _ b => effAllL b
  | .ret => true
  | _ => false
@[inherit_doc Nd.effAll] def effAllL : List Nd → Bool
  | [] => false
  | n :: r => n.effAll || effAllL r
end

mutual
theorem Nd.eff_all (n : Nd) (h : n.eff = true) : n.effAll = true := by
  match n, h with
  | .block e, h => simpa [Nd.eff, Nd.effAll] using h
  | .seq b, h => rw [Nd.eff] at h; rw [Nd.effAll]; exact effL_all b h
  | .ite b, h => rw [Nd.eff] at h; rw [Nd.effAll]; exact effL_all b h
  | .loop .map _ _ _, h => simp [Nd.eff] at h
  | .loop .for_ _ _ b, h => simp only [Nd.eff] at h; rw [Nd.effAll]; exact effL_all b h
  | .loop .whil _ _ b, h => simp only [Nd.eff] at h; rw [Nd.effAll]; exact effL_all b h
  | .brk, h => simp [Nd.eff] at h
  | .cont, h => simp [Nd.eff] at h
  | .ret, _ => simp [Nd.effAll]
termination_by 2 * n.w
decreasing_by all_goals (simp only [Nd.w]; omega)
theorem effL_all (q : List Nd) (h : effL q = true) : effAllL q = true := by
  match q, h with
  | [], h => simp [effL] at h
  | n :: r, h =>
      rw [effL, Bool.or_eq_true] at h
      rw [effAllL, Bool.or_eq_true]
      rcases h with h | h
      · exact .inl (n.eff_all h)
      · exact .inr (effL_all r h)
termination_by 2 * wL q + 1
decreasing_by all_goals (simp only [wL]; have := Nd.w_pos n; omega)
end

/-- C59: a reported side effect is a real one -/
theorem effects_sound (root : List Nd) (l : Lp) (idx : Nat) (h : (infoOf (loopTree root) idx l).sideEffects = true) :
    l.nd.effAll = true := by
  rw [effects_exact_partial] at h; exact l.nd.eff_all h

/-- for i { map j { call } } -/
def exHidden : List Nd := [.loop .for_ 0 true [.loop .map 1 true [.block true]]]

/-- C59 fails for `has_side_effects`: a call inside a Map inside a For is not reported -/
theorem effects_hidden_by_map : ∃ (root : List Nd) (l : Lp) (inf : Info), Distinct root ∧ (l, inf) ∈ infos root ∧
    l.nd.effAll = true ∧ inf.sideEffects = false :=
  ⟨exHidden, ⟨.for_, 0, true, [.loop .map 1 true [.block true]]⟩, _, by decide, by simp [infos, exHidden, loopTree, runQ, outermost, infosFrom]; rfl,
    by decide, by simp [infoOf, effQ]⟩

/-! #### outermost maps -/

theorem depthL_seq (b : List Nd) : depthL [.seq b] = depthL b := by simp [depthL, Nd.depth]

theorem filter_maps (t : List (Lp × Option Lp)) (ht : ∀ e ∈ t, parentOf t e.1 = some e.2) (p : Option Lp) (q : List Nd) :
    ∀ (D : Nat) (v : Bool), (∀ f, D ≤ f → noMapAbove t f p = v) → D + depthL q ≤ t.length + 1 → (∀ e ∈ runQ p q, e ∈ t) →
    List.Perm (((runQ p q).filter fun e => decide (e.1.k = .map) && noMapAbove t (t.length + 1) e.2).map (·.1))
      (if v then topMapsL q else []) := by
  induction p, q using runQ.induct with
  | case1 p => intro D v _ _ _; cases v <;> simp [runQ, topMapsL]
  | case2 p e q ih =>
      intro D v hv hD hs
      rw [runQ] at hs ⊢
      have := ih D v hv (by simpa [depthL, Nd.depth] using hD) hs
      simpa [topMapsL, Nd.topMaps] using this
  | case3 p b q ih =>
      intro D v hv hD hs
      rw [runQ] at hs ⊢
      refine (ih D v hv (by simp only [depthL, Nd.depth, depthL_append] at hD ⊢; omega) hs).trans ?_
      cases v with
      | false => simp
      | true => simp only [if_true, topMapsL, Nd.topMaps, topMapsL_append]; exact List.perm_append_comm
  | case4 p b q ih =>
      intro D v hv hD hs
      rw [runQ] at hs ⊢
      refine (ih D v hv (by simp only [depthL, Nd.depth, depthL_append] at hD ⊢; omega) hs).trans ?_
      cases v with
      | false => simp
      | true => simp only [if_true, topMapsL, Nd.topMaps, topMapsL_append]; exact List.perm_append_comm
  | case5 p k i c b q ih1 ih2 =>
      intro D v hv hD hs
      rw [runQ_loop] at hs ⊢
      have hD1 : D + 1 + depthL b ≤ t.length + 1 := by simp only [depthL, Nd.depth] at hD; omega
      have hpar : parentOf t ⟨k, i, c, b⟩ = some p := ht _ (hs _ (List.mem_cons_self ..))
      have hv1 : ∀ f, D + 1 ≤ f → noMapAbove t f (some ⟨k, i, c, b⟩) = (if k = .map then false else v) := by
        intro f hf
        obtain ⟨f, rfl⟩ : ∃ g, f = g + 1 := ⟨f - 1, by omega⟩
        rw [noMapAbove, hpar]
        by_cases hk : k = .map
        · simp [hk]
        · simp only [hk, if_false]; exact hv f (by omega)
      have h1 := ih1 (D + 1) _ hv1 (by rw [depthL_seq]; exact hD1) (fun e he => hs e (List.mem_cons_of_mem _ (List.mem_append_left _ he)))
      have h2 := ih2 D v hv (by simp only [depthL, Nd.depth] at hD; omega)
        (fun e he => hs e (List.mem_cons_of_mem _ (List.mem_append_right _ he)))
      have hv0 := hv (t.length + 1) (by omega)
      have hseq : topMapsL [.seq b] = topMapsL b := by simp [topMapsL, Nd.topMaps]
      rw [hseq] at h1
      rw [List.filter_cons, List.filter_append]
      simp only [hv0]
      by_cases hk : k = .map
      · subst hk
        simp only [if_true, Bool.false_eq_true, if_false] at h1
        rw [List.Perm.eq_nil h1 |> List.map_eq_nil_iff.mp]
        cases v with
        | false => simpa using h2
        | true => simpa [topMapsL, Nd.topMaps] using h2
      · simp only [hk, if_false] at h1
        simp only [hk, decide_false, Bool.false_and, Bool.false_eq_true, if_false, List.map_append]
        have h3 := List.Perm.append h1 h2
        refine h3.trans ?_
        cases v with
        | false => simp
        | true =>
            simp only [if_true, topMapsL]
            have : (Nd.loop k i c b).topMaps = topMapsL b := by
              cases k with
              | map => exact absurd rfl hk
              | for_ => simp [Nd.topMaps]
              | whil => simp [Nd.topMaps]
            rw [this]
  | case6 p q ih =>
      intro D v hv hD hs
      rw [runQ] at hs ⊢
      have := ih D v hv (by simpa [depthL, Nd.depth] using hD) hs
      simpa [topMapsL, Nd.topMaps] using this
  | case7 p q ih =>
      intro D v hv hD hs
      rw [runQ] at hs ⊢
      have := ih D v hv (by simpa [depthL, Nd.depth] using hD) hs
      simpa [topMapsL, Nd.topMaps] using this
  | case8 p q ih =>
      intro D v hv hD hs
      rw [runQ] at hs ⊢
      have := ih D v hv (by simpa [depthL, Nd.depth] using hD) hs
      simpa [topMapsL, Nd.topMaps] using this

/-- C58: `outermost_maps()` are exactly the Maps inside no other Map -/
theorem outermost_maps_exact (root : List Nd) (hd : Distinct root) :
    List.Perm (outermostMaps (loopTree root)) (topMapsL root) := by
  have h := filter_maps (loopTree root) (fun e he => parent_entry root hd e.1 e.2 he) none [.seq root] 0 true
    (by intro f _; cases f <;> rfl) (by rw [depthL_seq, loopTree_length]; have := depthL_le root; omega) (fun e he => he)
  have e : topMapsL [.seq root] = topMapsL root := by simp [topMapsL, Nd.topMaps]
  rw [e] at h
  exact h

/-! #### order and numbering -/

/-- C59: exactly the outermost loops have a summary, numbered 0, 1, ... in the order of `outermost_loops()` -/
theorem infos_exact (root : List Nd) : (infos root).map (·.1) = outermost (loopTree root) ∧
    (infos root).map (·.2.index) = List.range (infos root).length ∧
    ∀ e ∈ infos root, ∃ n, e.2 = infoOf (loopTree root) n e.1 := by
  have key : ∀ (t : List (Lp × Option Lp)) (ls : List Lp) (n : Nat), (infosFrom t n ls).map (·.1) = ls ∧
      (infosFrom t n ls).map (·.2.index) = List.range' n (infosFrom t n ls).length ∧
      ∀ e ∈ infosFrom t n ls, ∃ n, e.2 = infoOf t n e.1 := by
    intro t ls
    induction ls with
    | nil => intro n; simp [infosFrom]
    | cons l r ih =>
        intro n
        obtain ⟨h1, h2, h3⟩ := ih (n + 1)
        refine ⟨by simp [infosFrom, h1], ?_, ?_⟩
        · rw [infosFrom, List.map_cons, h2, List.length_cons, List.range'_succ]; rfl
        · intro e he
          rw [infosFrom] at he
          rcases List.mem_cons.mp he with rfl | he
          · exact ⟨n, rfl⟩
          · exact h3 e he
  have := key (loopTree root) (outermost (loopTree root)) 0
  rw [← List.range_eq_range'] at this
  exact this

mutual
/-- code without nested sequences and conditionals -/
def Nd.flat : Nd → Bool
  | .seq _ => false
  | .ite _ => false
  | .loop _ _ _ b => flatL b
  | _ => true
@[inherit_doc Nd.flat] def flatL : List Nd → Bool
  | [] => true
  | n :: r => n.flat && flatL r
end

/-- C59 (part): in code made of blocks and loops only, `loops()` is in program order -/
theorem program_order_partial (root : List Nd) (hf : flatL root = true) : loops root = insideL root := by
  have key : ∀ (p : Option Lp) (q : List Nd), (∃ b, q = [.seq b] ∧ flatL b = true) ∨ flatL q = true → (runQ p q).map (·.1) = insideL q := by
    intro p q
    induction p, q using runQ.induct with
    | case1 p => simp [runQ, insideL]
    | case2 p e q ih =>
        rintro (⟨b, hb, _⟩ | h)
        · cases hb
        · rw [runQ, ih (.inr (by simpa [flatL, Nd.flat] using h))]; simp [insideL, Nd.inside]
    | case3 p l q ih =>
        rintro (⟨b, hb, h⟩ | h)
        · cases hb; rw [runQ, ih (.inr h), List.nil_append, insideL_seq]
        · simp [flatL, Nd.flat] at h
    | case4 p l q ih =>
        rintro (⟨b, hb, h⟩ | h)
        · cases hb
        · simp [flatL, Nd.flat] at h
    | case5 p k i c b q ih1 ih2 =>
        rintro (⟨b, hb, h⟩ | h)
        · cases hb
        · simp only [flatL, Nd.flat, Bool.and_eq_true] at h
          rw [runQ_loop, List.map_cons, List.map_append, ih1 (.inl ⟨b, rfl, h.1⟩), ih2 (.inr h.2), insideL_seq]
          simp [insideL, Nd.inside]
    | case6 p q ih =>
        rintro (⟨b, hb, _⟩ | h)
        · cases hb
        · rw [runQ, ih (.inr (by simpa [flatL, Nd.flat] using h))]; simp [insideL, Nd.inside]
    | case7 p q ih =>
        rintro (⟨b, hb, _⟩ | h)
        · cases hb
        · rw [runQ, ih (.inr (by simpa [flatL, Nd.flat] using h))]; simp [insideL, Nd.inside]
    | case8 p q ih =>
        rintro (⟨b, hb, _⟩ | h)
        · cases hb
        · rw [runQ, ih (.inr (by simpa [flatL, Nd.flat] using h))]; simp [insideL, Nd.inside]
  rw [loops, loopTree, key none _ (.inl ⟨root, rfl, hf⟩), insideL_seq]

/-- C59 (part): in code made of blocks and loops only, the nests are numbered in program order -/
theorem numbering_partial (root : List Nd) (hf : flatL root = true) : (infos root).map (·.1) = directL root := by
  have key : ∀ (q : List Nd), flatL q = true → ((runQ none q).filter fun e => e.2.isNone).map (·.1) = directL q := by
    intro q
    induction q with
    | nil => intro _; simp [runQ, directL]
    | cons n r ih =>
        intro h
        rw [flatL, Bool.and_eq_true] at h
        have ih := ih h.2
        cases n with
        | seq l => simp [Nd.flat] at h
        | ite l => simp [Nd.flat] at h
        | loop k i c b =>
            rw [runQ_loop, List.filter_cons, List.filter_append, no_outermost _ _ _ rfl]
            simpa [directL, Nd.direct] using ih
        | _ => rw [runQ]; simpa [directL, Nd.direct] using ih
  rw [(infos_exact root).1, outermost, loopTree, runQ, List.nil_append, key root hf]

/-- if (c) { for i {} } ; for j {} -/
def exOrder : List Nd := [.ite [.seq [.loop .for_ 0 true []]], .loop .for_ 1 true []]

/-- C59 fails for the order: a loop in a conditional is listed after the loop that follows the conditional -/
theorem order_not_program_order : ∃ root, Distinct root ∧ (infos root).map (fun e => (e.1.i, e.2.index)) = [(1, 0), (0, 1)] ∧
    (directL root).map (·.i) = [0, 1] :=
  ⟨exOrder, by decide, by simp [infos, infosFrom, outermost, infoOf, loopTree, runQ, exOrder], by decide⟩

/-! #### a function with two nests -/

/-- for i { map j { if (c) { map k {} } ; while { return } } } ; map m { map n {} } -/
def exNests : List Nd :=
  [.loop .for_ 0 true [.loop .map 1 true [.ite [.seq [.loop .map 2 true [.block false]]], .loop .whil 3 false [.ret]]],
   .loop .map 4 true [.loop .map 5 true [.block true]]]

example : Distinct exNests := by decide
example : (loops exNests).map (·.i) = [0, 1, 3, 2, 4, 5] := by simp [loops, loopTree, runQ, exNests]
example : (insideL exNests).map (·.i) = [0, 1, 2, 3, 4, 5] := by decide
example : (directL exNests).map (·.i) = [0, 4] := by decide
example : (topMapsL exNests).map (·.i) = [1, 4] := by decide
example : flatL exNests = false ∧ flatL exHidden = true := by decide
example : Perfect ⟨.map, 4, true, [.loop .map 5 true [.block true]]⟩ :=
  .step (c := ⟨.map, 5, true, [.block true]⟩) rfl (.leaf (by decide))

end Docc.IR.LoopTree

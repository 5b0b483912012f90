import Verif.IR.BlockSortProps

/-
After a run no block of a sorted sequence can be moved further down; after the first loop none further up.  Examples, and two containers
that share memory.
-/
namespace Docc.IR
open Docc.Sym

/-- neighbours are related -/
def Quiet (R : Kid → Kid → Prop) : List Kid → Prop
  | [] => True
  | [_] => True
  | a :: b :: r => R a b ∧ Quiet R (b :: r)

theorem quiet_split {R : Kid → Kid → Prop} {b : Kid} {r : List Kid} : ∀ {a : List Kid}, Quiet R (a ++ b :: r) ↔ Quiet R (a ++ [b]) ∧ Quiet R (b :: r)
  | [] => by simp [Quiet]
  | [x] => by simp [Quiet]
  | x :: y :: a => by
    have := quiet_split (R := R) (b := b) (r := r) (a := y :: a)
    simp only [List.cons_append, Quiet] at this ⊢
    rw [this, and_assoc]

theorem quiet_pair {R : Kid → Kid → Prop} {l : List Kid} (h : Quiet R l) {k : Nat} {a b : Kid} (ha : l[k]? = some a) (hb : l[k + 1]? = some b) : R a b := by
  obtain ⟨p, q, _, rfl⟩ := split_two ha hb
  exact (quiet_split.mp h).2.1

theorem quiet_of {R : Kid → Kid → Prop} : ∀ {l : List Kid}, (∀ (k : Nat) (a b : Kid), l[k]? = some a → l[k + 1]? = some b → R a b) → Quiet R l
  | [], _ => trivial
  | [_], _ => trivial
  | a :: b :: r, h => ⟨h 0 a b rfl rfl, quiet_of fun k x y hx hy => h (k + 1) x y hx hy⟩

theorem higher_asymm {P : SortEnv} {c n : List Stmt} (h : P.higher c n = true) : P.higher n c = false := by
  simp only [SortEnv.higher, Bool.and_eq_true, Bool.not_eq_true', decide_eq_false_iff_not, Bool.and_eq_false_iff] at h ⊢
  obtain ⟨h1, h2⟩ := h
  by_cases he : (P.prio c).1 = (P.prio n).1
  · rcases h2 with h2 | h2
    · exact absurd he h2
    · refine Or.inr ?_
      rw [he]
      simp only [decide_true, Bool.true_and, Bool.not_eq_false', decide_eq_true_eq]
      rcases String.le_total (P.prio n).2 (P.prio c).2 with h | h
      · exact h
      · exact absurd h h2
  · refine Or.inl ?_
    simp only [Bool.not_eq_false', decide_eq_true_eq]
    omega

theorem mayPass_asymm {P : SortEnv} {can can' : List Stmt → Bool} {c n : Kid} (h : P.mayPass can c n = true) : P.mayPass can' n c = false := by
  obtain ⟨l, m, rfl, rfl, _, _, _, h⟩ := mayPass_blocks h
  simp [SortEnv.mayPass, higher_asymm h]

theorem bubbleUp_at (P : SortEnv) (p q : List Kid) (c n : Kid) :
    P.bubbleUp (p ++ c :: n :: q) p.length = if P.mayPass P.canUp c n then some (p ++ n :: c :: q) else none := by
  have h1 : (p ++ c :: n :: q)[p.length]? = some c := by simp
  have h2 : (p ++ c :: n :: q)[p.length + 1]? = some n := by simp
  simp only [SortEnv.bubbleUp, h1, h2, move_up]

theorem bubbleDown_at (P : SortEnv) (p q : List Kid) (c n : Kid) :
    P.bubbleDown (p ++ n :: c :: q) p.length = if P.mayPass P.canDown c n then some (p ++ c :: n :: q) else none := by
  have h1 : (p ++ n :: c :: q)[p.length]? = some n := by simp
  have h2 : (p ++ n :: c :: q)[p.length + 1]? = some c := by simp
  simp only [SortEnv.bubbleDown, h1, h2, move_down]

/-- the lower of two neighbours cannot move up -/
def SortEnv.NotUp (P : SortEnv) (c n : Kid) : Prop := P.mayPass P.canUp c n = false
/-- the upper of two neighbours cannot move down -/
def SortEnv.NotDown (P : SortEnv) (n c : Kid) : Prop := P.mayPass P.canDown c n = false

theorem last_split {p : List Kid} {k : Nat} (h : p.length = k + 1) : ∃ p' c, p = p' ++ [c] ∧ p'.length = k := by
  have hne : p ≠ [] := by intro e; rw [e] at h; cases h
  exact ⟨p.dropLast, p.getLast hne, (List.dropLast_concat_getLast hne).symm, by simp [h]⟩

theorem upAt_quiet {P : SortEnv} : ∀ (k : Nat) (p post rest : List Kid) (n : Kid), p.length = k + 1 → Quiet P.NotUp (p ++ post) → Quiet P.NotUp (n :: post) →
    ∃ z, (P.upAt (p ++ n :: (post ++ rest)) k).1 = z ++ rest ∧ z.length = p.length + 1 + post.length ∧ Quiet P.NotUp z := by
  intro k
  induction k with
  | zero =>
    intro p post rest n hp h1 h2
    obtain ⟨p', c, rfl, hk⟩ := last_split hp
    obtain rfl := List.eq_nil_of_length_eq_zero hk
    have hb := bubbleUp_at P [] (post ++ rest) c n
    simp only [List.nil_append, List.length_nil] at hb
    unfold SortEnv.upAt
    simp only [List.nil_append, List.cons_append] at h1 ⊢
    rw [hb]
    by_cases hm : P.mayPass P.canUp c n = true
    · rw [if_pos hm]
      exact ⟨n :: c :: post, by simp, by simp; omega, mayPass_asymm hm, h1⟩
    · rw [if_neg hm]
      exact ⟨c :: n :: post, by simp, by simp; omega, by simpa [SortEnv.NotUp] using hm, h2⟩
  | succ k ih =>
    intro p post rest n hp h1 h2
    obtain ⟨p', c, rfl, hk⟩ := last_split hp
    have hb := bubbleUp_at P p' (post ++ rest) c n
    rw [hk] at hb
    unfold SortEnv.upAt
    simp only [List.append_assoc, List.cons_append, List.nil_append] at h1 ⊢
    rw [hb]
    by_cases hm : P.mayPass P.canUp c n = true
    · rw [if_pos hm]
      obtain ⟨z, hz1, hz2, hz3⟩ := ih p' (c :: post) rest n hk h1 ⟨mayPass_asymm hm, (quiet_split.mp h1).2⟩
      refine ⟨z, hz1, ?_, hz3⟩
      rw [hz2]; simp; omega
    · rw [if_neg hm]
      refine ⟨p' ++ c :: n :: post, by simp, by simp; omega, quiet_split.mpr ⟨(quiet_split.mp h1).1, ?_, h2⟩⟩
      simpa [SortEnv.NotUp] using hm

theorem upAt_length {P : SortEnv} (hP : P.Honest) (cs : List Kid) (k : Nat) : (P.upAt cs k).1.length = cs.length :=
  (upAt_sorted hP k cs).perm.length_eq.symm

theorem take_split {cs : List Kid} {i : Nat} (h : i < cs.length) : ∃ n rest, cs = cs.take i ++ n :: rest ∧ cs[i]? = some n :=
  ⟨cs[i], cs.drop (i + 1), by rw [← List.drop_eq_getElem_cons h, List.take_append_drop], List.getElem?_eq_getElem h⟩

theorem ups_quiet {P : SortEnv} (hP : P.Honest) : ∀ (f i : Nat) (cs : List Kid), Quiet P.NotUp (cs.take (i + 1)) →
    Quiet P.NotUp ((P.ups f i cs).2.1.take ((P.ups f i cs).1 + 1))
  | 0, _, cs, h => h
  | f + 1, i, cs, h => by
    unfold SortEnv.ups
    split
    · exact h
    · rename_i x hx
      have hi : i < cs.length := (List.getElem?_eq_some_iff.mp hx).1
      split
      · exact h
      · split
        · exact h
        · rename_i hl
          refine ups_quiet hP f (i + 1) _ ?_
          obtain ⟨n, rest, hcs, _⟩ := take_split (cs := cs) (i := i + 1) (by omega)
          obtain ⟨z, hz1, hz2, hz3⟩ := upAt_quiet (P := P) i (cs.take (i + 1)) [] rest n (by simp; omega) (by simpa using h) trivial
          rw [List.nil_append, ← hcs] at hz1
          have hz4 : z.length = i + 1 + 1 := by rw [hz2]; simp; omega
          rw [hz1, ← hz4, List.take_left]
          exact hz3

/-- where the loop ends: at a jump or at the last child -/
theorem ups_end {P : SortEnv} (hP : P.Honest) : ∀ (f i : Nat) (cs : List Kid), cs.length ≤ i + f → i < cs.length →
    (P.ups f i cs).1 < cs.length ∧ ((P.ups f i cs).1 + 1 = cs.length ∨ ∃ x, (P.ups f i cs).2.1[(P.ups f i cs).1]? = some x ∧ x.1.jumps = true)
  | 0, i, cs, h, hi => by omega
  | f + 1, i, cs, h, hi => by
    unfold SortEnv.ups
    rw [List.getElem?_eq_getElem hi]
    simp only
    split
    · rename_i hj
      exact ⟨hi, .inr ⟨_, List.getElem?_eq_getElem hi, hj⟩⟩
    · split
      · rename_i hl; exact ⟨hi, .inl hl⟩
      · rename_i hl
        have hlen := upAt_length hP cs i
        have := ups_end hP f (i + 1) (P.upAt cs i).1 (by omega) (by omega)
        rw [hlen] at this
        exact this

theorem downAt_quiet {P : SortEnv} : ∀ (q pre p rest : List Kid) (n : Kid), Quiet P.NotDown (pre ++ q) → Quiet P.NotDown (pre ++ [n]) →
    ∃ z, (P.downAt q.length (p ++ (pre ++ n :: (q ++ rest))) (p.length + pre.length)).1 = p ++ (z ++ rest) ∧ z.length = pre.length + 1 + q.length ∧
      Quiet P.NotDown z := by
  intro q
  induction q with
  | nil =>
    intro pre p rest n _ h2
    exact ⟨pre ++ [n], by simp [SortEnv.downAt], by simp, h2⟩
  | cons c q ih =>
    intro pre p rest n h1 h2
    have hb := bubbleDown_at P (p ++ pre) (q ++ rest) c n
    rw [List.length_append, List.append_assoc] at hb
    rw [List.length_cons, SortEnv.downAt, List.cons_append, hb]
    by_cases hm : P.mayPass P.canDown c n = true
    · rw [if_pos hm]
      have hq := ih (pre ++ [c]) p rest n (by simpa using h1)
        (by
          have : pre ++ [c] ++ [n] = pre ++ c :: [n] := by simp
          rw [this]
          exact quiet_split.mpr ⟨(quiet_split.mp h1).1, mayPass_asymm hm, trivial⟩)
      obtain ⟨z, hz1, hz2, hz3⟩ := hq
      refine ⟨z, ?_, by rw [hz2]; simp; omega, hz3⟩
      simp only [List.append_assoc, List.cons_append, List.nil_append, List.length_append, List.length_cons, List.length_nil] at hz1 ⊢
      exact hz1
    · rw [if_neg hm]
      refine ⟨pre ++ n :: c :: q, by simp, by simp; omega, quiet_split.mpr ⟨h2, ?_, (quiet_split.mp h1).2⟩⟩
      simpa [SortEnv.NotDown] using hm

theorem downs_quiet {P : SortEnv} (i : Nat) : ∀ (j : Nat) (p z rest : List Kid), p.length = j → z.length + j = i + 1 → z ≠ [] → Quiet P.NotDown z →
    ∃ w, (P.downs i j (p ++ (z ++ rest))).1 = w ++ rest ∧ w.length = i + 1 ∧ Quiet P.NotDown w
  | 0, p, z, rest, hp, hz, _, h => by
    obtain rfl := List.eq_nil_of_length_eq_zero hp
    exact ⟨z, rfl, by omega, h⟩
  | j + 1, p, z, rest, hp, hz, hne, h => by
    obtain ⟨p', n, rfl, hj⟩ := last_split hp
    have hl : i - j = z.length := by omega
    unfold SortEnv.downs
    have hd := downAt_quiet (P := P) z [] p' rest n (by simpa using h) trivial
    simp only [List.nil_append, List.length_nil, Nat.add_zero, hj] at hd
    obtain ⟨w, hw1, hw2, hw3⟩ := hd
    simp only [List.append_assoc, List.cons_append, List.nil_append, hl]
    rw [hw1]
    exact downs_quiet i j p' w rest hj (by omega) (by intro e; rw [e] at hw2; simp at hw2; omega) hw3

/-- **C98**: after the loop that moves blocks up, no child of the part it visited (up to a jump or the end) can move up any further. -/
theorem block_sort_up_done {P : SortEnv} (hP : P.Honest) (cs : List Kid) (k : Nat) (hk : k < (P.ups cs.length 0 cs).1) :
    P.bubbleUp (P.ups cs.length 0 cs).2.1 k = none := by
  have h := ups_quiet hP cs.length 0 cs (by cases cs <;> simp [Quiet])
  unfold SortEnv.bubbleUp
  split
  · rename_i c n hc hn
    have := quiet_pair h (k := k) (a := c) (b := n) (by rw [List.getElem?_take, if_pos (by omega), hc]) (by rw [List.getElem?_take, if_pos (by omega), hn])
    rw [if_neg (by rw [this]; simp)]
  · rfl

/-- **C98**: after the pass no child before the first jump can move down any further. -/
theorem block_sort_down_done {P : SortEnv} (hP : P.Honest) (cs : List Kid) (k : Nat) (hk : ∀ j, j ≤ k → ∀ x, (P.kids cs).1[j]? = some x → x.1.jumps = false) :
    P.bubbleDown (P.kids cs).1 k = none := by
  cases hcs : cs with
  | nil => rfl
  | cons a r =>
    have h0 : 0 < cs.length := by rw [hcs]; simp
    have he := ups_end hP cs.length 0 cs (by omega) h0
    have hlen : (P.ups cs.length 0 cs).2.1.length = cs.length := (ups_sorted hP _ _ cs).perm.length_eq.symm
    obtain ⟨n, rest, hsp, hn⟩ := take_split (cs := (P.ups cs.length 0 cs).2.1) (i := (P.ups cs.length 0 cs).1) (by omega)
    have hd := downs_quiet (P := P) (P.ups cs.length 0 cs).1 (P.ups cs.length 0 cs).1 ((P.ups cs.length 0 cs).2.1.take (P.ups cs.length 0 cs).1) [n] rest
      (by simp; omega) (by simp; omega) (by simp) trivial
    rw [List.singleton_append, ← hsp] at hd
    obtain ⟨w, hw1, hw2, hw3⟩ := hd
    have hres : (P.kids cs).1 = w ++ rest := hw1
    have hperm := kids_sorted hP cs
    rw [← hcs]
    have hke : k < (P.ups cs.length 0 cs).1 ∨ (P.kids cs).1[k + 1]? = none := by
      refine Classical.byContradiction fun hh => ?_
      rw [not_or] at hh
      rcases he.2 with he2 | ⟨x, hx, hxj⟩
      · refine hh.2 (List.getElem?_eq_none ?_)
        rw [← hperm.perm.length_eq]; omega
      · have hx' : (P.kids cs).1[(P.ups cs.length 0 cs).1]? = some x := by
          have h3 : Sorted (P.ups cs.length 0 cs).2.1 (P.kids cs).1 := downs_sorted hP _ _ _
          refine (sorted_stays h3 _ x.1 x.2 ?_).mp hx
          intro l e
          rw [e] at hxj; cases hxj
        have := hk _ (by omega) x hx'
        rw [hxj] at this; cases this
    rcases hke with hke | hke
    · unfold SortEnv.bubbleDown
      split
      · rename_i c n hc hn
        rw [hres] at hc hn
        have := quiet_pair hw3 (k := k) (a := n) (b := c) (by rw [← hn, List.getElem?_append_left (by omega)]) (by rw [← hc, List.getElem?_append_left (by omega)])
        rw [if_neg (by rw [this]; simp)]
      · rfl
    · unfold SortEnv.bubbleDown
      rw [hke]

/-- the library nodes of the examples; `print` uses the container `A` without a memlet -/
def exSort : SortEnv := ⟨fun op => if op = "malloc" then .malloc else if op = "memset" then .memset else if op = "free" then .free
    else if op = "h2d" then .offload true false true false else if op = "d2h" then .offload false true false true else .other,
  fun op => op == "print", fun op => if op = "print" then ["A"] else []⟩

set_option maxRecDepth 4000 in
theorem exSort_honest : exSort.Honest := by
  intro op h
  by_cases hp : op = "print"
  · subst hp; exact ⟨by decide, by decide⟩
  · simp [exSort, hp] at h

/-- `x = q[0]` -/
def exReadQ : Stmt := .tasklet "assign" [("q", [.int 0])] "x" []
/-- `memset(A, 0, n)` -/
def exMemset : Stmt := .lib "memset" ["n"] ["A"]

/-- `x = q[0]; memset(A); d2h Z; h2d C; y = 1` -/
def exSortKids : List Kid := [(.block [exReadQ], []), (.block [exMemset], []), (.block [.lib "d2h" ["dZ"] ["Z"]], []), (.block [.lib "h2d" ["C"] ["dC"]], []),
  (.block [.tasklet "one" [] "y" []], [])]

set_option maxRecDepth 20000 in
/-- the transfer to the device and the memset move up, the transfer back moves down -/
example : exSort.kids exSortKids = ([(.block [.lib "h2d" ["C"] ["dC"]], []), (.block [exMemset], []), (.block [exReadQ], []),
    (.block [.tasklet "one" [] "y" []], []), (.block [.lib "d2h" ["dZ"] ["Z"]], [])], true) := by
  rfl

set_option maxRecDepth 20000 in
/-- nothing moves across a call that may use the container -/
example : exSort.kids [(.block [.lib "print" [] []], []), (.block [exMemset], [])] = ([(.block [.lib "print" [] []], []), (.block [exMemset], [])], false) := by
  rfl

mutual
/-- the program when the container `x` is memory of the container `base x` -/
def Node.alias (base : String → String) : Node → Node
  | .block l => .block (l.map fun x => match x with
    | .tasklet op ins out sub => .tasklet op (ins.map fun r => (base r.1, r.2)) (base out) sub
    | .lib op r w => .lib op (r.map base) (w.map base))
  | .seq s => .seq (s.alias base)
  | .ifElse b => .ifElse (b.alias base)
  | .whileL s => .whileL (s.alias base)
  | .loop m i a c u s => .loop m i a c u (s.alias base)
  | .brk => .brk
  | .cont => .cont
  | .ret d q => .ret (base d) q
/-- the same for a sequence -/
def Seq.alias (base : String → String) : Seq → Seq
  | .nil => .nil
  | .cons n t r => .cons (n.alias base) t (r.alias base)
/-- the same for cases -/
def Brs.alias (base : String → String) : Brs → Brs
  | .nil => .nil
  | .cons c s r => .cons c (s.alias base) (r.alias base)
end

/-- `x = q[0]; memset(A)` -/
def exAliased : Seq := .cons (.block [exReadQ]) [] (.cons (.block [exMemset]) [] .nil)

set_option maxRecDepth 20000 in
theorem exAliased_sort : (exAliased.sort exSort).1 = .cons (.block [exMemset]) [] (.cons (.block [exReadQ]) [] .nil) := by rfl

/-- `q` points to `A` -/
def exBase (x : String) : String := if x = "q" then "A" else x

set_option maxRecDepth 8000 in
/-- **C98, violated for containers that share memory**: with `q` a pointer into `A`, `x = q[0]; memset(A)` becomes `memset(A); x = q[0]`,
because no container is used by both blocks; `x` differs afterwards. -/
theorem aliased_violated : ∃ (P : SortEnv) (s : Seq) (base : String → String) (E : Env) (σ a b : St), P.Honest ∧
    (s.alias base).den E σ .normal a ∧ (((s.sort P).1).alias base).den E σ .normal b ∧ a "x" [] ≠ b "x" [] := by
  have h : ∀ (l r : List Stmt) (E : Env) (σ : St), (Seq.cons (.block l) [] (.cons (.block r) [] .nil)).den E σ .normal (runBlock E r (runBlock E l σ)) := by
    intro l r E σ
    simp only [Seq.den, Node.den, Rel.upd_seq]
    exact ⟨rfl, rfl⟩
  refine ⟨exSort, exAliased, exBase, ⟨exEnv.fn, exEnv.op, fun _ _ _ _ => 0, 0⟩, fun _ _ => 1, _, _, exSort_honest, h _ _ _ _, (by rw [exAliased_sort]; exact h _ _ _ _), by decide⟩

end Docc.IR

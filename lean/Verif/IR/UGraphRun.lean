import Verif.IR.UGraphFlowProps

/-
A function that computes uses performed by an execution, and criteria that decide the queries on a concrete graph.  Used for witnesses only.
-/
namespace Docc.IR
open Docc.Sym

/-- uses performed with a bound on the number of steps, and the outcome -/
abbrev TF := St → List V × Option (Ctl × St)

namespace TF
/-- the computed execution is one of `R`, and `R` can be observed at its beginning -/
def Ok (F : TF) (R : TR) : Prop := ∀ σ, R σ (F σ).1 (F σ).2 ∧ R σ [] none

def emit (us : List V) (f : St → St) : TF := fun σ => (us, some (.normal, f σ))
def jump (us : List V) (c : Ctl) : TF := fun σ => (us, some (c, σ))
def seq (F G : TF) : TF := fun σ =>
  match F σ with
  | (l, some (.normal, σ1)) => (l ++ (G σ1).1, (G σ1).2)
  | x => x
def ite (b : St → Bool) (F G : TF) : TF := fun σ => if b σ then F σ else G σ
def forever (F : TF) : Nat → TF
  | 0 => fun _ => ([], none)
  | n + 1 => fun σ =>
    match F σ with
    | (l, none) => (l, none)
    | (l, some (.normal, σ1)) => (l ++ (forever F n σ1).1, (forever F n σ1).2)
    | (l, some (.cont, σ1)) => (l ++ (forever F n σ1).1, (forever F n σ1).2)
    | (l, some (.brk, σ1)) => (l, some (.normal, σ1))
    | (l, some (.ret d q, σ1)) => (l, some (.ret d q, σ1))
def iter (b : St → Bool) (u : St → St) (cs us : List V) (F : TF) : Nat → TF
  | 0 => fun _ => ([], none)
  | n + 1 => fun σ =>
    if b σ then
      match F σ with
      | (l, none) => (cs ++ l, none)
      | (l, some (.normal, σ1)) => (cs ++ (l ++ (us ++ (iter b u cs us F n (u σ1)).1)), (iter b u cs us F n (u σ1)).2)
      | (l, some (.cont, σ1)) => (cs ++ (l ++ (us ++ (iter b u cs us F n (u σ1)).1)), (iter b u cs us F n (u σ1)).2)
      | (l, some (.brk, σ1)) => (cs ++ l, some (.normal, σ1))
      | (l, some (.ret d q, σ1)) => (cs ++ l, some (.ret d q, σ1))
    else (cs, some (.normal, σ))

theorem ok_emit (us : List V) (f : St → St) : Ok (emit us f) (TR.emit us f) := fun _ => ⟨Or.inl ⟨rfl, rfl⟩, Or.inr ⟨List.nil_prefix, rfl⟩⟩
theorem ok_jump (us : List V) (c : Ctl) : Ok (jump us c) (TR.jump us c) := fun _ => ⟨Or.inl ⟨rfl, rfl⟩, Or.inr ⟨List.nil_prefix, rfl⟩⟩
theorem ok_seq {F G : TF} {R S : TR} (h : Ok F R) (h' : Ok G S) : Ok (seq F G) (TR.seq R S) := by
  intro σ
  refine ⟨?_, Or.inr ⟨(h σ).2, by simp⟩⟩
  have h1 := (h σ).1
  unfold seq
  split
  · rename_i l σ1 he
    rw [he] at h1
    exact Or.inl ⟨_, _, _, h1, (h' σ1).1, rfl⟩
  · rename_i hne
    exact Or.inr ⟨h1, fun τ hτ => hne (F σ).1 τ (Prod.ext rfl hτ)⟩
theorem ok_ite {b : St → Bool} {F G : TF} {R S : TR} (h : Ok F R) (h' : Ok G S) : Ok (ite b F G) (TR.ite b R S) := by
  intro σ
  unfold ite TR.ite
  split
  · exact h σ
  · exact h' σ
theorem ok_forever {F : TF} {R : TR} (h : Ok F R) : ∀ n, Ok (forever F n) (TR.forever R)
  | 0 => fun σ => ⟨.cut (h σ).2, .cut (h σ).2⟩
  | n + 1 => fun σ => by
    refine ⟨?_, .cut (h σ).2⟩
    have h1 := (h σ).1
    unfold forever
    split <;> rename_i he <;> rw [he] at h1
    · exact .cut h1
    · exact .step _ h1 (Or.inl rfl) (ok_forever h n _).1
    · exact .step _ h1 (Or.inr rfl) (ok_forever h n _).1
    · exact .stop h1
    · exact .ret _ _ h1
theorem ok_iter {b : St → Bool} {u : St → St} {cs us : List V} {F : TF} {R : TR} (h : Ok F R) :
    ∀ n, Ok (iter b u cs us F n) (TR.iter b u cs us R)
  | 0 => fun σ => ⟨.cut List.nil_prefix, .cut List.nil_prefix⟩
  | n + 1 => fun σ => by
    refine ⟨?_, .cut List.nil_prefix⟩
    have h1 := (h σ).1
    unfold iter
    split
    · rename_i hb
      split <;> rename_i he <;> rw [he] at h1
      · exact .cutBody hb h1
      · exact .step _ hb h1 (Or.inl rfl) (ok_iter h n _).1
      · exact .step _ hb h1 (Or.inr rfl) (ok_iter h n _).1
      · exact .stop hb h1
      · exact .ret _ _ hb h1
    · rename_i hb
      exact .done (by simpa using hb)
end TF

mutual
/-- `Node.tr`, computed -/
def Node.tf (E : Env) (fu : Nat) : Node → Nat → TF
  | .block l, k => TF.emit (evs (k + 2) (l.flatMap Stmt.users)) (runBlock E l)
  | .seq s, k => s.tf E fu (k + 2)
  | .ifElse b, k => TF.seq (TF.emit (evs (k + 2) (readsOnce b.condAtoms)) id) (b.tf E fu (k + 2 + (readsOnce b.condAtoms).length))
  | .whileL s, k => TF.forever (s.tf E fu (k + 4)) fu
  | .loop _ i init cond upd s, k =>
    let k2 := k + 2 + (initUses i init).length
    let kb := k2 + (condUses cond).length
    TF.seq (TF.emit (evs (k + 2) (initUses i init)) fun σ => σ.setS i (σ.ev E init))
      (TF.iter (fun σ => σ.cond E cond) (fun σ => σ.setS i (σ.ev E upd)) (evs k2 (condUses cond))
        (evs (kb + 2 + s.kn) (updUses i upd)) (s.tf E fu (kb + 2)) fu)
  | .brk, _ => TF.jump [] .brk
  | .cont, _ => TF.jump [] .cont
  | .ret d q, k => TF.jump (if q || d == "" then [] else [.ev k (.read, d)]) (.ret d q)
def Seq.tf (E : Env) (fu : Nat) : Seq → Nat → TF
  | .nil, _ => TF.emit [] id
  | .cons n t r, k => TF.seq (n.tf E fu k) (TF.seq (TF.emit (evs (k + n.vn) (transUses t)) (runTrans E t))
      (r.tf E fu (k + n.vn + (transUses t).length)))
def Brs.tf (E : Env) (fu : Nat) : Brs → Nat → TF
  | .nil, _ => TF.emit [] id
  | .cons c s r, k => TF.ite (fun σ => σ.cond E c) (s.tf E fu (k + 2)) (r.tf E fu (k + 2 + s.kn))
end

mutual
theorem Node.tf_ok (E : Env) (fu : Nat) : (n : Node) → ∀ k, TF.Ok (n.tf E fu k) (n.tr E k)
  | .block _, k => by rw [Node.tf, Node.tr]; exact TF.ok_emit _ _
  | .seq s, k => by rw [Node.tf, Node.tr]; exact Seq.tf_ok E fu s _
  | .ifElse b, k => by rw [Node.tf, Node.tr]; exact TF.ok_seq (TF.ok_emit _ _) (Brs.tf_ok E fu b _)
  | .whileL s, k => by rw [Node.tf, Node.tr]; exact TF.ok_forever (Seq.tf_ok E fu s _) _
  | .loop _ i init cond upd s, k => by
    rw [Node.tf, Node.tr]; exact TF.ok_seq (TF.ok_emit _ _) (TF.ok_iter (Seq.tf_ok E fu s _) _)
  | .brk, _ => by rw [Node.tf, Node.tr]; exact TF.ok_jump _ _
  | .cont, _ => by rw [Node.tf, Node.tr]; exact TF.ok_jump _ _
  | .ret d q, k => by rw [Node.tf, Node.tr]; exact TF.ok_jump _ _
theorem Seq.tf_ok (E : Env) (fu : Nat) : (s : Seq) → ∀ k, TF.Ok (s.tf E fu k) (s.tr E k)
  | .nil, _ => by rw [Seq.tf, Seq.tr]; exact TF.ok_emit _ _
  | .cons n t r, k => by
    rw [Seq.tf, Seq.tr]; exact TF.ok_seq (Node.tf_ok E fu n _) (TF.ok_seq (TF.ok_emit _ _) (Seq.tf_ok E fu r _))
theorem Brs.tf_ok (E : Env) (fu : Nat) : (b : Brs) → ∀ k, TF.Ok (b.tf E fu k) (b.tr E k)
  | .nil, _ => by rw [Brs.tf, Brs.tr]; exact TF.ok_emit _ _
  | .cons c s r, k => by rw [Brs.tf, Brs.tr]; exact TF.ok_ite (Seq.tf_ok E fu s _) (Brs.tf_ok E fu r _)
end

/-- the uses of an execution, computed -/
def Seq.uses (E : Env) (s : Seq) (fu : Nat) (σ : St) : List V := (s.tf E fu 2 σ).1

theorem Seq.uses_performs (E : Env) (s : Seq) (fu : Nat) (σ : St) {l : List V} (h : s.uses E fu σ = l) : ∃ o, s.Performs E σ l o := by
  subst h
  exact ⟨_, (Seq.tf_ok E fu s 2 σ).1⟩

/-! ### deciding queries -/

/-- `S` is closed under the edges that do not start in `a` -/
def closedFor (G : List (V × V)) (S : List V) (a : V) : Bool := G.all fun e => !decide (e.1 ∈ S) || decide (e.1 = a) || decide (e.2 ∈ S)

theorem closedFor_path {G : List (V × V)} {S : List V} {a : V} (h : closedFor G S a = true) :
    ∀ (p : List V) (v : V), v ∈ S → Path G (v :: p) → a ∉ v :: p → ∀ z, (v :: p).getLast? = some z → z ∈ S
  | [], v, hv, _, _, z, hz => by simp at hz; exact hz ▸ hv
  | w :: p, v, hv, hp, ha, z, hz => by
    have h1 := List.all_eq_true.mp h _ hp.1
    have h2 : v ≠ a := fun he => ha (by simp [he])
    simp [hv, h2] at h1
    exact closedFor_path h p w h1 hp.2 (fun hm => ha (List.mem_cons_of_mem _ hm)) z (by simpa using hz)

theorem dominates_of {G : List (V × V)} {src a b : V} (S : List V) (h : closedFor G S a = true) (hs : src ∈ S) (hab : a ≠ b) (hb : b ∉ S) :
    Dominates G src a b := by
  refine ⟨hab, fun p hp hl => ?_⟩
  by_cases hm : a ∈ src :: p
  · exact hm
  · exact absurd (closedFor_path h p src hs hp hm b hl) hb

theorem postDominates_of {G : List (V × V)} {a b : V} (S : List V) (h : closedFor G S a = true) (hs : b ∈ S) (hab : a ≠ b)
    (hz : (S.all fun z => decide (z = a) || G.any fun e => decide (e.1 = z)) = true) : PostDominates G a b := by
  refine ⟨hab, fun p z hp hl hsink => ?_⟩
  by_cases hm : a ∈ b :: p
  · exact hm
  · have h1 := closedFor_path h p b hs hp hm z hl
    have h2 := List.all_eq_true.mp hz z h1
    have h3 : z ≠ a := fun he => hm (he ▸ List.mem_of_getLast? hl)
    simp [h3] at h2
    obtain ⟨y, hy⟩ := h2
    exact absurd hy (hsink y)

theorem not_usedBetween {G : List (V × V)} {a b v : V} (S : List V) (h : closedFor G S a = true) (hv : v ∈ S) (hb : b ∉ S) :
    ¬ UsedBetween G a b v := by
  rintro ⟨_, _, p, hp, hl, ha⟩
  exact hb (closedFor_path h p v hv hp ha b hl)

theorem path_closed {G : List (V × V)} {S : List V} (h : (G.all fun e => !decide (e.1 ∈ S) || decide (e.2 ∈ S)) = true) :
    ∀ (p : List V) (v : V), v ∈ S → Path G (v :: p) → ∀ z, (v :: p).getLast? = some z → z ∈ S
  | [], v, hv, _, z, hz => by simp at hz; exact hz ▸ hv
  | w :: p, v, hv, hp, z, hz => by
    have h1 := List.all_eq_true.mp h _ hp.1
    simp [hv] at h1
    exact path_closed h p w h1 hp.2 z (by simpa using hz)

theorem not_usedAfter {G : List (V × V)} {a b : V} (S : List V) (h : (G.all fun e => !decide (e.1 ∈ S) || decide (e.2 ∈ S)) = true)
    (ha : a ∈ S) (hb : b ∉ S) : ¬ UsedAfter G a b := by
  rintro ⟨_, p, hp, hl⟩
  exact hb (path_closed h p a ha hp b hl)

end Docc.IR

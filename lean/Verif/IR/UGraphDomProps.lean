import Verif.IR.UGraphDom
import Verif.IR.Jump

namespace Docc.IR
open Docc.Sym

/-- contract of `IfElse::is_complete` (C49): in every state one of the conditions holds -/
def CompleteSound (E : Env) (C : Brs → Bool) : Prop := ∀ b, C b = true → ∀ σ : St, ∃ c ∈ b.conds, σ.cond E c = true

mutual
/-- every For and Map loop has a symbol in its condition, and no break or continue leaves its body -/
def Node.forsOk : Node → Bool
  | .block _ => true
  | .seq s => s.forsOk
  | .ifElse b => b.forsOk
  | .whileL s => s.forsOk
  | .loop _ _ _ cond _ s => !cond.atoms.isEmpty && s.noJump && s.forsOk
  | .brk => true
  | .cont => true
  | .ret _ _ => true
def Seq.forsOk : Seq → Bool
  | .nil => true
  | .cons n _ r => n.forsOk && r.forsOk
def Brs.forsOk : Brs → Bool
  | .nil => true
  | .cons _ s r => s.forsOk && r.forsOk
end

theorem noJump_tr {E : Env} {s : Seq} (h : s.noJump = true) (k : Nat) : (s.tr E k).NoJump := by
  intro σ l c σ' hr
  have h1 : (s.tr E k).rel σ c σ' := ⟨l, hr⟩
  rw [Seq.tr_rel] at h1
  have := Seq.noJump_proper E s h σ c σ' h1
  constructor <;> (rintro rfl; simp [Ctl.proper] at this)

theorem evs_length (k : Nat) (us : List User) : (evs k us).length = us.length := by simp [evs]

theorem evs_ne_nil {k : Nat} {us : List User} (h : us ≠ []) : evs k us ≠ [] := by
  intro he
  have := congrArg List.length he
  rw [evs_length] at this
  cases us <;> simp_all

theorem condUses_ne {c : Cond} (h : c.atoms.isEmpty = false) : condUses c ≠ [] := by
  unfold condUses readsOnce readsOf
  cases hc : c.atoms with
  | nil => rw [hc] at h; cases h
  | cons x r =>
    intro he
    have : x ∈ (x :: r).eraseDups := by rw [List.mem_eraseDups]; simp
    have h2 := List.map_eq_nil_iff.mp he
    rw [h2] at this
    cases this

theorem isRet_cases {n : Node} (h : n.isRet = true) : ∃ d q, n = .ret d q := by
  cases n <;> simp [Node.isRet] at h
  exact ⟨_, _, rfl⟩

theorem first_nop {n : Node} (h : n.isRet = false) (k : Nat) : n.first k = .nop k := by
  cases n <;> simp_all [Node.isRet, Node.first]

theorem exit_nop (n : Node) (k : Nat) : ∃ j, n.exit k = .nop j := by
  cases n <;> exact ⟨_, rfl⟩

mutual
theorem Node.starts {E : Env} {C : Brs → Bool} (hC : CompleteSound E C) {P : V → Prop} (hP : ∀ k, P (.nop k)) :
    (n : Node) → n.forsOk = true → n.isRet = false → ∀ k, Starts P (n.ge C k) (n.first k) (n.exit k) (n.tr E k)
  | .block l, _, _, k => by
    rw [Node.ge, Node.tr, chainE_append]
    refine (starts_emit _ _ (fun e he => List.mem_append_left _ he) (hP k)).before fun h => ?_
    exact .one (chainEnd_P _ _ (hP k) (emit_performed h)) (by simp [chainE, Node.exit])
  | .seq s, hf, _, k => by
    rw [Node.forsOk] at hf
    rw [Node.ge, Node.tr]
    show Starts P _ (.nop k) (.nop (k + 1)) _
    exact Seq.starts hC hP s hf _ _ _ (hP k)
  | .ifElse b, hf, _, k => by
    rw [Node.forsOk] at hf
    rw [Node.ge, Node.tr]
    show Starts P _ (.nop k) (.nop (k + 1)) _
    refine starts_seq (starts_emit _ _ (fun e he => by simp [he, Node.first]) (hP k)) fun h => ?_
    intro σ l o hr
    refine Brs.starts hC hP b hf _ _ _ _ (fun e he => ?_) (chainEnd_P _ _ (hP k) (emit_performed h)) σ l o hr ?_
    · rw [evs_length]; simp [he, Node.first]
    · by_cases hb : C b = true
      · exact Or.inr (hC b hb σ)
      · left; simp [hb, Node.first, Node.exit]
  | .whileL s, hf, _, k => by
    rw [Node.forsOk] at hf
    rw [Node.ge, Node.tr]
    show Starts P _ (.nop k) (.nop (k + 1)) _
    refine starts_forever (e' := .nop (k + 3)) ?_ (.one (hP k) (by simp [Node.first, Node.exit]))
    refine Starts.after (f := .nop (k + 2)) ?_ (.one (hP k) (by simp [Node.first]))
    exact (Seq.starts hC hP s hf _ _ _ (hP (k + 2))).mono fun e he => by simp [he]
  | .loop m i init cond upd s, hf, _, k => by
    rw [Node.forsOk] at hf
    simp only [Bool.and_eq_true, Bool.not_eq_true'] at hf
    rw [Node.ge, Node.tr]
    show Starts P _ (.nop k) (.nop (k + 1)) _
    refine starts_seq (starts_emit _ _ (fun e he => by simp [he, Node.first]) (hP k)) fun h => ?_
    simp only [evs_length]
    refine starts_iter (m := .nop (k + 2 + (initUses i init).length + (condUses cond).length))
      (e' := .nop (k + 2 + (initUses i init).length + (condUses cond).length + 1)) (noJump_tr hf.1.2 _)
      (chainEnd_P _ _ (hP k) (emit_performed h)) (fun x hx => by simp [hx, Node.first]) (fun v hv => ?_)
      (evs_ne_nil (condUses_ne hf.1.1)) (fun hp => ?_) ?_ (fun x hx => ?_) (hP _)
    · simp only [List.mem_append, List.mem_cons, List.mem_map]
      exact Or.inl (Or.inr ⟨v, hv, rfl⟩)
    · exact .one (chainEnd_P _ _ (chainEnd_P _ _ (hP k) (emit_performed h)) hp) (by simp [Node.first])
    · exact (Seq.starts hC hP s hf.2 _ _ _ (hP _)).mono fun e he => by simp [he]
    · rw [chainE_append]; simp [hx]
  | .brk, _, _, k => by rw [Node.tr]; exact starts_jump _ _ (by simp [chainE]) (hP k) (by simp)
  | .cont, _, _, k => by rw [Node.tr]; exact starts_jump _ _ (by simp [chainE]) (hP k) (by simp)
  | .ret _ _, _, h, _ => by simp [Node.isRet] at h
theorem Seq.starts {E : Env} {C : Brs → Bool} (hC : CompleteSound E C) {P : V → Prop} (hP : ∀ k, P (.nop k)) :
    (s : Seq) → s.forsOk = true → ∀ cur t k, P cur → Starts P (s.ge C cur t k) cur t (s.tr E k)
  | .nil, _, cur, t, k, hc => by
    rw [Seq.tr, Seq.ge]
    refine (starts_emit [] _ (by simp [chainE]) hc).before fun _ => .one hc (by simp [chainEnd])
  | .cons n tr r, hf, cur, t, k, hc => by
    rw [Seq.forsOk, Bool.and_eq_true] at hf
    rw [Seq.tr, Seq.ge]
    by_cases hn : n.isRet = true
    · obtain ⟨d, q, rfl⟩ := isRet_cases hn
      rw [if_pos hn, Node.tr]
      refine starts_seq (m := t) (starts_jump _ _ (fun e he => ?_) hc (by simp)) fun h => ?_
      · split at he
        · simp [chainE] at he
        · rename_i hq
          simp only [chainE, List.mem_cons, List.not_mem_nil, or_false] at he
          subst he
          simp [Node.first, hq]
      · exfalso
        obtain ⟨σ, l, σ', ⟨_, h⟩ | ⟨_, h⟩, _⟩ := h <;> cases h
    · rw [if_neg hn]
      have hn : n.isRet = false := by simpa using hn
      dsimp only
      obtain ⟨j, hj⟩ := exit_nop n k
      have hx : P (n.exit k) := hj ▸ hP j
      refine starts_seq (m := n.exit k) ?_ fun _ => starts_seq
        (starts_emit _ _ (fun e he => by simp [he]) hx) fun h => ?_
      · exact ((Node.starts hC hP n hf.1 hn k).mono fun e he => by simp [he]).after (.one hc (by simp))
      · have := Seq.starts (E := E) hC hP r hf.2 (chainEnd (n.exit k) (evs (k + n.vn) (transUses tr))) t (k + n.vn + (transUses tr).length)
          (chainEnd_P _ _ hx (emit_performed h))
        refine this.mono fun e he => ?_
        rw [evs_length]; simp [he]
theorem Brs.starts {E : Env} {C : Brs → Bool} (hC : CompleteSound E C) {P : V → Prop} (hP : ∀ k, P (.nop k)) :
    (b : Brs) → b.forsOk = true → ∀ (G : List (V × V)) last t k, (∀ e ∈ b.ge C last t k, e ∈ G) → P last → ∀ σ l o, b.tr E k σ l o →
      ((last, t) ∈ G ∨ ∃ c ∈ b.conds, σ.cond E c = true) →
      (∀ l1 x l2, l = l1 ++ x :: l2 → (∀ v ∈ l1, P v) → Reach G P last x) ∧
      (∀ σ', o = some (.normal, σ') → (∀ v ∈ l, P v) → Reach G P last t)
  | .nil, _, G, last, t, k, hG, hl, σ, l, o, hr, he => by
    rw [Brs.tr] at hr
    have := starts_emit (P := P) (G := G) (f := last) [] id (by simp [chainE]) hl σ l o hr
    refine ⟨this.1, fun σ' _ _ => ?_⟩
    rcases he with he | ⟨c, hc, _⟩
    · exact .one hl he
    · simp [Brs.conds] at hc
  | .cons c s r, hf, G, last, t, k, hG, hl, σ, l, o, hr, he => by
    rw [Brs.forsOk, Bool.and_eq_true] at hf
    rw [Brs.tr, TR.ite] at hr
    rw [Brs.ge] at hG
    split at hr
    · have h1 := ((Seq.starts (E := E) hC hP s hf.1 (.nop k) (.nop (k + 1)) (k + 2) (hP k)).mono (G' := G) fun e he => hG e (by simp [he]))
      exact (h1.after (a := last) (.one hl (hG _ (by simp)))).before (fun _ => .one (hP _) (hG (.nop (k + 1), t) (by simp))) σ l o hr
    · rename_i hc
      refine Brs.starts hC hP r hf.2 G last t _ (fun e he => hG e (by simp [he])) hl σ l o hr ?_
      rcases he with he | ⟨c', hc', h⟩
      · exact Or.inl he
      · rw [Brs.conds] at hc'
        rcases List.mem_cons.mp hc' with rfl | hc'
        · exact absurd h (by simpa using hc)
        · exact Or.inr ⟨c', hc', h⟩
end

/-- **C71.** If the dominance analysis says that use `a` dominates use `b`, then in every execution, terminating or not, `a` is
performed before `b` is: whenever `b` is performed, `a` has been performed before.  Missing: For and Map loops whose condition
mentions no symbol, and For and Map loops that are left by `break` or continued by `continue`; there it is false. -/
theorem dominates_sound_partial {E : Env} {C : Brs → Bool} (hC : CompleteSound E C) {s : Seq} (hs : s.forsOk = true) {i : Nat} {u : User}
    {b : V} (hd : Dominates (s.graph C) (.nop 0) (.ev i u) b) {σ : St} {l1 l2 : List V} {o : Option (Ctl × St)}
    (h : s.Performs E σ (l1 ++ b :: l2) o) : V.ev i u ∈ l1 := by
  have hr := (Seq.starts hC (P := fun v => v ∈ l1 ∨ ∃ k, v = .nop k) (fun k => Or.inr ⟨k, rfl⟩) s hs (.nop 0) (.nop 1) 2
    (Or.inr ⟨0, rfl⟩) σ _ o h).1 l1 b l2 rfl (fun v hv => Or.inl hv)
  obtain ⟨p, h1, h2, h3⟩ := hr.path
  rcases h3 _ (hd.2 p h1 h2) with h | h | ⟨k, h⟩
  · exact absurd h hd.1
  · exact h
  · cases h

end Docc.IR

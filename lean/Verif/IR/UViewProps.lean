import Verif.IR.UView
import Verif.IR.UGraphViol

namespace Docc.IR
open Docc.Sym

mutual
theorem Node.toEnd {E : Env} {C : Brs → Bool} (hC : CompleteSound E C) {P : V → Prop} :
    (n : Node) → n.isRet = false → ∀ k, (∀ v : V, k < v.id → v.id < k + n.vn → P v) → ∀ v ∈ n.useV k, Reach (n.ge C k) P v (n.exit k)
  | .block l, _, k, hP, v, hv => by
    rw [Node.useV] at hv; rw [Node.vn] at hP
    rw [Node.ge]
    have := chain_end (G := chainE (.nop k) (evs (k + 2) (l.flatMap Stmt.users) ++ [.nop (k + 1)])) (P := P)
      (evs (k + 2) (l.flatMap Stmt.users) ++ [.nop (k + 1)]) (.nop k) (fun e he => he) (fun x hx => ?_) v (List.mem_append_left _ hv)
    · rwa [chainEnd_drop _ []] at this
    · rcases List.mem_append.mp hx with hx | hx
      · have := evs_id hx; exact hP x (by omega) (by omega)
      · simp only [List.mem_singleton] at hx; subst hx; exact hP _ (by simp only [V.id_nop]; omega) (by simp only [V.id_nop]; omega)
  | .seq s, _, k, hP, v, hv => by
    rw [Node.useV] at hv; rw [Node.vn] at hP
    rw [Node.ge]
    exact Seq.toEnd hC s _ _ _ (fun x h1 h2 => hP x (by omega) (by omega)) v hv
  | .ifElse b, _, k, hP, v, hv => by
    rw [Node.useV] at hv; rw [Node.vn] at hP
    rw [Node.ge, evs_length]
    show Reach _ P v (.nop (k + 1))
    rcases List.mem_append.mp hv with hv | hv
    · have hPe : ∀ x ∈ evs (k + 2) (readsOnce b.condAtoms), P x := fun x hx => by have := evs_id hx; exact hP x (by omega) (by omega)
      have hPl : P (chainEnd (.nop k) (evs (k + 2) (readsOnce b.condAtoms))) := hPe _ (chainEnd_mem _ _ (List.ne_nil_of_mem hv))
      refine (chain_end (P := P) (evs (k + 2) (readsOnce b.condAtoms)) (.nop k) (fun e he => by simp [he]) hPe v hv).trans ?_
      by_cases hb : C b = true
      · obtain ⟨c, hc, _⟩ := hC b hb (fun _ _ => 0)
        refine ((Brs.pass hC (P := fun _ => True) (fun _ => trivial) b (by rintro rfl; simp [Brs.conds] at hc) _ (.nop (k + 1))
          (k + 2 + (readsOnce b.condAtoms).length)).of_src fun e he => ?_).mono fun e he => ?_
        · rcases Brs.src C b _ _ _ e he with h | h
          · rw [h]; exact hPl
          · exact hP _ (by omega) (by omega)
        · simp only [List.mem_append]; exact Or.inl (Or.inr he)
      · exact .one hPl (by simp [hb])
    · refine (Brs.toEnd hC b (chainEnd (.nop k) (evs (k + 2) (readsOnce b.condAtoms))) (.nop (k + 1)) _ (fun x h1 h2 => hP x (by omega) (by omega)) v hv).mono
        fun e he => ?_
      simp only [List.mem_append]; exact Or.inl (Or.inr he)
  | .whileL s, _, k, hP, v, hv => by
    rw [Node.useV] at hv; rw [Node.vn] at hP
    rw [Node.ge]
    show Reach _ P v (.nop (k + 1))
    refine ((Seq.toEnd hC s (.nop (k + 2)) (.nop (k + 3)) _ (fun x h1 h2 => hP x (by omega) (by omega)) v hv).mono fun e he => by simp [he]).trans ?_
    exact .one (hP _ (by simp only [V.id_nop]; omega) (by simp only [V.id_nop]; omega)) (by simp)
  | .loop m i init cond upd s, _, k, hP, v, hv => by
    rw [Node.useV] at hv; rw [Node.vn] at hP
    rw [Node.ge]
    simp only [evs_length]
    show Reach _ P v (.nop (k + 1))
    have hp1 : ∀ x ∈ evs (k + 2) (initUses i init), P x := fun x hx => by have := evs_id hx; exact hP x (by omega) (by omega)
    have hp2 : ∀ x ∈ evs (k + 2 + (initUses i init).length) (condUses cond), P x :=
      fun x hx => by have := evs_id hx; exact hP x (by omega) (by omega)
    have hp3 : ∀ x ∈ evs (k + 2 + (initUses i init).length + (condUses cond).length + 2 + s.kn) (updUses i upd), P x :=
      fun x hx => by have := evs_id hx; exact hP x (by omega) (by omega)
    have hpk : ∀ x, k < x → x < k + (2 + (initUses i init).length + (condUses cond).length + (2 + s.kn) + (updUses i upd).length) → P (.nop x) :=
      fun x h1 h2 => hP (.nop x) h1 h2
    have hin := fun x h1 h2 => hP x h1 h2
    have hbody : ∀ e ∈ s.ge C (.nop (k + 2 + (initUses i init).length + (condUses cond).length))
        (.nop (k + 2 + (initUses i init).length + (condUses cond).length + 1)) (k + 2 + (initUses i init).length + (condUses cond).length + 2), P e.1 := by
      intro e he
      rcases Seq.src C s _ _ _ e he with h | h
      · rw [h]; exact hpk _ (by omega) (by omega)
      · exact hP _ (by omega) (by omega)
    have hto := Seq.toEnd hC s (.nop (k + 2 + (initUses i init).length + (condUses cond).length))
        (.nop (k + 2 + (initUses i init).length + (condUses cond).length + 1)) (k + 2 + (initUses i init).length + (condUses cond).length + 2)
        (fun x h1 h2 => hP x (by omega) (by omega))
    have hk1 : P (.nop (k + 1)) := hpk _ (by omega) (by omega)
    have hkb : P (.nop (k + 2 + (initUses i init).length + (condUses cond).length)) := hpk _ (by omega) (by omega)
    have hkb1 : P (.nop (k + 2 + (initUses i init).length + (condUses cond).length + 1)) := hpk _ (by omega) (by omega)
    have hpass := (Seq.pass hC (P := fun _ => True) (fun _ => trivial) s (.nop (k + 2 + (initUses i init).length + (condUses cond).length))
      (.nop (k + 2 + (initUses i init).length + (condUses cond).length + 1)) (k + 2 + (initUses i init).length + (condUses cond).length + 2)).of_src hbody
    clear hP hin hbody hpk
    generalize evs (k + 2) (initUses i init) = u1 at *
    generalize evs (k + 2 + (initUses i init).length) (condUses cond) = u2 at *
    generalize evs (k + 2 + (initUses i init).length + (condUses cond).length + 2 + s.kn) (updUses i upd) = u3 at *
    generalize k + 2 + (initUses i init).length + (condUses cond).length = kb at *
    generalize hG : chainE (.nop k) u1 ++ chainE (chainEnd (.nop k) u1) u2 ++ u2.map (fun v => (v, V.nop (k + 1))) ++
      (chainEnd (chainEnd (.nop k) u1) u2, .nop kb) :: (s.ge C (.nop kb) (.nop (kb + 1)) (kb + 2) ++ chainE (.nop (kb + 1)) (u3 ++ [.nop (k + 1)]) ++
        [(.nop (k + 1), chainEnd (chainEnd (.nop k) u1) u2)]) = G
    have hg1 : ∀ e ∈ chainE (.nop k) u1, e ∈ G := fun e he => by rw [← hG]; simp [he]
    have hg2 : ∀ e ∈ chainE (chainEnd (.nop k) u1) u2, e ∈ G := fun e he => by rw [← hG]; simp [he]
    have hg3 : ∀ e ∈ chainE (.nop (kb + 1)) (u3 ++ [.nop (k + 1)]), e ∈ G := fun e he => by
      rw [← hG]; simp only [List.mem_append, List.mem_cons]; exact Or.inr (Or.inr (Or.inl (Or.inr he)))
    have hg4 : ∀ e ∈ s.ge C (.nop kb) (.nop (kb + 1)) (kb + 2), e ∈ G := fun e he => by rw [← hG]; simp [he]
    have hgl : (chainEnd (chainEnd (.nop k) u1) u2, V.nop kb) ∈ G := by rw [← hG]; simp
    have hpu : ∀ x ∈ u3 ++ [V.nop (k + 1)], P x := by
      intro x hx
      rcases List.mem_append.mp hx with hx | hx
      · exact hp3 x hx
      · simp only [List.mem_singleton] at hx; subst hx; exact hk1
    have hupd : Reach G P (.nop (kb + 1)) (.nop (k + 1)) := by
      have := chain_all (P := P) (u3 ++ [.nop (k + 1)]) (.nop (kb + 1)) hg3 hkb1 hpu
      rwa [chainEnd_drop _ []] at this
    have htail : P (chainEnd (chainEnd (.nop k) u1) u2) → Reach G P (chainEnd (chainEnd (.nop k) u1) u2) (.nop (k + 1)) :=
      fun hp => ((Reach.one hp hgl).trans (hpass.mono hg4)).trans hupd
    simp only [List.mem_append] at hv
    rcases hv with ((hv | hv) | hv) | hv
    · have hw : P (chainEnd (.nop k) u1) := hp1 _ (chainEnd_mem _ _ (List.ne_nil_of_mem hv))
      refine (chain_end u1 (.nop k) hg1 hp1 v hv).trans ?_
      exact (chain_all u2 _ hg2 hw hp2).trans (htail (chainEnd_P _ _ hw hp2))
    · exact (chain_end u2 _ hg2 hp2 v hv).trans (htail (hp2 _ (chainEnd_mem _ _ (List.ne_nil_of_mem hv))))
    · exact ((hto v hv).mono hg4).trans hupd
    · have := chain_end (u3 ++ [.nop (k + 1)]) (.nop (kb + 1)) hg3 hpu v (List.mem_append_left _ hv)
      rwa [chainEnd_drop _ []] at this
  | .brk, _, _, _, v, hv => by simp [Node.useV] at hv
  | .cont, _, _, _, v, hv => by simp [Node.useV] at hv
  | .ret _ _, h, _, _, _, _ => by simp [Node.isRet] at h
theorem Seq.toEnd {E : Env} {C : Brs → Bool} (hC : CompleteSound E C) {P : V → Prop} :
    (s : Seq) → ∀ cur t k, (∀ v : V, k ≤ v.id → v.id < k + s.kn → P v) → ∀ v ∈ s.useV k, Reach (s.ge C cur t k) P v t
  | .nil, _, _, _, _, v, hv => by simp [Seq.useV] at hv
  | .cons n tr r, cur, t, k, hP, v, hv => by
    rw [Seq.useV] at hv; rw [Seq.kn] at hP
    by_cases hn : n.isRet = true
    · rw [if_pos hn] at hv; cases hv
    · rw [if_neg hn] at hv
      rw [Seq.ge, if_neg hn]
      have hn : n.isRet = false := by simpa using hn
      simp only [evs_length]
      have hx := exit_id n k
      have hx2 := hx.2 hn
      have hpt : ∀ x ∈ evs (k + n.vn) (transUses tr), P x := fun x hx => by have := evs_id hx; exact hP x (by omega) (by omega)
      have hpx : P (n.exit k) := hP _ hx.1 (by omega)
      have hpl := chainEnd_P _ _ hpx hpt
      have hrest : Reach (r.ge C (chainEnd (n.exit k) (evs (k + n.vn) (transUses tr))) t (k + n.vn + (transUses tr).length)) P
          (chainEnd (n.exit k) (evs (k + n.vn) (transUses tr))) t :=
        (Seq.pass hC (P := fun _ => True) (fun _ => trivial) r _ t _).of_src fun e he => by
          rcases Seq.src C r _ _ _ e he with h | h
          · rw [h]; exact hpl
          · exact hP _ (by omega) (by omega)
      have hg : ∀ e ∈ r.ge C (chainEnd (n.exit k) (evs (k + n.vn) (transUses tr))) t (k + n.vn + (transUses tr).length),
          e ∈ (cur, n.first k) :: (n.ge C k ++ chainE (n.exit k) (evs (k + n.vn) (transUses tr)) ++
            r.ge C (chainEnd (n.exit k) (evs (k + n.vn) (transUses tr))) t (k + n.vn + (transUses tr).length)) := fun e he => by
        simp only [List.mem_append, List.mem_cons]; exact Or.inr (Or.inr he)
      simp only [List.mem_append] at hv
      rcases hv with (hv | hv) | hv
      · refine ((Node.toEnd hC n hn k (fun x h1 h2 => hP x (by omega) (by omega)) v hv).mono fun e he => by simp [he]).trans ?_
        exact (chain_all _ _ (fun e he => by simp [he]) hpx hpt).trans (hrest.mono hg)
      · exact (chain_end (P := P) _ (n.exit k) (fun e he => by simp [he]) hpt v hv).trans (hrest.mono hg)
      · exact (Seq.toEnd hC r _ t _ (fun x h1 h2 => hP x (by omega) (by omega)) v hv).mono hg
theorem Brs.toEnd {E : Env} {C : Brs → Bool} (hC : CompleteSound E C) {P : V → Prop} :
    (b : Brs) → ∀ last t k, (∀ v : V, k ≤ v.id → v.id < k + b.vn → P v) → ∀ v ∈ b.useV k, Reach (b.ge C last t k) P v t
  | .nil, _, _, _, _, v, hv => by simp [Brs.useV] at hv
  | .cons c s r, last, t, k, hP, v, hv => by
    rw [Brs.useV] at hv; rw [Brs.vn] at hP
    rw [Brs.ge]
    rcases List.mem_append.mp hv with hv | hv
    · refine ((Seq.toEnd hC s (.nop k) (.nop (k + 1)) _ (fun x h1 h2 => hP x (by omega) (by omega)) v hv).mono fun e he => by simp [he]).trans ?_
      exact .one (hP _ (by simp only [V.id_nop]; omega) (by simp only [V.id_nop]; omega)) (by simp)
    · exact (Brs.toEnd hC r last t _ (fun x h1 h2 => hP x (by omega) (by omega)) v hv).mono fun e he => by simp [he]
end

/-- **C74.** A view on a node (in particular on the body of a loop or a case of a conditional) lists every use that an execution of the node
performs, except the read of returned data, for which it is false. -/
theorem view_complete_partial {E : Env} {C : Brs → Bool} (hC : CompleteSound E C) {s : Seq} {m : Node} {j : Nat} (hm : s.Contains m j)
    {σ : St} {l : List V} {o : Option (Ctl × St)} (h : m.tr E j σ l o) {v : V} (hv : v ∈ l) (hr : v ∉ m.retV j) :
    InView (s.graph C) (.nop j) (m.exit j) v := by
  have hmr := Node.has_ret _ _ hm
  rcases Node.only E m hmr j σ l o h v hv with h1 | h1
  · have h2 := (Node.toEnd hC (P := fun v => v ≠ .nop j) m hmr j (fun x h1 _ he => by rw [he] at h1; simp [V.id] at h1) v h1).mono
      (Node.has_edges C (.seq s) 0 hm)
    rw [← graph_root] at h2
    obtain ⟨p, h3, h4, h5⟩ := h2.path
    refine ⟨p, h3, h4, fun hn => ?_⟩
    rcases h5 _ hn with h6 | h6
    · cases m <;> first | (simp [Node.useV] at h1; done) | (simp [Node.exit] at h6; done)
    · exact h6 rfl
  · exact absurd h1 hr

set_option maxRecDepth 8000 in
/-- **C74.** The read of the returned data is missing in the view on the node that contains the return. -/
theorem view_misses_return : ∃ s : Seq, ∃ m : Node, ∃ j, ∃ v : V, s.Contains m j ∧ (∃ σ l o, m.tr exEnv j σ l o ∧ v ∈ l) ∧
    ¬ InView (s.graph exNoC) (.nop j) (m.exit j) v := by
  refine ⟨exUgOk, .seq exUgOk, 0, .ev 23 (.read, "x"), Or.inl ⟨rfl, rfl⟩, ⟨exUg, _, _, (Node.tf_ok exEnv 4 (.seq exUgOk) 0 exUg).1, by decide⟩, ?_⟩
  rintro ⟨p, hp, hl, _⟩
  have := path_closed (S := [V.ev 23 (.read, "x")]) (by decide) p (V.ev 23 (.read, "x")) (by decide) hp _ hl
  revert this
  decide

/-- the body of the loop in `exUgOk` occurs in it, is executed and performs uses -/
example : exUgOk.Contains (.seq (exSetOne "x" (.cons (exWhen "c" (exSetOne "y" .nil)) [] .nil))) 7 := by
  unfold Seq.Contains
  rw [Node.Has]
  refine Or.inr ?_
  rw [exUgOk, Seq.Has, Node.Has]
  exact ⟨rfl, Or.inl (Or.inr (Or.inl ⟨rfl, rfl⟩))⟩

set_option maxRecDepth 8000 in
example : ∃ o, (Node.seq (exSetOne "x" (.cons (exWhen "c" (exSetOne "y" .nil)) [] .nil))).tr exEnv 7 exUg
    [.ev 11 (.write, "x"), .ev 14 (.read, "c"), .ev 19 (.write, "y")] o :=
  ⟨_, (Node.tf_ok exEnv 2 (.seq (exSetOne "x" (.cons (exWhen "c" (exSetOne "y" .nil)) [] .nil))) 7 exUg).1⟩

end Docc.IR

import Verif.IR.Offload
import Verif.IR.ReplaceProps
import Verif.IR.RangesUse

/-
Lemmas for C86: renaming many containers, and offsets into nested arrays.
-/
namespace Docc.IR
open Docc.Sym

/-! ### the names after a renaming -/

mutual
theorem Expr.atoms_ren (x y z : String) : (e : Expr) → z ∈ (e.subs (.sym x) (.sym y)).atoms → z ∈ e.atoms ∨ z = y
  | .int n, h => by simp [Expr.subs, Expr.atoms] at h
  | .sym w, h => by
    simp only [Expr.subs] at h
    split at h
    · exact Or.inr (by simpa [Expr.atoms] using h)
    · exact Or.inl h
  | .inf b, h => by simp [Expr.subs, Expr.atoms] at h
  | .nan, h => by simp [Expr.subs, Expr.atoms] at h
  | .add l, h => by simp only [Expr.subs, reduceCtorEq, if_false, Expr.atoms] at h ⊢; exact Expr.atomsL_ren x y z l h
  | .mul l, h => by simp only [Expr.subs, reduceCtorEq, if_false, Expr.atoms] at h ⊢; exact Expr.atomsL_ren x y z l h
  | .max l, h => by simp only [Expr.subs, reduceCtorEq, if_false, Expr.atoms] at h ⊢; exact Expr.atomsL_ren x y z l h
  | .min l, h => by simp only [Expr.subs, reduceCtorEq, if_false, Expr.atoms] at h ⊢; exact Expr.atomsL_ren x y z l h
  | .pow a b, h => by
    simp only [Expr.subs, reduceCtorEq, if_false, Expr.atoms, List.mem_append] at h ⊢
    rcases h with h | h
    · exact (Expr.atoms_ren x y z a h).imp Or.inl id
    · exact (Expr.atoms_ren x y z b h).imp Or.inr id
  | .fn f l, h => by simp only [Expr.subs, reduceCtorEq, if_false, Expr.atoms] at h ⊢; exact Expr.atomsL_ren x y z l h
theorem Expr.atomsL_ren (x y z : String) : (l : List Expr) → z ∈ Expr.atomsL (Expr.subsL l (.sym x) (.sym y)) → z ∈ Expr.atomsL l ∨ z = y
  | [], h => by simp [Expr.subsL, Expr.atomsL] at h
  | e :: l, h => by
    simp only [Expr.subsL, Expr.atomsL, List.mem_append] at h ⊢
    rcases h with h | h
    · exact (Expr.atoms_ren x y z e h).imp Or.inl id
    · exact (Expr.atomsL_ren x y z l h).imp Or.inr id
end

mutual
theorem Cond.atoms_ren (x y z : String) : (c : Cond) → z ∈ (c.subs (.sym x) (.sym y)).atoms → z ∈ c.atoms ∨ z = y
  | .tt, h => by simp [Cond.subs, Cond.atoms] at h
  | .ff, h => by simp [Cond.subs, Cond.atoms] at h
  | .atom w, h => by
    simp only [Cond.subs] at h
    split at h
    · exact Or.inr (by simpa [Cond.atoms] using h)
    · exact Or.inl h
  | .eq a b, h => by
    simp only [Cond.subs, Cond.atoms, List.mem_append] at h ⊢
    exact h.elim (fun h => (Expr.atoms_ren x y z a h).imp Or.inl id) fun h => (Expr.atoms_ren x y z b h).imp Or.inr id
  | .ne a b, h => by
    simp only [Cond.subs, Cond.atoms, List.mem_append] at h ⊢
    exact h.elim (fun h => (Expr.atoms_ren x y z a h).imp Or.inl id) fun h => (Expr.atoms_ren x y z b h).imp Or.inr id
  | .le a b, h => by
    simp only [Cond.subs, Cond.atoms, List.mem_append] at h ⊢
    exact h.elim (fun h => (Expr.atoms_ren x y z a h).imp Or.inl id) fun h => (Expr.atoms_ren x y z b h).imp Or.inr id
  | .lt a b, h => by
    simp only [Cond.subs, Cond.atoms, List.mem_append] at h ⊢
    exact h.elim (fun h => (Expr.atoms_ren x y z a h).imp Or.inl id) fun h => (Expr.atoms_ren x y z b h).imp Or.inr id
  | .eqB a b, h => by
    simp only [Cond.subs, Cond.atoms, List.mem_append] at h ⊢
    exact h.elim (fun h => (Cond.atoms_ren x y z a h).imp Or.inl id) fun h => (Cond.atoms_ren x y z b h).imp Or.inr id
  | .neB a b, h => by
    simp only [Cond.subs, Cond.atoms, List.mem_append] at h ⊢
    exact h.elim (fun h => (Cond.atoms_ren x y z a h).imp Or.inl id) fun h => (Cond.atoms_ren x y z b h).imp Or.inr id
  | .not a, h => by simp only [Cond.subs, Cond.atoms] at h ⊢; exact Cond.atoms_ren x y z a h
  | .and l, h => by simp only [Cond.subs, Cond.atoms] at h ⊢; exact Cond.atomsL_ren x y z l h
  | .or l, h => by simp only [Cond.subs, Cond.atoms] at h ⊢; exact Cond.atomsL_ren x y z l h
theorem Cond.atomsL_ren (x y z : String) : (l : List Cond) → z ∈ Cond.atomsL (Cond.subsL l (.sym x) (.sym y)) → z ∈ Cond.atomsL l ∨ z = y
  | [], h => by simp [Cond.subsL, Cond.atomsL] at h
  | c :: l, h => by
    simp only [Cond.subsL, Cond.atomsL, List.mem_append] at h ⊢
    rcases h with h | h
    · exact (Cond.atoms_ren x y z c h).imp Or.inl id
    · exact (Cond.atomsL_ren x y z l h).imp Or.inr id
end

theorem renameTo_ren {x y w z : String} (h : z = renameTo x (.sym y) w) : z = w ∨ z = y := by
  simp only [renameTo] at h
  split at h
  · exact Or.inr h
  · exact Or.inl h

theorem atomsMap_ren (x y z : String) (l : List Expr) (h : z ∈ Expr.atomsL (l.map (Expr.subs · (.sym x) (.sym y)))) : z ∈ Expr.atomsL l ∨ z = y := by
  rw [Expr.mem_atomsL] at h
  obtain ⟨e, he, hz⟩ := h
  obtain ⟨e, he', rfl⟩ := List.mem_map.1 he
  exact (Expr.atoms_ren x y z e hz).imp (fun h => (Expr.mem_atomsL ..).2 ⟨e, he', h⟩) id

theorem Stmt.names_ren (x y z : String) (s : Stmt) (h : z ∈ (s.replace x (.sym y)).names) : z ∈ s.names ∨ z = y := by
  cases s with
  | tasklet op ins out sub =>
    simp only [Stmt.replace, Stmt.names, List.mem_append, List.mem_map, List.mem_flatMap, List.mem_singleton] at h ⊢
    rcases h with ((⟨a, ⟨b, hb, rfl⟩, h⟩ | ⟨a, ⟨b, hb, rfl⟩, h⟩) | h) | h
    · exact (renameTo_ren h.symm).imp (fun h => Or.inl (Or.inl (Or.inl ⟨b, hb, h.symm⟩))) id
    · exact (atomsMap_ren x y z _ h).imp (fun h => Or.inl (Or.inl (Or.inr ⟨b, hb, h⟩))) id
    · exact (renameTo_ren h).imp (fun h => Or.inl (Or.inr h)) id
    · exact (atomsMap_ren x y z _ h).imp Or.inr id
  | lib op rs ws =>
    simp only [Stmt.replace, Stmt.names, List.mem_append, List.mem_map] at h ⊢
    rcases h with ⟨a, ha, h⟩ | ⟨a, ha, h⟩
    · exact (renameTo_ren h.symm).imp (fun e => Or.inl (by rw [e]; exact ha)) id
    · exact (renameTo_ren h.symm).imp (fun e => Or.inr (by rw [e]; exact ha)) id

theorem trans_ren {x y : String} {t : Trans} {a : String × Expr} (h : a ∈ transReplace x (.sym y) t) :
    ∃ b ∈ t, a = (renameTo x (.sym y) b.1, b.2.subs (.sym x) (.sym y)) := by
  obtain ⟨b, hb, rfl⟩ := List.mem_map.1 h
  refine ⟨b, ?_, rfl⟩
  simp only [transOverwrite] at hb
  split at hb
  · exact (List.mem_filter.1 hb).1
  · exact hb

mutual
theorem Node.names_ren (x y z : String) : (n : Node) → z ∈ (n.replace x (.sym y)).names → z ∈ n.names ∨ z = y
  | .block l, h => by
    simp only [Node.replace, Node.names, List.mem_flatMap, List.mem_map] at h ⊢
    obtain ⟨_, ⟨s, hs, rfl⟩, h⟩ := h
    exact (s.names_ren x y z h).imp (fun h => ⟨s, hs, h⟩) id
  | .seq s, h => by simp only [Node.replace, Node.names] at h ⊢; exact s.names_ren x y z h
  | .ifElse b, h => by simp only [Node.replace, Node.names] at h ⊢; exact b.names_ren x y z h
  | .whileL s, h => by simp only [Node.replace, Node.names] at h ⊢; exact s.names_ren x y z h
  | .loop m i a c u s, h => by
    simp only [Node.replace, Node.names, List.mem_cons, List.mem_append] at h ⊢
    rcases h with h | ((h | h) | h) | h
    · exact (renameTo_ren h).imp Or.inl id
    · exact (Expr.atoms_ren x y z a h).imp (fun h => Or.inr (Or.inl (Or.inl (Or.inl h)))) id
    · exact (Cond.atoms_ren x y z c h).imp (fun h => Or.inr (Or.inl (Or.inl (Or.inr h)))) id
    · exact (Expr.atoms_ren x y z u h).imp (fun h => Or.inr (Or.inl (Or.inr h))) id
    · exact (s.names_ren x y z h).imp (fun h => Or.inr (Or.inr h)) id
  | .brk, h => by simp [Node.replace, Node.names] at h
  | .cont, h => by simp [Node.replace, Node.names] at h
  | .ret d q, h => by
    simp only [Node.replace] at h
    split at h
    · exact Or.inr (by simpa [Node.names, Expr.text] using h)
    · exact Or.inl h
theorem Seq.names_ren (x y z : String) : (s : Seq) → z ∈ (s.replace x (.sym y)).names → z ∈ s.names ∨ z = y
  | .nil, h => by simp [Seq.replace, Seq.names] at h
  | .cons n t r, h => by
    simp only [Seq.replace, Seq.names, List.mem_append, List.mem_map, List.mem_flatMap] at h ⊢
    rcases h with ((h | ⟨a, ha, h⟩) | ⟨a, ha, h⟩) | h
    · exact (n.names_ren x y z h).imp (fun h => Or.inl (Or.inl (Or.inl h))) id
    · obtain ⟨b, hb, rfl⟩ := trans_ren ha
      exact (renameTo_ren h.symm).imp (fun h => Or.inl (Or.inl (Or.inr ⟨b, hb, h.symm⟩))) id
    · obtain ⟨b, hb, rfl⟩ := trans_ren ha
      exact (Expr.atoms_ren x y z _ h).imp (fun h => Or.inl (Or.inr ⟨b, hb, h⟩)) id
    · exact (r.names_ren x y z h).imp Or.inr id
theorem Brs.names_ren (x y z : String) : (b : Brs) → z ∈ (b.replace x (.sym y)).names → z ∈ b.names ∨ z = y
  | .nil, h => by simp [Brs.replace, Brs.names] at h
  | .cons c s r, h => by
    simp only [Brs.replace, Brs.names, List.mem_append] at h ⊢
    rcases h with (h | h) | h
    · exact (Cond.atoms_ren x y z c h).imp (fun h => Or.inl (Or.inl h)) id
    · exact (s.names_ren x y z h).imp (fun h => Or.inl (Or.inr h)) id
    · exact (r.names_ren x y z h).imp Or.inr id
end

mutual
theorem Node.rets_ren (x : String) (r : Expr) : (n : Node) → x ∉ n.rets → (n.replace x r).rets = n.rets
  | .block l, _ => rfl
  | .seq s, h => by simp only [Node.replace, Node.rets] at h ⊢; exact s.rets_ren x r h
  | .ifElse b, h => by simp only [Node.replace, Node.rets] at h ⊢; exact b.rets_ren x r h
  | .whileL s, h => by simp only [Node.replace, Node.rets] at h ⊢; exact s.rets_ren x r h
  | .loop m i a c u s, h => by simp only [Node.replace, Node.rets] at h ⊢; exact s.rets_ren x r h
  | .brk, _ => rfl
  | .cont, _ => rfl
  | .ret d q, h => by
    simp only [Node.replace]
    split
    · rename_i hc
      simp only [Bool.and_eq_true, Bool.not_eq_true', beq_iff_eq] at hc
      simp [Node.rets, hc] at h
    · rfl
theorem Seq.rets_ren (x : String) (r : Expr) : (s : Seq) → x ∉ s.rets → (s.replace x r).rets = s.rets
  | .nil, _ => rfl
  | .cons n t s, h => by
    simp only [Seq.rets, List.mem_append, not_or] at h
    simp only [Seq.replace, Seq.rets, n.rets_ren x r h.1, s.rets_ren x r h.2]
theorem Brs.rets_ren (x : String) (r : Expr) : (b : Brs) → x ∉ b.rets → (b.replace x r).rets = b.rets
  | .nil, _ => rfl
  | .cons c s b, h => by
    simp only [Brs.rets, List.mem_append, not_or] at h
    simp only [Brs.replace, Brs.rets, s.rets_ren x r h.1, b.rets_ren x r h.2]
end

/-! ### renaming many containers -/

/-- the memory on the right holds in `f x`, for the containers `x` of `l`, what the left one holds in `x`; otherwise they agree -/
def RenL (f : String → String) (l : List String) (σ τ : St) : Prop := (∀ x ∈ l, σ x = τ (f x)) ∧ ∀ z, z ∉ l → (∀ x ∈ l, f x ≠ z) → σ z = τ z

theorem kernel_sim (O : OffCtx) (E : Env) : ∀ (l : List String) (n : Node), l.Nodup → (∀ x ∈ l, O.dev x ∉ n.names) → (∀ x ∈ l, O.dev x ∉ l) →
    (∀ x ∈ l, ∀ y ∈ l, O.dev x = O.dev y → x = y) → (∀ x ∈ l, x ∉ n.rets) → ∀ σ τ k σ', RenL O.dev l σ τ → n.den E σ k σ' →
    ∃ τ', (O.kernel n l).den E τ k τ' ∧ RenL O.dev l σ' τ'
  | [], n, _, _, _, _, _, σ, τ, k, σ', hR, hd => by
    have : σ = τ := funext fun z => hR.2 z (by simp) (by simp)
    subst this
    exact ⟨σ', hd, by simp, fun _ _ _ => rfl⟩
  | x :: l, n, hN, hf, hl, hi, hr, σ, τ, k, σ', hR, hd => by
    rw [List.nodup_cons] at hN
    have hx : x ≠ O.dev x := fun e => hl x (by simp) (by rw [← e]; simp)
    have hne : ∀ y ∈ l, y ≠ x := fun y hy e => hN.1 (e ▸ hy)
    have hne' : ∀ y ∈ l, y ≠ O.dev x := fun y hy e => hl x (by simp) (by rw [← e]; simp [hy])
    obtain ⟨τ1', h1, h2⟩ := (n.rename_bis E x (O.dev x) hx (hf x (by simp)) (hr x (by simp))).1 σ
      (fun z => if z = O.dev x ∨ z = x then τ z else σ z) k σ' ⟨fun z h1 h2 => by simp [h1, h2], by
        simp only [true_or, if_true]; exact hR.1 x (by simp)⟩ hd
    obtain ⟨τ', h3, h4⟩ := kernel_sim O E l (n.replace x (.sym (O.dev x))) hN.2 (fun y hy hm => by
        rcases n.names_ren _ _ _ hm with hm | hm
        · exact hf y (by simp [hy]) hm
        · exact hne y hy (hi y (by simp [hy]) x (by simp) hm)) (fun y hy hm => hl y (by simp [hy]) (by simp [hm]))
      (fun y hy z hz => hi y (by simp [hy]) z (by simp [hz])) (fun y hy => by
        rw [n.rets_ren x _ (hr x (by simp))]; exact hr y (by simp [hy])) _ τ k τ1' ⟨fun y hy => by
          simp only [hne y hy, hne' y hy, or_self, if_false]; exact hR.1 y (by simp [hy]), fun z hz hz' => by
          by_cases e : z = O.dev x ∨ z = x
          · simp only [e, if_true]
          · simp only [e, if_false]
            rw [not_or] at e
            exact hR.2 z (by simp [e.2, hz]) fun y hy => by
              rcases List.mem_cons.1 hy with rfl | hy
              · exact fun h => e.1 h.symm
              · exact hz' y hy⟩ h1
    refine ⟨τ', h3, fun y hy => ?_, fun z hz hz' => ?_⟩
    · rcases List.mem_cons.1 hy with rfl | hy
      · rw [h2.2]
        exact h4.2 _ (fun h => hl y (by simp) (by simp [h])) fun w hw e => hne w hw (hi w (by simp [hw]) y (by simp) e)
      · rw [h2.1 y (hne y hy) (hne' y hy)]
        exact h4.1 y hy
    · rw [h2.1 z (fun e => hz (by simp [e])) (fun e => hz' x (by simp) e.symm)]
      exact h4.2 z (fun h => hz (by simp [h])) fun y hy => hz' y (by simp [hy])

/-! ### offsets -/

/-- the index lies within the extents -/
def Within : List Int → List Int → Prop
  | [], [] => True
  | e :: es, j :: js => 0 ≤ j ∧ j < e ∧ Within es js
  | _, _ => False

theorem Within.length : ∀ {es js : List Int}, Within es js → js.length = es.length
  | [], [], _ => rfl
  | _ :: _, _ :: _, h => by simp only [List.length_cons, Within.length h.2.2]
  | [], _ :: _, h => h.elim
  | _ :: _, [], h => h.elim

theorem linOff_bound : ∀ (es js : List Int) (a N : Int), 0 ≤ a → a < N → Within es js → 0 ≤ linOff a es js ∧ linOff a es js < es.foldl (· * ·) N
  | [], [], a, N, h1, h2, _ => ⟨h1, h2⟩
  | [], _ :: _, _, _, _, _, h => h.elim
  | _ :: _, [], _, _, _, _, h => h.elim
  | e :: es, j :: js, a, N, h1, h2, h => by
    obtain ⟨h3, h4, h5⟩ := h
    simp only [linOff, List.foldl_cons]
    have he : 0 < e := by omega
    have h6 : 0 ≤ a * e := Int.mul_nonneg h1 (by omega)
    have h7 : (a + 1) * e ≤ N * e := Int.mul_le_mul_of_nonneg_right (by omega) (by omega)
    rw [Int.add_mul, Int.one_mul] at h7
    exact linOff_bound es js (a * e + j) (N * e) (by omega) (by omega) h5

end Docc.IR

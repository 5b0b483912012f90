import Verif.IR.GpuCond
import Verif.IR.OutLocalProps
import Verif.IR.Bis

namespace Docc.IR
open Docc.Sym

/-! ### what the transformation does to threads inside the iteration space -/

theorem Rel.sim_and {A : St → St → Prop} {P Q : St → Prop} {R S : Rel} (h : Rel.sim A R S) (hp : Rel.inv P R) (hq : Rel.inv Q S) :
    Rel.sim (fun σ τ => A σ τ ∧ P σ ∧ Q τ) R S := by
  rintro σ τ c σ' ⟨ha, h1, h2⟩ hr
  obtain ⟨τ', hs, ha'⟩ := h σ τ c σ' ha hr
  exact ⟨τ', hs, ha', hp _ _ _ h1 hr, hq _ _ _ h2 hs⟩

/-- the two states are the same and the condition holds -/
def InRange (E : Env) (k : Cond) (σ τ : St) : Prop := σ = τ ∧ σ.cond E k = true

/-- the condition is not changed -/
theorem cond_kept {E : Env} {k : Cond} {f : St → St} {σ : St} (h : ∀ x ∈ k.atoms, f σ x = σ x) : (f σ).cond E k = σ.cond E k :=
  St.cond_congr E fun x hx => by rw [h x hx]

theorem Node.cond_inv (E : Env) {k : Cond} {b : Bool} (n : Node) (h : ∀ x ∈ k.atoms, x ∉ n.written) :
    Rel.inv (fun σ => σ.cond E k = b) (n.den E) := by
  intro σ c σ' hp hr
  rw [← hp]
  exact St.cond_congr E fun x hx => by rw [n.keeps E x (h x hx) hr]

theorem Seq.cond_inv (E : Env) {k : Cond} {b : Bool} (n : Seq) (h : ∀ x ∈ k.atoms, x ∉ n.written) :
    Rel.inv (fun σ => σ.cond E k = b) (n.den E) := by
  intro σ c σ' hp hr
  rw [← hp]
  exact St.cond_congr E fun x hx => by rw [n.keeps E x (h x hx) hr]

theorem trans_cond (E : Env) {k : Cond} {t : Trans} (h : ∀ x ∈ k.atoms, x ∉ t.map (·.1)) (σ : St) : (runTrans E t σ).cond E k = σ.cond E k :=
  St.cond_congr E fun x hx => by rw [runTrans_keeps t (h x hx)]

theorem Rel.same_bis {E : Env} {k : Cond} {R : Rel} (h : Rel.inv (fun σ => σ.cond E k = true) R) : Rel.bis (InRange E k) R R := by
  constructor
  · rintro σ τ c σ' ⟨rfl, hc⟩ hr
    exact ⟨σ', hr, rfl, h _ _ _ hc hr⟩
  · rintro σ τ c σ' ⟨rfl, hc⟩ hr
    exact ⟨σ', hr, rfl, h _ _ _ hc hr⟩

/-- inside the iteration space the new test changes nothing -/
theorem wrap_bis {E : Env} {k : Cond} {n : Node} {t : Trans} {r r' : Seq} (hn : ∀ x ∈ k.atoms, x ∉ n.written) (ht : ∀ x ∈ k.atoms, x ∉ t.map (·.1))
    (hr : Rel.bis (InRange E k) (r.den E) (r'.den E)) :
    Rel.bis (InRange E k) ((Seq.cons n t r).den E) ((Seq.cons (.ifElse (.cons k (.cons n t .nil) .nil)) [] r').den E) := by
  have e1 : (Seq.cons n t r).den E = Rel.seq ((Seq.cons n t .nil).den E) (r.den E) := by
    simp only [Seq.den, Rel.seq_skip, Rel.seq_assoc]
  have e2 : (Seq.cons (.ifElse (.cons k (.cons n t .nil) .nil)) [] r').den E =
      Rel.seq (Rel.ite (fun σ => σ.cond E k) ((Seq.cons n t .nil).den E) (Rel.upd id)) (r'.den E) := by
    rw [Seq.den, Node.den, Brs.den, Brs.den]
    congr 1
    rw [Rel.upd_seq]
    rfl
  rw [e1, e2]
  refine Rel.seq_bis ?_ hr
  have hi : Rel.inv (fun σ => σ.cond E k = true) ((Seq.cons n t .nil).den E) := by
    apply Seq.cond_inv
    intro x hx
    simp only [Seq.written, List.mem_append, List.not_mem_nil, or_false, not_or]
    exact ⟨hn x hx, ht x hx⟩
  constructor
  · rintro σ τ c σ' ⟨rfl, hc⟩ hd
    exact ⟨σ', by simp only [Rel.ite, hc, if_true]; exact hd, rfl, hi _ _ _ hc hd⟩
  · rintro τ σ c σ' ⟨rfl, hc⟩ hd
    simp only [Rel.ite, hc, if_true] at hd
    exact ⟨σ', hd, rfl, hi _ _ _ hc hd⟩

theorem Node.wrap_eq {k : Cond} {n : Node} {t : Trans} {r s' : Seq} (h : n.wrap k t r = .ok s') :
    s' = .cons n t r ∨ s' = .cons (.ifElse (.cons k (.cons n t .nil) .nil)) [] r := by
  cases n <;> simp [Node.wrap] at h <;> simp [h]

mutual
theorem Node.guard_bis (E : Env) {i : String} {k : Cond} : (n : Node) → ∀ {n' : Node}, n.guard i k = .ok n' → (∀ x ∈ k.atoms, x ∉ n.written) →
    Rel.bis (InRange E k) (n.den E) (n'.den E)
  | .block l, n', h, hw => by
    simp only [Node.guard, Except.ok.injEq] at h; subst h
    exact Rel.same_bis (Node.cond_inv E _ hw)
  | .brk, n', h, hw => by
    simp only [Node.guard, Except.ok.injEq] at h; subst h
    exact Rel.same_bis (Node.cond_inv E _ hw)
  | .cont, n', h, hw => by
    simp only [Node.guard, Except.ok.injEq] at h; subst h
    exact Rel.same_bis (Node.cond_inv E _ hw)
  | .ret d q, n', h, hw => by
    simp only [Node.guard, Except.ok.injEq] at h; subst h
    exact Rel.same_bis (Node.cond_inv E _ hw)
  | .seq s, n', h, hw => by
    rw [Node.guard] at h
    cases hs : s.guard i k with
    | error f => rw [hs] at h; simp [Except.map] at h
    | ok s' =>
      rw [hs] at h; simp only [Except.map, Except.ok.injEq] at h; subst h
      rw [Node.den, Node.den]
      exact s.guard_bis E hs (by simpa [Node.written] using hw)
  | .ifElse s, n', h, hw => by
    rw [Node.guard] at h
    cases hs : s.guard i k with
    | error f => rw [hs] at h; simp [Except.map] at h
    | ok s' =>
      rw [hs] at h; simp only [Except.map, Except.ok.injEq] at h; subst h
      rw [Node.den, Node.den]
      exact s.guard_bis E hs (by simpa [Node.written] using hw)
  | .whileL s, n', h, hw => by
    rw [Node.guard] at h
    cases hs : s.guard i k with
    | error f => rw [hs] at h; simp [Except.map] at h
    | ok s' =>
      rw [hs] at h; simp only [Except.map, Except.ok.injEq] at h; subst h
      rw [Node.den, Node.den]
      exact Rel.forever_bis (s.guard_bis E hs (by simpa [Node.written] using hw))
  | .loop m j a cc u s, n', h, hw => by
    rw [Node.guard] at h
    cases hs : s.guard i k with
    | error f => rw [hs] at h; simp [Except.map] at h
    | ok s' =>
      rw [hs] at h; simp only [Except.map, Except.ok.injEq] at h; subst h
      rw [Node.den, Node.den]
      simp only [Node.written, List.mem_cons, not_or] at hw
      have hset : ∀ (e : Expr) σ τ, InRange E k σ τ → InRange E k (σ.setS j (σ.ev E e)) (τ.setS j (τ.ev E e)) := by
        rintro e σ τ ⟨rfl, hc⟩
        exact ⟨rfl, by rw [← hc]; exact St.cond_congr E fun x hx => by rw [St.setS_other _ _ (hw x hx).1]⟩
      exact Rel.seq_bis (Rel.upd_bis (hset a)) (Rel.iter_bis (by rintro σ τ ⟨rfl, _⟩; rfl) (hset u) (s.guard_bis E hs fun x hx => (hw x hx).2))
theorem Seq.guard_bis (E : Env) {i : String} {k : Cond} : (s : Seq) → ∀ {s' : Seq}, s.guard i k = .ok s' → (∀ x ∈ k.atoms, x ∉ s.written) →
    Rel.bis (InRange E k) (s.den E) (s'.den E)
  | .nil, s', h, hw => by
    simp only [Seq.guard, Except.ok.injEq] at h; subst h
    exact Rel.same_bis (Seq.cond_inv E _ hw)
  | .cons n t r, s', h, hw => by
    rw [Seq.guard] at h
    have hwn : ∀ x ∈ k.atoms, x ∉ n.written := fun x hx hm => hw x hx (by simp [Seq.written, hm])
    have hwt : ∀ x ∈ k.atoms, x ∉ t.map (·.1) := fun x hx hm => hw x hx (by simp only [Seq.written, List.mem_append]; exact Or.inl (Or.inr hm))
    have hwr : ∀ x ∈ k.atoms, x ∉ r.written := fun x hx hm => hw x hx (by simp [Seq.written, hm])
    cases hr : r.guard i k with
    | error f => rw [hr] at h; simp at h
    | ok r' =>
      rw [hr] at h
      have ihr := r.guard_bis E hr hwr
      have htb : Rel.bis (InRange E k) (Rel.upd (runTrans E t)) (Rel.upd (runTrans E t)) :=
        Rel.upd_bis (by rintro σ τ ⟨rfl, hc⟩; exact ⟨rfl, by rw [trans_cond E hwt, hc]⟩)
      have hsame : Rel.bis (InRange E k) ((Seq.cons n t r).den E) ((Seq.cons n t r').den E) := by
        rw [Seq.den, Seq.den]
        exact Rel.seq_bis (Rel.same_bis (n.cond_inv E hwn)) (Rel.seq_bis htb ihr)
      simp only at h
      split at h
      · split at h
        · cases hn : n.guard i k with
          | error f => rw [hn] at h; simp [Except.map] at h
          | ok n' =>
            rw [hn] at h; simp only [Except.map, Except.ok.injEq] at h; subst h
            rw [Seq.den, Seq.den]
            exact Rel.seq_bis (n.guard_bis E hn hwn) (Rel.seq_bis htb ihr)
        · rcases Node.wrap_eq h with rfl | rfl
          · exact hsame
          · exact wrap_bis hwn hwt ihr
      · simp only [Except.ok.injEq] at h; subst h
        exact hsame
theorem Brs.guard_bis (E : Env) {i : String} {k : Cond} : (s : Brs) → ∀ {s' : Brs}, s.guard i k = .ok s' → (∀ x ∈ k.atoms, x ∉ s.written) →
    Rel.bis (InRange E k) (s.den E) (s'.den E)
  | .nil, s', h, hw => by
    simp only [Brs.guard, Except.ok.injEq] at h; subst h
    rw [Brs.den]
    exact Rel.upd_bis fun _ _ h => h
  | .cons c s r, s', h, hw => by
    rw [Brs.guard] at h
    have hws : ∀ x ∈ k.atoms, x ∉ s.written := fun x hx hm => hw x hx (by simp [Brs.written, hm])
    have hwr : ∀ x ∈ k.atoms, x ∉ r.written := fun x hx hm => hw x hx (by simp [Brs.written, hm])
    cases hr : r.guard i k with
    | error f => rw [hr] at h; simp at h
    | ok r' =>
      rw [hr] at h
      have ihr := r.guard_bis E hr hwr
      simp only at h
      split at h
      · split at h
        · cases hn : s.guard i k with
          | error f => rw [hn] at h; simp [Except.map] at h
          | ok n' =>
            rw [hn] at h; simp only [Except.map, Except.ok.injEq] at h; subst h
            rw [Brs.den, Brs.den]
            exact Rel.ite_bis (by rintro σ τ ⟨rfl, _⟩; rfl) (s.guard_bis E hn hws) ihr
        · simp at h
      · simp only [Except.ok.injEq] at h; subst h
        rw [Brs.den, Brs.den]
        exact Rel.ite_bis (by rintro σ τ ⟨rfl, _⟩; rfl) (Rel.same_bis (s.cond_inv E hws)) ihr
end

/-! ### threads outside the iteration space change only exposed containers -/

/-- outside the iteration space, with `z` unchanged -/
def Outside (E : Env) (k : Cond) (z : String) (v : List Int → Int) (σ : St) : Prop := σ.cond E k = false ∧ σ z = v

theorem Node.outside_inv (E : Env) {k : Cond} {z : String} {v : List Int → Int} (n : Node) (h : ∀ x ∈ k.atoms, x ∉ n.written) (hz : z ∉ n.written) :
    Rel.inv (Outside E k z v) (n.den E) := by
  rintro σ c σ' ⟨hc, hv⟩ hd
  exact ⟨n.cond_inv E h _ _ _ hc hd, by rw [n.keeps E z hz hd, hv]⟩

theorem Seq.outside_inv (E : Env) {k : Cond} {z : String} {v : List Int → Int} (n : Seq) (h : ∀ x ∈ k.atoms, x ∉ n.written) (hz : z ∉ n.written) :
    Rel.inv (Outside E k z v) (n.den E) := by
  rintro σ c σ' ⟨hc, hv⟩ hd
  exact ⟨n.cond_inv E h _ _ _ hc hd, by rw [n.keeps E z hz hd, hv]⟩

theorem trans_outside (E : Env) {k : Cond} {z : String} {v : List Int → Int} {t : Trans} (h : ∀ x ∈ k.atoms, x ∉ t.map (·.1)) (hz : z ∉ t.map (·.1)) :
    Rel.inv (Outside E k z v) (Rel.upd (runTrans E t)) :=
  Rel.upd_inv fun σ ⟨hc, hv⟩ => ⟨by rw [trans_cond E h, hc], by rw [runTrans_keeps t hz, hv]⟩

theorem wrap_outside {E : Env} {k : Cond} {z : String} {v : List Int → Int} {n : Node} {t : Trans} {r' : Seq}
    (hr : Rel.inv (Outside E k z v) (r'.den E)) :
    Rel.inv (Outside E k z v) ((Seq.cons (.ifElse (.cons k (.cons n t .nil) .nil)) [] r').den E) := by
  rw [Seq.den]
  refine Rel.seq_inv ?_ (Rel.seq_inv (Rel.upd_inv fun _ h => h) hr)
  rw [Node.den, Brs.den, Brs.den]
  rintro σ c σ' ⟨hc, hv⟩ hd
  simp only [Rel.ite, hc, Bool.false_eq_true, if_false, Rel.upd, id] at hd
  rw [hd.2]; exact ⟨hc, hv⟩

mutual
theorem Node.guard_outside (E : Env) {i : String} {k : Cond} {z : String} {v : List Int → Int} : (n : Node) → ∀ {n' : Node}, n.guard i k = .ok n' →
    (∀ x ∈ k.atoms, x ∉ n.written) → z ∉ n.exposed i → Rel.inv (Outside E k z v) (n'.den E)
  | .block l, n', h, hw, hz => by
    simp only [Node.guard, Except.ok.injEq] at h; subst h
    exact Node.outside_inv E _ hw hz
  | .brk, n', h, hw, hz => by
    simp only [Node.guard, Except.ok.injEq] at h; subst h
    exact Node.outside_inv E _ hw (by simp [Node.written])
  | .cont, n', h, hw, hz => by
    simp only [Node.guard, Except.ok.injEq] at h; subst h
    exact Node.outside_inv E _ hw (by simp [Node.written])
  | .ret d q, n', h, hw, hz => by
    simp only [Node.guard, Except.ok.injEq] at h; subst h
    exact Node.outside_inv E _ hw (by simp [Node.written])
  | .seq s, n', h, hw, hz => by
    rw [Node.guard] at h
    cases hs : s.guard i k with
    | error f => rw [hs] at h; simp [Except.map] at h
    | ok s' =>
      rw [hs] at h; simp only [Except.map, Except.ok.injEq] at h; subst h
      rw [Node.den]
      exact s.guard_outside E hs (by simpa [Node.written] using hw) (by simpa [Node.exposed] using hz)
  | .ifElse s, n', h, hw, hz => by
    rw [Node.guard] at h
    cases hs : s.guard i k with
    | error f => rw [hs] at h; simp [Except.map] at h
    | ok s' =>
      rw [hs] at h; simp only [Except.map, Except.ok.injEq] at h; subst h
      rw [Node.den]
      exact s.guard_outside E hs (by simpa [Node.written] using hw) (by simpa [Node.exposed] using hz)
  | .whileL s, n', h, hw, hz => by
    rw [Node.guard] at h
    cases hs : s.guard i k with
    | error f => rw [hs] at h; simp [Except.map] at h
    | ok s' =>
      rw [hs] at h; simp only [Except.map, Except.ok.injEq] at h; subst h
      rw [Node.den]
      exact Rel.forever_inv (s.guard_outside E hs (by simpa [Node.written] using hw) (by simpa [Node.exposed] using hz))
  | .loop m j a cc u s, n', h, hw, hz => by
    rw [Node.guard] at h
    cases hs : s.guard i k with
    | error f => rw [hs] at h; simp [Except.map] at h
    | ok s' =>
      rw [hs] at h; simp only [Except.map, Except.ok.injEq] at h; subst h
      rw [Node.den]
      simp only [Node.written, List.mem_cons, not_or] at hw
      simp only [Node.exposed, List.mem_cons, not_or] at hz
      have hset : ∀ (e : Expr) σ, Outside E k z v σ → Outside E k z v (σ.setS j (σ.ev E e)) := by
        rintro e σ ⟨hc, hv⟩
        exact ⟨by rw [← hc]; exact St.cond_congr E fun x hx => by rw [St.setS_other _ _ (hw x hx).1], by rw [St.setS_other _ _ hz.1, hv]⟩
      exact Rel.seq_inv (Rel.upd_inv (hset a)) (Rel.iter_inv (hset u) (s.guard_outside E hs (fun x hx => (hw x hx).2) hz.2))
theorem Seq.guard_outside (E : Env) {i : String} {k : Cond} {z : String} {v : List Int → Int} : (s : Seq) → ∀ {s' : Seq}, s.guard i k = .ok s' →
    (∀ x ∈ k.atoms, x ∉ s.written) → z ∉ s.exposed i → Rel.inv (Outside E k z v) (s'.den E)
  | .nil, s', h, hw, hz => by
    simp only [Seq.guard, Except.ok.injEq] at h; subst h
    exact Seq.outside_inv E _ hw (by simp [Seq.written])
  | .cons n t r, s', h, hw, hz => by
    rw [Seq.guard] at h
    rw [Seq.exposed, List.mem_append, not_or] at hz
    obtain ⟨hz, hzr⟩ := hz
    have hwn : ∀ x ∈ k.atoms, x ∉ n.written := fun x hx hm => hw x hx (by simp [Seq.written, hm])
    have hwt : ∀ x ∈ k.atoms, x ∉ t.map (·.1) := fun x hx hm => hw x hx (by simp only [Seq.written, List.mem_append]; exact Or.inl (Or.inr hm))
    have hwr : ∀ x ∈ k.atoms, x ∉ r.written := fun x hx hm => hw x hx (by simp [Seq.written, hm])
    cases hr : r.guard i k with
    | error f => rw [hr] at h; simp at h
    | ok r' =>
      rw [hr] at h
      have ihr := r.guard_outside (z := z) (v := v) E hr hwr hzr
      simp only at h
      split at h
      · rename_i hu
        simp only [hu, if_true] at hz
        split at h
        · rename_i hb
          simp only [hb, if_true, List.mem_append, not_or] at hz
          cases hn : n.guard i k with
          | error f => rw [hn] at h; simp [Except.map] at h
          | ok n' =>
            rw [hn] at h; simp only [Except.map, Except.ok.injEq] at h; subst h
            rw [Seq.den]
            exact Rel.seq_inv (n.guard_outside E hn hwn hz.1) (Rel.seq_inv (trans_outside E hwt hz.2) ihr)
        · cases n with
          | seq _ => simp [Node.wrap] at h
          | brk => simp [usesVar, Node.users] at hu
          | cont => simp [usesVar, Node.users] at hu
          | ret d q =>
            simp only [Node.wrap, Except.ok.injEq] at h; subst h
            rw [Seq.den, Node.den, Rel.exit_seq _ (by simp)]
            exact Rel.exit_inv _ _
          | block _ => simp only [Node.wrap, Except.ok.injEq] at h; subst h; exact wrap_outside ihr
          | ifElse _ => simp only [Node.wrap, Except.ok.injEq] at h; subst h; exact wrap_outside ihr
          | whileL _ => simp only [Node.wrap, Except.ok.injEq] at h; subst h; exact wrap_outside ihr
          | loop _ _ _ _ _ _ => simp only [Node.wrap, Except.ok.injEq] at h; subst h; exact wrap_outside ihr
      · rename_i hu
        simp only [hu, Bool.false_eq_true, if_false, List.mem_append, not_or] at hz
        simp only [Except.ok.injEq] at h; subst h
        rw [Seq.den]
        exact Rel.seq_inv (n.outside_inv E hwn hz.1) (Rel.seq_inv (trans_outside E hwt hz.2) ihr)
theorem Brs.guard_outside (E : Env) {i : String} {k : Cond} {z : String} {v : List Int → Int} : (s : Brs) → ∀ {s' : Brs}, s.guard i k = .ok s' →
    (∀ x ∈ k.atoms, x ∉ s.written) → z ∉ s.exposed i → Rel.inv (Outside E k z v) (s'.den E)
  | .nil, s', h, hw, hz => by
    simp only [Brs.guard, Except.ok.injEq] at h; subst h
    rw [Brs.den]
    exact Rel.upd_inv fun _ h => h
  | .cons c s r, s', h, hw, hz => by
    rw [Brs.guard] at h
    rw [Brs.exposed, List.mem_append, not_or] at hz
    have hws : ∀ x ∈ k.atoms, x ∉ s.written := fun x hx hm => hw x hx (by simp [Brs.written, hm])
    have hwr : ∀ x ∈ k.atoms, x ∉ r.written := fun x hx hm => hw x hx (by simp [Brs.written, hm])
    cases hr : r.guard i k with
    | error f => rw [hr] at h; simp at h
    | ok r' =>
      rw [hr] at h
      have ihr := r.guard_outside (z := z) (v := v) E hr hwr hz.2
      simp only at h
      split at h
      · rename_i hu
        simp only [hu, if_true] at hz
        split at h
        · cases hn : s.guard i k with
          | error f => rw [hn] at h; simp [Except.map] at h
          | ok n' =>
            rw [hn] at h; simp only [Except.map, Except.ok.injEq] at h; subst h
            rw [Brs.den]
            exact Rel.ite_inv (s.guard_outside E hn hws hz.1) ihr
        · simp at h
      · rename_i hu
        simp only [hu, Bool.false_eq_true, if_false] at hz
        simp only [Except.ok.injEq] at h; subst h
        rw [Brs.den]
        exact Rel.ite_inv (s.outside_inv E hws hz.1) ihr
end

/-! ### every thread takes the same way to the barriers -/

/-- the states agree on the containers of `X` -/
def SameOn (X : String → Bool) (σ τ : St) : Prop := ∀ x, X x = true → σ x = τ x

theorem SameOn.ev {X : String → Bool} {σ τ : St} (h : SameOn X σ τ) (E : Env) {e : Expr} (he : e.atoms.all X = true) : σ.ev E e = τ.ev E e :=
  St.ev_congr E fun x hx => by rw [h x (List.all_eq_true.mp he x hx)]

theorem SameOn.cond {X : String → Bool} {σ τ : St} (h : SameOn X σ τ) (E : Env) {e : Cond} (he : e.atoms.all X = true) : σ.cond E e = τ.cond E e :=
  St.cond_congr E fun x hx => by rw [h x (List.all_eq_true.mp he x hx)]

theorem SameOn.evs {X : String → Bool} {σ τ : St} (h : SameOn X σ τ) (E : Env) : (l : List Expr) → (Expr.atomsL l).all X = true →
    l.map (σ.ev E) = l.map (τ.ev E)
  | [], _ => rfl
  | e :: l, he => by
    rw [Expr.atomsL, List.all_append, Bool.and_eq_true] at he
    rw [List.map_cons, List.map_cons, h.ev E he.1, h.evs E l he.2]

theorem SameOn.set {X : String → Bool} {σ τ : St} (h : SameOn X σ τ) {y : String} {p q : List Int} {v w : Int}
    (hy : X y = true → p = q ∧ v = w) : SameOn X (σ.set y p v) (τ.set y q w) := by
  intro x hx
  by_cases e : x = y
  · subst e
    obtain ⟨rfl, rfl⟩ := hy hx
    funext j
    simp only [St.set, h x hx]
  · rw [St.set_other _ _ _ e, St.set_other _ _ _ e, h x hx]

theorem SameOn.stmt {X : String → Bool} {σ τ : St} (h : SameOn X σ τ) (E : Env) (s : Stmt) (hs : s.within X = true) :
    SameOn X (s.run E σ) (s.run E τ) := by
  cases s with
  | tasklet op ins o sub =>
    refine h.set fun ho => ?_
    simp only [Stmt.within, ho, Bool.not_true, Bool.false_or, Bool.and_eq_true, List.all_eq_true (l := ins)] at hs
    refine ⟨h.evs E sub hs.2, ?_⟩
    congr 1
    apply List.map_congr_left
    intro r hr
    have := hs.1 r hr
    rw [h r.1 this.1, h.evs E r.2 this.2]
  | lib op rs ws =>
    intro x hx
    simp only [Stmt.run]
    by_cases hm : x ∈ ws
    · have hw : ws.any X = true := List.any_eq_true.mpr ⟨x, hm, hx⟩
      simp only [Stmt.within, hw, Bool.not_true, Bool.false_or] at hs
      have e : rs.map σ = rs.map τ := by
        apply List.map_congr_left
        intro r hr
        exact h r (List.all_eq_true.mp hs r hr)
      rw [e]
      exact setMany_mem ws _ σ τ hm
    · rw [St.setMany_other _ _ _ hm, St.setMany_other _ _ _ hm, h x hx]

theorem SameOn.block {X : String → Bool} (E : Env) : (l : List Stmt) → l.all (Stmt.within X) = true → ∀ {σ τ : St}, SameOn X σ τ →
    SameOn X (runBlock E l σ) (runBlock E l τ)
  | [], _, _, _, h => h
  | s :: l, hl, _, _, h => by
    rw [List.all_cons, Bool.and_eq_true] at hl
    exact SameOn.block E l hl.2 (h.stmt E s hl.1)

theorem SameOn.trans {X : String → Bool} (E : Env) : (t : Trans) → transWithin X t = true → ∀ {σ τ : St}, SameOn X σ τ →
    SameOn X (runTrans E t σ) (runTrans E t τ)
  | [], _, _, _, h => h
  | a :: t, ht, σ, τ, h => by
    simp only [transWithin, List.all_cons, Bool.and_eq_true] at ht
    refine SameOn.trans E t ht.2 (σ := σ.setS a.1 (σ.ev E a.2)) (τ := τ.setS a.1 (τ.ev E a.2)) (h.set fun hx => ⟨rfl, ?_⟩)
    have := ht.1
    simp only [hx, Bool.not_true, Bool.false_or] at this
    exact h.ev E this

theorem SameOn.header {X : String → Bool} {j : String} {a u : Expr} (h : (!X j || (a.atoms.all X && u.atoms.all X)) = true) (E : Env) :
    (∀ σ τ, SameOn X σ τ → SameOn X (σ.setS j (σ.ev E a)) (τ.setS j (τ.ev E a))) ∧
    (∀ σ τ, SameOn X σ τ → SameOn X (σ.setS j (σ.ev E u)) (τ.setS j (τ.ev E u))) := by
  constructor <;> intro σ τ hs <;> refine hs.set fun hx => ⟨rfl, ?_⟩ <;>
    simp only [hx, Bool.not_true, Bool.false_or, Bool.and_eq_true] at h
  · exact hs.ev E h.1
  · exact hs.ev E h.2

mutual
theorem Node.within_sim (E : Env) {X : String → Bool} : (n : Node) → n.within X = true → Rel.sim (SameOn X) (n.den E) (n.den E)
  | .block l, h => by rw [Node.den]; exact Rel.upd_sim fun _ _ hs => SameOn.block E l h hs
  | .seq s, h => by rw [Node.den]; exact s.within_sim E h
  | .ifElse s, h => by rw [Node.den]; exact s.within_sim E h
  | .whileL s, h => by rw [Node.den]; exact Rel.forever_sim (s.within_sim E h)
  | .loop m j a cc u s, h => by
    simp only [Node.within, Bool.and_eq_true (_ && _), Bool.and_eq_true (_ || _)] at h
    rw [Node.den]
    exact Rel.seq_sim (Rel.upd_sim (SameOn.header h.1.1 E).1)
      (Rel.iter_sim (fun _ _ hs => hs.cond E h.1.2) (SameOn.header h.1.1 E).2 (s.within_sim E h.2))
  | .brk, _ => by rw [Node.den]; exact Rel.exit_sim _ _
  | .cont, _ => by rw [Node.den]; exact Rel.exit_sim _ _
  | .ret _ _, _ => by rw [Node.den]; exact Rel.exit_sim _ _
theorem Seq.within_sim (E : Env) {X : String → Bool} : (n : Seq) → n.within X = true → Rel.sim (SameOn X) (n.den E) (n.den E)
  | .nil, _ => by rw [Seq.den]; exact Rel.upd_sim fun _ _ hs => hs
  | .cons n t r, h => by
    simp only [Seq.within, Bool.and_eq_true] at h
    rw [Seq.den]
    exact Rel.seq_sim (n.within_sim E h.1.1) (Rel.seq_sim (Rel.upd_sim fun _ _ hs => SameOn.trans E t h.1.2 hs) (r.within_sim E h.2))
theorem Brs.within_sim (E : Env) {X : String → Bool} : (n : Brs) → n.within X = true → Rel.sim (SameOn X) (n.den E) (n.den E)
  | .nil, _ => by rw [Brs.den]; exact Rel.upd_sim fun _ _ hs => hs
  | .cons c s r, h => by
    simp only [Brs.within, Bool.and_eq_true] at h
    rw [Brs.den]
    exact Rel.ite_sim (fun _ _ hs => hs.cond E h.1.1) (s.within_sim E h.1.2) (r.within_sim E h.2)
end

/-- a thread inside and a thread outside the iteration space -/
def Pair (E : Env) (k : Cond) (X : String → Bool) (σ τ : St) : Prop := SameOn X σ τ ∧ σ.cond E k = true ∧ τ.cond E k = false

theorem pair_set {E : Env} {k : Cond} {X : String → Bool} {j : String} {e : Expr} (hj : ∀ x ∈ k.atoms, x ≠ j)
    (h : ∀ σ τ, SameOn X σ τ → SameOn X (σ.setS j (σ.ev E e)) (τ.setS j (τ.ev E e))) (σ τ : St) (hp : Pair E k X σ τ) :
    Pair E k X (σ.setS j (σ.ev E e)) (τ.setS j (τ.ev E e)) := by
  have hk : ∀ (σ : St) v, (σ.setS j v).cond E k = σ.cond E k := fun σ v => St.cond_congr E fun x hx => by rw [St.setS_other _ _ (hj x hx)]
  exact ⟨h _ _ hp.1, by rw [hk, hp.2.1], by rw [hk, hp.2.2]⟩

theorem wrap_pair {E : Env} {k : Cond} {X : String → Bool} {n : Node} {t : Trans} {r' : Seq} (ha : n.aside X t = true)
    (hn : ∀ x ∈ k.atoms, x ∉ n.written) (ht : ∀ x ∈ k.atoms, x ∉ t.map (·.1)) (hr : Rel.sim (Pair E k X) (r'.den E) (r'.den E)) :
    Rel.sim (Pair E k X) ((Seq.cons (.ifElse (.cons k (.cons n t .nil) .nil)) [] r').den E)
      ((Seq.cons (.ifElse (.cons k (.cons n t .nil) .nil)) [] r').den E) := by
  rw [Seq.den]
  refine Rel.seq_sim ?_ (Rel.seq_sim (Rel.upd_sim fun _ _ h => h) hr)
  rw [Node.den, Brs.den, Brs.den]
  rintro σ τ c σ' ⟨hs, h1, h2⟩ hd
  simp only [Rel.ite, h1, if_true] at hd
  simp only [Node.aside, Bool.and_eq_true, Bool.not_eq_true', List.any_eq_false] at ha
  have hw : ∀ x, X x = true ∨ x ∈ k.atoms → x ∉ (Seq.cons n t .nil).written := by
    intro x hx hm
    simp only [Seq.written, List.mem_append, List.not_mem_nil, or_false] at hm
    rcases hx with hx | hx
    · exact ha.2 x (List.mem_append.mpr hm) hx
    · exact hm.elim (hn x hx) (ht x hx)
  have hc : c = .normal := by
    have p1 := (Seq.cons n t .nil).noJump_proper E (by simp [Seq.noJump, ha.1.1]) σ c σ' hd
    have p2 := (Seq.cons n t .nil).stays E (by simp [Seq.returns, ha.1.2]) σ c σ' hd
    cases c <;> simp [Ctl.proper, Ctl.stays] at p1 p2 ⊢
  subst hc
  refine ⟨τ, by simp only [Rel.ite, h2, Bool.false_eq_true, if_false]; exact ⟨rfl, rfl⟩, ?_, ?_, h2⟩
  · intro x hx
    rw [Seq.keeps E _ x (hw x (Or.inl hx)) hd, hs x hx]
  · rw [← h1]
    exact St.cond_congr E fun x hx => by rw [Seq.keeps E _ x (hw x (Or.inr hx)) hd]

theorem Rel.pair_and {E : Env} {k : Cond} {X : String → Bool} {R : Rel} (h : Rel.sim (SameOn X) R R) (hi : ∀ b, Rel.inv (fun σ => σ.cond E k = b) R) :
    Rel.sim (Pair E k X) R R := Rel.sim_and h (hi true) (hi false)

mutual
theorem Node.guard_pair (E : Env) {i : String} {k : Cond} {X : String → Bool} : (n : Node) → ∀ {n' : Node}, n.guard i k = .ok n' →
    (∀ x ∈ k.atoms, x ∉ n.written) → n.uniform i X = true → Rel.sim (Pair E k X) (n'.den E) (n'.den E)
  | .block l, n', h, hw, hz => by
    simp only [Node.guard, Except.ok.injEq] at h; subst h
    exact Rel.pair_and (Node.within_sim E _ hz) fun _ => Node.cond_inv E _ hw
  | .brk, n', h, hw, hz => by
    simp only [Node.guard, Except.ok.injEq] at h; subst h
    rw [Node.den]; exact Rel.exit_sim _ _
  | .cont, n', h, hw, hz => by
    simp only [Node.guard, Except.ok.injEq] at h; subst h
    rw [Node.den]; exact Rel.exit_sim _ _
  | .ret d q, n', h, hw, hz => by
    simp only [Node.guard, Except.ok.injEq] at h; subst h
    rw [Node.den]; exact Rel.exit_sim _ _
  | .seq s, n', h, hw, hz => by
    rw [Node.guard] at h
    cases hs : s.guard i k with
    | error f => rw [hs] at h; simp [Except.map] at h
    | ok s' =>
      rw [hs] at h; simp only [Except.map, Except.ok.injEq] at h; subst h
      rw [Node.den]
      exact s.guard_pair E hs (by simpa [Node.written] using hw) (by simpa [Node.uniform] using hz)
  | .ifElse s, n', h, hw, hz => by
    rw [Node.guard] at h
    cases hs : s.guard i k with
    | error f => rw [hs] at h; simp [Except.map] at h
    | ok s' =>
      rw [hs] at h; simp only [Except.map, Except.ok.injEq] at h; subst h
      rw [Node.den]
      exact s.guard_pair E hs (by simpa [Node.written] using hw) (by simpa [Node.uniform] using hz)
  | .whileL s, n', h, hw, hz => by
    rw [Node.guard] at h
    cases hs : s.guard i k with
    | error f => rw [hs] at h; simp [Except.map] at h
    | ok s' =>
      rw [hs] at h; simp only [Except.map, Except.ok.injEq] at h; subst h
      rw [Node.den]
      exact Rel.forever_sim (s.guard_pair E hs (by simpa [Node.written] using hw) (by simpa [Node.uniform] using hz))
  | .loop m j a cc u s, n', h, hw, hz => by
    rw [Node.guard] at h
    cases hs : s.guard i k with
    | error f => rw [hs] at h; simp [Except.map] at h
    | ok s' =>
      rw [hs] at h; simp only [Except.map, Except.ok.injEq] at h; subst h
      rw [Node.den]
      simp only [Node.written, List.mem_cons, not_or] at hw
      rw [Node.uniform, Bool.and_eq_true, Bool.and_eq_true] at hz
      obtain ⟨g1, g2⟩ := SameOn.header hz.1.1 E
      exact Rel.seq_sim (Rel.upd_sim (pair_set (fun x hx => (hw x hx).1) g1))
        (Rel.iter_sim (fun _ _ hp => hp.1.cond E hz.1.2) (pair_set (fun x hx => (hw x hx).1) g2)
          (s.guard_pair E hs (fun x hx => (hw x hx).2) hz.2))
theorem Seq.guard_pair (E : Env) {i : String} {k : Cond} {X : String → Bool} : (s : Seq) → ∀ {s' : Seq}, s.guard i k = .ok s' →
    (∀ x ∈ k.atoms, x ∉ s.written) → s.uniform i X = true → Rel.sim (Pair E k X) (s'.den E) (s'.den E)
  | .nil, s', h, hw, hz => by
    simp only [Seq.guard, Except.ok.injEq] at h; subst h
    rw [Seq.den]
    exact Rel.upd_sim fun _ _ h => h
  | .cons n t r, s', h, hw, hz => by
    rw [Seq.guard] at h
    rw [Seq.uniform, Bool.and_eq_true] at hz
    obtain ⟨hz, hzr⟩ := hz
    have hwn : ∀ x ∈ k.atoms, x ∉ n.written := fun x hx hm => hw x hx (by simp [Seq.written, hm])
    have hwt : ∀ x ∈ k.atoms, x ∉ t.map (·.1) := fun x hx hm => hw x hx (by simp only [Seq.written, List.mem_append]; exact Or.inl (Or.inr hm))
    have hwr : ∀ x ∈ k.atoms, x ∉ r.written := fun x hx hm => hw x hx (by simp [Seq.written, hm])
    have htp : transWithin X t = true → Rel.sim (Pair E k X) (Rel.upd (runTrans E t)) (Rel.upd (runTrans E t)) := fun h =>
      Rel.upd_sim fun σ τ hp => ⟨SameOn.trans E t h hp.1, by rw [trans_cond E hwt, hp.2.1], by rw [trans_cond E hwt, hp.2.2]⟩
    cases hr : r.guard i k with
    | error f => rw [hr] at h; simp at h
    | ok r' =>
      rw [hr] at h
      have ihr := r.guard_pair E hr hwr hzr
      simp only at h
      split at h
      · rename_i hu
        simp only [hu, if_true] at hz
        split at h
        · rename_i hb
          simp only [hb, if_true, Bool.and_eq_true] at hz
          cases hn : n.guard i k with
          | error f => rw [hn] at h; simp [Except.map] at h
          | ok n' =>
            rw [hn] at h; simp only [Except.map, Except.ok.injEq] at h; subst h
            rw [Seq.den]
            exact Rel.seq_sim (n.guard_pair E hn hwn hz.1) (Rel.seq_sim (htp hz.2) ihr)
        · rename_i hb
          simp only [hb, Bool.false_eq_true, if_false] at hz
          cases n with
          | seq _ => simp [Node.wrap] at h
          | brk => simp [usesVar, Node.users] at hu
          | cont => simp [usesVar, Node.users] at hu
          | ret d q => simp [Node.aside, Node.returns] at hz
          | block _ => simp only [Node.wrap, Except.ok.injEq] at h; subst h; exact wrap_pair hz hwn hwt ihr
          | ifElse _ => simp only [Node.wrap, Except.ok.injEq] at h; subst h; exact wrap_pair hz hwn hwt ihr
          | whileL _ => simp only [Node.wrap, Except.ok.injEq] at h; subst h; exact wrap_pair hz hwn hwt ihr
          | loop _ _ _ _ _ _ => simp only [Node.wrap, Except.ok.injEq] at h; subst h; exact wrap_pair hz hwn hwt ihr
      · rename_i hu
        simp only [hu, Bool.false_eq_true, if_false, Bool.and_eq_true] at hz
        simp only [Except.ok.injEq] at h; subst h
        rw [Seq.den]
        exact Rel.seq_sim (Rel.pair_and (n.within_sim E hz.1) fun _ => n.cond_inv E hwn) (Rel.seq_sim (htp hz.2) ihr)
theorem Brs.guard_pair (E : Env) {i : String} {k : Cond} {X : String → Bool} : (s : Brs) → ∀ {s' : Brs}, s.guard i k = .ok s' →
    (∀ x ∈ k.atoms, x ∉ s.written) → s.uniform i X = true → Rel.sim (Pair E k X) (s'.den E) (s'.den E)
  | .nil, s', h, hw, hz => by
    simp only [Brs.guard, Except.ok.injEq] at h; subst h
    rw [Brs.den]
    exact Rel.upd_sim fun _ _ h => h
  | .cons c s r, s', h, hw, hz => by
    rw [Brs.guard] at h
    rw [Brs.uniform, Bool.and_eq_true, Bool.and_eq_true] at hz
    obtain ⟨⟨hc, hz⟩, hzr⟩ := hz
    have hws : ∀ x ∈ k.atoms, x ∉ s.written := fun x hx hm => hw x hx (by simp [Brs.written, hm])
    have hwr : ∀ x ∈ k.atoms, x ∉ r.written := fun x hx hm => hw x hx (by simp [Brs.written, hm])
    cases hr : r.guard i k with
    | error f => rw [hr] at h; simp at h
    | ok r' =>
      rw [hr] at h
      have ihr := r.guard_pair E hr hwr hzr
      simp only at h
      split at h
      · rename_i hu
        simp only [hu, if_true] at hz
        split at h
        · cases hn : s.guard i k with
          | error f => rw [hn] at h; simp [Except.map] at h
          | ok n' =>
            rw [hn] at h; simp only [Except.map, Except.ok.injEq] at h; subst h
            rw [Brs.den]
            exact Rel.ite_sim (fun _ _ hp => hp.1.cond E hc) (s.guard_pair E hn hws hz) ihr
        · simp at h
      · rename_i hu
        simp only [hu, Bool.false_eq_true, if_false] at hz
        simp only [Except.ok.injEq] at h; subst h
        rw [Brs.den]
        exact Rel.ite_sim (fun _ _ hp => hp.1.cond E hc) (Rel.pair_and (s.within_sim E hz) fun _ => s.cond_inv E hws) ihr
end

end Docc.IR

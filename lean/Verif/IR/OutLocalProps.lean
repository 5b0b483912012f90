import Verif.IR.OutLocalLemmas

/-! C92: OutLocalStorage. -/
namespace Docc.IR
open Docc.Sym

/-! ### names -/

theorem Stmt.clearTo_names {C z : String} {s' : List Expr} (q : Stmt) (h : z ∈ (q.clearTo C s').names) : z ∈ q.names ∨ z ∈ Expr.atomsL s' := by
  cases q with
  | tasklet op ins out sub =>
    simp only [Stmt.clearTo, Stmt.names, List.mem_append, List.mem_map, List.mem_flatMap, List.mem_singleton] at h ⊢
    rcases h with ((⟨a, ⟨b, hb, rfl⟩, h⟩ | ⟨a, ⟨b, hb, rfl⟩, h⟩) | h) | h
    · split at h
      · rename_i hc; exact Or.inl (Or.inl (Or.inl (Or.inl ⟨b, hb, by rw [hc]; exact h⟩)))
      · exact Or.inl (Or.inl (Or.inl (Or.inl ⟨b, hb, h⟩)))
    · split at h
      · exact Or.inr h
      · exact Or.inl (Or.inl (Or.inl (Or.inr ⟨b, hb, h⟩)))
    · exact Or.inl (Or.inl (Or.inr h))
    · split at h
      · exact Or.inr h
      · exact Or.inl (Or.inr h)
  | lib op r w => exact Or.inl h

mutual
theorem Node.clearTo_names {C z : String} {s' : List Expr} : (n : Node) → z ∈ (n.clearTo C s').names → z ∈ n.names ∨ z ∈ Expr.atomsL s'
  | .block l, h => by
    simp only [Node.clearTo, Node.names, List.mem_flatMap, List.mem_map] at h ⊢
    obtain ⟨_, ⟨q, hq, rfl⟩, h⟩ := h
    exact (q.clearTo_names h).imp (fun h => ⟨q, hq, h⟩) id
  | .seq q, h => by rw [Node.clearTo, Node.names] at h; rw [Node.names]; exact q.clearTo_names h
  | .ifElse q, h => by rw [Node.clearTo, Node.names] at h; rw [Node.names]; exact q.clearTo_names h
  | .whileL q, h => by rw [Node.clearTo, Node.names] at h; rw [Node.names]; exact q.clearTo_names h
  | .loop m i a c u q, h => by
    simp only [Node.clearTo, Node.names, List.mem_cons, List.mem_append] at h ⊢
    rcases h with h | h | h
    · exact Or.inl (Or.inl h)
    · exact Or.inl (Or.inr (Or.inl h))
    · exact (q.clearTo_names h).imp (fun h => Or.inr (Or.inr h)) id
  | .brk, h => by simp [Node.clearTo, Node.names] at h
  | .cont, h => by simp [Node.clearTo, Node.names] at h
  | .ret d q, h => Or.inl h
theorem Seq.clearTo_names {C z : String} {s' : List Expr} : (n : Seq) → z ∈ (n.clearTo C s').names → z ∈ n.names ∨ z ∈ Expr.atomsL s'
  | .nil, h => by simp [Seq.clearTo, Seq.names] at h
  | .cons n t r, h => by
    simp only [Seq.clearTo, Seq.names, List.mem_append] at h ⊢
    rcases h with ((h | h) | h) | h
    · exact (n.clearTo_names h).imp (fun h => Or.inl (Or.inl (Or.inl h))) id
    · exact Or.inl (Or.inl (Or.inl (Or.inr h)))
    · exact Or.inl (Or.inl (Or.inr h))
    · exact (r.clearTo_names h).imp Or.inr id
theorem Brs.clearTo_names {C z : String} {s' : List Expr} : (n : Brs) → z ∈ (n.clearTo C s').names → z ∈ n.names ∨ z ∈ Expr.atomsL s'
  | .nil, h => by simp [Brs.clearTo, Brs.names] at h
  | .cons c s r, h => by
    simp only [Brs.clearTo, Brs.names, List.mem_append] at h ⊢
    rcases h with (h | h) | h
    · exact Or.inl (Or.inl (Or.inl h))
    · exact (s.clearTo_names h).imp (fun h => Or.inl (Or.inr h)) id
    · exact (r.clearTo_names h).imp Or.inr id
end

mutual
theorem Node.clearTo_rets (C : String) (s' : List Expr) : (n : Node) → n.returns = false → (n.clearTo C s').rets = []
  | .block l, _ => by simp [Node.clearTo, Node.rets]
  | .seq q, h => by rw [Node.clearTo, Node.rets]; exact q.clearTo_rets C s' h
  | .ifElse q, h => by rw [Node.clearTo, Node.rets]; exact q.clearTo_rets C s' h
  | .whileL q, h => by rw [Node.clearTo, Node.rets]; exact q.clearTo_rets C s' h
  | .loop m i a c u q, h => by rw [Node.clearTo, Node.rets]; exact q.clearTo_rets C s' h
  | .brk, _ => by simp [Node.clearTo, Node.rets]
  | .cont, _ => by simp [Node.clearTo, Node.rets]
  | .ret d q, h => by simp [Node.returns] at h
theorem Seq.clearTo_rets (C : String) (s' : List Expr) : (n : Seq) → n.returns = false → (n.clearTo C s').rets = []
  | .nil, _ => by simp [Seq.clearTo, Seq.rets]
  | .cons n t r, h => by
    rw [Seq.returns, Bool.or_eq_false_iff] at h
    rw [Seq.clearTo, Seq.rets, n.clearTo_rets C s' h.1, r.clearTo_rets C s' h.2]; rfl
theorem Brs.clearTo_rets (C : String) (s' : List Expr) : (n : Brs) → n.returns = false → (n.clearTo C s').rets = []
  | .nil, _ => by simp [Brs.clearTo, Brs.rets]
  | .cons c n r, h => by
    rw [Brs.returns, Bool.or_eq_false_iff] at h
    rw [Brs.clearTo, Brs.rets, n.clearTo_rets C s' h.1, r.clearTo_rets C s' h.2]; rfl
end

theorem renameTo_not {C M w : String} (h : C ≠ M) : renameTo C (.sym M) w ≠ C := by
  simp only [renameTo]
  split
  · exact fun e => h e.symm
  · rename_i hw; exact hw

theorem trans_unwritten {C M : String} (h : C ≠ M) (t : Trans) : C ∉ (transReplace C (.sym M) t).map (·.1) := by
  intro hm
  obtain ⟨a, ha, e⟩ := List.mem_map.1 hm
  obtain ⟨b, _, rfl⟩ := trans_ren ha
  exact renameTo_not h e

mutual
/-- a renamed container is not written any more -/
theorem Node.unwritten_ren {C M : String} (hC : C ≠ M) : (n : Node) → C ∉ (n.replace C (.sym M)).written
  | .block l => by
    simp only [Node.replace, Node.written, List.mem_flatMap, List.mem_map, not_exists, not_and]
    rintro _ ⟨q, hq, rfl⟩
    cases q with
    | tasklet op ins out sub => simp only [Stmt.replace, List.mem_singleton]; exact fun e => renameTo_not hC e.symm
    | lib op r w =>
      simp only [Stmt.replace, List.mem_map, not_exists, not_and]
      exact fun y _ => renameTo_not hC
  | .seq q => by rw [Node.replace, Node.written]; exact q.unwritten_ren hC
  | .ifElse q => by rw [Node.replace, Node.written]; exact q.unwritten_ren hC
  | .whileL q => by rw [Node.replace, Node.written]; exact q.unwritten_ren hC
  | .loop m i a c u q => by
    rw [Node.replace, Node.written, List.mem_cons, not_or]
    exact ⟨fun e => renameTo_not hC e.symm, q.unwritten_ren hC⟩
  | .brk => by simp [Node.replace, Node.written]
  | .cont => by simp [Node.replace, Node.written]
  | .ret d q => by simp only [Node.replace]; split <;> simp [Node.written]
theorem Seq.unwritten_ren {C M : String} (hC : C ≠ M) : (n : Seq) → C ∉ (n.replace C (.sym M)).written
  | .nil => by simp [Seq.replace, Seq.written]
  | .cons n t r => by
    simp only [Seq.replace, Seq.written, List.mem_append, not_or]
    exact ⟨⟨n.unwritten_ren hC, trans_unwritten hC t⟩, r.unwritten_ren hC⟩
theorem Brs.unwritten_ren {C M : String} (hC : C ≠ M) : (n : Brs) → C ∉ (n.replace C (.sym M)).written
  | .nil => by simp [Brs.replace, Brs.written]
  | .cons c n r => by
    simp only [Brs.replace, Brs.written, List.mem_append, not_or]
    exact ⟨n.unwritten_ren hC, r.unwritten_ren hC⟩
end

mutual
/-- without `Return`, everything that is written has a write user -/
theorem Node.written_users (x : String) : (n : Node) → n.returns = false → x ∈ n.written → writes n.users x
  | .block l, _, h => by
    simp only [Node.written, List.mem_flatMap] at h
    obtain ⟨s, hs, h⟩ := h
    simp only [Node.users, writes, List.mem_flatMap]
    refine ⟨s, hs, ?_⟩
    cases s with
    | tasklet op ins out sub => simp only [List.mem_singleton] at h; simp [Stmt.users, h]
    | lib op r w => simp only [Stmt.users, List.mem_append]; exact Or.inr (List.mem_map.2 ⟨x, h, rfl⟩)
  | .seq q, hr, h => by rw [Node.users]; exact q.written_users x hr h
  | .ifElse q, hr, h => by rw [Node.users, writes_append]; exact Or.inr (q.written_users x hr h)
  | .whileL q, hr, h => by rw [Node.users]; exact q.written_users x hr h
  | .loop m i a c u q, hr, h => by
    rw [Node.written, List.mem_cons] at h
    simp only [Node.users, writes_append]
    rcases h with h | h
    · exact Or.inr (by simp [writes, h])
    · exact Or.inl (Or.inl (Or.inr (q.written_users x hr h)))
  | .brk, _, h => by simp [Node.written] at h
  | .cont, _, h => by simp [Node.written] at h
  | .ret d q, hr, _ => by simp [Node.returns] at hr
theorem Seq.written_users (x : String) : (n : Seq) → n.returns = false → x ∈ n.written → writes n.users x
  | .nil, _, h => by simp [Seq.written] at h
  | .cons n t r, hr, h => by
    rw [Seq.returns, Bool.or_eq_false_iff] at hr
    have hn : n.isRet = false := by
      cases n <;> simp [Node.isRet, Node.returns] at hr ⊢
    simp only [Seq.written, List.mem_append] at h
    simp only [Seq.users, hn, Bool.false_eq_true, if_false, writes_append]
    rcases h with (h | h) | h
    · exact Or.inl (Or.inl (n.written_users x hr.1 h))
    · refine Or.inl (Or.inr ?_)
      simp only [transUsers, writes_append]
      obtain ⟨a, ha, e⟩ := List.mem_map.1 h
      exact Or.inr (List.mem_map.2 ⟨a, ha, by rw [e]⟩)
    · exact Or.inr (r.written_users x hr.2 h)
theorem Brs.written_users (x : String) : (n : Brs) → n.returns = false → x ∈ n.written → writes n.users x
  | .nil, _, h => by simp [Brs.written] at h
  | .cons c n r, hr, h => by
    rw [Brs.returns, Bool.or_eq_false_iff] at hr
    simp only [Brs.written, List.mem_append] at h
    simp only [Brs.users, writes_append]
    exact h.imp (n.written_users x hr.1) (r.written_users x hr.2)
end

/-- not a `Return` -/
def Ctl.stays : Ctl → Prop
  | .ret _ _ => False
  | _ => True

theorem Rel.iter_stays {b : St → Bool} {u : St → St} {R : Rel} (h : ∀ σ c σ', R σ c σ' → c.stays) {σ : St} {c : Ctl} {σ' : St}
    (hi : Rel.iter b u R σ c σ') : c = .normal := by
  induction hi with
  | done => rfl
  | step _ _ _ _ _ ih => exact ih
  | stop => rfl
  | ret d q _ hr => exact (h _ _ _ hr).elim

theorem Rel.forever_stays {R : Rel} (h : ∀ σ c σ', R σ c σ' → c.stays) {σ : St} {c : Ctl} {σ' : St}
    (hi : Rel.forever R σ c σ') : c = .normal := by
  induction hi with
  | step _ _ _ _ ih => exact ih
  | stop => rfl
  | ret d q hr => exact (h _ _ _ hr).elim

mutual
/-- a node without `Return` does not return -/
theorem Node.stays (E : Env) : (n : Node) → n.returns = false → ∀ σ c σ', n.den E σ c σ' → c.stays
  | .block l, _, σ, c, σ', h => by rw [Node.den] at h; rw [h.1]; trivial
  | .seq q, hr, σ, c, σ', h => by rw [Node.den] at h; exact q.stays E hr σ c σ' h
  | .ifElse q, hr, σ, c, σ', h => by rw [Node.den] at h; exact q.stays E hr σ c σ' h
  | .whileL q, hr, σ, c, σ', h => by rw [Node.den] at h; rw [Rel.forever_stays (q.stays E hr) h]; trivial
  | .loop m i a cc u q, hr, σ, c, σ', h => by
    rw [Node.den, Rel.upd_seq] at h; rw [Rel.iter_stays (q.stays E hr) h]; trivial
  | .brk, _, σ, c, σ', h => by rw [Node.den] at h; rw [h.1]; trivial
  | .cont, _, σ, c, σ', h => by rw [Node.den] at h; rw [h.1]; trivial
  | .ret d q, hr, _, _, _, _ => by simp [Node.returns] at hr
theorem Seq.stays (E : Env) : (n : Seq) → n.returns = false → ∀ σ c σ', n.den E σ c σ' → c.stays
  | .nil, _, σ, c, σ', h => by rw [Seq.den] at h; rw [h.1]; trivial
  | .cons n t r, hr, σ, c, σ', h => by
    rw [Seq.returns, Bool.or_eq_false_iff] at hr
    rw [Seq.den, Rel.upd_seq] at h
    rcases h with ⟨σ1, _, h⟩ | ⟨_, h⟩
    · exact r.stays E hr.2 _ c σ' h
    · exact n.stays E hr.1 _ c σ' h
theorem Brs.stays (E : Env) : (n : Brs) → n.returns = false → ∀ σ c σ', n.den E σ c σ' → c.stays
  | .nil, _, σ, c, σ', h => by rw [Brs.den] at h; rw [h.1]; trivial
  | .cons c n r, hr, σ, k, σ', h => by
    rw [Brs.returns, Bool.or_eq_false_iff] at hr
    rw [Brs.den] at h
    simp only [Rel.ite] at h
    split at h
    · exact n.stays E hr.1 _ k σ' h
    · exact r.stays E hr.2 _ k σ' h
end

theorem loop_normal {E : Env} {m : Bool} {i : String} {a : Expr} {cc : Cond} {u : Expr} {q : Seq} (hr : q.returns = false) {σ : St} {c : Ctl} {σ' : St}
    (h : (Node.loop m i a cc u q).den E σ c σ') : c = .normal := by
  rw [Node.den, Rel.upd_seq] at h
  exact Rel.iter_stays (q.stays E hr) h

/-! ### the scalar variant -/

/-- the two programs run in step, up to the content of `C`, which is in the local variable -/
structure InLocal (C M : String) (L : List Int) (a : List Int → Int) (σ τ : St) : Prop where
  other : ∀ z, z ≠ C → z ≠ M → σ z = τ z
  here : σ C L = τ M []
  rest : ∀ l, l ≠ L → σ C l = a l
  kept : τ C = a

theorem scalar_bis {E : Env} {C M : String} {L : List Int} {s : List Expr} {f : String → Int} {n : Node} (hCM : C ≠ M)
    (P : PlaceOk E C L [] (Expr.atomsL s) f s []) (hp : ∀ u ∈ n.places C, u = s) (hl : C ∉ n.libs) (hw : ∀ y ∈ Expr.atomsL s, y ∉ n.written)
    (hr : n.returns = false) (hM : M ∉ n.names) (hMs : M ∉ Expr.atomsL s) (a : List Int → Int) :
    Rel.bis (fun σ τ => InLocal C M L a σ τ ∧ ∀ y ∈ Expr.atomsL s, σ y [] = f y) (n.den E) (((n.clearTo C []).replace C (.sym M)).den E) := by
  have b1 : ∀ b, Rel.bis (Moved C L [] a b (Expr.atomsL s) f) (n.den E) ((n.clearTo C []).den E) := fun b => n.clear_bis P hp hl hw
  have hM' : M ∉ (n.clearTo C []).names := fun h => (n.clearTo_names h).elim hM (by simp [Expr.atomsL])
  have b2 := (n.clearTo C []).rename_bis E C M hCM hM' (by rw [n.clearTo_rets C [] hr]; simp)
  have hk := (n.clearTo C []).unwritten_ren hCM
  -- the state in between
  have mid : ∀ σ τ, (InLocal C M L a σ τ ∧ ∀ y ∈ Expr.atomsL s, σ y [] = f y) →
      ∃ μ, Moved C L [] a (τ M) (Expr.atomsL s) f σ μ ∧ Ren C M μ τ := by
    rintro σ τ ⟨h, hf⟩
    refine ⟨fun z => if z = C then τ M else σ z, ⟨fun z hz => ?_, ?_, h.rest, fun l _ => ?_, hf⟩, fun z h1 h2 => ?_, ?_⟩
    · simp [hz]
    · simp [h.here]
    · simp
    · simp [h1, h.other z h1 h2]
    · simp
  have back : ∀ σ τ μ b, Moved C L [] a b (Expr.atomsL s) f σ μ → Ren C M μ τ → τ C = a →
      InLocal C M L a σ τ ∧ ∀ y ∈ Expr.atomsL s, σ y [] = f y := by
    intro σ τ μ b h1 h2 h3
    refine ⟨⟨fun z hz hm => ?_, ?_, h1.rest, h3⟩, h1.froz⟩
    · rw [h1.other z hz, h2.1 z hz hm]
    · rw [h1.here, h2.2]
  constructor
  · intro σ τ c σ' h hd
    obtain ⟨μ, h1, h2⟩ := mid σ τ h
    obtain ⟨μ', hd1, h1'⟩ := (b1 _).1 σ μ c σ' h1 hd
    obtain ⟨τ', hd2, h2'⟩ := b2.1 μ τ c μ' h2 hd1
    exact ⟨τ', hd2, back σ' τ' μ' _ h1' h2' (by rw [Node.keeps E _ C hk hd2]; exact h.1.kept)⟩
  · intro τ σ c τ' h hd
    obtain ⟨μ, h1, h2⟩ := mid σ τ h
    obtain ⟨μ', hd2, h2'⟩ := b2.2 τ μ c τ' h2 hd
    obtain ⟨σ', hd1, h1'⟩ := (b1 _).2 μ σ c μ' h1 hd2
    exact ⟨σ', hd1, back σ' τ' μ' _ h1' h2' (by rw [Node.keeps E _ C hk hd]; exact h.1.kept)⟩

theorem runTrans_keeps {E : Env} {z : String} : ∀ (t : Trans), z ∉ t.map (·.1) → ∀ σ : St, runTrans E t σ z = σ z
  | [], _, _ => rfl
  | a :: t, h, σ => by
    simp only [List.map_cons, List.mem_cons, not_or] at h
    have := runTrans_keeps (E := E) t h.2 (σ.setS a.1 (σ.ev E a.2))
    rw [show runTrans E (a :: t) σ = runTrans E t (σ.setS a.1 (σ.ev E a.2)) from rfl, this, St.setS_other _ _ h.1]

theorem runTrans_two {E : Env} {C M : String} : ∀ (t : Trans), C ∉ t.flatMap (fun a => a.2.atoms) → M ∉ t.flatMap (fun a => a.2.atoms) → ∀ σ τ : St,
    (∀ z, z ≠ C → z ≠ M → σ z = τ z) → ∀ z, z ≠ C → z ≠ M → runTrans E t σ z = runTrans E t τ z
  | [], _, _, _, _, h => h
  | a :: t, hC, hM, σ, τ, h => by
    simp only [List.flatMap_cons, List.mem_append, not_or] at hC hM
    refine runTrans_two t hC.2 hM.2 _ _ fun z h1 h2 => ?_
    have : σ.ev E a.2 = τ.ev E a.2 := St.ev_congr E fun y hy => by
      rw [h y (fun e => hC.1 (e ▸ hy)) (fun e => hM.1 (e ▸ hy))]
    funext j
    simp only [St.setS, St.set, this, h z h1 h2]

/-- If all users of the container have the same subset, the transformed loop computes the same: every container but the local one ends the same. -/
theorem scalar_storage {E : Env} {C M : String} {s : List Expr} {m : Bool} {i : String} {a : Expr} {cc : Cond} {u : Expr} {body : Seq} {t : Trans}
    (hop : ∀ v, E.op "assign" [v] = v) (hCM : C ≠ M)
    (hp : ∀ v ∈ (Node.loop m i a cc u body).places C, v = s) (hl : C ∉ body.libs) (hw : ∀ y ∈ Expr.atomsL s, y ∉ i :: body.written)
    (hCs : C ∉ Expr.atomsL s) (hr : body.returns = false) (hM : M ∉ (Node.loop m i a cc u body).names) (hMs : M ∉ Expr.atomsL s)
    (htC : C ∉ t.map (·.1) ++ t.flatMap (fun a => a.2.atoms)) (htM : M ∉ t.map (·.1) ++ t.flatMap (fun a => a.2.atoms))
    (hts : ∀ y ∈ Expr.atomsL s, y ∉ t.map (·.1)) :
    Rel.bis (fun σ τ => ∀ z, z ≠ M → σ z = τ z) ((Seq.cons (.loop m i a cc u body) t .nil).den E)
      ((olsScalar C M s (.loop m i a cc u body) t).den E) := by
  generalize hn : Node.loop m i a cc u body = n at *
  have hnr : n.returns = false := by rw [← hn]; exact hr
  have hnl : C ∉ n.libs := by rw [← hn]; exact hl
  have hnw : ∀ y ∈ Expr.atomsL s, y ∉ n.written := by rw [← hn]; exact hw
  simp only [List.mem_append, not_or] at htC htM
  have evs : ∀ σ τ : St, (∀ y ∈ Expr.atomsL s, σ y [] = τ y []) → s.map (σ.ev E) = s.map (τ.ev E) := fun σ τ h =>
    List.map_congr_left fun e he => St.ev_congr E fun y hy => h y ((Expr.mem_atomsL y s).2 ⟨e, he, hy⟩)
  have bisAt : ∀ σ τ : St, (∀ z, z ≠ M → σ z = τ z) →
      (InLocal C M (s.map (σ.ev E)) (σ C) σ (τ.set M [] (τ C (s.map (τ.ev E))))) ∧
      Rel.bis (fun σ' τ' => InLocal C M (s.map (σ.ev E)) (σ C) σ' τ' ∧ ∀ y ∈ Expr.atomsL s, σ' y [] = σ y []) (n.den E)
        (((n.clearTo C []).replace C (.sym M)).den E) := by
    intro σ τ h
    refine ⟨⟨fun z _ hz => ?_, ?_, fun _ _ => rfl, ?_⟩, scalar_bis hCM ⟨fun σ' hσ' => evs σ' σ hσ', fun _ _ => rfl, fun _ => rfl, hCs⟩ hp hnl hnw hnr hM hMs _⟩
    · funext j; simp [St.set, hz, h z hz]
    · rw [h C hCM, evs σ τ fun y hy => by rw [h y fun e => hMs (e ▸ hy)]]; simp [St.set]
    · funext j; simp [St.set, hCM, h C hCM]
  have fin : ∀ σ0 σ τ : St, InLocal C M (s.map (σ0.ev E)) (σ0 C) σ τ → (∀ y ∈ Expr.atomsL s, σ y [] = σ0 y []) →
      ∀ z, z ≠ M → runTrans E t σ z = runBlock E [copyStmt M [] C s] (runTrans E t τ) z := by
    intro σ0 σ τ h hy z hz
    have h1 := runTrans_two (E := E) t htC.2 htM.2 σ τ h.other
    have e : s.map ((runTrans E t τ).ev E) = s.map (σ0.ev E) := evs _ _ fun y hm => by
      rw [← h1 y (fun e => hCs (e ▸ hm)) (fun e => hMs (e ▸ hm)), runTrans_keeps t (hts y hm), hy y hm]
    show _ = ((runTrans E t τ).set C (s.map ((runTrans E t τ).ev E)) (E.op "assign" [(runTrans E t τ) M []])) z
    rw [hop, e, runTrans_keeps t htM.1]
    by_cases hc : z = C
    · subst hc
      rw [runTrans_keeps t htC.1]
      funext l
      by_cases hl : l = s.map (σ0.ev E)
      · simp [St.set, hl, h.here]
      · rw [h.rest l hl]
        simp only [St.set, hl, and_false, if_false]
        rw [runTrans_keeps t htC.1, h.kept]
    · rw [h1 z hc hz]; funext l; simp [St.set, hc]
  have pro : ∀ τ : St, runBlock E [copyStmt C s M []] τ = τ.set M [] (τ C (s.map (τ.ev E))) := by
    intro τ
    show τ.set M [] (E.op "assign" [τ C (s.map (τ.ev E))]) = _
    rw [hop]
  have den1 : (Seq.cons n t .nil).den E = Rel.seq (n.den E) (Rel.upd (runTrans E t)) := by
    rw [Seq.den, Seq.den, Rel.seq_skip]
  have den2 : (olsScalar C M s n t).den E = fun τ => Rel.seq (((n.clearTo C []).replace C (.sym M)).den E)
      (Rel.upd fun τ => runBlock E [copyStmt M [] C s] (runTrans E t τ)) (τ.set M [] (τ C (s.map (τ.ev E)))) := by
    rw [olsScalar, Seq.den, Node.den, Rel.upd_seq, Rel.upd_seq]
    funext τ
    rw [pro]
    rw [Seq.den, Seq.one, Seq.den, Node.den, Seq.den]
    rw [Rel.upd_seq, Rel.upd_seq, Rel.upd_seq]
    rfl
  rw [den1, den2]
  constructor
  · intro σ τ c σ' h hd
    obtain ⟨h0, hb⟩ := bisAt σ τ h
    rcases hd with ⟨σ1, hd, rfl, rfl⟩ | ⟨hc, hd⟩
    · obtain ⟨τ1, hd', h1, h2⟩ := hb.1 _ _ _ _ ⟨h0, fun _ _ => rfl⟩ hd
      exact ⟨_, Or.inl ⟨τ1, hd', rfl, rfl⟩, fin σ _ _ h1 h2⟩
    · rw [← hn] at hd
      exact absurd (loop_normal hr hd) hc
  · intro τ σ c τ' h hd
    obtain ⟨h0, hb⟩ := bisAt σ τ h
    rcases hd with ⟨τ1, hd, rfl, rfl⟩ | ⟨hc, hd⟩
    · obtain ⟨σ1, hd', h1, h2⟩ := hb.2 _ _ _ _ ⟨h0, fun _ _ => rfl⟩ hd
      exact ⟨_, Or.inl ⟨σ1, hd', rfl, rfl⟩, fin σ _ _ h1 h2⟩
    · obtain ⟨σ1, hd', _⟩ := hb.2 _ _ _ _ ⟨h0, fun _ _ => rfl⟩ hd
      rw [← hn] at hd'
      exact absurd (loop_normal hr hd') hc

end Docc.IR

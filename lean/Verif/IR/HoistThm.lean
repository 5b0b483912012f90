import Verif.IR.HoistMap

/-
A whole step of the pass at an if-else.
-/
namespace Docc.IR
open Docc.Sym

theorem fronts_conds {H : HoistEnv} {l : List Stmt} : ∀ {b b' : Brs}, H.fronts l b = some b' → b'.conds = b.conds
  | .nil, _, h => by simp only [HoistEnv.fronts, Option.some.injEq] at h; subst h; rfl
  | .cons k s r, b', h => by
    unfold HoistEnv.fronts at h
    split at h
    · rename_i e; cases e
    · rename_i k' m s2 r2 e
      cases e
      split at h
      · rename_i s' r' h1 h2
        cases h
        simp only [Brs.conds, fronts_conds h2]
      · cases h
    · cases h

theorem backs_conds {H : HoistEnv} {l : List Stmt} : ∀ {b b' : Brs}, H.backs l b = some b' → b'.conds = b.conds
  | .nil, _, h => by simp only [HoistEnv.backs, Option.some.injEq] at h; subst h; rfl
  | .cons k s r, b', h => by
    unfold HoistEnv.backs at h
    split at h
    · split at h
      · rename_i h1 h2
        cases h
        simp only [Brs.conds, backs_conds h2]
      · cases h
    · cases h

/-- **C99** (partial), a step of the pass at an if-else: the program is preserved if no case begins or ends with a transfer between host and device, the
blocks the cases begin with do not write symbols of the conditions, and the blocks they end with have nothing to do with the assignments that follow. -/
theorem hoist_if_partial {H : HoistEnv} {E : Env} (hC : CompleteSound E H.complete) {b : Brs} (hloc : ∀ op, (∃ l b', (H.frontIf b = some (l, b') ∨
      H.backIf b = some (b', l) ∨ ∃ m b'', H.frontIf b = some (m, b'') ∧ H.backIf b'' = some (b', l)) ∧ ∃ r w, Stmt.lib op r w ∈ l) →
      ∀ p q u v, H.kind op ≠ .offload p q u v)
    (hw : ∀ l b', H.frontIf b = some (l, b') → ∀ c ∈ b.conds, ∀ x ∈ c.atoms, ¬ writes (l.flatMap Stmt.users) x) {t : Trans}
    (ht : ∀ l b', (H.backIf b = some (b', l) ∨ ∃ m b'', H.frontIf b = some (m, b'') ∧ H.backIf b'' = some (b', l)) → ∀ x ∈ l, TransApart t x)
    (r : Seq) (σ : St) (c : Ctl) (σ' : St) :
    (H.accept (.ifElse b) t r).den E σ c σ' ↔ (Seq.cons (.ifElse b) t r).den E σ c σ' := by
  unfold HoistEnv.accept
  dsimp only
  split
  · rename_i hb
    split
    · rename_i l b1 h1
      have hf := hoist_if_front_partial hC hb h1 (fun op r w hm => hloc op ⟨l, b1, .inl h1, r, w, hm⟩) (hw l b1 h1) t r
      split
      · rename_i b2 m h2
        have hall : ∀ σ : St, ∃ c ∈ b1.conds, σ.cond E c = true := by
          rw [fronts_conds (frontIf_inv h1).1]; exact hC b hb
        have := if_back hall h2 (fun op r w hm => hloc op ⟨m, b2, .inr (.inr ⟨l, b1, h1, h2⟩), r, w, hm⟩) (ht m b2 (.inr ⟨l, b1, h1, h2⟩)) r
        rw [← hf, block_then, block_then]
        exact this _ _ _
      · exact hf σ c σ'
    · split
      · rename_i b2 m h2
        exact hoist_if_back_partial hC hb h2 (fun op r w hm => hloc op ⟨m, b2, .inr (.inl h2), r, w, hm⟩) (ht m b2 (.inl h2)) r σ c σ'
      · exact Iff.rfl
  · exact Iff.rfl

/-- the pass never changes another child, and never an incomplete if-else -/
theorem hoist_other {H : HoistEnv} {n : Node} (h : (∀ i a c u s, n ≠ .loop true i a c u s) ∧ ∀ b, n = .ifElse b → H.complete b = false) (t : Trans) (r : Seq) :
    H.accept n t r = .cons n t r := by
  unfold HoistEnv.accept
  split
  · rename_i i a c u s
    exact absurd rfl (h.1 i a c u s)
  · rename_i b
    rw [if_neg (by rw [h.2 b rfl]; exact Bool.false_ne_true)]
  · rfl

/-- the cases keep their conditions and their order -/
theorem hoist_if_conds {H : HoistEnv} {b : Brs} {t : Trans} {r : Seq} :
    ∃ b' , b'.conds = b.conds ∧ (H.accept (.ifElse b) t r = .cons (.ifElse b') t r ∨
      (∃ l, H.accept (.ifElse b) t r = .cons (.block l) [] (.cons (.ifElse b') t r)) ∨
      (∃ m, H.accept (.ifElse b) t r = .cons (.ifElse b') t (.cons (.block m) [] r)) ∨
      ∃ l m, H.accept (.ifElse b) t r = .cons (.block l) [] (.cons (.ifElse b') t (.cons (.block m) [] r))) := by
  unfold HoistEnv.accept
  dsimp only
  split
  · split
    · rename_i l b1 h1
      have e1 := fronts_conds (frontIf_inv h1).1
      split
      · rename_i b2 m h2
        exact ⟨b2, (backs_conds (backIf_inv h2).1).trans e1, .inr (.inr (.inr ⟨l, m, rfl⟩))⟩
      · exact ⟨b1, e1, .inr (.inl ⟨l, rfl⟩)⟩
    · split
      · rename_i b2 m h2
        exact ⟨b2, backs_conds (backIf_inv h2).1, .inr (.inr (.inl ⟨m, rfl⟩))⟩
      · exact ⟨b, rfl, .inl rfl⟩
  · exact ⟨b, rfl, .inl rfl⟩

/-! ### maps -/

/-- when the first block of a map, the computation `x`, can be taken out: it does not read what it writes, does not use the variable of the map, writes no
symbol of its initial value or condition, and the rest of the body writes nothing it uses -/
structure FrontOk (i : String) (a : Expr) (k : Cond) (x : Stmt) (s : Seq) : Prop where
  once : ∀ y, writes x.users y → ¬ reads x.users y
  var : ¬ reads x.users i ∧ ¬ writes x.users i
  bounds : ∀ y, writes x.users y → y ∉ a.atoms ∧ y ∉ k.atoms
  rest : ∀ y, reads x.users y ∨ writes x.users y → ¬ writes s.users y

/-- when the last block of a map, the computation `x`, can be taken out: it does not read what it writes, does not write the variable of the map or symbols of its
condition or update, the rest of the body does not read what it writes and finishes normally, and it has nothing to do with the assignments behind the map -/
structure BackOk (E : Env) (i : String) (k : Cond) (u : Expr) (x : Stmt) (s : Seq) (t : Trans) : Prop where
  once : ∀ y, writes x.users y → ¬ reads x.users y
  var : ¬ writes x.users i
  bounds : ∀ y, writes x.users y → y ∉ k.atoms ∧ y ∉ u.atoms
  rest : ∀ y, writes x.users y → ¬ reads s.users y
  normal : ∀ σ c σ', s.den E σ c σ' → c = .normal
  apart : TransApart t x

theorem map_back {H : HoistEnv} {E : Env} {i : String} {a : Expr} {k : Cond} {u : Expr} {s s' : Seq} {l : List Stmt} {t : Trans} (h : H.backMap i s = some (s', l))
    (hok : ∀ x ∈ l, BackOk E i k u x s' t) (r : Seq) {σ : St} (hone : (σ.setS i (σ.ev E a)).cond E k = true) (c : Ctl) (σ' : St) :
    (Seq.cons (.loop true i a k u s') t (.cons (.block l) [] r)).den E σ c σ' ↔ (Seq.cons (.loop true i a k u s) t r).den E σ c σ' := by
  obtain ⟨_, op, rs, ws, rfl, _⟩ := backMap_inv h
  have hk := hok _ (List.mem_singleton.mpr rfl)
  exact hoist_map_back_partial h (fun y hy hr => hk.once y (lib_writes.mpr hy) (lib_reads.mpr hr)) (fun hy => hk.var (lib_writes.mpr hy))
    (fun y hy => hk.bounds y (lib_writes.mpr hy)) (fun y hy => hk.rest y (lib_writes.mpr hy)) hk.normal hk.apart r hone c σ'

/-- **C99** (partial), a step of the pass at a map: the executions in which the map has an iteration are preserved if the blocks that are taken out satisfy
`FrontOk` and `BackOk`. -/
theorem hoist_map_partial {H : HoistEnv} {E : Env} {i : String} {a : Expr} {k : Cond} {u : Expr} {s : Seq} {t : Trans}
    (hf : ∀ l s1, H.frontMap i s = some (l, s1) → ∀ x ∈ l, FrontOk i a k x s1)
    (hb : ∀ l s2, ((H.frontMap i s = none ∧ H.backMap i s = some (s2, l)) ∨ ∃ m s1, H.frontMap i s = some (m, s1) ∧ H.backMap i s1 = some (s2, l)) →
      ∀ x ∈ l, BackOk E i k u x s2 t)
    (r : Seq) {σ : St} (hone : (σ.setS i (σ.ev E a)).cond E k = true) (c : Ctl) (σ' : St) :
    (H.accept (.loop true i a k u s) t r).den E σ c σ' ↔ (Seq.cons (.loop true i a k u s) t r).den E σ c σ' := by
  unfold HoistEnv.accept
  dsimp only
  split
  · rename_i l s1 h1
    obtain ⟨_, x, rfl⟩ := frontMap_inv h1
    have hx := hf _ _ h1 x (List.mem_singleton.mpr rfl)
    have hfr := hoist_map_front_partial (E := E) h1 hx.once hx.var hx.bounds hx.rest (u := u) t r hone c σ'
    split
    · rename_i s2 m h2
      rw [← hfr, block_then, block_then]
      refine map_back h2 (hb _ _ (.inr ⟨_, _, h1, h2⟩)) r ?_ c σ'
      show ((x.run E σ).setS i ((x.run E σ).ev E a)).cond E k = true
      have hev : (x.run E σ).ev E a = σ.ev E a := St.ev_congr E fun y hy => by
        rw [x.run_frame E σ y fun hw => (hx.bounds y hw).1 hy]
      rw [hev, ← run_setS hx.var, ← hone]
      exact St.cond_congr E fun y hy => by rw [x.run_frame E _ y fun hw => (hx.bounds y hw).2 hy]
    · exact hfr
  · rename_i h1
    split
    · rename_i s2 m h2
      exact map_back h2 (hb _ _ (.inl ⟨h1, h2⟩)) r hone c σ'
    · exact Iff.rfl

/-- what is taken out of the front of a map: a single pointer load, a single view whose subset does not use the variable of the map, or a single
allowed library node that does not use it -/
theorem hoisted_front_kind {H : HoistEnv} {i : String} {s s' : Seq} {l : List Stmt} (h : H.frontMap i s = some (l, s')) : ∃ x, l = [x] ∧
    ((∃ r o sub, x = .tasklet "dereference_src" [r] o sub) ∨ (∃ r o sub, x = .tasklet "reference" [r] o sub ∧ i ∉ Expr.atomsL r.2) ∨
      ∃ op r w, x = .lib op r w ∧ H.kind op ≠ .other ∧ i ∉ r) := by
  unfold HoistEnv.frontMap at h
  split at h
  · split at h
    · rename_i h1
      cases h
      simp only [Bool.or_eq_true] at h1
      rcases h1 with (h1 | h1) | h1
      · unfold isMove at h1
        split at h1
        · have h1 := eq_of_beq h1
          subst h1
          exact ⟨_, rfl, .inl ⟨_, _, _, rfl⟩⟩
        · cases h1
      · unfold isView at h1
        split at h1
        · simp only [Bool.and_eq_true, Bool.not_eq_true', beq_iff_eq] at h1
          obtain ⟨rfl, h1⟩ := h1
          exact ⟨_, rfl, .inr (.inl ⟨_, _, _, rfl, fun hm => by
            rw [List.contains_iff_mem.mpr hm] at h1; cases h1⟩)⟩
        · cases h1
      · obtain ⟨op, r, w, rfl, h2, h3⟩ := invLib_one h1
        exact ⟨_, rfl, .inr (.inr ⟨op, r, w, rfl, of_decide_eq_true h2, h3 i rfl⟩)⟩
    · cases h
  · cases h

/-- what is taken out of the back of a map: a single allowed library node that does not use the variable -/
theorem hoisted_back_kind {H : HoistEnv} {i : String} {s s' : Seq} {l : List Stmt} (h : H.backMap i s = some (s', l)) :
    ∃ op r w, l = [.lib op r w] ∧ H.kind op ≠ .other ∧ i ∉ r := by
  unfold HoistEnv.backMap at h
  split at h
  · split at h
    · rename_i h1
      cases h
      obtain ⟨op, r, w, rfl, h2, h3⟩ := invLib_one h1
      exact ⟨op, r, w, rfl, of_decide_eq_true h2, h3 i rfl⟩
    · cases h
  · cases h

end Docc.IR

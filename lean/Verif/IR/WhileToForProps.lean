import Verif.IR.WhileToFor
import Verif.IR.AgreeS
import Verif.IR.ReplaceProps
import Verif.IR.TransProps

/-
C18: WhileToForConversion preserves the meaning of an accepted while loop that is entered with its continue condition true.
-/
namespace Docc.IR
open Docc.Sym

/-! ### the shape of an accepted loop -/

theorem Seq.splitLast_eq : (s : Seq) → ∀ {b : Seq} {l : Node} {tl : Trans}, s.splitLast = some (b, l, tl) → s = b ++ .cons l tl .nil
  | .nil, _, _, _, h => by simp [Seq.splitLast] at h
  | .cons n t .nil, b, l, tl, h => by
    simp only [Seq.splitLast, Option.some.injEq, Prod.mk.injEq] at h
    obtain ⟨rfl, rfl, rfl⟩ := h; rfl
  | .cons n t (.cons n' t' r), b, l, tl, h => by
    rw [Seq.splitLast] at h
    cases hr : (Seq.cons n' t' r).splitLast with
    | none => simp [hr] at h
    | some q =>
      obtain ⟨i, l', tl'⟩ := q
      simp only [hr, Option.some.injEq, Prod.mk.injEq] at h
      obtain ⟨rfl, rfl, rfl⟩ := h
      rw [Seq.cons_append, ← Seq.splitLast_eq (.cons n' t' r) hr]
    · simp

theorem Seq.splitUpd_eq (i : String) : (s : Seq) → ∀ {s1 : Seq} {n : Node} {t : Trans} {s2 : Seq}, s.splitUpd i = some (s1, n, t, s2) →
    s = s1 ++ .cons n t s2
  | .nil, _, _, _, _, h => by simp [Seq.splitUpd] at h
  | .cons m tm r, s1, n, t, s2, h => by
    rw [Seq.splitUpd] at h
    split at h
    · simp only [Option.some.injEq, Prod.mk.injEq] at h
      obtain ⟨rfl, rfl, rfl, rfl⟩ := h; rfl
    · cases hr : r.splitUpd i with
      | none => simp [hr] at h
      | some q =>
        obtain ⟨a, b, c, d⟩ := q
        simp only [hr, Option.some.injEq, Prod.mk.injEq] at h
        obtain ⟨rfl, rfl, rfl, rfl⟩ := h
        rw [Seq.cons_append, ← Seq.splitUpd_eq i r hr]

theorem Seq.noExit_append : (a b : Seq) → (a ++ b).noExit = (a.noExit && b.noExit)
  | .nil, b => by simp [Seq.noExit]
  | .cons n t r, b => by simp [Seq.noExit, Seq.noExit_append r b, Bool.and_assoc]

theorem Node.noExit_isRet {n : Node} (h : n.noExit = true) : n.isRet = false := by
  cases n <;> simp_all [Node.noExit, Node.isRet]

theorem Seq.users_append : (a b : Seq) → a.noExit = true → (a ++ b).users = a.users ++ b.users
  | .nil, b, _ => by simp [Seq.users]
  | .cons n t r, b, h => by
    simp only [Seq.noExit, Bool.and_eq_true] at h
    rw [Seq.cons_append, Seq.users, Seq.users, Node.noExit_isRet h.1, Seq.users_append r b h.2]
    simp

mutual
/-- without break, continue and return at the level of the loop, the body finishes normally or by a return -/
theorem Node.noExit_den (E : Env) : (n : Node) → n.noExit = true → ∀ σ c σ', n.den E σ c σ' → c.proper = true
  | .block l, _, σ, c, σ', h => by rw [Node.den] at h; obtain ⟨rfl, _⟩ := h; rfl
  | .seq s, h, σ, c, σ', hd => by rw [Node.den] at hd; exact s.noExit_den E h σ c σ' hd
  | .ifElse b, h, σ, c, σ', hd => by rw [Node.den] at hd; exact b.noExit_den E h σ c σ' hd
  | .whileL s, _, σ, c, σ', hd => by rw [Node.den] at hd; exact Rel.forever_proper hd
  | .loop m i a k u s, _, σ, c, σ', hd => by rw [Node.den, Rel.upd_seq] at hd; exact Rel.iter_proper hd
  | .brk, h, _, _, _, _ => by simp [Node.noExit] at h
  | .cont, h, _, _, _, _ => by simp [Node.noExit] at h
  | .ret _ _, h, _, _, _, _ => by simp [Node.noExit] at h
/-- of a sequence -/
theorem Seq.noExit_den (E : Env) : (s : Seq) → s.noExit = true → ∀ σ c σ', s.den E σ c σ' → c.proper = true
  | .nil, _, σ, c, σ', h => by rw [Seq.den] at h; obtain ⟨rfl, _⟩ := h; rfl
  | .cons n t r, h, σ, c, σ', hd => by
    simp only [Seq.noExit, Bool.and_eq_true] at h
    rw [Seq.den, Rel.upd_seq] at hd
    rcases hd with ⟨σ1, _, h2⟩ | ⟨_, h1⟩
    · exact r.noExit_den E h.2 _ _ _ h2
    · exact n.noExit_den E h.1 _ _ _ h1
/-- of the cases -/
theorem Brs.noExit_den (E : Env) : (b : Brs) → b.noExit = true → ∀ σ c σ', b.den E σ c σ' → c.proper = true
  | .nil, _, σ, c, σ', h => by rw [Brs.den] at h; obtain ⟨rfl, _⟩ := h; rfl
  | .cons k s r, h, σ, c, σ', hd => by
    simp only [Brs.noExit, Bool.and_eq_true] at h
    rw [Brs.den] at hd
    simp only [Rel.ite] at hd
    split at hd
    · exact s.noExit_den E h.1 _ _ _ hd
    · exact r.noExit_den E h.2 _ _ _ hd
end

/-- the closing if-else continues or breaks -/
theorem exitTest_den (E : Env) (W : W2F) (hW : W.Sound) {l : Node} {c1 c2 k : Cond} (h : exitTest l = some (c1, c2, k))
    (hn : W.isNeg c1 c2 = true) (σ : St) (c : Ctl) (σ' : St) :
    l.den E σ c σ' ↔ c = (if σ.cond E k then .cont else .brk) ∧ σ' = σ := by
  have hneg : σ.cond E c2 = !σ.cond E c1 := hW.1 c1 c2 hn _
  unfold exitTest at h
  split at h
  · simp only [Option.some.injEq, Prod.mk.injEq] at h
    obtain ⟨rfl, rfl, rfl⟩ := h
    simp only [Node.den, Brs.den, Seq.den, Rel.exit_seq _ (show Ctl.brk ≠ .normal by simp), Rel.exit_seq _ (show Ctl.cont ≠ .normal by simp)]
    simp only [Rel.ite, hneg]
    split <;> simp_all [Rel.exit]
  · simp only [Option.some.injEq, Prod.mk.injEq] at h
    obtain ⟨rfl, rfl, rfl⟩ := h
    simp only [Node.den, Brs.den, Seq.den, Rel.exit_seq _ (show Ctl.brk ≠ .normal by simp), Rel.exit_seq _ (show Ctl.cont ≠ .normal by simp)]
    simp only [Rel.ite, hneg]
    split <;> simp_all [Rel.exit]
  · simp at h

theorem exitTest_names {l : Node} {c1 c2 k : Cond} (h : exitTest l = some (c1, c2, k)) : ∀ x ∈ k.atoms, x ∈ l.names := by
  unfold exitTest at h
  split at h
  · simp only [Option.some.injEq, Prod.mk.injEq] at h
    obtain ⟨rfl, rfl, rfl⟩ := h
    intro x hx
    simp [Node.names, Brs.names, hx]
  · simp only [Option.some.injEq, Prod.mk.injEq] at h
    obtain ⟨rfl, rfl, rfl⟩ := h
    intro x hx
    simp [Node.names, Brs.names, hx]
  · simp at h

theorem Seq.names_append (x : String) : (a b : Seq) → (x ∈ (a ++ b).names ↔ x ∈ a.names ∨ x ∈ b.names)
  | .nil, b => by simp [Seq.names]
  | .cons n t r, b => by simp [Seq.names, Seq.names_append x r b, or_assoc]
theorem Seq.rets_append (x : String) : (a b : Seq) → (x ∈ (a ++ b).rets ↔ x ∈ a.rets ∨ x ∈ b.rets)
  | .nil, b => by simp [Seq.rets]
  | .cons n t r, b => by simp [Seq.rets, Seq.rets_append x r b, or_assoc]

theorem Stmt.users_names (s : Stmt) (x : String) (h : reads s.users x ∨ writes s.users x) : x ∈ s.names := by
  cases s <;> simp [reads, writes, Stmt.users, readsOf, Stmt.names] at h ⊢ <;> grind

mutual
/-- users mention only names of the node -/
theorem Node.users_names (x : String) : (n : Node) → reads n.users x ∨ writes n.users x → x ∈ n.names
  | .block l, h => by
    simp only [Node.users, reads, writes, List.mem_flatMap] at h
    rw [Node.names, List.mem_flatMap]
    rcases h with ⟨s, hs, h⟩ | ⟨s, hs, h⟩
    · exact ⟨s, hs, s.users_names x (Or.inl h)⟩
    · exact ⟨s, hs, s.users_names x (Or.inr h)⟩
  | .seq s, h => s.users_names x h
  | .ifElse b, h => by
    rw [Node.names]
    simp only [Node.users, reads_append, writes_append, reads_readsOf, writes_readsOf, false_or] at h
    rcases h with (h | h) | h
    · exact b.condAtoms_names x h
    · exact b.users_names x (Or.inl h)
    · exact b.users_names x (Or.inr h)
  | .whileL s, h => s.users_names x h
  | .loop m i a c u s, h => by
    simp only [Node.users, reads_append, writes_append, reads_readsOf, writes_readsOf, false_or, or_false] at h
    simp only [Node.names, List.mem_cons, List.mem_append]
    have := s.users_names x
    simp only [reads, writes, List.mem_singleton, Prod.mk.injEq] at h this
    grind
  | .brk, h => by simp [Node.users, reads, writes] at h
  | .cont, h => by simp [Node.users, reads, writes] at h
  | .ret d q, h => by
    simp only [Node.users] at h
    split at h
    · simp [reads, writes] at h
    · simpa [reads, writes, Node.names] using h
/-- of a sequence -/
theorem Seq.users_names (x : String) : (s : Seq) → reads s.users x ∨ writes s.users x → x ∈ s.names
  | .nil, h => by simp [Seq.users, reads, writes] at h
  | .cons n t r, h => by
    have h1 := n.users_names x
    have h2 := r.users_names x
    simp only [Seq.names, List.mem_append]
    have ht : reads (transUsers t) x ∨ writes (transUsers t) x → x ∈ t.map (·.1) ∨ x ∈ t.flatMap (fun a => a.2.atoms) := by
      simp only [transUsers, reads_append, writes_append, reads_readsOf, writes_readsOf, false_or]
      simp only [reads, writes, List.mem_map, List.mem_flatMap, Prod.mk.injEq]
      rintro ((h | ⟨_, _, h, _⟩) | ⟨a, ha, _, rfl⟩)
      · exact Or.inr h
      · simp at h
      · exact Or.inl ⟨a, ha, rfl⟩
    rw [Seq.users] at h
    split at h
    · exact Or.inl (Or.inl (Or.inl (h1 h)))
    · simp only [reads_append, writes_append] at h
      grind
/-- of the cases -/
theorem Brs.users_names (x : String) : (b : Brs) → reads b.users x ∨ writes b.users x → x ∈ b.names
  | .nil, h => by simp [Brs.users, reads, writes] at h
  | .cons c s r, h => by
    have h1 := s.users_names x
    have h2 := r.users_names x
    simp only [Brs.names, List.mem_append]
    simp only [Brs.users, reads_append, writes_append] at h
    grind
theorem Brs.condAtoms_names (x : String) : (b : Brs) → x ∈ b.condAtoms → x ∈ b.names
  | .nil, h => by simp [Brs.condAtoms] at h
  | .cons c s r, h => by
    have h2 := r.condAtoms_names x
    simp only [Brs.names, List.mem_append]
    simp only [Brs.condAtoms, List.mem_append] at h
    grind
end

theorem renameTo_ne {x y : String} (h : x ≠ y) (n : String) : renameTo x (.sym y) n ≠ x := by
  unfold renameTo
  split
  · exact Ne.symm h
  · assumption

mutual
/-- a renamed symbol is not assigned any more -/
theorem Node.replace_written (x y : String) (h : x ≠ y) : (n : Node) → x ∉ (n.replace x (.sym y)).written
  | .block l => by
    simp only [Node.replace, Node.written, List.mem_flatMap, List.mem_map, not_exists, not_and]
    rintro s ⟨s', _, rfl⟩
    cases s' with
    | tasklet op ins out sub => simpa [Stmt.replace] using Ne.symm (renameTo_ne h out)
    | lib op r w => simpa [Stmt.replace] using fun a _ => renameTo_ne h a
  | .seq s => s.replace_written x y h
  | .ifElse b => b.replace_written x y h
  | .whileL s => s.replace_written x y h
  | .loop m i a c u s => by
    simp only [Node.replace, Node.written, List.mem_cons, not_or]
    exact ⟨Ne.symm (renameTo_ne h i), s.replace_written x y h⟩
  | .brk => by simp [Node.replace, Node.written]
  | .cont => by simp [Node.replace, Node.written]
  | .ret d q => by
    simp only [Node.replace]
    split <;> simp [Node.written]
/-- of a sequence -/
theorem Seq.replace_written (x y : String) (h : x ≠ y) : (s : Seq) → x ∉ (s.replace x (.sym y)).written
  | .nil => by simp [Seq.replace, Seq.written]
  | .cons n t r => by
    simp only [Seq.replace, Seq.written, List.mem_append, not_or]
    refine ⟨⟨n.replace_written x y h, ?_⟩, r.replace_written x y h⟩
    simp only [transReplace, List.map_map, List.mem_map, not_exists, not_and]
    exact fun a _ => renameTo_ne h a.1
/-- of the cases -/
theorem Brs.replace_written (x y : String) (h : x ≠ y) : (b : Brs) → x ∉ (b.replace x (.sym y)).written
  | .nil => by simp [Brs.replace, Brs.written]
  | .cons c s r => by
    simp only [Brs.replace, Brs.written, List.mem_append, not_or]
    exact ⟨s.replace_written x y h, r.replace_written x y h⟩
end


/-! ### one iteration -/

/-- everything the checks of the pass establish -/
structure W2FMatch.Ok (M : W2FMatch) (s : Seq) (W : W2F) (E : Env) : Prop where
  shape : ∃ l, s = M.s1 ++ .cons M.n M.t (M.s2 ++ .cons l [] .nil) ∧
    (∀ σ c σ', l.den E σ c σ' ↔ c = (if σ.cond E M.k then .cont else .brk) ∧ σ' = σ) ∧ ∀ x ∈ M.k.atoms, x ∈ l.names
  entry : (M.i, M.u) ∈ M.t
  w1 : ¬ writes M.s1.users M.i
  wn : ¬ writes M.n.users M.i
  w2 : ¬ writes M.s2.users M.i
  wu : ∀ x ∈ M.u.atoms, ¬ writes M.s2.users x
  ex : (M.s1 ++ .cons M.n M.t M.s2).noExit = true

theorem W2F.matches_ok (W : W2F) (hW : W.Sound) (E : Env) {s : Seq} {M : W2FMatch} (h : W.matches s = some M) : M.Ok s W E := by
  unfold W2F.matches at h
  split at h
  · simp at h
  split at h
  · simp at h
  rename_i b l tl hsl
  split at h
  · simp at h
  rename_i htl
  split at h
  · simp at h
  rename_i c1 c2 k het
  split at h
  · simp at h
  rename_i hneg
  split at h
  · simp at h
  rename_i i hmv
  split at h
  · simp at h
  rename_i s1 n t s2 hsu
  split at h
  · simp at h
  rename_i a hfi
  split at h
  · simp at h
  rename_i hat
  split at h
  · simp at h
  rename_i hex
  simp only [Option.some.injEq] at h
  subst h
  have hb := Seq.splitUpd_eq i b hsu
  have hs := Seq.splitLast_eq s hsl
  have htl' : tl = [] := by simpa using htl
  subst htl'
  have hex' : b.noExit = true := by simpa using hex
  have hai : a.1 = i := by simpa using List.find?_some hfi
  have ham := List.mem_of_find?_eq_some hfi
  have hcount : numWrites s.users i = 1 := by
    unfold movingSym at hmv
    split at hmv
    · rename_i x hx
      split at hmv
      · rename_i h1; simp only [Option.some.injEq] at hmv; subst hmv; exact h1
      · simp at hmv
    · simp at hmv
  have hex2 := hex'
  rw [hb, Seq.noExit_append, Seq.noExit, Bool.and_eq_true, Bool.and_eq_true] at hex2
  have husers : s.users = s1.users ++ (n.users ++ transUsers t ++ s2.users) ++ (Seq.cons l [] .nil).users := by
    rw [hs, Seq.users_append b _ hex', hb, Seq.users_append s1 _ hex2.1, Seq.users, Node.noExit_isRet hex2.2.1]
    simp
  have hpos : 0 < List.count (Use.write, i) (transUsers t) := by
    rw [List.count_pos_iff, transUsers, List.mem_append]
    exact Or.inr (List.mem_map.2 ⟨a, ham, by rw [hai]⟩)
  unfold numWrites at hcount
  rw [husers] at hcount
  simp only [List.count_append] at hcount
  have nw : ∀ u : List User, List.count (Use.write, i) u = 0 → ¬ writes u i := fun u hu => List.count_eq_zero.1 hu
  refine ⟨⟨l, ?_, exitTest_den E W hW het (by simpa using hneg), exitTest_names het⟩, ?_, nw _ (by show List.count _ s1.users = 0; omega), nw _ (by show List.count _ n.users = 0; omega),
    nw _ (by show List.count _ s2.users = 0; omega), ?_, ?_⟩
  · rw [hs, hb, Seq.append_assoc, Seq.cons_append]
  · rw [← hai]; exact ham
  · intro x hx
    simp only [List.any_eq_true, not_exists, not_and, decide_eq_true_eq] at hat
    exact hat x hx
  · rw [← hb]; exact hex'

/-- The memories at the head of the loop: the same except for the value of the new symbol `p` (the content of scalars away
from the empty index, an artefact of the memory model, is tracked as well). -/
def W2FHead (i p : String) (v : List Int → Int) (σ τ : St) : Prop :=
  AgreeS (· = p) σ τ ∧ (∀ j, j ≠ [] → σ i j = v j) ∧ ∀ j, j ≠ [] → τ p j = v j

/-- a part of the body before the update -/
theorem W2FHead.keep {i p : String} {v : List Int → Int} {R : Rel} (hb : Rel.bis (AgreeS (· = p)) R R)
    (hi : ∀ w, Rel.inv (Holds i w) R) (hp : ∀ w, Rel.inv (Holds p w) R) : Rel.bis (W2FHead i p v) R R := by
  constructor
  · rintro σ τ c σ' ⟨h1, h2, h3⟩ hr
    obtain ⟨τ', hs, ha⟩ := hb.1 σ τ c σ' h1 hr
    exact ⟨τ', hs, ha, fun j hj => by rw [hi (σ i) σ c σ' rfl hr]; exact h2 j hj, fun j hj => by rw [hp (τ p) τ c τ' rfl hs]; exact h3 j hj⟩
  · rintro τ σ c τ' ⟨h1, h2, h3⟩ hr
    obtain ⟨σ', hs, ha⟩ := hb.2 τ σ c τ' h1 hr
    exact ⟨σ', hs, ha, fun j hj => by rw [hi (σ i) σ c σ' rfl hs]; exact h2 j hj, fun j hj => by rw [hp (τ p) τ c τ' rfl hr]; exact h3 j hj⟩

/-- the update: from the same memory `i := u` on one side, `p := u` on the other -/
theorem w2f_update (E : Env) (W : W2F) (hW : W.Sound) {i p : String} {v : List Int → Int} (hip : i ≠ p) (u : Expr) (t : Trans)
    (hI : Indep t) (hm : (i, u) ∈ t) (hp1 : p ∉ t.map (·.1)) (hp2 : p ∉ t.flatMap fun a => a.2.atoms) {σ τ : St}
    (h : W2FHead i p v σ τ) :
    let σ1 := runTrans E t σ
    let τ1 := runTrans E (W.insert (t.filter fun a => a.1 != i) (p, u)) τ
    Ren i p σ1 τ1 ∧ τ1.ev E u = σ1 i [] ∧ ∀ j, j ≠ [] → τ1 i j = v j := by
  intro σ1 τ1
  obtain ⟨hA, hv1, hv2⟩ := h
  have hpt : ∀ a ∈ t, p ∉ a.2.atoms := fun a ha hx => hp2 (List.mem_flatMap.2 ⟨a, ha, hx⟩)
  have hperm := hW.2 (t.filter fun a => a.1 != i) (p, u)
  have hI1 : Indep ((p, u) :: t.filter fun a => a.1 != i) := by
    refine ⟨?_, ?_⟩
    · rw [List.map_cons, List.nodup_cons]
      refine ⟨fun hx => ?_, ?_⟩
      · obtain ⟨a, ha, he⟩ := List.mem_map.1 hx
        exact hp1 (List.mem_map.2 ⟨a, (List.mem_filter.1 ha).1, he⟩)
      · exact ((List.filter_sublist).map _).nodup hI.1
    · intro a ha b hb hne
      rcases List.mem_cons.1 ha with rfl | ha'
      · rcases List.mem_cons.1 hb with rfl | hb'
        · exact absurd rfl hne
        · have := List.mem_filter.1 hb'
          exact hI.2 (i, u) hm b this.1 (by simpa using this.2)
      · have ha2 := List.mem_filter.1 ha'
        rcases List.mem_cons.1 hb with rfl | hb'
        · exact hpt a ha2.1
        · exact hI.2 a ha2.1 b (List.mem_filter.1 hb').1 hne
  have hI' : Indep (W.insert (t.filter fun a => a.1 != i) (p, u)) := hI1.perm hperm.symm
  have hev : ∀ a ∈ t, σ.ev E a.2 = τ.ev E a.2 := fun a ha => hA.ev E fun x hx hX => hpt a ha (hX ▸ hx)
  have hmem : ∀ a, a ∈ W.insert (t.filter fun a => a.1 != i) (p, u) ↔ a = (p, u) ∨ (a ∈ t ∧ a.1 ≠ i) := by
    intro a; rw [hperm.mem_iff, List.mem_cons, List.mem_filter]; simp
  have hτi : τ1 i = τ i := by
    refine runTrans_notin E _ τ i fun a ha => ?_
    rcases (hmem a).1 ha with rfl | ⟨_, h⟩
    · exact Ne.symm hip
    · exact h
  have hτp : τ1 p [] = τ.ev E u := runTrans_mem E _ τ hI' (p, u) ((hmem _).2 (Or.inl rfl))
  have hσi : σ1 i [] = σ.ev E u := runTrans_mem E t σ hI (i, u) hm
  refine ⟨⟨fun z hz1 hz2 => ?_, ?_⟩, ?_, ?_⟩
  · funext j
    by_cases hj : j = []
    · subst hj
      by_cases hz : ∃ a ∈ t, a.1 = z
      · obtain ⟨a, ha, rfl⟩ := hz
        show runTrans E t σ a.1 [] = runTrans E _ τ a.1 []
        rw [runTrans_mem E t σ hI a ha, runTrans_mem E _ τ hI' a ((hmem a).2 (Or.inr ⟨ha, hz1⟩)), hev a ha]
      · have hz' : ∀ a ∈ t, a.1 ≠ z := fun a ha he => hz ⟨a, ha, he⟩
        show runTrans E t σ z [] = runTrans E _ τ z []
        rw [runTrans_notin E t σ z hz', runTrans_notin E _ τ z]
        · exact hA z [] fun hX => absurd hX hz2
        · intro a ha
          rcases (hmem a).1 ha with rfl | ⟨h, _⟩
          · exact Ne.symm hz2
          · exact hz' a h
    · show runTrans E t σ z j = runTrans E _ τ z j
      rw [runTrans_index E _ _ _ _ hj, runTrans_index E _ _ _ _ hj]
      exact hA z j fun hX => absurd hX hz2
  · funext j
    by_cases hj : j = []
    · subst hj; rw [hσi, hτp, hev (i, u) hm]
    · show runTrans E t σ i j = runTrans E _ τ p j
      rw [runTrans_index E _ _ _ _ hj, runTrans_index E _ _ _ _ hj, hv1 j hj, hv2 j hj]
  · rw [hσi, hev (i, u) hm]
    refine St.ev_congr E fun x hx => ?_
    by_cases hxi : x = i
    · rw [hxi, hτi]
    · show runTrans E _ τ x [] = τ x []
      rw [runTrans_notin E _ τ x]
      intro a ha
      rcases (hmem a).1 ha with rfl | ⟨h, _⟩
      · rintro rfl; exact hpt (i, u) hm hx
      · rintro rfl; exact hI.2 (i, u) hm a h hxi hx
  · intro j hj
    rw [hτi, ← hA i j fun hX => absurd hX hip]
    exact hv1 j hj

/-- behind the update -/
theorem w2f_tail (E : Env) {i p : String} (hip : i ≠ p) {v : List Int → Int} (u : Expr) (s2 : Seq) (hp : p ∉ s2.names) (hr : i ∉ s2.rets)
    (hw : ¬ writes s2.users i) (hu : ∀ x ∈ u.atoms, ¬ writes s2.users x) (hpu : p ∉ u.atoms) {σ τ σ' τ' : St} {c : Ctl}
    (h1 : Ren i p σ τ) (h2 : τ.ev E u = σ i []) (h3 : ∀ j, j ≠ [] → τ i j = v j) (hv : ∀ j, j ≠ [] → σ i j = v j)
    (hvp : ∀ j, j ≠ [] → σ p j = v j)
    (hs : s2.den E σ c σ') (ht : (s2.replace i (.sym p)).den E τ c τ') (h' : Ren i p σ' τ') :
    AgreeS (fun x => x = i ∨ x = p) σ' τ' ∧ W2FHead i p v σ' (τ'.setS i (τ'.ev E u)) := by
  have hτi : τ' i = τ i := Seq.keeps E _ i (Seq.replace_written i p hip s2) ht
  have hσi : σ' i = σ i := Seq.frame_inv E i (σ i) s2 hw σ c σ' rfl hs
  have hval : τ'.ev E u = σ' i [] := by
    rw [hσi, ← h2]
    refine St.ev_congr E fun x hx => ?_
    by_cases hxi : x = i
    · rw [hxi, hτi]
    · have hxp : x ≠ p := fun he => hpu (he ▸ hx)
      rw [← h'.1 x hxi hxp, ← h1.1 x hxi hxp, Seq.frame_inv E x (σ x) s2 (hu x hx) σ c σ' rfl hs]
  have hij : ∀ j, j ≠ [] → σ' i j = v j := fun j hj => by rw [hσi]; exact hv j hj
  have hag : AgreeS (fun x => x = i ∨ x = p) σ' τ' := by
    intro x j hx
    by_cases hxi : x = i
    · have hj := hx (Or.inl hxi)
      subst hxi
      rw [hij j hj, hτi, h3 j hj]
    · by_cases hxp : x = p
      · have hj := hx (Or.inr hxp)
        subst hxp
        have : σ' x = σ x := Seq.frame_inv E x (σ x) s2 (fun hw => hp (s2.users_names x (Or.inr hw))) σ c σ' rfl hs
        rw [this, hvp j hj, ← h'.2, hij j hj]
      · rw [h'.1 x hxi hxp]
  refine ⟨hag, ?_, hij, ?_⟩
  · intro x j hx
    by_cases hxi : x = i
    · subst hxi
      by_cases hj : j = []
      · subst hj; rw [St.setS_same, hval]
      · simp only [St.setS, St.set, hj, and_false, if_false]
        exact hag x j fun _ => hj
    · rw [St.setS_other _ _ hxi]
      by_cases hxp : x = p
      · exact hag x j fun _ => hx hxp
      · rw [h'.1 x hxi hxp]
  · intro j hj
    rw [St.setS_other _ _ (Ne.symm hip), ← h'.2]
    exact hij j hj

/-- One iteration without the closing test, in both directions: the bodies have the same outcomes; after a normal end the
memories agree again once the for loop has executed its update. -/
theorem w2f_body (E : Env) (W : W2F) (hW : W.Sound) {s : Seq} {M : W2FMatch} (hM : M.Ok s W E) {p : String} {v : List Int → Int}
    (hp : p ∉ s.names) (hI : Indep M.t) (hr : M.i ∉ s.rets) {σ τ : St} (h : W2FHead M.i p v σ τ) (c : Ctl) :
    let Rw := (M.s1 ++ .cons M.n M.t M.s2).den E
    let Rf := (M.s1 ++ .cons M.n (W.insert (M.t.filter fun a => a.1 != M.i) (p, M.u)) (M.s2.replace M.i (.sym p))).den E
    (∀ σ', Rw σ c σ' → ∃ τ', Rf τ c τ' ∧ AgreeS (fun x => x = M.i ∨ x = p) σ' τ' ∧
      (c = .normal → W2FHead M.i p v σ' (τ'.setS M.i (τ'.ev E M.u)))) ∧
    (∀ τ', Rf τ c τ' → ∃ σ', Rw σ c σ' ∧ AgreeS (fun x => x = M.i ∨ x = p) σ' τ' ∧
      (c = .normal → W2FHead M.i p v σ' (τ'.setS M.i (τ'.ev E M.u)))) := by
  obtain ⟨⟨l, hs, _, _⟩, hm, w1, wn, w2, wu, _⟩ := hM
  have hp' : p ∉ M.s1.names ∧ p ∉ M.n.names ∧ p ∉ M.t.map (·.1) ∧ p ∉ M.t.flatMap (fun a => a.2.atoms) ∧ p ∉ M.s2.names := by
    rw [hs] at hp
    simp only [Seq.names_append, Seq.names, List.mem_append, not_or] at hp
    exact ⟨hp.1, hp.2.1.1.1, hp.2.1.1.2, hp.2.1.2, hp.2.2.1⟩
  obtain ⟨p1, pn, pt1, pt2, p2⟩ := hp'
  have hr2 : M.i ∉ M.s2.rets := by
    rw [hs] at hr
    simp only [Seq.rets_append, Seq.rets, List.mem_append, not_or] at hr
    exact hr.2.2.1
  have hip : M.i ≠ p := fun he => pt1 (List.mem_map.2 ⟨_, hm, he⟩)
  have hpu : p ∉ M.u.atoms := fun hx => pt2 (List.mem_flatMap.2 ⟨_, hm, hx⟩)
  have b1 : Rel.bis (W2FHead M.i p v) (M.s1.den E) (M.s1.den E) :=
    W2FHead.keep (M.s1.agreeS E _ fun x hx hm => p1 (M.s1.users_names p (Or.inl (hx ▸ hm)))) (fun w => M.s1.frame_inv E _ w w1)
      (fun w => M.s1.frame_inv E _ w fun hw => p1 (M.s1.users_names p (Or.inr hw)))
  have bn : Rel.bis (W2FHead M.i p v) (M.n.den E) (M.n.den E) :=
    W2FHead.keep (M.n.agreeS E _ fun x hx hm => pn (M.n.users_names p (Or.inl (hx ▸ hm)))) (fun w => M.n.frame_inv E _ w wn)
      (fun w => M.n.frame_inv E _ w fun hw => pn (M.n.users_names p (Or.inr hw)))
  have hb := Rel.seq_bis b1 bn
  have hren := M.s2.rename_bis E M.i p hip p2 hr2
  have early : ∀ σ' τ', W2FHead M.i p v σ' τ' → AgreeS (fun x => x = M.i ∨ x = p) σ' τ' :=
    fun σ' τ' h => h.1.mono fun x hx => Or.inr hx
  have tail : ∀ σ1 τ1 c, W2FHead M.i p v σ1 τ1 → ∀ σ' τ', M.s2.den E (runTrans E M.t σ1) c σ' →
      (M.s2.replace M.i (.sym p)).den E (runTrans E (W.insert (M.t.filter fun a => a.1 != M.i) (p, M.u)) τ1) c τ' → Ren M.i p σ' τ' →
      AgreeS (fun x => x = M.i ∨ x = p) σ' τ' ∧ W2FHead M.i p v σ' (τ'.setS M.i (τ'.ev E M.u)) := by
    intro σ1 τ1 c hH σ' τ' hd1 hd2 hR
    have hu := w2f_update E W hW hip M.u M.t hI hm pt1 pt2 hH
    refine w2f_tail E hip M.u M.s2 p2 hr2 w2 wu hpu hu.1 hu.2.1 hu.2.2 (fun j hj => ?_) (fun j hj => ?_) hd1 hd2 hR
    · rw [runTrans_index E _ _ _ _ hj]; exact hH.2.1 j hj
    · rw [runTrans_index E _ _ _ _ hj, hH.1 p j fun _ => hj]; exact hH.2.2 j hj
  have reassoc : ∀ n t r, (M.s1 ++ Seq.cons n t r).den E =
      Rel.seq (Rel.seq (M.s1.den E) (n.den E)) (fun σ => r.den E (runTrans E t σ)) := by
    intro n t r
    rw [Seq.den_append, Seq.den, Rel.upd_seq, Rel.seq_assoc]
  simp only [reassoc]
  constructor
  · rintro σ' (⟨σ1, ha, hd⟩ | ⟨hc, ha⟩)
    · obtain ⟨τ1, ha', hH⟩ := hb.1 _ _ _ _ h ha
      have hu := w2f_update E W hW hip M.u M.t hI hm pt1 pt2 hH
      obtain ⟨τ', hd', hR⟩ := hren.1 _ _ _ _ hu.1 hd
      have := tail σ1 τ1 c hH σ' τ' hd hd' hR
      exact ⟨τ', Or.inl ⟨τ1, ha', hd'⟩, this.1, fun _ => this.2⟩
    · obtain ⟨τ1, ha', hH⟩ := hb.1 _ _ _ _ h ha
      exact ⟨τ1, Or.inr ⟨hc, ha'⟩, early _ _ hH, fun he => absurd he hc⟩
  · rintro τ' (⟨τ1, ha, hd⟩ | ⟨hc, ha⟩)
    · obtain ⟨σ1, ha', hH⟩ := hb.2 _ _ _ _ h ha
      have hu := w2f_update E W hW hip M.u M.t hI hm pt1 pt2 hH
      obtain ⟨σ', hd', hR⟩ := hren.2 _ _ _ _ hu.1 hd
      have := tail σ1 τ1 c hH σ' τ' hd' hd hR
      exact ⟨σ', Or.inl ⟨σ1, ha', hd'⟩, this.1, fun _ => this.2⟩
    · obtain ⟨σ1, ha', hH⟩ := hb.2 _ _ _ _ h ha
      exact ⟨σ1, Or.inr ⟨hc, ha'⟩, early _ _ hH, fun he => absurd he hc⟩

/-- the names whose scalar value may differ after the loop: the new symbol, and the loop variable after a return -/
def W2FDiff (i p : String) (c : Ctl) (x : String) : Prop := x = p ∨ (x = i ∧ c ≠ .normal)

/-- **C18** (partial): a while loop accepted by `can_be_applied` and entered with its continue condition true has the same
terminating executions as the for loop that replaces it, with the same outcome and the same final memory except for the
value of the fresh symbol (and, after a return from inside a nested loop, of the loop variable).
Missing: the condition at entry is not checked by the pass (`while_to_for_violated`); the transition that holds the update
must not assign several symbols that depend on each other. -/
theorem while_to_for_partial (E : Env) (W : W2F) (hW : W.Sound) (s : Seq) (M : W2FMatch) (hM : W.matches s = some M) (p : String)
    (hp : p ∉ s.names) (hI : Indep M.t) (hr : M.i ∉ s.rets) (σ : St) (hs : ∀ j, j ≠ [] → σ M.i j = σ p j)
    (hk : σ.cond E M.k = true) (c : Ctl) :
    (∀ σ', (Node.whileL s).den E σ c σ' → ∃ τ', (W.apply p M).den E σ c τ' ∧ AgreeS (W2FDiff M.i p c) σ' τ') ∧
    (∀ τ', (W.apply p M).den E σ c τ' → ∃ σ', (Node.whileL s).den E σ c σ' ∧ AgreeS (W2FDiff M.i p c) σ' τ') := by
  have hOk := W.matches_ok hW E hM
  obtain ⟨l, hsh, hl, hkn⟩ := hOk.shape
  have hbody : s.den E = Rel.seq ((M.s1 ++ .cons M.n M.t M.s2).den E) (l.den E) := by
    have : s = (M.s1 ++ .cons M.n M.t M.s2) ++ .cons l [] .nil := by
      rw [hsh, Seq.append_assoc, Seq.cons_append]
    rw [this, Seq.den_append E _ (.cons l [] .nil)]
    congr 1
    rw [Seq.den, Seq.den, Rel.seq_skip]
    exact Rel.seq_skip _
  have hprop : ∀ σ c σ', (M.s1 ++ .cons M.n M.t M.s2).den E σ c σ' → c.proper = true := Seq.noExit_den E _ hOk.ex
  have hkp : p ∉ M.k.atoms := fun hx => hp (by
    rw [hsh]; simp only [Seq.names_append, Seq.names, List.mem_append]; exact Or.inr (Or.inr (Or.inr (Or.inl (Or.inl (Or.inl (hkn p hx)))))))
  have hcond : ∀ {v σ τ}, W2FHead M.i p v σ τ → σ.cond E M.k = τ.cond E M.k :=
    fun h => h.1.cond E fun x hx hX => hkp (hX ▸ hx)
  have step := @w2f_body E W hW s M hOk p (σ M.i) hp hI hr
  have hinit : W2FHead M.i p (σ M.i) σ (σ.setS M.i (σ.ev E (.sym M.i))) := by
    have : σ.setS M.i (σ.ev E (.sym M.i)) = σ := by
      funext x j
      simp only [St.setS, St.set, St.ev, Expr.eval, St.val]
      split
      · rename_i h; rw [h.1, h.2]
      · rfl
    rw [this]
    exact ⟨AgreeS.refl _ _, fun _ _ => rfl, fun j hj => (hs j hj).symm⟩
  have hkτ : (σ.setS M.i (σ.ev E (.sym M.i))).cond E M.k = true := by rw [← hcond hinit]; exact hk
  have fin : ∀ {v σ' τ'}, W2FHead M.i p v σ' τ' → AgreeS (W2FDiff M.i p .normal) σ' τ' :=
    fun h => h.1.mono fun x hx => Or.inl hx
  have finr : ∀ {σ' τ' c}, c ≠ Ctl.normal → AgreeS (fun x => x = M.i ∨ x = p) σ' τ' → AgreeS (W2FDiff M.i p c) σ' τ' :=
    fun hc h => h.mono fun x hx => hx.elim (fun h => Or.inr ⟨h, hc⟩) Or.inl
  have hτ0 : ∃ τ0, τ0 = σ.setS M.i (σ.ev E (.sym M.i)) := ⟨_, rfl⟩
  obtain ⟨τ0, hτ0⟩ := hτ0
  rw [W2F.apply, Node.den, Node.den, Rel.upd_seq, hbody]
  simp only [← hτ0] at hinit hkτ ⊢
  generalize σ M.i = v at *
  clear hτ0 hs
  constructor
  · intro σ' hd
    induction hd generalizing τ0 with
    | @step σ σ1 c σ2 kk h1 h2 h3 ih =>
      rcases h1 with ⟨σm, ha, hb⟩ | ⟨hc, ha⟩
      · obtain ⟨hkk, rfl⟩ := (hl _ _ _).1 hb
        obtain ⟨τm, ha', hag, hH⟩ := (step hinit .normal).1 _ ha
        have hH := hH rfl
        have hck : σ1.cond E M.k = true := by
          by_cases hx : σ1.cond E M.k = true
          · exact hx
          · simp [hx] at hkk; subst hkk; simp at h2
        obtain ⟨τ', hd', hA⟩ := ih hck _ (by rw [← hcond hH]; exact hck) hH
        exact ⟨τ', .step .normal hkτ ha' (Or.inl rfl) hd', hA⟩
      · have := hprop _ _ _ ha
        rcases h2 with rfl | rfl
        · exact absurd rfl hc
        · simp [Ctl.proper] at this
    | @stop σ σ1 h1 =>
      rcases h1 with ⟨σm, ha, hb⟩ | ⟨hc, ha⟩
      · obtain ⟨hkk, rfl⟩ := (hl _ _ _).1 hb
        obtain ⟨τm, ha', hag, hH⟩ := (step hinit .normal).1 _ ha
        have hH := hH rfl
        have hck : σ1.cond E M.k = false := by
          by_cases hx : σ1.cond E M.k = true
          · simp [hx] at hkk
          · simpa using hx
        exact ⟨_, .step .normal hkτ ha' (Or.inl rfl) (.done (by rw [← hcond hH]; exact hck)), fin hH⟩
      · have := hprop _ _ _ ha
        simp [Ctl.proper] at this
    | @ret σ σ1 d q h1 =>
      rcases h1 with ⟨σm, ha, hb⟩ | ⟨hc, ha⟩
      · obtain ⟨hkk, _⟩ := (hl _ _ _).1 hb
        split at hkk <;> simp at hkk
      · obtain ⟨τm, ha', hag, _⟩ := (step hinit _).1 _ ha
        exact ⟨τm, .ret d q hkτ ha', finr hc hag⟩
  · intro τ' hd
    induction hd generalizing σ with
    | @done τ hf => rw [hkτ] at hf; simp at hf
    | @step τ τ1 c τ2 kk h0 h1 h2 h3 ih =>
      obtain ⟨σm, ha, hag, hH⟩ := (step hinit kk).2 _ h1
      have hpk := hprop _ _ _ ha
      have hkk : kk = .normal := by
        rcases h2 with rfl | rfl
        · rfl
        · simp [Ctl.proper] at hpk
      subst hkk
      have hH := hH rfl
      by_cases hx : σm.cond E M.k = true
      · obtain ⟨σ', hd', hA⟩ := ih σm hx (by rw [← hcond hH]; exact hx) hH
        exact ⟨σ', .step .cont (Or.inl ⟨σm, ha, (hl _ _ _).2 ⟨by simp [hx], rfl⟩⟩) (Or.inr rfl) hd', hA⟩
      · have hx' := hcond hH
        have hfalse : (τ1.setS M.i (τ1.ev E M.u)).cond E M.k = false := by rw [← hx']; simpa using hx
        cases h3 with
        | done _ => exact ⟨σm, .stop (Or.inl ⟨σm, ha, (hl _ _ _).2 ⟨by simp [hx], rfl⟩⟩), fin hH⟩
        | step _ h _ _ _ => simp [hfalse] at h
        | stop h _ => simp [hfalse] at h
        | ret _ _ h _ => simp [hfalse] at h
    | @stop τ τ1 h0 h1 =>
      obtain ⟨σm, ha, _, _⟩ := (step hinit _).2 _ h1
      have := hprop _ _ _ ha
      simp [Ctl.proper] at this
    | @ret τ τ1 d q h0 h1 =>
      obtain ⟨σm, ha, hag, _⟩ := (step hinit _).2 _ h1
      exact ⟨σm, .ret d q (Or.inr ⟨by simp, ha⟩), finr (by simp) hag⟩

/-! ### examples -/

/-- an engine that recognises syntactic negation and appends new entries -/
def exW2F : W2F := ⟨fun c1 c2 => decide (c2 = .not c1), fun t a => t ++ [a]⟩

theorem exW2F_sound : exW2F.Sound := by
  refine ⟨fun c1 c2 h v => ?_, fun t a => ?_⟩
  · simp only [exW2F, decide_eq_true_eq] at h; subst h; rfl
  · exact (List.perm_append_singleton a t)

/-- `while (1) { A[i] = A[i]; i := i + 1, s := n; B[0] = i; if (i < n) continue; if (!(i < n)) break; }` -/
def exWhile : Seq :=
  .cons (.block [.tasklet "assign" [("A", [.sym "i"])] "A" [.sym "i"]]) [("i", .add [.sym "i", .int 1]), ("s", .sym "n")]
    (.cons (.block [.tasklet "assign" [("i", [])] "B" [.int 0]]) []
      (.cons (.ifElse (.cons (.lt (.sym "i") (.sym "n")) (.one .cont) (.cons (.not (.lt (.sym "i") (.sym "n"))) (.one .brk) .nil))) [] .nil))

/-- hypotheses of `while_to_for_partial` -/
example : ∃ M, exW2F.matches exWhile = some M ∧ "i0" ∉ exWhile.names ∧ Indep M.t ∧ M.i = "i" ∧ M.i ∉ exWhile.rets ∧
    St.cond exEnv (fun x _ => if x = "n" then 3 else 0) M.k = true := by
  refine ⟨_, rfl, ?_⟩
  decide

/-- **C18 fails** when the loop is entered with the continue condition false: the while loop executes its body once, the for
loop that replaces it does not (here `i = 0, n = 0`; the pass accepts the loop). -/
theorem while_to_for_violated : ∃ (E : Env) (W : W2F) (s : Seq) (M : W2FMatch) (p : String) (σ σ' : St), W.Sound ∧ W.matches s = some M ∧
    p ∉ s.names ∧ Indep M.t ∧ M.i ∉ s.rets ∧ (∀ j, σ M.i j = σ p j) ∧ (Node.whileL s).den E σ .normal σ' ∧
    ∀ τ', (W.apply p M).den E σ .normal τ' → σ' "B" [0] ≠ τ' "B" [0] := by
  obtain ⟨σ', h1, h2⟩ := Node.run_obs (E := exEnv) (σ := fun _ _ => 0) 30 (x := "B") (j := [0]) (c := .normal) (v := 1)
    (s := .whileL exWhile) (by decide)
  refine ⟨exEnv, exW2F, exWhile, _, "i0", _, σ', exW2F_sound, rfl, by decide, by decide, by decide, fun _ => rfl, h1, ?_⟩
  intro τ' h
  have := (Node.run_obs_all 30 (x := "B") (j := [0]) (c := .normal) (v := 0) (by decide) h).2
  rw [this, h2]; decide

end Docc.IR

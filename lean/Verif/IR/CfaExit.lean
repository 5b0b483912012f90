import Verif.IR.CfaTree

/-
Numbering of the control flow graph; its entry and its exits.
-/
namespace Docc.IR
open Docc.Sym

/-- the number of a vertex -/
def V.num : V → Nat
  | .nop k => k
  | .ev k _ => k

/-- numbered from `lo` to `hi - 1` -/
def V.In (lo hi : Nat) (v : V) : Prop := lo ≤ v.num ∧ v.num < hi

theorem V.In.mono {lo hi lo' hi' : Nat} {v : V} (h : v.In lo hi) (h1 : lo' ≤ lo) (h2 : hi ≤ hi') : v.In lo' hi' := ⟨Nat.le_trans h1 h.1, Nat.lt_of_lt_of_le h.2 h2⟩

/-- the numbers in the result of a traversal: `cur` is the vertex before, `L` the loop around -/
structure Cf.Bounded (F : Cf) (st cur : Option V) (L : V) (lo hi : Nat) : Prop where
  verts : ∀ v ∈ F.verts, v.In lo hi
  start : ∀ v, F.start = some v → st = some v ∨ v.In lo hi
  fin : ∀ v, F.fin = some v → cur = some v ∨ v.In lo hi
  src : ∀ a b, (a, b) ∈ F.edges → cur = some a ∨ a.In lo hi
  dst : ∀ a b, (a, b) ∈ F.edges → b = L ∨ b.In lo hi

theorem mem_edgeIf_iff {x y : Option V} {a b : V} : (a, b) ∈ edgeIf x y ↔ x = some a ∧ y = some b := by
  cases x <;> cases y <;> simp [edgeIf, eq_comm]

theorem in_self (k : Nat) {hi : Nat} (h : k < hi) : (cv k).In k hi := ⟨Nat.le_refl _, h⟩

theorem join_self (k : Nat) {hi : Nat} (h : k < hi) : (V.nop k).In k hi := ⟨Nat.le_refl _, h⟩

/-- the bounds of a loop, from those of its body -/
theorem loop_bounded {x : Cf} {L : V} {k c : Nat} (hx : x.Bounded none none (cv k) (k + 1) (k + 1 + c)) :
    Cf.Bounded ⟨some (cv k), some (cv k), cv k :: x.verts, edgeIf (some (cv k)) x.start ++ x.edges ++ edgeIf x.fin (some (cv k))⟩ none none L k (k + (1 + c)) := by
  have hk : (cv k).In k (k + (1 + c)) := in_self k (by omega)
  have hin : ∀ {v : V}, v.In (k + 1) (k + 1 + c) → v.In k (k + (1 + c)) := fun h => h.mono (by omega) (by omega)
  refine ⟨fun v hv => ?_, fun v hv => .inr ?_, fun v hv => .inr ?_, fun a b h => .inr ?_, fun a b h => .inr ?_⟩
  · simp only [List.mem_cons] at hv
    rcases hv with rfl | hv
    · exact hk
    · exact hin (hx.verts v hv)
  · cases hv; exact hk
  · cases hv; exact hk
  · simp only [List.mem_append, mem_edgeIf_iff] at h
    rcases h with (⟨h, _⟩ | h) | ⟨h, _⟩
    · cases h; exact hk
    · exact (hx.src a b h).elim (fun e => by cases e) hin
    · exact (hx.fin a h).elim (fun e => by cases e) hin
  · simp only [List.mem_append, mem_edgeIf_iff] at h
    rcases h with (⟨_, h⟩ | h) | ⟨_, h⟩
    · exact (hx.start b h).elim (fun e => by cases e) hin
    · exact (hx.dst a b h).elim (fun e => by rw [e]; exact hk) hin
    · cases h; exact hk

mutual
theorem Node.bounded (C : Brs → Bool) : (n : Node) → ∀ (L : V) (k : Nat), (n.cfg C L k).Bounded none none L k (k + n.cn)
  | .block _, L, k => ⟨fun v h => by simp only [Node.cfg, List.mem_singleton] at h; subst h; exact in_self k (by simp [Node.cn]),
      fun v h => by cases h; exact .inr (in_self k (by simp [Node.cn])), fun v h => by cases h; exact .inr (in_self k (by simp [Node.cn])),
      fun a b h => by simp [Node.cfg] at h, fun a b h => by simp [Node.cfg] at h⟩
  | .ret _ _, L, k => ⟨fun v h => by simp only [Node.cfg, List.mem_singleton] at h; subst h; exact in_self k (by simp [Node.cn]),
      fun v h => by cases h; exact .inr (in_self k (by simp [Node.cn])), fun v h => (by cases h),
      fun a b h => by simp [Node.cfg] at h, fun a b h => by simp [Node.cfg] at h⟩
  | .brk, L, k => ⟨fun v h => by simp only [Node.cfg, List.mem_singleton] at h; subst h; exact in_self k (by simp [Node.cn]),
      fun v h => by cases h; exact .inr (in_self k (by simp [Node.cn])), fun v h => (by cases h),
      fun a b h => by simp only [Node.cfg, List.mem_singleton, Prod.mk.injEq] at h; rw [h.1]; exact .inr (in_self k (by simp [Node.cn])),
      fun a b h => by simp only [Node.cfg, List.mem_singleton, Prod.mk.injEq] at h; exact .inl h.2⟩
  | .cont, L, k => ⟨fun v h => by simp only [Node.cfg, List.mem_singleton] at h; subst h; exact in_self k (by simp [Node.cn]),
      fun v h => by cases h; exact .inr (in_self k (by simp [Node.cn])), fun v h => (by cases h),
      fun a b h => by simp only [Node.cfg, List.mem_singleton, Prod.mk.injEq] at h; rw [h.1]; exact .inr (in_self k (by simp [Node.cn])),
      fun a b h => by simp only [Node.cfg, List.mem_singleton, Prod.mk.injEq] at h; exact .inl h.2⟩
  | .seq s, L, k => by
    have hx := Seq.bounded C s L none none (k + 1)
    have hin : ∀ {v : V}, v.In (k + 1) (k + 1 + s.cn) → v.In k (k + (1 + s.cn)) := fun h => h.mono (by omega) (by omega)
    exact ⟨fun v h => hin (hx.verts v h), fun v h => (hx.start v h).imp id hin, fun v h => (hx.fin v h).imp id hin,
      fun a b h => (hx.src a b h).imp id hin, fun a b h => (hx.dst a b h).imp id hin⟩
  | .whileL s, L, k => loop_bounded (Seq.bounded C s (cv k) none none (k + 1))
  | .loop _ _ _ _ _ s, L, k => loop_bounded (Seq.bounded C s (cv k) none none (k + 1))
  | .ifElse b, L, k => by
    obtain ⟨h1, h3, h4, h5⟩ := Brs.bounded C b L (cv k) (.nop k) (k + 1)
    have hk : (cv k).In k (k + (1 + b.cn)) := in_self k (by omega)
    have hj : (V.nop k).In k (k + (1 + b.cn)) := join_self k (by omega)
    have hin : ∀ {v : V}, v.In (k + 1) (k + 1 + b.cn) → v.In k (k + (1 + b.cn)) := fun h => h.mono (by omega) (by omega)
    refine ⟨fun v h => ?_, fun v h => .inr ?_, fun v h => .inr ?_, fun a c h => .inr ?_, fun a c h => ?_⟩
    · simp only [Node.cfg, List.mem_append, List.mem_cons] at h
      rcases h with (rfl | h) | h
      · exact hk
      · exact hin (h1 v h)
      · split at h
        · simp only [List.mem_singleton] at h; subst h; exact hj
        · simp at h
    · cases h; exact hk
    · simp only [Node.cfg] at h
      split at h
      · cases h; exact hj
      · cases h
    · simp only [Node.cfg, List.mem_append] at h
      rcases h with h | h
      · exact (h4 a c h).elim (fun e => by rw [e]; exact hk) hin
      · split at h
        · simp at h
        · simp only [List.mem_singleton, Prod.mk.injEq] at h; rw [h.1]; exact hk
    · simp only [Node.cfg, List.mem_append] at h
      rcases h with h | h
      · rcases h5 a c h with e | e | e
        · exact .inl e
        · rw [e]; exact .inr hj
        · exact .inr (hin e)
      · split at h
        · simp at h
        · simp only [List.mem_singleton, Prod.mk.injEq] at h; rw [h.2]; exact .inr hj
theorem Seq.bounded (C : Brs → Bool) : (s : Seq) → ∀ (L : V) (st cur : Option V) (k : Nat), (s.cfg C L st cur k).Bounded st cur L k (k + s.cn)
  | .nil, L, st, cur, k => ⟨fun v h => by simp [Seq.cfg] at h, fun v h => .inl h, fun v h => .inl h, fun a b h => by simp [Seq.cfg] at h, fun a b h => by simp [Seq.cfg] at h⟩
  | .cons n t r, L, st, cur, k => by
    have hn := Node.bounded C n L k
    have hin : ∀ {v : V}, v.In k (k + n.cn) → v.In k (k + (n.cn + r.cn)) := fun h => h.mono (by omega) (by omega)
    have no : ∀ {v : V} {p : Prop}, (none : Option V) = some v ∨ p → p := fun h => h.elim (fun e => by cases e) id
    have hst : ∀ v, st.or (n.cfg C L k).start = some v → st = some v ∨ v.In k (k + n.cn) := by
      intro v h
      cases st with
      | some w => exact .inl h
      | none => exact .inr (no (hn.start v (by simpa using h)))
    simp only [Seq.cfg, Seq.cn]
    split
    · refine ⟨fun v h => hin (hn.verts v h), fun v h => (hst v h).imp id hin, fun v h => (by cases h), fun a b h => ?_, fun a b h => ?_⟩
      · simp only [List.mem_append, mem_edgeIf_iff] at h
        rcases h with h | ⟨h, _⟩
        · exact .inr (hin (no (hn.src a b h)))
        · exact .inl h
      · simp only [List.mem_append, mem_edgeIf_iff] at h
        rcases h with h | ⟨_, h⟩
        · exact (hn.dst a b h).imp id hin
        · exact .inr (hin (no (hn.start b h)))
    · rename_i e he
      have hr := Seq.bounded C r L (st.or (n.cfg C L k).start) (some e) (k + n.cn)
      have hin' : ∀ {v : V}, v.In (k + n.cn) (k + n.cn + r.cn) → v.In k (k + (n.cn + r.cn)) := fun h => h.mono (by omega) (by omega)
      have hE : e.In k (k + (n.cn + r.cn)) := hin (no (hn.fin e he))
      have hcur : ∀ {v : V}, some e = some v ∨ v.In (k + n.cn) (k + n.cn + r.cn) → v.In k (k + (n.cn + r.cn)) := fun h =>
        h.elim (fun q => by cases q; exact hE) hin'
      refine ⟨fun v h => ?_, fun v h => ?_, fun v h => .inr (hcur (hr.fin v h)), fun a b h => ?_, fun a b h => ?_⟩
      · simp only [List.mem_append] at h
        rcases h with h | h
        · exact hin (hn.verts v h)
        · exact hin' (hr.verts v h)
      · rcases hr.start v h with h | h
        · exact (hst v h).imp id hin
        · exact .inr (hin' h)
      · simp only [List.mem_append, mem_edgeIf_iff] at h
        rcases h with (h | ⟨h, _⟩) | h
        · exact .inr (hin (no (hn.src a b h)))
        · exact .inl h
        · exact .inr (hcur (hr.src a b h))
      · simp only [List.mem_append, mem_edgeIf_iff] at h
        rcases h with (h | ⟨_, h⟩) | h
        · exact (hn.dst a b h).imp id hin
        · exact .inr (hin (no (hn.start b h)))
        · exact (hr.dst a b h).imp id hin'
theorem Brs.bounded (C : Brs → Bool) : (b : Brs) → ∀ (L h j : V) (k : Nat), (∀ v ∈ (b.cfg C L h j k).verts, v.In k (k + b.cn)) ∧
    (∀ v, (b.cfg C L h j k).fin = some v → v = j) ∧ (∀ a c, (a, c) ∈ (b.cfg C L h j k).edges → a = h ∨ a.In k (k + b.cn)) ∧
    ∀ a c, (a, c) ∈ (b.cfg C L h j k).edges → c = L ∨ c = j ∨ c.In k (k + b.cn)
  | .nil, L, h, j, k => ⟨fun v h => by simp [Brs.cfg] at h, fun v h => (by cases h), fun a c h => by simp [Brs.cfg] at h, fun a c h => by simp [Brs.cfg] at h⟩
  | .cons d s r, L, h, j, k => by
    have hs := Seq.bounded C s L none none k
    obtain ⟨r1, r2, r3, r4⟩ := Brs.bounded C r L h j (k + s.cn)
    have hin : ∀ {v : V}, v.In k (k + s.cn) → v.In k (k + (s.cn + r.cn)) := fun h => h.mono (by omega) (by omega)
    have hin' : ∀ {v : V}, v.In (k + s.cn) (k + s.cn + r.cn) → v.In k (k + (s.cn + r.cn)) := fun h => h.mono (by omega) (by omega)
    have no : ∀ {v : V} {p : Prop}, (none : Option V) = some v ∨ p → p := fun h => h.elim (fun e => by cases e) id
    simp only [Brs.cfg, Brs.cn]
    refine ⟨fun v hv => ?_, fun v hv => ?_, fun a c hv => ?_, fun a c hv => ?_⟩
    · simp only [List.mem_append] at hv
      rcases hv with hv | hv
      · exact hin (hs.verts v hv)
      · exact hin' (r1 v hv)
    · split at hv
      · cases hv; rfl
      · exact r2 v hv
    · simp only [List.mem_append, mem_edgeIf_iff] at hv
      rcases hv with ((⟨hv, _⟩ | hv) | ⟨hv, _⟩) | hv
      · cases hv; exact .inl rfl
      · exact .inr (hin (no (hs.src a c hv)))
      · exact .inr (hin (no (hs.fin a hv)))
      · exact (r3 a c hv).imp id hin'
    · simp only [List.mem_append, mem_edgeIf_iff] at hv
      rcases hv with ((⟨_, hv⟩ | hv) | ⟨_, hv⟩) | hv
      · exact .inr (.inr (hin (no (hs.start c hv))))
      · exact (hs.dst a c hv).imp id fun h => .inr (hin h)
      · cases hv; exact .inr (.inl rfl)
      · exact (r4 a c hv).imp id fun h => h.imp id hin'
end

end Docc.IR

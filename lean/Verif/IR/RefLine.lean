import Verif.IR.RefFlowProps
namespace Docc.IR
open Docc.Sym

/-! ### straight-line code: the analysis answers exactly the last move -/

/-- the moves a use is attributed to -/
def RefSt.att (q : RefSt) (u : V) : List V := ((q.cls ++ q.opn).filter fun d => u ∈ d.2).map (·.1)

theorem RefSt.att_move (q : RefSt) (u v : V) : (q.move v).att u = q.att u := by
  simp only [RefSt.att, RefSt.move, List.filter_append, List.map_append]
  simp

theorem refAdd_att {u v : V} (h : u ≠ v) (l : List (V × List V)) : ((refAdd v l).filter fun d => u ∈ d.2).map (·.1) = (l.filter fun d => u ∈ d.2).map (·.1) := by
  induction l with
  | nil => rfl
  | cons d l ih =>
    simp only [refAdd, List.map_cons, List.filter_cons, List.mem_append, List.mem_singleton, h, or_false] at ih ⊢
    split <;> simp [ih]

theorem RefSt.att_use {q : RefSt} {u v : V} (h : u ≠ v) : (q.use v).att u = q.att u := by
  simp only [RefSt.att, RefSt.use]
  split
  · rfl
  · simp only [List.filter_append, List.map_append, refAdd_att h]

/-- one event -/
def RefSt.ev (x : String) (q : RefSt) (v : V) : RefSt :=
  if v.wr x then q.move v else match v with | .ev _ (.read, y) => if y = x then q.use v else q | _ => q

theorem RefSt.evs_foldl (x : String) : ∀ (l : List V) (q : RefSt), RefSt.evs x l q = l.foldl (RefSt.ev x) q
  | [], _ => rfl
  | v :: r, q => by
    rw [List.foldl_cons, ← RefSt.evs_foldl x r]
    rcases v with _ | ⟨_, u, _⟩
    · rfl
    · cases u <;> rfl

theorem RefSt.att_ev {x : String} {q : RefSt} {u v : V} (h : u ≠ v) : (q.ev x v).att u = q.att u := by
  unfold RefSt.ev
  split
  · exact RefSt.att_move q u v
  · split
    · split
      · exact RefSt.att_use h
      · rfl
    · rfl

theorem RefSt.att_evs {x : String} {u : V} : ∀ (l : List V) (q : RefSt), u ∉ l → (l.foldl (RefSt.ev x) q).att u = q.att u
  | [], _, _ => rfl
  | v :: l, q, h => by
    simp only [List.mem_cons, not_or] at h
    rw [List.foldl_cons, RefSt.att_evs l _ h.2, RefSt.att_ev h.1]

/-- `w` is the only open move -/
def RefSt.only (q : RefSt) (w : V) : Prop := ∃ us, q.opn = [(w, us)]

theorem RefSt.only_ev {x : String} {q : RefSt} {w v : V} (h : q.only w) (hv : v.wr x = false) : (q.ev x v).only w := by
  obtain ⟨us, h⟩ := h
  unfold RefSt.ev
  rw [hv]
  simp only [Bool.false_eq_true, if_false]
  split
  · split
    · rename_i i y _
      exact ⟨us ++ [.ev i (.read, y)], by simp [RefSt.use, h, refAdd]⟩
    · exact ⟨us, h⟩
  · exact ⟨us, h⟩

theorem RefSt.only_evs {x : String} {w : V} : ∀ (l : List V) (q : RefSt), q.only w → (∀ v ∈ l, v.wr x = false) → (l.foldl (RefSt.ev x) q).only w
  | [], _, h, _ => h
  | v :: l, q, h, hl => RefSt.only_evs l _ (RefSt.only_ev h (hl v (by simp))) fun z hz => hl z (by simp [hz])

/-- In straight-line code, a read is attributed to exactly the last move before it. -/
theorem RefSt.evs_last {x : String} {a b c : List V} {w : V} {j : Nat} {q : RefSt} (hw : w.wr x = true) (hb : ∀ v ∈ b, v.wr x = false)
    (hd : V.ev j (.read, x) ∉ a ++ w :: b ++ c) (hq : q.att (.ev j (.read, x)) = []) :
    (RefSt.evs x (a ++ w :: b ++ .ev j (.read, x) :: c) q).att (.ev j (.read, x)) = [w] := by
  simp only [List.mem_append, List.mem_cons, not_or] at hd
  rw [RefSt.evs_foldl, List.foldl_append, List.foldl_cons, RefSt.att_evs c _ hd.2, List.foldl_append, List.foldl_cons]
  have h1 : (a.foldl (RefSt.ev x) q).ev x w = (a.foldl (RefSt.ev x) q).move w := by simp [RefSt.ev, hw]
  rw [h1]
  have h2 := RefSt.only_evs (x := x) b ((a.foldl (RefSt.ev x) q).move w) ⟨[], rfl⟩ hb
  have h3 : (b.foldl (RefSt.ev x) ((a.foldl (RefSt.ev x) q).move w)).att (.ev j (.read, x)) = [] := by
    rw [RefSt.att_evs b _ hd.1.2.2, RefSt.att_move, RefSt.att_evs a _ hd.1.1, hq]
  generalize b.foldl (RefSt.ev x) ((a.foldl (RefSt.ev x) q).move w) = p at h2 h3
  obtain ⟨us, h2⟩ := h2
  have hr : (V.ev j (.read, x)).wr x = false := by simp [V.wr]
  have he : p.ev x (.ev j (.read, x)) = ⟨p.und, [(w, us ++ [.ev j (.read, x)])], p.cls⟩ := by
    simp [RefSt.ev, hr, RefSt.use, h2, refAdd]
  rw [he]
  simp only [RefSt.att, h2, List.filter_append, List.map_append, List.append_eq_nil_iff] at h3 ⊢
  rw [h3.1]
  simp

/-- only blocks -/
def Seq.isLine : Seq → Bool
  | .nil => true
  | .cons (.block _) _ r => r.isLine
  | .cons _ _ _ => false

/-- the events of straight-line code, in order -/
def Seq.line : Seq → Nat → List V
  | .nil, _ => []
  | .cons (.block l) t r, k => Docc.IR.evs (k + 2) (l.flatMap Stmt.users) ++ Docc.IR.evs (k + (Node.block l).vn) (transUses t) ++
      r.line (k + (Node.block l).vn + (transUses t).length)
  | .cons _ _ _, _ => []

theorem Seq.refs_line {x : String} : ∀ (s : Seq) (k : Nat) (q : RefSt), s.isLine = true → s.refs x k q = RefSt.evs x (s.line k) q
  | .nil, _, _, _ => by simp [Seq.refs, Seq.line, RefSt.evs]
  | .cons (.block l) t r, k, q, h => by
    rw [Seq.refs, Seq.refs_line r _ _ (by simpa [Seq.isLine] using h), Node.refs, Seq.line]
    simp only [RefSt.evs_foldl, List.foldl_append]
  | .cons (.seq _) _ _, _, _, h => by simp [Seq.isLine] at h
  | .cons (.ifElse _) _ _, _, _, h => by simp [Seq.isLine] at h
  | .cons (.whileL _) _ _, _, _, h => by simp [Seq.isLine] at h
  | .cons (.loop _ _ _ _ _ _) _ _, _, _, h => by simp [Seq.isLine] at h
  | .cons .brk _ _, _, _, h => by simp [Seq.isLine] at h
  | .cons .cont _ _, _, _, h => by simp [Seq.isLine] at h
  | .cons (.ret _ _) _ _, _, _, h => by simp [Seq.isLine] at h

/-- **C91** (analysis, partial): in straight-line code ReferenceAnalysis answers, for a read of a pointer, exactly the last move before it.  Missing: control flow, where
the answer also depends on dominance (and is wrong with Break and Return, `reference_analysis_violated`). -/
theorem reference_line_partial {s : Seq} {x : String} {a b c : List V} {w : V} {j : Nat} (hs : s.isLine = true)
    (hl : s.line 2 = a ++ w :: b ++ .ev j (.read, x) :: c) (hw : w.wr x = true) (hb : ∀ v ∈ b, v.wr x = false)
    (hd : V.ev j (.read, x) ∉ a ++ w :: b ++ c) : s.definedBy x (.ev j (.read, x)) = [w] := by
  have := RefSt.evs_last (q := .empty) hw hb hd rfl
  rw [← hl, ← s.refs_line 2 .empty hs] at this
  exact this

/-- `p = 1; p = 2; A = p` -/
def exLine : Seq := .cons (.block []) [("p", .int 1)] (.cons (.block []) [("p", .int 2)] (.one (.block [.tasklet "assign" [("M", [.sym "p"])] "A" []])))

/-- the hypotheses are met: the read of `p` is answered with the second assignment only -/
example : exLine.definedBy "p" (.ev 11 (.read, "p")) = [.ev 7 (.write, "p")] :=
  reference_line_partial (a := [.ev 4 (.write, "p")]) (b := [.ev 10 (.read, "M")]) (c := [.ev 12 (.write, "A")]) rfl rfl rfl (by decide) (by decide)

end Docc.IR

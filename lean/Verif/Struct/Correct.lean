import Verif.Struct.Props

namespace Docc.Struct
open Docc.Sym Docc.IR

theorem outE_map (M : Mach) (k : Nat) : (M.outE k).map (·.2) = (M.at k).out := by
  simp [Mach.outE, List.map_map, Function.comp_def]

theorem outE_length (M : Mach) (k : Nat) : (M.outE k).length = (M.at k).out.length := by
  simp [Mach.outE]

theorem mem_out {M : Mach} {k : Nat} {x : EdgeId × MEdge} (h : x ∈ M.outE k) : x.2 ∈ (M.at k).out := by
  rw [← outE_map]; exact List.mem_map_of_mem h

theorem out_mem {M : Mach} {k : Nat} {e : MEdge} (h : e ∈ (M.at k).out) : ∃ x ∈ M.outE k, x.2 = e := by
  rw [← outE_map] at h; simpa using h

theorem out_nil {M : Mach} {k : Nat} (h : M.outE k = []) : (M.at k).out = [] := by rw [← outE_map, h]; rfl
theorem out_one {M : Mach} {k : Nat} {e : EdgeId × MEdge} (h : M.outE k = [e]) : (M.at k).out = [e.2] := by rw [← outE_map, h]; rfl

theorem regB_allFalse {E : Env} {M : Mach} {T : Trees} {σ : St} : ∀ {m brks L es bs ev}, RegB M T m brks L es bs ev → AllFalse E σ bs →
    ∀ e ∈ es, σ.cond E e.2.cond = false
  | _, _, _, _, _, _, .nil, _, e, he => by simp at he
  | _, _, _, _, _, _, .cont _ hr, h, e, he => by
    rw [AllFalse] at h
    rcases List.mem_cons.mp he with rfl | he
    · exact h.1
    · exact regB_allFalse hr h.2 e he
  | _, _, _, _, _, _, .brk _ _ hr, h, e, he => by
    rw [AllFalse] at h
    rcases List.mem_cons.mp he with rfl | he
    · exact h.1
    · exact regB_allFalse hr h.2 e he
  | _, _, _, _, _, _, .sub _ _ _ hr, h, e, he => by
    rw [AllFalse] at h
    rcases List.mem_cons.mp he with rfl | he
    · exact h.1
    · exact regB_allFalse hr h.2 e he

mutual
theorem reg_complete {E : Env} {M : Mach} {T : Trees} (hD : M.Deterministic E) : ∀ {exit brks L cur s ev},
    Reg M T exit brks L cur s ev → CompleteS E s
  | _, _, _, _, _, _, .stop => by rw [CompleteS]; trivial
  | _, _, _, _, _, _, .loop _ _ _ _ h1 h2 => by
    rw [CompleteS, Complete]; exact ⟨reg_complete hD h1, reg_complete hD h2⟩
  | _, _, _, _, _, _, .sink _ _ _ _ => blockOf_complete _ _ _ _ (by rw [CompleteS, Complete, CompleteS]; exact ⟨trivial, trivial⟩)
  | _, _, _, _, _, _, .cont _ _ _ _ _ => blockOf_complete _ _ _ _ (by rw [CompleteS, Complete, CompleteS]; exact ⟨trivial, trivial⟩)
  | _, _, _, _, _, _, .brk _ _ _ _ _ _ => blockOf_complete _ _ _ _ (by rw [CompleteS, Complete, CompleteS]; exact ⟨trivial, trivial⟩)
  | _, _, _, _, _, _, .next _ _ _ _ _ _ h => blockOf_complete _ _ _ _ (reg_complete hD h)
  | _, _, _, some c, _, _, .branch _ _ hl hb h => by
    refine blockOf_complete _ _ _ _ ?_
    rw [CompleteS, Complete]
    refine ⟨⟨regB_complete hD hb, fun σ hf => ?_⟩, reg_complete hD h⟩
    obtain ⟨e, he, ht⟩ := hD.total c σ (by rw [← outE_length]; exact hl)
    obtain ⟨x, hx, rfl⟩ := out_mem he
    rw [regB_allFalse hb hf x hx] at ht
    cases ht
theorem regB_complete {E : Env} {M : Mach} {T : Trees} (hD : M.Deterministic E) : ∀ {m brks L es bs ev},
    RegB M T m brks L es bs ev → CompleteB E bs
  | _, _, _, _, _, _, .nil => by rw [CompleteB]; trivial
  | _, _, _, _, _, _, .cont _ h => by
    rw [CompleteB]
    exact ⟨blockOf_complete _ _ _ _ (by rw [CompleteS, Complete, CompleteS]; exact ⟨trivial, trivial⟩), regB_complete hD h⟩
  | _, _, _, _, _, _, .brk _ _ h => by
    rw [CompleteB]
    exact ⟨blockOf_complete _ _ _ _ (by rw [CompleteS, Complete, CompleteS]; exact ⟨trivial, trivial⟩), regB_complete hD h⟩
  | _, _, _, _, _, _, .sub _ _ h1 h => by
    rw [CompleteB]
    exact ⟨blockOf_complete _ _ _ _ (reg_complete hD h1), regB_complete hD h⟩
end

/-! ### code that is never left at its end -/

/-- The states `B` are left only by edges that become jumps, and inner loops end in `B`. -/
structure Inside (M : Mach) (T : Trees) (brks : List EdgeId) (L : Option LoopCtx) (B : Nat → Prop) : Prop where
  edge : ∀ k, B k → (isHeader M T k = false ∨ ∃ l, L = some l ∧ l.header = k) → ∀ e ∈ M.outE k, e.1 ∉ T.back → e.1 ∉ brks → B e.2.dst
  inner : ∀ c I, B c → isHeader M T c = true → (∀ l, L = some l → c ≠ l.header) → loopAt M T c = some I →
    (∀ l, L = some l → I.exit ∈ l.body) → B I.exit

mutual
theorem reg_falls {M : Mach} {T : Trees} : ∀ {exit brks L cur s ev}, Reg M T exit brks L cur s ev → (∀ x ∈ ev, x.Ok) →
    ∀ (B : Nat → Prop), Inside M T brks L B → ∀ c, cur = some c → B c → (∀ x, exit = some x → ¬ B x) → Seq.falls s = false
  | _, _, _, _, _, _, .stop, _, B, _, c, hc, hB, hx => absurd hB (hx c hc)
  | _, brks, L, _, _, _, .loop (I := I) (er := er) (eb := eb) _ hh hne hI h1 h2, ho, B, hi, c, hc, hB, hx => by
    cases hc
    have hX : B I.exit := hi.inner _ I hB hh hne hI fun l hl => ho (.inner I.exit l) (by simp [hl])
    have := reg_falls h2 (fun x hx' => ho x (by simp [hx'])) B hi _ rfl hX hx
    simp [Seq.falls, this]
  | _, _, _, _, _, _, .sink _ _ _ _, _, B, _, c, _, _, _ => by rw [blockOf_falls]; rfl
  | _, _, _, _, _, _, .cont _ _ _ _ _, _, B, _, c, _, _, _ => by rw [blockOf_falls]; rfl
  | _, _, _, _, _, _, .brk _ _ _ _ _ _, _, B, _, c, _, _, _ => by rw [blockOf_falls]; rfl
  | _, _, _, _, _, _, .next (e := e) _ hn he _ hb hk h, ho, B, hi, c, hc, hB, hx => by
    cases hc
    rw [blockOf_falls]
    exact reg_falls h ho B hi _ rfl (hi.edge _ hB hn e (by rw [he]; simp) hb hk) hx
  | _, _, _, _, _, _, .branch (m := m) (bs := bs) _ hn _ hb h, ho, B, hi, c, hc, hB, hx => by
    cases hc
    rw [blockOf_falls]
    simp only [Seq.falls, Node.falls, Bool.and_eq_false_iff]
    by_cases hf : Brs.falls bs = true
    · right
      cases hm : m with
      | none =>
        exfalso
        rw [regB_falls hb (fun x hx' => ho x (by simp [hx'])) B hi (fun e he => hi.edge _ hB hn e he) (by intro x h'; rw [hm] at h'; cases h')] at hf
        cases hf
      | some p =>
        by_cases hp : B p
        · rw [hf] at ho
          exact reg_falls h (fun x hx' => ho x (by simp [hx'])) B hi p hm hp hx
        · exfalso
          rw [regB_falls hb (fun x hx' => ho x (by simp [hx'])) B hi (fun e he => hi.edge _ hB hn e he)
            (by intro x h'; rw [hm] at h'; cases h'; exact hp)] at hf
          cases hf
    · left; simpa using hf
theorem regB_falls {M : Mach} {T : Trees} : ∀ {m brks L es bs ev}, RegB M T m brks L es bs ev → (∀ x ∈ ev, x.Ok) →
    ∀ (B : Nat → Prop), Inside M T brks L B → (∀ e ∈ es, e.1 ∉ T.back → e.1 ∉ brks → B e.2.dst) → (∀ x, m = some x → ¬ B x) →
    Brs.falls bs = false
  | _, _, _, _, _, _, .nil, _, B, _, _, _ => rfl
  | _, _, _, _, _, _, .cont _ h, ho, B, hi, he, hx => by
    simp only [Brs.falls, blockOf_falls, Seq.falls, Node.falls, Bool.false_and, Bool.false_or]
    exact regB_falls h (fun x hx' => ho x (by simp [hx'])) B hi (fun e h' => he e (by simp [h'])) hx
  | _, _, _, _, _, _, .brk _ _ h, ho, B, hi, he, hx => by
    simp only [Brs.falls, blockOf_falls, Seq.falls, Node.falls, Bool.false_and, Bool.false_or]
    exact regB_falls h (fun x hx' => ho x (by simp [hx'])) B hi (fun e h' => he e (by simp [h'])) hx
  | _, _, _, _, _, _, .sub (e := e) hb hk h1 h, ho, B, hi, he, hx => by
    simp only [Brs.falls, blockOf_falls, Bool.or_eq_false_iff]
    exact ⟨reg_falls h1 (fun x hx' => ho x (by simp [hx'])) B hi _ rfl (he e (by simp) hb hk) hx,
      regB_falls h (fun x hx' => ho x (by simp [hx'])) B hi (fun e h' => he e (by simp [h'])) hx⟩
end

end Docc.Struct

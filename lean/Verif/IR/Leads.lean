import Verif.IR.Untouched
import Verif.IR.UGraphPostProps
import Verif.IR.SymPropProps

/-
In the graph of the users analysis every use leads to the end of the function (or is the use of a return), lemmas for the
allocation pass.
-/
namespace Docc.IR
open Docc.Sym

/-- `IfElse::is_complete` holds only for an if-else with cases -/
def NonEmpty (C : Brs → Bool) : Prop := ∀ b, C b = true → b ≠ .nil

theorem CompleteSound.nonEmpty {E : Env} {C : Brs → Bool} (h : CompleteSound E C) : NonEmpty C := by
  rintro b hb rfl
  obtain ⟨c, hc, _⟩ := h _ hb fun _ _ => 0
  simp [Brs.conds] at hc

/-- a path over any vertices -/
abbrev Leads (G : List (V × V)) : V → V → Prop := Reach G fun _ => True

theorem leads_chain {G : List (V × V)} (us : List V) (a : V) (h : ∀ e ∈ chainE a us, e ∈ G) : Leads G a (chainEnd a us) :=
  chain_all us a h trivial fun _ _ => trivial

theorem leads_end {G : List (V × V)} (us : List V) (a : V) (h : ∀ e ∈ chainE a us, e ∈ G) {v : V} (hv : v ∈ us) : Leads G v (chainEnd a us) :=
  chain_end us a h (fun _ _ => trivial) v hv

theorem chainEnd_append : ∀ (us vs : List V) (a : V), chainEnd a (us ++ vs) = chainEnd (chainEnd a us) vs
  | [], _, _ => rfl
  | v :: r, vs, a => by simp only [List.cons_append, chainEnd]; exact chainEnd_append r vs v

theorem Leads.edge {G : List (V × V)} {a b : V} (h : (a, b) ∈ G) : Leads G a b := .one trivial h

/-- a loop: from the first vertex, and from every use outside the body, to the last vertex; from the end of the body to it -/
theorem Node.loop_through {C : Brs → Bool} (m : Bool) (i : String) (a : Expr) (c : Cond) (u : Expr) (s : Seq) (k : Nat)
    (G : List (V × V)) (hG : ∀ e ∈ (Node.loop m i a c u s).ge C k, e ∈ G)
    (hs : ∀ cur t k, (∀ e ∈ s.ge C cur t k, e ∈ G) → Leads G cur t) :
    Leads G (.nop k) (.nop (k + 1)) ∧
    (∀ v ∈ evs (k + 2) (initUses i a), Leads G v (.nop (k + 1))) ∧
    (∀ v ∈ evs (k + 2 + (initUses i a).length) (condUses c), Leads G v (.nop (k + 1))) ∧
    (∀ v ∈ evs (k + 2 + (initUses i a).length + (condUses c).length + 2 + s.kn) (updUses i u), Leads G v (.nop (k + 1))) ∧
    Leads G (.nop (k + 2 + (initUses i a).length + (condUses c).length + 1)) (.nop (k + 1)) := by
  rw [Node.ge] at hG
  simp only [evs_length, List.mem_append, List.mem_cons, List.mem_map, List.not_mem_nil, or_false] at hG
  have h1 := leads_chain (G := G) (evs (k + 2) (initUses i a)) (.nop k) fun e he => hG e (Or.inl (Or.inl (Or.inl he)))
  have h2 := leads_chain (G := G) (evs (k + 2 + (initUses i a).length) (condUses c)) _ fun e he => hG e (Or.inl (Or.inl (Or.inr he)))
  have h3 := Leads.edge (hG _ (Or.inr (Or.inl rfl)))
  have h4 := hs _ _ _ fun e he => hG e (Or.inr (Or.inr (Or.inl (Or.inl he))))
  have h5 : ∀ e ∈ chainE (.nop (k + 2 + (initUses i a).length + (condUses c).length + 1))
      (evs (k + 2 + (initUses i a).length + (condUses c).length + 2 + s.kn) (updUses i u) ++ [.nop (k + 1)]), e ∈ G :=
    fun e he => hG e (Or.inr (Or.inr (Or.inl (Or.inr he))))
  have h6 := leads_chain (G := G) _ _ h5
  rw [chainEnd_append] at h6
  have h7 := h2.trans (h3.trans (h4.trans h6))
  refine ⟨h1.trans h7, fun v hv => (leads_end (G := G) _ _ (fun e he => hG e (Or.inl (Or.inl (Or.inl he)))) hv).trans h7, fun v hv => ?_, fun v hv => ?_, h6⟩
  · exact Leads.edge (hG (v, .nop (k + 1)) (Or.inl (Or.inr ⟨v, hv, rfl⟩)))
  · have := leads_end (G := G) _ _ h5 (List.mem_append_left _ hv)
    rwa [chainEnd_append] at this

mutual
/-- from the first to the last vertex of a node -/
theorem Node.through {C : Brs → Bool} (hC : NonEmpty C) : (n : Node) → n.isRet = false → ∀ k G, (∀ e ∈ n.ge C k, e ∈ G) →
    Leads G (n.first k) (n.exit k)
  | .block l, _, k, G, hG => by
    rw [Node.ge] at hG
    have := leads_chain _ _ hG
    rwa [chainEnd_append] at this
  | .seq s, _, k, G, hG => by rw [Node.ge] at hG; exact s.through hC _ _ _ G hG
  | .ifElse b, _, k, G, hG => by
    rw [Node.ge] at hG
    simp only [List.mem_append] at hG
    have h1 := leads_chain _ _ fun e he => hG e (Or.inl (Or.inl he))
    by_cases hc : C b = true
    · exact h1.trans (b.through hC (hC b hc) _ _ _ G fun e he => hG e (Or.inl (Or.inr he)))
    · exact h1.trans (Leads.edge (hG (chainEnd (.nop k) (evs (k + 2) (readsOnce b.condAtoms)), .nop (k + 1)) (Or.inr (by simp [hc]))))
  | .whileL s, _, k, G, hG => by
    rw [Node.ge] at hG
    exact Leads.edge (hG (.nop k, .nop (k + 1)) (by simp))
  | .loop m i a c u s, _, k, G, hG => by
    obtain ⟨h1, h2⟩ := Node.loop_through m i a c u s k G hG fun _ _ _ h => s.through hC _ _ _ G h
    exact h1
  | .brk, _, k, G, _ => .refl
  | .cont, _, k, G, _ => .refl
  | .ret _ _, h, _, _, _ => by simp [Node.isRet] at h
theorem Seq.through {C : Brs → Bool} (hC : NonEmpty C) : (s : Seq) → ∀ cur t k G, (∀ e ∈ s.ge C cur t k, e ∈ G) → Leads G cur t
  | .nil, cur, t, k, G, hG => by rw [Seq.ge] at hG; exact Leads.edge (hG _ (by simp))
  | .cons n tr r, cur, t, k, G, hG => by
    rw [Seq.ge] at hG
    split at hG
    · exact Leads.edge (hG (cur, t) (by simp))
    · rename_i hn
      simp only [List.mem_cons, List.mem_append] at hG
      have hn' : n.isRet = false := by simpa using hn
      exact (Leads.edge (hG _ (Or.inl rfl))).trans ((n.through hC hn' k G fun e he => hG e (Or.inr (Or.inl (Or.inl he)))).trans
        ((leads_chain _ _ fun e he => hG e (Or.inr (Or.inl (Or.inr he)))).trans
          (r.through hC _ _ _ G fun e he => hG e (Or.inr (Or.inr he)))))
theorem Brs.through {C : Brs → Bool} (hC : NonEmpty C) : (b : Brs) → b ≠ .nil → ∀ last t k G, (∀ e ∈ b.ge C last t k, e ∈ G) → Leads G last t
  | .nil, h, _, _, _, _, _ => absurd rfl h
  | .cons c s r, _, last, t, k, G, hG => by
    rw [Brs.ge] at hG
    simp only [List.mem_cons, List.mem_append] at hG
    exact (Leads.edge (hG _ (Or.inl rfl))).trans ((s.through hC _ _ _ G fun e he => hG e (Or.inr (Or.inl he))).trans
      (Leads.edge (hG (.nop (k + 1), t) (Or.inr (Or.inr (Or.inl rfl))))))
end

mutual
/-- every use of a node leads to its last vertex -/
theorem Node.leads {C : Brs → Bool} (hC : NonEmpty C) : (n : Node) → ∀ k G, (∀ e ∈ n.ge C k, e ∈ G) → ∀ v ∈ n.useV k, Leads G v (n.exit k)
  | .block l, k, G, hG, v, hv => by
    rw [Node.ge] at hG; rw [Node.useV] at hv
    have := leads_end _ _ hG (List.mem_append_left _ hv)
    rwa [chainEnd_append] at this
  | .seq s, k, G, hG, v, hv => by rw [Node.ge] at hG; rw [Node.useV] at hv; exact s.leads hC _ _ _ G hG v hv
  | .ifElse b, k, G, hG, v, hv => by
    rw [Node.ge] at hG; rw [Node.useV] at hv
    simp only [List.mem_append, evs_length] at hG hv
    rcases hv with hv | hv
    · refine (leads_end _ _ (fun e he => hG e (Or.inl (Or.inl he))) hv).trans ?_
      by_cases hc : C b = true
      · exact b.through hC (hC b hc) _ _ _ G fun e he => hG e (Or.inl (Or.inr he))
      · exact Leads.edge (hG (chainEnd (.nop k) (evs (k + 2) (readsOnce b.condAtoms)), .nop (k + 1)) (Or.inr (by simp [hc])))
    · exact b.leads hC _ _ _ G (fun e he => hG e (Or.inl (Or.inr he))) v hv
  | .whileL s, k, G, hG, v, hv => by
    rw [Node.ge] at hG; rw [Node.useV] at hv
    simp only [List.mem_cons, List.mem_append] at hG
    exact (s.leads hC _ _ _ G (fun e he => hG e (Or.inr (Or.inl he))) v hv).trans
      (Leads.edge (hG (.nop (k + 3), .nop (k + 1)) (Or.inr (Or.inr (Or.inl rfl)))))
  | .loop m i a c u s, k, G, hG, v, hv => by
    obtain ⟨_, h2, h3, h4, h5⟩ := Node.loop_through m i a c u s k G hG fun _ _ _ h => s.through hC _ _ _ G h
    rw [Node.useV] at hv
    simp only [List.mem_append] at hv
    rcases hv with ((hv | hv) | hv) | hv
    · exact h2 v hv
    · exact h3 v hv
    · refine (s.leads hC (.nop (k + 2 + (initUses i a).length + (condUses c).length)) _ _ G (fun e he => hG e ?_) v hv).trans h5
      · rw [Node.ge]; simp only [evs_length, List.mem_append, List.mem_cons]; exact Or.inr (Or.inr (Or.inl (Or.inl he)))
    · exact h4 v hv
  | .brk, _, _, _, v, hv => by simp [Node.useV] at hv
  | .cont, _, _, _, v, hv => by simp [Node.useV] at hv
  | .ret _ _, _, _, _, v, hv => by simp [Node.useV] at hv
/-- every use of a sequence leads to its last vertex -/
theorem Seq.leads {C : Brs → Bool} (hC : NonEmpty C) : (s : Seq) → ∀ cur t k G, (∀ e ∈ s.ge C cur t k, e ∈ G) → ∀ v ∈ s.useV k, Leads G v t
  | .nil, _, _, _, _, _, v, hv => by simp [Seq.useV] at hv
  | .cons n tr r, cur, t, k, G, hG, v, hv => by
    rw [Seq.ge] at hG; rw [Seq.useV] at hv
    split at hv
    · cases hv
    · rename_i hn
      simp only [hn, Bool.false_eq_true, if_false, List.mem_cons, List.mem_append, evs_length] at hG hv
      have hr := r.through hC _ _ _ G fun e he => hG e (Or.inr (Or.inr he))
      have hc := fun e he => hG e (Or.inr (Or.inl (Or.inr he)))
      rcases hv with (hv | hv) | hv
      · exact (n.leads hC k G (fun e he => hG e (Or.inr (Or.inl (Or.inl he)))) v hv).trans ((leads_chain _ _ hc).trans hr)
      · exact (leads_end _ _ hc hv).trans hr
      · exact r.leads hC _ _ _ G (fun e he => hG e (Or.inr (Or.inr he))) v hv
theorem Brs.leads {C : Brs → Bool} (hC : NonEmpty C) : (b : Brs) → ∀ last t k G, (∀ e ∈ b.ge C last t k, e ∈ G) → ∀ v ∈ b.useV k, Leads G v t
  | .nil, _, _, _, _, _, v, hv => by simp [Brs.useV] at hv
  | .cons c s r, last, t, k, G, hG, v, hv => by
    rw [Brs.ge] at hG; rw [Brs.useV] at hv
    simp only [List.mem_cons, List.mem_append] at hG hv
    rcases hv with hv | hv
    · exact (s.leads hC _ _ _ G (fun e he => hG e (Or.inr (Or.inl he))) v hv).trans (Leads.edge (hG (.nop (k + 1), t) (Or.inr (Or.inr (Or.inl rfl)))))
    · exact r.leads hC _ _ _ G (fun e he => hG e (Or.inr (Or.inr (Or.inr he)))) v hv
end

end Docc.IR

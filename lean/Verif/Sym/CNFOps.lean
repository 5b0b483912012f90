import Verif.Sym.CNFProps
/-! Clauses of the normal form are not empty, and their literals compare the operands of the condition. -/
namespace Docc.Sym

mutual
/-- the expressions a condition compares -/
def Cond.ops : Cond → List Expr
  | .tt => []
  | .ff => []
  | .atom _ => []
  | .eq a b => [a, b]
  | .ne a b => [a, b]
  | .le a b => [a, b]
  | .lt a b => [a, b]
  | .eqB a b => Cond.ops a ++ Cond.ops b
  | .neB a b => Cond.ops a ++ Cond.ops b
  | .not c => Cond.ops c
  | .and l => Cond.opsL l
  | .or l => Cond.opsL l
/-- the expressions an argument list compares -/
def Cond.opsL : List Cond → List Expr
  | [] => []
  | c :: r => Cond.ops c ++ Cond.opsL r
end

theorem Cond.mem_opsL (x : Expr) (l : List Cond) : x ∈ Cond.opsL l ↔ ∃ c ∈ l, x ∈ c.ops := by
  induction l with
  | nil => simp [Cond.opsL]
  | cons e r ih => simp [Cond.opsL, ih]

theorem Cond.mem_negL (x : Cond) (l : List Cond) : x ∈ Cond.negL l ↔ ∃ c ∈ l, x = c.neg := by
  induction l with
  | nil => simp [Cond.negL]
  | cons e r ih => simp [Cond.negL, ih]

theorem Cond.ops_neg (c : Cond) : ∀ e ∈ c.neg.ops, e ∈ c.ops := by
  induction c using Cond.induct with
  | htt | hff | hatom x => simp [Cond.neg, Cond.ops]
  | heq a b | hne a b | hle a b | hlt a b => simp [Cond.neg, Cond.ops]
  | heqB a b | hneB a b => simp [Cond.neg, Cond.ops]
  | hnot c ih => simp [Cond.neg, Cond.ops]
  | hand l ih | hor l ih =>
    intro e he
    simp only [Cond.neg, Cond.ops, Cond.mem_opsL, Cond.mem_negL] at he ⊢
    obtain ⟨_, ⟨c, hc, rfl⟩, he⟩ := he
    exact ⟨c, hc, ih c hc e he⟩

theorem cnf_ops_aux (Q : Expr → Prop) (n : Nat) :
    ∀ c f, c.size < n → cnf c = some f → (∀ e ∈ c.ops, Q e) → ∀ cl ∈ f, cl ≠ [] ∧ ∀ l ∈ cl, ∀ e ∈ l.ops, Q e := by
  induction n with
  | zero => intro c f h; omega
  | succ n ih =>
    have ihn : ∀ (c : Cond) f, c.neg.size < n → cnf c.neg = some f → (∀ e ∈ c.ops, Q e) →
        ∀ cl ∈ f, cl ≠ [] ∧ ∀ l ∈ cl, ∀ e ∈ l.ops, Q e :=
      fun c f h1 h2 h3 => ih c.neg f h1 h2 fun e he => h3 e (Cond.ops_neg c e he)
    have hl : ∀ l fs, Cond.sizeL l ≤ n → cnfL l = some fs → (∀ e ∈ Cond.opsL l, Q e) →
        ∀ f ∈ fs, ∀ cl ∈ f, cl ≠ [] ∧ ∀ l ∈ cl, ∀ e ∈ l.ops, Q e := by
      intro l
      induction l with
      | nil => intro fs _ h; simp only [cnfL, Option.some.injEq] at h; subst h; simp
      | cons c r ihr =>
        intro fs hs h hq
        simp only [Cond.sizeL] at hs
        simp only [Cond.opsL, List.mem_append] at hq
        rw [cnfL] at h
        split at h
        · rename_i a b ha hb
          simp only [Option.some.injEq] at h; subst h
          intro f hf
          rcases List.mem_cons.mp hf with rfl | hf
          · exact ih c _ (by omega) ha fun e he => hq e (Or.inl he)
          · exact ihr b (by omega) hb (fun e he => hq e (Or.inr he)) f hf
        · cases h
    have leaf : ∀ c : Cond, (∀ e ∈ c.ops, Q e) → ∀ cl ∈ ([[c]] : CNF), cl ≠ [] ∧ ∀ l ∈ cl, ∀ e ∈ l.ops, Q e := by
      intro c hc cl hcl
      simp only [List.mem_singleton] at hcl; subst hcl
      refine ⟨by simp, fun l hl => ?_⟩
      simp only [List.mem_singleton] at hl; subst hl; exact hc
    intro c f hs h hq
    rw [cnf.eq_def] at h
    split at h
    · rename_i a b
      have na := Cond.size_neg a; have nb := Cond.size_neg b
      simp only [Cond.size] at hs
      have hqa : ∀ e ∈ a.ops, Q e := fun e he => hq e (by simp [Cond.ops, he])
      have hqb : ∀ e ∈ b.ops, Q e := fun e he => hq e (by simp [Cond.ops, he])
      repeat' split at h
      · cases h; exact leaf _ hq
      · exact ih b f (by omega) h hqb
      · exact ih a f (by omega) h hqa
      · exact ihn _ f (by omega) h hqb
      · exact ihn _ f (by omega) h hqa
      · cases h; exact leaf _ hq
    · rename_i a b
      have na := Cond.size_neg a; have nb := Cond.size_neg b
      simp only [Cond.size] at hs
      have hqa : ∀ e ∈ a.ops, Q e := fun e he => hq e (by simp [Cond.ops, he])
      have hqb : ∀ e ∈ b.ops, Q e := fun e he => hq e (by simp [Cond.ops, he])
      repeat' split at h
      · cases h; exact leaf _ hq
      · exact ihn _ f (by omega) h hqb
      · exact ihn _ f (by omega) h hqa
      · exact ih _ f (by omega) h hqb
      · exact ih _ f (by omega) h hqa
      · cases h; exact leaf _ hq
    · rename_i c
      have : c.size < n := by
        have := Cond.size_pos c
        cases c <;> simp [Cond.size, Cond.isAtom] at hs ⊢ <;> omega
      exact ih c f this h (by simpa [Cond.ops] using hq)
    · rename_i a b
      have na := Cond.size_neg a; have nb := Cond.size_neg b
      have : (Cond.or [a.neg, b.neg]).size < n := by
        simp [Cond.size, Cond.sizeL, Cond.isAtom] at hs ⊢; omega
      refine ih _ f this h fun e he => hq e ?_
      have h1 := Cond.ops_neg a e; have h2 := Cond.ops_neg b e
      simp only [Cond.ops, Cond.opsL, List.append_nil, List.mem_append] at he ⊢
      exact he.imp h1 h2
    · rename_i a b
      have na := Cond.size_neg a; have nb := Cond.size_neg b
      have : (Cond.and [a.neg, b.neg]).size < n := by
        simp [Cond.size, Cond.sizeL, Cond.isAtom] at hs ⊢; omega
      refine ih _ f this h fun e he => hq e ?_
      have h1 := Cond.ops_neg a e; have h2 := Cond.ops_neg b e
      simp only [Cond.ops, Cond.opsL, List.append_nil, List.mem_append] at he ⊢
      exact he.imp h1 h2
    · cases h; exact leaf _ (by simpa [Cond.ops] using hq)
    · cases h; exact leaf _ (by simpa [Cond.ops] using hq)
    · exact ih _ f (by simp [Cond.size, Cond.isAtom] at hs ⊢; omega) h (by simpa [Cond.ops] using hq)
    · exact ih _ f (by simp [Cond.size, Cond.isAtom] at hs ⊢; omega) h (by simpa [Cond.ops] using hq)
    · cases h; refine leaf _ ?_; simp [Cond.ops] at hq ⊢; exact hq.symm
    · cases h; refine leaf _ ?_; simp [Cond.ops] at hq ⊢; exact hq.symm
    · cases h
    · rename_i l
      simp only [Cond.size] at hs
      split at h
      · rename_i fs hfs
        cases h
        intro cl hcl
        obtain ⟨g, hg, hclg⟩ := List.mem_flatten.mp hcl
        exact hl l fs (by omega) hfs (by simpa [Cond.ops] using hq) g hg cl hclg
      · cases h
    · rename_i l
      simp only [Cond.size] at hs
      split at h
      · rename_i f' fs hfs
        cases h
        have hall := hl l _ (by omega) hfs (by simpa [Cond.ops] using hq)
        have gen : ∀ (fs : List CNF) (g : CNF), (∀ cl ∈ g, cl ≠ [] ∧ ∀ l ∈ cl, ∀ e ∈ l.ops, Q e) →
            (∀ f ∈ fs, ∀ cl ∈ f, cl ≠ [] ∧ ∀ l ∈ cl, ∀ e ∈ l.ops, Q e) →
            ∀ cl ∈ fs.foldl distributeOr g, cl ≠ [] ∧ ∀ l ∈ cl, ∀ e ∈ l.ops, Q e := by
          intro fs
          induction fs with
          | nil => intro g hg _; exact hg
          | cons a r ihr =>
            intro g hg ha
            rw [List.foldl_cons]
            refine ihr _ ?_ (fun f hf => ha f (List.mem_cons_of_mem _ hf))
            intro cl hcl
            simp only [distributeOr, List.mem_flatMap, List.mem_map] at hcl
            obtain ⟨c, hc, d, hd, rfl⟩ := hcl
            refine ⟨by simp [(hg c hc).1], fun l hl => ?_⟩
            rcases List.mem_append.mp hl with h | h
            · exact (hg c hc).2 l h
            · exact (ha a (by simp) d hd).2 l h
        exact gen fs f' (hall f' (by simp)) (fun f hf => hall f (List.mem_cons_of_mem _ hf))
      · cases h
    · cases h; exact leaf _ hq

theorem cnf_ops (Q : Expr → Prop) (c : Cond) (f : CNF) (h : cnf c = some f) (hq : ∀ e ∈ c.ops, Q e) :
    ∀ cl ∈ f, cl ≠ [] ∧ ∀ l ∈ cl, ∀ e ∈ l.ops, Q e :=
  cnf_ops_aux Q (c.size + 1) c f (Nat.lt_succ_self _) h hq

end Docc.Sym

import Verif.Sym.Cond
/-! Property theorem C01: the conjunctive normal form has the truth value of the condition. -/
namespace Docc.Sym

theorem neg_eval (v : Leaf) (c : Cond) : c.neg.eval v = !c.eval v := by
  induction c using Cond.induct with
  | htt | hff => rfl
  | hatom x => rfl
  | heq a b => rfl
  | hne a b => simp [Cond.neg, Cond.eval]
  | hle a b => simp only [Cond.neg, Cond.eval, ← decide_not]; congr 1; simp
  | hlt a b => simp only [Cond.neg, Cond.eval, ← decide_not]; congr 1; simp
  | heqB a b => rfl
  | hneB a b => simp [Cond.neg, Cond.eval]
  | hnot c ih => simp [Cond.neg, Cond.eval]
  | hand l ih =>
    simp only [Cond.neg, Cond.eval]
    induction l with
    | nil => rfl
    | cons a r ihr =>
      simp only [Cond.negL, Cond.evalAll, Cond.evalAny, Bool.not_and]
      rw [ih a (by simp), ihr (fun c hc => ih c (List.mem_cons_of_mem _ hc))]
  | hor l ih =>
    simp only [Cond.neg, Cond.eval]
    induction l with
    | nil => rfl
    | cons a r ihr =>
      simp only [Cond.negL, Cond.evalAll, Cond.evalAny, Bool.not_or]
      rw [ih a (by simp), ihr (fun c hc => ih c (List.mem_cons_of_mem _ hc))]

theorem distributeOr_eval (v : Leaf) (C D : CNF) :
    (distributeOr C D).eval v = (C.eval v || D.eval v) := by
  induction C with
  | nil => simp [distributeOr, CNF.eval]
  | cons c r ih =>
    simp only [distributeOr, List.flatMap_cons, CNF.eval, List.all_append, List.all_cons] at ih ⊢
    rw [ih]
    have : (D.map (fun d => c ++ d)).all (fun cl => cl.any (fun c => c.eval v)) =
        (c.any (fun c => c.eval v) || D.all (fun cl => cl.any (fun c => c.eval v))) := by
      clear ih
      induction D with
      | nil => simp
      | cons d D ihD =>
        simp only [List.map_cons, List.all_cons, List.any_append]
        rw [ihD]
        cases c.any (fun c => c.eval v) <;> simp
    rw [this]
    cases c.any (fun c => c.eval v) <;> cases D.all (fun cl => cl.any (fun c => c.eval v)) <;> simp

theorem leaf_eval (v : Leaf) (c : Cond) : CNF.eval v [[c]] = c.eval v := by simp [CNF.eval]

theorem flatten_eval (v : Leaf) (fs : List CNF) : CNF.eval v fs.flatten = fs.all (fun f => f.eval v) := by
  induction fs with
  | nil => rfl
  | cons f r ih => simp only [CNF.eval, List.flatten_cons, List.all_append, List.all_cons] at ih ⊢; rw [ih]

theorem foldl_distribute_eval (v : Leaf) (fs : List CNF) (f : CNF) :
    (fs.foldl distributeOr f).eval v = (f.eval v || fs.any (fun f => f.eval v)) := by
  induction fs generalizing f with
  | nil => simp
  | cons g r ih => rw [List.foldl_cons, ih, distributeOr_eval, List.any_cons, Bool.or_assoc]

theorem mem_size (l : List Cond) (c : Cond) (h : c ∈ l) : c.size < Cond.sizeL l := by
  induction l with
  | nil => cases h
  | cons a r ih =>
    simp only [Cond.sizeL]
    rcases List.mem_cons.mp h with rfl | h
    · omega
    · have := ih h; omega

theorem isTT_eq {c : Cond} (h : c.isTT = true) : c = .tt := by cases c <;> simp [Cond.isTT] at h ⊢
theorem isFF_eq {c : Cond} (h : c.isFF = true) : c = .ff := by cases c <;> simp [Cond.isFF] at h ⊢

theorem cnf_sound_aux (v : Leaf) (n : Nat) :
    ∀ c f, c.size < n → cnf c = some f → f.eval v = c.eval v := by
  induction n with
  | zero => intro c f h; omega
  | succ n ih =>
    have hl : ∀ l fs, Cond.sizeL l ≤ n → cnfL l = some fs →
        fs.all (fun f => f.eval v) = Cond.evalAll v l ∧ fs.any (fun f => f.eval v) = Cond.evalAny v l := by
      intro l
      induction l with
      | nil => intro fs _ h; simp only [cnfL, Option.some.injEq] at h; subst h; exact ⟨rfl, rfl⟩
      | cons c r ihr =>
        intro fs hs h
        simp only [Cond.sizeL] at hs
        rw [cnfL] at h
        split at h
        · rename_i a b ha hb
          simp only [Option.some.injEq] at h; subst h
          have h1 := ih c a (by omega) ha
          have h2 := ihr b (by omega) hb
          simp only [List.all_cons, List.any_cons, Cond.evalAll, Cond.evalAny, h1, h2.1, h2.2, and_self]
        · cases h
    intro c f hs h
    rw [cnf.eq_def] at h
    split at h
    · -- eqB
      rename_i a b
      have na := Cond.size_neg a; have nb := Cond.size_neg b
      simp only [Cond.size] at hs
      simp only [Cond.eval]
      split at h
      · cases h; exact leaf_eval v _
      · split at h
        · rename_i ht; rw [isTT_eq ht, ih b f (by omega) h]; simp [Cond.eval]
        · split at h
          · rename_i ht; rw [isTT_eq ht, ih a f (by omega) h]; simp [Cond.eval]
          · split at h
            · rename_i ht; rw [isFF_eq ht, ih _ f (by omega) h, neg_eval]; simp [Cond.eval]
            · split at h
              · rename_i ht; rw [isFF_eq ht, ih _ f (by omega) h, neg_eval]; simp [Cond.eval]
              · cases h; exact leaf_eval v _
    · -- neB
      rename_i a b
      have na := Cond.size_neg a; have nb := Cond.size_neg b
      simp only [Cond.size] at hs
      simp only [Cond.eval]
      split at h
      · cases h; exact leaf_eval v _
      · split at h
        · rename_i ht; rw [isTT_eq ht, ih _ f (by omega) h, neg_eval]; simp [Cond.eval]
        · split at h
          · rename_i ht; rw [isTT_eq ht, ih _ f (by omega) h, neg_eval]; simp [Cond.eval]
          · split at h
            · rename_i ht; rw [isFF_eq ht, ih _ f (by omega) h]; simp [Cond.eval]
            · split at h
              · rename_i ht; rw [isFF_eq ht, ih _ f (by omega) h]; simp [Cond.eval]
              · cases h; exact leaf_eval v _
    · -- not not
      rename_i c
      have : c.size < n := by
        have := Cond.size_pos c
        cases c <;> simp [Cond.size, Cond.isAtom] at hs ⊢ <;> omega
      rw [ih c f this h]; simp [Cond.eval]
    · -- not and
      rename_i a b
      have na := Cond.size_neg a; have nb := Cond.size_neg b
      have : (Cond.or [a.neg, b.neg]).size < n := by
        simp [Cond.size, Cond.sizeL, Cond.isAtom] at hs ⊢; omega
      rw [ih _ f this h]; simp [Cond.eval, Cond.evalAny, Cond.evalAll, neg_eval]
    · -- not or
      rename_i a b
      have na := Cond.size_neg a; have nb := Cond.size_neg b
      have : (Cond.and [a.neg, b.neg]).size < n := by
        simp [Cond.size, Cond.sizeL, Cond.isAtom] at hs ⊢; omega
      rw [ih _ f this h]; simp [Cond.eval, Cond.evalAny, Cond.evalAll, neg_eval]
    · cases h; simp [leaf_eval, Cond.eval]
    · cases h; simp [leaf_eval, Cond.eval]
    · rename_i a b
      rw [ih _ f (by simp [Cond.size, Cond.isAtom] at hs ⊢; omega) h]; simp [Cond.eval]
    · rename_i a b
      rw [ih _ f (by simp [Cond.size, Cond.isAtom] at hs ⊢; omega) h]; simp [Cond.eval]
    · cases h; simp only [leaf_eval, Cond.eval, ← decide_not]; congr 1; simp
    · cases h; simp only [leaf_eval, Cond.eval, ← decide_not]; congr 1; simp
    · cases h
    · -- and
      rename_i l
      simp only [Cond.size] at hs
      split at h
      · rename_i fs hfs
        cases h
        rw [flatten_eval, (hl l fs (by omega) hfs).1]; rfl
      · cases h
    · -- or
      rename_i l
      simp only [Cond.size] at hs
      split at h
      · rename_i f' fs hfs
        cases h
        rw [foldl_distribute_eval, ← List.any_cons (f := fun f => CNF.eval v f), (hl l _ (by omega) hfs).2]; rfl
      · cases h
    · cases h; exact leaf_eval v _

/-- C01.  If `conjunctive_normal_form(c)` returns clauses (does not throw), then for every interpretation of the
leaves the conjunction of the disjunctions is true exactly when `c` is. -/
theorem cnf_sound (c : Cond) (f : CNF) (h : cnf c = some f) (v : Leaf) : f.eval v = c.eval v :=
  cnf_sound_aux v (c.size + 1) c f (Nat.lt_succ_self _) h

/-- Non-vacuity: `!(i < N && j != 0) || k <= i` has a normal form (two clauses here). -/
example : cnf (.or [.not (.and [.lt (.sym "i") (.sym "N"), .ne (.sym "j") (.int 0)]),
      .le (.sym "k") (.sym "i")]) =
    some [[.le (.sym "N") (.sym "i"), .eq (.sym "j") (.int 0), .le (.sym "k") (.sym "i")]] := by
  simp [cnf, cnfL, Cond.neg, distributeOr]

/-- Literals of a clause are leaves: comparisons or boolean leaves, never connectives. -/
def Cond.isLiteral : Cond → Bool
  | .and _ | .or _ | .not _ => false
  | _ => true

theorem cnf_literals_aux (n : Nat) :
    ∀ c f, c.size < n → cnf c = some f → ∀ cl ∈ f, ∀ l ∈ cl, l.isLiteral = true := by
  induction n with
  | zero => intro c f h; omega
  | succ n ih =>
    have hl : ∀ l fs, Cond.sizeL l ≤ n → cnfL l = some fs →
        ∀ f ∈ fs, ∀ cl ∈ f, ∀ l ∈ cl, l.isLiteral = true := by
      intro l
      induction l with
      | nil => intro fs _ h; simp only [cnfL, Option.some.injEq] at h; subst h; simp
      | cons c r ihr =>
        intro fs hs h
        simp only [Cond.sizeL] at hs
        rw [cnfL] at h
        split at h
        · rename_i a b ha hb
          simp only [Option.some.injEq] at h; subst h
          intro f hf
          rcases List.mem_cons.mp hf with rfl | hf
          · exact ih c _ (by omega) ha
          · exact ihr b (by omega) hb f hf
        · cases h
    have leaf : ∀ c : Cond, c.isLiteral = true → ∀ cl ∈ ([[c]] : CNF), ∀ l ∈ cl, l.isLiteral = true := by
      intro c hc cl hcl l hl
      simp only [List.mem_singleton] at hcl; subst hcl
      simp only [List.mem_singleton] at hl; subst hl; exact hc
    intro c f hs h
    rw [cnf.eq_def] at h
    split at h
    · rename_i a b
      have na := Cond.size_neg a; have nb := Cond.size_neg b
      simp only [Cond.size] at hs
      repeat' split at h
      · cases h; exact leaf _ rfl
      · exact ih b f (by omega) h
      · exact ih a f (by omega) h
      · exact ih _ f (by omega) h
      · exact ih _ f (by omega) h
      · cases h; exact leaf _ rfl
    · rename_i a b
      have na := Cond.size_neg a; have nb := Cond.size_neg b
      simp only [Cond.size] at hs
      repeat' split at h
      · cases h; exact leaf _ rfl
      · exact ih _ f (by omega) h
      · exact ih _ f (by omega) h
      · exact ih _ f (by omega) h
      · exact ih _ f (by omega) h
      · cases h; exact leaf _ rfl
    · rename_i c
      have : c.size < n := by
        have := Cond.size_pos c
        cases c <;> simp [Cond.size, Cond.isAtom] at hs ⊢ <;> omega
      exact ih c f this h
    · rename_i a b
      have na := Cond.size_neg a; have nb := Cond.size_neg b
      have : (Cond.or [a.neg, b.neg]).size < n := by
        simp [Cond.size, Cond.sizeL, Cond.isAtom] at hs ⊢; omega
      exact ih _ f this h
    · rename_i a b
      have na := Cond.size_neg a; have nb := Cond.size_neg b
      have : (Cond.and [a.neg, b.neg]).size < n := by
        simp [Cond.size, Cond.sizeL, Cond.isAtom] at hs ⊢; omega
      exact ih _ f this h
    · cases h; exact leaf _ rfl
    · cases h; exact leaf _ rfl
    · exact ih _ f (by simp [Cond.size, Cond.isAtom] at hs ⊢; omega) h
    · exact ih _ f (by simp [Cond.size, Cond.isAtom] at hs ⊢; omega) h
    · cases h; exact leaf _ rfl
    · cases h; exact leaf _ rfl
    · cases h
    · rename_i l
      simp only [Cond.size] at hs
      split at h
      · rename_i fs hfs
        cases h
        intro cl hcl
        obtain ⟨g, hg, hclg⟩ := List.mem_flatten.mp hcl
        exact hl l fs (by omega) hfs g hg cl hclg
      · cases h
    · rename_i l
      simp only [Cond.size] at hs
      split at h
      · rename_i f' fs hfs
        cases h
        have hall := hl l _ (by omega) hfs
        have gen : ∀ (fs : List CNF) (g : CNF), (∀ cl ∈ g, ∀ l ∈ cl, l.isLiteral = true) →
            (∀ f ∈ fs, ∀ cl ∈ f, ∀ l ∈ cl, l.isLiteral = true) →
            ∀ cl ∈ fs.foldl distributeOr g, ∀ l ∈ cl, l.isLiteral = true := by
          intro fs
          induction fs with
          | nil => intro g hg _; exact hg
          | cons a r ihr =>
            intro g hg ha
            rw [List.foldl_cons]
            refine ihr _ ?_ (fun f hf => ha f (List.mem_cons_of_mem _ hf))
            intro cl hcl l hl
            simp only [distributeOr, List.mem_flatMap, List.mem_map] at hcl
            obtain ⟨c, hc, d, hd, rfl⟩ := hcl
            rcases List.mem_append.mp hl with h | h
            · exact hg c hc l h
            · exact ha a (by simp) d hd l h
        exact gen fs f' (hall f' (by simp)) (fun f hf => hall f (List.mem_cons_of_mem _ hf))
      · cases h
    · rename_i h1 h2 h3 h4 h5 h6 h7 h8 h9 h10 h11 h12 h13 h14
      cases h
      apply leaf
      cases c with
      | and l => exact absurd rfl (h13 l)
      | or l => exact absurd rfl (h14 l)
      | not l => exact absurd rfl (h12 l)
      | _ => rfl

/-- C01 (shape).  The clauses contain only literals: no `And`, `Or` or `Not` is left. -/
theorem cnf_literals (c : Cond) (f : CNF) (h : cnf c = some f) :
    ∀ cl ∈ f, ∀ l ∈ cl, l.isLiteral = true :=
  cnf_literals_aux (c.size + 1) c f (Nat.lt_succ_self _) h

mutual
/-- Conditions as SymEngine builds them from comparisons: `logical_not` eliminates `Not`, connectives are not
empty. -/
def Cond.regular : Cond → Bool
  | .not _ => false
  | .atom _ => false
  | .and l => !l.isEmpty && Cond.regularL l
  | .or l => !l.isEmpty && Cond.regularL l
  | .eqB a b => Cond.regular a && Cond.regular b
  | .neB a b => Cond.regular a && Cond.regular b
  | _ => true
/-- all members regular -/
def Cond.regularL : List Cond → Bool
  | [] => true
  | c :: r => Cond.regular c && Cond.regularL r
end

theorem regular_neg (c : Cond) (h : c.regular = true) : c.neg.regular = true := by
  have hl : ∀ l : List Cond, (∀ c ∈ l, c.regular = true → c.neg.regular = true) →
      Cond.regularL l = true → Cond.regularL (Cond.negL l) = true := by
    intro l
    induction l with
    | nil => intro _ _; rfl
    | cons a r ih =>
      intro h hr
      simp only [Cond.regularL, Bool.and_eq_true] at hr
      simp only [Cond.negL, Cond.regularL, Bool.and_eq_true]
      exact ⟨h a (by simp) hr.1, ih (fun c hc => h c (List.mem_cons_of_mem _ hc)) hr.2⟩
  have he : ∀ l : List Cond, (Cond.negL l).isEmpty = l.isEmpty := by intro l; cases l <;> rfl
  induction c using Cond.induct with
  | htt | hff => rfl
  | hatom x => simp [Cond.regular] at h
  | heq a b | hne a b | hle a b | hlt a b => rfl
  | heqB a b | hneB a b => simpa [Cond.neg, Cond.regular] using h
  | hnot c ih => simp [Cond.regular] at h
  | hand l ih | hor l ih =>
    simp only [Cond.regular, Bool.and_eq_true] at h
    simp only [Cond.neg, Cond.regular, Bool.and_eq_true, he]
    exact ⟨h.1, hl l ih h.2⟩

/-- C01 (totality).  On regular conditions `conjunctive_normal_form` does not throw. -/
theorem cnf_total (c : Cond) (h : c.regular = true) : ∃ f, cnf c = some f := by
  have key : ∀ n, ∀ c : Cond, c.size < n → c.regular = true → ∃ f, cnf c = some f := by
    intro n
    induction n with
    | zero => intro c h; omega
    | succ n ih =>
      have hl : ∀ l : List Cond, Cond.sizeL l ≤ n → Cond.regularL l = true →
          ∃ fs, cnfL l = some fs ∧ fs.length = l.length := by
        intro l
        induction l with
        | nil => intro _ _; exact ⟨[], by simp [cnfL], rfl⟩
        | cons a r ihr =>
          intro hs hr
          simp only [Cond.sizeL] at hs
          simp only [Cond.regularL, Bool.and_eq_true] at hr
          obtain ⟨f, hf⟩ := ih a (by omega) hr.1
          obtain ⟨fs, hfs, hlen⟩ := ihr (by omega) hr.2
          exact ⟨f :: fs, by simp [cnfL, hf, hfs], by simp [hlen]⟩
      intro c hs hr
      cases c with
      | tt | ff | eq a b | ne a b | le a b | lt a b => rw [cnf.eq_def]; exact ⟨_, rfl⟩
      | atom x => simp [Cond.regular] at hr
      | not c => simp [Cond.regular] at hr
      | eqB a b =>
        have na := Cond.size_neg a; have nb := Cond.size_neg b
        simp only [Cond.size] at hs
        simp only [Cond.regular, Bool.and_eq_true] at hr
        rw [cnf]
        split
        · exact ⟨_, rfl⟩
        · split
          · exact ih b (by omega) hr.2
          · split
            · exact ih a (by omega) hr.1
            · split
              · exact ih _ (by omega) (regular_neg b hr.2)
              · split
                · exact ih _ (by omega) (regular_neg a hr.1)
                · exact ⟨_, rfl⟩
      | neB a b =>
        have na := Cond.size_neg a; have nb := Cond.size_neg b
        simp only [Cond.size] at hs
        simp only [Cond.regular, Bool.and_eq_true] at hr
        rw [cnf]
        split
        · exact ⟨_, rfl⟩
        · split
          · exact ih _ (by omega) (regular_neg b hr.2)
          · split
            · exact ih _ (by omega) (regular_neg a hr.1)
            · split
              · exact ih b (by omega) hr.2
              · split
                · exact ih a (by omega) hr.1
                · exact ⟨_, rfl⟩
      | and l =>
        simp only [Cond.size] at hs
        simp only [Cond.regular, Bool.and_eq_true] at hr
        obtain ⟨fs, hfs, _⟩ := hl l (by omega) hr.2
        rw [cnf, hfs]; exact ⟨_, rfl⟩
      | or l =>
        simp only [Cond.size] at hs
        simp only [Cond.regular, Bool.and_eq_true] at hr
        obtain ⟨fs, hfs, hlen⟩ := hl l (by omega) hr.2
        rw [cnf, hfs]
        cases fs with
        | nil =>
          cases l with
          | nil => simp at hr
          | cons a r => simp at hlen
        | cons f fs => exact ⟨_, rfl⟩
  exact key (c.size + 1) c (Nat.lt_succ_self _) h

example : (Cond.or [.and [.lt (.sym "i") (.sym "N"), .ne (.sym "j") (.int 0)],
    .eqB (.le (.sym "k") (.sym "i")) .ff]).regular = true := rfl

end Docc.Sym

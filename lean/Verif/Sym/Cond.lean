import Verif.Sym.Expr
/-
Boolean conditions (SymEngine `Boolean` terms) and conjunctive normal form,
sdfg/src/symbolic/conjunctive_normal_form.cpp.
-/
namespace Docc.Sym

/-- Conditions.  `atom` stands for a boolean leaf that is neither a comparison nor a connective.
`eqB`/`neB` are equalities between conditions (e.g. `(i < 5) == true`).  Simplification: an equality whose
operands are one condition and one integer expression is not represented. -/
inductive Cond where
  | tt
  | ff
  | atom (x : String)
  | eq (a b : Expr)
  | ne (a b : Expr)
  | le (a b : Expr)
  | lt (a b : Expr)
  | eqB (a b : Cond)
  | neB (a b : Cond)
  | not (c : Cond)
  | and (l : List Cond)
  | or (l : List Cond)
  deriving Repr, Inhabited

/-- Interpretation of the leaves: any total assignment of integers to operand expressions and of booleans to
atoms.  (The normal form never looks inside operands.) -/
structure Leaf where
  ex : Expr → Int
  at' : String → Bool

mutual
/-- Truth value of a condition. -/
def Cond.eval (v : Leaf) : Cond → Bool
  | .tt => true
  | .ff => false
  | .atom x => v.at' x
  | .eq a b => v.ex a == v.ex b
  | .ne a b => !(v.ex a == v.ex b)
  | .le a b => decide (v.ex a ≤ v.ex b)
  | .lt a b => decide (v.ex a < v.ex b)
  | .eqB a b => Cond.eval v a == Cond.eval v b
  | .neB a b => !(Cond.eval v a == Cond.eval v b)
  | .not c => !Cond.eval v c
  | .and l => Cond.evalAll v l
  | .or l => Cond.evalAny v l
/-- conjunction -/
def Cond.evalAll (v : Leaf) : List Cond → Bool
  | [] => true
  | c :: r => Cond.eval v c && Cond.evalAll v r
/-- disjunction -/
def Cond.evalAny (v : Leaf) : List Cond → Bool
  | [] => false
  | c :: r => Cond.eval v c || Cond.evalAny v r
end

mutual
/-- symbolic.cpp:73 `Not` = SymEngine `logical_not`: comparisons are complemented, `And`/`Or` by De
Morgan, `Not` is removed, other booleans are wrapped in `Not`. -/
def Cond.neg : Cond → Cond
  | .tt => .ff
  | .ff => .tt
  | .atom x => .not (.atom x)
  | .eq a b => .ne a b
  | .ne a b => .eq a b
  | .le a b => .lt b a
  | .lt a b => .le b a
  | .eqB a b => .neB a b
  | .neB a b => .eqB a b
  | .not c => c
  | .and l => .or (Cond.negL l)
  | .or l => .and (Cond.negL l)
/-- negate all members -/
def Cond.negL : List Cond → List Cond
  | [] => []
  | c :: r => Cond.neg c :: Cond.negL r
end

/-- boolean leaf -/
def Cond.isAtom : Cond → Bool
  | .atom _ => true
  | _ => false

mutual
/-- size for termination -/
def Cond.size : Cond → Nat
  | .tt => 1
  | .ff => 1
  | .atom _ => 1
  | .eq _ _ => 1
  | .ne _ _ => 1
  | .le _ _ => 1
  | .lt _ _ => 1
  | .eqB a b => Cond.size a + Cond.size b + 1
  | .neB a b => Cond.size a + Cond.size b + 1
  | .not c => Cond.size c + (if c.isAtom then 0 else 1)
  | .and l => Cond.sizeL l + 1
  | .or l => Cond.sizeL l + 1
/-- size of a list -/
def Cond.sizeL : List Cond → Nat
  | [] => 0
  | c :: r => Cond.size c + Cond.sizeL r + 1
end

/-- `SymEngine::is_a_Relational` -/
def Cond.isRel : Cond → Bool
  | .eq _ _ | .ne _ _ | .le _ _ | .lt _ _ | .eqB _ _ | .neB _ _ => true
  | _ => false

/-- symbolic.cpp:75 `is_true` -/
def Cond.isTT : Cond → Bool
  | .tt => true
  | _ => false
/-- symbolic.cpp:77 `is_false` -/
def Cond.isFF : Cond → Bool
  | .ff => true
  | _ => false

/-- A CNF is a conjunction of clauses, each a disjunction of conditions
(conjunctive_normal_form.h: `typedef std::vector<std::vector<Condition>> CNF`). -/
abbrev CNF := List (List Cond)

/-- Truth value of a CNF. -/
def CNF.eval (v : Leaf) (f : CNF) : Bool := f.all (fun cl => cl.any (fun c => c.eval v))

/-- conjunctive_normal_form.cpp:11-20 `distribute_or`. -/
def distributeOr (C D : CNF) : CNF := C.flatMap (fun c => D.map (fun d => c ++ d))

theorem Cond.size_pos (c : Cond) : 0 < c.size := by
  cases c <;> simp only [Cond.size] <;> try omega
  rename_i c
  cases c <;> simp [Cond.isAtom, Cond.size]

/-- induction over conditions with hypotheses for list members -/
theorem Cond.induct {P : Cond → Prop} (htt : P .tt) (hff : P .ff) (hatom : ∀ x, P (.atom x))
    (heq : ∀ a b, P (.eq a b)) (hne : ∀ a b, P (.ne a b)) (hle : ∀ a b, P (.le a b))
    (hlt : ∀ a b, P (.lt a b)) (heqB : ∀ a b, P a → P b → P (.eqB a b))
    (hneB : ∀ a b, P a → P b → P (.neB a b)) (hnot : ∀ c, P c → P (.not c))
    (hand : ∀ l, (∀ c ∈ l, P c) → P (.and l)) (hor : ∀ l, (∀ c ∈ l, P c) → P (.or l)) (c : Cond) : P c :=
  Cond.rec (motive_1 := P) (motive_2 := fun l => ∀ c ∈ l, P c)
    htt hff hatom heq hne hle hlt heqB hneB hnot hand hor (by simp)
    (by intro h t ih1 ih2 e he
        rcases List.mem_cons.mp he with rfl | he
        · exact ih1
        · exact ih2 e he) c

/-- negation does not increase the size -/
theorem Cond.size_neg (c : Cond) : c.neg.size ≤ c.size := by
  have hl : ∀ l : List Cond, (∀ c ∈ l, c.neg.size ≤ c.size) → Cond.sizeL (Cond.negL l) ≤ Cond.sizeL l := by
    intro l
    induction l with
    | nil => intro _; exact Nat.le_refl _
    | cons a r ih =>
      intro h
      have h1 := h a (by simp)
      have h2 := ih (fun c hc => h c (List.mem_cons_of_mem _ hc))
      simp only [Cond.negL, Cond.sizeL]; omega
  induction c using Cond.induct with
  | htt | hff | heq a b | hne a b | hle a b | hlt a b => simp [Cond.neg, Cond.size]
  | hatom x => simp [Cond.neg, Cond.size, Cond.isAtom]
  | heqB a b | hneB a b => simp [Cond.neg, Cond.size]
  | hnot c ih => simp only [Cond.neg, Cond.size]; omega
  | hand l ih => have := hl l ih; simp only [Cond.neg, Cond.size]; omega
  | hor l ih => have := hl l ih; simp only [Cond.neg, Cond.size]; omega

mutual
/-- conjunctive_normal_form.cpp:22-170.  `none` is the `CNFException` (and, for an `Or` without arguments,
which SymEngine never builds, the out-of-range access). -/
def cnf : Cond → Option CNF
  | .eqB a b =>
    if !a.isRel && !b.isRel then some [[.eqB a b]]
    else if a.isTT then cnf b
    else if b.isTT then cnf a
    else if a.isFF then cnf b.neg
    else if b.isFF then cnf a.neg
    else some [[.eqB a b]]
  | .neB a b =>
    if !a.isRel && !b.isRel then some [[.neB a b]]
    else if a.isTT then cnf b.neg
    else if b.isTT then cnf a.neg
    else if a.isFF then cnf b
    else if b.isFF then cnf a
    else some [[.neB a b]]
  | .not (.not c) => cnf c
  | .not (.and [a, b]) => cnf (.or [a.neg, b.neg])
  | .not (.or [a, b]) => cnf (.and [a.neg, b.neg])
  | .not (.eq a b) => some [[.ne a b]]
  | .not (.ne a b) => some [[.eq a b]]
  | .not (.eqB a b) => cnf (.neB a b)
  | .not (.neB a b) => cnf (.eqB a b)
  | .not (.le a b) => some [[.lt b a]]
  | .not (.lt a b) => some [[.le b a]]
  | .not _ => none
  | .and l => match cnfL l with
    | some fs => some fs.flatten
    | none => none
  | .or l => match cnfL l with
    | some (f :: fs) => some (fs.foldl distributeOr f)
    | _ => none
  | c => some [[c]]
termination_by c => (c.size, 0)
decreasing_by
  all_goals simp_wf
  all_goals first
    | (apply Prod.Lex.left; simp only [Cond.size, Cond.sizeL, Cond.isAtom]
       first
       | omega
       | (have := Cond.size_neg a; have := Cond.size_neg b; have := Cond.size_pos a; have := Cond.size_pos b
          first | omega | (simp; done) | (simp; omega))
       | (simp; done)
       | (simp; omega))
/-- `conjunctive_normal_form` of each argument in order -/
def cnfL : List Cond → Option (List CNF)
  | [] => some []
  | c :: r => match cnf c, cnfL r with
    | some a, some b => some (a :: b)
    | _, _ => none
termination_by l => (Cond.sizeL l, 1)
decreasing_by
  all_goals simp_wf
  all_goals (apply Prod.Lex.left; simp only [Cond.sizeL]; omega)
end

end Docc.Sym

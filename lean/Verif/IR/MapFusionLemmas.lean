import Verif.IR.MapFusion
import Verif.IR.InterchangeProps
import Verif.IR.LoopInfoProps
import Verif.IR.ReplaceProps
import Verif.Sym.SeriesProps

/-
Lemmas about MapFusion.
-/
namespace Docc.IR
open Docc.Sym

theorem mem_blockWrites {B : List Stmt} {x : String} : x ∈ blockWrites B ↔ writes (B.flatMap Stmt.users) x := by
  simp only [blockWrites, List.mem_filterMap, writes]
  constructor
  · rintro ⟨⟨u, n⟩, h1, h2⟩
    split at h2
    · rename_i hu
      simp only [Option.some.injEq] at h2; subst h2
      simp only at hu; subst hu; exact h1
    · cases h2
  · intro h; exact ⟨_, h, by simp⟩

theorem touches_iff {x : String} {s : Stmt} : s.touches x = true ↔
    match s with
    | .tasklet _ ins out _ => (∃ r ∈ ins, r.1 = x) ∨ out = x
    | .lib _ rs ws => x ∈ rs ∨ x ∈ ws := by
  cases s <;> simp [Stmt.touches]

/-- the producer of a container -/
theorem producerOf_split {x : String} {B : List Stmt} {p : Expr} (h : producerOf x B = some p) :
    ∃ l op ins r, B = l ++ .tasklet op ins x [p] :: r ∧ (∀ a ∈ ins, a.1 ≠ x) ∧ (∀ s ∈ l, s.touches x = false) ∧ ∀ s ∈ r, s.touches x = false := by
  unfold producerOf at h
  split at h
  · rename_i op ins out q hf
    split at h
    · cases h
    · rename_i hi
      split at h
      · rename_i ho
        simp only [Option.some.injEq] at h; subst h
        have ho : out = x := by simpa using ho
        subst ho
        rw [List.filter_eq_cons_iff] at hf
        obtain ⟨l, r, h1, h2, h3, h4⟩ := hf
        refine ⟨l, op, ins, r, h1, fun a ha e => hi (by simp only [List.any_eq_true, beq_iff_eq]; exact ⟨a, ha, e⟩), fun s hs => by simpa using h2 s hs, fun s hs => ?_⟩
        have := List.filter_eq_nil_iff.1 h4 s hs
        simpa using this
      · cases h
  · cases h

/-- the block's computation that touches a produced container -/
theorem producerOf_touch {x : String} {B : List Stmt} {p : Expr} (h : producerOf x B = some p) {s : Stmt} (hs : s ∈ B) (ht : s.touches x = true) :
    ∃ op ins, s = .tasklet op ins x [p] ∧ ∀ a ∈ ins, a.1 ≠ x := by
  obtain ⟨l, op, ins, r, rfl, h1, h2, h3⟩ := producerOf_split h
  rcases List.mem_append.1 hs with h' | h'
  · rw [h2 s h'] at ht; cases ht
  · rcases List.mem_cons.1 h' with rfl | h'
    · exact ⟨op, ins, rfl, h1⟩
    · rw [h3 s h'] at ht; cases ht

/-! ### the candidates -/

theorem candsOf_mem {P : PolyEngine} {param : String → Bool} {i k x : String} {p : Expr} {tmp : Expr → String} {es : List Expr} {cs : List Cand}
    (h : candsOf P param i k x p tmp es = some cs) :
    (∀ c ∈ cs, c.cont = x ∧ c.idx ∈ es ∧ mapIndex P i p c.idx = some c.map ∧ c.tmp = tmp c.idx) ∧ ∀ e ∈ es, ∃ c ∈ cs, c.cont = x ∧ c.idx = e := by
  induction es generalizing cs with
  | nil => simp only [candsOf, Option.some.injEq] at h; subst h; simp
  | cons e es ih =>
    simp only [candsOf] at h
    split at h
    · rename_i g r h1 h2
      split at h
      · simp only [Option.some.injEq] at h; subst h
        obtain ⟨a, b⟩ := ih h2
        refine ⟨fun c hc => ?_, fun e' he => ?_⟩
        · rcases List.mem_cons.1 hc with rfl | hc
          · exact ⟨rfl, by simp, h1, rfl⟩
          · obtain ⟨q1, q2, q3, q4⟩ := a c hc
            exact ⟨q1, by simp [q2], q3, q4⟩
        · rcases List.mem_cons.1 he with rfl | he
          · exact ⟨⟨x, _, g, tmp _⟩, List.mem_cons_self, rfl, rfl⟩
          · obtain ⟨c, hc, q⟩ := b e' he
            exact ⟨c, by simp [hc], q⟩
      · cases h
    · cases h

theorem fuseCands_mem {P : PolyEngine} {param : String → Bool} {i k : String} {B : List Stmt} {body : Seq} {tmp : String → Expr → String}
    {xs : List String} {cs : List Cand} (h : fuseCands P param i k B body tmp xs = some cs) :
    (∀ c ∈ cs, (c.cont ∈ xs ∧ ∃ p, producerOf c.cont B = some p ∧ mapIndex P i p c.idx = some c.map ∧ c.tmp = tmp c.cont c.idx) ∧
      ∃ es, body.consumed c.cont = some es ∧ c.idx ∈ es) ∧
    ∀ x ∈ xs, ∃ es, body.consumed x = some es ∧ ∀ e ∈ es, ∃ c ∈ cs, c.cont = x ∧ c.idx = e := by
  induction xs generalizing cs with
  | nil => simp only [fuseCands, Option.some.injEq] at h; subst h; simp
  | cons x xs ih =>
    simp only [fuseCands] at h
    split at h
    · rename_i p es r h1 h2 h3
      split at h
      · rename_i q h4
        simp only [Option.some.injEq] at h; subst h
        obtain ⟨a, b⟩ := ih h3
        obtain ⟨a', b'⟩ := candsOf_mem h4
        refine ⟨fun c hc => ?_, fun y hy => ?_⟩
        · rcases List.mem_append.1 hc with hc | hc
          · obtain ⟨q1, q2, q3, q4⟩ := a' c hc
            exact ⟨⟨by simp [q1], p, by rw [q1]; exact h1, q3, by rw [q1]; exact q4⟩, es, by rw [q1]; exact h2, by simpa using q2⟩
          · obtain ⟨⟨q1, q2⟩, q3⟩ := a c hc
            exact ⟨⟨by simp [q1], q2⟩, q3⟩
        · rcases List.mem_cons.1 hy with rfl | hy
          · refine ⟨es, h2, fun e he => ?_⟩
            obtain ⟨c, hc, q⟩ := b' e (by simpa using he)
            exact ⟨c, by simp [hc], q⟩
          · obtain ⟨es', q1, q2⟩ := b y hy
            refine ⟨es', q1, fun e he => ?_⟩
            obtain ⟨c, hc, q⟩ := q2 e he
            exact ⟨c, by simp [hc], q⟩
      · cases h
    · cases h

/-! ### two runs of the producer block -/

/-- the operands of a computation -/
def Stmt.opds : Stmt → List String
  | .tasklet _ ins _ _ => ins.map (·.1)
  | .lib _ rs _ => rs

/-- the subset dimensions of a computation -/
def Stmt.subDims : Stmt → List Expr
  | .tasklet _ ins _ sub => ins.flatMap (·.2) ++ sub
  | .lib _ _ _ => []

/-- Every operand is a container the block does not write (`W`), or a scalar the block has already computed (`done`). -/
def opsOk (W : List String) : List String → List Stmt → Prop
  | _, [] => True
  | done, .tasklet _ ins out sub :: l =>
    (∀ r ∈ ins, r.1 ∉ W ∨ (r.2 = [] ∧ r.1 ∈ done)) ∧ opsOk W (if sub = [] then out :: done else done) l
  | done, .lib _ rs ws :: l => (∀ r ∈ rs, r ∉ W) ∧ opsOk W (ws ++ done) l

/-- a computation whose subsets are rewritten and, when `x` is given, whose container `x` becomes a scalar -/
def Stmt.pair (f : Expr → Expr) (x : Option (String × String)) : Stmt → Stmt
  | .tasklet op ins out sub =>
    .tasklet op (ins.map fun r => (r.1, r.2.map f)) (match x with | some (a, t) => if out = a then t else out | none => out)
      (match x with | some (a, _) => if out = a then [] else sub.map f | none => sub.map f)
  | .lib op rs ws => .lib op rs ws

/-- the two memories of the two runs -/
structure Twin (K : String → Prop) (W done : List String) (ρ τ : St) : Prop where
  inp : ∀ n, K n → ρ n = τ n
  sub : ∀ d ∈ done, d ∈ W
  dn : ∀ d ∈ done, ρ d [] = τ d []

/-- what the two runs need: `K`: inputs; `x`: the renamed container; the rewritten subsets have the same values -/
structure PairOk (E : Env) (K : String → Prop) (W : List String) (f : Expr → Expr) (x : Option (String × String)) (ρ0 τ0 : St) (l : List Stmt) : Prop where
  wr : ∀ n, K n → n ∉ W
  wl : ∀ s ∈ l, ∀ n, writes s.users n → n ∈ W
  opd : ∀ s ∈ l, ∀ n ∈ s.opds, n ∉ W → K n
  dim : ∀ s ∈ l, ∀ d ∈ s.subDims, ∀ ρ τ : St, (∀ n, n ∉ W → ρ n = ρ0 n) →
    (∀ n, n ∉ W → (∀ a t, x = some (a, t) → n ≠ t) → τ n = τ0 n) → ρ.ev E d = τ.ev E (f d)
  ren : ∀ a t, x = some (a, t) → t ∉ W ∧ ¬ K t ∧ ∀ s ∈ l, s.touches a = true → ∃ op ins p, s = .tasklet op ins a [p] ∧ ∀ r ∈ ins, r.1 ≠ a

theorem PairOk.tail {E : Env} {K : String → Prop} {W : List String} {f : Expr → Expr} {x : Option (String × String)} {ρ0 τ0 : St} {s : Stmt}
    {l : List Stmt} (h : PairOk E K W f x ρ0 τ0 (s :: l)) : PairOk E K W f x ρ0 τ0 l :=
  ⟨h.wr, fun s hs => h.wl s (by simp [hs]), fun s hs => h.opd s (by simp [hs]), fun s hs => h.dim s (by simp [hs]),
    fun a t e => ⟨(h.ren a t e).1, (h.ren a t e).2.1, fun s hs => (h.ren a t e).2.2 s (by simp [hs])⟩⟩

theorem pair_operands {E : Env} {K : String → Prop} {W : List String} {f : Expr → Expr} {ρ τ : St} {done : List String}
    {ins : List (String × List Expr)} (hT : Twin K W done ρ τ) (ho : ∀ r ∈ ins, r.1 ∉ W ∨ (r.2 = [] ∧ r.1 ∈ done))
    (hk : ∀ r ∈ ins, r.1 ∉ W → K r.1) (hd : ∀ r ∈ ins, ∀ d ∈ r.2, ρ.ev E d = τ.ev E (f d)) :
    ins.map (fun r => ρ r.1 (r.2.map (ρ.ev E))) = (ins.map fun r => (r.1, r.2.map f)).map fun r => τ r.1 (r.2.map (τ.ev E)) := by
  rw [List.map_map]
  refine List.map_congr_left fun r hr => ?_
  simp only [Function.comp, List.map_map]
  rcases ho r hr with h | ⟨h1, h2⟩
  · rw [hT.inp _ (hk r hr h)]
    congr 1
    exact List.map_congr_left fun d hd' => hd r hr d hd'
  · rw [h1]; exact hT.dn _ h2

theorem setMany_same {σ τ : St} {ws : List String} {f : Nat → List Int → Int} {x : String} (h : x ∈ ws) :
    σ.setMany ws f x = τ.setMany ws f x := by
  unfold St.setMany
  have : ∀ (l : List (String × Nat)) (σ τ : St), x ∈ l.map (·.1) ∨ σ x = τ x →
      l.foldl (fun s wk => fun y => if y = wk.1 then f wk.2 else s y) σ x = l.foldl (fun s wk => fun y => if y = wk.1 then f wk.2 else s y) τ x := by
    intro l
    induction l with
    | nil => intro σ τ h; rcases h with h | h <;> simp_all
    | cons a l ih =>
      intro σ τ h
      simp only [List.foldl_cons]
      apply ih
      by_cases e : x = a.1
      · right; simp [e]
      · rcases h with h | h
        · left; simpa [e] using h
        · right; simp [e, h]
  exact this _ σ τ (Or.inl (by rw [show ws.zipIdx.map (fun a => a.1) = ws from List.zipIdx_map_fst 0 ws]; exact h))

/-- the memories a run may be in: unchanged outside the block's results -/
structure PairSt (W : List String) (x : Option (String × String)) (ρ0 τ0 ρ τ : St) : Prop where
  lft : ∀ n, n ∉ W → ρ n = ρ0 n
  rgt : ∀ n, n ∉ W → (∀ a t, x = some (a, t) → n ≠ t) → τ n = τ0 n

theorem opds_mem {op out : String} {ins : List (String × List Expr)} {sub : List Expr} {r : String × List Expr} (hr : r ∈ ins) :
    r.1 ∈ (Stmt.tasklet op ins out sub).opds := List.mem_map_of_mem hr

/-- one computation, executed twice -/
theorem pair_step {E : Env} {K : String → Prop} {W : List String} {f : Expr → Expr} {x : Option (String × String)} {ρ0 τ0 ρ τ : St} {s : Stmt}
    {l r : List Stmt} {done : List String} (hP : PairOk E K W f x ρ0 τ0 (s :: l)) (hS : PairSt W x ρ0 τ0 ρ τ) (hT : Twin K W done ρ τ)
    (ho : opsOk W done (s :: r)) :
    PairSt W x ρ0 τ0 (s.run E ρ) ((s.pair f x).run E τ) ∧ ∃ done', Twin K W done' (s.run E ρ) ((s.pair f x).run E τ) ∧ opsOk W done' r := by
  cases s with
  | tasklet op ins out sub =>
    simp only [opsOk] at ho
    have hout : out ∈ W := hP.wl _ List.mem_cons_self out (by simp [Stmt.users, writes])
    have hdim : ∀ d ∈ (Stmt.tasklet op ins out sub).subDims, ρ.ev E d = τ.ev E (f d) :=
      fun d hd => hP.dim _ List.mem_cons_self d hd ρ τ hS.lft hS.rgt
    have hval := pair_operands (E := E) (f := f) hT ho.1 (fun r hr h => hP.opd _ List.mem_cons_self _ (opds_mem hr) h)
      (fun r hr d hd => hdim d (by simp only [Stmt.subDims, List.mem_append, List.mem_flatMap]; exact Or.inl ⟨r, hr, hd⟩))
    have hsub : sub.map (ρ.ev E) = (sub.map f).map (τ.ev E) := by
      rw [List.map_map]
      exact List.map_congr_left fun d hd => hdim d (by simp [Stmt.subDims, hd])
    have hlen : ∀ d ∈ done, ∀ (o : String) (σ : St) (g : Expr → Int) (v : Int), sub ≠ [] → (σ.set o (sub.map g) v) d [] = σ d [] := by
      intro d _ o σ g v hne
      simp only [St.set]
      rw [if_neg]
      rintro ⟨-, h⟩
      exact hne (by simpa using h.symm)
    by_cases hx : ∃ a t, x = some (a, t) ∧ out = a
    · obtain ⟨a, t, rfl, rfl⟩ := hx
      obtain ⟨ht1, ht2, ht3⟩ := hP.ren _ _ rfl
      obtain ⟨_, _, p, hp, _⟩ := ht3 _ List.mem_cons_self (by simp [Stmt.touches])
      have hne : sub ≠ [] := by
        simp only [Stmt.tasklet.injEq] at hp
        rw [hp.2.2.2]; simp
      simp only [Stmt.pair, if_true, Stmt.run, List.map_nil]
      refine ⟨⟨fun n hn => ?_, fun n hn h => ?_⟩, done, ⟨fun n hn => ?_, hT.sub, fun d hd => ?_⟩, by simpa [hne] using ho.2⟩
      · rw [St.set_other _ _ _ (fun e : n = out => hn (e ▸ hout))]; exact hS.lft n hn
      · rw [St.set_other _ _ _ (h _ _ rfl)]; exact hS.rgt n hn h
      · rw [St.set_other _ _ _ (fun e : n = out => hP.wr _ hn (e ▸ hout)), St.set_other _ _ _ (fun e : n = t => ht2 (e ▸ hn))]; exact hT.inp n hn
      · rw [hlen d hd _ _ _ _ hne, St.set_other _ _ _ (fun e : d = t => ht1 (e ▸ hT.sub d hd))]
        exact hT.dn d hd
    · have hpair : (Stmt.tasklet op ins out sub).pair f x = .tasklet op (ins.map fun r => (r.1, r.2.map f)) out (sub.map f) := by
        cases x with
        | none => rfl
        | some q =>
          obtain ⟨a, t⟩ := q
          have : out ≠ a := fun e => hx ⟨a, t, rfl, e⟩
          simp [Stmt.pair, this]
      rw [hpair]
      simp only [Stmt.run]
      rw [← hval, ← hsub]
      refine ⟨⟨fun n hn => ?_, fun n hn h => ?_⟩, if sub = [] then out :: done else done, ⟨fun n hn => ?_, fun d hd => ?_, fun d hd => ?_⟩, ho.2⟩
      · rw [St.set_other _ _ _ (fun e : n = out => hn (e ▸ hout))]; exact hS.lft n hn
      · rw [St.set_other _ _ _ (fun e : n = out => hn (e ▸ hout))]; exact hS.rgt n hn h
      · have : n ≠ out := fun e => hP.wr _ hn (e ▸ hout)
        rw [St.set_other _ _ _ this, St.set_other _ _ _ this]; exact hT.inp n hn
      · split at hd
        · rcases List.mem_cons.1 hd with rfl | hd
          · exact hout
          · exact hT.sub d hd
        · exact hT.sub d hd
      · simp only [St.set]
        split
        · rfl
        · rename_i hn
          split at hd
          · rename_i he
            rcases List.mem_cons.1 hd with rfl | hd
            · exact absurd ⟨rfl, by simp [he]⟩ hn
            · exact hT.dn d hd
          · exact hT.dn d hd
  | lib op rs ws =>
    simp only [opsOk] at ho
    have hw : ∀ w ∈ ws, w ∈ W := fun w h => hP.wl _ List.mem_cons_self w (by simp [Stmt.users, writes, readsOf, h])
    have hr : rs.map ρ = rs.map τ := List.map_congr_left fun n hn => hT.inp n (hP.opd _ List.mem_cons_self n hn (ho.1 n hn))
    simp only [Stmt.pair, Stmt.run, hr]
    refine ⟨⟨fun n hn => ?_, fun n hn h => ?_⟩, ws ++ done, ⟨fun n hn => ?_, fun d hd => ?_, fun d hd => ?_⟩, ho.2⟩
    · rw [St.setMany_other _ _ _ (fun e => hn (hw n e))]; exact hS.lft n hn
    · rw [St.setMany_other _ _ _ (fun e => hn (hw n e))]; exact hS.rgt n hn h
    · have : n ∉ ws := fun e => hP.wr _ hn (hw n e)
      rw [St.setMany_other _ _ _ this, St.setMany_other _ _ _ this]; exact hT.inp n hn
    · rcases List.mem_append.1 hd with hd | hd
      · exact hw d hd
      · exact hT.sub d hd
    · by_cases h : d ∈ ws
      · rw [setMany_same (σ := ρ) (τ := τ) h]
      · rw [St.setMany_other _ _ _ h, St.setMany_other _ _ _ h]
        rcases List.mem_append.1 hd with hd | hd
        · exact absurd hd h
        · exact hT.dn d hd

/-- a part of the block, executed twice -/
theorem pair_run {E : Env} {K : String → Prop} {W : List String} {f : Expr → Expr} {x : Option (String × String)} {ρ0 τ0 ρ τ : St}
    {l r : List Stmt} {done : List String} (hP : PairOk E K W f x ρ0 τ0 l) (hS : PairSt W x ρ0 τ0 ρ τ) (hT : Twin K W done ρ τ)
    (ho : opsOk W done (l ++ r)) :
    PairSt W x ρ0 τ0 (runBlock E l ρ) (runBlock E (l.map (Stmt.pair f x)) τ) ∧
      ∃ done', Twin K W done' (runBlock E l ρ) (runBlock E (l.map (Stmt.pair f x)) τ) ∧ opsOk W done' r := by
  induction l generalizing ρ τ done with
  | nil => exact ⟨hS, done, hT, ho⟩
  | cons s l ih =>
    obtain ⟨a, done', b, c⟩ := pair_step hP hS hT (by exact ho)
    exact ih hP.tail a b c

/-- what the rewritten computation writes -/
theorem pair_writes {f : Expr → Expr} {x : Option (String × String)} {s : Stmt} {n : String} (h : writes (s.pair f x).users n) :
    (writes s.users n ∧ ∀ a t, x = some (a, t) → n = a → s.touches a = true → ∃ op rs ws, s = .lib op rs ws) ∨
      ∃ a, x = some (a, n) ∧ s.touches a = true := by
  cases s with
  | lib op rs ws => exact Or.inl ⟨h, fun _ _ _ _ _ => ⟨_, _, _, rfl⟩⟩
  | tasklet op ins out sub =>
    cases x with
    | none => left; exact ⟨by simpa [Stmt.pair, Stmt.users, writes, readsOf] using h, fun _ _ e => by cases e⟩
    | some q =>
      obtain ⟨a, t⟩ := q
      by_cases e : out = a
      · right
        have : n = t := by simpa [Stmt.pair, Stmt.users, writes, readsOf, e] using h
        exact ⟨a, by rw [this], by simp [Stmt.touches, e]⟩
      · left
        have hn : n = out := by simpa [Stmt.pair, Stmt.users, writes, readsOf, e] using h
        refine ⟨by simp [Stmt.users, writes, readsOf, hn], fun a' t' e1 e2 _ => ?_⟩
        simp only [Option.some.injEq, Prod.mk.injEq] at e1
        exact absurd (hn.symm.trans (e2.trans e1.1.symm)) e

theorem touches_of_writes {s : Stmt} {n : String} (h : writes s.users n) : s.touches n = true := by
  cases s with
  | tasklet op ins out sub => simp [Stmt.users, writes, readsOf] at h; simp [Stmt.touches, h]
  | lib op rs ws => simp [Stmt.users, writes, readsOf] at h; simp [Stmt.touches, h]

theorem block_still {E : Env} {l : List Stmt} {n : String} (h : ∀ s ∈ l, ¬ writes s.users n) (σ : St) : runBlock E l σ n = σ n := by
  refine runBlock_frame E l σ n fun hw => ?_
  simp only [writes, List.mem_flatMap] at hw
  obtain ⟨s, hs, hw⟩ := hw
  exact h s hs hw

theorem runBlock_append {E : Env} {l r : List Stmt} {σ : St} : runBlock E (l ++ r) σ = runBlock E r (runBlock E l σ) := by
  simp [runBlock]

/-- the product of one iteration, computed twice -/
theorem pair_result {E : Env} {K : String → Prop} {W : List String} {f : Expr → Expr} {x : Option (String × String)} {ρ0 τ0 : St}
    {B : List Stmt} (hP : PairOk E K W f x ρ0 τ0 B) (hK : ∀ n, K n → ρ0 n = τ0 n) (ho : opsOk W [] B) {y : String} {p : Expr}
    (hy : producerOf y B = some p) (hyW : y ∈ W) :
    (∀ t, x = some (y, t) → runBlock E (B.map (Stmt.pair f x)) τ0 t [] = runBlock E B ρ0 y [ρ0.ev E p] ∧
      runBlock E (B.map (Stmt.pair f x)) τ0 y = τ0 y) ∧
    ((∀ t, x ≠ some (y, t)) → ∀ j, runBlock E (B.map (Stmt.pair f x)) τ0 y j =
      if j = [τ0.ev E (f p)] then runBlock E B ρ0 y [ρ0.ev E p] else τ0 y j) := by
  obtain ⟨l, op, ins, r, rfl, hins, hl, hr⟩ := producerOf_split hy
  have hPl : PairOk E K W f x ρ0 τ0 l := by
    have : ∀ (r : List Stmt), PairOk E K W f x ρ0 τ0 (l ++ r) → PairOk E K W f x ρ0 τ0 l := fun r h =>
      ⟨h.wr, fun s hs => h.wl s (by simp [hs]), fun s hs => h.opd s (by simp [hs]), fun s hs => h.dim s (by simp [hs]),
        fun a t e => ⟨(h.ren a t e).1, (h.ren a t e).2.1, fun s hs => (h.ren a t e).2.2 s (by simp [hs])⟩⟩
    exact this _ hP
  obtain ⟨hS, done, hT, ho'⟩ := pair_run hPl ⟨fun _ _ => rfl, fun _ _ _ => rfl⟩ ⟨hK, fun _ h => by simp at h, fun _ h => by simp at h⟩ ho
  simp only [opsOk] at ho'
  have hmem : Stmt.tasklet op ins y [p] ∈ l ++ .tasklet op ins y [p] :: r := by simp
  have hdim : ∀ d ∈ (Stmt.tasklet op ins y [p]).subDims,
      (runBlock E l ρ0).ev E d = (runBlock E (l.map (Stmt.pair f x)) τ0).ev E (f d) :=
    fun d hd => hP.dim _ hmem d hd _ _ hS.lft hS.rgt
  have hp0 : ∀ ρ τ : St, PairSt W x ρ0 τ0 ρ τ → ρ.ev E p = τ.ev E (f p) :=
    fun ρ τ h => hP.dim _ hmem p (by simp [Stmt.subDims]) _ _ h.lft h.rgt
  have e1 : ρ0.ev E p = τ0.ev E (f p) := hp0 _ _ ⟨fun _ _ => rfl, fun _ _ _ => rfl⟩
  have e2 : (runBlock E l ρ0).ev E p = τ0.ev E (f p) := hp0 _ _ ⟨hS.lft, fun _ _ _ => rfl⟩
  have e3 : ρ0.ev E p = (runBlock E (l.map (Stmt.pair f x)) τ0).ev E (f p) := hp0 _ _ ⟨fun _ _ => rfl, hS.rgt⟩
  have hval := pair_operands (E := E) (f := f) hT ho'.1 (fun r hr h => hP.opd _ hmem _ (opds_mem hr) h)
    (fun r hr d hd => hdim d (by simp only [Stmt.subDims, List.mem_append, List.mem_flatMap]; exact Or.inl ⟨r, hr, hd⟩))
  have hleft : runBlock E (l ++ .tasklet op ins y [p] :: r) ρ0 y [ρ0.ev E p] =
      E.op op (ins.map fun r => runBlock E l ρ0 r.1 (r.2.map ((runBlock E l ρ0).ev E))) := by
    rw [runBlock_append]
    show runBlock E r ((Stmt.tasklet op ins y [p]).run E (runBlock E l ρ0)) y _ = _
    rw [block_still fun s hs hw => by have := touches_of_writes hw; rw [hr s hs] at this; cases this]
    simp [Stmt.run, St.set, e1, e2]
  have hnt : ∀ s : Stmt, s.touches y = false → ¬ writes s.users y := fun s h hw => by have := touches_of_writes hw; rw [h] at this; cases this
  refine ⟨fun t hx => ?_, fun hx j => ?_⟩
  · subst hx
    obtain ⟨ht1, ht2, -⟩ := hP.ren _ _ rfl
    have hty : y ≠ t := fun e => ht1 (e ▸ hyW)
    have hnw : ∀ q : List Stmt, (∀ s ∈ q, s.touches y = false) → (∀ s ∈ q, ∀ n, writes s.users n → n ∈ W) →
        ∀ σ : St, runBlock E (q.map (Stmt.pair f (some (y, t)))) σ t = σ t ∧ runBlock E (q.map (Stmt.pair f (some (y, t)))) σ y = σ y := by
      intro q hq hqW σ
      refine ⟨block_still (fun s' hs' hw => ?_) σ, block_still (fun s' hs' hw => ?_) σ⟩
      · obtain ⟨s, hs, rfl⟩ := List.mem_map.1 hs'
        rcases pair_writes hw with ⟨h, -⟩ | ⟨a, e, h⟩
        · exact ht1 (hqW s hs t h)
        · simp only [Option.some.injEq, Prod.mk.injEq] at e
          rw [← e.1, hq s hs] at h; cases h
      · obtain ⟨s, hs, rfl⟩ := List.mem_map.1 hs'
        rcases pair_writes hw with ⟨h, -⟩ | ⟨a, e, h⟩
        · exact hnt s (hq s hs) h
        · simp only [Option.some.injEq, Prod.mk.injEq] at e
          exact hty e.2.symm
    have hr' := hnw r hr fun s hs => hP.wl s (by simp [hs])
    have hl' := hnw l hl fun s hs => hP.wl s (by simp [hs])
    rw [List.map_append, List.map_cons, runBlock_append, hleft, hval]
    show runBlock E (r.map _) ((Stmt.pair f (some (y, t)) (.tasklet op ins y [p])).run E _) t [] = _ ∧
      runBlock E (r.map _) ((Stmt.pair f (some (y, t)) (.tasklet op ins y [p])).run E _) y = _
    rw [(hr' _).1, (hr' _).2]
    simp only [Stmt.pair, if_true, Stmt.run, List.map_nil]
    refine ⟨by simp [St.set], ?_⟩
    rw [St.set_other _ _ _ hty, (hl' _).2]
  · have hnw : ∀ q : List Stmt, (∀ s ∈ q, s.touches y = false) →
        ∀ σ : St, runBlock E (q.map (Stmt.pair f x)) σ y = σ y := by
      intro q hq σ
      refine block_still (fun s' hs' hw => ?_) σ
      obtain ⟨s, hs, rfl⟩ := List.mem_map.1 hs'
      rcases pair_writes hw with ⟨h, -⟩ | ⟨a, e, h⟩
      · exact hnt s (hq s hs) h
      · exact (hP.ren _ _ e).1 hyW
    have hpair : (Stmt.tasklet op ins y [p]).pair f x = .tasklet op (ins.map fun r => (r.1, r.2.map f)) y [f p] := by
      cases x with
      | none => rfl
      | some q =>
        obtain ⟨a, t⟩ := q
        have : y ≠ a := fun e => hx t (by rw [e])
        simp [Stmt.pair, this]
    rw [List.map_append, List.map_cons, runBlock_append, hleft, hval]
    show runBlock E (r.map _) ((Stmt.pair f x (.tasklet op ins y [p])).run E _) y j = _
    rw [hnw r hr, hpair]
    simp only [Stmt.run, St.set, List.map_cons, List.map_nil, true_and]
    rw [← e3, ← e1]
    by_cases e : j = [ρ0.ev E p]
    · rw [if_pos e, if_pos e]
    · rw [if_neg e, if_neg e, hnw l hl]

/-! ### the iteration that produced an element -/

/-- SymEngine contract: expanding, simplifying and taking a polynomial apart introduce no symbols, and a monomial has one exponent per generator. -/
structure NoNewSyms (P : PolyEngine) : Prop where
  expand : ∀ e s, s ∈ (P.expand e).atoms → s ∈ e.atoms
  norm : ∀ e s, s ∈ (P.norm e).atoms → s ∈ e.atoms
  poly : ∀ e gens D, P.poly e gens = some D → ∀ t ∈ D, t.1.length = gens.length ∧ ∀ s ∈ t.2.atoms, s ∈ e.atoms

theorem affine_go_atoms {symbols : List String} {D : Poly} {f g : String → Expr} (h : affineCoefficients.go symbols D f = some g) {x s : String}
    (hs : s ∈ (g x).atoms) : (∃ y, s ∈ (f y).atoms) ∨ ∃ t ∈ D, s ∈ t.2.atoms := by
  induction D generalizing f with
  | nil => simp only [affineCoefficients.go, Option.some.injEq] at h; subst h; exact Or.inl ⟨x, hs⟩
  | cons t D ih =>
    obtain ⟨es, c⟩ := t
    simp only [affineCoefficients.go] at h
    split at h
    · cases h
    · rcases ih h with ⟨y, hy⟩ | ⟨t, ht, hy⟩
      · split at hy
        · simp only [Expr.atoms, Expr.atomsL, List.append_nil, List.mem_append] at hy
          rcases hy with hy | hy
          · exact Or.inl ⟨_, hy⟩
          · exact Or.inr ⟨(es, c), by simp, hy⟩
        · exact Or.inl ⟨y, hy⟩
      · exact Or.inr ⟨t, by simp [ht], hy⟩

theorem affine_index_atoms {symbols : List String} {D : Poly} {A : Affine} (h : affineCoefficients D symbols = some A) {x s : String}
    (hs : s ∈ (A.at' x).atoms) : ∃ t ∈ D, s ∈ t.2.atoms := by
  unfold affineCoefficients at h
  split at h
  · rename_i g hg
    simp only [Option.some.injEq] at h; subst h
    rcases affine_go_atoms hg hs with ⟨y, hy⟩ | hh
    · simp [Expr.atoms] at hy
    · exact hh
  · cases h

theorem sdiv_atoms {l r q : Expr} (h : sdiv l r = .ok q) {s : String} (hs : s ∈ q.atoms) : s ∈ l.atoms ∨ s ∈ r.atoms := by
  have hf : s ∈ (Expr.fn "idiv" [l, r]).atoms → s ∈ l.atoms ∨ s ∈ r.atoms := by
    simp [Expr.atoms, Expr.atomsL]
  unfold sdiv at h
  split at h
  · simp only [Res.ok.injEq] at h; subst h; exact hf hs
  · split at h
    · simp only [Res.ok.injEq] at h; subst h; exact Or.inl hs
    · split at h
      · simp only [Res.ok.injEq] at h; subst h; simp [Expr.atoms] at hs
      · split at h
        · obtain ⟨a, -, h⟩ := Res.bind_ok h
          obtain ⟨b, -, h⟩ := Res.bind_ok h
          obtain ⟨c, -, h⟩ := Res.bind_ok h
          simp only [Res.ok.injEq] at h; subst h; simp [Expr.atoms] at hs
        · simp only [Res.ok.injEq] at h; subst h; exact hf hs

/-- the index mapping evaluates to the iteration that wrote the element -/
theorem mapIndex_value {E : Env} {P : PolyEngine} (hE : ∀ ρ, P.Sound ρ) (hN : P.NormSound) (hC : NoNewSyms P) {i : String} (hi : i ≠ constName) {p e g : Expr}
    (h : mapIndex P i p e = some g) (hpi : ∀ D, P.poly p [i] = some D → ∀ t ∈ D, i ∉ t.2.atoms) {σ τ : St}
    (hdef : ∀ v, (σ.setS i v).defd E p) (hinj : ∀ v v', (σ.setS i v).ev E p = (σ.setS i v').ev E p → v = v')
    (hst : ∀ n ∈ p.atoms, n ≠ i → τ n [] = σ n []) (he : τ.defd E e) {v : Int} (hv : τ.ev E e = (σ.setS i v).ev E p) :
    g.eval (τ.val E) = .fin v ∧ ∀ n ∈ g.atoms, n ∈ e.atoms ∨ (n ∈ p.atoms ∧ n ≠ i) := by
  unfold mapIndex at h
  split at h
  · cases h
  · rename_i D hD
    split at h
    · cases h
    · rename_i A hA
      split at h
      · cases h
      · split at h
        · rename_i q hq
          simp only [Option.some.injEq] at h; subst h
          have hat : ∀ x, ∀ n ∈ (A.at' x).atoms, n ∈ p.atoms ∧ n ≠ i := by
            intro x n hn
            obtain ⟨t, ht, hs⟩ := affine_index_atoms hA hn
            exact ⟨(hC.poly _ _ _ hD t ht).2 n hs, fun e => hpi D hD t ht (e ▸ hs)⟩
          have hcv : ∀ v, ∃ cv : String → Int, (∀ x, (A.at' x).eval (τ.val E) = .fin (cv x)) ∧ (σ.setS i v).ev E p = cv i * v + cv constName := by
            intro v
            obtain ⟨cv, h1, h2⟩ := affine_coefficients_partial P ((σ.setS i v).val E) (hE _) p [i] (by simp) (by simpa using fun e => hi e.symm) D hD
              (fun t ht => (hC.poly _ _ _ hD t ht).1) A hA _ (St.eval_of_defd (hdef v))
            refine ⟨cv, fun x => ?_, by simpa [St.val] using h2⟩
            rw [← h1 x]
            refine eval_congr_atoms _ _ _ rfl fun n hn => ?_
            obtain ⟨a, b⟩ := hat x n hn
            show τ n [] = (σ.setS i v) n []
            rw [St.setS_other _ _ b]; exact hst n a b
          obtain ⟨cv, h1, -⟩ := hcv 0
          have hval : ∀ v, (σ.setS i v).ev E p = cv i * v + cv constName := by
            intro v
            obtain ⟨cw, a, b⟩ := hcv v
            have e1 : cw i = cv i := by have := a i; rw [h1 i] at this; simpa using this.symm
            have e2 : cw constName = cv constName := by have := a constName; rw [h1 constName] at this; simpa using this.symm
            rw [b, e1, e2]
          have hne : cv i ≠ 0 := by
            intro h0
            have := hinj 0 1 (by rw [hval, hval, h0]; simp)
            omega
          have hnum : (ssub e (P.norm (A.at' constName))).eval (τ.val E) = .fin (τ.ev E e - cv constName) :=
            eval_ssub (St.eval_of_defd he) (hN _ _ _ (h1 constName))
          have hdiv := div_value _ _ _ _ _ _ hnum (hN _ _ _ (h1 i)) hne hq
          rw [hv, hval, Int.add_sub_cancel, Int.mul_tdiv_cancel_left _ hne] at hdiv
          refine ⟨(hE _).expand_val _ _ hdiv, fun n hn => ?_⟩
          rcases sdiv_atoms hq (hC.expand _ _ hn) with hn | hn
          · simp only [ssub, Expr.atoms, Expr.atomsL, List.append_nil, List.mem_append] at hn
            rcases hn with hn | hn
            · exact Or.inl hn
            · exact Or.inr (hat _ _ (hC.norm _ _ (by simpa using hn)))
          · exact Or.inr (hat _ _ (hC.norm _ _ hn))
        · cases h

end Docc.IR

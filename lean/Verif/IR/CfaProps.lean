import Verif.IR.Cfa

/-
Executions follow the control flow graph.
-/
namespace Docc.IR
open Docc.Sym

/-! ### the specification erases to the meaning of programs -/

mutual
theorem Node.cvis_rel (E : Env) : (n : Node) → ∀ k, (n.cvis E k).rel = n.den E
  | .block l, k => by rw [Node.cvis, TR.rel_emit, Node.den]
  | .seq s, k => by rw [Node.cvis, Seq.cvis_rel E s, Node.den]
  | .ifElse b, k => by
    rw [Node.cvis, TR.rel_seq, TR.rel_emit, Brs.cvis_rel E b, Node.den]
    exact Rel.skip_seq _
  | .whileL s, k => by
    rw [Node.cvis, TR.rel_forever, TR.rel_seq, TR.rel_emit, Seq.cvis_rel E s, Node.den]
    exact congrArg _ (Rel.skip_seq _)
  | .loop _ i a c u s, k => by rw [Node.cvis, TR.rel_seq, TR.rel_emit, TR.rel_iter, Seq.cvis_rel E s, Node.den]
  | .brk, _ => by rw [Node.cvis, TR.rel_jump, Node.den]
  | .cont, _ => by rw [Node.cvis, TR.rel_jump, Node.den]
  | .ret _ _, _ => by rw [Node.cvis, TR.rel_jump, Node.den]
theorem Seq.cvis_rel (E : Env) : (s : Seq) → ∀ k, (s.cvis E k).rel = s.den E
  | .nil, _ => by rw [Seq.cvis, TR.rel_emit, Seq.den]
  | .cons n t r, k => by rw [Seq.cvis, TR.rel_seq, TR.rel_seq, TR.rel_emit, Node.cvis_rel E n, Seq.cvis_rel E r, Seq.den]
theorem Brs.cvis_rel (E : Env) : (b : Brs) → ∀ k, (b.cvis E k).rel = b.den E
  | .nil, _ => by rw [Brs.cvis, TR.rel_emit, Brs.den]
  | .cons c s r, k => by rw [Brs.cvis, TR.rel_ite, Seq.cvis_rel E s, Brs.cvis_rel E r, Brs.den]
end

/-- visiting nodes does not change what a function does -/
theorem visits_iff (E : Env) (s : Seq) (σ : St) (c : Ctl) (σ' : St) : (∃ l, s.Visits E σ l (some (c, σ'))) ↔ s.den E σ c σ' := by
  have := congrFun (congrFun (congrFun (Seq.cvis_rel E s 1) σ) c) σ'
  rw [← this]; rfl

/-! ### following the graph -/

/-- Every node visited by `R` can be reached from `f` over nodes visited before; if `R` ends normally, so can `e` (which can then be left), and
after a jump the vertex `L` of the loop. -/
def Follows (P : V → Prop) (G : List (V × V)) (f : V) (e : Option V) (L : V) (R : TR) : Prop := ∀ σ l o, R σ l o →
  (∀ l1 b l2, l = l1 ++ b :: l2 → (∀ v ∈ l1, P v) → Reach G P f b) ∧
  (∀ σ', o = some (.normal, σ') → (∀ v ∈ l, P v) → ∃ z, e = some z ∧ P z ∧ Reach G P f z) ∧
  ∀ c σ', o = some (c, σ') → c = .brk ∨ c = .cont → (∀ v ∈ l, P v) → Reach G P f L

theorem Follows.mono {P : V → Prop} {G G' : List (V × V)} {f L : V} {e : Option V} {R : TR} (h : Follows P G f e L R) (hs : ∀ x ∈ G, x ∈ G') :
    Follows P G' f e L R := fun σ l o hr =>
  ⟨fun l1 b l2 hl hp => ((h σ l o hr).1 l1 b l2 hl hp).mono hs,
    fun σ' ho hp => let ⟨z, h1, h2, h3⟩ := (h σ l o hr).2.1 σ' ho hp; ⟨z, h1, h2, h3.mono hs⟩,
    fun c σ' ho hc hp => ((h σ l o hr).2.2 c σ' ho hc hp).mono hs⟩

theorem Follows.after {P : V → Prop} {G : List (V × V)} {a f L : V} {e : Option V} {R : TR} (h : Follows P G f e L R) (ha : Reach G P a f) :
    Follows P G a e L R := fun σ l o hr =>
  ⟨fun l1 b l2 hl hp => ha.trans ((h σ l o hr).1 l1 b l2 hl hp),
    fun σ' ho hp => let ⟨z, h1, h2, h3⟩ := (h σ l o hr).2.1 σ' ho hp; ⟨z, h1, h2, ha.trans h3⟩,
    fun c σ' ho hc hp => ha.trans ((h σ l o hr).2.2 c σ' ho hc hp)⟩

/-- a step without visits in front -/
theorem Follows.silent {P : V → Prop} {G : List (V × V)} {f L : V} {e : Option V} {R : TR} (h : Follows P G f e L R) (g : St → St) :
    Follows P G f e L (TR.seq (TR.emit [] g) R) := by
  rintro σ l o (⟨l1, l2, σ1, ⟨rfl, h1⟩ | ⟨_, h1⟩, h2, rfl⟩ | ⟨⟨rfl, h1⟩ | ⟨h1, h1'⟩, h2⟩)
  · exact h _ _ _ h2
  · cases h1
  · exact absurd h1 (h2 _)
  · obtain rfl := List.prefix_nil.mp h1
    subst h1'
    exact ⟨fun l1 b l2 hl => (by simp at hl), fun _ ho => (by cases ho), fun _ _ ho => (by cases ho)⟩

/-- one visit -/
theorem follows_emit {P : V → Prop} {G : List (V × V)} {f L : V} (g : St → St) : Follows P G f (some f) L (TR.emit [f] g) := by
  rintro σ l o (⟨rfl, rfl⟩ | ⟨hl, rfl⟩)
  · refine ⟨fun l1 b l2 hl hp => ?_, fun _ _ hp => ⟨f, rfl, hp f (by simp), .refl⟩, fun c _ ho hc => by
      cases ho; rcases hc with hc | hc <;> cases hc⟩
    cases l1 with
    | nil => simp only [List.nil_append, List.cons.injEq] at hl; rw [← hl.1]; exact .refl
    | cons x y => simp at hl
  · refine ⟨fun l1 b l2 he hp => ?_, fun _ ho => (by cases ho), fun _ _ ho => (by cases ho)⟩
    obtain ⟨r, hr⟩ := prefix_mid hl he
    cases l1 with
    | nil => simp only [List.nil_append, List.cons.injEq] at hr; rw [← hr.1]; exact .refl
    | cons x y => simp at hr

/-- a jump -/
theorem follows_jump {P : V → Prop} {G : List (V × V)} {f L : V} {e : Option V} {c : Ctl} (hc : c ≠ .normal) (hL : c = .brk ∨ c = .cont → (f, L) ∈ G) :
    Follows P G f e L (TR.jump [f] c) := by
  rintro σ l o (⟨rfl, rfl⟩ | ⟨hl, rfl⟩)
  · refine ⟨fun l1 b l2 hl hp => ?_, fun _ ho => absurd (by cases ho; rfl) hc, fun c' _ ho hc' hp => ?_⟩
    · cases l1 with
      | nil => simp only [List.nil_append, List.cons.injEq] at hl; rw [← hl.1]; exact .refl
      | cons x y => simp at hl
    · cases ho
      exact .one (hp f (by simp)) (hL hc')
  · refine ⟨fun l1 b l2 he hp => ?_, fun _ ho => (by cases ho), fun _ _ ho => (by cases ho)⟩
    obtain ⟨r, hr⟩ := prefix_mid hl he
    cases l1 with
    | nil => simp only [List.nil_append, List.cons.injEq] at hr; rw [← hr.1]; exact .refl
    | cons x y => simp at hr

/-- one part after the other; the second part begins at a vertex that follows the last of the first -/
theorem follows_seq {P : V → Prop} {G : List (V × V)} {f L : V} {m e : Option V} {R S : TR} (hR : Follows P G f m L R)
    (hS : ∀ z, m = some z → P z → Follows P G z e L S) : Follows P G f e L (TR.seq R S) := by
  rintro σ l o (⟨l1, l2, σ1, h1, h2, rfl⟩ | ⟨h1, h2⟩)
  · have key : (∀ v ∈ l1, P v) → ∃ z, m = some z ∧ P z ∧ Reach G P f z := fun hp => (hR _ _ _ h1).2.1 σ1 rfl hp
    refine ⟨fun a b c he hp => ?_, fun σ' ho hp => ?_, fun c σ' ho hc hp => ?_⟩
    · rcases split_mid he with ⟨r, hr⟩ | ⟨r, rfl, hr⟩
      · exact (hR _ _ _ h1).1 a b r hr hp
      · obtain ⟨z, hz, hpz, hz'⟩ := key fun v hv => hp v (by simp [hv])
        exact hz'.trans ((hS z hz hpz _ _ _ h2).1 r b c hr fun v hv => hp v (by simp [hv]))
    · obtain ⟨z, hz, hpz, hz'⟩ := key fun v hv => hp v (by simp [hv])
      obtain ⟨w, h3, h4, h5⟩ := (hS z hz hpz _ _ _ h2).2.1 σ' ho fun v hv => hp v (by simp [hv])
      exact ⟨w, h3, h4, hz'.trans h5⟩
    · obtain ⟨z, hz, hpz, hz'⟩ := key fun v hv => hp v (by simp [hv])
      exact hz'.trans ((hS z hz hpz _ _ _ h2).2.2 c σ' ho hc fun v hv => hp v (by simp [hv]))
  · exact ⟨(hR _ _ _ h1).1, fun σ' ho => absurd ho (h2 σ'), (hR _ _ _ h1).2.2⟩

/-- `while (1)`: every iteration visits the loop first -/
theorem follows_forever {P : V → Prop} {G : List (V × V)} {h L : V} {e : Option V} {R : TR} (hR : P h → Follows P G h e h R) : Follows P G h (some h) L (TR.forever (TR.seq (TR.emit [h] id) R)) := by
  have hit : Follows P G h e h (TR.seq (TR.emit [h] id) R) := follows_seq (follows_emit id) fun z hz hp => by
    cases hz; exact hR hp
  have hvis : ∀ {σ l o}, TR.seq (TR.emit [h] id) R σ l o → (o.isSome = true ∨ l ≠ []) → h ∈ l := by
    rintro σ l o (⟨l1, l2, σ1, ⟨rfl, _⟩ | ⟨_, h1⟩, h2, rfl⟩ | ⟨⟨rfl, h1⟩ | ⟨h1, h1'⟩, h2⟩) hl
    · simp
    · cases h1
    · simp
    · subst h1'
      rcases hl with hl | hl
      · cases hl
      · cases l with
        | nil => exact absurd rfl hl
        | cons x y =>
          obtain ⟨r, hr⟩ := h1
          simp only [List.cons_append, List.cons.injEq] at hr
          simp [hr.1]
  intro σ l o hf
  induction hf with
  | cut h1 => exact ⟨(hit _ _ _ h1).1, fun _ ho => (by cases ho), fun _ _ ho => (by cases ho)⟩
  | @step σ l σ1 l' o k h1 hk h2 ih =>
    have hl : h ∈ l := hvis h1 (.inl rfl)
    refine ⟨fun a b c he' hp => ?_, fun σ' ho hp => ?_, fun c σ' ho hc hp => ?_⟩
    · rcases split_mid he' with ⟨r, hr⟩ | ⟨r, rfl, hr⟩
      · exact (hit _ _ _ h1).1 a b r hr hp
      · exact ih.1 r b c hr fun v hv => hp v (by simp [hv])
    · exact ⟨h, rfl, hp h (by simp [hl]), .refl⟩
    · exact ih.2.2 c σ' ho hc fun v hv => hp v (by simp [hv])
  | stop h1 =>
    have hl := hvis h1 (.inl rfl)
    refine ⟨(hit _ _ _ h1).1, fun _ _ hp => ⟨h, rfl, hp h hl, .refl⟩, fun c _ ho hc => by cases ho; rcases hc with hc | hc <;> cases hc⟩
  | ret d q h1 =>
    refine ⟨(hit _ _ _ h1).1, fun _ ho => (by cases ho), fun c _ ho hc => by cases ho; rcases hc with hc | hc <;> cases hc⟩

/-- `for`: every check of the condition visits the loop -/
theorem follows_iter {P : V → Prop} {G : List (V × V)} {h L : V} {e : Option V} {b : St → Bool} {u : St → St} {R : TR} (hR : P h → Follows P G h e h R) :
    Follows P G h (some h) L (TR.iter b u [h] [] R) := by
  have one : ∀ {l1 l2 : List V} {x : V}, [h] = l1 ++ x :: l2 → x = h := by
    intro l1 l2 x he
    cases l1 with
    | nil => simp only [List.nil_append, List.cons.injEq] at he; exact he.1.symm
    | cons y z => simp at he
  have tail : ∀ {l a c : List V} {x : V}, [h] ++ l = a ++ x :: c → x = h ∨ ∃ r, a = h :: r ∧ l = r ++ x :: c := by
    intro l a c x he
    cases a with
    | nil => simp only [List.cons_append, List.nil_append, List.cons.injEq] at he; exact .inl he.1.symm
    | cons y z =>
      simp only [List.cons_append, List.nil_append, List.cons.injEq] at he
      exact .inr ⟨z, by rw [he.1], he.2⟩
  intro σ l o hf
  induction hf with
  | @cut σ l hl =>
    refine ⟨fun a x c he hp => ?_, fun _ ho => (by cases ho), fun _ _ ho => (by cases ho)⟩
    obtain ⟨r, hr⟩ := prefix_mid hl he
    rw [one hr]; exact .refl
  | done _ =>
    refine ⟨fun a x c he hp => ?_, fun _ _ hp => ⟨h, rfl, hp h (by simp), .refl⟩, fun c _ ho hc => by cases ho; rcases hc with hc | hc <;> cases hc⟩
    rw [one he]; exact .refl
  | cutBody _ h1 =>
    refine ⟨fun a x c he hp => ?_, fun _ ho => (by cases ho), fun _ _ ho => (by cases ho)⟩
    rcases tail he with rfl | ⟨r, rfl, hr⟩
    · exact .refl
    · exact (hR (hp h (by simp)) _ _ _ h1).1 r x c hr fun v hv => hp v (by simp [hv])
  | cutUpd k _ h1 _ hl =>
    refine ⟨fun a x c he hp => ?_, fun _ ho => (by cases ho), fun _ _ ho => (by cases ho)⟩
    obtain rfl := List.prefix_nil.mp hl
    rw [List.append_nil] at he
    rcases tail he with rfl | ⟨r, rfl, hr⟩
    · exact .refl
    · exact (hR (hp h (by simp)) _ _ _ h1).1 r x c hr fun v hv => hp v (by simp [hv])
  | step k _ h1 _ _ ih =>
    refine ⟨fun a x c he hp => ?_, fun σ' ho hp => ⟨h, rfl, hp h (by simp), .refl⟩, fun c σ' ho hc hp => ?_⟩
    · rcases tail he with rfl | ⟨r, rfl, hr⟩
      · exact .refl
      · rw [List.nil_append] at hr
        rcases split_mid hr with ⟨q, hq⟩ | ⟨q, rfl, hq⟩
        · exact (hR (hp h (by simp)) _ _ _ h1).1 r x q hq fun v hv => hp v (by simp [hv])
        · exact ih.1 q x c hq fun v hv => hp v (by simp [hv])
    · exact ih.2.2 c σ' ho hc fun v hv => hp v (by simp [hv])
  | stop _ h1 =>
    refine ⟨fun a x c he hp => ?_, fun _ _ hp => ⟨h, rfl, hp h (by simp), .refl⟩, fun c _ ho hc => by cases ho; rcases hc with hc | hc <;> cases hc⟩
    rcases tail he with rfl | ⟨r, rfl, hr⟩
    · exact .refl
    · exact (hR (hp h (by simp)) _ _ _ h1).1 r x c hr fun v hv => hp v (by simp [hv])
  | ret d q _ h1 =>
    refine ⟨fun a x c he hp => ?_, fun _ ho => (by cases ho), fun c _ ho hc => by cases ho; rcases hc with hc | hc <;> cases hc⟩
    rcases tail he with rfl | ⟨r, rfl, hr⟩
    · exact .refl
    · exact (hR (hp h (by simp)) _ _ _ h1).1 r x c hr fun v hv => hp v (by simp [hv])

end Docc.IR

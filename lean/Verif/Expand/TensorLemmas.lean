import Verif.Expand.Tensor
/-
Lemmas for the expansions of tensor nodes.
-/
namespace Docc.Expand
open Docc.Sym Docc.IR Docc.Types

/-- the states during a nest: everything but the output and the loop variables is as at the start -/
def During (σ : St) (Y : String) (vs : List String) (s : St) : Prop := ∀ x, x ≠ Y → x ∉ vs → s x = σ x

theorem during_ev {E : Env} {σ s : St} {Y : String} {vs : List String} (h : During σ Y vs s) {e : Expr} (he : ∀ x ∈ e.atoms, x ∉ vs ∧ x ≠ Y) :
    s.ev E e = σ.ev E e := St.ev_congr E fun x hx => by rw [h x (he x hx).2 (he x hx).1]

theorem during_eval {E : Env} {σ s : St} {Y : String} {vs : List String} (h : During σ Y vs s) {e : Expr} (he : ∀ x ∈ e.atoms, x ∉ vs ∧ x ≠ Y) :
    e.eval (s.val E) = e.eval (σ.val E) := eval_congr_atoms e _ _ rfl fun x hx => by
  show s x [] = σ x []
  rw [h x (he x hx).2 (he x hx).1]

theorem one_block (E : Env) (l : List Stmt) (s : St) (c : Ctl) (s' : St) :
    (Seq.one (.block l)).den E s c s' ↔ c = .normal ∧ s' = runBlock E l s := by
  show Rel.seq (Rel.upd (runBlock E l)) (Rel.seq (Rel.upd (runTrans E [])) (Rel.upd id)) s c s' ↔ _
  rw [Rel.seq_skip]
  rw [show Rel.upd (runTrans E []) = Rel.upd id from rfl, Rel.seq_skip]
  exact Iff.rfl

/-- a nest around one tasklet -/
theorem point_nest {E : Env} {σ : St} {op : String} {ins : List (String × List Expr)} {Y : String} {osub : List Expr} {ds : List Dim}
    (hnd : (ds.map (·.2.1)).Nodup) (hY : Y ∉ ds.map (·.2.1)) (hsh : ∀ d ∈ ds, ∀ x ∈ d.2.2.atoms, x ∉ ds.map (·.2.1) ∧ x ≠ Y)
    {A : List Int → List Int} {F : List Int → Int → Int}
    (hA : ∀ s, During σ Y (ds.map (·.2.1)) s → osub.map (s.ev E) = A (ixOf (ds.map (·.2.1)) s))
    (hF : ∀ s, During σ Y (ds.map (·.2.1)) s → E.op op (ins.map fun r => s r.1 (r.2.map (s.ev E))) =
      F (ixOf (ds.map (·.2.1)) s) (s Y (A (ixOf (ds.map (·.2.1)) s)))) {s : St} (hs : During σ Y (ds.map (·.2.1)) s) :
    ∃ s', (∀ c s1, (nest (point op ins (Y, osub)) ds).den E s c s1 ↔ c = .normal ∧ s1 = s') ∧
      During σ Y (ds.map (·.2.1)) s' ∧
      ∀ j, s' Y j = ((box (ds.map fun d => σ.ev E d.2.2)).filter (fun ix => A ix = j)).foldl (fun acc ix => F ix acc) (s Y j) := by
  have H : Stable E (point op ins (Y, osub)) (runBlock E [.tasklet op ins Y osub]) (During σ Y (ds.map (·.2.1))) (ds.map (·.2.1)) := by
    refine ⟨fun s c s' _ => one_block E _ s c s', fun s hs x hx hxv => ?_, fun s v k hv hs x hx hxv => ?_, fun s v _ hv => ?_⟩
    · simp only [runBlock, List.foldl_cons, List.foldl_nil, Stmt.run]
      rw [St.set_other _ _ _ hx]
      exact hs x hx hxv
    · rw [St.setS_other _ _ (by intro h; subst h; exact hxv hv)]
      exact hs x hx hxv
    · simp only [runBlock, List.foldl_cons, List.foldl_nil, Stmt.run]
      rw [St.set_other _ _ _ (by intro h; subst h; exact hY hv)]
  obtain ⟨s', h1, h2, h3⟩ := nest_acc (ns := ds.map fun d => σ.ev E d.2.2) H hnd
    (fun s hs => List.map_congr_left fun d hd => during_ev hs (hsh d hd)) hY (W := []) List.not_mem_nil (A := A) (F := F)
    (fun s hs y j _ => by
      simp only [runBlock, List.foldl_cons, List.foldl_nil, Stmt.run]
      rw [hA s hs, hF s hs]) hs
  refine ⟨s', h1, h2, fun j => ?_⟩
  have := h3 Y j hY List.not_mem_nil
  simpa using this

theorem lin_eval {ρ : Val} : ∀ (ix ss : List Expr) (acc : Expr) (a : Int) (iv sv : List Int), acc.eval ρ = .fin a → Vals ρ ix iv → Vals ρ ss sv →
    (linExpr acc ix ss).eval ρ = .fin (a + dot sv iv)
  | [], ss, acc, a, iv, sv, ha, hi, _ => by
    have : iv = [] := by simpa [Vals] using hi
    subst this
    cases ss <;> cases sv <;> simp [linExpr, dot, ha]
  | i :: ix, [], acc, a, iv, sv, ha, _, hs => by
    have : sv = [] := by simpa [Vals] using hs
    subst this
    simp [linExpr, dot, ha]
  | i :: ix, s :: ss, acc, a, iv, sv, ha, hi, hs => by
    cases iv with
    | nil => simp [Vals] at hi
    | cons i' iv =>
    cases sv with
    | nil => simp [Vals] at hs
    | cons s' sv =>
    simp only [Vals, List.map_cons, List.cons.injEq] at hi hs
    rw [linExpr, lin_eval ix ss _ (a + i' * s') iv sv (Docc.Types.eval_add2 ha (Docc.Types.eval_mul2 hi.1 hs.1)) hi.2 hs.2, dot]
    congr 1
    rw [Int.mul_comm i' s']
    omega

theorem vals_of_concrete {E : Env} {σ : St} {l : List Expr} (h : ∀ e ∈ l, σ.defd E e) : Vals (σ.val E) l (l.map (σ.ev E)) := by
  induction l with
  | nil => rfl
  | cons e r ih =>
    simp only [Vals, List.map_cons, List.cons.injEq]
    exact ⟨St.eval_of_defd (h e List.mem_cons_self), ih fun e' he' => h e' (List.mem_cons_of_mem _ he')⟩

/-- the address of a memlet during the nest -/
theorem sub_ev {E : Env} {σ s : St} {Y : String} {vs : List String} (h : During σ Y vs s) {T : Tensor} (hc : Concrete E σ T)
    (hf : ∀ x ∈ tySyms T, x ∉ vs ∧ x ≠ Y) {ix : List Expr} {iv : List Int} (hi : Vals (s.val E) ix iv) :
    (sub T ix).map (s.ev E) = elemAddr E σ T iv := by
  unfold sub elemAddr
  split
  · rfl
  · have ho : T.offset.eval (s.val E) = .fin (σ.ev E T.offset) := by
      rw [during_eval h fun x hx => hf x (List.mem_append_right _ hx)]
      exact St.eval_of_defd hc.2
    have hs : Vals (s.val E) T.strides (T.strides.map (σ.ev E)) := by
      have := vals_of_concrete hc.1
      rw [Vals] at this ⊢
      rw [← this]
      apply List.map_congr_left
      intro e he
      exact during_eval h fun x hx => hf x (List.mem_append_left _ ((Expr.mem_atomsL x _).mpr ⟨e, he, hx⟩))
    simp only [List.map_cons, List.map_nil, addr]
    rw [St.ev_of_eval (lin_eval ix T.strides T.offset _ iv _ ho hi hs)]

theorem vals_syms (E : Env) (s : St) (vs : List String) : Vals (s.val E) (syms vs) (ixOf vs s) := by
  simp [Vals, syms, ixOf, Expr.eval, St.val]

theorem dims_vars {m : Bool} {vs : List String} {shape : List Expr} (h : vs.length = shape.length) : (dims m vs shape).map (·.2.1) = vs := by
  simp only [dims, List.map_map, Function.comp_def]
  exact List.map_fst_zip (by omega)

theorem dims_ext {m : Bool} {vs : List String} {shape : List Expr} (h : vs.length = shape.length) : (dims m vs shape).map (·.2.2) = shape := by
  simp only [dims, List.map_map, Function.comp_def]
  exact List.map_snd_zip (by omega)

/-- the updates of an element if positions are different -/
theorem filter_one {A : List Int → List Int} {l : List (List Int)} (hnd : l.Nodup) (hA : ∀ a ∈ l, ∀ b ∈ l, A a = A b → a = b) {ix : List Int}
    (hix : ix ∈ l) : l.filter (fun b => A b = A ix) = [ix] := by
  induction l with
  | nil => cases hix
  | cons a r ih =>
    rw [List.nodup_cons] at hnd
    by_cases h : A a = A ix
    · have : a = ix := hA a List.mem_cons_self ix hix h
      subst this
      rw [List.filter_cons_of_pos (by simp), List.filter_eq_nil_iff.mpr]
      intro b hb
      simp only [decide_eq_true_eq]
      intro hb'
      exact hnd.1 (hA b (List.mem_cons_of_mem _ hb) a List.mem_cons_self hb' ▸ hb)
    · rw [List.filter_cons_of_neg (by simpa using h)]
      refine ih hnd.2 (fun a ha b hb => hA a (List.mem_cons_of_mem _ ha) b (List.mem_cons_of_mem _ hb)) ?_
      rcases List.mem_cons.mp hix with rfl | h'
      · exact absurd rfl h
      · exact h'

end Docc.Expand

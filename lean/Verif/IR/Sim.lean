import Verif.IR.Sem
import Verif.Sym.CondOps

/-
Simulations between behaviours, and agreement of memories outside a set of containers.
-/
namespace Docc.IR
open Docc.Sym

namespace Rel

/-- `S` simulates `R` under `A`: from related states every terminating execution of `R` has an execution of `S` with the
same outcome ending in related states. -/
def sim (A : St → St → Prop) (R S : Rel) : Prop :=
  ∀ σ τ c σ', A σ τ → R σ c σ' → ∃ τ', S τ c τ' ∧ A σ' τ'

theorem sim_of_sub {R S : Rel} (h : sub R S) : sim Eq R S := by
  rintro σ _ c σ' rfl hr; exact ⟨σ', h _ _ _ hr, rfl⟩

theorem sub_of_sim {R S : Rel} (h : sim Eq R S) : sub R S := by
  intro σ c σ' hr
  obtain ⟨_, hs, rfl⟩ := h σ σ c σ' rfl hr
  exact hs

theorem upd_sim {A : St → St → Prop} {f g : St → St} (h : ∀ σ τ, A σ τ → A (f σ) (g τ)) : sim A (upd f) (upd g) := by
  rintro σ τ c σ' ha ⟨rfl, rfl⟩
  exact ⟨g τ, ⟨rfl, rfl⟩, h _ _ ha⟩

theorem exit_sim (A : St → St → Prop) (k : Ctl) : sim A (exit k) (exit k) := by
  rintro σ τ c σ' ha ⟨rfl, rfl⟩
  exact ⟨τ, ⟨rfl, rfl⟩, ha⟩

theorem seq_sim {A : St → St → Prop} {R R' S S' : Rel} (h1 : sim A R R') (h2 : sim A S S') :
    sim A (seq R S) (seq R' S') := by
  rintro σ τ c σ' ha (⟨σ1, a, b⟩ | ⟨hc, a⟩)
  · obtain ⟨τ1, a', ha1⟩ := h1 _ _ _ _ ha a
    obtain ⟨τ', b', ha'⟩ := h2 _ _ _ _ ha1 b
    exact ⟨τ', Or.inl ⟨τ1, a', b'⟩, ha'⟩
  · obtain ⟨τ1, a', ha1⟩ := h1 _ _ _ _ ha a
    exact ⟨τ1, Or.inr ⟨hc, a'⟩, ha1⟩

theorem ite_sim {A : St → St → Prop} {b b' : St → Bool} {R R' S S' : Rel} (hb : ∀ σ τ, A σ τ → b σ = b' τ)
    (h1 : sim A R R') (h2 : sim A S S') : sim A (ite b R S) (ite b' R' S') := by
  intro σ τ c σ' ha h
  simp only [ite] at h ⊢
  rw [← hb _ _ ha]
  split at h
  · rename_i hc; simp only [hc, if_true]; exact h1 _ _ _ _ ha h
  · rename_i hc; simp only [hc]; exact h2 _ _ _ _ ha h

theorem forever_sim {A : St → St → Prop} {R R' : Rel} (h : sim A R R') : sim A (forever R) (forever R') := by
  intro σ τ c σ' ha hr
  induction hr generalizing τ with
  | step k h1 h2 _ ih =>
    obtain ⟨τ1, a', ha1⟩ := h _ _ _ _ ha h1
    obtain ⟨τ', b', ha'⟩ := ih _ ha1
    exact ⟨τ', .step k a' h2 b', ha'⟩
  | stop h1 =>
    obtain ⟨τ1, a', ha1⟩ := h _ _ _ _ ha h1
    exact ⟨τ1, .stop a', ha1⟩
  | ret d q h1 =>
    obtain ⟨τ1, a', ha1⟩ := h _ _ _ _ ha h1
    exact ⟨τ1, .ret d q a', ha1⟩

theorem iter_sim {A : St → St → Prop} {b b' : St → Bool} {u u' : St → St} {R R' : Rel}
    (hb : ∀ σ τ, A σ τ → b σ = b' τ) (hu : ∀ σ τ, A σ τ → A (u σ) (u' τ)) (h : sim A R R') :
    sim A (iter b u R) (iter b' u' R') := by
  intro σ τ c σ' ha hr
  induction hr generalizing τ with
  | done h1 => exact ⟨τ, .done (by rw [← hb _ _ ha]; exact h1), ha⟩
  | step k h0 h1 h2 _ ih =>
    obtain ⟨τ1, a', ha1⟩ := h _ _ _ _ ha h1
    obtain ⟨τ', b', ha'⟩ := ih _ (hu _ _ ha1)
    exact ⟨τ', .step k (by rw [← hb _ _ ha]; exact h0) a' h2 b', ha'⟩
  | stop h0 h1 =>
    obtain ⟨τ1, a', ha1⟩ := h _ _ _ _ ha h1
    exact ⟨τ1, .stop (by rw [← hb _ _ ha]; exact h0) a', ha1⟩
  | ret d q h0 h1 =>
    obtain ⟨τ1, a', ha1⟩ := h _ _ _ _ ha h1
    exact ⟨τ1, .ret d q (by rw [← hb _ _ ha]; exact h0) a', ha1⟩

/-- A property of states preserved by every execution of `R`. -/
def inv (P : St → Prop) (R : Rel) : Prop := ∀ σ c σ', P σ → R σ c σ' → P σ'

theorem upd_inv {P : St → Prop} {f : St → St} (h : ∀ σ, P σ → P (f σ)) : inv P (upd f) := by
  rintro σ c σ' hp ⟨_, rfl⟩; exact h _ hp

theorem exit_inv (P : St → Prop) (k : Ctl) : inv P (exit k) := by
  rintro σ c σ' hp ⟨_, rfl⟩; exact hp

theorem seq_inv {P : St → Prop} {R S : Rel} (h1 : inv P R) (h2 : inv P S) : inv P (seq R S) := by
  rintro σ c σ' hp (⟨σ1, a, b⟩ | ⟨_, a⟩)
  · exact h2 _ _ _ (h1 _ _ _ hp a) b
  · exact h1 _ _ _ hp a

theorem ite_inv {P : St → Prop} {b : St → Bool} {R S : Rel} (h1 : inv P R) (h2 : inv P S) : inv P (ite b R S) := by
  intro σ c σ' hp h
  simp only [ite] at h
  split at h
  · exact h1 _ _ _ hp h
  · exact h2 _ _ _ hp h

theorem forever_inv {P : St → Prop} {R : Rel} (h : inv P R) : inv P (forever R) := by
  intro σ c σ' hp hr
  induction hr with
  | step k h1 _ _ ih => exact ih (h _ _ _ hp h1)
  | stop h1 => exact h _ _ _ hp h1
  | ret d q h1 => exact h _ _ _ hp h1

theorem iter_inv {P : St → Prop} {b : St → Bool} {u : St → St} {R : Rel} (hu : ∀ σ, P σ → P (u σ)) (h : inv P R) :
    inv P (iter b u R) := by
  intro σ c σ' hp hr
  induction hr with
  | done _ => exact hp
  | step k _ h1 _ _ ih => exact ih (hu _ (h _ _ _ hp h1))
  | stop _ h1 => exact h _ _ _ hp h1
  | ret d q _ h1 => exact h _ _ _ hp h1

end Rel

/-- the two memories agree on every container outside `X` -/
def AgreeOff (X : String → Prop) (σ τ : St) : Prop := ∀ x, ¬ X x → σ x = τ x

theorem AgreeOff.refl (X : String → Prop) (σ : St) : AgreeOff X σ σ := fun _ _ => rfl
theorem AgreeOff.symm {X : String → Prop} {σ τ : St} (h : AgreeOff X σ τ) : AgreeOff X τ σ := fun x hx => (h x hx).symm
theorem AgreeOff.trans {X : String → Prop} {σ τ υ : St} (h : AgreeOff X σ τ) (h' : AgreeOff X τ υ) : AgreeOff X σ υ :=
  fun x hx => (h x hx).trans (h' x hx)
theorem AgreeOff.mono {X Y : String → Prop} {σ τ : St} (hXY : ∀ x, X x → Y x) (h : AgreeOff X σ τ) : AgreeOff Y σ τ :=
  fun x hx => h x fun hX => hx (hXY x hX)

theorem St.ev_congr (E : Env) {σ τ : St} {e : Expr} (h : ∀ x ∈ e.atoms, σ x [] = τ x []) : σ.ev E e = τ.ev E e := by
  unfold St.ev
  rw [eval_congr_atoms e (σ.val E) (τ.val E) rfl (fun x hx => h x hx)]

theorem St.cond_congr (E : Env) {σ τ : St} {c : Cond} (h : ∀ x ∈ c.atoms, σ x [] = τ x []) : σ.cond E c = τ.cond E c := by
  unfold St.cond
  refine Cond.eval_congr _ _ c (fun e he => St.ev_congr E fun x hx => h x (he x hx)) (fun x hx => ?_)
  show (σ x [] != 0) = (τ x [] != 0)
  rw [h x hx]

theorem AgreeOff.ev {X : String → Prop} {σ τ : St} (h : AgreeOff X σ τ) (E : Env) {e : Expr} (he : ∀ x ∈ e.atoms, ¬ X x) :
    σ.ev E e = τ.ev E e := St.ev_congr E fun x hx => by rw [h x (he x hx)]

theorem AgreeOff.cond {X : String → Prop} {σ τ : St} (h : AgreeOff X σ τ) (E : Env) {c : Cond} (hc : ∀ x ∈ c.atoms, ¬ X x) :
    σ.cond E c = τ.cond E c := St.cond_congr E fun x hx => by rw [h x (hc x hx)]

theorem AgreeOff.set {X : String → Prop} {σ τ : St} (h : AgreeOff X σ τ) (x : String) (i : List Int) (v : Int) :
    AgreeOff X (σ.set x i v) (τ.set x i v) := by
  intro y hy
  funext j
  simp only [St.set, h y hy]

theorem AgreeOff.setS {X : String → Prop} {σ τ : St} (h : AgreeOff X σ τ) (x : String) (v : Int) :
    AgreeOff X (σ.setS x v) (τ.setS x v) := h.set x [] v

theorem AgreeOff.setMany {X : String → Prop} {σ τ : St} (h : AgreeOff X σ τ) (ws : List String) (f : Nat → List Int → Int) :
    AgreeOff X (σ.setMany ws f) (τ.setMany ws f) := by
  unfold St.setMany
  generalize ws.zipIdx = l
  induction l generalizing σ τ with
  | nil => exact h
  | cons a r ih =>
    refine ih ?_
    intro y hy
    show (if y = a.1 then f a.2 else σ y) = (if y = a.1 then f a.2 else τ y)
    split
    · rfl
    · exact h y hy

/-- writing a container of `X` keeps agreement -/
theorem AgreeOff.set_left {X : String → Prop} {σ τ : St} (h : AgreeOff X σ τ) {x : String} (hx : X x) (i : List Int) (v : Int) :
    AgreeOff X (σ.set x i v) τ := by
  intro y hy
  funext j
  simp only [St.set]
  rw [if_neg, h y hy]
  rintro ⟨rfl, _⟩; exact hy hx

theorem AgreeOff.setS_left {X : String → Prop} {σ τ : St} (h : AgreeOff X σ τ) {x : String} (hx : X x) (v : Int) :
    AgreeOff X (σ.setS x v) τ := h.set_left hx [] v

@[simp] theorem St.setS_same (σ : St) (x : String) (v : Int) : (σ.setS x v) x [] = v := by simp [St.setS, St.set]
theorem St.setS_other (σ : St) {x y : String} (v : Int) (h : y ≠ x) : (σ.setS x v) y = σ y := by
  funext j; simp [St.setS, St.set, h]
theorem St.set_other (σ : St) {x y : String} (i : List Int) (v : Int) (h : y ≠ x) : (σ.set x i v) y = σ y := by
  funext j; simp [St.set, h]
theorem St.setMany_other (σ : St) (ws : List String) (f : Nat → List Int → Int) {y : String} (h : y ∉ ws) :
    (σ.setMany ws f) y = σ y := by
  unfold St.setMany
  have : ∀ a ∈ ws.zipIdx, a.1 ≠ y := by
    rintro ⟨a, k⟩ ha rfl
    exact h (List.fst_mem_of_mem_zipIdx ha)
  generalize ws.zipIdx = l at this
  induction l generalizing σ with
  | nil => rfl
  | cons a r ih =>
    rw [List.foldl_cons, ih _ (fun b hb => this b (List.mem_cons_of_mem _ hb))]
    rw [if_neg]
    exact fun hy => this a (by simp) hy.symm

end Docc.IR

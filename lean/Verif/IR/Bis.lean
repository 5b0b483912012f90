import Verif.IR.Sim

/-
Bisimulations: simulations in both directions.
-/
namespace Docc.IR
namespace Rel

/-- From related states, `R` and `S` have the same outcomes, ending in related states. -/
def bis (A : St → St → Prop) (R S : Rel) : Prop := sim A R S ∧ sim (fun τ σ => A σ τ) S R

theorem bis_refl (R : Rel) : bis Eq R R :=
  ⟨sim_of_sub (sub_refl R), by rintro σ _ c σ' rfl h; exact ⟨σ', h, rfl⟩⟩

theorem upd_bis {A : St → St → Prop} {f g : St → St} (h : ∀ σ τ, A σ τ → A (f σ) (g τ)) : bis A (upd f) (upd g) :=
  ⟨upd_sim h, upd_sim fun τ σ => h σ τ⟩

theorem exit_bis (A : St → St → Prop) (k : Ctl) : bis A (exit k) (exit k) := ⟨exit_sim _ k, exit_sim _ k⟩

theorem seq_bis {A : St → St → Prop} {R R' S S' : Rel} (h1 : bis A R R') (h2 : bis A S S') :
    bis A (seq R S) (seq R' S') := ⟨seq_sim h1.1 h2.1, seq_sim h1.2 h2.2⟩

theorem ite_bis {A : St → St → Prop} {b b' : St → Bool} {R R' S S' : Rel} (hb : ∀ σ τ, A σ τ → b σ = b' τ)
    (h1 : bis A R R') (h2 : bis A S S') : bis A (ite b R S) (ite b' R' S') :=
  ⟨ite_sim hb h1.1 h2.1, ite_sim (fun τ σ h => (hb σ τ h).symm) h1.2 h2.2⟩

theorem forever_bis {A : St → St → Prop} {R R' : Rel} (h : bis A R R') : bis A (forever R) (forever R') :=
  ⟨forever_sim h.1, forever_sim h.2⟩

theorem iter_bis {A : St → St → Prop} {b b' : St → Bool} {u u' : St → St} {R R' : Rel}
    (hb : ∀ σ τ, A σ τ → b σ = b' τ) (hu : ∀ σ τ, A σ τ → A (u σ) (u' τ)) (h : bis A R R') :
    bis A (iter b u R) (iter b' u' R') :=
  ⟨iter_sim hb hu h.1, iter_sim (fun τ σ h => (hb σ τ h).symm) (fun τ σ h => hu σ τ h) h.2⟩

/-- refinement: every terminating execution of `R` is one of `S`; with `b` also the converse -/
def ref (b : Bool) (R S : Rel) : Prop := sub R S ∧ (b = true → sub S R)

theorem ref_refl (b : Bool) (R : Rel) : ref b R R := ⟨sub_refl R, fun _ => sub_refl R⟩
theorem ref_of_eq (b : Bool) {R S : Rel} (h : R = S) : ref b R S := h ▸ ref_refl b R
theorem ref_trans {b : Bool} {R S T : Rel} (h1 : ref b R S) (h2 : ref b S T) : ref b R T :=
  ⟨sub_trans h1.1 h2.1, fun hb => sub_trans (h2.2 hb) (h1.2 hb)⟩
theorem seq_ref {b : Bool} {R R' S S' : Rel} (h1 : ref b R R') (h2 : ref b S S') : ref b (seq R S) (seq R' S') :=
  ⟨seq_sub h1.1 h2.1, fun hb => seq_sub (h1.2 hb) (h2.2 hb)⟩
theorem ite_ref {b : Bool} {t : St → Bool} {R R' S S' : Rel} (h1 : ref b R R') (h2 : ref b S S') :
    ref b (ite t R S) (ite t R' S') := ⟨ite_sub h1.1 h2.1, fun hb => ite_sub (h1.2 hb) (h2.2 hb)⟩
theorem forever_ref {b : Bool} {R R' : Rel} (h : ref b R R') : ref b (forever R) (forever R') :=
  ⟨forever_sub h.1, fun hb => forever_sub (h.2 hb)⟩
theorem iter_ref {b : Bool} {t : St → Bool} {u : St → St} {R R' : Rel} (h : ref b R R') :
    ref b (iter t u R) (iter t u R') := ⟨iter_sub h.1, fun hb => iter_sub (h.2 hb)⟩
theorem eq_of_ref {R S : Rel} (h : ref true R S) : R = S := sub_antisymm h.1 (h.2 rfl)

end Rel
end Docc.IR

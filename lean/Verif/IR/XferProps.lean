import Verif.IR.Xfer
import Verif.IR.GpuCondProps

namespace Docc.IR
open Docc.Sym

theorem Xfer.node_run {E : Env} {x : Xfer} {cover : List (List Int → Int) → List Int → Bool} (h : E.copies (x.code ++ x.size) cover) (σ : St) :
    runBlock E [.lib (x.code ++ x.size) (x.src :: x.dst :: x.syms) [x.dst]] σ =
      fun z => if z = x.dst then fun j => if cover (x.syms.map σ) j then σ x.src j else σ x.dst j else σ z := by
  funext z
  simp only [runBlock, List.foldl_cons, List.foldl_nil, Stmt.run, St.setMany, List.zipIdx_cons, List.zipIdx_nil, List.map_cons]
  by_cases hz : z = x.dst
  · simp only [hz, if_true]
    funext j
    exact h _ _ _ _
  · simp [hz]

/-- equal, up to `X` if it is dropped -/
def Upto (X : String) (drop : Bool) (σ τ : St) : Prop := AgreeOff (fun z => z = X ∧ drop = true) σ τ

theorem Seq.bis_of_sim {A : St → St → Prop} {R : Rel} (hs : ∀ σ τ, A σ τ → A τ σ) (h : Rel.sim A R R) : Rel.bis A R R :=
  ⟨h, by
    intro τ σ c τ' ha hr
    obtain ⟨σ', h1, h2⟩ := h τ σ c τ' (hs _ _ ha) hr
    exact ⟨σ', h1, hs _ _ h2⟩⟩

theorem Seq.agree_bis (E : Env) (X : String → Prop) (s : Seq) (h : ∀ x, X x → ¬ reads s.users x) : Rel.bis (AgreeOff X) (s.den E) (s.den E) :=
  Seq.bis_of_sim (fun _ _ h => h.symm) (s.agree_sim E X h)

theorem Rel.bis_and {A : St → St → Prop} {P : St → Prop} {R S : Rel} (h : Rel.bis A R S) (hp : Rel.inv P R) : Rel.bis (fun σ τ => A σ τ ∧ P σ) R S := by
  constructor
  · rintro σ τ c σ' ⟨ha, h1⟩ hr
    obtain ⟨τ', hs, ha'⟩ := h.1 σ τ c σ' ha hr
    exact ⟨τ', hs, ha', hp _ _ _ h1 hr⟩
  · rintro τ σ c τ' ⟨ha, h1⟩ hr
    obtain ⟨σ', hs, ha'⟩ := h.2 τ σ c τ' ha hr
    exact ⟨σ', hs, ha', hp _ _ _ h1 hs⟩

/-- The behaviours correspond to each other: from `A`-related states to `C`-related states, with the same outcome. -/
def Rel.to (A C : St → St → Prop) (R S : Rel) : Prop :=
  (∀ σ τ c σ', A σ τ → R σ c σ' → ∃ τ', S τ c τ' ∧ C σ' τ') ∧ (∀ σ τ c τ', A σ τ → S τ c τ' → ∃ σ', R σ c σ' ∧ C σ' τ')

theorem Rel.to_of_bis {A : St → St → Prop} {R S : Rel} (h : Rel.bis A R S) : Rel.to A A R S := ⟨h.1, fun σ τ c τ' ha hr => h.2 τ σ c τ' ha hr⟩

theorem Rel.to_upd {A C : St → St → Prop} {f g : St → St} (h : ∀ σ τ, A σ τ → C (f σ) (g τ)) : Rel.to A C (Rel.upd f) (Rel.upd g) := by
  constructor
  · rintro σ τ c σ' ha ⟨rfl, rfl⟩; exact ⟨_, ⟨rfl, rfl⟩, h _ _ ha⟩
  · rintro σ τ c τ' ha ⟨rfl, rfl⟩; exact ⟨_, ⟨rfl, rfl⟩, h _ _ ha⟩

/-- composition; when the first part ends early its relation must imply the last one -/
theorem Rel.to_seq {A B C : St → St → Prop} {R R' S S' : Rel} (h1 : Rel.to A B R R') (hB : ∀ σ τ, B σ τ → C σ τ) (h2 : Rel.to B C S S') :
    Rel.to A C (Rel.seq R S) (Rel.seq R' S') := by
  constructor
  · rintro σ τ c σ' ha (⟨σ1, a, b⟩ | ⟨hc, a⟩)
    · obtain ⟨τ1, a', ha1⟩ := h1.1 _ _ _ _ ha a
      obtain ⟨τ', b', hc'⟩ := h2.1 _ _ _ _ ha1 b
      exact ⟨τ', Or.inl ⟨τ1, a', b'⟩, hc'⟩
    · obtain ⟨τ1, a', ha1⟩ := h1.1 _ _ _ _ ha a
      exact ⟨τ1, Or.inr ⟨hc, a'⟩, hB _ _ ha1⟩
  · rintro σ τ c τ' ha (⟨τ1, a, b⟩ | ⟨hc, a⟩)
    · obtain ⟨σ1, a', ha1⟩ := h1.2 _ _ _ _ ha a
      obtain ⟨σ', b', hc'⟩ := h2.2 _ _ _ _ ha1 b
      exact ⟨σ', Or.inl ⟨σ1, a', b'⟩, hc'⟩
    · obtain ⟨σ1, a', ha1⟩ := h1.2 _ _ _ _ ha a
      exact ⟨σ1, Or.inr ⟨hc, a'⟩, hB _ _ ha1⟩

/-- composition when the first part ends normally -/
theorem Rel.to_seq_normal {A B C : St → St → Prop} {R R' S S' : Rel} (h1 : Rel.to A B R R') (hn : ∀ σ c σ', R σ c σ' → c = .normal)
    (hn' : ∀ σ c σ', R' σ c σ' → c = .normal) (h2 : Rel.to B C S S') :
    Rel.to A C (Rel.seq R S) (Rel.seq R' S') := by
  constructor
  · rintro σ τ c σ' ha (⟨σ1, a, b⟩ | ⟨hc, a⟩)
    · obtain ⟨τ1, a', ha1⟩ := h1.1 _ _ _ _ ha a
      obtain ⟨τ', b', hc'⟩ := h2.1 _ _ _ _ ha1 b
      exact ⟨τ', Or.inl ⟨τ1, a', b'⟩, hc'⟩
    · exact absurd (hn _ _ _ a) hc
  · rintro σ τ c τ' ha (⟨τ1, a, b⟩ | ⟨hc, a⟩)
    · obtain ⟨σ1, a', ha1⟩ := h1.2 _ _ _ _ ha a
      obtain ⟨σ', b', hc'⟩ := h2.2 _ _ _ _ ha1 b
      exact ⟨σ', Or.inl ⟨σ1, a', b'⟩, hc'⟩
    · exact absurd (hn' _ _ _ a) hc

theorem Rel.to_mono {A A' C C' : St → St → Prop} {R S : Rel} (h : Rel.to A C R S) (ha : ∀ σ τ, A' σ τ → A σ τ) (hc : ∀ σ τ, C σ τ → C' σ τ) : Rel.to A' C' R S :=
  ⟨fun σ τ c σ' a r => (h.1 σ τ c σ' (ha _ _ a) r).imp fun _ q => ⟨q.1, hc _ _ q.2⟩,
   fun σ τ c τ' a r => (h.2 σ τ c τ' (ha _ _ a) r).imp fun _ q => ⟨q.1, hc _ _ q.2⟩⟩

/-- the elements below the size are the same in both containers -/
def Copied (cover : List (List Int → Int) → List Int → Bool) (syms : List String) (X D : String) (σ : St) : Prop :=
  ∀ j, cover (syms.map σ) j = true → σ X j = σ D j

theorem Copied.inv {cover : List (List Int → Int) → List Int → Bool} {syms : List String} {X D : String} {R : Rel}
    (h : ∀ σ c σ', R σ c σ' → ∀ z, z = X ∨ z = D ∨ z ∈ syms → σ' z = σ z) : Rel.inv (Copied cover syms X D) R := by
  intro σ c σ' hk hr j hj
  have hs : syms.map σ' = syms.map σ := List.map_congr_left fun z hz => h _ _ _ hr z (Or.inr (Or.inr hz))
  rw [h _ _ _ hr X (Or.inl rfl), h _ _ _ hr D (Or.inr (Or.inl rfl))]
  rw [hs] at hj
  exact hk j hj

/-- a transition that does not read the dropped container -/
theorem trans_upto {E : Env} {t : Trans} {X : String → Prop} (h : ∀ x, X x → ¬ reads (transUsers t) x) :
    Rel.bis (AgreeOff X) (Rel.upd (runTrans E t)) (Rel.upd (runTrans E t)) :=
  Rel.upd_bis fun σ τ ha => runTrans_agree E X t h σ τ ha

end Docc.IR

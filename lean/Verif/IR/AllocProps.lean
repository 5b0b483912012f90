import Verif.IR.AllocLemmas

/-! The allocation pass: moving the allocation to the entry and the deallocation to the exits. -/
namespace Docc.IR
open Docc.Sym

theorem lib_put (E : Env) (op : String) (rs : List String) (A : String) (σ : St) :
    (Stmt.lib op rs [A]).run E σ = σ.put A (E.lib op 0 (rs.map σ)) := by
  funext x
  simp [Stmt.run, St.setMany, St.put]

theorem block_append (E : Env) (l r : List Stmt) (σ : St) : runBlock E (l ++ r) σ = runBlock E r (runBlock E l σ) := by
  simp [runBlock, List.foldl_append]

theorem block_cons (E : Env) (m : Stmt) (r : List Stmt) (σ : St) : runBlock E (m :: r) σ = runBlock E r (m.run E σ) := rfl

/-- what follows a block -/
theorem cons_block_den (E : Env) (L : List Stmt) (t : Trans) (post : Seq) (σ : St) (c : Ctl) (σ' : St) :
    (Seq.cons (.block L) t post).den E σ c σ' ↔ (Rel.seq (Rel.upd (runTrans E t)) (post.den E)) (runBlock E L σ) c σ' := by
  rw [Seq.den, Node.den]
  constructor
  · rintro (⟨σ1, ⟨_, rfl⟩, h⟩ | ⟨h1, ⟨h2, _⟩⟩)
    · exact h
    · exact absurd h2 h1
  · intro h; exact Or.inl ⟨_, ⟨rfl, rfl⟩, h⟩

/-- `pre` performs no use of `A` -/
def Seq.Avoids (E : Env) (s : Seq) (k : Nat) (A : String) : Prop := ∀ σ l o, s.tr E k σ l o → ∀ v ∈ l, v.of A = false

theorem Seq.Avoids.put {E : Env} {s : Seq} {k : Nat} {A : String} (h : s.Avoids E k A) {σ : St} {c : Ctl} {σ' : St} (hr : s.den E σ c σ')
    (w : List Int → Int) : s.den E (σ.put A w) c (σ'.put A w) ∧ σ' A = σ A := by
  rw [← Seq.tr_rel E s k] at hr ⊢
  obtain ⟨l, hl⟩ := hr
  obtain ⟨h1, h2⟩ := Seq.insens E A s k σ l _ hl (h _ _ _ hl) w
  exact ⟨⟨l, h1⟩, h2 _ rfl⟩

theorem Seq.Avoids.put' {E : Env} {s : Seq} {k : Nat} {A : String} (h : s.Avoids E k A) {σ : St} {c : Ctl} {τ' w : _} (hr : s.den E (σ.put A w) c τ') :
    s.den E σ c (τ'.put A (σ A)) ∧ τ' = (τ'.put A (σ A)).put A w := by
  obtain ⟨h1, h2⟩ := h.put hr (σ A)
  rw [St.put_put, St.put_self] at h1
  refine ⟨h1, ?_⟩
  rw [St.put_put, St.put_same] at *
  conv => lhs; rw [← St.put_self τ' A, h2]

/-- How a function with a managed allocation ends, compared with the original: in the same state, or, where the original left `pre` early, without its
allocation, in the state in which only `A` differs: it was not touched by the original, and is the block allocated at the entry now. -/
def Site.Entry (E : Env) (z : Site) (A : String) (σ : St) (c : Ctl) (σ' τ' : St) : Prop :=
  (τ' = σ' ∧ ∃ σ1, z.pre.den E σ .normal σ1) ∨
  (c ≠ .normal ∧ z.pre.den E σ c σ' ∧ σ' A = σ A ∧ τ' = σ'.put A (z.m.run E σ A))

theorem alloc_core (E : Env) {z : Site} {op : String} {size : List String} {A : String} (hm : z.m = .lib op size [A])
    (hpre : z.pre.Avoids E 2 A) (hl : ∀ σ σ1, z.pre.den E σ .normal σ1 → Without A (z.l1.flatMap Stmt.users) ∧ A ∉ size)
    (hs : ∀ x ∈ size, ¬ writes z.pre.users x ∧ ¬ writes (z.l1.flatMap Stmt.users) x) (σ : St) (c : Ctl) :
    (∀ σ', z.whole.den E σ c σ' → ∃ τ', z.cleared.den E (z.m.run E σ) c τ' ∧ z.Entry E A σ c σ' τ') ∧
    (∀ τ', z.cleared.den E (z.m.run E σ) c τ' → ∃ σ', z.whole.den E σ c σ' ∧ z.Entry E A σ c σ' τ') := by
  have hrun : z.m.run E σ = σ.put A (E.lib op 0 (size.map σ)) := by rw [hm, lib_put]
  -- after `pre` and `l1` the managed program is where the original is after the allocation
  have key : ∀ σ1, z.pre.den E σ .normal σ1 → runBlock E z.l1 (σ1.put A (E.lib op 0 (size.map σ))) = z.m.run E (runBlock E z.l1 σ1) := by
    intro σ1 h1
    obtain ⟨hw, hA⟩ := hl σ σ1 h1
    rw [(blind_block E hw σ1 _).1, hm, lib_put]
    congr 2
    refine List.map_congr_left fun x hx => ?_
    rw [runBlock_frame E z.l1 σ1 x (hs x hx).2]
    exact (Seq.frame_inv E x (σ x) z.pre (hs x hx).1 σ .normal σ1 rfl h1).symm
  constructor
  · intro σ' h
    rw [Site.whole, Seq.den_append] at h
    rcases h with ⟨σ1, h1, h2⟩ | ⟨h1, h2⟩
    · refine ⟨σ', ?_, Or.inl ⟨rfl, σ1, h1⟩⟩
      rw [Site.cleared, Seq.den_append, hrun]
      refine Or.inl ⟨_, (hpre.put h1 _).1, ?_⟩
      rw [cons_block_den, block_append] at h2 ⊢
      rw [block_cons] at h2
      rw [key σ1 h1]; exact h2
    · refine ⟨_, ?_, Or.inr ⟨h1, h2, (hpre.put h2 fun _ => 0).2, rfl⟩⟩
      rw [Site.cleared, Seq.den_append, hrun, St.put_same]
      exact Or.inr ⟨h1, (hpre.put h2 _).1⟩
  · intro τ' h
    rw [Site.cleared, Seq.den_append, hrun] at h
    rcases h with ⟨τ1, h1, h2⟩ | ⟨h1, h2⟩
    · obtain ⟨h3, h4⟩ := hpre.put' h1
      refine ⟨τ', ?_, Or.inl ⟨rfl, _, h3⟩⟩
      rw [Site.whole, Seq.den_append]
      refine Or.inl ⟨_, h3, ?_⟩
      rw [h4, cons_block_den, block_append, key _ h3] at h2
      rw [cons_block_den, block_append, block_cons]; exact h2
    · obtain ⟨h3, h4⟩ := hpre.put' h2
      refine ⟨_, ?_, Or.inr ⟨h1, h3, St.put_same _ _ _, ?_⟩⟩
      · rw [Site.whole, Seq.den_append]; exact Or.inr ⟨h1, h3⟩
      · rw [hrun, St.put_same]; exact h4

/-- How a function with a managed deallocation ends (before its exit code), compared with the original: the original is in the state after the
deallocation, or it left `pre` early, without the deallocation, in the same state. -/
def Site.Exit (E : Env) (z : Site) (σ : St) (c : Ctl) (σ' τ' : St) : Prop :=
  (σ' = z.m.run E τ' ∧ ∃ σ1, z.pre.den E σ .normal σ1) ∨ (c ≠ .normal ∧ z.pre.den E σ c σ' ∧ σ' = τ')

theorem rest_put {E : Env} {A : String} {t : Trans} {post : Seq} {k : Nat} (ht : Without A (transUses t)) (hp : post.Avoids E k A) {σ : St} {c : Ctl}
    {σ' : St} (h : (Rel.seq (Rel.upd (runTrans E t)) (post.den E)) σ c σ') (w : List Int → Int) :
    (Rel.seq (Rel.upd (runTrans E t)) (post.den E)) (σ.put A w) c (σ'.put A w) ∧ σ' A = σ A := by
  rcases h with ⟨σ1, ⟨_, rfl⟩, h⟩ | ⟨h1, ⟨h2, _⟩⟩
  · obtain ⟨h1, h2⟩ := hp.put h w
    refine ⟨Or.inl ⟨_, ⟨rfl, rfl⟩, ?_⟩, h2.trans (blind_trans E ht σ w).2⟩
    rw [(blind_trans E ht σ w).1]; exact h1
  · exact absurd h2 h1

theorem dealloc_core (E : Env) {z : Site} {op : String} {A : String} (hm : z.m = .lib op [A] [A]) {k : Nat}
    (hp : ∀ σ σ1, z.pre.den E σ .normal σ1 → Without A (z.l2.flatMap Stmt.users) ∧ Without A (transUses z.t) ∧ z.post.Avoids E k A) (σ : St) (c : Ctl) :
    (∀ σ', z.whole.den E σ c σ' → ∃ τ', z.cleared.den E σ c τ' ∧ z.Exit E σ c σ' τ') ∧
    (∀ τ', z.cleared.den E σ c τ' → ∃ σ', z.whole.den E σ c σ' ∧ z.Exit E σ c σ' τ') := by
  constructor
  · intro σ' h
    rw [Site.whole, Seq.den_append] at h
    rcases h with ⟨σ1, h1, h2⟩ | ⟨h1, h2⟩
    · obtain ⟨a1, a2, a3⟩ := hp σ σ1 h1
      rw [cons_block_den, block_append, block_cons, hm, lib_put, (blind_block E a1 _ _).1] at h2
      obtain ⟨b1, b2⟩ := rest_put a2 a3 h2 (runBlock E z.l1 σ1 A)
      rw [St.put_same] at b2
      have hself : (runBlock E z.l2 (runBlock E z.l1 σ1)).put A (runBlock E z.l1 σ1 A) = runBlock E z.l2 (runBlock E z.l1 σ1) := by
        rw [← (blind_block E a1 (runBlock E z.l1 σ1) (fun _ => 0)).2, St.put_self]
      rw [St.put_put, hself] at b1
      refine ⟨σ'.put A (runBlock E z.l1 σ1 A), ?_, Or.inl ⟨?_, σ1, h1⟩⟩
      · rw [Site.cleared, Seq.den_append]
        refine Or.inl ⟨σ1, h1, ?_⟩
        rw [cons_block_den, block_append]; exact b1
      · rw [hm, lib_put]
        simp only [List.map_cons, List.map_nil, St.put_same, St.put_put] at b2 ⊢
        rw [← b2, St.put_self]
    · exact ⟨σ', by rw [Site.cleared, Seq.den_append]; exact Or.inr ⟨h1, h2⟩, Or.inr ⟨h1, h2, rfl⟩⟩
  · intro τ' h
    rw [Site.cleared, Seq.den_append] at h
    rcases h with ⟨σ1, h1, h2⟩ | ⟨h1, h2⟩
    · obtain ⟨a1, a2, a3⟩ := hp σ σ1 h1
      rw [cons_block_den, block_append] at h2
      obtain ⟨b1, b2⟩ := rest_put a2 a3 h2 (E.lib op 0 [runBlock E z.l1 σ1 A])
      refine ⟨τ'.put A (E.lib op 0 [runBlock E z.l1 σ1 A]), ?_, Or.inl ⟨?_, σ1, h1⟩⟩
      · rw [Site.whole, Seq.den_append]
        refine Or.inl ⟨σ1, h1, ?_⟩
        rw [cons_block_den, block_append, block_cons, hm, lib_put, (blind_block E a1 _ _).1]
        exact b1
      · rw [hm, lib_put]
        have : τ' A = runBlock E z.l1 σ1 A := b2.trans (blind_block E a1 (runBlock E z.l1 σ1) (fun _ => 0)).2
        simp [this]
    · exact ⟨τ', by rw [Site.whole, Seq.den_append]; exact Or.inr ⟨h1, h2⟩, Or.inr ⟨h1, h2, rfl⟩⟩

end Docc.IR

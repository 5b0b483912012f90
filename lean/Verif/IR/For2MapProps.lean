import Verif.IR.For2Map
import Verif.IR.Par
import Verif.IR.InterchangeProps

/-
C23: loops turned into Maps.
-/
namespace Docc.IR
open Docc.Sym

/-- the locations of a user in a state -/
def Usr.locs (E : Env) (ρ : St) (u : Usr) (l : Loc) : Prop := l.1 = u.cont ∧ (u.whole = true ∨ l.2 = u.sub.map (ρ.ev E))

/-- reads and writes of a block -/
def blockRdUsrs (pos : List Nat) : Nat → List Stmt → List Usr
  | _, [] => []
  | k, s :: l => s.readUsrs (pos ++ [k]) ++ blockRdUsrs pos (k + 1) l
/-- writes of a block -/
def blockWrUsrs (pos : List Nat) : Nat → List Stmt → List Usr
  | _, [] => []
  | k, s :: l => s.writeUsrs (pos ++ [k]) ++ blockWrUsrs pos (k + 1) l

/-- straight-line code: blocks and transitions -/
def Seq.straight : Seq → Bool
  | .nil => true
  | .cons (.block _) _ r => r.straight
  | .cons _ _ _ => false

/-- the reads of straight-line code -/
def Seq.rdUsrs (pos : List Nat) : Nat → Seq → List Usr
  | _, .nil => []
  | k, .cons (.block l) t r => blockRdUsrs (pos ++ [k]) 0 l ++ symUsrs (pos ++ [k]) (t.flatMap fun a => a.2.atoms) ++ r.rdUsrs pos (k + 1)
  | k, .cons _ _ r => r.rdUsrs pos (k + 1)
/-- the writes of straight-line code -/
def Seq.wrUsrs (pos : List Nat) : Nat → Seq → List Usr
  | _, .nil => []
  | k, .cons (.block l) t r => blockWrUsrs (pos ++ [k]) 0 l ++ (t.map fun a => ⟨pos ++ [k], a.1, [], false, false⟩) ++ r.wrUsrs pos (k + 1)
  | k, .cons _ _ r => r.wrUsrs pos (k + 1)
/-- the symbols of the transitions -/
def Seq.transSyms : Seq → List String
  | .nil => []
  | .cons _ t r => t.map (·.1) ++ (t.flatMap fun a => a.2.atoms) ++ r.transSyms

/-- What the analysis of straight-line code with reads `rs` and writes `ws` relies on, for the iterations `vs` of a loop started in `σ`:
`maps::intersects` finds all overlaps between different iterations; `is_subset` means inclusion in each iteration; a read that overlaps an
earlier write of its iteration is covered by it (the analysis does not check this); scalars have no subset; the symbols of subsets are not
written; transitions are about scalars. -/
structure DepOk (O : DepOracle) (E : Env) (σ : St) (i : String) (vs : List Int) (rs ws : List Usr) (ts : List String) : Prop where
  meets : ∀ p ∈ ws, ∀ c, c ∈ rs ∨ c ∈ ws → p.cont = c.cont → O.meets i p c = false → ∀ v ∈ vs, ∀ w ∈ vs, v ≠ w →
    ∀ l, p.locs E (σ.setS i v) l → ¬ c.locs E (σ.setS i w) l
  subset : ∀ p ∈ ws, ∀ c ∈ ws, p.cont = c.cont → O.subset p c = true → ∀ v ∈ vs, ∀ l, p.locs E (σ.setS i v) l → c.locs E (σ.setS i v) l
  covers : ∀ p ∈ ws, ∀ r ∈ rs, p.cont = r.cont → O.disjoint r p = false → ∀ v ∈ vs, ∀ l, r.locs E (σ.setS i v) l → p.locs E (σ.setS i v) l
  scalar : ∀ u, u ∈ rs ∨ u ∈ ws → O.scalar u.cont = true → u.sub = [] ∧ u.whole = false
  fixed : ∀ u, u ∈ rs ∨ u ∈ ws → ∀ e ∈ u.sub, ∀ x ∈ e.atoms, ∀ w ∈ ws, w.cont ≠ x
  order : ∀ l p, p ∈ O.order l → p ∈ l
  trans : ∀ x ∈ ts, O.scalar x = true

/-- the analysis state describes the footprint of what was executed -/
structure DInv (E : Env) (ρ : St) (rs ws : List Usr) (st : DepSt) (R W : Loc → Prop) : Prop where
  rd : ∀ l, R l → ∃ r ∈ st.undef, r.locs E ρ l
  wr : ∀ l, W l ↔ ∃ w ∈ st.opn, w.locs E ρ l
  real : ∀ w ∈ st.opn, w.art = false ∧ w ∈ ws
  und : ∀ r ∈ st.undef, r.art = false ∧ r ∈ rs

section
variable {O : DepOracle} {E : Env} {σ : St} {i : String} {vs : List Int} {rs ws : List Usr} {ts : List String}

theorem readUsr_opn (st : DepSt) (r : Usr) : (readUsr O st r).opn = st.opn := by
  unfold readUsr; dsimp only; split <;> rfl
theorem readUsr_undef (st : DepSt) (r x : Usr) (h : x ∈ st.undef) : x ∈ (readUsr O st r).undef := by
  unfold readUsr; dsimp only; split
  · exact List.mem_cons_of_mem _ h
  · exact h
theorem readName_opn (st : DepSt) (r : Usr) : (readName st r).opn = st.opn := by
  simp only [readName]; split <;> rfl
theorem readName_undef (st : DepSt) (r x : Usr) (h : x ∈ st.undef) : x ∈ (readName st r).undef := by
  simp only [readName]; split
  · exact h
  · exact List.mem_cons_of_mem _ h

theorem readUsr_undef' (st : DepSt) (r x : Usr) (h : x ∈ (readUsr O st r).undef) : x = r ∨ x ∈ st.undef := by
  unfold readUsr at h; dsimp only at h; split at h
  · exact List.mem_cons.1 h
  · exact Or.inr h
theorem readName_undef' (st : DepSt) (r x : Usr) (h : x ∈ (readName st r).undef) : x = r ∨ x ∈ st.undef := by
  simp only [readName] at h; split at h
  · exact Or.inr h
  · exact List.mem_cons.1 h

theorem symUsrs_art {pos : List Nat} {L : List String} {r : Usr} (h : r ∈ symUsrs pos L) : r.art = false := by
  simp only [symUsrs, List.mem_map] at h; obtain ⟨_, _, rfl⟩ := h; rfl
theorem readUsrs_art {pos : List Nat} {s : Stmt} {r : Usr} (h : r ∈ s.readUsrs pos) : r.art = false := by
  match s with
  | .tasklet op ins out sub =>
    simp only [Stmt.readUsrs, List.mem_append, List.mem_flatMap, List.mem_cons] at h
    rcases h with ⟨_, _, rfl | h⟩ | h
    · rfl
    · exact symUsrs_art h
    · exact symUsrs_art h
  | .lib op reads writes => simp only [Stmt.readUsrs, List.mem_map] at h; obtain ⟨_, _, rfl⟩ := h; rfl

theorem scalar_locs {u u' : Usr} {ρ : St} {l : Loc} (h : u.sub = [] ∧ u.whole = false) (h' : u'.sub = [] ∧ u'.whole = false)
    (he : u.cont = u'.cont) (hl : u.locs E ρ l) : u'.locs E ρ l := by
  obtain ⟨h1, h2⟩ := hl
  rw [h.1, h.2] at h2
  exact ⟨h1.trans he, Or.inr (by rw [h'.1]; simpa using h2)⟩

/-- a matched read is covered -/
theorem readUsr_covered (H : DepOk O E σ i vs rs ws ts) {v : Int} (hv : v ∈ vs) {st : DepSt} {R W : Loc → Prop}
    (I : DInv E (σ.setS i v) rs ws st R W) {r : Usr} (hr : r ∈ rs) {l : Loc} (hl : r.locs E (σ.setS i v) l) :
    W l ∨ ∃ x ∈ (readUsr O st r).undef, x.locs E (σ.setS i v) l := by
  unfold readUsr; dsimp only
  split
  · exact Or.inr ⟨r, List.mem_cons_self .., hl⟩
  · rename_i hc
    simp only [Bool.or_eq_true, not_or, Bool.not_eq_true] at hc
    left
    match hf : st.opn.filter (depends O · r) with
    | [] => rw [hf] at hc; simp at hc
    | p :: q =>
      have hp : p ∈ st.opn.filter (depends O · r) := by rw [hf]; exact List.mem_cons_self ..
      obtain ⟨hp1, hp2⟩ := List.mem_filter.1 hp
      obtain ⟨hart, hpw⟩ := I.real p hp1
      simp only [depends, hart, Bool.or_false, Bool.and_eq_true, decide_eq_true_eq, Bool.or_eq_true, Bool.not_eq_true'] at hp2
      obtain ⟨he, hs⟩ := hp2
      refine (I.wr l).2 ⟨p, hp1, ?_⟩
      rcases hs with hs | hs
      · exact scalar_locs (H.scalar r (Or.inl hr) (by rw [← he]; exact hs)) (H.scalar p (Or.inr hpw) hs) he.symm hl
      · exact H.covers p hpw r hr he hs v hv l hl

theorem readName_covered (H : DepOk O E σ i vs rs ws ts) {v : Int} {st : DepSt} {R W : Loc → Prop}
    (I : DInv E (σ.setS i v) rs ws st R W) {r : Usr} (hr : r ∈ rs) (hs : O.scalar r.cont = true) {l : Loc} (hl : r.locs E (σ.setS i v) l) :
    W l ∨ ∃ x ∈ (readName st r).undef, x.locs E (σ.setS i v) l := by
  simp only [readName]
  split
  · rename_i hc
    left
    simp only [List.any_eq_true, decide_eq_true_eq] at hc
    obtain ⟨p, hp, he⟩ := hc
    obtain ⟨_, hpw⟩ := I.real p hp
    exact (I.wr l).2 ⟨p, hp, scalar_locs (H.scalar r (Or.inl hr) hs) (H.scalar p (Or.inr hpw) (by rw [he]; exact hs)) he.symm hl⟩
  · exact Or.inr ⟨r, List.mem_cons_self .., hl⟩

/-- a list of reads -/
theorem reads_inv (f : DepSt → Usr → DepSt) (hopn : ∀ st r, (f st r).opn = st.opn) (hund : ∀ st r x, x ∈ st.undef → x ∈ (f st r).undef)
    (hund' : ∀ st r x, x ∈ (f st r).undef → x = r ∨ x ∈ st.undef) {ρ : St} {R W : Loc → Prop} : (l : List Usr) →
    (∀ r ∈ l, r.art = false ∧ r ∈ rs) → (st : DepSt) → DInv E ρ rs ws st R W →
    (∀ st r, r ∈ l → DInv E ρ rs ws st R W → ∀ x, r.locs E ρ x → W x ∨ ∃ y ∈ (f st r).undef, y.locs E ρ x) →
    (R' : Loc → Prop) → (∀ x, R' x → ∃ r ∈ l, r.locs E ρ x) → DInv E ρ rs ws (l.foldl f st) (fun x => R x ∨ (R' x ∧ ¬ W x)) W := by
  intro l hl st I hcov R' hR'
  suffices h : ∀ (l : List Usr) (st : DepSt) (Q : Loc → Prop), (∀ r ∈ l, r.art = false ∧ r ∈ rs) → DInv E ρ rs ws st R W → (∀ x, Q x → ¬ W x → ∃ y ∈ st.undef, y.locs E ρ x) →
      (∀ st r, r ∈ l → DInv E ρ rs ws st R W → ∀ x, r.locs E ρ x → W x ∨ ∃ y ∈ (f st r).undef, y.locs E ρ x) →
      DInv E ρ rs ws (l.foldl f st) (fun x => R x ∨ ((Q x ∨ ∃ r ∈ l, r.locs E ρ x) ∧ ¬ W x)) W by
    have := h l st (fun _ => False) hl I (fun _ h => h.elim) hcov
    refine ⟨fun x hx => this.rd x ?_, this.wr, this.real, this.und⟩
    rcases hx with h | ⟨h1, h2⟩
    · exact Or.inl h
    · exact Or.inr ⟨Or.inr (hR' x h1), h2⟩
  intro l
  induction l with
  | nil =>
    intro st Q _ I hQ _
    refine ⟨fun x hx => ?_, I.wr, I.real, I.und⟩
    rcases hx with h | ⟨h1, h2⟩
    · exact I.rd x h
    · rcases h1 with h1 | ⟨r, hr, _⟩
      · exact hQ x h1 h2
      · simp at hr
  | cons r l ih =>
    intro st Q hl I hQ hc
    rw [List.foldl_cons]
    have I' : DInv E ρ rs ws (f st r) R W := ⟨fun x hx => by
      obtain ⟨y, hy, h⟩ := I.rd x hx
      exact ⟨y, hund st r y hy, h⟩, by rw [hopn]; exact I.wr, by rw [hopn]; exact I.real, fun x hx => by
        rcases hund' st r x hx with e | h
        · exact e ▸ hl r (List.mem_cons_self ..)
        · exact I.und x h⟩
    have := ih (f st r) (fun x => Q x ∨ r.locs E ρ x) (fun x hx => hl x (List.mem_cons_of_mem _ hx)) I'
      (fun x hx hW => by
        rcases hx with h | h
        · obtain ⟨y, hy, h⟩ := hQ x h hW
          exact ⟨y, hund st r y hy, h⟩
        · exact (hc st r (List.mem_cons_self ..) I x h).resolve_left hW)
      (fun st r' hr' => hc st r' (List.mem_cons_of_mem _ hr'))
    refine ⟨fun x hx => this.rd x ?_, this.wr, this.real, this.und⟩
    rcases hx with h | ⟨h1, h2⟩
    · exact Or.inl h
    · refine Or.inr ⟨?_, h2⟩
      rcases h1 with h1 | ⟨r', hr', h⟩
      · exact Or.inl (Or.inl h1)
      · rcases List.mem_cons.1 hr' with e | hr'
        · exact Or.inl (Or.inr (e ▸ h))
        · exact Or.inr ⟨r', hr', h⟩

/-- a list of writes -/
theorem writes_inv (H : DepOk O E σ i vs rs ws ts) {v : Int} (hv : v ∈ vs) (d : Bool) {R : Loc → Prop} :
    (l : List Usr) → (∀ w ∈ l, w ∈ ws ∧ w.art = false) → (st : DepSt) → (W : Loc → Prop) → DInv E (σ.setS i v) rs ws st R W →
    DInv E (σ.setS i v) rs ws (l.foldl (writeUsr O d) st) R (fun x => W x ∨ ∃ w ∈ l, w.locs E (σ.setS i v) x)
  | [], _, st, W, I => ⟨I.rd, fun x => by simpa using I.wr x, I.real, I.und⟩
  | w :: l, hl, st, W, I => by
    rw [List.foldl_cons]
    obtain ⟨hw, ha⟩ := hl w (List.mem_cons_self ..)
    have I' : DInv E (σ.setS i v) rs ws (writeUsr O d st w) R (fun x => W x ∨ w.locs E (σ.setS i v) x) := by
      refine ⟨I.rd, fun x => ?_, fun p hp => ?_, I.und⟩
      · simp only [writeUsr, List.mem_append, List.mem_filter, List.mem_singleton]
        constructor
        · rintro (h | h)
          · obtain ⟨p, hp, hx⟩ := (I.wr x).1 h
            by_cases hc : closes O d p w = true
            · refine ⟨w, Or.inr rfl, ?_⟩
              obtain ⟨_, hpw⟩ := I.real p hp
              simp only [closes, Bool.and_eq_true, decide_eq_true_eq, Bool.or_eq_true] at hc
              obtain ⟨⟨⟨⟨he, _⟩, _⟩, _⟩, hs⟩ := hc
              rcases hs with hs | hs
              · exact scalar_locs (H.scalar p (Or.inr hpw) hs) (H.scalar w (Or.inr hw) (by rw [← he]; exact hs)) he hx
              · exact H.subset p hpw w hw he hs v hv x hx
            · exact ⟨p, Or.inl ⟨hp, by simpa using hc⟩, hx⟩
          · exact ⟨w, Or.inr rfl, h⟩
        · rintro ⟨p, ⟨hp, _⟩ | rfl, hx⟩
          · exact Or.inl ((I.wr x).2 ⟨p, hp, hx⟩)
          · exact Or.inr hx
      · simp only [writeUsr, List.mem_append, List.mem_filter, List.mem_singleton] at hp
        rcases hp with ⟨hp, _⟩ | rfl
        · exact I.real p hp
        · exact ⟨ha, hw⟩
    have := writes_inv H hv d l (fun p hp => hl p (List.mem_cons_of_mem _ hp)) _ _ I'
    refine ⟨this.rd, fun x => ?_, this.real, this.und⟩
    rw [← this.wr]
    simp only [List.mem_cons, exists_eq_or_imp, or_assoc]

theorem Rel.Foot.congr {D : Rel} {σ : St} {c : Ctl} {σ' : St} {R W R' W' : Loc → Prop} (h : D.Foot σ c σ' R W) (hR : ∀ l, R l → R' l)
    (hW : ∀ l, W l ↔ W' l) : D.Foot σ c σ' R' W' :=
  h.mono hR (fun l h => (hW l).1 h) (fun l h h' => absurd ((hW l).2 h) h')

theorem trans_foot (E : Env) : (t : Trans) → (τ : St) → (Rel.upd (runTrans E t)).Foot τ .normal (runTrans E t τ)
    (fun l => l.2 = [] ∧ l.1 ∈ t.flatMap fun a => a.2.atoms) (fun l => l.2 = [] ∧ l.1 ∈ t.map (·.1))
  | [], τ => (Rel.Foot.skip τ).congr (fun _ h => h.elim) (fun l => by simp)
  | a :: t, τ => by
    have h1 : (Rel.upd fun s : St => s.setS a.1 (s.ev E a.2)).Foot τ .normal (τ.setS a.1 (τ.ev E a.2)) (fun l => l.2 = [] ∧ l.1 ∈ a.2.atoms)
        (fun l => l = (a.1, [])) := by
      refine ⟨⟨rfl, rfl⟩, fun l hl => at_setS hl, fun τ' h => ⟨_, ⟨rfl, rfl⟩, fun l hl => ?_, fun l hl => at_setS hl⟩⟩
      have : τ'.ev E a.2 = τ.ev E a.2 := St.ev_congr E fun x hx => h (x, []) ⟨rfl, hx⟩
      rw [hl, at_setS_same, at_setS_same, this]
    have e : Rel.upd (runTrans E (a :: t)) = Rel.seq (Rel.upd fun s : St => s.setS a.1 (s.ev E a.2)) (Rel.upd (runTrans E t)) := by
      rw [Rel.upd_upd]; rfl
    rw [e]
    refine (h1.seq (trans_foot E t (τ.setS a.1 (τ.ev E a.2)))).congr (fun l h => ?_) (fun l => ?_)
    · rcases h with h | ⟨h, _⟩
      · exact ⟨h.1, List.mem_flatMap.2 ⟨a, List.mem_cons_self .., h.2⟩⟩
      · obtain ⟨b, hb, hx⟩ := List.mem_flatMap.1 h.2
        exact ⟨h.1, List.mem_flatMap.2 ⟨b, List.mem_cons_of_mem _ hb, hx⟩⟩
    · rw [List.map_cons, List.mem_cons]
      constructor
      · rintro (h | h)
        · exact ⟨by rw [h], Or.inl (by rw [h])⟩
        · exact ⟨h.1, Or.inr h.2⟩
      · rintro ⟨h, h' | h'⟩
        · exact Or.inl (Prod.ext h' h)
        · exact Or.inr ⟨h, h'⟩

theorem symUsr_locs {E : Env} {ρ : St} {pos : List Nat} {L : List String} {l : Loc} :
    (∃ r ∈ symUsrs pos L, r.locs E ρ l) ↔ l.2 = [] ∧ l.1 ∈ L := by
  simp only [symUsrs, List.mem_map, Usr.locs]
  constructor
  · rintro ⟨r, ⟨x, hx, rfl⟩, h1, h2⟩
    simp at h2
    exact ⟨h2, h1 ▸ hx⟩
  · rintro ⟨h1, h2⟩
    exact ⟨_, ⟨l.1, h2, rfl⟩, rfl, Or.inr (by simpa using h1)⟩

theorem mem_atomsL {x : String} {es : List Expr} : x ∈ Expr.atomsL es ↔ ∃ e ∈ es, x ∈ e.atoms := by
  induction es with
  | nil => simp [Expr.atomsL]
  | cons e es ih => simp [Expr.atomsL, ih]

theorem Stmt.rd_usrs {E : Env} {pos : List Nat} {s : Stmt} {τ ρ : St}
    (hag : ∀ u, u ∈ s.readUsrs pos → ∀ e ∈ u.sub, ∀ x ∈ e.atoms, τ x [] = ρ x []) {l : Loc} (h : s.rd E τ l) :
    ∃ r ∈ s.readUsrs pos, r.locs E ρ l := by
  match s with
  | .tasklet op ins out sub =>
    rcases h with ⟨r, hr, h | ⟨e, he, hx, hl⟩⟩ | ⟨e, he, hx, hl⟩
    · have hm : (⟨pos, r.1, r.2, false, false⟩ : Usr) ∈ (Stmt.tasklet op ins out sub).readUsrs pos := by
        simp only [Stmt.readUsrs, List.mem_append, List.mem_flatMap]
        exact Or.inl ⟨r, hr, List.mem_cons_self ..⟩
      refine ⟨_, hm, ?_⟩
      have : r.2.map (τ.ev E) = r.2.map (ρ.ev E) := List.map_congr_left fun e he => St.ev_congr E fun x hx => hag _ hm e he x hx
      rw [h]; exact ⟨rfl, Or.inr this⟩
    · obtain ⟨y, hy, h⟩ := symUsr_locs (E := E) (ρ := ρ) (pos := pos) (L := Expr.atomsL r.2) (l := l) |>.2 ⟨hl, mem_atomsL.2 ⟨e, he, hx⟩⟩
      refine ⟨y, ?_, h⟩
      simp only [Stmt.readUsrs, List.mem_append, List.mem_flatMap]
      exact Or.inl ⟨r, hr, List.mem_cons_of_mem _ hy⟩
    · obtain ⟨y, hy, h⟩ := symUsr_locs (E := E) (ρ := ρ) (pos := pos) (L := Expr.atomsL sub) (l := l) |>.2 ⟨hl, mem_atomsL.2 ⟨e, he, hx⟩⟩
      refine ⟨y, ?_, h⟩
      simp only [Stmt.readUsrs, List.mem_append]
      exact Or.inr hy
  | .lib op reads writes =>
    exact ⟨_, List.mem_map.2 ⟨l.1, h, rfl⟩, rfl, Or.inl rfl⟩

theorem Stmt.wr_usrs {E : Env} {pos : List Nat} {s : Stmt} {τ ρ : St}
    (hag : ∀ u, u ∈ s.writeUsrs pos → ∀ e ∈ u.sub, ∀ x ∈ e.atoms, τ x [] = ρ x []) (l : Loc) :
    s.wr E τ l ↔ ∃ w ∈ s.writeUsrs pos, w.locs E ρ l := by
  match s with
  | .tasklet op ins out sub =>
    have : sub.map (τ.ev E) = sub.map (ρ.ev E) := List.map_congr_left fun e he => St.ev_congr E fun x hx =>
      hag ⟨pos, out, sub, false, false⟩ (List.mem_singleton.2 rfl) e he x hx
    simp only [Stmt.wr, Stmt.writeUsrs, List.mem_singleton, exists_eq_left, Usr.locs, this]
    constructor
    · intro h; rw [h]; exact ⟨rfl, Or.inr rfl⟩
    · rintro ⟨h1, h2 | h2⟩
      · simp at h2
      · exact Prod.ext h1 h2
  | .lib op reads writes =>
    simp only [Stmt.wr, Stmt.writeUsrs, List.mem_map, Usr.locs]
    constructor
    · intro h; exact ⟨_, ⟨l.1, h, rfl⟩, rfl, Or.inl rfl⟩
    · rintro ⟨w, ⟨x, hx, rfl⟩, h, _⟩; exact h ▸ hx

theorem writeUsrs_art {pos : List Nat} {s : Stmt} {w : Usr} (h : w ∈ s.writeUsrs pos) : w.art = false := by
  match s with
  | .tasklet op ins out sub => simp only [Stmt.writeUsrs, List.mem_singleton] at h; rw [h]
  | .lib op reads writes => simp only [Stmt.writeUsrs, List.mem_map] at h; obtain ⟨_, _, rfl⟩ := h; rfl

/-- subset symbols keep their values -/
theorem DInv.agree (H : DepOk O E σ i vs rs ws ts) {v : Int} {P : Rel} {τ : St} {R W : Loc → Prop} {st : DepSt}
    (F : P.Foot (σ.setS i v) .normal τ R W) (I : DInv E (σ.setS i v) rs ws st R W) {u : Usr} (hu : u ∈ rs ∨ u ∈ ws) :
    ∀ e ∈ u.sub, ∀ x ∈ e.atoms, τ x [] = (σ.setS i v) x [] := by
  intro e he x hx
  refine F.2.1 (x, []) fun hW => ?_
  obtain ⟨w, hw, hl⟩ := (I.wr _).1 hW
  exact H.fixed u hu e he x hx w (I.real w hw).2 hl.1.symm

theorem visitBlock_foot (H : DepOk O E σ i vs rs ws ts) {v : Int} (hv : v ∈ vs) (pos : List Nat) : (l : List Stmt) → (k : Nat) →
    (∀ r ∈ blockRdUsrs pos k l, r ∈ rs) → (∀ w ∈ blockWrUsrs pos k l, w ∈ ws) → (P : Rel) → (τ : St) → (R W : Loc → Prop) → (st : DepSt) →
    P.Foot (σ.setS i v) .normal τ R W → DInv E (σ.setS i v) rs ws st R W →
    ∃ τ' R' W', (Rel.seq P (Rel.upd (runBlock E l))).Foot (σ.setS i v) .normal τ' R' W' ∧ DInv E (σ.setS i v) rs ws (visitBlock O pos k l st) R' W'
  | [], k, _, _, P, τ, R, W, st, F, I => ⟨τ, R, W, by
      have : Rel.upd (runBlock E []) = Rel.upd id := rfl
      rw [this, Rel.seq_skip]; exact F, I⟩
  | s :: l, k, hr, hw, P, τ, R, W, st, F, I => by
    simp only [blockRdUsrs, blockWrUsrs, List.mem_append] at hr hw
    have hrs : ∀ r ∈ s.readUsrs (pos ++ [k]), r ∈ rs := fun r h => hr r (Or.inl h)
    have hws : ∀ w ∈ s.writeUsrs (pos ++ [k]), w ∈ ws := fun w h => hw w (Or.inl h)
    have Fs := (s.foot E τ).congr (R' := s.rd E τ) (W' := fun l => ∃ w ∈ s.writeUsrs (pos ++ [k]), w.locs E (σ.setS i v) l) (fun _ h => h)
      (fun l => Stmt.wr_usrs (fun u hu => DInv.agree H F I (Or.inr (hws u hu))) l)
    have I1 := reads_inv (readUsr O) readUsr_opn (fun st r x h => readUsr_undef st r x h) (fun st r x h => readUsr_undef' st r x h)
      (s.readUsrs (pos ++ [k])) (fun r h => ⟨readUsrs_art h, hrs r h⟩) st I
      (fun st r h I x hx => readUsr_covered H hv I (hrs r h) hx) (s.rd E τ)
      (fun x hx => Stmt.rd_usrs (fun u hu => DInv.agree H F I (Or.inl (hrs u hu))) hx)
    have I2 := writes_inv H hv false (s.writeUsrs (pos ++ [k])) (fun w h => ⟨hws w h, writeUsrs_art h⟩) _ _ I1
    obtain ⟨τ', R', W', h1, h2⟩ := visitBlock_foot H hv pos l (k + 1) (fun r h => hr r (Or.inr h)) (fun w h => hw w (Or.inr h)) _ _ _ _ _
      (F.seq Fs) I2
    refine ⟨τ', R', W', ?_, h2⟩
    rw [runBlock_cons, ← Rel.seq_assoc]; exact h1

theorem visitTrans_foot (H : DepOk O E σ i vs rs ws ts) {v : Int} (hv : v ∈ vs) (pos : List Nat) (t : Trans)
    (hr : ∀ r ∈ symUsrs pos (t.flatMap fun a => a.2.atoms), r ∈ rs) (hw : ∀ a ∈ t, (⟨pos, a.1, [], false, false⟩ : Usr) ∈ ws)
    (ht : ∀ a ∈ t, ∀ x ∈ a.2.atoms, x ∈ ts) {P : Rel} {τ : St} {R W : Loc → Prop} {st : DepSt}
    (F : P.Foot (σ.setS i v) .normal τ R W) (I : DInv E (σ.setS i v) rs ws st R W) :
    ∃ τ' R' W', (Rel.seq P (Rel.upd (runTrans E t))).Foot (σ.setS i v) .normal τ' R' W' ∧ DInv E (σ.setS i v) rs ws (visitTrans O pos t st) R' W' := by
  have Ft := (trans_foot E t τ).congr (R' := fun l => l.2 = [] ∧ l.1 ∈ t.flatMap fun a => a.2.atoms)
    (W' := fun l => ∃ w ∈ t.map fun a => (⟨pos, a.1, [], false, false⟩ : Usr), w.locs E (σ.setS i v) l) (fun _ h => h) (fun l => by
      have := symUsr_locs (E := E) (ρ := σ.setS i v) (pos := pos) (L := t.map (·.1)) (l := l)
      rw [← this]
      simp [symUsrs])
  have I1 := reads_inv readName readName_opn (fun st r x h => readName_undef st r x h) (fun st r x h => readName_undef' st r x h)
    (symUsrs pos (t.flatMap fun a => a.2.atoms)) (fun r h => ⟨symUsrs_art h, hr r h⟩) st I
    (fun st r h I x hx => readName_covered H I (hr r h) (by
      simp only [symUsrs, List.mem_map, List.mem_flatMap] at h
      obtain ⟨y, ⟨a, ha, hy⟩, rfl⟩ := h
      exact H.trans y (ht a ha y hy)) hx)
    (fun l => l.2 = [] ∧ l.1 ∈ t.flatMap fun a => a.2.atoms) (fun x hx => symUsr_locs.2 hx)
  have I2 := writes_inv H hv true (t.map fun a => (⟨pos, a.1, [], false, false⟩ : Usr)) (fun w h => by
    obtain ⟨a, ha, rfl⟩ := List.mem_map.1 h
    exact ⟨hw a ha, rfl⟩) _ _ I1
  exact ⟨_, _, _, F.seq Ft, I2⟩

/-- the analysis of straight-line code describes its footprint -/
theorem visit_foot (H : DepOk O E σ i vs rs ws ts) {v : Int} (hv : v ∈ vs) (pos : List Nat) : (s : Seq) → (k : Nat) → s.straight = true →
    (∀ r ∈ s.rdUsrs pos k, r ∈ rs) → (∀ w ∈ s.wrUsrs pos k, w ∈ ws) → (∀ x ∈ s.transSyms, x ∈ ts) → (P : Rel) → (τ : St) →
    (R W : Loc → Prop) → (st : DepSt) → P.Foot (σ.setS i v) .normal τ R W → DInv E (σ.setS i v) rs ws st R W →
    ∃ τ' R' W', (Rel.seq P (s.den E)).Foot (σ.setS i v) .normal τ' R' W' ∧ DInv E (σ.setS i v) rs ws (s.visit O pos k st) R' W'
  | .nil, k, _, _, _, _, P, τ, R, W, st, F, I => ⟨τ, R, W, by rw [Seq.den, Rel.seq_skip]; exact F, I⟩
  | .cons n t r, k, hs, hr, hw, ht, P, τ, R, W, st, F, I => by
    match n, hs with
    | .block l, hs =>
      simp only [Seq.rdUsrs, Seq.wrUsrs, Seq.transSyms, List.mem_append] at hr hw ht
      obtain ⟨τ1, R1, W1, F1, I1⟩ := visitBlock_foot H hv (pos ++ [k]) l 0 (fun x h => hr x (Or.inl (Or.inl h)))
        (fun x h => hw x (Or.inl (Or.inl h))) P τ R W st F I
      obtain ⟨τ2, R2, W2, F2, I2⟩ := visitTrans_foot H hv (pos ++ [k]) t (fun x h => hr x (Or.inl (Or.inr h)))
        (fun a h => hw _ (Or.inl (Or.inr (List.mem_map.2 ⟨a, h, rfl⟩))))
        (fun a ha x hx => ht x (Or.inl (Or.inr (List.mem_flatMap.2 ⟨a, ha, hx⟩)))) F1 I1
      obtain ⟨τ3, R3, W3, F3, I3⟩ := visit_foot H hv pos r (k + 1) hs (fun x h => hr x (Or.inr h)) (fun x h => hw x (Or.inr h))
        (fun x h => ht x (Or.inr h)) _ τ2 R2 W2 _ F2 I2
      refine ⟨τ3, R3, W3, ?_, by rw [Seq.visit, Node.visit]; exact I3⟩
      rw [Seq.den, Node.den, ← Rel.seq_assoc, ← Rel.seq_assoc]; exact F3

theorem const_trans (E : Env) (x : String) (c : Int) : (t : Trans) → (τ : St) → (x, Expr.int c) ∈ t →
    (t.filter fun a => decide (a.1 = x)).length = 1 → runTrans E t τ x [] = c
  | [], _, h, _ => by simp at h
  | a :: t, τ, ht, ht1 => by
    by_cases hax : a.1 = x
    · have h0 : (t.filter fun a => decide (a.1 = x)).length = 0 := by simpa [List.filter_cons, hax] using ht1
      have h0' : ¬ writes (transUsers t) x := by
        intro hw
        rcases writes_append.1 hw with hw | hw
        · exact writes_readsOf hw
        · obtain ⟨b, hb, e⟩ := List.mem_map.1 hw
          rw [List.length_eq_zero_iff, List.filter_eq_nil_iff] at h0
          exact h0 b hb (by simpa using congrArg Prod.snd e)
      have he : a = (x, Expr.int c) := by
        rcases List.mem_cons.1 ht with h | h
        · exact h.symm
        · rw [List.length_eq_zero_iff, List.filter_eq_nil_iff] at h0
          exact absurd (by simp) (h0 _ h)
      rw [runTrans, List.foldl_cons]
      have := runTrans_frame E t (τ.setS a.1 (τ.ev E a.2)) x h0'
      rw [runTrans] at this
      rw [this, he, St.setS_same]
      exact St.ev_of_eval rfl
    · rw [runTrans, List.foldl_cons]
      exact const_trans E x c t _ (by
        rcases List.mem_cons.1 ht with h | h
        · exact absurd (by rw [← h]) hax
        · exact h) (by simpa [List.filter_cons, hax] using ht1)

/-- the value of a scalar whose only write is a transition assigning a constant -/
theorem const_final (E : Env) (x : String) (c : Int) : (s : Seq) → s.straight = true →
    (s.users.filter fun u => decide (u = (Use.write, x))).length = 1 → (x, Expr.int c) ∈ s.assigns → ∀ τ τ', s.den E τ .normal τ' → τ' x [] = c
  | .nil, _, _, h, _, _, _ => by simp [Seq.assigns] at h
  | .cons n t r, hs, hu, ha, τ, τ', hd => by
    match n, hs with
    | .block l, hs =>
      simp only [Seq.users, Node.isRet, Bool.false_eq_true, if_false, List.filter_append, List.length_append] at hu
      simp only [Seq.assigns, Node.assigns, List.nil_append, List.mem_append] at ha
      have key : ∀ (L : List User), (L.filter fun u => decide (u = (Use.write, x))).length = 0 → ¬ writes L x := by
        intro L h hw
        rw [List.length_eq_zero_iff, List.filter_eq_nil_iff] at h
        exact h _ hw (by simp)
      have key2 : ∀ (L : List User), writes L x → 0 < (L.filter fun u => decide (u = (Use.write, x))).length := by
        intro L h
        exact List.length_pos_of_mem (List.mem_filter.2 ⟨h, by simp⟩)
      rw [Seq.den, Node.den, Rel.upd_seq, Rel.upd_seq] at hd
      by_cases hr : (x, Expr.int c) ∈ r.assigns
      · have hrw : ∀ (r : Seq), r.straight = true → (x, Expr.int c) ∈ r.assigns → writes r.users x := by
          intro r
          induction r using Seq.rec (motive_1 := fun _ => True) (motive_3 := fun _ => True) with
          | nil => intro _ h; simp [Seq.assigns] at h
          | cons n t r _ ih =>
            intro hs h
            match n, hs with
            | .block l, hs =>
              simp only [Seq.assigns, Node.assigns, List.nil_append, List.mem_append] at h
              simp only [Seq.users, Node.isRet, Bool.false_eq_true, if_false]
              rcases h with h | h
              · exact writes_append.2 (Or.inl (writes_append.2 (Or.inr (writes_append.2 (Or.inr (List.mem_map.2 ⟨_, h, rfl⟩))))))
              · exact writes_append.2 (Or.inr (ih hs h))
          | _ => trivial
        have h1 := key2 _ (hrw r hs hr)
        exact const_final E x c r hs (by omega) hr _ _ hd
      · have ht := ha.resolve_right hr
        have h1 := key2 (transUsers t) (writes_append.2 (Or.inr (List.mem_map.2 ⟨_, ht, rfl⟩)))
        have hr0 := key r.users (by omega)
        have hfr := r.frame_inv E x (runTrans E t (runBlock E l τ) x) hr0 _ _ _ rfl hd
        have hfr' : τ' x = runTrans E t (runBlock E l τ) x := hfr
        rw [hfr']
        have ht1 : (t.filter fun a => decide (a.1 = x)).length = 1 := by
          have : (transUsers t).filter (fun u => decide (u = (Use.write, x))) = (t.filter fun a => decide (a.1 = x)).map fun a => (Use.write, a.1) := by
            simp only [transUsers, List.filter_append, readsOf, List.filter_map]
            rw [List.filter_eq_nil_iff.2 (by simp)]
            simp [Function.comp_def]
          rw [this, List.length_map] at hu
          have h2 : 0 < (t.filter fun a => decide (a.1 = x)).length := List.length_pos_of_mem (List.mem_filter.2 ⟨ht, by simp⟩)
          omega
        exact const_trans E x c t (runBlock E l τ) ht ht1

theorem foldl_readUsr_opn (O : DepOracle) : (l : List Usr) → (st : DepSt) → (l.foldl (readUsr O) st).opn = st.opn
  | [], _ => rfl
  | r :: l, st => by rw [List.foldl_cons, foldl_readUsr_opn O l, readUsr_opn]
theorem foldl_readUsr_undef (O : DepOracle) {x : Usr} : (l : List Usr) → (st : DepSt) → x ∈ st.undef → x ∈ (l.foldl (readUsr O) st).undef
  | [], _, h => h
  | r :: l, st, h => foldl_readUsr_undef O l _ (readUsr_undef st r x h)

/-- transients used in the loop body and nowhere else -/
def PrivateIn (C : MapCtx) (s : Seq) (x : String) : Prop := C.transient x = true ∧ x ∈ s.users.map (·.2) ∧ x ∉ C.outside

/-- **C23** (partial): if For2Map accepts a loop with a straight-line body, its oracles are right about the body (`DepOk`), the body does
not write what the loop header reads, and reads of locals that are not written before in the same iteration are reads of what another
iteration wrote, then the loop terminates, and executing its iterations in any order, each with its own copy of the locals, gives the
same memory.  Missing: bodies with nested control flow; `DepOk.covers` and `DepOk.subset`, which the analysis does not ensure, and the
header condition (see the `_violated` theorems). -/
theorem for2map_partial {O : DepOracle} {C : MapCtx} {E : Env} {pos : List Nat} {m : Bool} {i : String} {a : Expr} {k : Cond} {u : Expr}
    {s : Seq} {σ : St} {vs : List Int} {e : Int} (hc : canMap O C pos i u s = true) (hs : s.straight = true)
    (hI : Iters E i k u σ (σ.ev E a) vs e)
    (H : DepOk O E σ i vs (s.rdUsrs pos 0) (s.wrUsrs pos 0) s.transSyms)
    (hhdr : ∀ x, x = i ∨ x ∈ k.atoms ∨ x ∈ u.atoms → x ∈ C.outside ∧ ∀ w ∈ s.wrUsrs pos 0, w.cont ≠ x)
    (hsi : O.scalar i = true) (hinit : ∀ r ∈ (s.visit O pos 0 {}).undef, PrivateIn C s r.cont → ∃ w ∈ (s.visit O pos 0 {}).opn, loopDepends O i w r = true) :
    ∃ σ', (Node.loop m i a k u s).den E σ .normal σ' ∧
      ∀ ws : List Int, ws.Perm vs → (∃ τ', RunPar (s.den E) i (fun x => x = i ∨ PrivateIn C s x) ws σ τ') ∧
        ∀ τ', RunPar (s.den E) i (fun x => x = i ∨ PrivateIn C s x) ws σ τ' →
          OffX (fun x => x = i ∨ PrivateIn C s x) τ' σ' := by
  have hpriv : ∀ x, PrivateIn C s x ↔ isLocal C s x = true := fun x => by simp [PrivateIn, isLocal, and_assoc]
  simp only [hpriv] at hinit ⊢
  have hloc : ∀ x, x ∈ C.outside → isLocal C s x = false := fun x hx => by simp [isLocal, hx]
  simp only [canMap, Bool.and_eq_true] at hc
  obtain ⟨⟨⟨hmono, _⟩, hdeps⟩, _⟩ := hc
  generalize hb : s.visit O pos 0 {} = b at hinit
  have hopn : (loopBody O pos u s).opn = b.opn := by rw [loopBody, foldl_readUsr_opn, hb]
  have hund : ∀ x ∈ b.undef, x ∈ (loopBody O pos u s).undef := fun x hx => by
    rw [loopBody]; exact foldl_readUsr_undef O _ _ (by rw [hb]; exact hx)
  have hrw : ∀ r ∈ (loopBody O pos u s).undef, ∀ w ∈ b.opn, loopDepends O i w r = false := by
    intro r hr w hw
    by_contra hne
    have : (r.cont, Dep.readWrite) ∈ loopDeps O pos i u s := by
      simp only [loopDeps, hmono, if_true, List.mem_append, List.mem_map, List.mem_filter]
      exact Or.inl ⟨r.cont, ⟨r, ⟨hr, List.any_eq_true.2 ⟨w, by rw [hopn]; exact hw, by simpa using hne⟩⟩, rfl⟩, rfl⟩
    have := List.all_eq_true.1 hdeps _ this
    simp [depOk] at this
  have hww : ∀ w ∈ b.opn, ∀ w2 ∈ b.opn, loopDepends O i w w2 = true → depOk O C s (w.cont, .writeWrite) = true := by
    intro w hw w2 hw2 hd
    refine List.all_eq_true.1 hdeps _ ?_
    simp only [loopDeps, hmono, if_true, List.mem_append, List.mem_map, List.mem_filter]
    refine Or.inr ⟨w.cont, ⟨w, ⟨by rw [hopn]; exact hw, ?_⟩, rfl⟩, rfl⟩
    simp only [Bool.not_true, Bool.false_or, Bool.and_eq_true, Bool.not_eq_true', decide_eq_false_iff_not, List.any_eq_true]
    refine ⟨?_, w2, by rw [hopn]; exact hw2, hd⟩
    intro hm
    obtain ⟨r, hr, _⟩ := List.mem_map.1 hm
    obtain ⟨hr, hany⟩ := List.mem_filter.1 hr
    obtain ⟨w', hw', hd'⟩ := List.any_eq_true.1 hany
    simp only [hmono, if_true] at hd'
    rw [hrw r hr w' (by rw [← hopn]; exact hw')] at hd'
    cases hd'
  have hfoot : ∀ v, ∃ τ, v ∈ vs → (s.den E).Foot (σ.setS i v) .normal τ (fun l => ∃ r ∈ b.undef, r.locs E (σ.setS i v) l)
      (fun l => ∃ w ∈ b.opn, w.locs E (σ.setS i v) l) ∧ (∀ w ∈ b.opn, w.art = false ∧ w ∈ s.wrUsrs pos 0) ∧ ∀ r ∈ b.undef, r.art = false ∧ r ∈ s.rdUsrs pos 0 := by
    intro v
    by_cases hv : v ∈ vs
    · obtain ⟨τ, R, W, F, I⟩ := visit_foot H hv pos s 0 hs (fun _ h => h) (fun _ h => h) (fun _ h => h) (Rel.upd id) _ _ _ {}
        (Rel.Foot.skip (σ.setS i v)) ⟨fun _ h => h.elim, fun l => by simp, fun w hw => by simp at hw, fun r hr => by simp at hr⟩
      rw [Rel.skip_seq] at F
      rw [hb] at I
      exact ⟨τ, fun _ => ⟨F.congr I.rd I.wr, I.real, I.und⟩⟩
    · exact ⟨σ, fun h => absurd h hv⟩
  have hres := fun v => Classical.choose_spec (hfoot v)
  generalize hR : (fun v => Classical.choose (hfoot v)) = res at hres
  have hres : ∀ v ∈ vs, (s.den E).Foot (σ.setS i v) .normal (res v) (fun l => ∃ r ∈ b.undef, r.locs E (σ.setS i v) l)
      (fun l => ∃ w ∈ b.opn, w.locs E (σ.setS i v) l) ∧ (∀ w ∈ b.opn, w.art = false ∧ w ∈ s.wrUsrs pos 0) ∧ ∀ r ∈ b.undef, r.art = false ∧ r ∈ s.rdUsrs pos 0 := by
    intro v hv; rw [← hR]; exact Classical.choose_spec (hfoot v) hv
  have hout : ∀ x, x = i ∨ x ∈ k.atoms ∨ x ∈ u.atoms → isLocal C s x = false := fun x hx => hloc x (hhdr x hx).1
  have hsc : ∀ w ∈ b.opn, ∀ v ∈ vs, ∀ l, O.scalar w.cont = true → w.locs E (σ.setS i v) l → l = (w.cont, []) := by
    intro w hw v hv l hsc hl
    obtain ⟨h1, h2⟩ := hl
    obtain ⟨h3, h4⟩ := H.scalar w (Or.inr ((hres v hv).2.1 w hw).2) hsc
    rw [h3, h4] at h2
    exact Prod.ext h1 (by simpa using h2)
  refine any_order hI (X := fun x => x = i ∨ isLocal C s x = true) (res := res)
    (R := fun v l => (∃ r ∈ b.undef, r.locs E (σ.setS i v) l)) (W := fun v l => ∃ w ∈ b.opn, w.locs E (σ.setS i v) l)
    ⟨Or.inl rfl, fun v hv => ⟨.normal, Or.inl rfl, (hres v hv).1⟩, ?_, ?_, ?_⟩ ?_
  · rintro v hv ⟨w, hw, hl⟩
    exact (hhdr i (Or.inl rfl)).2 w ((hres v hv).2.1 w hw).2 hl.1.symm
  · rintro v hv l ⟨r, hr, hl⟩ hne (hx | hx)
    · obtain ⟨h3, h4⟩ := H.scalar r (Or.inl ((hres v hv).2.2 r hr).2) (by rw [← hl.1, hx]; exact hsi)
      have h2 := hl.2
      rw [h3, h4] at h2
      exact hne (Prod.ext hx (by simpa using h2))
    · obtain ⟨w, hw, hd⟩ := hinit r hr (by rw [← hl.1]; exact hx)
      rw [hrw r (hund r hr) w hw] at hd
      cases hd
  · rintro v hv w hw hne l ⟨p, hp, hpl⟩ hX
    have hpw := (hres v hv).2.1 p hp
    refine ⟨?_, ?_⟩
    · rintro ⟨r, hr, hrl⟩
      have hd := hrw r (hund r hr) p hp
      have he : p.cont = r.cont := hpl.1.symm.trans hrl.1
      simp only [loopDepends, he, decide_true, Bool.true_and, hpw.1, ((hres v hv).2.2 r hr).1, Bool.not_false, Bool.or_eq_false_iff] at hd
      exact H.meets p hpw.2 r (Or.inl ((hres v hv).2.2 r hr).2) he hd.2 v hv w hw hne l hpl hrl
    · rintro ⟨q, hq, hql⟩
      have hqw := (hres v hv).2.1 q hq
      have he : p.cont = q.cont := hpl.1.symm.trans hql.1
      by_cases hd : loopDepends O i p q = true
      · have hok := hww p hp q hq hd
        simp only [depOk, decide_true, Bool.true_and] at hok
        have hnl : ¬ isLocal C s p.cont = true := fun h => hX (Or.inr (by rw [hpl.1]; exact h))
        rw [if_neg hnl] at hok
        simp only [constScalar, Bool.and_eq_true, List.any_eq_true, decide_eq_true_eq] at hok
        obtain ⟨⟨⟨hs1, hs2⟩, _⟩, as, has, hx, hc⟩ := hok
        obtain ⟨c, hc⟩ : ∃ c, as.2 = .int c := by
          split at hc
          · exact ⟨_, by assumption⟩
          · cases hc
        have has' : (p.cont, Expr.int c) ∈ s.assigns := by rw [← hx, ← hc]; exact has
        rw [hsc p hp v hv l hs1 hpl]
        show res v p.cont [] = res w p.cont []
        rw [const_final E p.cont c s hs hs2 has' _ _ (hres v hv).1.1, const_final E p.cont c s hs hs2 has' _ _ (hres w hw).1.1]
      · simp only [loopDepends, he, decide_true, Bool.true_and, hpw.1, hqw.1, Bool.not_false, Bool.or_eq_true, not_or, Bool.not_eq_true] at hd
        exact absurd hql (H.meets p hpw.2 q (Or.inr hqw.2) he hd.2 v hv w hw hne l hpl)
  · intro x hx hne
    refine ⟨?_, ?_⟩
    · rintro (h | h)
      · exact hne h
      · rw [hout x (Or.inr hx)] at h; cases h
    · rintro v hv ⟨w, hw, hl⟩
      exact (hhdr x (Or.inr hx)).2 w ((hres v hv).2.1 w hw).2 hl.1.symm

end
end Docc.IR

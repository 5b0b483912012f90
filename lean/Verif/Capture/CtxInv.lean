import Verif.Capture.CtxLemmas
namespace Docc.Capture
open Docc.Base64

/-- Invariant of a capture entry of region `e`. -/
structure EntryOk (c : Ctx) (e : Nat) (p : Key × ArgCapture) : Prop where
  keyed : p.1 = (p.2.argIdx, p.2.after)
  data : ∀ d, p.2.data = some d → d.length ≤ 32 ∧ p.2.extFile = none
  ext : ∀ f, p.2.extFile = some f → ∃ inv, c.invokes.get e = some inv ∧
    f = c.outputDir ++ c.nameDirs ++ [capName c.nameBase inv p.2.argIdx p.2.after e]

/-- Invariant of a capture context. -/
structure Inv (c : Ctx) : Prop where
  nodup : c.captures.keys.Nodup
  regNodup : ∀ e m, c.captures.get e = some m → m.keys.Nodup
  entered : ∀ e m, c.captures.get e = some m → ∃ inv, c.invokes.get e = some inv
  entry : ∀ e m, c.captures.get e = some m → ∀ p ∈ m, EntryOk c e p

theorem Inv.region_nodup {c : Ctx} (h : Inv c) (e : Nat) : (regionOf c e).keys.Nodup := by
  unfold regionOf
  cases hg : c.captures.get e with
  | none => simp [AList.keys]
  | some m => exact h.regNodup e m hg

theorem Inv.region_entry {c : Ctx} (h : Inv c) (e : Nat) : ∀ p ∈ regionOf c e, EntryOk c e p := by
  unfold regionOf
  cases hg : c.captures.get e with
  | none => simp
  | some m => exact h.entry e m hg

theorem inv_new (d : List Str) (b : Str) (o : Path) (n : UInt32) : Inv (Ctx.new d b o n) := by
  constructor <;> simp [Ctx.new, AList.keys]

theorem inv_enter (c : Ctx) (e : Nat) : Inv (enter c e).1 := by
  constructor <;> simp [enter, invocation, clear, AList.keys]

/-- replacing the map of one region keeps the invariant -/
theorem inv_set (c c' : Ctx) (h : Inv c) (e : Nat) (reg : AList Key ArgCapture)
    (hinv : ∃ inv, c.invokes.get e = some inv)
    (hreg : reg.keys.Nodup) (hent : ∀ p ∈ reg, EntryOk c e p)
    (h1 : c'.captures = c.captures.set e reg) (h2 : c'.invokes = c.invokes)
    (h3 : c'.outputDir = c.outputDir) (h4 : c'.nameDirs = c.nameDirs) (h5 : c'.nameBase = c.nameBase) :
    Inv c' := by
  have tr : ∀ e' p, EntryOk c e' p → EntryOk c' e' p := by
    intro e' p hp
    exact ⟨hp.keyed, hp.data, by rw [h2, h3, h4, h5]; exact hp.ext⟩
  constructor
  · rw [h1]; exact AList.nodup_set _ _ h.nodup
  · intro e' m hm
    rw [h1, AList.get_set] at hm
    split at hm
    · cases hm; exact hreg
    · exact h.regNodup e' m hm
  · intro e' m hm
    rw [h1, AList.get_set] at hm
    rw [h2]
    split at hm
    · rename_i he; subst he; exact hinv
    · exact h.entered e' m hm
  · intro e' m hm p hp
    rw [h1, AList.get_set] at hm
    split at hm
    · rename_i he; subst he; cases hm; exact tr _ _ (hent p hp)
    · exact tr _ _ (h.entry e' m hm p hp)

theorem captureNd_eq (disk : Path → Bool) (c : Ctx) (arg : Int) (mem : List UInt8) (pt : Int)
    (dims : List Nat) (after : Bool) (e : Nat) (c' : Ctx)
    (h : captureNd disk c arg mem pt dims after e = some c') :
    ∃ inv reg, c.invokes.get e = some inv ∧
      let file := c.outputDir ++ c.nameDirs ++ [capName c.nameBase inv arg after e]
      accSize dims ≤ mem.length ∧ disk file = true ∧
      c' = { c with captures := c.captures.set e reg,
                    files := c.files.set file (.raw (mem.take (accSize dims))) } ∧
      (∀ k, reg.get k = if (arg, after) = k then some ⟨arg, after, dims, pt, some file, none⟩
                        else (regionOf c e).get k) ∧
      ((regionOf c e).keys.Nodup → reg.keys.Nodup) ∧
      (∀ p ∈ reg, p = ((arg, after), ⟨arg, after, dims, pt, some file, none⟩) ∨ p ∈ regionOf c e) := by
  unfold captureNd at h
  split at h
  · cases h
  · rename_i file hf
    obtain ⟨inv, hinv, rfl⟩ := argFile_eq _ _ _ _ _ hf
    split at h
    · rename_i c'' hc
      cases h
      obtain ⟨h1, h2, reg, h3⟩ := captureToFile_eq _ _ _ _ _ _ _ _ _ _ hc
      exact ⟨inv, reg, hinv, h1, h2, h3⟩
    · cases h

theorem inv_nd (disk : Path → Bool) (c : Ctx) (hI : Inv c) (arg : Int) (mem : List UInt8) (pt : Int)
    (dims : List Nat) (after : Bool) (e : Nat) (c' : Ctx)
    (h : captureNd disk c arg mem pt dims after e = some c') : Inv c' := by
  obtain ⟨inv, reg, hinv, _, _, rfl, hget, hnd, hmem⟩ := captureNd_eq _ _ _ _ _ _ _ _ _ h
  refine inv_set c _ hI e reg ⟨inv, hinv⟩ (hnd (hI.region_nodup e)) ?_ rfl rfl rfl rfl rfl
  intro p hp
  rcases hmem p hp with rfl | hp
  · exact ⟨rfl, by simp, by intro f hf; simp only [Option.some.injEq] at hf; exact ⟨inv, hinv, hf.symm⟩⟩
  · exact hI.region_entry e p hp

/-- the inline part of `capture_raw` keeps the invariant, provided the region was entered -/
theorem inv_inline (c : Ctx) (hI : Inv c) (arg : Int) (mem : List UInt8) (pt : Int)
    (size : Nat) (hs : size ≤ 32) (after : Bool) (e : Nat) (c' : Ctx)
    (hinv : ∃ inv, c.invokes.get e = some inv)
    (h : captureInline c arg after pt [size] mem e = some c') : Inv c' := by
  obtain ⟨_, _, reg, rfl, hget, hnd, hmem⟩ := captureInline_eq _ _ _ _ _ _ _ _ h
  refine inv_set c _ hI e reg hinv (hnd (hI.region_nodup e)) ?_ rfl rfl rfl rfl rfl
  intro p hp
  rcases hmem p hp with rfl | hp
  · refine ⟨rfl, ?_, by simp⟩
    intro d hd
    simp only [Option.some.injEq] at hd
    subst hd
    rw [accInt_one size hs]
    simp only [List.length_take, Int.toNat_natCast, and_true]; omega
  · exact hI.region_entry e p hp

theorem captureNd_invokes (disk : Path → Bool) (c : Ctx) (arg : Int) (mem : List UInt8) (pt : Int)
    (dims : List Nat) (after : Bool) (e : Nat) (c' : Ctx)
    (h : captureNd disk c arg mem pt dims after e = some c') : ∃ inv, c.invokes.get e = some inv := by
  obtain ⟨inv, reg, hinv, _⟩ := captureNd_eq _ _ _ _ _ _ _ _ _ h
  exact ⟨inv, hinv⟩

theorem inv_raw (disk : Path → Bool) (c : Ctx) (hI : Inv c) (arg : Int) (mem : List UInt8) (size : Nat)
    (pt : Int) (after : Bool) (e : Nat) (c' : Ctx)
    (h : captureRaw disk c arg mem size pt after e = some c') : Inv c' := by
  unfold captureRaw at h
  split at h
  · rename_i hs
    split at h
    · cases h
    · rename_i c1 h1
      have hinv := captureNd_invokes _ _ _ _ _ _ _ _ _ h
      have hk : c1.invokes = c.invokes := by
        obtain ⟨_, _, reg, rfl, _⟩ := captureInline_eq _ _ _ _ _ _ _ _ h1; rfl
      rw [hk] at hinv
      exact inv_nd _ _ (inv_inline c hI arg mem pt size hs after e c1 hinv h1) _ _ _ _ _ _ _ h
  · exact inv_nd _ _ hI _ _ _ _ _ _ _ h

/-! ### writing the index -/

theorem writeIndexGo_spec (env : Env) (c : Ctx) (l : AList Nat (AList Key ArgCapture))
    (fs fs' : AList Path File) (nd : l.keys.Nodup) (h : writeIndexGo env c l fs = some fs') :
    (∀ e m, (e, m) ∈ l → ∃ inv, c.invokes.get e = some inv ∧
        fs'.get (indexFile c e inv) = some (.index (indexJson (fullName c) e inv (env.ord m)))) ∧
    (∀ p, (∀ e inv, p ≠ indexFile c e inv) → fs'.get p = fs.get p) := by
  induction l generalizing fs with
  | nil =>
    simp only [writeIndexGo, Option.some.injEq] at h; subst h
    exact ⟨by simp, fun _ _ => rfl⟩
  | cons q r ih =>
    obtain ⟨e, m⟩ := q
    simp only [AList.keys, List.map_cons, List.nodup_cons, List.mem_map, not_exists, not_and] at nd
    unfold writeIndexGo at h
    split at h
    · cases h
    · rename_i inv hinv
      obtain ⟨h1, h2⟩ := ih _ nd.2 h
      constructor
      · intro e' m' hm
        rcases List.mem_cons.mp hm with heq | hm
        · cases heq
          refine ⟨inv, hinv, ?_⟩
          -- later writes go to other files
          have key : ∀ (l : AList Nat (AList Key ArgCapture)) (fs fs' : AList Path File),
              (∀ p ∈ l, p.1 ≠ e) → writeIndexGo env c l fs = some fs' →
              fs'.get (indexFile c e inv) = fs.get (indexFile c e inv) := by
            intro l
            induction l with
            | nil => intro fs fs' _ h; simp only [writeIndexGo, Option.some.injEq] at h; rw [h]
            | cons q r ih2 =>
              intro fs fs' hne h
              obtain ⟨a, b⟩ := q
              unfold writeIndexGo at h
              split at h
              · cases h
              · rw [ih2 _ _ (fun p hp => hne p (List.mem_cons_of_mem _ hp)) h, AList.get_set_ne]
                intro hc
                exact hne (a, b) (by simp) (indexFile_inj _ _ _ _ _ hc).1
          rw [key r _ _ (fun p hp hpe => nd.1 p hp hpe) h, AList.get_set_self]
        · exact h1 e' m' hm
      · intro p hp
        rw [h2 p hp, AList.get_set_ne]
        exact fun hc => hp e inv hc.symm

theorem writeIndexGo_total (env : Env) (c : Ctx) (l : AList Nat (AList Key ArgCapture))
    (fs : AList Path File) (h : ∀ p ∈ l, ∃ inv, c.invokes.get p.1 = some inv) :
    ∃ fs', writeIndexGo env c l fs = some fs' := by
  induction l generalizing fs with
  | nil => exact ⟨fs, rfl⟩
  | cons q r ih =>
    obtain ⟨e, m⟩ := q
    obtain ⟨inv, hinv⟩ := h (e, m) (by simp)
    simp only at hinv
    simp only [writeIndexGo, hinv]
    exact ih _ (fun p hp => h p (List.mem_cons_of_mem _ hp))

theorem exit_eq (env : Env) (c c' : Ctx) (h : exit env c = some c') :
    ∃ fs, writeIndexGo env c c.captures c.files = some fs ∧ c' = { c with files := fs } := by
  unfold exit at h
  split at h
  · cases h
  · rename_i fs hfs; exact ⟨fs, hfs, by simpa using h.symm⟩

theorem inv_step (env : Env) (c c' : Ctx) (op : Op) (hI : Inv c) (h : step env c op = some c') :
    Inv c' := by
  cases op with
  | enter e => simp only [step, Option.some.injEq] at h; rw [← h]; exact inv_enter c e
  | raw a m s t af e => simp only [step] at h; exact inv_raw _ _ hI _ _ _ _ _ _ _ h
  | nd a m t d af e => simp only [step] at h; exact inv_nd _ _ hI _ _ _ _ _ _ _ h
  | exit =>
    simp only [step] at h
    obtain ⟨fs, _, rfl⟩ := exit_eq _ _ _ h
    exact ⟨hI.nodup, hI.regNodup, hI.entered, fun e m hm p hp =>
      ⟨(hI.entry e m hm p hp).keyed, (hI.entry e m hm p hp).data, (hI.entry e m hm p hp).ext⟩⟩

theorem inv_run (env : Env) (ops : List Op) (c c' : Ctx) (hI : Inv c) (h : run env c ops = some c') :
    Inv c' := by
  induction ops generalizing c with
  | nil => simp only [run, Option.some.injEq] at h; exact h ▸ hI
  | cons op r ih =>
    unfold run at h
    split at h
    · rename_i c1 h1; exact ih c1 (inv_step _ _ _ _ hI h1) h
    · cases h

end Docc.Capture

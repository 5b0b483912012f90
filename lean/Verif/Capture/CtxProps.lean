import Verif.Capture.CtxInv
/-! Property theorems C32, C33, C34, C41, C42 about the capture runtime. -/
namespace Docc.Capture
open Docc.Base64

/-! ## C32 invocation numbers and capture strategy -/

/-- Specification: how many `enter` calls of region `e` the history contains. -/
def entersOf (e : Nat) : List Op → Nat
  | [] => 0
  | .enter e' :: r => (if e' = e then 1 else 0) + entersOf e r
  | _ :: r => entersOf e r

theorem step_invokes (env : Env) (c c' : Ctx) (op : Op) (h : step env c op = some c') (e : Nat) :
    c'.invokes.get e =
      (if entersOf e [op] = 1 then some (match c.invokes.get e with | some v => v + 1 | none => 0)
       else c.invokes.get e) ∧ c'.only = c.only := by
  cases op with
  | enter e' =>
    simp only [step, Option.some.injEq] at h
    subst h
    refine ⟨?_, rfl⟩
    simp only [enter, invocation, clear, AList.get_set, entersOf]
    by_cases he : e' = e
    · subst he; simp only [if_true, Nat.add_zero]; cases c.invokes.get e' <;> rfl
    · simp [he]
  | raw a m s t af e' =>
    simp only [step] at h
    have : c'.invokes = c.invokes ∧ c'.only = c.only := by
      unfold captureRaw at h
      split at h
      · split at h
        · cases h
        · rename_i c1 h1
          obtain ⟨_, _, _, rfl, _⟩ := captureInline_eq _ _ _ _ _ _ _ _ h1
          obtain ⟨_, _, _, _, _, rfl, _⟩ := captureNd_eq _ _ _ _ _ _ _ _ _ h
          exact ⟨rfl, rfl⟩
      · obtain ⟨_, _, _, _, _, rfl, _⟩ := captureNd_eq _ _ _ _ _ _ _ _ _ h
        exact ⟨rfl, rfl⟩
    rw [this.1, this.2]; simp [entersOf]
  | nd a m t d af e' =>
    simp only [step] at h
    obtain ⟨_, _, _, _, _, rfl, _⟩ := captureNd_eq _ _ _ _ _ _ _ _ _ h
    simp [entersOf]
  | exit =>
    simp only [step] at h
    obtain ⟨_, _, rfl⟩ := exit_eq _ _ _ h
    simp [entersOf]

theorem run_invokes (env : Env) (ops : List Op) (c c' : Ctx) (e n : Nat)
    (h0 : c.invokes.get e = if n = 0 then none else some (UInt32.ofNat (n - 1)))
    (h : run env c ops = some c') :
    c'.invokes.get e = (if n + entersOf e ops = 0 then none
      else some (UInt32.ofNat (n + entersOf e ops - 1))) ∧ c'.only = c.only := by
  induction ops generalizing c n with
  | nil => simp only [run, Option.some.injEq] at h; subst h; exact ⟨h0, rfl⟩
  | cons op r ih =>
    unfold run at h
    split at h
    · rename_i c1 h1
      obtain ⟨hs, ho⟩ := step_invokes env c c1 op h1 e
      have hcount : entersOf e (op :: r) = entersOf e [op] + entersOf e r := by
        cases op <;> simp [entersOf]
      have hle : entersOf e [op] = 0 ∨ entersOf e [op] = 1 := by
        cases op <;> simp [entersOf]
        rename_i e'; by_cases e' = e <;> simp [*]
      have := ih c1 (n + entersOf e [op]) (by
        rw [hs]
        rcases hle with hz | ho
        · rw [hz]; simpa using h0
        · rw [ho, if_pos rfl, if_neg (by omega), h0]
          cases n with
          | zero => simp
          | succ n => simp [UInt32.ofNat_add]) h
      rw [hcount, ← Nat.add_assoc, ← ho]
      exact this
    · cases h

/-- C32 (numbers).  After any history, a region entered `k + 1` times has invocation number `k`
(as a 32-bit counter), a region never entered has none; other regions do not matter. -/
theorem invocation_counts (env : Env) (dirs : List Str) (base : Str) (out : Path) (only : UInt32)
    (ops : List Op) (c : Ctx) (e : Nat)
    (h : run env (Ctx.new dirs base out only) ops = some c) :
    c.invokes.get e =
      (match entersOf e ops with | 0 => none | k + 1 => some (UInt32.ofNat k)) := by
  have := (run_invokes env ops _ c e 0 (by simp [Ctx.new]) h).1
  rw [this]
  cases hk : entersOf e ops <;> simp

/-- C32 (strategies).  Entering a region in a context created under the environment setting `setting` asks for
a capture: always for `all`; never for `never`; otherwise (`once`, unset or unknown) exactly when the
number of earlier entries of that region is a multiple of 2^32 - i.e. at the first one, and again only
after the 32-bit counter has wrapped around. -/
theorem enter_strategy (env : Env) (dirs : List Str) (base : Str) (out : Path) (setting : Option Str)
    (e : Nat) :
    match strategy setting with
    | none => setting = some "never".toList ∧ (captureEnter none e).2 = false
    | some only => ∀ ops c, run env (Ctx.new dirs base out only) ops = some c →
        ((captureEnter (some c) e).2 = true ↔
          (setting = some "all".toList ∨ entersOf e ops % 2 ^ 32 = 0)) := by
  unfold strategy
  by_cases h1 : setting = some "all".toList
  · rw [if_pos h1]
    intro ops c h
    have ho := (run_invokes env ops _ c e 0 (by simp [Ctx.new]) h).2
    simp [captureEnter, enter, invocation, clear, ho, Ctx.new, h1]
  · rw [if_neg h1]
    by_cases h2 : setting = some "never".toList
    · rw [if_pos h2]; exact ⟨h2, rfl⟩
    · rw [if_neg h2]
      intro ops c h
      obtain ⟨hi, ho⟩ := run_invokes env ops _ c e 0 (by simp [Ctx.new]) h
      have ho : c.only = 0 := ho
      simp only [captureEnter, enter, invocation, clear, ho, AList.get_set_self, h1, false_or]
      rw [hi]
      have hA : ((0 : UInt32) == ALL) = false := by decide
      rw [hA, Bool.false_or]
      cases hk : entersOf e ops with
      | zero => simp
      | succ k =>
        simp only [Nat.zero_add, Nat.succ_ne_zero, if_false, beq_iff_eq, Option.some.injEq]
        rw [← UInt32.toNat_inj]
        simp [UInt32.toNat_add]

/-- C32 for fewer than 2^32 entries: `once` captures exactly the first entry of each region. -/
theorem enter_once_first (env : Env) (dirs : List Str) (base : Str) (out : Path)
    (ops : List Op) (c : Ctx) (e : Nat) (hlt : entersOf e ops < 2 ^ 32)
    (h : run env (Ctx.new dirs base out 0) ops = some c) :
    (captureEnter (some c) e).2 = true ↔ entersOf e ops = 0 := by
  have := enter_strategy env dirs base out (some "once".toList) e
  have hs : strategy (some "once".toList) = some 0 := by decide
  rw [hs] at this
  have := this ops c h
  rw [this]
  constructor
  · rintro (h | h)
    · exact absurd h (by decide)
    · rwa [Nat.mod_eq_of_lt hlt] at h
  · intro h; right; rw [h]

/-- A disk on which every write works, and list order as hash order (for the examples). -/
def okEnv : Env := ⟨fun _ => true, fun m => m.map (·.2), fun _ => List.Perm.refl _⟩

/-- Non-vacuity: a history that enters two regions, captures and exits runs to completion. -/
example : ∃ c, run okEnv (Ctx.new [] "k".toList ["out".toList] 0)
    [.enter 7, .enter 9, .raw 0 [1,2,3,4] 4 5 false 9, .exit, .enter 7] = some c ∧
    entersOf 7 [.enter 7, .enter 9, .raw 0 [1,2,3,4] 4 5 false 9, .exit, .enter 7] = 2 := by
  refine ⟨_, rfl, rfl⟩

/-! ## C33 what is recorded for an argument -/

/-- Specification state: the latest capture of each (region, argument, direction) since the last `enter`
call: dimensions, type and exact bytes. -/
abbrev Spec := Nat → Key → Option (List Nat × Int × List UInt8)

/-- number of bytes: product of the dimensions -/
def prodDims (dims : List Nat) : Nat := dims.foldl (· * ·) 1

/-- Specification step. -/
def specStep (s : Spec) : Op → Spec
  | .enter _ => fun _ _ => none
  | .raw a m sz t af e => fun e' k => if e = e' ∧ (a, af) = k then some ([sz], t, m.take sz) else s e' k
  | .nd a m t d af e => fun e' k =>
      if e = e' ∧ (a, af) = k then some (d, t, m.take (prodDims d)) else s e' k
  | .exit => s

/-- The sizes of a call fit in `size_t`. -/
def Op.fits : Op → Prop
  | .raw _ _ sz _ _ _ => sz < 2 ^ 64
  | .nd _ _ _ d _ _ => prodDims d < 2 ^ 64
  | _ => True

/-- The bytes a capture record stands for: inline data, or the contents of the referenced file. -/
def contents (files : AList Path File) (a : ArgCapture) : Option (List UInt8) :=
  match a.data, a.extFile with
  | some d, _ => some d
  | none, some f => match files.get f with | some (.raw b) => some b | _ => none
  | none, none => none

/-- A recorded entry agrees with the specification. -/
def Agrees (files : AList Path File) (k : Key) : Option ArgCapture → Option (List Nat × Int × List UInt8) → Prop
  | none, none => True
  | some a, some (d, t, b) => a.argIdx = k.1 ∧ a.after = k.2 ∧ a.dims = d ∧ a.ptype = t ∧ contents files a = some b
  | _, _ => False

theorem accSize_eq (dims : List Nat) (h : prodDims dims < 2 ^ 64) : accSize dims = prodDims dims := by
  have gen : ∀ (l : List Nat) (a b : Nat), a = b % 2 ^ 64 →
      l.foldl (fun acc d => acc * d % 2 ^ 64) a = l.foldl (· * ·) b % 2 ^ 64 := by
    intro l
    induction l with
    | nil => intro a b h; exact h
    | cons d r ih =>
      intro a b h
      simp only [List.foldl_cons]
      apply ih
      rw [h]; simp
  rw [accSize, gen dims 1 1 (by decide)]
  exact Nat.mod_eq_of_lt h

/-- refinement invariant -/
def Refines (c : Ctx) (s : Spec) : Prop := ∀ e k, Agrees c.files k ((regionOf c e).get k) (s e k)

theorem agrees_files (c : Ctx) (hI : Inv c) (e : Nat) (k : Key) (o) (files' : AList Path File)
    (hfiles : ∀ inv, c.invokes.get e = some inv →
      files'.get (c.outputDir ++ c.nameDirs ++ [capName c.nameBase inv k.1 k.2 e]) =
      c.files.get (c.outputDir ++ c.nameDirs ++ [capName c.nameBase inv k.1 k.2 e]))
    (h : Agrees c.files k ((regionOf c e).get k) o) : Agrees files' k ((regionOf c e).get k) o := by
  cases hg : (regionOf c e).get k with
  | none => rw [hg] at h; cases o <;> exact h
  | some a =>
    rw [hg] at h
    cases o with
    | none => exact h
    | some t =>
      obtain ⟨d, t, b⟩ := t
      obtain ⟨h1, h2, h3, h4, h5⟩ := h
      refine ⟨h1, h2, h3, h4, ?_⟩
      have ok := hI.region_entry e _ (AList.mem_of_get hg)
      unfold contents at h5 ⊢
      cases hd : a.data with
      | some d => rw [hd] at h5; exact h5
      | none =>
        rw [hd] at h5
        cases hf : a.extFile with
        | none => rw [hf] at h5; exact h5
        | some f =>
          rw [hf] at h5
          obtain ⟨inv, hinv, hfe⟩ := ok.ext f hf
          simp only at hfe
          rw [h1, h2] at hfe
          subst hfe
          simp only at h5 ⊢
          rw [hfiles inv hinv]
          exact h5

theorem refines_nd (disk : Path → Bool) (c : Ctx) (hI : Inv c) (s : Spec) (hR : Refines c s)
    (a : Int) (m : List UInt8) (t : Int) (d : List Nat) (af : Bool) (e : Nat) (c' : Ctx)
    (hfit : accSize d = prodDims d)
    (h : captureNd disk c a m t d af e = some c') : Refines c' (specStep s (.nd a m t d af e)) := by
  obtain ⟨inv, reg, hinv, hlen, _, rfl, hget, hnd, hmem⟩ := captureNd_eq _ _ _ _ _ _ _ _ _ h
  intro e' k
  simp only [specStep]
  by_cases he : e = e'
  · subst he
    have hreg : (regionOf { c with captures := c.captures.set e reg, files := c.files.set (c.outputDir ++ c.nameDirs ++ [capName c.nameBase inv a af e]) (.raw (m.take (accSize d))) } e).get k = reg.get k := by
      simp [regionOf]
    rw [hreg, hget]
    by_cases hk : (a, af) = k
    · subst hk
      simp [Agrees, contents, hfit]
    · rw [if_neg hk, if_neg (fun hh => hk hh.2)]
      refine agrees_files c hI e k _ _ ?_ (hR e k)
      intro inv' hinv'
      rw [AList.get_set_ne]
      intro hc
      have hc := List.append_cancel_left hc
      simp only [List.cons.injEq, and_true] at hc
      have := capName_inj _ _ _ _ _ _ _ _ _ _ hc
      exact hk (by rw [this.2.2.1, this.2.2.2.1])
  · have hreg : (regionOf { c with captures := c.captures.set e reg, files := c.files.set (c.outputDir ++ c.nameDirs ++ [capName c.nameBase inv a af e]) (.raw (m.take (accSize d))) } e') = regionOf c e' := by
      simp [regionOf, AList.get_set, he]
    rw [hreg, if_neg (fun hh => he hh.1)]
    refine agrees_files c hI e' k _ _ ?_ (hR e' k)
    intro inv' hinv'
    rw [AList.get_set_ne]
    intro hc
    have hc := List.append_cancel_left hc
    simp only [List.cons.injEq, and_true] at hc
    have := capName_inj _ _ _ _ _ _ _ _ _ _ hc
    exact he this.2.2.2.2

/-- Inline capture also refines (used for the first half of `capture_raw`). -/
theorem refines_inline (c : Ctx) (s : Spec) (hR : Refines c s)
    (a : Int) (m : List UInt8) (t : Int) (sz : Nat) (hs : sz ≤ 32) (af : Bool) (e : Nat) (c' : Ctx)
    (h : captureInline c a af t [sz] m e = some c') : Refines c' (specStep s (.raw a m sz t af e)) := by
  obtain ⟨_, _, reg, rfl, hget, _, _⟩ := captureInline_eq _ _ _ _ _ _ _ _ h
  rw [accInt_one sz hs] at hget
  intro e' k
  simp only [specStep]
  by_cases he : e = e'
  · subst he
    have hreg : (regionOf { c with captures := c.captures.set e reg } e).get k = reg.get k := by
      simp [regionOf]
    rw [hreg, hget]
    by_cases hk : (a, af) = k
    · subst hk; simp [Agrees, contents]
    · rw [if_neg hk, if_neg (fun hh => hk hh.2)]; exact hR e k
  · have hreg : (regionOf { c with captures := c.captures.set e reg } e') = regionOf c e' := by
      simp [regionOf, AList.get_set, he]
    rw [hreg, if_neg (fun hh => he hh.1)]; exact hR e' k

theorem specStep_raw_nd (s : Spec) (a : Int) (m : List UInt8) (sz : Nat) (t : Int) (af : Bool) (e : Nat) :
    specStep (specStep s (.raw a m sz t af e)) (.nd a m t [sz] af e) = specStep s (.raw a m sz t af e) ∧
    specStep s (.nd a m t [sz] af e) = specStep s (.raw a m sz t af e) := by
  have : prodDims [sz] = sz := by simp [prodDims]
  constructor
  · funext e' k; simp only [specStep, this]; split <;> rfl
  · funext e' k; simp only [specStep, this]

theorem refines_raw (disk : Path → Bool) (c : Ctx) (hI : Inv c) (s : Spec) (hR : Refines c s)
    (a : Int) (m : List UInt8) (sz : Nat) (hsz : sz < 2 ^ 64) (t : Int) (af : Bool) (e : Nat) (c' : Ctx)
    (h : captureRaw disk c a m sz t af e = some c') : Refines c' (specStep s (.raw a m sz t af e)) := by
  have hacc : accSize [sz] = prodDims [sz] := by rw [accSize_one sz hsz]; simp [prodDims]
  unfold captureRaw at h
  split at h
  · rename_i hs
    split at h
    · cases h
    · rename_i c1 h1
      have hinv := captureNd_invokes _ _ _ _ _ _ _ _ _ h
      have hk : c1.invokes = c.invokes := by
        obtain ⟨_, _, reg, rfl, _⟩ := captureInline_eq _ _ _ _ _ _ _ _ h1; rfl
      rw [hk] at hinv
      have hI1 := inv_inline c hI a m t sz hs af e c1 hinv h1
      have hR1 := refines_inline c s hR a m t sz hs af e c1 h1
      have := refines_nd disk c1 hI1 _ hR1 a m t [sz] af e c' hacc h
      rwa [(specStep_raw_nd s a m sz t af e).1] at this
  · have := refines_nd disk c hI s hR a m t [sz] af e c' hacc h
    rwa [(specStep_raw_nd s a m sz t af e).2] at this

theorem refines_step (env : Env) (c c' : Ctx) (op : Op) (hI : Inv c) (s : Spec) (hR : Refines c s)
    (hfit : op.fits) (h : step env c op = some c') : Refines c' (specStep s op) := by
  cases op with
  | enter e =>
    simp only [step, Option.some.injEq] at h
    subst h
    intro e' k
    simp [enter, invocation, clear, regionOf, specStep, Agrees]
  | raw a m sz t af e => simp only [step] at h; exact refines_raw _ _ hI _ hR _ _ _ hfit _ _ _ _ h
  | nd a m t d af e =>
    simp only [step] at h
    exact refines_nd _ _ hI _ hR _ _ _ _ _ _ _ (accSize_eq d hfit) h
  | exit =>
    simp only [step] at h
    obtain ⟨fs, hfs, rfl⟩ := exit_eq _ _ _ h
    intro e k
    simp only [specStep]
    refine agrees_files c hI e k _ _ ?_ (hR e k)
    intro inv hinv
    apply (writeIndexGo_spec env c _ _ _ hI.nodup hfs).2
    intro e' inv'
    unfold capName indexFile
    exact index_ne_capture _ _ _

/-- C33 (what does hold).  After every history of API calls that ran to completion, what is recorded for each
region, argument and direction is exactly the latest capture since the last `enter`: its
dimensions, its type and its exact bytes (inline or in a file that still has them). -/
theorem captures_refine_latest (env : Env) (dirs : List Str) (base : Str) (out : Path) (only : UInt32)
    (ops : List Op) (c : Ctx) (hfit : ∀ op ∈ ops, op.fits)
    (h : run env (Ctx.new dirs base out only) ops = some c) (e : Nat) (k : Key) :
    Agrees c.files k ((regionOf c e).get k) (ops.foldl specStep (fun _ _ => none) e k) := by
  have gen : ∀ (ops : List Op) (c0 c : Ctx) (s : Spec), Inv c0 → Refines c0 s →
      (∀ op ∈ ops, op.fits) → run env c0 ops = some c → Refines c (ops.foldl specStep s) := by
    intro ops
    induction ops with
    | nil => intro c0 c s _ hR _ h; simp only [run, Option.some.injEq] at h; subst h; exact hR
    | cons op r ih =>
      intro c0 c s hI hR hf h
      unfold run at h
      split at h
      · rename_i c1 h1
        exact ih c1 c _ (inv_step _ _ _ _ hI h1)
          (refines_step env c0 c1 op hI s hR (hf op (by simp)) h1)
          (fun o ho => hf o (List.mem_cons_of_mem _ ho)) h
      · cases h
  exact gen ops _ c _ (inv_new _ _ _ _) (by intro e k; simp [Ctx.new, regionOf, Agrees]) hfit h e k

example : ∃ c, run okEnv (Ctx.new [] "k".toList ["out".toList] 0)
    [.enter 9, .raw 0 [1,2,3,4] 4 5 false 9, .nd 1 [5,6,7,8] 5 [2,2] true 9] = some c ∧
    (∀ op ∈ ([.enter 9, .raw 0 [1,2,3,4] 4 5 false 9, .nd 1 [5,6,7,8] 5 [2,2] true 9] : List Op), op.fits) := by
  refine ⟨_, rfl, ?_⟩
  intro op hop
  simp only [List.mem_cons, List.not_mem_nil, or_false] at hop
  rcases hop with rfl | rfl | rfl <;> simp [Op.fits, prodDims]

/-- C33 (violated).  `capture_raw` never leaves inline bytes, although the code captures values of at
most 32 bytes inline first: the fall-through file capture erases the inline entry.  So the record of *every*
successful `capture_raw` is a file reference without inline data. -/
theorem capture_raw_never_inline (disk : Path → Bool) (c c' : Ctx) (arg : Int) (mem : List UInt8)
    (size : Nat) (pt : Int) (after : Bool) (e : Nat)
    (h : captureRaw disk c arg mem size pt after e = some c') :
    ∃ a, (regionOf c' e).get (arg, after) = some a ∧ a.data = none ∧ a.extFile.isSome = true := by
  have key : ∀ c0 : Ctx, captureNd disk c0 arg mem pt [size] after e = some c' →
      ∃ a, (regionOf c' e).get (arg, after) = some a ∧ a.data = none ∧ a.extFile.isSome = true := by
    intro c0 h
    obtain ⟨inv, reg, _, _, _, rfl, hget, _⟩ := captureNd_eq _ _ _ _ _ _ _ _ _ h
    have hh := hget (arg, after)
    rw [if_pos rfl] at hh
    refine ⟨⟨arg, after, [size], pt, some (c0.outputDir ++ c0.nameDirs ++ [capName c0.nameBase inv arg after e]), none⟩, ?_, rfl, rfl⟩
    simp only [regionOf, AList.get_set_self, Option.getD_some]; exact hh
  unfold captureRaw at h
  split at h
  · split at h
    · cases h
    · exact key _ h
  · exact key _ h

/-- C33 violated on a concrete reachable state: a 4-byte value captured in an entered region is not inline. -/
theorem small_capture_inline_violated :
    ∃ c, run okEnv (Ctx.new [] "k".toList ["out".toList] 0)
      [.enter 9, .raw 0 [1,2,3,4] 4 5 false 9] = some c ∧
      ∃ a, (regionOf c 9).get (0, false) = some a ∧ a.data = none := by
  exact ⟨_, rfl, _, rfl, rfl⟩

/-! ## C34 index round trip -/

theorem fromIndex_doc (fs : AList Path File) (p : Path) (name : Str) (e : Nat) (inv : UInt32)
    (caps : List ArgCapture)
    (hg : fs.get p = some (.index (indexJson name e inv caps)))
    (hp : ∀ a ∈ caps, parseEntry p.dropLast a.toJson = some a) :
    fromIndex fs p = some ⟨name, dec e, inv.toNat,
      caps.foldl (fun m a => m.emplace (a.argIdx, a.after) a) []⟩ := by
  unfold fromIndex
  rw [hg]
  simp [indexJson, Json.setKey, Json.getKey, Json.find, Json.asNat, Json.asStr, Json.asArr,
    allSome_map _ _ _ hp]

/-- C34.  After any history, `exit` succeeds, and reading back the index written for any region that has
captures restores the target, region, invocation number and every capture (argument, direction, type,
dimensions, inline bytes or file reference), whatever the hash map's iteration order. -/
theorem index_round_trip (env : Env) (dirs : List Str) (base : Str) (out : Path) (only : UInt32)
    (ops : List Op) (c : Ctx) (h : run env (Ctx.new dirs base out only) ops = some c) :
    ∃ c', exit env c = some c' ∧
      ∀ e m, c.captures.get e = some m →
        ∃ inv L, c.invokes.get e = some inv ∧ fromIndex c'.files (indexFile c e inv) = some L ∧
          L.target = fullName c ∧ L.element = dec e ∧ L.invocation = inv.toNat ∧
          ∀ k, L.captures.get k = m.get k := by
  have hI := inv_run env ops _ c (inv_new dirs base out only) h
  have hent : ∀ p ∈ c.captures, ∃ inv, c.invokes.get p.1 = some inv := by
    intro p hp
    exact hI.entered p.1 p.2 (AList.get_of_mem hI.nodup hp)
  obtain ⟨fs, hfs⟩ := writeIndexGo_total env c c.captures c.files hent
  refine ⟨{ c with files := fs }, by simp [exit, hfs], ?_⟩
  intro e m hm
  obtain ⟨inv, hinv, hget⟩ := (writeIndexGo_spec env c _ _ _ hI.nodup hfs).1 e m (AList.mem_of_get hm)
  have hperm := env.ord_perm m
  have hentry := hI.entry e m hm
  have hmemord : ∀ a ∈ env.ord m, ((a.argIdx, a.after), a) ∈ m := by
    intro a ha
    obtain ⟨p, hp, rfl⟩ := List.mem_map.mp (hperm.mem_iff.mp ha)
    have := (hentry p hp).keyed
    obtain ⟨k, a⟩ := p
    simp only at this; subst this; exact hp
  have hparse : ∀ a ∈ env.ord m, parseEntry (indexFile c e inv).dropLast a.toJson = some a := by
    intro a ha
    have ok := hentry _ (hmemord a ha)
    apply parse_toJson
    · intro d hd; have := ok.data d hd; exact ⟨by omega, this.2⟩
    · intro f hf
      obtain ⟨inv', _, hfe⟩ := ok.ext f hf
      refine ⟨capName c.nameBase inv' a.argIdx a.after e, ?_⟩
      rw [hfe]; simp [indexFile]
  refine ⟨inv, _, hinv, fromIndex_doc _ _ _ _ _ _ hget hparse, rfl, rfl, rfl, ?_⟩
  intro k
  have hkeys : (m.map (fun p => (p.2.argIdx, p.2.after))) = m.keys := by
    apply List.map_congr_left
    intro p hp
    exact ((hentry p hp).keyed).symm
  have hnd : ((env.ord m).map (fun a => (a.argIdx, a.after))).Nodup := by
    have := (hperm.map (fun a => (a.argIdx, a.after))).nodup_iff
    rw [this, List.map_map]
    show (m.map (fun p => (p.2.argIdx, p.2.after))).Nodup
    rw [hkeys]; exact hI.regNodup e m hm
  simp only
  rw [foldl_emplace _ _ hnd (by simp)]
  simp only [AList.get_nil, Option.or_none]
  cases hg : m.get k with
  | none =>
    rw [AList.get_none_iff]
    intro hmem
    simp only [AList.keys, List.map_map, List.mem_map, Function.comp_apply] at hmem
    obtain ⟨a, ha, he⟩ := hmem
    subst he
    rw [AList.get_none_iff] at hg
    exact hg (List.mem_map.mpr ⟨_, hmemord a ha, rfl⟩)
  | some a =>
    apply AList.get_of_mem
    · simp only [AList.keys, List.map_map]; exact hnd
    · have hmem := AList.mem_of_get hg
      have hk := (hentry _ hmem).keyed
      simp only at hk
      subst hk
      apply List.mem_map.mpr
      exact ⟨a, hperm.mem_iff.mpr (List.mem_map.mpr ⟨_, hmem, rfl⟩), rfl⟩

example : ∃ c m, run okEnv (Ctx.new ["d".toList] "k".toList ["out".toList] 0)
    [.enter 9, .raw 0 [1,2,3,4] 4 5 false 9, .nd 1 [5,6,7,8] 5 [2,2] true 9] = some c ∧
    c.captures.get 9 = some m ∧ m.length = 2 := by
  exact ⟨_, _, rfl, rfl, rfl⟩

/-! ## C41 captures of an outer region survive a nested region -/

/-- C41 violated: entering a nested region discards the captures of the region still open. -/
theorem nested_enter_discards :
    ∃ c c', run okEnv (Ctx.new [] "k".toList ["out".toList] 0)
      [.enter 1, .raw 0 [1,2,3,4] 4 5 false 1] = some c ∧
      (regionOf c 1).get (0, false) ≠ none ∧
      run okEnv c [.enter 2] = some c' ∧ (regionOf c' 1).get (0, false) = none := by
  refine ⟨_, _, rfl, ?_, rfl, rfl⟩
  exact fun h => nomatch h

/-- C41 (what does hold): as long as no `enter` intervenes, a recorded capture that is not captured
again keeps its dimensions, type and bytes. -/
theorem capture_persists_partial (env : Env) (dirs : List Str) (base : Str) (out : Path) (only : UInt32)
    (pre post : List Op) (c : Ctx) (hfit : ∀ op ∈ pre ++ post, op.fits)
    (h : run env (Ctx.new dirs base out only) (pre ++ post) = some c) (e : Nat) (k : Key)
    (hno : ∀ op ∈ post, (∀ e', op ≠ .enter e') ∧ (∀ a m sz t af, op = .raw a m sz t af e → (a, af) ≠ k) ∧
      (∀ a m t d af, op = .nd a m t d af e → (a, af) ≠ k)) :
    Agrees c.files k ((regionOf c e).get k) (pre.foldl specStep (fun _ _ => none) e k) := by
  have h1 := captures_refine_latest env dirs base out only (pre ++ post) c hfit h e k
  rw [List.foldl_append] at h1
  have gen : ∀ (post : List Op) (s : Spec),
      (∀ op ∈ post, (∀ e', op ≠ .enter e') ∧ (∀ a m sz t af, op = .raw a m sz t af e → (a, af) ≠ k) ∧
      (∀ a m t d af, op = .nd a m t d af e → (a, af) ≠ k)) → post.foldl specStep s e k = s e k := by
    intro post
    induction post with
    | nil => intro s _; rfl
    | cons op r ih =>
      intro s hop
      rw [List.foldl_cons, ih _ (fun o ho => hop o (List.mem_cons_of_mem _ ho))]
      obtain ⟨h1, h2, h3⟩ := hop op (by simp)
      cases op with
      | enter e' => exact absurd rfl (h1 e')
      | raw a m sz t af e' =>
        simp only [specStep]
        rw [if_neg]
        rintro ⟨rfl, hk⟩
        exact h2 a m sz t af rfl hk
      | nd a m t d af e' =>
        simp only [specStep]
        rw [if_neg]
        rintro ⟨rfl, hk⟩
        exact h3 a m t d af rfl hk
      | exit => rfl
  rwa [gen post _ hno] at h1

example : ∀ op ∈ ([.raw 3 [1] 1 5 false 1, .exit] : List Op), (∀ e', op ≠ .enter e') ∧
    (∀ a m sz t af, op = .raw a m sz t af 1 → (a, af) ≠ ((0, false) : Key)) ∧
    (∀ a m t d af, op = .nd a m t d af 1 → (a, af) ≠ ((0, false) : Key)) := by
  intro op hop
  simp only [List.mem_cons, List.not_mem_nil, or_false] at hop
  rcases hop with rfl | rfl
  · refine ⟨by simp, ?_, by simp⟩
    intro a m sz t af h
    cases h
    decide
  · simp

/-! ## C42 capture files do not collide -/

/-- C42.  Two captures of the same output directory go to the same file only if they agree in target name,
region, invocation, argument and direction. -/
theorem capture_files_distinct (c c' : Ctx) (hout : c.outputDir = c'.outputDir)
    (hdirs : c.nameDirs = c'.nameDirs) (arg arg' : Int) (after after' : Bool) (e e' : Nat) (f : Path)
    (h : argFile c arg after e = some f) (h' : argFile c' arg' after' e' = some f) :
    c.nameBase = c'.nameBase ∧ c.invokes.get e = c'.invokes.get e' ∧ arg = arg' ∧ after = after' ∧ e = e' := by
  obtain ⟨inv, hinv, hf⟩ := argFile_eq _ _ _ _ _ h
  obtain ⟨inv', hinv', hf'⟩ := argFile_eq _ _ _ _ _ h'
  rw [hf, hout, hdirs] at hf'
  have := List.append_cancel_left hf'
  simp only [List.cons.injEq, and_true] at this
  obtain ⟨h1, h2, h3, h4, h5⟩ := capName_inj _ _ _ _ _ _ _ _ _ _ this
  exact ⟨h1, by rw [hinv, hinv', h2], h3, h4, h5⟩

example : argFile { Ctx.new [] "k".toList ["out".toList] 0 with invokes := [(9, 3)] } (-1) true 9
    = some ["out".toList, "k_inv3_arg-1_out_9.bin".toList] := by
  decide +kernel

end Docc.Capture

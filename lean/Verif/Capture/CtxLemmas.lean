import Verif.Capture.Ctx
import Verif.Capture.Base64Props
namespace Docc.Capture
open Docc.Base64

/-- the fresh entry inserted by `create_and_capture_*` -/
def fresh (reg : AList Key ArgCapture) (arg : Int) (after : Bool) (pt : Int) (dims : List Nat) :
    AList Key ArgCapture :=
  (reg.erase (arg, after)).emplace (arg, after) ⟨arg, after, dims, pt, none, none⟩

theorem fresh_eq (reg : AList Key ArgCapture) (arg : Int) (after : Bool) (pt : Int) (dims : List Nat) :
    fresh reg arg after pt dims = reg.set (arg, after) ⟨arg, after, dims, pt, none, none⟩ := by
  simp [fresh, AList.emplace, AList.set]

theorem captureToFile_eq (disk : Path → Bool) (c : Ctx) (arg : Int) (after : Bool) (pt : Int)
    (dims : List Nat) (file : Path) (mem : List UInt8) (e : Nat) (c' : Ctx)
    (h : captureToFile disk c arg after pt dims file mem e = some (c', true)) :
    accSize dims ≤ mem.length ∧ disk file = true ∧
    ∃ reg, c' = { c with captures := c.captures.set e reg,
                         files := c.files.set file (.raw (mem.take (accSize dims))) } ∧
      (∀ k, reg.get k = if (arg, after) = k then some ⟨arg, after, dims, pt, some file, none⟩
                        else (regionOf c e).get k) ∧
      ((regionOf c e).keys.Nodup → reg.keys.Nodup) ∧
      (∀ p ∈ reg, p = ((arg, after), ⟨arg, after, dims, pt, some file, none⟩) ∨ p ∈ regionOf c e) := by
  unfold captureToFile at h
  simp only at h
  rw [← fresh, fresh_eq] at h
  split at h
  · cases h
  · rename_i hm
    split at h
    · rename_i hd
      rw [AList.get_set_self] at h
      simp only [Option.some.injEq, Prod.mk.injEq, and_true] at h
      refine ⟨by omega, hd, _, h.symm, ?_, ?_, ?_⟩
      · intro k; rw [AList.get_set]; split
        · rfl
        · rename_i hk; rw [AList.get_set, if_neg hk]
      · intro nd; exact AList.nodup_set _ _ (AList.nodup_set _ _ nd)
      · intro p hp
        rw [AList.mem_set] at hp
        rcases hp with hp | ⟨hp, hne⟩
        · exact Or.inl hp
        · rw [AList.mem_set] at hp
          rcases hp with hp | ⟨hp, _⟩
          · subst hp; exact absurd rfl hne
          · exact Or.inr hp
    · simp at h

theorem captureInline_eq (c : Ctx) (arg : Int) (after : Bool) (pt : Int)
    (dims : List Nat) (mem : List UInt8) (e : Nat) (c' : Ctx)
    (h : captureInline c arg after pt dims mem e = some c') :
    0 ≤ accInt dims ∧ (accInt dims).toNat ≤ mem.length ∧
    ∃ reg, c' = { c with captures := c.captures.set e reg } ∧
      (∀ k, reg.get k = if (arg, after) = k then
                          some ⟨arg, after, dims, pt, none, some (mem.take (accInt dims).toNat)⟩
                        else (regionOf c e).get k) ∧
      ((regionOf c e).keys.Nodup → reg.keys.Nodup) ∧
      (∀ p ∈ reg, p = ((arg, after),
          ⟨arg, after, dims, pt, none, some (mem.take (accInt dims).toNat)⟩) ∨ p ∈ regionOf c e) := by
  unfold captureInline at h
  simp only at h
  rw [← fresh, fresh_eq] at h
  split at h
  · cases h
  · rename_i hm
    rw [AList.get_set_self] at h
    simp only [Option.some.injEq] at h
    refine ⟨by omega, by omega, _, h.symm, ?_, ?_, ?_⟩
    · intro k; rw [AList.get_set]; split
      · rfl
      · rename_i hk; rw [AList.get_set, if_neg hk]
    · intro nd; exact AList.nodup_set _ _ (AList.nodup_set _ _ nd)
    · intro p hp
      rw [AList.mem_set] at hp
      rcases hp with hp | ⟨hp, hne⟩
      · exact Or.inl hp
      · rw [AList.mem_set] at hp
        rcases hp with hp | ⟨hp, _⟩
        · subst hp; exact absurd rfl hne
        · exact Or.inr hp

/-- The file name of a capture, as a function of its coordinates. -/
def capName (base : Str) (inv : UInt32) (arg : Int) (after : Bool) (e : Nat) : Str :=
  base ++ "_inv".toList ++ dec inv.toNat ++ "_arg".toList ++ decInt arg ++ "_".toList ++
        (if after then "out".toList else "in".toList) ++ "_".toList ++ dec e ++ ".bin".toList

theorem capName_inj (base base' : Str) (inv inv' : UInt32) (arg arg' : Int) (after after' : Bool)
    (e e' : Nat) (h : capName base inv arg after e = capName base' inv' arg' after' e') :
    base = base' ∧ inv = inv' ∧ arg = arg' ∧ after = after' ∧ e = e' := by
  unfold capName at h
  have h := List.append_cancel_right h
  have s1 : "_".toList = ['_'] := rfl
  have s2 : "_arg".toList = '_' :: "arg".toList := rfl
  have s3 : "_inv".toList = '_' :: "inv".toList := rfl
  rw [s1, s2, s3] at h
  simp only [List.append_assoc, List.cons_append, List.nil_append] at h
  have reassoc : ∀ (b : Str) (i : Str) (a : Str) (t : Str) (f : Str),
      b ++ '_' :: ("inv".toList ++ (i ++ '_' :: ("arg".toList ++ (a ++ '_' :: (t ++ '_' :: f))))) =
      (b ++ '_' :: ("inv".toList ++ i) ++ '_' :: ("arg".toList ++ a) ++ '_' :: t) ++ '_' :: f := by
    intros; simp [List.append_assoc]
  rw [reassoc, reassoc] at h
  obtain ⟨h, h5⟩ := split_last (dec_no_underscore _) (dec_no_underscore _) h
  have hc : ∀ b : Bool, '_' ∉ (if b then "out".toList else "in".toList) := by decide
  obtain ⟨h, h4⟩ := split_last (hc _) (hc _) h
  have ha : ∀ a : Int, '_' ∉ "arg".toList ++ decInt a := by
    intro a; rw [List.mem_append, not_or]; exact ⟨by decide, decInt_no_underscore a⟩
  obtain ⟨h, h3⟩ := split_last (ha _) (ha _) h
  have hi : ∀ a : Nat, '_' ∉ "inv".toList ++ dec a := by
    intro a; rw [List.mem_append, not_or]; exact ⟨by decide, dec_no_underscore a⟩
  obtain ⟨h1, h2⟩ := split_last (hi _) (hi _) h
  refine ⟨h1, ?_, ?_, ?_, dec_inj _ _ h5⟩
  · exact UInt32.toNat_inj.mp (dec_inj _ _ (List.append_cancel_left h2))
  · exact decInt_inj _ _ (List.append_cancel_left h3)
  · clear h h1 h2 h3 h5; cases after <;> cases after' <;> first | rfl | (revert h4; decide)

theorem argFile_eq (c : Ctx) (arg : Int) (after : Bool) (e : Nat) (f : Path)
    (h : argFile c arg after e = some f) :
    ∃ inv, c.invokes.get e = some inv ∧
      f = c.outputDir ++ c.nameDirs ++ [capName c.nameBase inv arg after e] := by
  unfold argFile at h
  split at h
  · cases h
  · rename_i inv hinv
    exact ⟨inv, hinv, by simpa [capName] using h.symm⟩

theorem indexFile_inj (c : Ctx) (e e' : Nat) (inv inv' : UInt32)
    (h : indexFile c e inv = indexFile c e' inv') : e = e' ∧ inv = inv' := by
  unfold indexFile at h
  have h := List.append_cancel_left h
  simp only [List.cons.injEq, and_true] at h
  have h := List.append_cancel_right h
  have s1 : "_".toList = ['_'] := rfl
  have s3 : "_inv".toList = '_' :: "inv".toList := rfl
  rw [s1, s3] at h
  simp only [List.append_assoc, List.cons_append, List.nil_append] at h
  have reassoc : ∀ (b : Str) (i : Str) (f : Str),
      b ++ '_' :: ("inv".toList ++ (i ++ '_' :: f)) =
      (b ++ '_' :: ("inv".toList ++ i)) ++ '_' :: f := by
    intros; simp [List.append_assoc]
  rw [reassoc, reassoc] at h
  obtain ⟨h, h5⟩ := split_last (dec_no_underscore _) (dec_no_underscore _) h
  have hi : ∀ a : Nat, '_' ∉ "inv".toList ++ dec a := by
    intro a; rw [List.mem_append, not_or]; exact ⟨by decide, dec_no_underscore a⟩
  obtain ⟨h1, h2⟩ := split_last (hi _) (hi _) h
  exact ⟨dec_inj _ _ h5, UInt32.toNat_inj.mp (dec_inj _ _ (List.append_cancel_left h2))⟩

theorem index_ne_capture (out : Path) (a b : Str) :
    out ++ [a ++ ".bin".toList] ≠ out ++ [b ++ ".index.json".toList] := by
  intro h
  have h := List.append_cancel_left h
  simp only [List.cons.injEq, and_true] at h
  have h := congrArg List.reverse h
  simp at h

theorem accSize_one (n : Nat) (h : n < 2 ^ 64) : accSize [n] = n := by
  simp [accSize, Nat.mod_eq_of_lt h]

theorem accInt_one (n : Nat) (h : n ≤ 32) : accInt [n] = n := by
  have : ∀ m : Fin 33, accInt [m.1] = (m.1 : Int) := by decide +kernel
  exact this ⟨n, by omega⟩

/-! ### the JSON entry of one capture -/

theorem allSome_nat (ds : List Nat) :
    allSome Json.asNat (ds.map (fun (d : Nat) => Json.num d)) = some ds := by
  induction ds with
  | nil => rfl
  | cons d r ih => simp only [List.map_cons, allSome, ih, Json.asNat]

theorem parse_toJson (dir : Path) (a : ArgCapture)
    (hd : ∀ d, a.data = some d → d.length ≤ 2 ^ 30 ∧ a.extFile = none)
    (hf : ∀ f, a.extFile = some f → ∃ n, f = dir ++ [n]) :
    parseEntry dir a.toJson = some a := by
  obtain ⟨idx, aft, ds, pt, ef, dt⟩ := a
  cases dt with
  | some d =>
    obtain ⟨hl, hn⟩ := hd d rfl
    simp only at hn; subst hn
    have := base64_round_trip d (by omega)
    simp [parseEntry, ArgCapture.toJson, Json.setKey, Json.getKey, Json.find, Json.asInt, Json.asBool,
      Json.asArr, Json.asStr, allSome_nat, this]
  | none =>
    cases ef with
    | none =>
      simp [parseEntry, ArgCapture.toJson, Json.setKey, Json.getKey, Json.find, Json.asInt, Json.asBool,
        Json.asArr, allSome_nat]
    | some f =>
      obtain ⟨n, hn⟩ := hf f rfl
      subst hn
      simp [parseEntry, ArgCapture.toJson, Json.setKey, Json.getKey, Json.find, Json.asInt, Json.asBool,
        Json.asArr, Json.asStr, allSome_nat]

theorem allSome_map {α β} (f : α → Option β) (g : β → α) (l : List β) (h : ∀ b ∈ l, f (g b) = some b) :
    allSome f (l.map g) = some l := by
  induction l with
  | nil => rfl
  | cons b r ih =>
    simp only [List.map_cons, allSome, h b (by simp),
      ih (fun x hx => h x (List.mem_cons_of_mem _ hx))]

/-- folding `emplace` over captures with distinct keys -/
theorem foldl_emplace (l : List ArgCapture) (m : AList Key ArgCapture)
    (nd : (l.map (fun a => (a.argIdx, a.after))).Nodup)
    (hdis : ∀ a ∈ l, m.get (a.argIdx, a.after) = none) (k : Key) :
    (l.foldl (fun m a => m.emplace (a.argIdx, a.after) a) m).get k =
      (AList.get (l.map (fun a => ((a.argIdx, a.after), a))) k).or (m.get k) := by
  induction l generalizing m with
  | nil => simp
  | cons a r ih =>
    simp only [List.map_cons, List.nodup_cons, List.mem_map, not_exists, not_and] at nd
    have hn := hdis a (by simp)
    rw [List.foldl_cons, ih]
    · rw [List.map_cons, AList.get_cons, AList.get_emplace_of_none _ _ _ hn]
      split
      · rename_i hk; subst hk
        have : AList.get (r.map (fun a => ((a.argIdx, a.after), a))) (a.argIdx, a.after) = none := by
          rw [AList.get_none_iff]
          intro hm
          simp only [AList.keys, List.map_map, List.mem_map, Function.comp_apply] at hm
          obtain ⟨x, hx, he⟩ := hm
          exact nd.1 x hx he
        rw [this]; simp
      · rfl
    · exact nd.2
    · intro b hb
      rw [AList.get_emplace_of_none _ _ _ hn, if_neg]
      · exact hdis b (List.mem_cons_of_mem _ hb)
      · intro he; exact nd.1 b hb he.symm

end Docc.Capture

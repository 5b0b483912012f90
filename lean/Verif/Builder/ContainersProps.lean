import Verif.Builder.Containers
import Verif.Sym.ExtremeProps

/-
C54: the container table stays consistent.
C55: a container call that throws changes nothing.
C56: the assumption on a symbol is implied by the type of the container.
-/
namespace Docc.Builder
open Docc.Types Docc.Sym

/-! ### specification -/

/-- every argument and external is a container, named once and not both; exactly the externals have a linkage type -/
structure Fn.Consistent (f : Fn) : Prop where
  args_exist : ∀ n ∈ f.args, (f.conts.get n).isSome
  exts_exist : ∀ n ∈ f.exts, (f.conts.get n).isSome
  args_nodup : f.args.Nodup
  exts_nodup : f.exts.Nodup
  disjoint : ∀ n ∈ f.args, n ∉ f.exts
  linked : ∀ n, (f.link.get n).isSome ↔ n ∈ f.exts

/-- in a history every rename goes to a name that is not a container -/
def FreshRenames (f : Fn) : List COp → Prop
  | [] => True
  | o :: r => (∀ a b, o = .rename a b → f.conts.get b = none) ∧ FreshRenames (o.run f).fn r

/-- the values of a primitive integer type -/
def _root_.Docc.Types.Prim.InRange (p : Prim) (v : Int) : Prop :=
  if p.isSigned then -(2 ^ (p.bitWidth - 1) : Int) ≤ v ∧ v < 2 ^ (p.bitWidth - 1) else 0 ≤ v ∧ v < 2 ^ p.bitWidth

/-- the values of a symbol of the type: integers of the width, addresses -/
def _root_.Docc.Types.Ty.Holds : Ty → Int → Prop
  | .scalar _ p, v => p.InRange v
  | .ptr _ _, v => 0 ≤ v
  | .opaquePtr _, v => 0 ≤ v
  | _, _ => True

/-- the assumptions stored for existing containers hold whenever all containers have values of their types -/
def Fn.AssumptionsFit (f : Fn) : Prop :=
  ∀ ρ : Val, (∀ n t, f.conts.get n = some t → t.Holds (ρ.sym n)) →
    Assums.Hold (fun n => if (f.conts.get n).isSome then f.assum.get n else none) ρ

/-! ### C54 -/

theorem mem_replaceFirst {l : List String} {o n x : String} (h : x ∈ replaceFirst l o n) : x = n ∨ x ∈ l := by
  induction l with
  | nil => simp [replaceFirst] at h
  | cons a r ih =>
    simp only [replaceFirst] at h
    split at h
    · rcases List.mem_cons.1 h with h | h
      · exact .inl h
      · exact .inr (List.mem_cons_of_mem _ h)
    · rcases List.mem_cons.1 h with h | h
      · exact .inr (h ▸ List.mem_cons_self ..)
      · rcases ih h with h | h
        · exact .inl h
        · exact .inr (List.mem_cons_of_mem _ h)

theorem mem_replaceFirst_iff {l : List String} {o n : String} (hd : l.Nodup) (ho : o ∈ l) (hon : o ≠ n) (x : String) :
    x ∈ replaceFirst l o n ↔ x = n ∨ (x ∈ l ∧ x ≠ o) := by
  induction l with
  | nil => simp at ho
  | cons a r ih =>
    rw [List.nodup_cons] at hd
    simp only [replaceFirst]
    split
    · rename_i e; subst e
      rw [List.mem_cons, List.mem_cons]
      constructor
      · rintro (h | h)
        · exact .inl h
        · exact .inr ⟨.inr h, fun e => hd.1 (e ▸ h)⟩
      · rintro (h | ⟨h | h, h'⟩)
        · exact .inl h
        · exact absurd h h'
        · exact .inr h
    · rename_i e
      have hr : o ∈ r := by
        rcases List.mem_cons.1 ho with h | h
        · exact absurd h.symm e
        · exact h
      rw [List.mem_cons, ih hd.2 hr, List.mem_cons]
      constructor
      · rintro (h | h | ⟨h, h'⟩)
        · exact .inr ⟨.inl h, h ▸ e⟩
        · exact .inl h
        · exact .inr ⟨.inr h, h'⟩
      · rintro (h | ⟨h | h, h'⟩)
        · exact .inr (.inl h)
        · exact .inl h
        · exact .inr (.inr ⟨h, h'⟩)

theorem nodup_replaceFirst {l : List String} {o n : String} (hd : l.Nodup) (hn : n ∉ l) : (replaceFirst l o n).Nodup := by
  induction l with
  | nil => simp [replaceFirst]
  | cons a r ih =>
    rw [List.nodup_cons] at hd
    rw [List.mem_cons, not_or] at hn
    simp only [replaceFirst]
    split
    · exact List.nodup_cons.2 ⟨hn.2, hd.2⟩
    · refine List.nodup_cons.2 ⟨fun h => ?_, ih hd.2 hn.2⟩
      rcases mem_replaceFirst h with h | h
      · exact hn.1 h.symm
      · exact hd.1 h

theorem consistent_add (f : Fn) (hf : f.Consistent) (n : String) (t : Ty) (a e : Bool) :
    (addContainer f n t a e).fn.Consistent := by
  unfold addContainer
  split
  · exact hf
  split
  · exact hf
  split
  · exact hf
  split
  · exact hf
  rename_i h1 h2 h3 h4
  have hn : f.conts.get n = none := by simpa using h4
  have hna : n ∉ f.args := fun h => by simpa [hn] using hf.args_exist n h
  have hne : n ∉ f.exts := fun h => by simpa [hn] using hf.exts_exist n h
  have key : ∀ (g : Fn), g.conts = f.conts.set n t.clone → g.args = (if a then f.args ++ [n] else f.args) →
      g.exts = (if e then f.exts ++ [n] else f.exts) → g.link = (if e then f.link.set n .external else f.link) →
      g.Consistent := by
    intro g hc ha he hl
    have hex : ∀ m, (f.conts.get m).isSome → (g.conts.get m).isSome := by
      intro m hm; rw [hc, AList.get_set]; split
      · simp
      · exact hm
    have hnn : (g.conts.get n).isSome := by rw [hc]; simp
    refine ⟨?_, ?_, ?_, ?_, ?_, ?_⟩
    · intro m hm
      rw [ha] at hm
      split at hm
      · rcases List.mem_append.1 hm with hm | hm
        · exact hex m (hf.args_exist m hm)
        · rw [List.mem_singleton.1 hm]; exact hnn
      · exact hex m (hf.args_exist m hm)
    · intro m hm
      rw [he] at hm
      split at hm
      · rcases List.mem_append.1 hm with hm | hm
        · exact hex m (hf.exts_exist m hm)
        · rw [List.mem_singleton.1 hm]; exact hnn
      · exact hex m (hf.exts_exist m hm)
    · rw [ha]; split
      · rw [List.nodup_append]; exact ⟨hf.args_nodup, by simp, fun x hx y hy => by
          rw [List.mem_singleton.1 hy]; exact fun e => hna (e ▸ hx)⟩
      · exact hf.args_nodup
    · rw [he]; split
      · rw [List.nodup_append]; exact ⟨hf.exts_nodup, by simp, fun x hx y hy => by
          rw [List.mem_singleton.1 hy]; exact fun e => hne (e ▸ hx)⟩
      · exact hf.exts_nodup
    · intro m hm hm'
      rw [ha] at hm; rw [he] at hm'
      cases a with
      | false =>
        simp only [Bool.false_eq_true, if_false] at hm
        cases e with
        | false => exact hf.disjoint m hm (by simpa using hm')
        | true =>
          simp only [if_true, List.mem_append, List.mem_singleton] at hm'
          rcases hm' with h | h
          · exact hf.disjoint m hm h
          · exact hna (h ▸ hm)
      | true =>
        cases e with
        | false =>
          simp only [if_true, List.mem_append, List.mem_singleton] at hm
          simp only [Bool.false_eq_true, if_false] at hm'
          rcases hm with h | h
          · exact hf.disjoint m h hm'
          · exact hne (h ▸ hm')
        | true => simp at h2
    · intro m
      rw [hl, he]
      cases e
      · simpa using hf.linked m
      · simp only [if_true, AList.get_set, List.mem_append, List.mem_singleton]
        split
        · rename_i e; subst e; simp
        · rename_i e; rw [hf.linked m]; exact ⟨.inl, fun h => h.elim id fun h => absurd h.symm e⟩
  cases a <;> cases e <;> simp only [if_true, Bool.false_eq_true, if_false]
  all_goals split
  all_goals first
    | (split
       · exact key _ rfl rfl rfl rfl
       · split <;> exact key _ rfl rfl rfl rfl)
    | exact key _ rfl rfl rfl rfl

theorem consistent_addExternal (f : Fn) (hf : f.Consistent) (n : String) (t : Ty) (l : Linkage) :
    (addExternal f n t l).fn.Consistent := by
  unfold addExternal
  split
  · exact hf
  split
  · exact hf
  rename_i h3 h4
  have hn : f.conts.get n = none := by simpa using h4
  have hna : n ∉ f.args := fun h => by simpa [hn] using hf.args_exist n h
  have hne : n ∉ f.exts := fun h => by simpa [hn] using hf.exts_exist n h
  have hex : ∀ m, (f.conts.get m).isSome → ((f.conts.set n t.clone).get m).isSome := by
    intro m hm; rw [AList.get_set]; split
    · simp
    · exact hm
  refine ⟨fun m hm => hex m (hf.args_exist m hm), ?_, hf.args_nodup, ?_, ?_, ?_⟩
  · intro m hm
    rcases List.mem_append.1 hm with hm | hm
    · exact hex m (hf.exts_exist m hm)
    · rw [List.mem_singleton.1 hm]; simp
  · simp only [List.nodup_append]; exact ⟨hf.exts_nodup, by simp, fun x hx y hy => by
      rw [List.mem_singleton.1 hy]; exact fun e => hne (e ▸ hx)⟩
  · intro m hm hm'
    rcases List.mem_append.1 hm' with h | h
    · exact hf.disjoint m hm h
    · exact hna (List.mem_singleton.1 h ▸ hm)
  · intro m
    simp only [AList.get_set, List.mem_append, List.mem_singleton]
    split
    · rename_i e; subst e; simp
    · rename_i e; rw [hf.linked m]; exact ⟨.inl, fun h => h.elim id fun h => absurd h.symm e⟩

theorem consistent_remove (f : Fn) (hf : f.Consistent) (n : String) : (removeContainer f n).fn.Consistent := by
  unfold removeContainer
  split
  · exact hf
  rename_i h
  replace h : n ∉ f.args ∧ n ∉ f.exts := by simpa [Fn.isTransient] using h
  have key : ∀ g : Fn, g.conts = f.conts.erase n → g.args = f.args → g.exts = f.exts → g.link = f.link → g.Consistent := by
    intro g hc ha he hl
    refine ⟨?_, ?_, ha ▸ hf.args_nodup, he ▸ hf.exts_nodup, fun m hm => by rw [he]; exact hf.disjoint m (ha ▸ hm),
      fun m => by rw [hl, he]; exact hf.linked m⟩
    · intro m hm
      rw [ha] at hm
      rw [hc, AList.get_erase, if_neg (fun e : n = m => h.1 (e ▸ hm))]; exact hf.args_exist m hm
    · intro m hm
      rw [he] at hm
      rw [hc, AList.get_erase, if_neg (fun e : n = m => h.2 (e ▸ hm))]; exact hf.exts_exist m hm
  split
  · exact hf
  split
  · split
    · exact hf
    · exact key _ rfl rfl rfl rfl
  · exact key _ rfl rfl rfl rfl

theorem consistent_rename (f : Fn) (hf : f.Consistent) (o n : String) (hn : f.conts.get n = none) :
    (renameContainer f o n).fn.Consistent := by
  unfold renameContainer
  split
  · exact hf
  rename_i t ht
  have hon : o ≠ n := fun e => by rw [e, hn] at ht; simp at ht
  have hna : n ∉ f.args := fun h => by simpa [hn] using hf.args_exist n h
  have hne : n ∉ f.exts := fun h => by simpa [hn] using hf.exts_exist n h
  have key : ∀ g : Fn, g.conts = (f.conts.set n t).erase o →
      g.args = (if f.args.contains o then replaceFirst f.args o n else f.args) →
      g.exts = (if f.exts.contains o then replaceFirst f.exts o n else f.exts) →
      g.link = (if f.exts.contains o then (f.link.set n ((f.link.get o).getD .external)).erase o else f.link) → g.Consistent := by
    intro g hc ha he hl
    have hex : ∀ m, m ≠ o → (f.conts.get m).isSome ∨ m = n → (g.conts.get m).isSome := by
      intro m hm h
      rw [hc, AList.get_erase, if_neg hm.symm, AList.get_set]
      split
      · simp
      · rename_i e; exact h.elim id fun h => absurd h.symm e
    have hA : ∀ m, m ∈ g.args ↔ (m = n ∧ o ∈ f.args) ∨ (m ∈ f.args ∧ m ≠ o) := by
      intro m
      rw [ha]
      by_cases h : o ∈ f.args
      · rw [if_pos (by simpa using h), mem_replaceFirst_iff hf.args_nodup h hon]; simp [h]
      · rw [if_neg (by simpa using h)]; simp only [h, and_false, false_or]
        exact ⟨fun hm => ⟨hm, fun e => h (e ▸ hm)⟩, (·.1)⟩
    have hE : ∀ m, m ∈ g.exts ↔ (m = n ∧ o ∈ f.exts) ∨ (m ∈ f.exts ∧ m ≠ o) := by
      intro m
      rw [he]
      by_cases h : o ∈ f.exts
      · rw [if_pos (by simpa using h), mem_replaceFirst_iff hf.exts_nodup h hon]; simp [h]
      · rw [if_neg (by simpa using h)]; simp only [h, and_false, false_or]
        exact ⟨fun hm => ⟨hm, fun e => h (e ▸ hm)⟩, (·.1)⟩
    refine ⟨?_, ?_, ?_, ?_, ?_, ?_⟩
    · intro m hm
      rcases (hA m).1 hm with ⟨h, _⟩ | ⟨h, h'⟩
      · exact hex m (h ▸ hon.symm) (.inr h)
      · exact hex m h' (.inl (hf.args_exist m h))
    · intro m hm
      rcases (hE m).1 hm with ⟨h, _⟩ | ⟨h, h'⟩
      · exact hex m (h ▸ hon.symm) (.inr h)
      · exact hex m h' (.inl (hf.exts_exist m h))
    · rw [ha]; split
      · exact nodup_replaceFirst hf.args_nodup hna
      · exact hf.args_nodup
    · rw [he]; split
      · exact nodup_replaceFirst hf.exts_nodup hne
      · exact hf.exts_nodup
    · intro m hm hm'
      rcases (hA m).1 hm with ⟨h, h1⟩ | ⟨h, h'⟩ <;> rcases (hE m).1 hm' with ⟨g1, g2⟩ | ⟨g1, g2⟩
      · exact hf.disjoint o h1 g2
      · exact hne (h ▸ g1)
      · exact hna (g1 ▸ h)
      · exact hf.disjoint m h g1
    · intro m
      rw [hE, hl]
      by_cases h : o ∈ f.exts
      · rw [if_pos (by simpa using h)]
        simp only [AList.get_erase, AList.get_set, h, and_true]
        split
        · rename_i e; subst e; simp [hon]
        · rename_i e
          split
          · rename_i e'; subst e'; simp
          · rename_i e'; rw [hf.linked m]
            exact ⟨fun h => .inr ⟨h, fun e2 => e e2.symm⟩, fun h => h.elim (fun h => absurd h.symm e') (·.1)⟩
      · rw [if_neg (by simpa using h), hf.linked m]
        simp only [h, and_false, false_or]
        exact ⟨fun hm => ⟨hm, fun e => h (e ▸ hm)⟩, (·.1)⟩
  cases hA : f.args.contains o <;> cases hE : f.exts.contains o <;> rw [hA, hE] at key <;>
    simp only [Bool.false_eq_true, if_false, if_true, hA, hE] at key ⊢
  all_goals
    split
    · exact key _ rfl rfl rfl rfl
    · split
      · exact key _ rfl rfl rfl rfl
      · split <;> exact key _ rfl rfl rfl rfl

theorem consistent_change (f : Fn) (hf : f.Consistent) (n : String) (t : Ty) : (changeType f n t).fn.Consistent := by
  unfold changeType
  split
  · exact hf
  · refine ⟨fun m hm => ?_, fun m hm => ?_, hf.args_nodup, hf.exts_nodup, hf.disjoint, hf.linked⟩
    · simp only [AList.get_set]; split
      · simp
      · exact hf.args_exist m hm
    · simp only [AList.get_set]; split
      · simp
      · exact hf.exts_exist m hm

theorem consistent_new (k : Bool) : (Fn.new k).Consistent :=
  ⟨by simp [Fn.new], by simp [Fn.new], by simp [Fn.new], by simp [Fn.new], by simp [Fn.new], by simp [Fn.new]⟩

/-- **C54** (partial): over every history of container calls whose renames go to names that are not yet containers, the table stays
consistent.  Missing: renaming to an existing container (`containers_consistent_violated`, `rename_self_violated`). -/
theorem containers_consistent_partial (k : Bool) (ops : List COp) (hr : FreshRenames (Fn.new k) ops) :
    (runOps (Fn.new k) ops).Consistent := by
  suffices ∀ f : Fn, f.Consistent → FreshRenames f ops → (runOps f ops).Consistent from this _ (consistent_new k) hr
  clear hr
  induction ops with
  | nil => exact fun f hf _ => hf
  | cons o r ih =>
    intro f hf ⟨h1, h2⟩
    refine ih _ ?_ h2
    cases o with
    | add n t a e => exact consistent_add f hf n t a e
    | addExternal n t l => exact consistent_addExternal f hf n t l
    | remove n => exact consistent_remove f hf n
    | rename a b => exact consistent_rename f hf a b (h1 a b rfl)
    | change n t => exact consistent_change f hf n t

/-- a 32-bit integer -/
def i32 : Ty := .scalar {} .int32
/-- an 8-bit integer -/
def i8 : Ty := .scalar {} .int8

example : FreshRenames (Fn.new false) [.add "N" i32 true false, .addExternal "g" i32 .internal, .rename "N" "M", .add "N" i8 true false,
    .remove "x", .rename "g" "h"] := by
  simp only [FreshRenames]
  refine ⟨?_, ?_, ?_, ?_, ?_, ?_, trivial⟩ <;> intro a b h <;> cases h <;> decide

/-- **C54 fails** when an argument is renamed to another argument: it is listed twice and the other container is gone. -/
theorem containers_consistent_violated : ∃ ops, ¬ (runOps (Fn.new false) ops).Consistent := by
  refine ⟨[.add "a" i32 true false, .add "b" i8 true false, .rename "a" "b"], fun h => ?_⟩
  have := h.args_nodup
  revert this
  decide

/-- **C54 fails** when a container is renamed to itself: it disappears, but stays in the argument list. -/
theorem rename_self_violated : ∃ ops, ¬ (runOps (Fn.new false) ops).Consistent := by
  refine ⟨[.add "a" i32 true false, .rename "a" "a"], fun h => ?_⟩
  have := h.args_exist "a" (by decide)
  revert this
  decide

/-- `add_container` that returns: the name was free, now has the type, and is appended to the lists it belongs to; nothing else moves. -/
theorem add_container_effect (f : Fn) (n : String) (t : Ty) (a e : Bool) (h : (addContainer f n t a e).ok = true) :
    let g := (addContainer f n t a e).fn
    f.conts.get n = none ∧ checkName n = true ∧ (∀ m, g.conts.get m = if m = n then some t.clone else f.conts.get m) ∧
      g.args = f.args ++ (if a then [n] else []) ∧ g.exts = f.exts ++ (if e then [n] else []) ∧
      (∀ m, m ≠ n → g.link.get m = f.link.get m ∧ g.assum.get m = f.assum.get m) := by
  revert h
  unfold addContainer
  split
  · exact fun h => by simp at h
  split
  · exact fun h => by simp at h
  split
  · exact fun h => by simp at h
  split
  · exact fun h => by simp at h
  rename_i h1 h2 h3 h4
  have hn : f.conts.get n = none := by simpa using h4
  have hc : checkName n = true := by simpa using h3
  have key : ∀ (g : Fn), g.conts = f.conts.set n t.clone → g.args = f.args ++ (if a then [n] else []) →
      g.exts = f.exts ++ (if e then [n] else []) → (∀ m, m ≠ n → g.link.get m = f.link.get m) →
      (∀ m, m ≠ n → g.assum.get m = f.assum.get m) →
      f.conts.get n = none ∧ checkName n = true ∧ (∀ m, g.conts.get m = if m = n then some t.clone else f.conts.get m) ∧
      g.args = f.args ++ (if a then [n] else []) ∧ g.exts = f.exts ++ (if e then [n] else []) ∧
      (∀ m, m ≠ n → g.link.get m = f.link.get m ∧ g.assum.get m = f.assum.get m) := by
    intro g k1 k2 k3 k4 k5
    refine ⟨hn, hc, fun m => ?_, k2, k3, fun m hm => ⟨k4 m hm, k5 m hm⟩⟩
    rw [k1, AList.get_set]
    by_cases hm : m = n
    · simp [hm]
    · rw [if_neg (Ne.symm hm), if_neg hm]
  have hs : ∀ m, m ≠ n → (f.link.set n .external).get m = f.link.get m := fun m hm => AList.get_set_ne _ _ hm.symm
  have he : ∀ (b : Assum) m, m ≠ n → (f.assum.emplace n b).get m = f.assum.get m := by
    intro b m hm
    unfold AList.emplace
    split
    · rfl
    · simp [AList.get_cons, hm.symm]
  cases a <;> cases e <;> simp only [if_true, Bool.false_eq_true, if_false, List.append_nil] at key ⊢
  all_goals
    split
    · split
      · exact fun h => by simp at h
      · split
        · exact fun h => by simp at h
        · exact fun _ => key _ rfl rfl rfl (by first | exact hs | exact fun _ _ => rfl) (he _)
    · exact fun _ => key _ rfl rfl rfl (by first | exact hs | exact fun _ _ => rfl) (fun _ _ => rfl)

theorem replaceFirst_map {l : List String} (hd : l.Nodup) (o n : String) :
    replaceFirst l o n = l.map fun x => if x = o then n else x := by
  induction l with
  | nil => rfl
  | cons a r ih =>
    rw [List.nodup_cons] at hd
    simp only [replaceFirst, List.map_cons]
    split
    · rename_i e; subst e
      congr 1
      conv => lhs; rw [← List.map_id r]
      refine List.map_congr_left fun x hx => ?_
      rw [if_neg (fun e : x = a => hd.1 (e ▸ hx))]; rfl
    · rw [ih hd.2]

/-- **C54**, renaming: `rename_container(o, n)` to a free name carries the type, the position in the argument or external list and the
linkage over to the new name and touches nothing else. -/
theorem rename_container_effect_partial (f : Fn) (hf : f.Consistent) (o n : String) (t : Ty) (ho : f.conts.get o = some t)
    (hn : f.conts.get n = none) :
    let g := (renameContainer f o n).fn
    (∀ m, g.conts.get m = if m = n then some t else if m = o then none else f.conts.get m) ∧
      g.args = f.args.map (fun x => if x = o then n else x) ∧ g.exts = f.exts.map (fun x => if x = o then n else x) ∧
      (∀ m, g.link.get m = if m = n then f.link.get o else if m = o then none else f.link.get m) := by
  have hon : o ≠ n := fun e => by rw [e, hn] at ho; simp at ho
  have hnl : f.link.get n = none := by
    have : ¬ (f.link.get n).isSome := fun h => by simpa [hn] using hf.exts_exist n ((hf.linked n).1 h)
    simpa using this
  have idl : ∀ l : List String, o ∉ l → l = l.map (fun x => if x = o then n else x) := by
    intro l hl
    conv => lhs; rw [← List.map_id l]
    refine List.map_congr_left fun x hx => ?_
    rw [if_neg (fun e : x = o => hl (e ▸ hx))]; rfl
  have key : ∀ g : Fn, g.conts = (f.conts.set n t).erase o →
      g.args = (if f.args.contains o then replaceFirst f.args o n else f.args) →
      g.exts = (if f.exts.contains o then replaceFirst f.exts o n else f.exts) →
      g.link = (if f.exts.contains o then (f.link.set n ((f.link.get o).getD .external)).erase o else f.link) →
      (∀ m, g.conts.get m = if m = n then some t else if m = o then none else f.conts.get m) ∧
      g.args = f.args.map (fun x => if x = o then n else x) ∧ g.exts = f.exts.map (fun x => if x = o then n else x) ∧
      (∀ m, g.link.get m = if m = n then f.link.get o else if m = o then none else f.link.get m) := by
    intro g hc ha he hl
    refine ⟨fun m => ?_, ?_, ?_, fun m => ?_⟩
    · rw [hc, AList.get_erase, AList.get_set]
      by_cases h1 : m = o
      · subst h1; simp [hon]
      · by_cases h2 : m = n
        · subst h2; simp [hon]
        · simp [Ne.symm h1, h1, Ne.symm h2, h2]
    · rw [ha]
      by_cases h : o ∈ f.args
      · rw [if_pos (by simpa using h), replaceFirst_map hf.args_nodup]
      · rw [if_neg (by simpa using h)]; exact idl _ h
    · rw [he]
      by_cases h : o ∈ f.exts
      · rw [if_pos (by simpa using h), replaceFirst_map hf.exts_nodup]
      · rw [if_neg (by simpa using h)]; exact idl _ h
    · rw [hl]
      by_cases h : o ∈ f.exts
      · have hs := (hf.linked o).2 h
        obtain ⟨l, hlo⟩ := Option.isSome_iff_exists.1 hs
        rw [if_pos (by simpa using h), AList.get_erase, AList.get_set]
        by_cases h1 : m = o
        · subst h1; simp [hon]
        · by_cases h2 : m = n
          · subst h2; simp [hon, hlo]
          · simp [Ne.symm h1, h1, Ne.symm h2, h2]
      · have hlo : f.link.get o = none := by
          have : ¬ (f.link.get o).isSome := fun h' => h ((hf.linked o).1 h')
          simpa using this
        rw [if_neg (by simpa using h)]
        by_cases h2 : m = n
        · subst h2; simp [hnl, hlo]
        · by_cases h1 : m = o
          · subst h1; simp [hlo]
          · simp [h1, h2]
  unfold renameContainer
  rw [ho]
  simp only []
  cases hA : f.args.contains o <;> cases hE : f.exts.contains o <;> rw [hA, hE] at key <;>
    simp only [Bool.false_eq_true, if_false, if_true, hE] at key ⊢
  all_goals
    split
    · exact key _ rfl rfl rfl rfl
    · split
      · exact key _ rfl rfl rfl rfl
      · split <;> exact key _ rfl rfl rfl rfl

/-! ### C55 -/

/-- the names a call mentions -/
def COp.names : COp → List String
  | .add n _ _ _ => [n]
  | .addExternal n _ _ => [n]
  | .remove n => [n]
  | .rename a b => [a, b]
  | .change n _ => [n]

theorem createAssum_some {t : Ty} (h : t.isSymbol = true) : ∃ a, createAssum t = some a := by
  unfold Ty.isSymbol at h
  split at h
  · rename_i p; cases p <;> first | exact ⟨_, rfl⟩ | simp [Prim.isInteger] at h
  · exact ⟨_, rfl⟩
  · exact ⟨_, rfl⟩
  · simp at h

/-- **C55** (partial): a call that throws leaves the function as it was, if the names are not reserved.  Missing: the names `null`,
`NULL` and `nullptr`, which are rejected too late (`failed_call_violated`). -/
theorem failed_call_partial (f : Fn) (o : COp) (hr : ∀ n ∈ o.names, reserved n = false) (h : (o.run f).ok = false) :
    (o.run f).fn = f := by
  revert h
  cases o with
  | add n t a e =>
    have hn := hr n (by simp [COp.names])
    simp only [COp.run, addContainer, hn, Bool.false_eq_true, if_false]
    split
    · exact fun _ => rfl
    split
    · exact fun _ => rfl
    split
    · exact fun _ => rfl
    split
    · exact fun _ => rfl
    split
    · rename_i hs
      obtain ⟨b, hb⟩ := createAssum_some hs
      rw [hb]; exact fun h => by simp at h
    · exact fun h => by simp at h
  | addExternal n t l =>
    simp only [COp.run, addExternal]
    split
    · exact fun _ => rfl
    split
    · exact fun _ => rfl
    · exact fun h => by simp at h
  | remove n =>
    have hn := hr n (by simp [COp.names])
    simp only [COp.run, removeContainer, hn, Bool.false_eq_true, if_false]
    split
    · exact fun _ => rfl
    split
    · exact fun _ => rfl
    split <;> exact fun h => by simp at h
  | rename a b =>
    have ha := hr a (by simp [COp.names])
    have hb := hr b (by simp [COp.names])
    simp only [COp.run, renameContainer, ha, hb, Bool.false_eq_true, if_false]
    split
    · exact fun _ => rfl
    · split <;> exact fun h => by simp at h
  | change n t =>
    simp only [COp.run, changeType]
    split
    · exact fun _ => rfl
    · exact fun h => by simp at h

example : ((COp.add "a.b" i32 false false).run (Fn.new false)).ok = false := by decide

/-- **C55 fails**: adding an integer container named `null` throws, but the container has been added and is an argument. -/
theorem failed_call_violated : ∃ o : COp, (o.run (Fn.new false)).ok = false ∧ "null" ∈ (o.run (Fn.new false)).fn.args ∧
    ((o.run (Fn.new false)).fn.conts.get "null").isSome := ⟨.add "null" i32 true false, by decide, by decide, by decide⟩

/-! ### C56 -/

/-- the assumption created for a type holds for every value of the type -/
theorem createAssum_sound {t : Ty} {a : Assum} (h : createAssum t = some a) (ρ : Val) (x : String) (hx : t.Holds (ρ.sym x)) :
    Assums.Hold (fun n => if n = x then some a else none) ρ := by
  intro n b hb
  by_cases hn : n = x
  · subst hn
    simp only [if_true, Option.some.injEq] at hb
    subst hb
    unfold createAssum at h
    split at h
    · rename_i p
      simp only [Ty.Holds, Prim.InRange] at hx
      cases p <;> simp [Prim.isSigned, Prim.bitWidth] at hx h <;> subst h <;>
        simp [range, Expr.eval, V.le_def, V.le] <;> omega
    · simp only [Option.some.injEq] at h; subst h; simp only [Ty.Holds] at hx
      simp [range, Expr.eval, V.le_def, V.le]; omega
    · simp only [Option.some.injEq] at h; subst h; simp only [Ty.Holds] at hx
      simp [range, Expr.eval, V.le_def, V.le]; omega
    · simp at h
  · simp [hn] at hb

/-- for the fixed-width types up to 64 bits (unsigned: up to 32 bits) the assumption is exactly the range of the type -/
theorem createAssum_exact {p : Prim} {t : Attr} {a : Assum} (h : createAssum (.scalar t p) = some a)
    (hw : p.bitWidth ≤ 32 ∨ p = .int64) (ρ : Val) (x : String) :
    Assums.Hold (fun n => if n = x then some a else none) ρ ↔ p.InRange (ρ.sym x) := by
  refine ⟨fun hA => ?_, createAssum_sound h ρ x⟩
  have := hA x a (by simp)
  revert this
  cases p <;> simp [createAssum, Prim.bitWidth] at h hw <;> subst h <;>
    simp [range, Expr.eval, V.le_def, V.le, Prim.InRange, Prim.isSigned, Prim.bitWidth] <;> omega

/-- what is needed of a call for the assumptions to keep fitting the types -/
def COp.Good (f : Fn) : COp → Prop
  | .remove n => ∀ t, f.conts.get n = some t → t.isSymbol = true → t.isScalar = true
  | .rename _ b => f.conts.get b = none ∧ reserved b = false ∧ checkName b = true
  | .change n t => ∀ t', f.conts.get n = some t' → createAssum t = createAssum t'
  | _ => True

/-- every call of the history is good in the state it is made in -/
def GoodOps (f : Fn) : List COp → Prop
  | [] => True
  | o :: r => o.Good f ∧ GoodOps (o.run f).fn r

/-- every stored assumption belongs to a container and was created from its type, or belongs to a CUDA built-in -/
def AInv (f : Fn) : Prop :=
  (∀ n a, f.assum.get n = some a → reserved n = false ∧ ((∃ t, f.conts.get n = some t ∧ createAssum t = some a) ∨ n ∈ builtins)) ∧
  (∀ n ∈ builtins, f.conts.get n = none)

theorem builtins_illegal {n : String} (h : n ∈ builtins) : checkName n = false := by
  simp only [builtins, List.mem_cons, List.not_mem_nil, or_false] at h
  rcases h with h | h | h | h | h | h | h | h | h | h | h | h <;> subst h <;> decide

theorem createAssum_clone (t : Ty) : createAssum t.clone = createAssum t := by
  cases t <;> simp [Ty.clone, createAssum]

theorem ainv_new (k : Bool) : AInv (Fn.new k) := by
  refine ⟨fun n a h => ?_, fun n _ => rfl⟩
  cases k with
  | false => simp [Fn.new] at h
  | true =>
    have := AList.mem_of_get h
    simp only [Fn.new, if_true, List.mem_map, Prod.mk.injEq] at this
    obtain ⟨b, hb, rfl, _⟩ := this
    refine ⟨?_, .inr hb⟩
    simp only [builtins, List.mem_cons, List.not_mem_nil, or_false] at hb
    rcases hb with h | h | h | h | h | h | h | h | h | h | h | h <;> subst h <;> decide

theorem ainv_step (f : Fn) (hf : AInv f) (o : COp) (ho : o.Good f) : AInv (o.run f).fn := by
  cases o with
  | add n t a e =>
    simp only [COp.run, addContainer]
    split
    · exact hf
    split
    · exact hf
    split
    · exact hf
    split
    · exact hf
    rename_i h1 h2 h3 h4
    have hn : f.conts.get n = none := by simpa using h4
    have hnb : n ∉ builtins := fun h => h3 (by simp [builtins_illegal h])
    have hna : f.assum.get n = none := by
      cases hg : f.assum.get n with
      | none => rfl
      | some b => rcases (hf.1 n b hg).2 with ⟨t, h, _⟩ | h
                  · rw [hn] at h; simp at h
                  · exact absurd h hnb
    have hb : ∀ m ∈ builtins, (f.conts.set n t.clone).get m = none := by
      intro m hm
      rw [AList.get_set, if_neg (fun e : n = m => hnb (e ▸ hm))]; exact hf.2 m hm
    have key1 : ∀ g : Fn, g.conts = f.conts.set n t.clone → g.assum = f.assum → AInv g := by
      intro g k1 k2
      refine ⟨fun m b hm => ?_, fun m hm => by rw [k1]; exact hb m hm⟩
      rw [k2] at hm
      rw [k1]
      obtain ⟨h, h'⟩ := hf.1 m b hm
      refine ⟨h, h'.imp (fun ⟨u, hu, hu'⟩ => ⟨u, ?_, hu'⟩) id⟩
      rw [AList.get_set, if_neg (fun e : n = m => by rw [← e, hn] at hu; simp at hu)]; exact hu
    have key2 : ∀ (g : Fn) (b : Assum), createAssum t = some b → reserved n = false → g.conts = f.conts.set n t.clone →
        g.assum = f.assum.emplace n b → AInv g := by
      intro g b hb' hr k1 k2
      refine ⟨fun m c hm => ?_, fun m hm => by rw [k1]; exact hb m hm⟩
      rw [k2, AList.get_emplace_of_none _ _ _ hna] at hm
      rw [k1]
      split at hm
      · rename_i e; subst e
        refine ⟨hr, .inl ⟨t.clone, by simp, ?_⟩⟩
        rw [createAssum_clone, hb', hm]
      · rename_i e
        obtain ⟨h, h'⟩ := hf.1 m c hm
        refine ⟨h, h'.imp (fun ⟨u, hu, hu'⟩ => ⟨u, ?_, hu'⟩) id⟩
        rw [AList.get_set, if_neg e]; exact hu
    cases a <;> cases e <;> simp only [if_true, Bool.false_eq_true, if_false]
    all_goals
      split
      · split
        · exact key1 _ rfl rfl
        · rename_i hr
          split
          · exact key1 _ rfl rfl
          · rename_i b hb; exact key2 _ b hb (by simpa using hr) rfl rfl
      · exact key1 _ rfl rfl
  | addExternal n t l =>
    simp only [COp.run, addExternal]
    split
    · exact hf
    split
    · exact hf
    rename_i h3 h4
    have hn : f.conts.get n = none := by simpa using h4
    have hnb : n ∉ builtins := fun h => h3 (by simp [builtins_illegal h])
    refine ⟨fun m b hm => ?_, fun m hm => ?_⟩
    · obtain ⟨h, h'⟩ := hf.1 m b hm
      refine ⟨h, h'.imp (fun ⟨u, hu, hu'⟩ => ⟨u, ?_, hu'⟩) id⟩
      rw [AList.get_set, if_neg (fun e : n = m => by rw [← e, hn] at hu; simp at hu)]; exact hu
    · rw [AList.get_set, if_neg (fun e : n = m => hnb (e ▸ hm))]; exact hf.2 m hm
  | remove n =>
    simp only [COp.run, removeContainer]
    split
    · exact hf
    split
    · exact hf
    rename_i t ht
    have ho' := ho t ht
    have hb : ∀ m ∈ builtins, (f.conts.erase n).get m = none := by
      intro m hm; rw [AList.get_erase]; split
      · rfl
      · exact hf.2 m hm
    have keep : ∀ m b, m ≠ n → f.assum.get m = some b →
        reserved m = false ∧ ((∃ t, (f.conts.erase n).get m = some t ∧ createAssum t = some b) ∨ m ∈ builtins) := by
      intro m b hmn hm
      obtain ⟨h, h'⟩ := hf.1 m b hm
      refine ⟨h, h'.imp (fun ⟨u, hu, hu'⟩ => ⟨u, ?_, hu'⟩) id⟩
      rw [AList.get_erase, if_neg hmn.symm]; exact hu
    split
    · split
      · exact hf
      · refine ⟨fun m b hm => ?_, hb⟩
        simp only [AList.get_erase] at hm
        split at hm
        · simp at hm
        · rename_i e; exact keep m b (Ne.symm e) hm
    · rename_i hs
      refine ⟨fun m b hm => ?_, hb⟩
      refine keep m b (fun e => ?_) hm
      subst e
      rcases (hf.1 m b hm).2 with ⟨u, hu, hu'⟩ | h
      · rw [ht, Option.some.injEq] at hu
        subst hu
        have : t.isSymbol = true := by
          revert hu'
          unfold createAssum Ty.isSymbol
          split
          · rename_i p; cases p <;> simp [Prim.isInteger]
          · simp
          · simp
          · simp
        exact hs (by simp [this, ho' this])
      · rw [hf.2 m h] at ht; simp at ht
  | rename a b =>
    obtain ⟨hn, hr, hc⟩ := ho
    simp only [COp.run, renameContainer]
    split
    · exact hf
    rename_i t ht
    have hab : a ≠ b := fun e => by rw [e, hn] at ht; simp at ht
    have hbb : b ∉ builtins := fun h => by simp [builtins_illegal h] at hc
    have hba : f.assum.get b = none := by
      cases hg : f.assum.get b with
      | none => rfl
      | some c => rcases (hf.1 b c hg).2 with ⟨t, h, _⟩ | h
                  · rw [hn] at h; simp at h
                  · exact absurd h hbb
    have hb : ∀ m ∈ builtins, ((f.conts.set b t).erase a).get m = none := by
      intro m hm; rw [AList.get_erase]; split
      · rfl
      · rw [AList.get_set, if_neg (fun e : b = m => hbb (e ▸ hm))]; exact hf.2 m hm
    have keep : ∀ m c, m ≠ a → f.assum.get m = some c →
        reserved m = false ∧ ((∃ u, ((f.conts.set b t).erase a).get m = some u ∧ createAssum u = some c) ∨ m ∈ builtins) := by
      intro m c hma hm
      obtain ⟨h, h'⟩ := hf.1 m c hm
      refine ⟨h, h'.imp (fun ⟨u, hu, hu'⟩ => ⟨u, ?_, hu'⟩) id⟩
      rw [AList.get_erase, if_neg hma.symm, AList.get_set, if_neg (fun e : b = m => by rw [← e, hn] at hu; simp at hu)]; exact hu
    have keyN : ∀ g : Fn, f.assum.get a = none → g.conts = (f.conts.set b t).erase a → g.assum = f.assum → AInv g := by
      intro g h0 k1 k2
      refine ⟨fun m c hm => ?_, fun m hm => by rw [k1]; exact hb m hm⟩
      rw [k2] at hm; rw [k1]
      exact keep m c (fun e => by rw [e, h0] at hm; simp at hm) hm
    have hra : reserved a = true → f.assum.get a = none := by
      intro h
      cases hg : f.assum.get a with
      | none => rfl
      | some c => rw [(hf.1 a c hg).1] at h; simp at h
    have keyS : ∀ (g : Fn) (c : Assum), f.assum.get a = some c → g.conts = (f.conts.set b t).erase a →
        g.assum = (f.assum.erase a).emplace b (copyAssum c) → AInv g := by
      intro g c h0 k1 k2
      refine ⟨fun m d hm => ?_, fun m hm => by rw [k1]; exact hb m hm⟩
      rw [k2, AList.get_emplace_of_none _ _ _ (by rw [AList.get_erase]; split <;> simp [hba])] at hm
      rw [k1]
      split at hm
      · rename_i e; subst e
        refine ⟨hr, .inl ⟨t, by rw [AList.get_erase, if_neg hab]; simp, ?_⟩⟩
        rcases (hf.1 a c h0).2 with ⟨u, hu, hu'⟩ | h
        · rw [ht, Option.some.injEq] at hu
          subst hu
          rw [hu', ← hm]; rfl
        · rw [hf.2 a h] at ht; simp at ht
      · rw [AList.get_erase] at hm
        split at hm
        · simp at hm
        · rename_i e; exact keep m d (Ne.symm e) hm
    cases hA : f.args.contains a <;> cases hE : f.exts.contains a <;>
      simp only [Bool.false_eq_true, if_false, if_true, hE, hr]
    all_goals
      split
      · rename_i h; exact keyN _ (hra h) rfl rfl
      · split
        · rename_i h; exact keyN _ h rfl rfl
        · rename_i c h; exact keyS _ c h rfl rfl
  | change n t =>
    simp only [COp.run, changeType]
    split
    · exact hf
    rename_i t' ht
    refine ⟨fun m b hm => ?_, fun m hm => ?_⟩
    · obtain ⟨h, h'⟩ := hf.1 m b hm
      refine ⟨h, h'.imp (fun ⟨u, hu, hu'⟩ => ?_) id⟩
      by_cases e : n = m
      · subst e
        rw [ht, Option.some.injEq] at hu
        subst hu
        exact ⟨t.clone, by simp, by rw [createAssum_clone, ho t' ht, hu']⟩
      · exact ⟨u, by rw [AList.get_set, if_neg e]; exact hu, hu'⟩
    · rw [AList.get_set, if_neg (fun e : n = m => by rw [e, hf.2 m hm] at ht; simp at ht)]; exact hf.2 m hm

theorem ainv_fit (f : Fn) (hf : AInv f) : f.AssumptionsFit := by
  intro ρ hρ n a h
  simp only at h
  split at h
  · rename_i hs
    rcases (hf.1 n a h).2 with ⟨t, ht, ha⟩ | hb
    · exact createAssum_sound ha ρ n (hρ n t ht) n a (by simp)
    · rw [hf.2 n hb] at hs; simp at hs
  · simp at h

/-- **C56** (partial): after a history without type changes that change the range, removals of pointers and renames to existing,
reserved or illegal names, the assumptions follow from the types of the containers.  Missing: those histories
(`assumption_pointer_violated`, `assumption_change_violated`, `assumption_rename_violated`). -/
theorem assumptions_fit_partial (k : Bool) (ops : List COp) (hg : GoodOps (Fn.new k) ops) :
    (runOps (Fn.new k) ops).AssumptionsFit := by
  refine ainv_fit _ ?_
  suffices ∀ f : Fn, AInv f → GoodOps f ops → AInv (runOps f ops) from this _ (ainv_new k) hg
  clear hg
  induction ops with
  | nil => exact fun f hf _ => hf
  | cons o r ih => exact fun f hf ⟨h1, h2⟩ => ih _ (ainv_step f hf o h1) h2

example : GoodOps (Fn.new true) [.add "N" i32 true false, .add "t" i8 false false, .rename "N" "M", .remove "t", .add "t" i32 false false] := by
  refine ⟨trivial, trivial, ⟨by decide, by decide, by decide⟩, ?_, trivial, trivial⟩
  intro t ht _
  have h : (COp.run (COp.run (COp.run (Fn.new true) (.add "N" i32 true false)).fn (.add "t" i8 false false)).fn (.rename "N" "M")).fn.conts.get "t"
    = some i8 := rfl
  rw [h, Option.some.injEq] at ht
  subst ht; rfl

/-- a state in which `x` is -1 -/
def negState (x : String) : Val := { sym := fun n => if n = x then -1 else 0, fn := fun _ _ => 0 }

/-- **C56 fails** when a pointer is removed and a signed integer of the same name added: its assumption says it is not negative. -/
theorem assumption_pointer_violated : ∃ ops, ¬ (runOps (Fn.new false) ops).AssumptionsFit := by
  refine ⟨[.add "p" (.opaquePtr {}) false false, .remove "p", .add "p" i32 false false], fun h => ?_⟩
  have := h (negState "p") (fun n t hn => ?_) "p" (range (.int 0) (.inf true)) rfl
  · have := this.1.1
    simp [range, Expr.eval, V.le_def, V.le, negState] at this
  · by_cases e : n = "p"
    · subst e
      have : t = i32 := by
        have h : (runOps (Fn.new false) [.add "p" (.opaquePtr {}) false false, .remove "p", .add "p" i32 false false]).conts.get "p" =
          some i32 := rfl
        rw [h] at hn; exact (Option.some.inj hn).symm
      subst this
      simp [Ty.Holds, i32, Prim.InRange, Prim.isSigned, Prim.bitWidth, negState]
    · have h : (runOps (Fn.new false) [.add "p" (.opaquePtr {}) false false, .remove "p", .add "p" i32 false false]).conts.get n =
          if "p" = n then some i32 else none := rfl
      rw [h, if_neg (fun e' => e e'.symm)] at hn
      simp at hn

/-- **C56 fails** when the type is changed from unsigned to signed: the assumption stays. -/
theorem assumption_change_violated : ∃ ops, ¬ (runOps (Fn.new false) ops).AssumptionsFit := by
  refine ⟨[.add "p" (.scalar {} .uint32) false false, .change "p" i32], fun h => ?_⟩
  have := h (negState "p") (fun n t hn => ?_) "p" (range (.int 0) (.int 4294967295)) rfl
  · have := this.1.1
    simp [range, Expr.eval, V.le_def, V.le, negState] at this
  · have h : (runOps (Fn.new false) [.add "p" (.scalar {} .uint32) false false, .change "p" i32]).conts.get n =
          if "p" = n then some i32 else none := rfl
    rw [h] at hn
    split at hn
    · rename_i e
      subst e
      have := Option.some.inj hn
      subst this
      simp [Ty.Holds, i32, Prim.InRange, Prim.isSigned, Prim.bitWidth, negState]
    · simp at hn

/-- **C56 fails** when a signed container is renamed onto an unsigned one: the assumption of the overwritten container stays. -/
theorem assumption_rename_violated : ∃ ops, ¬ (runOps (Fn.new false) ops).AssumptionsFit := by
  refine ⟨[.add "p" (.scalar {} .uint32) false false, .add "q" i32 false false, .rename "q" "p"], fun h => ?_⟩
  have := h (negState "p") (fun n t hn => ?_) "p" (range (.int 0) (.int 4294967295)) rfl
  · have := this.1.1
    simp [range, Expr.eval, V.le_def, V.le, negState] at this
  · have h : (runOps (Fn.new false) [.add "p" (.scalar {} .uint32) false false, .add "q" i32 false false, .rename "q" "p"]).conts.get n =
          if "p" = n then some i32 else none := rfl
    rw [h] at hn
    split at hn
    · rename_i e
      subst e
      have := Option.some.inj hn
      subst this
      simp [Ty.Holds, i32, Prim.InRange, Prim.isSigned, Prim.bitWidth, negState]
    · simp at hn

end Docc.Builder

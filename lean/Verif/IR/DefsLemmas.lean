import Verif.IR.Defs
import Verif.IR.AgreeS
import Verif.IR.Jump

/-
Facts about the states of the definitions analysis: nothing recorded is ever lost, reads mark or go undefined, positions.
-/
namespace Docc.IR
open Docc.Sym

mutual
/-- all containers written in a node -/
def Node.assigned : Node → List String
  | .block l => l.flatMap fun s => (s.writeUsrs []).map (·.cont)
  | .seq s => s.assigned
  | .ifElse b => b.assigned
  | .whileL s => s.assigned
  | .loop _ i _ _ _ s => i :: s.assigned
  | .brk => []
  | .cont => []
  | .ret _ _ => []
/-- all containers written in a sequence -/
def Seq.assigned : Seq → List String
  | .nil => []
  | .cons n t r => n.assigned ++ t.map (·.1) ++ r.assigned
/-- all containers written in the branches -/
def Brs.assigned : Brs → List String
  | .nil => []
  | .cons _ s r => s.assigned ++ r.assigned
end

namespace DefSt

/-- all definitions -/
def all (st : DefSt) : List Def := st.opn ++ st.cls

/-- the definitions of `st` are in `st'`, with at least the same reads -/
def Sub (st st' : DefSt) : Prop := ∀ e ∈ st.all, ∃ e' ∈ st'.all, e'.1 = e.1 ∧ ∀ r ∈ e.2, r ∈ e'.2

/-- ... and the undefined reads too -/
def Le (st st' : DefSt) : Prop := Sub st st' ∧ ∀ r ∈ st.undef, r ∈ st'.undef

theorem Sub.refl (st : DefSt) : Sub st st := fun e he => ⟨e, he, rfl, fun _ h => h⟩
theorem Sub.trans {a b c : DefSt} (h : Sub a b) (h' : Sub b c) : Sub a c := by
  intro e he
  obtain ⟨e1, m1, k1, r1⟩ := h e he
  obtain ⟨e2, m2, k2, r2⟩ := h' e1 m1
  exact ⟨e2, m2, k2.trans k1, fun r hr => r2 r (r1 r hr)⟩
theorem Le.refl (st : DefSt) : Le st st := ⟨Sub.refl st, fun _ h => h⟩
theorem Le.trans {a b c : DefSt} (h : Le a b) (h' : Le b c) : Le a c := ⟨h.1.trans h'.1, fun r hr => h'.2 r (h.2 r hr)⟩

theorem foldl_le {α : Type} {f : DefSt → α → DefSt} (hf : ∀ st a, Le st (f st a)) : ∀ (l : List α) (st : DefSt), Le st (l.foldl f st)
  | [], st => Le.refl st
  | a :: l, st => (hf st a).trans (foldl_le hf l (f st a))

/-- membership through `mark` -/
theorem mem_mark {f : Usr → Bool} {r : Usr} {l : List Def} {e : Def} (h : e ∈ l) :
    (e.1, if f e.1 then r :: e.2 else e.2) ∈ mark f r l := by
  unfold mark
  refine List.mem_map.2 ⟨e, h, ?_⟩
  by_cases hf : f e.1 = true
  · simp [hf]
  · simp [hf]

theorem mark_keys (f : Usr → Bool) (r : Usr) (l : List Def) : (mark f r l).map (·.1) = l.map (·.1) := by
  unfold mark
  rw [List.map_map]
  refine List.map_congr_left fun e _ => ?_
  simp only [Function.comp]
  split <;> rfl

theorem mark_hit {f : Usr → Bool} {r : Usr} {l : List Def} {e : Def} (h : e ∈ mark f r l) (hf : f e.1 = true) : e.2 ≠ [] := by
  unfold mark at h
  obtain ⟨e0, _, rfl⟩ := List.mem_map.1 h
  by_cases h0 : f e0.1 = true
  · simp [h0]
  · simp only [h0] at hf
    exact absurd hf h0

/-- An operation that only records a read, where a read of a container in `sc` marks all open definitions of the container, and a read
without open definitions becomes undefined. -/
structure IsRead (sc : String → Prop) (f : DefSt → Usr → DefSt) : Prop where
  keys : ∀ st r, (f st r).opn.map (·.1) = st.opn.map (·.1)
  cls : ∀ st r, (f st r).cls = st.cls
  le : ∀ st r, Le st (f st r)
  hit : ∀ st r, sc r.cont → ∀ e ∈ (f st r).opn, e.1.cont = r.cont → e.2 ≠ []
  miss : ∀ st r, (∀ e ∈ st.opn, e.1.cont ≠ r.cont) → r ∈ (f st r).undef

theorem mark_le {st : DefSt} {f : Usr → Bool} {r : Usr} {u : List Usr} (hu : ∀ x ∈ st.undef, x ∈ u) :
    Le st { st with opn := mark f r st.opn, undef := u } := by
  refine ⟨fun e he => ?_, hu⟩
  rcases List.mem_append.1 he with he | he
  · refine ⟨_, List.mem_append_left _ (mem_mark (f := f) (r := r) he), rfl, fun x hx => ?_⟩
    simp only
    split
    · exact List.mem_cons_of_mem _ hx
    · exact hx
  · exact ⟨e, List.mem_append_right _ he, rfl, fun _ h => h⟩

theorem hits_empty {st : DefSt} {g : Usr → Bool} {r : Usr} (hg : ∀ p, g p = true → p.cont = r.cont)
    (h : ∀ e ∈ st.opn, e.1.cont ≠ r.cont) : ((st.opn.map (·.1)).filter g).isEmpty = true := by
  rw [List.isEmpty_iff, List.filter_eq_nil_iff]
  intro p hp hgp
  obtain ⟨e, he, rfl⟩ := List.mem_map.1 hp
  exact h e he (hg _ hgp)

theorem read_isRead (O : DefOracle) : IsRead (fun x => O.scalar x = true) (DefSt.read O) where
  keys st r := mark_keys (O.depends · r) r st.opn
  cls st r := rfl
  le st r := mark_le fun x hx => by split; exact List.mem_cons_of_mem _ hx; exact hx
  hit st r hs e he hc := mark_hit (f := (O.depends · r)) (r := r) (l := st.opn) he (by simp [DefOracle.depends, hc, hs])
  miss st r h := by
    have := hits_empty (st := st) (g := (O.depends · r)) (fun p hp => by simp [DefOracle.depends] at hp; exact hp.1) h
    simp only [DefSt.read, this, Bool.true_or, if_true]
    exact List.mem_cons_self

theorem readName_isRead (sc : String → Prop) : IsRead sc DefSt.readName where
  keys st r := mark_keys (fun p : Usr => decide (p.cont = r.cont)) r st.opn
  cls st r := rfl
  le st r := mark_le fun x hx => by split; exact hx; exact List.mem_cons_of_mem _ hx
  hit st r hs e he hc := mark_hit (f := (fun p : Usr => decide (p.cont = r.cont))) (r := r) (l := st.opn) he (by simp [hc])
  miss st r h := by
    have : st.opn.any (fun p => decide (p.1.cont = r.cont)) = false := by
      rw [List.any_eq_false]
      intro e he
      simpa using h e he
    simp only [DefSt.readName, this]
    exact List.mem_cons_self

theorem forward_isRead (O : DefOracle) : IsRead (fun x => O.scalar x = true) (DefSt.forward O) where
  keys st r := mark_keys (O.meetsNow · r) r st.opn
  cls st r := rfl
  le st r := mark_le fun x hx => by split; exact List.mem_cons_of_mem _ hx; exact hx
  hit st r hs e he hc := mark_hit (f := (O.meetsNow · r)) (r := r) (l := st.opn) he (by simp [DefOracle.meetsNow, hc, hs])
  miss st r h := by
    have := hits_empty (st := st) (g := (O.meetsNow · r)) (fun p hp => by simp [DefOracle.meetsNow] at hp; exact hp.1) h
    simp only [DefSt.forward, this, Bool.true_or, if_true]
    exact List.mem_cons_self

theorem IsRead.fold_keys {sc : String → Prop} {f : DefSt → Usr → DefSt} (hf : IsRead sc f) :
    ∀ (l : List Usr) (st : DefSt), (l.foldl f st).opn.map (·.1) = st.opn.map (·.1)
  | [], _ => rfl
  | r :: l, st => (hf.fold_keys l (f st r)).trans (hf.keys st r)

theorem IsRead.fold_cls {sc : String → Prop} {f : DefSt → Usr → DefSt} (hf : IsRead sc f) :
    ∀ (l : List Usr) (st : DefSt), (l.foldl f st).cls = st.cls
  | [], _ => rfl
  | r :: l, st => (hf.fold_cls l (f st r)).trans (hf.cls st r)

/-- Reads: a definition recorded for keys only. -/
theorem mem_keys {a b : List Def} (h : a.map (·.1) = b.map (·.1)) {e : Def} (he : e ∈ a) : ∃ e' ∈ b, e'.1 = e.1 := by
  have : e.1 ∈ b.map (·.1) := h ▸ List.mem_map.2 ⟨e, he, rfl⟩
  obtain ⟨e', h1, h2⟩ := List.mem_map.1 this
  exact ⟨e', h1, h2⟩

theorem write_le (O : DefOracle) (d : Bool) (st : DefSt) (w : Usr) : Le st (st.write O d w) := by
  refine ⟨fun e he => ?_, fun _ h => h⟩
  refine ⟨e, ?_, rfl, fun _ h => h⟩
  simp only [all, DefSt.write, List.mem_append, List.mem_filter] at he ⊢
  rcases he with he | he
  · by_cases h : O.closes d e.1 w = true
    · exact Or.inr (Or.inr ⟨he, h⟩)
    · exact Or.inl (Or.inl ⟨he, by simp [h]⟩)
  · exact Or.inr (Or.inl he)

theorem block_le (O : DefOracle) (pos : List Nat) : ∀ (l : List Stmt) (k : Nat) (st : DefSt), Le st (defsBlock O pos k l st)
  | [], _, st => Le.refl st
  | s :: l, k, st => by
    unfold defsBlock
    exact ((foldl_le (read_isRead O).le _ st).trans (foldl_le (write_le O false) _ _)).trans (block_le O pos l (k + 1) _)

theorem trans_le (O : DefOracle) (pos : List Nat) (t : Trans) (st : DefSt) : Le st (defsTrans O pos t st) :=
  (foldl_le (readName_isRead (fun _ => True)).le _ st).trans (foldl_le (write_le O true) _ _)

theorem header_le (O : DefOracle) (pos : List Nat) (i : String) (init : Expr) (cond : Cond) (st : DefSt) :
    Le st (defsHeader O pos i init cond st) := by
  unfold defsHeader
  refine Le.trans ?_ (foldl_le (read_isRead O).le _ _)
  refine (foldl_le (read_isRead O).le (symUsrs (pos ++ [1]) init.atoms) st).trans ((write_le O true _ ⟨pos ++ [1], i, [], false, false⟩).trans ?_)
  refine ⟨fun e he => ⟨e, ?_, rfl, fun _ h => h⟩, fun _ h => h⟩
  rcases List.mem_append.1 he with h | h
  · exact List.mem_append_left _ (List.mem_append_left _ h)
  · exact List.mem_append_right _ h

theorem return_le (pos : List Nat) (d : String) (q : Bool) (st : DefSt) : Le st (defsReturn pos d q st) := by
  unfold defsReturn
  have h1 : Le st (if q || d == "" then st else st.readName ⟨pos, d, [], false, false⟩) := by
    split
    · exact Le.refl st
    · exact (readName_isRead (fun _ => True)).le _ _
  refine h1.trans ⟨fun e he => ⟨e, ?_, rfl, fun _ h => h⟩, fun _ h => h⟩
  simp only [all, List.nil_append]
  rcases List.mem_append.1 he with h | h
  · exact List.mem_append_right _ h
  · exact List.mem_append_left _ h

/-- the surroundings survive the merge of a while loop -/
theorem while_le (b st : DefSt) : Le st (defsWhile b st) := by
  unfold defsWhile
  have h0 : Le st { st with cls := st.cls ++ b.cls } := by
    refine ⟨fun e he => ⟨e, ?_, rfl, fun _ h => h⟩, fun _ h => h⟩
    rcases List.mem_append.1 he with h | h
    · exact List.mem_append_left _ h
    · exact List.mem_append_right _ (List.mem_append_left _ h)
  refine (h0.trans (foldl_le (readName_isRead (fun _ => True)).le b.undef _)).trans ⟨fun e he => ⟨e, ?_, rfl, fun _ h => h⟩, fun _ h => h⟩
  rcases List.mem_append.1 he with h | h
  · exact List.mem_append_left _ (List.mem_append_left _ h)
  · exact List.mem_append_right _ h

/-- the body survives the merge of a while loop -/
theorem while_sub (b st : DefSt) : Sub b (defsWhile b st) := by
  intro e he
  unfold defsWhile
  rcases List.mem_append.1 he with h | h
  · refine ⟨_, List.mem_append_left _ (List.mem_append_right _ (List.mem_map.2 ⟨e, h, rfl⟩)), rfl, fun r hr => ?_⟩
    exact List.mem_append_left _ hr
  · refine ⟨e, List.mem_append_right _ ?_, rfl, fun _ h => h⟩
    show e ∈ (b.undef.foldl DefSt.readName { st with cls := st.cls ++ b.cls }).cls
    rw [(readName_isRead (fun _ => True)).fold_cls]
    exact List.mem_append_right _ h

theorem for_le (O : DefOracle) (i : String) (upd : Expr) (b st : DefSt) : Le st (defsFor O i upd b st) := by
  unfold defsFor
  have h0 : Le st { st with cls := st.cls ++ b.cls } := by
    refine ⟨fun e he => ⟨e, ?_, rfl, fun _ h => h⟩, fun _ h => h⟩
    rcases List.mem_append.1 he with h | h
    · exact List.mem_append_left _ h
    · exact List.mem_append_right _ (List.mem_append_left _ h)
  refine (h0.trans (foldl_le (forward_isRead O).le b.undef _)).trans ⟨fun e he => ⟨e, ?_, rfl, fun _ h => h⟩, fun _ h => h⟩
  simp only [all, List.mem_append, List.mem_filter] at he ⊢
  rcases he with he | he
  · by_cases h : (b.opn.any fun w => O.closes true e.1 w.1) = true
    · exact Or.inr (Or.inr ⟨he, h⟩)
    · exact Or.inl (Or.inl ⟨he, by simp only [Bool.not_eq_true] at h; rw [h]; rfl⟩)
  · exact Or.inr (Or.inl he)

theorem for_sub (O : DefOracle) (i : String) (upd : Expr) (b st : DefSt) : Sub b (defsFor O i upd b st) := by
  intro e he
  unfold defsFor
  rcases List.mem_append.1 he with h | h
  · refine ⟨_, List.mem_append_left _ (List.mem_append_right _ (List.mem_map.2 ⟨e, h, rfl⟩)), rfl, fun r hr => ?_⟩
    exact List.mem_append_left _ hr
  · refine ⟨e, List.mem_append_right _ (List.mem_append_left _ ?_), rfl, fun _ h => h⟩
    rw [(forward_isRead O).fold_cls]
    exact List.mem_append_right _ h

/-- the state of an if-else before the branches are merged in -/
def ifMid (O : DefOracle) (pos : List Nat) (b : Brs) (bs : List DefSt) (st : DefSt) : DefSt :=
  (bs.flatMap DefSt.undef).foldl (DefSt.read O) ((symUsrs pos b.condAtoms).foldl (DefSt.read O) st)

theorem ifMid_le (O : DefOracle) (pos : List Nat) (b : Brs) (bs : List DefSt) (st : DefSt) : Le st (ifMid O pos b bs st) :=
  (foldl_le (read_isRead O).le _ st).trans (foldl_le (read_isRead O).le _ _)

theorem if_le_mid (O : DefOracle) (pos : List Nat) (b : Brs) (bs : List DefSt) (st : DefSt) :
    Le (ifMid O pos b bs st) (defsIf O pos b bs st) := by
  unfold defsIf
  show Le (ifMid O pos b bs st) _
  split
  · refine ⟨fun e he => ⟨e, ?_, rfl, fun _ h => h⟩, fun _ h => h⟩
    simp only [all, List.mem_append, List.mem_filter] at he ⊢
    rcases he with he | he
    · by_cases h : e.1.cont ∈ ifCands bs
      · exact Or.inr (Or.inr ⟨he, by simpa using h⟩)
      · exact Or.inl (Or.inl ⟨he, by simpa using h⟩)
    · exact Or.inr (Or.inl (Or.inl he))
  · refine ⟨fun e he => ⟨e, ?_, rfl, fun _ h => h⟩, fun _ h => h⟩
    simp only [all, List.mem_append] at he ⊢
    rcases he with he | he
    · exact Or.inl (Or.inl (Or.inl he))
    · exact Or.inr (Or.inl he)

theorem if_le (O : DefOracle) (pos : List Nat) (b : Brs) (bs : List DefSt) (st : DefSt) : Le st (defsIf O pos b bs st) :=
  (ifMid_le O pos b bs st).trans (if_le_mid O pos b bs st)

/-- the open definitions of a branch are open afterwards -/
theorem if_opn {O : DefOracle} {pos : List Nat} {b : Brs} {bs : List DefSt} {st : DefSt} {d : DefSt} (hd : d ∈ bs) {e : Def}
    (he : e ∈ d.opn) : e ∈ (defsIf O pos b bs st).opn := by
  have : e ∈ bs.flatMap DefSt.opn := List.mem_flatMap.2 ⟨d, hd, he⟩
  unfold defsIf
  simp only
  split
  · exact List.mem_append_right _ this
  · exact List.mem_append_right _ this

theorem if_sub {O : DefOracle} {pos : List Nat} {b : Brs} {bs : List DefSt} {st : DefSt} {d : DefSt} (hd : d ∈ bs) :
    Sub d (defsIf O pos b bs st) := by
  intro e he
  refine ⟨e, ?_, rfl, fun _ h => h⟩
  rcases List.mem_append.1 he with h | h
  · exact List.mem_append_left _ (if_opn hd h)
  · have : e ∈ bs.flatMap DefSt.cls := List.mem_flatMap.2 ⟨d, hd, h⟩
    refine List.mem_append_right _ ?_
    unfold defsIf
    simp only
    split
    · exact List.mem_append_left _ (List.mem_append_right _ this)
    · exact List.mem_append_right _ this

end DefSt
open DefSt

mutual
theorem Node.defs_le (O : DefOracle) : (n : Node) → (pos : List Nat) → (st : DefSt) → Le st (n.defs O pos st)
  | .block l, pos, st => by rw [Node.defs]; exact block_le O pos l 0 st
  | .seq s, pos, st => by rw [Node.defs]; exact s.defs_le O pos 0 st
  | .ifElse b, pos, st => by rw [Node.defs]; exact if_le O pos b _ st
  | .whileL s, pos, st => by rw [Node.defs]; exact while_le _ st
  | .loop _ i init cond upd s, pos, st => by rw [Node.defs]; exact (header_le O pos i init cond st).trans (for_le O i upd _ _)
  | .brk, pos, st => by rw [Node.defs]; exact Le.refl st
  | .cont, pos, st => by rw [Node.defs]; exact Le.refl st
  | .ret d q, pos, st => by rw [Node.defs]; exact return_le pos d q st
theorem Seq.defs_le (O : DefOracle) : (s : Seq) → (pos : List Nat) → (k : Nat) → (st : DefSt) → Le st (s.defs O pos k st)
  | .nil, pos, k, st => by rw [Seq.defs]; exact Le.refl st
  | .cons n t r, pos, k, st => by
    rw [Seq.defs]
    exact ((n.defs_le O _ st).trans (trans_le O _ t _)).trans (r.defs_le O pos (k + 1) _)
end

/-- every definition of `st'` is one of `st`, open ones from open ones, or is described by `Q` -/
def DefSt.New (Q : Usr → Prop) (st st' : DefSt) : Prop :=
  (∀ e ∈ st'.opn, (∃ e0 ∈ st.opn, e0.1 = e.1) ∨ Q e.1) ∧ ∀ e ∈ st'.cls, (∃ e0 ∈ st.all, e0.1 = e.1) ∨ Q e.1

namespace DefSt

theorem New.refl (Q : Usr → Prop) (st : DefSt) : New Q st st :=
  ⟨fun e he => Or.inl ⟨e, he, rfl⟩, fun e he => Or.inl ⟨e, List.mem_append_right _ he, rfl⟩⟩

theorem New.mono {Q Q' : Usr → Prop} (h : ∀ u, Q u → Q' u) {a b : DefSt} (H : New Q a b) : New Q' a b :=
  ⟨fun e he => (H.1 e he).imp id (h _), fun e he => (H.2 e he).imp id (h _)⟩

theorem New.trans {Q : Usr → Prop} {a b c : DefSt} (h : New Q a b) (h' : New Q b c) : New Q a c := by
  refine ⟨fun e he => ?_, fun e he => ?_⟩
  · rcases h'.1 e he with ⟨e0, m, k⟩ | hq
    · rcases h.1 e0 m with ⟨e1, m1, k1⟩ | hq
      · exact Or.inl ⟨e1, m1, k1.trans k⟩
      · exact Or.inr (k ▸ hq)
    · exact Or.inr hq
  · rcases h'.2 e he with ⟨e0, m, k⟩ | hq
    · rcases List.mem_append.1 m with m | m
      · rcases h.1 e0 m with ⟨e1, m1, k1⟩ | hq
        · exact Or.inl ⟨e1, List.mem_append_left _ m1, k1.trans k⟩
        · exact Or.inr (k ▸ hq)
      · rcases h.2 e0 m with ⟨e1, m1, k1⟩ | hq
        · exact Or.inl ⟨e1, m1, k1.trans k⟩
        · exact Or.inr (k ▸ hq)
    · exact Or.inr hq

theorem foldl_new {α : Type} {Q : Usr → Prop} {f : DefSt → α → DefSt} : ∀ (l : List α) (_ : ∀ st, ∀ a ∈ l, New Q st (f st a)) (st : DefSt),
    New Q st (l.foldl f st)
  | [], _, st => New.refl Q st
  | a :: l, h, st => (h st a (by simp)).trans (foldl_new l (fun st b hb => h st b (List.mem_cons_of_mem _ hb)) (f st a))

theorem IsRead.new {sc : String → Prop} {f : DefSt → Usr → DefSt} (hf : IsRead sc f) (Q : Usr → Prop) (l : List Usr) (st : DefSt) :
    New Q st (l.foldl f st) := by
  refine ⟨fun e he => Or.inl (mem_keys (hf.fold_keys l st) he), fun e he => Or.inl ⟨e, ?_, rfl⟩⟩
  rw [hf.fold_cls] at he
  exact List.mem_append_right _ he

theorem write_new (O : DefOracle) (d : Bool) (Q : Usr → Prop) (st : DefSt) (w : Usr) (hw : Q w) : New Q st (st.write O d w) := by
  refine ⟨fun e he => ?_, fun e he => ?_⟩
  · simp only [DefSt.write, List.mem_append, List.mem_filter, List.mem_singleton] at he
    rcases he with he | rfl
    · exact Or.inl ⟨e, he.1, rfl⟩
    · exact Or.inr hw
  · simp only [DefSt.write, List.mem_append, List.mem_filter] at he
    rcases he with he | he
    · exact Or.inl ⟨e, List.mem_append_right _ he, rfl⟩
    · exact Or.inl ⟨e, List.mem_append_left _ he.1, rfl⟩

theorem addOpn_new {Q : Usr → Prop} {st : DefSt} {l : List Def} (hl : ∀ e ∈ l, Q e.1) : New Q st { st with opn := st.opn ++ l } := by
  refine ⟨fun e he => ?_, fun e he => Or.inl ⟨e, List.mem_append_right _ he, rfl⟩⟩
  rcases List.mem_append.1 he with h | h
  · exact Or.inl ⟨e, h, rfl⟩
  · exact Or.inr (hl e h)

theorem addCls_new {Q : Usr → Prop} {st : DefSt} {l : List Def} (hl : ∀ e ∈ l, Q e.1) : New Q st { st with cls := st.cls ++ l } := by
  refine ⟨fun e he => Or.inl ⟨e, he, rfl⟩, fun e he => ?_⟩
  rcases List.mem_append.1 he with h | h
  · exact Or.inl ⟨e, List.mem_append_right _ h, rfl⟩
  · exact Or.inr (hl e h)

/-- what a statement writes -/
theorem writeUsrs_spec {s : Stmt} {pos : List Nat} {w : Usr} (h : w ∈ s.writeUsrs pos) :
    w.pos = pos ∧ w.cont ∈ (s.writeUsrs []).map (·.cont) ∧ w.art = false := by
  cases s with
  | tasklet op ins out sub =>
    simp only [Stmt.writeUsrs, List.mem_singleton] at h
    subst h
    exact ⟨rfl, by simp [Stmt.writeUsrs], rfl⟩
  | lib op rs ws =>
    simp only [Stmt.writeUsrs, List.mem_map] at h
    obtain ⟨x, hx, rfl⟩ := h
    exact ⟨rfl, by simpa [Stmt.writeUsrs] using hx, rfl⟩

theorem block_new (O : DefOracle) (pos : List Nat) (Q : Usr → Prop) : ∀ (l : List Stmt) (k : Nat) (st : DefSt),
    (∀ s ∈ l, ∀ j, ∀ w ∈ s.writeUsrs (pos ++ [j]), Q w) → New Q st (defsBlock O pos k l st)
  | [], _, st, _ => New.refl Q st
  | s :: l, k, st, h => by
    unfold defsBlock
    refine (((read_isRead O).new Q _ st).trans (foldl_new _ (fun st w hw => write_new O false Q st w ?_) _)).trans
      (block_new O pos Q l (k + 1) _ fun s' hs' => h s' (List.mem_cons_of_mem _ hs'))
    exact h s (by simp) k w hw

theorem trans_new (O : DefOracle) (pos : List Nat) (Q : Usr → Prop) (t : Trans) (st : DefSt)
    (h : ∀ a ∈ t, Q ⟨pos, a.1, [], false, false⟩) : New Q st (defsTrans O pos t st) := by
  unfold defsTrans
  refine ((readName_isRead (fun _ => True)).new Q _ st).trans (foldl_new _ (fun st w hw => write_new O true Q st w ?_) _)
  obtain ⟨a, ha, rfl⟩ := List.mem_map.1 hw
  exact h a ha

theorem header_new (O : DefOracle) (pos : List Nat) (Q : Usr → Prop) (i : String) (init : Expr) (cond : Cond) (st : DefSt)
    (h1 : Q ⟨pos ++ [1], i, [], false, false⟩) (h2 : Q ⟨pos ++ [2], i, [], false, false⟩) :
    New Q st (defsHeader O pos i init cond st) := by
  unfold defsHeader
  refine New.trans ?_ ((read_isRead O).new Q _ _)
  refine (((read_isRead O).new Q (symUsrs (pos ++ [1]) init.atoms) st).trans (write_new O true Q _ _ h1)).trans ?_
  refine addOpn_new fun e he => ?_
  rw [List.mem_singleton] at he
  subst he
  exact h2

theorem return_new (pos : List Nat) (Q : Usr → Prop) (d : String) (q : Bool) (st : DefSt) : New Q st (defsReturn pos d q st) := by
  unfold defsReturn
  have h1 : New Q st (if q || d == "" then st else st.readName ⟨pos, d, [], false, false⟩) := by
    split
    · exact New.refl Q st
    · exact (readName_isRead (fun _ => True)).new Q [_] st
  refine h1.trans ⟨fun e he => by simp at he, fun e he => Or.inl ⟨e, ?_, rfl⟩⟩
  rcases List.mem_append.1 he with h | h
  · exact List.mem_append_right _ h
  · exact List.mem_append_left _ h

theorem while_new {Q : Usr → Prop} {b : DefSt} (st : DefSt) (hb : ∀ e ∈ b.all, Q e.1) : New Q st (defsWhile b st) := by
  unfold defsWhile
  refine ((addCls_new (st := st) fun e he => hb e (List.mem_append_right _ he)).trans
    ((readName_isRead (fun _ => True)).new Q b.undef _)).trans (addOpn_new fun e he => ?_)
  obtain ⟨w, hw, rfl⟩ := List.mem_map.1 he
  exact hb w (List.mem_append_left _ hw)

theorem for_new {Q : Usr → Prop} {b : DefSt} (O : DefOracle) (i : String) (upd : Expr) (st : DefSt) (hb : ∀ e ∈ b.all, Q e.1) :
    New Q st (defsFor O i upd b st) := by
  unfold defsFor
  refine ((addCls_new (st := st) fun e he => hb e (List.mem_append_right _ he)).trans ((forward_isRead O).new Q b.undef _)).trans
    ⟨fun e he => ?_, fun e he => ?_⟩
  · rcases List.mem_append.1 he with h | h
    · exact Or.inl ⟨e, (List.mem_filter.1 h).1, rfl⟩
    · obtain ⟨w, hw, rfl⟩ := List.mem_map.1 h
      exact Or.inr (hb w (List.mem_append_left _ hw))
  · rcases List.mem_append.1 he with h | h
    · exact Or.inl ⟨e, List.mem_append_right _ h, rfl⟩
    · exact Or.inl ⟨e, List.mem_append_left _ (List.mem_filter.1 h).1, rfl⟩

theorem if_new {Q : Usr → Prop} (O : DefOracle) (pos : List Nat) (b : Brs) (bs : List DefSt) (st : DefSt)
    (hb : ∀ d ∈ bs, ∀ e ∈ d.all, Q e.1) (hQ : ∀ u : Usr, Q u → Q ⟨u.pos, u.cont, [], false, true⟩) : New Q st (defsIf O pos b bs st) := by
  have h1 : New Q st (ifMid O pos b bs st) := ((read_isRead O).new Q _ st).trans ((read_isRead O).new Q _ _)
  refine h1.trans ?_
  have ho : ∀ e ∈ bs.flatMap DefSt.opn, Q e.1 := fun e he => by
    obtain ⟨d, hd, h⟩ := List.mem_flatMap.1 he
    exact hb d hd e (List.mem_append_left _ h)
  have hc : ∀ e ∈ bs.flatMap DefSt.cls, Q e.1 := fun e he => by
    obtain ⟨d, hd, h⟩ := List.mem_flatMap.1 he
    exact hb d hd e (List.mem_append_right _ h)
  unfold defsIf
  show New Q (ifMid O pos b bs st) _
  split
  · refine ⟨fun e he => ?_, fun e he => ?_⟩
    · rcases List.mem_append.1 he with h | h
      · exact Or.inl ⟨e, (List.mem_filter.1 h).1, rfl⟩
      · exact Or.inr (ho e h)
    · rcases List.mem_append.1 he with h | h
      · rcases List.mem_append.1 h with h | h
        · exact Or.inl ⟨e, List.mem_append_right _ h, rfl⟩
        · exact Or.inr (hc e h)
      · exact Or.inl ⟨e, List.mem_append_left _ (List.mem_filter.1 h).1, rfl⟩
  · refine ⟨fun e he => ?_, fun e he => ?_⟩
    · rcases List.mem_append.1 he with h | h
      · rcases List.mem_append.1 h with h | h
        · exact Or.inl ⟨e, h, rfl⟩
        · obtain ⟨w, hw, rfl⟩ := List.mem_map.1 h
          exact Or.inr (hQ _ (ho w hw))
      · exact Or.inr (ho e h)
    · rcases List.mem_append.1 he with h | h
      · exact Or.inl ⟨e, List.mem_append_right _ h, rfl⟩
      · exact Or.inr (hc e h)

/-- a state made from nothing -/
theorem New.from_empty {Q : Usr → Prop} {st : DefSt} (h : New Q {} st) : ∀ e ∈ st.all, Q e.1 := by
  intro e he
  rcases List.mem_append.1 he with m | m
  · rcases h.1 e m with ⟨e0, m0, _⟩ | q
    · cases m0
    · exact q
  · rcases h.2 e m with ⟨e0, m0, _⟩ | q
    · cases m0
    · exact q

end DefSt

/-- a definition of one of the containers `ws` at a position under `pos` -/
def Under (pos : List Nat) (ws : List String) (u : Usr) : Prop := pos <+: u.pos ∧ u.cont ∈ ws

theorem Under.mono {pos pos' : List Nat} {ws ws' : List String} (hp : pos' <+: pos) (hw : ∀ x ∈ ws, x ∈ ws') {u : Usr} (h : Under pos ws u) :
    Under pos' ws' u := ⟨hp.trans h.1, hw _ h.2⟩

mutual
/-- A node adds only definitions of containers it writes, at positions under its own. -/
theorem Node.defs_new (O : DefOracle) : (n : Node) → (pos : List Nat) → (st : DefSt) → New (Under pos n.assigned) st (n.defs O pos st)
  | .block l, pos, st => by
    rw [Node.defs, Node.assigned]
    refine block_new O pos _ l 0 st fun s hs j w hw => ?_
    obtain ⟨h1, h2, _⟩ := writeUsrs_spec hw
    exact ⟨h1 ▸ List.prefix_append _ _, List.mem_flatMap.2 ⟨s, hs, h2⟩⟩
  | .seq s, pos, st => by rw [Node.defs, Node.assigned]; exact s.defs_new O pos 0 st
  | .ifElse b, pos, st => by
    rw [Node.defs, Node.assigned]
    refine if_new O pos b _ st (fun d hd e he => ?_) fun u hu => hu
    exact b.defs_new O pos 0 d hd e he
  | .whileL s, pos, st => by
    rw [Node.defs, Node.assigned]
    exact while_new st fun e he => ((s.defs_new O (pos ++ [0]) 0 {}).from_empty e he).mono (List.prefix_append _ _) fun _ h => h
  | .loop _ i init cond upd s, pos, st => by
    rw [Node.defs, Node.assigned]
    refine (header_new O pos _ i init cond st ⟨List.prefix_append _ _, by simp⟩ ⟨List.prefix_append _ _, by simp⟩).trans
      (for_new O i upd _ fun e he => ?_)
    have h := ((s.defs_new O (pos ++ [0]) 0 {}).trans ((read_isRead O).new _ (symUsrs (pos ++ [2]) upd.atoms) _)).from_empty e he
    exact h.mono (List.prefix_append _ _) fun x hx => List.mem_cons_of_mem _ hx
  | .brk, pos, st => by rw [Node.defs]; exact New.refl _ st
  | .cont, pos, st => by rw [Node.defs]; exact New.refl _ st
  | .ret d q, pos, st => by rw [Node.defs]; exact return_new pos _ d q st
theorem Seq.defs_new (O : DefOracle) : (s : Seq) → (pos : List Nat) → (k : Nat) → (st : DefSt) →
    New (Under pos s.assigned) st (s.defs O pos k st)
  | .nil, pos, k, st => by rw [Seq.defs]; exact New.refl _ st
  | .cons n t r, pos, k, st => by
    rw [Seq.defs, Seq.assigned]
    refine (((n.defs_new O _ st).mono fun u hu => hu.mono (List.prefix_append _ _) ?_).trans (trans_new O _ _ t _ fun a ha => ?_)).trans
      ((r.defs_new O pos (k + 1) _).mono fun u hu => hu.mono List.prefix_rfl ?_)
    · exact ⟨List.prefix_append _ _, by simp; exact Or.inr (Or.inl ⟨_, ha⟩)⟩
    · intro x hx; simp [hx]
    · intro x hx; simp [hx]
theorem Brs.defs_new (O : DefOracle) : (b : Brs) → (pos : List Nat) → (k : Nat) → ∀ d ∈ b.defs O pos k, ∀ e ∈ d.all, Under pos b.assigned e.1
  | .nil, pos, k, d, hd => by rw [Brs.defs] at hd; cases hd
  | .cons c s r, pos, k, d, hd => by
    rw [Brs.defs] at hd
    intro e he
    rw [Brs.assigned]
    rcases List.mem_cons.1 hd with rfl | hd
    · exact ((s.defs_new O (pos ++ [k]) 0 {}).from_empty e he).mono (List.prefix_append _ _) fun x hx => List.mem_append_left _ hx
    · exact (r.defs_new O pos (k + 1) d hd e he).mono List.prefix_rfl fun x hx => List.mem_append_right _ hx
end

/-- the positions branch off, the first one to the left -/
def LeftOf (a q : List Nat) : Prop := ∃ l i j, i < j ∧ (l ++ [i]) <+: a ∧ (l ++ [j]) <+: q

theorem LeftOf.ext {a q r : List Nat} (h : LeftOf a q) : LeftOf a (q ++ r) := by
  obtain ⟨l, i, j, h1, h2, h3⟩ := h
  exact ⟨l, i, j, h1, h2, h3.trans (List.prefix_append _ _)⟩

theorem LeftOf.not_under {a q : List Nat} (h : LeftOf a q) : ¬ q <+: a := by
  obtain ⟨l, i, j, h1, h2, h3⟩ := h
  intro h4
  have h5 := h3.trans h4
  have h6 : (l ++ [i]) <+: (l ++ [j]) := List.prefix_of_prefix_length_le h2 h5 (by simp)
  have h7 := h6.eq_of_length (by simp)
  simp at h7
  omega

/-- position of a definition in a sequence at `pos`, before child position `m` -/
def LeftIn (pos : List Nat) (m : Nat) (a : List Nat) : Prop := LeftOf a pos ∨ ∃ j, j < m ∧ (pos ++ [j]) <+: a

theorem LeftIn.mono {pos : List Nat} {m m' : Nat} {a : List Nat} (hm : m ≤ m') (h : LeftIn pos m a) : LeftIn pos m' a :=
  h.imp id fun ⟨j, h1, h2⟩ => ⟨j, by omega, h2⟩

theorem LeftIn.leftOf {pos : List Nat} {m : Nat} {a : List Nat} (h : LeftIn pos m a) : LeftOf a (pos ++ [m]) := by
  rcases h with h | ⟨j, h1, h2⟩
  · exact h.ext
  · exact ⟨pos, j, m, h1, h2, List.prefix_rfl⟩

end Docc.IR

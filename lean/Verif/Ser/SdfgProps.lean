import Verif.Ser.Sdfg
import Verif.Builder.ContainersProps

/-! C40: reading back a written SDFG. -/
namespace Docc.Ser
open Docc.Sym Docc.Types Docc.Builder Docc.Opt

mutual
theorem El.writable_of_ok {cd : Codec} (e : El) (h : e.Ok cd) : e.writable = true := by
  cases e with
  | block m g =>
    rw [El.Ok] at h
    simp only [El.writable, List.all_eq_true]
    intro n hn
    have := (h.2.1 n hn).2
    split
    · rename_i l hk
      rw [hk] at this
      exact OkL.writable this.1
    · rfl
  | loop m s iv i c u bm b => rw [El.Ok] at h; rw [El.writable]; exact Els.writable_of_ok b h.2.2.2.2.2.2.2
  | ifElse m cs => rw [El.Ok] at h; rw [El.writable]; exact Cases.writable_of_ok cs h.2
  | whil m bm b => rw [El.Ok] at h; rw [El.writable]; exact Els.writable_of_ok b h.2.2
  | seq m b => rw [El.Ok] at h; rw [El.writable]; exact Els.writable_of_ok b h.2
  | brk m => rfl
  | cont m => rfl
  | ret m d t => rfl
theorem Els.writable_of_ok {cd : Codec} (b : Els) (h : b.Ok cd) : b.writable = true := by
  cases b with
  | nil => rfl
  | cons e t r =>
    rw [Els.Ok] at h
    rw [Els.writable, El.writable_of_ok e h.1, Els.writable_of_ok r h.2.2]; rfl
theorem Cases.writable_of_ok {cd : Codec} (b : Cases) (h : b.Ok cd) : b.writable = true := by
  cases b with
  | nil => rfl
  | cons c bm b r =>
    rw [Cases.Ok] at h
    rw [Cases.writable, Els.writable_of_ok b h.2.2.1, Cases.writable_of_ok r h.2.2.2]; rfl
end

theorem find_map {α : Type} (g : α → J) (m : AList String α) (k : String) :
    J.find (m.map fun p => (p.1, g p.2)) k = (m.get k).map g := by
  induction m with
  | nil => rfl
  | cons p r ih =>
    obtain ⟨a, v⟩ := p
    simp only [List.map_cons, J.find, AList.get]
    split
    · rfl
    · exact ih

theorem mapO_some {α β : Type} (f : β → Option α) (l : List β) (h : ∀ b ∈ l, (f b).isSome) :
    ∃ r, J.mapO f l = some r := by
  induction l with
  | nil => exact ⟨[], rfl⟩
  | cons b l ih =>
    obtain ⟨r, hr⟩ := ih fun c hc => h c (List.mem_cons_of_mem _ hc)
    obtain ⟨a, ha⟩ := Option.isSome_iff_exists.1 (h b (by simp))
    exact ⟨a :: r, by simp [J.mapO, ha, hr]⟩

theorem rdStructs_ok {cd : Codec} (l acc : AList String StructDef) (f : Nat) (hf : J.sizeL (l.map (structJ cd)) ≤ f)
    (hd : ∀ n d, (n, d) ∈ l → cd.OkD d) (hn : l.keys.Nodup) (ha : ∀ n ∈ l.keys, acc.get n = none) :
    ∃ m, rdStructs cd f acc (l.map (structJ cd)) = some m ∧ ∀ n, m.get n = (l.get n).or (acc.get n) := by
  induction l generalizing acc with
  | nil => exact ⟨acc, rfl, fun n => by simp⟩
  | cons p r ih =>
    obtain ⟨n, d⟩ := p
    simp only [AList.keys, List.map_cons, List.nodup_cons] at hn
    simp only [List.map_cons, J.sizeL, structJ, J.size, J.sizeF] at hf
    have ht : J.mapO (rdTy cd f) (d.members.map (tyJ cd)) = some d.members := J.mapO_map _ _ _ fun t ht =>
      rdTy_tyJ t (hd n d (by simp) t ht) f (by
        have := J.size_le_sizeL (List.mem_map_of_mem (f := tyJ cd) ht); omega)
    have hc : d.members.map Ty.clone = d.members := by
      conv => rhs; rw [← List.map_id d.members]
      exact List.map_congr_left fun t _ => clone_eq t
    have han := ha n (by simp [AList.keys])
    obtain ⟨m, hm, hg⟩ := ih (acc.set n d) (by omega) (fun n d h => hd n d (List.mem_cons_of_mem _ h)) hn.2 (fun k hk => by
      have hne : n ≠ k := by rintro rfl; exact hn.1 hk
      rw [AList.get_set_ne _ _ hne]
      exact ha k (by simp only [AList.keys, List.map_cons, List.mem_cons]; exact .inr hk))
    refine ⟨m, ?_, fun k => ?_⟩
    · simp only [List.map_cons, rdStructs]
      simp [structJ, J.getS, J.getB, J.getA, J.get, J.find, J.asS, J.asB, J.asA, ht, han, hc]
      exact hm
    · rw [hg k, AList.get_cons, AList.get_set]
      split
      · rename_i e; subst e
        have : AList.get r n = none := AList.get_none_iff.2 hn.1
        rw [this]; rfl
      · rfl

theorem rdMetadata_ok (l acc : AList String String) (hn : l.keys.Nodup) :
    ∃ m, rdMetadata acc (l.map fun p => (p.1, J.str p.2)) = some m ∧ ∀ n, m.get n = (l.get n).or (acc.get n) := by
  induction l generalizing acc with
  | nil => exact ⟨acc, rfl, fun n => by simp⟩
  | cons p r ih =>
    obtain ⟨n, d⟩ := p
    simp only [AList.keys, List.map_cons, List.nodup_cons] at hn
    obtain ⟨m, hm, hg⟩ := ih (acc.set n d) hn.2
    refine ⟨m, by simpa [rdMetadata, J.asS] using hm, fun k => ?_⟩
    rw [hg k, AList.get_cons, AList.get_set]
    split
    · rename_i e; subst e
      have : AList.get r n = none := AList.get_none_iff.2 hn.1
      rw [this]; rfl
    · rfl

/-- assumptions stored so far belong to built-ins or to containers that exist -/
def AClean (f : Fn) : Prop := ∀ n, checkName n = true → f.conts.get n = none → f.assum.get n = none

theorem aclean_new (k : Bool) : AClean (Fn.new k) := by
  intro n hn _
  cases h : (Fn.new k).assum.get n with
  | none => rfl
  | some a =>
    rcases (ainv_new k).1 n a h with ⟨_, ⟨t, ht, _⟩ | hb⟩
    · cases ht
    · rw [builtins_illegal hb] at hn; cases hn

/-- one successful `add_container` -/
theorem addContainer_ok {f : Fn} {n : String} {t : Ty} {a : Bool} (h1 : t.isTensor = false) (h2 : checkName n = true)
    (h3 : f.conts.get n = none) (h4 : t.isSymbol = true → reserved n = false) (hc : AClean f) :
    ∃ f', Out.get? (addContainer f n t a false) = some f' ∧ (∀ k, f'.conts.get k = if n = k then some t else f.conts.get k) ∧
      f'.args = (if a then f.args ++ [n] else f.args) ∧ f'.exts = f.exts ∧ f'.link = f.link ∧
      (∀ k, f'.assum.get k = if n = k then (if t.isSymbol then createAssum t else none) else f.assum.get k) ∧ AClean f' := by
  have hn := hc n h2 h3
  cases hs : t.isSymbol with
  | false =>
    refine ⟨_, by simp [addContainer, h1, h2, h3, hs, Out.get?]; rfl, ?_, ?_, ?_, ?_, ?_, ?_⟩
    · intro k; cases a <;> simp [AList.get_set, clone_eq]
    · cases a <;> simp
    · cases a <;> simp
    · cases a <;> simp
    · intro k
      cases a <;> simp <;> (rintro rfl; exact hn)
    · intro k hk h
      have h' : f.conts.get k = none := by
        cases a <;> simp only [Bool.false_eq_true, if_false, if_true, AList.get_set] at h <;> (split at h <;> [cases h; exact h])
      cases a <;> exact hc k hk h'
  | true =>
    obtain ⟨b, hb⟩ := createAssum_some hs
    refine ⟨_, by simp [addContainer, h1, h2, h3, hs, h4 hs, hb, Out.get?]; rfl, ?_, ?_, ?_, ?_, ?_, ?_⟩
    · intro k; cases a <;> simp [AList.get_set, clone_eq]
    · cases a <;> simp
    · cases a <;> simp
    · cases a <;> simp
    · intro k
      cases a <;> simp [AList.get_emplace_of_none _ _ _ hn, hb]
    · intro k hk h
      have h' : n ≠ k ∧ f.conts.get k = none := by
        cases a <;> simp only [Bool.false_eq_true, if_false, if_true, AList.get_set] at h <;>
          (split at h <;> [cases h; exact ⟨by assumption, h⟩])
      cases a <;> simp [AList.get_emplace_of_none _ _ _ hn, h'.1, hc k hk h'.2]

/-- the assumption made for a container -/
def symA (t : Option Ty) : Option Assum := t.bind fun t => if t.isSymbol then createAssum t else none

theorem rdArgs_ok {cd : Codec} (C : AList String Ty) (fu : Nat) (ns : List String) (f : Fn) (hn : ns.Nodup) (hf : AClean f)
    (h : ∀ n ∈ ns, f.conts.get n = none ∧ checkName n = true ∧ ∃ t, C.get n = some t ∧ cd.OkT t ∧ (tyJ cd t).size ≤ fu ∧
      t.isTensor = false ∧ (t.isSymbol = true → reserved n = false)) :
    ∃ f', rdArgs cd fu (.obj (C.map fun p => (p.1, tyJ cd p.2))) f (ns.map J.str) = some f' ∧
      (∀ k, f'.conts.get k = if k ∈ ns then C.get k else f.conts.get k) ∧ f'.args = f.args ++ ns ∧ f'.exts = f.exts ∧
      f'.link = f.link ∧ (∀ k, f'.assum.get k = if k ∈ ns then symA (C.get k) else f.assum.get k) ∧ AClean f' := by
  induction ns generalizing f with
  | nil => exact ⟨f, rfl, by simp, by simp, rfl, rfl, by simp, hf⟩
  | cons n r ih =>
    rw [List.nodup_cons] at hn
    obtain ⟨hfree, hname, t, ht, ho, hsz, hte, hr⟩ := h n (by simp)
    obtain ⟨f1, e1, c1, a1, x1, l1, s1, k1⟩ := addContainer_ok (a := true) hte hname hfree hr hf
    have hget : (J.obj (C.map fun p => (p.1, tyJ cd p.2))).get n = some (tyJ cd t) := by
      rw [J.get, find_map, ht]; rfl
    obtain ⟨f2, e2, c2, a2, x2, l2, s2, k2⟩ := ih f1 hn.2 k1 (fun m hm => by
      obtain ⟨g1, g2⟩ := h m (List.mem_cons_of_mem _ hm)
      refine ⟨?_, g2⟩
      have hne : n ≠ m := by rintro rfl; exact hn.1 hm
      rw [c1 m, if_neg hne]; exact g1)
    refine ⟨f2, ?_, fun k => ?_, by simp [a2, a1], by rw [x2, x1], by rw [l2, l1], fun k => ?_, k2⟩
    · simp only [List.map_cons, rdArgs, J.asS]
      simp [hget, rdTy_tyJ t ho fu hsz, e1, e2]
    · rw [c2 k, c1 k]
      by_cases hk : k ∈ r
      · simp [hk]
      · by_cases he : n = k
        · subst he; simp [hk, ht]
        · simp [hk, he, Ne.symm he]
    · rw [s2 k, s1 k]
      by_cases hk : k ∈ r
      · simp [hk]
      · by_cases he : n = k
        · subst he; simp [hk, ht, symA]
        · simp [hk, he, Ne.symm he]

theorem rdTrans_ok {cd : Codec} (l : AList String Ty) (fu : Nat) (f : Fn) (hn : l.keys.Nodup) (hf : AClean f)
    (h : ∀ n t, (n, t) ∈ l → n ∉ f.args → n ∉ f.exts → f.conts.get n = none ∧ checkName n = true ∧ cd.OkT t ∧
      (tyJ cd t).size ≤ fu ∧ t.isTensor = false ∧ (t.isSymbol = true → reserved n = false)) :
    ∃ f', rdTrans cd fu f (l.map fun p => (p.1, tyJ cd p.2)) = some f' ∧
      (∀ k, f'.conts.get k = if k ∈ l.keys ∧ k ∉ f.args ∧ k ∉ f.exts then l.get k else f.conts.get k) ∧ f'.args = f.args ∧
      f'.exts = f.exts ∧ f'.link = f.link ∧
      (∀ k, f'.assum.get k = if k ∈ l.keys ∧ k ∉ f.args ∧ k ∉ f.exts then symA (l.get k) else f.assum.get k) := by
  induction l generalizing f with
  | nil => exact ⟨f, rfl, by simp [AList.keys], rfl, rfl, rfl, by simp [AList.keys]⟩
  | cons p r ih =>
    obtain ⟨n, t⟩ := p
    simp only [AList.keys, List.map_cons, List.nodup_cons] at hn
    have hkeys : ∀ k, k ∈ AList.keys ((n, t) :: r) ↔ k = n ∨ k ∈ AList.keys r := by intro k; simp [AList.keys]
    by_cases hs : n ∈ f.args ∨ n ∈ f.exts
    · obtain ⟨f2, e2, c2, a2, x2, l2, s2⟩ := ih f hn.2 hf (fun m u hm => h m u (List.mem_cons_of_mem _ hm))
      have hskip : (f.args.contains n || f.exts.contains n) = true := by simpa using hs
      refine ⟨f2, ?_, fun k => ?_, a2, x2, l2, fun k => ?_⟩
      · simp only [List.map_cons, rdTrans, hskip, if_true]; exact e2
      · rw [c2 k, AList.get_cons]
        by_cases he : n = k
        · subst he
          have h1 : ¬ (n ∈ AList.keys r ∧ n ∉ f.args ∧ n ∉ f.exts) := fun h => hs.elim h.2.1 h.2.2
          have h2 : ¬ (n ∈ AList.keys ((n, t) :: r) ∧ n ∉ f.args ∧ n ∉ f.exts) := fun h => hs.elim h.2.1 h.2.2
          rw [if_neg h1, if_neg h2]
        · simp only [hkeys, he, if_false, Ne.symm he, false_or]
      · rw [s2 k, AList.get_cons]
        by_cases he : n = k
        · subst he
          have h1 : ¬ (n ∈ AList.keys r ∧ n ∉ f.args ∧ n ∉ f.exts) := fun h => hs.elim h.2.1 h.2.2
          have h2 : ¬ (n ∈ AList.keys ((n, t) :: r) ∧ n ∉ f.args ∧ n ∉ f.exts) := fun h => hs.elim h.2.1 h.2.2
          rw [if_neg h1, if_neg h2]
        · simp only [hkeys, he, if_false, Ne.symm he, false_or]
    · rw [not_or] at hs
      obtain ⟨hfree, hname, ho, hsz, hte, hr⟩ := h n t (by simp) hs.1 hs.2
      obtain ⟨f1, e1, c1, a1, x1, l1, s1, k1⟩ := addContainer_ok (a := false) hte hname hfree hr hf
      simp only [Bool.false_eq_true, if_false] at a1
      obtain ⟨f2, e2, c2, a2, x2, l2, s2⟩ := ih f1 hn.2 k1 (fun m u hm => by
        rw [a1, x1]
        intro h1 h2
        obtain ⟨g1, g2⟩ := h m u (List.mem_cons_of_mem _ hm) h1 h2
        refine ⟨?_, g2⟩
        have hne : n ≠ m := by rintro rfl; exact hn.1 (List.mem_map_of_mem hm)
        rw [c1 m, if_neg hne]; exact g1)
      have hskip : (f.args.contains n || f.exts.contains n) = false := by simpa using hs
      have hnr : n ∉ AList.keys r := hn.1
      refine ⟨f2, ?_, fun k => ?_, by rw [a2, a1], by rw [x2, x1], by rw [l2, l1], fun k => ?_⟩
      · simp only [List.map_cons, rdTrans, hskip]
        simp [rdTy_tyJ t ho fu hsz, e1, e2]
      · rw [c2 k, c1 k, a1, x1, AList.get_cons]
        by_cases he : n = k
        · subst he; simp [hnr, hs, hkeys]
        · simp only [hkeys, he, if_false, Ne.symm he, false_or]
      · rw [s2 k, s1 k, a1, x1, AList.get_cons]
        by_cases he : n = k
        · subst he; simp [hnr, hs, hkeys, symA]
        · simp only [hkeys, he, if_false, Ne.symm he, false_or]

theorem rdExts_ok {cd : Codec} (g : Fn) (fu : Nat) (ns : List String) (js : List J) (f : Fn) (hn : ns.Nodup) (hf : AClean f)
    (hj : J.mapO (extJ g) ns = some js)
    (h : ∀ n ∈ ns, f.conts.get n = none ∧ checkName n = true ∧ ∃ t, g.conts.get n = some t ∧ cd.OkT t ∧ (tyJ cd t).size ≤ fu) :
    ∃ f', rdExts cd fu (.obj (g.conts.map fun p => (p.1, tyJ cd p.2))) f js = some f' ∧
      (∀ k, f'.conts.get k = if k ∈ ns then g.conts.get k else f.conts.get k) ∧ f'.args = f.args ∧ f'.exts = f.exts ++ ns ∧
      (∀ k, f'.link.get k = if k ∈ ns then g.link.get k else f.link.get k) ∧ f'.assum = f.assum ∧ AClean f' := by
  induction ns generalizing f js with
  | nil =>
    simp only [J.mapO, Option.some.injEq] at hj
    subst hj
    exact ⟨f, rfl, by simp, rfl, by simp, by simp, rfl, hf⟩
  | cons n r ih =>
    rw [List.nodup_cons] at hn
    obtain ⟨hfree, hname, t, ht, ho, hsz⟩ := h n (by simp)
    cases hl : g.link.get n with
    | none => simp [J.mapO, extJ, hl] at hj
    | some l =>
      cases hr : J.mapO (extJ g) r with
      | none => simp [J.mapO, extJ, hl, hr] at hj
      | some js' =>
        simp only [J.mapO, extJ, hl, hr, Option.map_some, Option.some.injEq] at hj
        subst hj
        let f1 : Fn := { f with conts := f.conts.set n t.clone, exts := f.exts ++ [n], link := f.link.set n l }
        have e1 : Out.get? (addExternal f n t l) = some f1 := by simp [addExternal, hname, hfree, Out.get?, f1]
        have c1 : ∀ k, f1.conts.get k = if n = k then some t else f.conts.get k := by
          intro k; simp only [f1, AList.get_set, clone_eq]
        have hget : (J.obj (g.conts.map fun p => (p.1, tyJ cd p.2))).get n = some (tyJ cd t) := by
          rw [J.get, find_map, ht]; rfl
        have hlk : rdLink (linkJ l) = some l := by cases l <;> rfl
        obtain ⟨f2, e2, c2, a2, x2, l2, s2, k2⟩ := ih js' f1 hn.2 (fun k hk hnone => by
            rw [c1 k] at hnone
            split at hnone
            · cases hnone
            · exact hf k hk hnone) hr (fun m hm => by
          obtain ⟨g1, g2⟩ := h m (List.mem_cons_of_mem _ hm)
          refine ⟨?_, g2⟩
          have hne : n ≠ m := by rintro rfl; exact hn.1 hm
          rw [c1 m, if_neg hne]; exact g1)
        refine ⟨f2, ?_, fun k => ?_, by rw [a2], by simp [x2, f1], fun k => ?_, by rw [s2], k2⟩
        · simp only [rdExts, J.getS, J.get, J.find, J.asS]
          simp only [J.get] at hget
          simp [hget, rdTy_tyJ t ho fu hsz, hlk, e1, e2, J.asS]
        · rw [c2 k, c1 k]
          by_cases hk : k ∈ r
          · simp [hk]
          · by_cases he : n = k
            · subst he; simp [hk, ht]
            · simp [hk, he, Ne.symm he]
        · rw [l2 k]
          by_cases hk : k ∈ r
          · simp [hk]
          · by_cases he : n = k
            · subst he; simp [hk, hl, f1]
            · simp [hk, he, Ne.symm he, f1, AList.get_set]

/-- the parts of a document -/
theorem deserialize_of {cd : Codec} {j t0 cs rt md : J} {ret : Ty} {ty name : String} {counter : Nat} {sj ej aj : List J}
    {co mo : List (String × J)} {structs : AList String StructDef} {f1 f2 f3 : Fn} {root : Meta × Els} {mt : AList String String}
    (h1 : j.get "return_type" = some t0) (h1' : rdTy cd j.size t0 = some ret)
    (h2 : j.get "type" = some (.str ty)) (h3 : j.get "name" = some (.str name)) (h4 : j.get "element_counter" = some (.num counter))
    (h5 : j.get "structures" = some (.arr sj)) (h5' : rdStructs cd j.size [] sj = some structs)
    (h6 : j.get "containers" = some cs) (h6' : cs = .obj co)
    (h7 : j.get "externals" = some (.arr ej)) (h7' : rdExts cd j.size cs (Fn.new (ty == "NV_GLOBAL")) ej = some f1)
    (h8 : j.get "arguments" = some (.arr aj)) (h8' : rdArgs cd j.size cs f1 aj = some f2)
    (h9 : rdTrans cd j.size f2 co = some f3)
    (h10 : j.get "root" = some rt) (h10' : rdSeq (rdEl cd j.size) cd rt = some root)
    (h11 : j.get "metadata" = some md) (h11' : md = .obj mo) (h12 : rdMetadata [] mo = some mt) :
    deserialize cd j = some ⟨name, counter, ty, ret.clone, structs, f3, mt, root.1, root.2⟩ := by
  subst h6' h11'
  simp [deserialize, J.getS, J.getN, J.getA, h1, h1', h2, h3, h4, h5, h5', h6, h7, h7', h8, h8', h9, h10, h10', h11, h12,
    J.asS, J.asN, J.asA, J.asO]

/-- A document with a good signature is read back as far as its body is. -/
theorem roundtrip_core (cd : Codec) (s : Sdfg) (h : SigOk cd s) (hw : s.root.writable = true) (root' : Els)
    (hroot : ∀ F, J.sizeL (kidsJ cd s.root) ≤ F → rdKids (rdEl cd F) cd (kidsJ cd s.root) (trsJ cd s.root) = some root') :
    ∃ j s', serialize cd s = some j ∧ deserialize cd j = some s' ∧ Same { s with root := root' } s' ∧
      ∀ n, s'.fn.assum.get n = freshAssum s n := by
  obtain ⟨exts, he⟩ := mapO_some (extJ s.fn) s.fn.exts (fun n hn => by simp [extJ, (h.exts n hn).2])
  let j : J := .obj
    [("name", .str s.name), ("element_counter", .num s.counter), ("type", .str s.ftype), ("return_type", tyJ cd s.ret),
     ("structures", .arr (s.structs.map (structJ cd))),
     ("containers", .obj (s.fn.conts.map fun p => (p.1, tyJ cd p.2))),
     ("arguments", ssJ s.fn.args),
     ("externals", .arr exts),
     ("metadata", .obj (s.metadata.map fun p => (p.1, J.str p.2))),
     ("root", .obj (("type", .str "sequence") :: metaF s.rootM ++
        [("children", .arr (kidsJ cd s.root)), ("transitions", .arr (trsJ cd s.root))]))]
  have hser : serialize cd s = some j := by simp only [serialize, hw, he]; rfl
  have hsize : j.size = 1 + (1 + (1 + (1 + ((tyJ cd s.ret).size + (1 + J.sizeL (s.structs.map (structJ cd)) +
      (1 + J.sizeF (s.fn.conts.map fun p => (p.1, tyJ cd p.2)) + ((ssJ s.fn.args).size + (1 + J.sizeL exts +
      (1 + J.sizeF (s.metadata.map fun p => (p.1, J.str p.2)) + (1 + (1 + (1 + ((dbgJ s.rootM.dbg).size +
      (1 + J.sizeL (kidsJ cd s.root) + (1 + J.sizeL (trsJ cd s.root) + 0))))) + 0)))))))))) := rfl
  have htsz : ∀ n t, s.fn.conts.get n = some t → (tyJ cd t).size ≤ j.size := by
    intro n t ht
    have := J.size_find (l := s.fn.conts.map fun p => (p.1, tyJ cd p.2)) (k := n) (v := tyJ cd t) (by rw [find_map, ht]; rfl)
    rw [hsize]; omega
  have r1 := rdTy_tyJ s.ret h.ret j.size (by rw [hsize]; omega)
  obtain ⟨structs, r2, q2⟩ := rdStructs_ok s.structs [] j.size (by rw [hsize]; omega) h.structs h.structsNodup (fun _ _ => rfl)
  obtain ⟨f1, r3, c1, a1, x1, l1, s1, k1⟩ := rdExts_ok (cd := cd) s.fn j.size s.fn.exts exts (Fn.new (s.ftype == "NV_GLOBAL"))
    h.extsNodup (aclean_new _) he (fun n hn => by
      obtain ⟨t, ht⟩ := Option.isSome_iff_exists.1 (h.exts n hn).1
      exact ⟨rfl, h.names n t ht, t, ht, h.types n t ht, htsz n t ht⟩)
  obtain ⟨f2, r4, c2, a2, x2, l2, s2, k2⟩ := rdArgs_ok (cd := cd) s.fn.conts j.size s.fn.args f1 h.argsNodup k1 (fun n hn => by
      obtain ⟨t, ht⟩ := Option.isSome_iff_exists.1 (h.args n hn).1
      refine ⟨?_, h.names n t ht, t, ht, h.types n t ht, htsz n t ht, h.noTensor n t ht (h.args n hn).2,
        h.noReserved n t ht (h.args n hn).2⟩
      rw [c1 n, if_neg (h.args n hn).2]; rfl)
  have ha2 : f2.args = s.fn.args := by rw [a2, a1]; rfl
  have hx2 : f2.exts = s.fn.exts := by rw [x2, x1]; rfl
  obtain ⟨f3, r5, c3, a3, x3, l3, s3⟩ := rdTrans_ok (cd := cd) s.fn.conts j.size f2 h.contsNodup k2 (fun n t hm => by
      rw [ha2, hx2]
      intro g1 g2
      have ht := AList.get_of_mem h.contsNodup hm
      refine ⟨?_, h.names n t ht, h.types n t ht, htsz n t ht, h.noTensor n t ht g2, h.noReserved n t ht g2⟩
      rw [c2 n, if_neg g1, c1 n, if_neg g2]; rfl)
  rw [ha2, hx2] at c3 s3
  have r6 := rdSeq_of' h.rootM (hroot j.size (by rw [hsize]; omega))
  obtain ⟨md, r7, q7⟩ := rdMetadata_ok s.metadata [] h.metaNodup
  refine ⟨j, _, hser, deserialize_of (by rfl) r1 (by rfl) (by rfl) (by rfl) (by rfl) r2 (by rfl) rfl (by rfl) r3 (by rfl) r4 r5
    (by rfl) r6 (by rfl) rfl r7, ?_, ?_⟩
  · refine ⟨rfl, rfl, rfl, clone_eq _, fun n => by rw [q2 n]; simp, fun n => ?_, by rw [a3, ha2], by rw [x3, hx2], fun n => ?_,
      fun n => by rw [q7 n]; simp, rfl, rfl⟩
    · rw [c3 n, c2 n, c1 n]
      by_cases g1 : n ∈ s.fn.args
      · simp [g1]
      · by_cases g2 : n ∈ s.fn.exts
        · simp [g1, g2]
        · by_cases g3 : n ∈ s.fn.conts.keys
          · simp [g1, g2, g3]
          · simp [g1, g2, g3, AList.get_none_iff.2 g3, Fn.new]
    · rw [l3, l2, l1 n]
      by_cases g2 : n ∈ s.fn.exts
      · simp [g2]
      · simp only [g2, if_false]
        cases hl : s.fn.link.get n with
        | none => rfl
        | some l => exact absurd (h.links n (by simp [hl])) g2
  · intro n
    rw [s3 n, s2 n, s1]
    simp only [freshAssum]
    by_cases g1 : n ∈ s.fn.args
    · obtain ⟨t, ht⟩ := Option.isSome_iff_exists.1 (h.args n g1).1
      simp [g1, ht, (h.args n g1).2, symA]
    · cases ht : s.fn.conts.get n with
      | none => simp [g1, AList.get_none_iff.1 ht]
      | some t =>
        have g3 : n ∈ s.fn.conts.keys := by
          by_cases hk : n ∈ s.fn.conts.keys
          · exact hk
          · rw [AList.get_none_iff.2 hk] at ht; cases ht
        by_cases g2 : n ∈ s.fn.exts
        · simp only [g1, g2, not_true, and_false, if_false, if_true]
          exact aclean_new _ n (h.names n t ht) rfl
        · simp [g1, g2, g3, symA]

/-- C40 (missing from the full property: the documents that are not `Loadable`, and the assumptions of the function; see the
violations in SerProps.lean): a loadable SDFG can be written, its document can be read, and the result agrees with it in every
member; its assumptions are those of a freshly built function. -/
theorem json_roundtrip_partial (cd : Codec) (s : Sdfg) (h : Loadable cd s) :
    ∃ j s', serialize cd s = some j ∧ deserialize cd j = some s' ∧ Same s s' ∧ ∀ n, s'.fn.assum.get n = freshAssum s n :=
  roundtrip_core cd s h.toSigOk (Els.writable_of_ok s.root h.root) s.root fun F hF => rdKids_els s.root h.root F hF

end Docc.Ser

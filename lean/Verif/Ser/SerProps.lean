import Verif.Ser.SdfgProps

/-! C40: a program that meets the hypotheses of the round trip, and the members that do not survive. -/
namespace Docc.Ser
open Docc.Sym Docc.Types Docc.Builder Docc.Opt

/-! ### a program that can be read back -/

/-- a codec that knows a few expressions -/
def exTable : List (String × Expr) :=
  [("0", .int 0), ("1", .int 1), ("i", .sym "i"), ("N", .sym "N"), ("1 + i", .add [.int 1, .sym "i"]), ("true", .sym "true")]

/-- a codec that knows a few expressions and one condition -/
def exCd : Codec where
  printE e := ((exTable.find? fun p => p.2 == e).map (·.1)).getD "?"
  engE s := (exTable.find? fun p => p.1 == s).map (·.2)
  printC _ := "i < N"
  engC s := if s = "i < N" then some (.lt (.sym "i") (.sym "N")) else none

def exMeta (i : Nat) : Meta := ⟨i, noDbg⟩
def exI64 : Ty := .scalar {} .int64
def exPtr : Ty := .ptr {} (.scalar {} .double)

/-- `map (i = 0; i < N; i = 1 + i) { A[i] = fabs(A[i]); }; return` with an external `g` -/
def exSdfg : Sdfg where
  name := "f"
  counter := 12
  ftype := "CPU"
  ret := .scalar {} .void
  structs := [("pair", ⟨false, [exI64, exPtr]⟩)]
  fn := { conts := [("i", exI64), ("N", exI64), ("A", exPtr), ("g", exPtr)], args := ["A", "N"], exts := ["g"],
          link := [("g", .internal)] }
  metadata := [("key", "value")]
  rootM := exMeta 0
  root := .cons (.loop (exMeta 1) (some ⟨"CPU_PARALLEL", .parallelizer, [("threads", "4")]⟩) "i" (.int 0) (.lt (.sym "i") (.sym "N"))
      (.add [.int 1, .sym "i"]) (exMeta 2)
      (.cons (.block (exMeta 3) ⟨[⟨exMeta 4, .access "A"⟩, ⟨⟨5, ⟨"f.c", "f", 3, 1, 3, 9, true⟩⟩, .lib "NONE" (.cmath "fabs" .double)⟩,
          ⟨exMeta 6, .access "A"⟩],
        [⟨exMeta 7, 0, 1, "void", "_in1", [.sym "i"], exPtr⟩, ⟨exMeta 8, 1, 2, "_out", "void", [.sym "i"], exPtr⟩]⟩)
        ⟨exMeta 9, []⟩ .nil))
    ⟨exMeta 10, [("i", .int 0)]⟩
    (.cons (.ret (exMeta 11) "" none) ⟨exMeta 12, []⟩ .nil)

theorem exE : ∀ e ∈ [Expr.int 0, .sym "i", .add [.int 1, .sym "i"]], exCd.OkE e := by
  intro e he
  simp only [List.mem_cons, List.not_mem_nil, or_false] at he
  rcases he with rfl | rfl | rfl <;> refine ⟨by decide, by decide, by decide⟩

theorem exMetaOk (i : Nat) : MetaOk (exMeta i) := fun _ => rfl

theorem exTy (cd : Codec) : cd.OkT exI64 ∧ cd.OkT exPtr ∧ cd.OkT (.scalar {} .void) := by
  refine ⟨?_, ?_, ?_⟩ <;> simp [exI64, exPtr, Codec.OkT, Codec.OkA, Codec.OkS]

theorem exSdfg_loadable : Loadable exCd exSdfg := by
  have ht := exTy exCd
  have hget : ∀ n t, exSdfg.fn.conts.get n = some t → (n, t) ∈ [("i", exI64), ("N", exI64), ("A", exPtr), ("g", exPtr)] :=
    fun n t h => AList.mem_of_get h
  have hcases : ∀ (P : String → Ty → Prop), P "i" exI64 → P "N" exI64 → P "A" exPtr → P "g" exPtr →
      ∀ n t, exSdfg.fn.conts.get n = some t → P n t := by
    intro P h1 h2 h3 h4 n t h
    have := hget n t h
    simp only [List.mem_cons, Prod.mk.injEq, List.not_mem_nil, or_false] at this
    rcases this with ⟨rfl, rfl⟩ | ⟨rfl, rfl⟩ | ⟨rfl, rfl⟩ | ⟨rfl, rfl⟩ <;> assumption
  refine { ret := ht.2.2, structsNodup := by decide, structs := ?_, contsNodup := by decide, types := ?_, names := ?_, noTensor := ?_,
           noReserved := ?_, argsNodup := by decide, extsNodup := by decide, args := ?_, exts := ?_, links := ?_,
           metaNodup := by decide, rootM := exMetaOk 0, root := ?_ }
  · intro n d h
    simp only [exSdfg, List.mem_cons, Prod.mk.injEq, List.not_mem_nil, or_false] at h
    obtain ⟨rfl, rfl⟩ := h
    intro t h
    simp only [List.mem_cons, List.not_mem_nil, or_false] at h
    rcases h with rfl | rfl
    · exact ht.1
    · exact ht.2.1
  · exact hcases _ ht.1 ht.1 ht.2.1 ht.2.1
  · exact hcases _ (by decide) (by decide) (by decide) (by decide)
  · exact hcases _ (fun _ => rfl) (fun _ => rfl) (fun _ => rfl) (fun _ => rfl)
  · exact hcases _ (fun _ _ => by decide) (fun _ _ => by decide) (fun _ _ => by decide) (fun _ _ => by decide)
  · decide
  · decide
  · intro n h
    simp only [exSdfg, AList.get] at h
    split at h
    · simp [exSdfg, *]
    · cases h
  · have hC : exCd.OkC (.lt (.sym "i") (.sym "N")) := ⟨rfl, by decide, by decide⟩
    simp only [exSdfg, Els.Ok, El.Ok, and_true]
    refine ⟨⟨exMetaOk _, ?_, by decide, exE _ (by simp), hC, exE _ (by simp), exMetaOk _, ⟨exMetaOk _, ?_, by decide, ?_⟩, exMetaOk _,
      by decide, by simp⟩, ⟨exMetaOk _, by decide, ?_⟩, ⟨exMetaOk _, by simp⟩, exMetaOk _, by decide, by simp⟩
    · intro s h
      simp only [Option.some.injEq] at h
      subst h
      show List.Nodup _
      decide
    · intro n h
      simp only [List.mem_cons, List.not_mem_nil, or_false] at h
      rcases h with rfl | rfl | rfl
      · exact ⟨exMetaOk _, trivial⟩
      · exact ⟨(fun h => by cases h), ⟨by decide, by decide⟩, fun h => by revert h; decide⟩
      · exact ⟨exMetaOk _, trivial⟩
    · intro e h
      simp only [List.mem_cons, List.not_mem_nil, or_false] at h
      rcases h with rfl | rfl <;> refine ⟨exMetaOk _, by decide, by decide, ?_, ht.2.1⟩ <;> intro x hx <;> exact exE x (by simp_all)
    · intro p h
      simp only [List.mem_cons, List.not_mem_nil, or_false] at h
      subst h
      exact ⟨exE _ (by simp), by decide⟩

/-- the hypotheses of the round trip are met by a program with a parallel map, a library node, an external and a structure -/
example : ∃ j s', serialize exCd exSdfg = some j ∧ deserialize exCd j = some s' ∧ Same exSdfg s' :=
  let ⟨j, s', h1, h2, h3, _⟩ := json_roundtrip_partial exCd exSdfg exSdfg_loadable
  ⟨j, s', h1, h2, h3⟩

/-! ### what does not survive -/

/-- a function without containers -/
def bare (root : Els) : Sdfg :=
  { name := "f", counter := 9, ftype := "CPU", ret := .scalar {} .void, structs := [], fn := {}, metadata := [], rootM := exMeta 0,
    root := root }

theorem bare_sig (cd : Codec) (root : Els) : SigOk cd (bare root) :=
  { ret := (exTy cd).2.2, structsNodup := .nil, structs := by simp [bare], contsNodup := .nil, types := by simp [bare],
    names := by simp [bare], noTensor := by simp [bare], noReserved := by simp [bare], argsNodup := .nil, extsNodup := .nil,
    args := by simp [bare], exts := by simp [bare], links := by simp [bare], metaNodup := .nil, rootM := exMetaOk 0 }

/-- a body of one element -/
def oneEl (e : El) (a : List (String × Expr)) : Els := .cons e ⟨exMeta 8, a⟩ .nil

/-- a block with one library node -/
def libBlock (m : Meta) (l : Lib) : El := .block (exMeta 1) ⟨[⟨m, .lib "NONE" l⟩], []⟩

theorem rdEl_libBlock {cd : Codec} {m : Meta} {l : Lib} {n' : DNode} (h : ∀ f, (l.toJ cd).size ≤ f → rdNode cd f (nodeJ cd ⟨m, .lib "NONE" l⟩) = some n')
    (F : Nat) (hF : (elJ cd (libBlock m l)).size ≤ F) : rdEl cd F (elJ cd (libBlock m l)) = some (.block (exMeta 1) ⟨[n'], []⟩) := by
  cases F with
  | zero => simp [libBlock, elJ, J.size] at hF
  | succ f =>
    have hs : ∀ a b : List (String × J), J.sizeF (a ++ b) = J.sizeF a + J.sizeF b := by
      intro a b
      induction a with
      | nil => simp [J.sizeF]
      | cons p r ih => obtain ⟨x, y⟩ := p; simp only [List.cons_append, J.sizeF, ih]; omega
    have hn := h f (by
      simp only [libBlock, elJ, graphJ, List.map_cons, List.map_nil, J.size, J.sizeF, J.sizeL, List.cons_append, nodeJ, J.patch,
        Lib.toJ, hs] at hF
      simp only [Lib.toJ, J.size, J.sizeF]
      omega)
    have h1 := rdMeta_of (j := elJ cd (libBlock m l)) (m := exMeta 1) (by simp [libBlock, elJ, metaF, J.get, J.find])
      (by simp [libBlock, elJ, metaF, J.get, J.find]) (exMetaOk 1)
    rw [rdEl, h1]
    simp [libBlock, elJ, metaF, graphJ, rdGraph, J.getS, J.getA, J.get, J.find, J.asS, J.asA, J.mapO, hn]

/-- reading a body of one element -/
theorem rdOne {cd : Codec} {e e' : El} {a a' : List (String × Expr)} {F : Nat} (he : rdEl cd F (elJ cd e) = some e')
    (ha : rdTr cd (trJ cd ⟨exMeta 8, a⟩) = some ⟨exMeta 8, a'⟩) :
    rdKids (rdEl cd F) cd (kidsJ cd (oneEl e a)) (trsJ cd (oneEl e a)) = some (oneEl e' a') := by
  simp [oneEl, kidsJ, trsJ, rdKids, he, ha]

theorem rdTr_nil (cd : Codec) : rdTr cd (trJ cd ⟨exMeta 8, []⟩) = some ⟨exMeta 8, []⟩ :=
  rdTr_trJ _ ⟨exMetaOk 8, .nil, by simp⟩

/-- the outcome of a function whose body is one library node -/
theorem lib_roundtrip (cd : Codec) {m : Meta} {l : Lib} {n' : DNode} (hw : l.writable = true)
    (h : ∀ f, (l.toJ cd).size ≤ f → rdNode cd f (nodeJ cd ⟨m, .lib "NONE" l⟩) = some n') :
    ∃ j s', serialize cd (bare (oneEl (libBlock m l) [])) = some j ∧ deserialize cd j = some s' ∧
      Same (bare (oneEl (.block (exMeta 1) ⟨[n'], []⟩) [])) s' := by
  obtain ⟨j, s', h1, h2, h3, _⟩ := roundtrip_core cd (bare (oneEl (libBlock m l) [])) (bare_sig cd _)
    (by simp [bare, oneEl, libBlock, Els.writable, El.writable, hw]) (oneEl (.block (exMeta 1) ⟨[n'], []⟩) [])
    (fun F hF => rdOne (rdEl_libBlock h F (by
      simp only [bare, oneEl, kidsJ, J.sizeL] at hF; omega)) (rdTr_nil cd))
  exact ⟨j, s', h1, h2, h3⟩

/-- reading a library node whose members and debug range are read as given -/
theorem rdNode_lib {cd : Codec} {f : Nat} {m : Meta} {l l' : Lib} {d : DebugInfo}
    (hlib : rdLib cd f ((J.obj (metaF m ++ [("type", .str "library_node"), ("implementation_type", .str "NONE")])).patch (l.toJ cd)) = some l')
    (hdbg : rdLibDbg l' ((J.obj (metaF m ++ [("type", .str "library_node"), ("implementation_type", .str "NONE")])).patch (l.toJ cd))
      = some d) :
    rdNode cd f (nodeJ cd ⟨m, .lib "NONE" l⟩) = some ⟨⟨m.id, d⟩, .lib "NONE" l'⟩ := by
  have hd := fields_disjoint cd l
  have g1 := hd "element_id" (by simp)
  have g3 := hd "type" (by simp)
  have g4 := hd "implementation_type" (by simp)
  have key : ∀ base k, J.find (("code", J.str l.code) :: l.fields cd) k = none →
      ((J.obj base).patch (l.toJ cd)).get k = J.find base k := by
    intro base k hk
    simp only [J.patch, Lib.toJ, J.get, J.find_append, hk]
  have e1 := key (metaF m ++ [("type", .str "library_node"), ("implementation_type", .str "NONE")]) _ g1
  have e3 := key (metaF m ++ [("type", .str "library_node"), ("implementation_type", .str "NONE")]) _ g3
  have e4 := key (metaF m ++ [("type", .str "library_node"), ("implementation_type", .str "NONE")]) _ g4
  have e1' : J.find (metaF m ++ [("type", .str "library_node"), ("implementation_type", .str "NONE")]) "element_id"
      = some (.num m.id) := by simp [metaF, J.find]
  have e3' : J.find (metaF m ++ [("type", .str "library_node"), ("implementation_type", .str "NONE")]) "type"
      = some (.str "library_node") := by simp [metaF, J.find]
  have e4' : J.find (metaF m ++ [("type", .str "library_node"), ("implementation_type", .str "NONE")]) "implementation_type"
      = some (.str "NONE") := by simp [metaF, J.find]
  rw [e1'] at e1
  rw [e3'] at e3
  rw [e4'] at e4
  clear e1' e3' e4' key g1 g3 g4 hd
  show rdNode cd f ((J.obj (metaF m ++ [("type", .str "library_node"), ("implementation_type", .str "NONE")])).patch (l.toJ cd)) = _
  generalize (J.obj (metaF m ++ [("type", .str "library_node"), ("implementation_type", .str "NONE")])).patch (l.toJ cd) = j at *
  have f1 : j.getN "element_id" = some m.id := by rw [J.getN, e1]; rfl
  have f3 : j.getS "type" = some "library_node" := by rw [J.getS, e3]; rfl
  have f4 : j.getS "implementation_type" = some "NONE" := by rw [J.getS, e4]; rfl
  unfold rdNode
  rw [f3, Option.bind_eq_bind, Option.bind_some, if_neg (by decide), if_pos rfl, hlib, Option.bind_eq_bind, Option.bind_some, hdbg,
    Option.bind_eq_bind, Option.bind_some, f4, Option.bind_eq_bind, Option.bind_some, f1]
  rfl

/-- C40 violated: the debug range of a barrier is lost, for every text codec. -/
theorem barrier_debug_violated (cd : Codec) : ∃ s j s', serialize cd s = some j ∧ deserialize cd j = some s' ∧ ¬ Same s s' := by
  obtain ⟨j, s', h1, h2, h3⟩ := lib_roundtrip cd (m := ⟨2, ⟨"f.c", "f", 3, 1, 3, 9, true⟩⟩) (l := .barrier) (n' := ⟨⟨2, noDbg⟩, .lib "NONE" .barrier⟩)
    (by decide) (fun f hf => rdNode_lib (rdLib_toJ .barrier trivial _ f hf) rfl)
  refine ⟨_, j, s', h1, h2, fun h => ?_⟩
  have := h3.root.symm.trans h.root
  simp [bare, oneEl, libBlock, noDbg] at this

/-- An invoke node gets another `_unwind` output. -/
theorem invoke_grows (cd : Codec) (c : String) (outs ins : List String) (m : Meta) (hm : MetaOk m) :
    ∃ j s', serialize cd (bare (oneEl (libBlock m (.invoke c outs ins)) [])) = some j ∧ deserialize cd j = some s' ∧
      Same (bare (oneEl (libBlock m (.invoke c (outs ++ ["_unwind"]) ins)) [])) s' := by
  have hw : (Lib.invoke c outs ins).writable = true := by
    show registered "Invoke" = true
    decide
  refine lib_roundtrip cd (n' := ⟨m, .lib "NONE" (.invoke c (outs ++ ["_unwind"]) ins)⟩) hw fun f _ => rdNode_lib ?_ ?_
  · simp [rdLib, Lib.toJ, Lib.fields, Lib.code, J.patch, J.getS, J.getSs, J.getA, J.get, J.find, J.asS, J.asA, ssJ, mkInvoke]
  · simp [rdLibDbg, Lib.toJ, Lib.fields, Lib.code, metaF, J.patch, J.get, J.find, rdDbg_dbgJ hm]

/-- C40 violated: every round trip adds an output to an invoke node, for every text codec. -/
theorem invoke_violated (cd : Codec) : ∃ s j s', serialize cd s = some j ∧ deserialize cd j = some s' ∧ ¬ Same s s' := by
  obtain ⟨j, s', h1, h2, h3⟩ := invoke_grows cd "g" ["_out", "_unwind"] [] (exMeta 2) (exMetaOk 2)
  refine ⟨_, j, s', h1, h2, fun h => ?_⟩
  have := h3.root.symm.trans h.root
  simp [bare, oneEl, libBlock] at this

/-- C40 violated: a function with a cast node cannot be written. -/
theorem cast_violated (cd : Codec) (shape : List Expr) (p : Prim) (m : Meta) :
    serialize cd (bare (oneEl (libBlock m (.cast shape p)) [])) = none := by
  have : (Lib.cast shape p).writable = false := by
    show registered "ml::Cast" = false
    decide
  simp [serialize, bare, oneEl, libBlock, Els.writable, El.writable, this]

/-- C40 violated: a symbol called `true` is read back as the number one, even if the engine reads its text faithfully. -/
theorem true_symbol_violated (cd : Codec) (h : cd.engE (cd.printE (.sym "true")) = some (.sym "true")) :
    ∃ s j s', serialize cd s = some j ∧ deserialize cd j = some s' ∧ ¬ Same s s' := by
  have hp : cd.parseE (cd.printE (.sym "true")) = some (.int 1) := by
    simp [Codec.parseE, h, Expr.subs]
  have ha : rdTr cd (trJ cd ⟨exMeta 8, [("x", .sym "true")]⟩) = some ⟨exMeta 8, [("x", .int 1)]⟩ := by
    have h1 := rdMeta_of (j := trJ cd ⟨exMeta 8, [("x", .sym "true")]⟩) (m := exMeta 8) (by simp [trJ, metaF, J.get, J.find])
      (by simp [trJ, metaF, J.get, J.find]) (exMetaOk 8)
    simp only [rdTr, h1]
    simp [trJ, metaF, J.getA, J.get, J.find, J.asA, rdAsg, Codec.getE, Codec.rdE, Codec.eJ, J.asS, hp, rdSym, reserved]
  obtain ⟨j, s', h1, h2, h3, _⟩ := roundtrip_core cd (bare (oneEl (.brk (exMeta 1)) [("x", .sym "true")])) (bare_sig cd _) (by rfl)
    (oneEl (.brk (exMeta 1)) [("x", .int 1)])
    (fun F hF => rdOne (rdEl_elJ _ (by rw [El.Ok]; exact exMetaOk 1) F (by
      simp only [bare, oneEl, kidsJ, J.sizeL] at hF; omega)) ha)
  refine ⟨_, j, s', h1, h2, fun h => ?_⟩
  have := h3.root.symm.trans h.root
  simp [bare, oneEl] at this

/-- the codec of the example reads the text of the symbol `true` faithfully -/
example : exCd.engE (exCd.printE (.sym "true")) = some (.sym "true") := by decide

/-- The attributes of a reference type are not written: it is read back with default attributes. -/
theorem rdTy_reference {cd : Codec} (a : Attr) (t : Ty) (h : cd.OkT t) (f : Nat) (hf : (tyJ cd (.reference a t)).size ≤ f) :
    rdTy cd f (tyJ cd (.reference a t)) = some (.reference {} t) := by
  have : tyJ cd (.reference a t) = tyJ cd (.reference {} t) := by simp [tyJ]
  rw [this] at hf ⊢
  exact rdTy_tyJ _ (by rw [Codec.OkT]; exact ⟨rfl, h⟩) f hf

/-- C40 violated: the attributes of a reference type are lost, for every text codec. -/
theorem reference_violated (cd : Codec) : ∃ s j s', serialize cd s = some j ∧ deserialize cd j = some s' ∧ ¬ Same s s' := by
  obtain ⟨j, s', h1, h2, h3, _⟩ := roundtrip_core cd
    (bare (oneEl (.ret (exMeta 1) "x" (some (.reference { alignment := 8 } exI64))) [])) (bare_sig cd _) (by rfl)
    (oneEl (.ret (exMeta 1) "x" (some (.reference {} exI64))) []) (fun F hF => rdOne (by
      simp only [bare, oneEl, kidsJ, J.sizeL] at hF
      cases F with
      | zero => simp [elJ, J.size] at hF
      | succ f =>
        have h1 := rdMeta_of (j := elJ cd (.ret (exMeta 1) "x" (some (.reference { alignment := 8 } exI64)))) (m := exMeta 1)
          (by simp [elJ, metaF, J.get, J.find]) (by simp [elJ, metaF, J.get, J.find]) (exMetaOk 1)
        have h2 := rdTy_reference (cd := cd) { alignment := 8 } exI64 (exTy cd).1 f (by
          simp [elJ, metaF, J.size, J.sizeF] at hF; omega)
        simp only [rdEl, h1]
        simp [elJ, metaF, J.getS, J.get, J.find, J.asS, h2]) (rdTr_nil cd))
  refine ⟨_, j, s', h1, h2, fun h => ?_⟩
  have := h3.root.symm.trans h.root
  simp [bare, oneEl] at this

/-- A document whose transients cannot be added is not read. -/
theorem deserialize_none {cd : Codec} {j : J} {co : List (String × J)} (he : j.get "externals" = some (.arr []))
    (ha : j.get "arguments" = some (.arr [])) (hc : j.get "containers" = some (.obj co))
    (hT : ∀ f : Fn, f.args = [] → f.exts = [] → rdTrans cd j.size f co = none) : deserialize cd j = none := by
  cases h : deserialize cd j with
  | none => rfl
  | some s =>
    exfalso
    have h0 : ∀ k, rdTrans cd j.size (Fn.new k) co = none := fun k => hT _ rfl rfl
    simp only [deserialize, J.getA, he, ha, hc, J.asA, J.asO, Option.bind_some, Option.bind_eq_bind, rdExts, rdArgs, h0,
      Option.bind_none, Option.bind_eq_some_iff] at h
    obtain ⟨_, _, _, _, _, _, _, _, _, _, h⟩ := h
    simp at h

/-- A transient whose `add_container` throws makes the document unreadable. -/
theorem unreadable (cd : Codec) (fn : Fn) (n : String) (t : Ty) (h1 : fn.conts = [(n, t)]) (h2 : fn.args = []) (h3 : fn.exts = [])
    (ht : cd.OkT t) (h : ∀ f : Fn, (addContainer f n t false false).ok = false) :
    ∃ j, serialize cd { bare .nil with fn := fn } = some j ∧ deserialize cd j = none := by
  have hT : ∀ F, (tyJ cd t).size ≤ F → ∀ f : Fn, f.args = [] → f.exts = [] → rdTrans cd F f [(n, tyJ cd t)] = none := by
    intro F hF f h1 h2
    simp only [rdTrans, h1, h2]
    simp [rdTy_tyJ t ht F hF, Out.get?, h f]
  simp only [serialize, h1, h2, h3, J.mapO, bare, Els.writable]
  refine ⟨_, rfl, deserialize_none (co := [(n, tyJ cd t)]) (by rfl) (by rfl) (by rfl) fun f g1 g2 => hT _ ?_ f g1 g2⟩
  simp only [List.map_cons, List.map_nil, J.size, J.sizeF]
  omega

/-- C40 violated: a container that `change_type` made a tensor can be written but not read. -/
theorem tensor_violated (cd : Codec) (h0 : cd.OkE (.int 0)) : ∃ ops s, s.fn = runOps (Fn.new false) ops ∧
    ∃ j, serialize cd s = some j ∧ deserialize cd j = none :=
  ⟨[.add "x" exI64 false false, .change "x" (.tensor {} {} ⟨.double, [], [], .int 0⟩)], { bare .nil with fn := runOps (Fn.new false) [.add "x" exI64 false false, .change "x" (.tensor {} {} ⟨.double, [], [], .int 0⟩)] }, rfl,
    unreadable cd _ "x" (.tensor {} {} ⟨.double, [], [], .int 0⟩) rfl rfl rfl (by simp [Codec.OkT, Codec.OkA, Codec.OkS, h0])
      fun f => rfl⟩

/-- C40 violated: `rename_container` accepts a name that makes the document unreadable, for every text codec. -/
theorem rename_violated (cd : Codec) : ∃ ops s, s.fn = runOps (Fn.new false) ops ∧
    ∃ j, serialize cd s = some j ∧ deserialize cd j = none :=
  ⟨[.add "x" exI64 false false, .rename "x" "a.b"], { bare .nil with fn := runOps (Fn.new false) [.add "x" exI64 false false, .rename "x" "a.b"] }, rfl,
    unreadable cd _ "a.b" exI64 rfl rfl rfl (exTy cd).1 fun f => by
      have : checkName "a.b" = false := by decide
      simp [addContainer, this, exI64, Ty.isTensor]⟩

/-- the example codec reads zero -/
example : exCd.OkE (.int 0) := exE _ (by simp)

/-- C40 violated: an assumption that was narrowed after the container was added is lost, for every text codec. -/
theorem assumption_violated (cd : Codec) : ∃ s j s', Loadable cd s ∧ serialize cd s = some j ∧ deserialize cd j = some s' ∧
    s'.fn.assum.get "N" ≠ s.fn.assum.get "N" := by
  let s : Sdfg := { bare .nil with fn := { conts := [("N", exI64)], args := ["N"], assum := [("N", range (.int 1) (.int 10))] } }
  have hget : ∀ n t, s.fn.conts.get n = some t → n = "N" ∧ t = exI64 := by
    intro n t h
    have := AList.mem_of_get h
    simpa [s] using this
  have hl : Loadable cd s :=
    { ret := (exTy cd).2.2, structsNodup := .nil, structs := by simp [s, bare], contsNodup := by decide
      types := fun n t h => by rw [(hget n t h).2]; exact (exTy cd).1
      names := fun n t h => by rw [(hget n t h).1]; decide
      noTensor := fun n t h _ => by rw [(hget n t h).2]; rfl
      noReserved := fun n t h _ _ => by rw [(hget n t h).1]; decide
      argsNodup := by decide, extsNodup := .nil, args := by decide, exts := by simp [s], links := by simp [s], metaNodup := .nil
      rootM := exMetaOk 0, root := trivial }
  obtain ⟨j, s', h1, h2, _, h4⟩ := json_roundtrip_partial cd s hl
  refine ⟨s, j, s', hl, h1, h2, ?_⟩
  rw [h4]
  show some (range (.int (-9223372036854775808)) (.int 9223372036854775807)) ≠ some (range (.int 1) (.int 10))
  simp [range]

/-! ### the old format of C math nodes -/

/-- the document of an older version: only the name of the C function -/
def oldCMath (n : String) : J := .obj [("name", .str n)]

/-- A node in the old format is read correctly when the function's name does not end in a suffix letter. -/
theorem cmath_old_partial : ∀ f ∈ stems, f.toList.getLast? ≠ some 'f' → f.toList.getLast? ≠ some 'l' →
    ∀ p ∈ [Prim.float, .double, .x86_fp80], ∃ n, cmathName f p = some n ∧ rdCMath (oldCMath n) = some (f, p) := by
  have h : ∀ f ∈ stems, f.toList.getLast? ≠ some 'f' → f.toList.getLast? ≠ some 'l' →
    ∀ p ∈ [Prim.float, .double, .x86_fp80], (cmathName f p).bind (fun n => rdCMath (oldCMath n)) = some (f, p) := by decide
  intro f hf h1 h2 p hp
  have := h f hf h1 h2 p hp
  cases hn : cmathName f p with
  | none => rw [hn] at this; cases this
  | some n => exact ⟨n, rfl, by rw [hn] at this; exact this⟩

/-- The double functions `erf` and `ceil` of the old format are read with another type. -/
theorem cmath_old_violated : (cmathName "erf" .double = some "erf" ∧ rdCMath (oldCMath "erf") = some ("erf", .float)) ∧
    (cmathName "ceil" .double = some "ceil" ∧ rdCMath (oldCMath "ceil") = some ("ceil", .x86_fp80)) := by decide

end Docc.Ser

import Verif.Ser.Tree

/-! Reading back what was written, for dataflow graphs and control flow. -/
namespace Docc.Ser
open Docc.Sym Docc.Types Docc.Builder Docc.Opt

theorem rdMeta_of {j : J} {m : Meta} (h1 : j.get "element_id" = some (.num m.id)) (h2 : j.get "debug_info" = some (dbgJ m.dbg))
    (h : MetaOk m) : rdMeta j = some m := by
  simp [rdMeta, J.getN, h1, h2, J.asN, rdDbg_dbgJ h]

/-- No library serializer writes the keys of the surrounding node. -/
theorem fields_disjoint (cd : Codec) (l : Lib) :
    ∀ k ∈ ["element_id", "debug_info", "type", "implementation_type"], J.find (("code", .str l.code) :: l.fields cd) k = none := by
  intro k hk
  simp only [List.mem_cons, List.not_mem_nil, or_false] at hk
  rcases hk with rfl | rfl | rfl | rfl <;> cases l <;> simp [Lib.fields, J.find]

theorem rdNode_nodeJ {cd : Codec} (n : DNode) (h : cd.OkN n) (f : Nat) (hf : (nodeJ cd n).size ≤ f) :
    rdNode cd f (nodeJ cd n) = some n := by
  obtain ⟨m, k⟩ := n
  obtain ⟨hm, hk⟩ := h
  cases k with
  | tasklet c i o =>
    have := rdMeta_of (j := nodeJ cd ⟨m, .tasklet c i o⟩) (m := m) (by simp [nodeJ, metaF, J.get, J.find])
      (by simp [nodeJ, metaF, J.get, J.find]) hm
    simp only [rdNode, this]
    simp [nodeJ, metaF, J.getS, J.getN, J.getSs, J.getA, J.get, J.find, J.asS, J.asN, J.asA, ssJ]
  | access d =>
    have := rdMeta_of (j := nodeJ cd ⟨m, .access d⟩) (m := m) (by simp [nodeJ, metaF, J.get, J.find])
      (by simp [nodeJ, metaF, J.get, J.find]) hm
    simp only [rdNode, this]
    simp [nodeJ, metaF, J.getS, J.get, J.find, J.asS]
  | const d t =>
    have := rdMeta_of (j := nodeJ cd ⟨m, .const d t⟩) (m := m) (by simp [nodeJ, metaF, J.get, J.find])
      (by simp [nodeJ, metaF, J.get, J.find]) hm
    have ht := rdTy_tyJ t hk f (by simp [nodeJ, metaF, J.size, J.sizeF] at hf; omega)
    simp only [rdNode, this]
    simp [nodeJ, metaF, J.getS, J.get, J.find, J.asS, ht]
  | lib impl l =>
    obtain ⟨hl, hb⟩ := hk
    dsimp only at hb
    have hd := fields_disjoint cd l
    have g1 := hd "element_id" (by simp)
    have g2 := hd "debug_info" (by simp)
    have g3 := hd "type" (by simp)
    have g4 := hd "implementation_type" (by simp)
    have key : ∀ base k, J.find (("code", J.str l.code) :: l.fields cd) k = none →
        ((J.obj base).patch (l.toJ cd)).get k = J.find base k := by
      intro base k hk
      simp only [J.patch, Lib.toJ, J.get, J.find_append, hk]
    have hlib := rdLib_toJ l hl (metaF m ++ [("type", .str "library_node"), ("implementation_type", .str impl)]) f (by
      have hs : ∀ a b : List (String × J), J.sizeF (a ++ b) = J.sizeF a + J.sizeF b := by
        intro a b
        induction a with
        | nil => simp [J.sizeF]
        | cons p r ih => obtain ⟨x, y⟩ := p; simp only [List.cons_append, J.sizeF, ih]; omega
      simp only [nodeJ, J.patch, Lib.toJ, J.size, hs] at hf
      simp only [Lib.toJ, J.size]
      omega)
    have hdbg : rdLibDbg l ((J.obj (metaF m ++ [("type", .str "library_node"), ("implementation_type", .str impl)])).patch (l.toJ cd))
        = some m.dbg := by
      have : ((J.obj (metaF m ++ [("type", .str "library_node"), ("implementation_type", .str impl)])).patch (l.toJ cd)).get "debug_info"
          = some (dbgJ m.dbg) := by
        rw [key _ _ g2]; simp [metaF, J.find]
      have hr : (((J.obj (metaF m ++ [("type", .str "library_node"), ("implementation_type", .str impl)])).patch (l.toJ cd)).get
          "debug_info").bind rdDbg = some m.dbg := by
        rw [this]; exact rdDbg_dbgJ hm
      cases l with
      | barrier => simp only [rdLibDbg, hb rfl]
      | _ => exact hr
    simp only [nodeJ, rdNode, J.getS, J.getN, hlib, key _ _ g1, key _ _ g3, key _ _ g4]
    simp only [metaF, List.cons_append, List.nil_append] at hdbg ⊢
    simp [J.find, J.asS, J.asN, hdbg]

theorem findId_idAt (l : List DNode) (h : (l.map fun n => n.m.id).Nodup) (i : Nat) (hi : i < l.length) :
    findId l (idAt l i) = some i := by
  induction l generalizing i with
  | nil => simp at hi
  | cons n r ih =>
    cases i with
    | zero => simp [findId, idAt]
    | succ i =>
      simp only [List.length_cons, Nat.add_lt_add_iff_right] at hi
      simp only [List.map_cons, List.nodup_cons] at h
      have e : idAt (n :: r) (i + 1) = idAt r i := by simp [idAt]
      have hne : n.m.id ≠ idAt r i := by
        intro he
        apply h.1
        rw [he]
        refine List.mem_map.2 ⟨r[i], List.getElem_mem hi, ?_⟩
        simp [idAt, hi]
      rw [e]
      simp only [findId, if_neg hne, ih h.2 i hi, Option.map_some]

theorem rdEdge_edgeJ {cd : Codec} (ns : List DNode) (hn : (ns.map fun n => n.m.id).Nodup) (e : DEdge) (hm : MetaOk e.m)
    (hs : e.src < ns.length) (hd : e.dst < ns.length) (hx : ∀ x ∈ e.subset, cd.OkE x) (ht : cd.OkT e.base) (f : Nat)
    (hf : (edgeJ cd ns e).size ≤ f) : rdEdge cd f ns (edgeJ cd ns e) = some e := by
  have h1 := rdMeta_of (j := edgeJ cd ns e) (m := e.m) (by simp [edgeJ, metaF, J.get, J.find]) (by simp [edgeJ, metaF, J.get, J.find]) hm
  have h2 := rdTy_tyJ e.base ht f (by simp [edgeJ, metaF, J.size, J.sizeF] at hf; omega)
  have h3 := Codec.rdEs hx
  simp only [rdEdge, h1]
  simp [edgeJ, metaF, J.getS, J.getN, J.getA, J.get, J.find, J.asS, J.asN, J.asA, findId_idAt ns hn _ hs, findId_idAt ns hn _ hd, h2, h3,
    Codec.getEs, Codec.esJ]

theorem rdGraph_graphJ {cd : Codec} (g : Graph) (h : cd.OkG g) (f : Nat) (hf : (graphJ cd g).size ≤ f) :
    rdGraph cd f (graphJ cd g) = some g := by
  obtain ⟨h1, h2, h3⟩ := h
  simp only [graphJ, J.size, J.sizeF] at hf
  have e1 : J.mapO (rdNode cd f) (g.nodes.map (nodeJ cd)) = some g.nodes := J.mapO_map _ _ _ fun n hn =>
    rdNode_nodeJ n (h1 n hn) f (by
      have := J.size_le_sizeL (List.mem_map_of_mem (f := nodeJ cd) hn); omega)
  have e2 : J.mapO (rdEdge cd f g.nodes) (g.edges.map (edgeJ cd g.nodes)) = some g.edges := J.mapO_map _ _ _ fun e he => by
    obtain ⟨a, b, c, d, i⟩ := h3 e he
    exact rdEdge_edgeJ g.nodes h2 e a b c d i f (by
      have := J.size_le_sizeL (List.mem_map_of_mem (f := edgeJ cd g.nodes) he); omega)
  simp [rdGraph, graphJ, J.getS, J.getA, J.get, J.find, J.asS, J.asA, e1, e2]

theorem rdAsg_ok {cd : Codec} (l acc : List (String × Expr)) (hn : ((acc ++ l).map (·.1)).Nodup)
    (h : ∀ p ∈ l, cd.OkE p.2 ∧ reserved p.1 = false) :
    rdAsg cd acc (l.map fun p => .obj [("symbol", .str p.1), ("expression", cd.eJ p.2)]) = some (acc ++ l) := by
  induction l generalizing acc with
  | nil => simp [rdAsg]
  | cons p r ih =>
    obtain ⟨x, e⟩ := p
    have hp := h (x, e) (by simp)
    have hk : acc.any (fun p => p.1 == x) = false := by
      rw [List.any_eq_false]
      intro q hq he
      simp only [beq_iff_eq] at he
      simp only [List.map_append, List.map_cons, List.nodup_append] at hn
      exact hn.2.2 q.1 (List.mem_map_of_mem hq) x (by simp) he
    have hi := ih (acc ++ [(x, e)]) (by simpa using hn) (fun q hq => h q (List.mem_cons_of_mem _ hq))
    simp only [List.map_cons, rdAsg, Codec.getE, J.get, J.find]
    simp [hp.1, hp.2, hk, rdSym, J.asS]
    simpa using hi

theorem rdTr_trJ {cd : Codec} (t : Tr) (h : cd.OkTr t) : rdTr cd (trJ cd t) = some t := by
  obtain ⟨hm, hn, ha⟩ := h
  have h1 := rdMeta_of (j := trJ cd t) (m := t.m) (by simp [trJ, metaF, J.get, J.find]) (by simp [trJ, metaF, J.get, J.find]) hm
  have h2 := rdAsg_ok (cd := cd) t.asg [] (by simpa using hn) ha
  simp only [List.nil_append] at h2
  simp only [rdTr, h1]
  simp [trJ, metaF, J.getA, J.get, J.find, J.asA, h2]

/-- reading a sequence object when its children can be read, possibly as other children -/
theorem rdSeq_of' {cd : Codec} {rd : J → Option El} {m : Meta} {body body' : Els} (hm : MetaOk m)
    (hb : rdKids rd cd (kidsJ cd body) (trsJ cd body) = some body') :
    rdSeq rd cd (.obj (("type", .str "sequence") :: metaF m ++ [("children", .arr (kidsJ cd body)), ("transitions", .arr (trsJ cd body))]))
      = some (m, body') := by
  have h1 := rdMeta_of (j := .obj (("type", .str "sequence") :: metaF m ++
    [("children", .arr (kidsJ cd body)), ("transitions", .arr (trsJ cd body))])) (m := m)
    (by simp [metaF, J.get, J.find]) (by simp [metaF, J.get, J.find]) hm
  simp only [rdSeq, h1]
  simp [metaF, J.getS, J.getA, J.get, J.find, J.asS, J.asA, hb]

/-- reading a sequence object when its children can be read -/
theorem rdSeq_of {cd : Codec} {rd : J → Option El} {m : Meta} {body : Els} (hm : MetaOk m)
    (hb : rdKids rd cd (kidsJ cd body) (trsJ cd body) = some body) :
    rdSeq rd cd (.obj (("type", .str "sequence") :: metaF m ++ [("children", .arr (kidsJ cd body)), ("transitions", .arr (trsJ cd body))]))
      = some (m, body) := by
  have h1 := rdMeta_of (j := .obj (("type", .str "sequence") :: metaF m ++
    [("children", .arr (kidsJ cd body)), ("transitions", .arr (trsJ cd body))])) (m := m)
    (by simp [metaF, J.get, J.find]) (by simp [metaF, J.get, J.find]) hm
  simp only [rdSeq, h1]
  simp [metaF, J.getS, J.getA, J.get, J.find, J.asS, J.asA, hb]

/-- reading a loop object when its body can be read -/
theorem rdEl_for {cd : Codec} {f : Nat} {m : Meta} {iv : String} {init upd : Expr} {cond : Cond} {r : J} {b : Meta × Els}
    (hm : MetaOk m) (hi : reserved iv = false) (ha : cd.OkE init) (hc : cd.OkC cond) (hu : cd.OkE upd)
    (h3 : rdSeq (rdEl cd f) cd r = some b) :
    rdEl cd (f + 1) (.obj (("type", .str "for") :: metaF m ++
      [("indvar", .str iv), ("init", cd.eJ init), ("condition", cd.cJ cond), ("update", cd.eJ upd), ("root", r)]))
      = some (.loop m none iv init cond upd b.1 b.2) := by
  have hcp := Codec.parseC_ok hc
  have h1 := rdMeta_of (j := .obj (("type", .str "for") :: metaF m ++
      [("indvar", .str iv), ("init", cd.eJ init), ("condition", cd.cJ cond), ("update", cd.eJ upd), ("root", r)])) (m := m)
    (by simp [metaF, J.get, J.find]) (by simp [metaF, J.get, J.find]) hm
  rw [rdEl, h1]
  simp [metaF, J.getS, J.get, J.find, J.asS, Codec.getE, Codec.getC, h3, ha, hu, hi, hcp, Codec.cJ, rdSym]

/-- reading a map object when its body can be read -/
theorem rdEl_map {cd : Codec} {f : Nat} {m : Meta} {s : Sched} {iv : String} {init upd : Expr} {cond : Cond} {r : J} {b : Meta × Els}
    (hm : MetaOk m) (hs : SchedOk s) (hi : reserved iv = false) (ha : cd.OkE init) (hc : cd.OkC cond) (hu : cd.OkE upd)
    (h3 : rdSeq (rdEl cd f) cd r = some b) :
    rdEl cd (f + 1) (.obj (("type", .str "map") :: metaF m ++
      [("indvar", .str iv), ("init", cd.eJ init), ("condition", cd.cJ cond), ("update", cd.eJ upd), ("root", r),
       ("schedule_type", schedJ s)]))
      = some (.loop m (some s) iv init cond upd b.1 b.2) := by
  have hcp := Codec.parseC_ok hc
  have hsc := rdSched_schedJ hs
  have h1 := rdMeta_of (j := .obj (("type", .str "map") :: metaF m ++
      [("indvar", .str iv), ("init", cd.eJ init), ("condition", cd.cJ cond), ("update", cd.eJ upd), ("root", r),
       ("schedule_type", schedJ s)])) (m := m)
    (by simp [metaF, J.get, J.find]) (by simp [metaF, J.get, J.find]) hm
  rw [rdEl, h1]
  simp [metaF, J.getS, J.get, J.find, J.asS, Codec.getE, Codec.getC, h3, ha, hu, hi, hcp, Codec.cJ, rdSym, hsc]

mutual
theorem rdEl_elJ {cd : Codec} (e : El) (h : e.Ok cd) (f : Nat) (hf : (elJ cd e).size ≤ f) : rdEl cd f (elJ cd e) = some e := by
  cases f with
  | zero =>
    exfalso
    cases e <;> simp [elJ, J.size] at hf
  | succ f =>
    cases e with
    | block m g =>
      rw [El.Ok] at h
      have h1 := rdMeta_of (j := elJ cd (.block m g)) (m := m) (by simp [elJ, metaF, J.get, J.find]) (by simp [elJ, metaF, J.get, J.find]) h.1
      have h2 := rdGraph_graphJ g h.2 f (by simp [elJ, metaF, J.size, J.sizeF] at hf; omega)
      simp only [rdEl, h1]
      simp [elJ, metaF, J.getS, J.get, J.find, J.asS, h2]
    | loop m sched iv init cond upd bm body =>
      rw [El.Ok] at h
      obtain ⟨hm, hs, hi, ha, hc, hu, hbm, hb⟩ := h
      have h2 := rdKids_els body hb f (by
        simp only [elJ, metaF, J.size, J.sizeF, List.cons_append, List.nil_append] at hf
        omega)
      have h3 := rdSeq_of hbm h2
      cases sched with
      | none => exact rdEl_for hm hi ha hc hu h3
      | some s => exact rdEl_map hm (hs s rfl) hi ha hc hu h3
    | ifElse m cs =>
      rw [El.Ok] at h
      have h1 := rdMeta_of (j := elJ cd (.ifElse m cs)) (m := m) (by simp [elJ, metaF, J.get, J.find])
        (by simp [elJ, metaF, J.get, J.find]) h.1
      have h2 := rdCases_casesJ cs h.2 f (by
        simp only [elJ, metaF, J.size, J.sizeF, List.cons_append, List.nil_append] at hf
        omega)
      simp only [rdEl, h1]
      simp [elJ, metaF, J.getS, J.getA, J.get, J.find, J.asS, J.asA, h2]
    | whil m bm body =>
      rw [El.Ok] at h
      have h1 := rdMeta_of (j := elJ cd (.whil m bm body)) (m := m) (by simp [elJ, metaF, J.get, J.find])
        (by simp [elJ, metaF, J.get, J.find]) h.1
      have h2 := rdKids_els body h.2.2 f (by
        simp only [elJ, metaF, J.size, J.sizeF, List.cons_append, List.nil_append] at hf
        omega)
      have h3 := rdSeq_of h.2.1 h2
      simp only [rdEl, h1]
      simp only [elJ, metaF, J.getS, J.get, J.find, List.cons_append, List.nil_append] at h3 ⊢
      simp [h3, J.asS]
    | brk m =>
      rw [El.Ok] at h
      have h1 := rdMeta_of (j := elJ cd (.brk m)) (m := m) (by simp [elJ, metaF, J.get, J.find]) (by simp [elJ, metaF, J.get, J.find]) h
      simp only [rdEl, h1]
      simp [elJ, metaF, J.getS, J.get, J.find, J.asS]
    | cont m =>
      rw [El.Ok] at h
      have h1 := rdMeta_of (j := elJ cd (.cont m)) (m := m) (by simp [elJ, metaF, J.get, J.find]) (by simp [elJ, metaF, J.get, J.find]) h
      simp only [rdEl, h1]
      simp [elJ, metaF, J.getS, J.get, J.find, J.asS]
    | ret m d t =>
      rw [El.Ok] at h
      have h1 := rdMeta_of (j := elJ cd (.ret m d t)) (m := m) (by simp [elJ, metaF, J.get, J.find]) (by simp [elJ, metaF, J.get, J.find]) h.1
      simp only [rdEl, h1]
      cases t with
      | none => simp [elJ, metaF, J.getS, J.get, J.find, J.asS]
      | some t =>
        have h2 := rdTy_tyJ t (h.2 t rfl) f (by simp [elJ, metaF, J.size, J.sizeF] at hf; omega)
        simp [elJ, metaF, J.getS, J.get, J.find, J.asS, h2]
    | seq m body =>
      rw [El.Ok] at h
      have h2 := rdKids_els body h.2 f (by
        simp only [elJ, metaF, J.size, J.sizeF, List.cons_append, List.nil_append] at hf
        omega)
      have h3 := rdSeq_of h.1 h2
      simp only [rdEl, elJ, h3]
      simp [J.getS, J.get, J.find, J.asS]
theorem rdKids_els {cd : Codec} (b : Els) (h : b.Ok cd) (f : Nat) (hf : J.sizeL (kidsJ cd b) ≤ f) :
    rdKids (rdEl cd f) cd (kidsJ cd b) (trsJ cd b) = some b := by
  cases b with
  | nil => rfl
  | cons e t r =>
    rw [Els.Ok] at h
    simp only [kidsJ, J.sizeL] at hf
    simp only [kidsJ, trsJ, rdKids, rdTr_trJ t h.2.1, rdEl_elJ e h.1 f (by omega), rdKids_els r h.2.2 f (by omega)]
theorem rdCases_casesJ {cd : Codec} (cs : Cases) (h : cs.Ok cd) (f : Nat) (hf : J.sizeL (casesJ cd cs) ≤ f) :
    rdCases (rdEl cd f) cd (casesJ cd cs) = some cs := by
  cases cs with
  | nil => rfl
  | cons c bm body r =>
    rw [Cases.Ok] at h
    simp only [casesJ, J.sizeL, J.size, J.sizeF, metaF, List.cons_append, List.nil_append] at hf
    have h2 := rdKids_els body h.2.2.1 f (by omega)
    have h3 := rdSeq_of h.2.1 h2
    have h4 := rdCases_casesJ r h.2.2.2 f (by omega)
    have hcp := Codec.parseC_ok h.1
    simp only [casesJ, rdCases, h4, Codec.getC, J.get, J.find]
    simp only [List.cons_append] at h3 ⊢
    simp [Codec.cJ, J.asS, hcp, h3]
end

end Docc.Ser

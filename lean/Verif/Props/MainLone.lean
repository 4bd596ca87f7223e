import Verif.Props.MainBalance
import Verif.Props.Lone

/-
C106: the main program on one processor with degrees as weights.
-/

namespace PMondriaan

open Spec

theorem columnOf_empty {es : List (Nat × Nat)} {v : Nat} : columnOf es v = [] ↔ EmptyColumn es v := by
  unfold columnOf EmptyColumn
  rw [List.map_eq_nil_iff, List.filter_eq_nil_iff]
  simp

/-- The pins of a net are the entries of its row. -/
theorem holdMatrix_pins {E V : Nat} {es : List (Nat × Nat)} {wt : List Nat → Int} {H : Hypergraph}
    (h : HoldMatrix E V es wt [H]) (hin : EntriesIn E V es) {n : Net} (hn : n ∈ H.nets) {u : Nat} :
    u ∈ n.vertices ↔ (n.id + 1, u + 1) ∈ es := by
  have hE := h.dist.ids H (by simp) n hn
  rw [← mem_rowOf hin, ← (h.pins n.id hE).mem_iff]
  unfold unionPins
  simp only [List.flatMap_cons, List.flatMap_nil, List.append_nil]
  constructor
  · intro hu
    exact List.mem_flatMap.2 ⟨n, List.mem_filter.2 ⟨hn, by simp⟩, hu⟩
  · intro hu
    obtain ⟨m, hm, hu⟩ := List.mem_flatMap.1 hu
    rw [List.mem_filter] at hm
    have : m = n := List.inj_on_of_nodup_map (h.dist.wf H (by simp)).nids hm.1 hn (of_decide_eq_true hm.2)
    rw [← this]
    exact hu

theorem slice_whole (l : List Vertex) : slice l 0 l.length = l := by
  simp [slice]

/-- A vertex is alone exactly when its column is. -/
theorem lone_column {E V : Nat} {es : List (Nat × Nat)} {wt : List Nat → Int} {H : Hypergraph}
    (h : HoldMatrix E V es wt [H]) (hin : EntriesIn E V es) (v : Vertex) :
    Lone H 0 H.vertices.length v ↔ AloneColumn es v.id := by
  have w := h.dist.wf H (by simp)
  unfold Lone AloneColumn
  rw [slice_whole]
  constructor
  · intro hl x hx hxv y hy hyx
    have h1 := hin x hx
    have h2 := hin y hy
    have hrow : v.id ∈ unionPins [H] (x.1 - 1) := by
      rw [(h.pins (x.1 - 1) (by omega)).mem_iff, mem_rowOf hin]
      have : x = (x.1 - 1 + 1, v.id + 1) := Prod.ext (by simp; omega) hxv
      rw [← this]
      exact hx
    obtain ⟨K, hK, n, hn, he, hvn⟩ := mem_unionPins.1 hrow
    simp only [List.mem_singleton] at hK
    subst hK
    have hyn : y.2 - 1 ∈ n.vertices := by
      rw [holdMatrix_pins h hin hn]
      have : y = (n.id + 1, y.2 - 1 + 1) := Prod.ext (by simp; omega) (by simp; omega)
      rw [← this]
      exact hy
    obtain ⟨u, hu, hue, -⟩ := w.inc_vtx n hn _ hyn
    have := hl n hn hvn u hu (by rw [hue]; exact hyn)
    omega
  · intro ha n hn hvn u _ hun
    rw [holdMatrix_pins h hin hn] at hvn hun
    have := ha _ hvn rfl _ hun rfl
    simp at this
    exact this

theorem holdMatrix_vertex {E V : Nat} {es : List (Nat × Nat)} {wt : List Nat → Int} {H : Hypergraph}
    (h : HoldMatrix E V es wt [H]) {v : Vertex} (hv : v ∈ H.vertices) : v.id < V ∧ v.weight = wt (columnOf es v.id) := by
  have h1 : (v.id, v.weight) ∈ ([H].flatMap (·.vertices)).map (fun v => (v.id, v.weight)) :=
    List.mem_map.2 ⟨v, by simpa using hv, rfl⟩
  rw [h.verts.mem_iff] at h1
  obtain ⟨u, hu, he⟩ := List.mem_map.1 h1
  simp only [Prod.mk.injEq] at he
  rw [← he.1, ← he.2]
  exact ⟨List.mem_range.1 hu, rfl⟩

theorem holdMatrix_column {E V : Nat} {es : List (Nat × Nat)} {wt : List Nat → Int} {H : Hypergraph}
    (h : HoldMatrix E V es wt [H]) {u : Nat} (hu : u < V) : ∃ v ∈ H.vertices, v.id = u := by
  have h1 : (u, wt (columnOf es u)) ∈ (List.range V).map (fun v => (v, wt (columnOf es v))) :=
    List.mem_map.2 ⟨u, List.mem_range.2 hu, rfl⟩
  rw [← h.verts.mem_iff] at h1
  obtain ⟨v, hv, he⟩ := List.mem_map.1 h1
  simp only [Prod.mk.injEq] at he
  exact ⟨v, by simpa using hv, he.1⟩

/-- What C105 needs, for degrees as weights. -/
theorem degree_weights {E V : Nat} {es : List (Nat × Nat)} {H : Hypergraph}
    (h : HoldMatrix E V es (fun l => (l.length : Int)) [H]) (hin : EntriesIn E V es) {v : Vertex} (hv : v ∈ H.vertices) :
    0 ≤ v.weight ∧ (v.nets ≠ [] → 0 < v.weight) ∧ (v.weight = 0 ↔ EmptyColumn es v.id) := by
  have hw := (holdMatrix_vertex h hv).2
  refine ⟨by rw [hw]; exact Int.natCast_nonneg _, ?_, ?_⟩
  · intro hne
    obtain ⟨e, he⟩ := List.exists_mem_of_ne_nil _ hne
    obtain ⟨n, hn, -, hvn⟩ := (h.dist.wf H (by simp)).inc_net v hv e he
    rw [holdMatrix_pins h hin hn] at hvn
    have : columnOf es v.id ≠ [] := by
      intro hc
      exact columnOf_empty.1 hc _ hvn rfl
    rw [hw]
    have := List.length_pos_of_ne_nil this
    exact_mod_cast this
  · rw [hw, ← columnOf_empty]
    simp

/-- Changing parts keeps a hypergraph consistent. -/
theorem wf_parts {H H' : Hypergraph} (w : WF H) (hr : H' = { H with vertices := H'.vertices })
    (hv : H'.vertices.map (fun v => (v.id, v.nets)) = H.vertices.map (fun v => (v.id, v.nets))) : WF H' := by
  have hids : H'.vertices.map (·.id) = H.vertices.map (·.id) := by
    have := congrArg (List.map Prod.fst) hv
    simpa [List.map_map, Function.comp_def] using this
  have hn : H'.nets = H.nets := by rw [hr]
  have hvm : H'.vmap = H.vmap := by rw [hr]
  have hnm : H'.nmap = H.nmap := by rw [hr]
  have hto : ∀ v ∈ H'.vertices, ∃ u ∈ H.vertices, u.id = v.id ∧ u.nets = v.nets := by
    intro v hm
    have : (v.id, v.nets) ∈ H'.vertices.map (fun v => (v.id, v.nets)) := List.mem_map.2 ⟨v, hm, rfl⟩
    rw [hv] at this
    obtain ⟨u, hu, he⟩ := List.mem_map.1 this
    simp only [Prod.mk.injEq] at he
    exact ⟨u, hu, he⟩
  have hfrom : ∀ v ∈ H.vertices, ∃ u ∈ H'.vertices, u.id = v.id ∧ u.nets = v.nets := by
    intro v hm
    have : (v.id, v.nets) ∈ H.vertices.map (fun v => (v.id, v.nets)) := List.mem_map.2 ⟨v, hm, rfl⟩
    rw [← hv] at this
    obtain ⟨u, hu, he⟩ := List.mem_map.1 this
    simp only [Prod.mk.injEq] at he
    exact ⟨u, hu, he⟩
  refine ⟨by rw [hids]; exact w.vids, by rw [hn]; exact w.nids, by rw [hids, hvm]; exact w.vmap,
    by rw [hn, hnm]; exact w.nmap, ?_, by rw [hn]; exact w.npins, ?_, ?_⟩
  · intro v hm
    obtain ⟨u, hu, -, e2⟩ := hto v hm
    rw [← e2]; exact w.vnets u hu
  · intro v hm e he
    obtain ⟨u, hu, e1, e2⟩ := hto v hm
    rw [← e2] at he
    rw [hn, ← e1]
    exact w.inc_net u hu e he
  · intro n hm u hu
    rw [hn] at hm
    obtain ⟨v, hv', e1, e2⟩ := w.inc_vtx n hm u hu
    obtain ⟨x, hx, f1, f2⟩ := hfrom v hv'
    exact ⟨x, hx, by rw [f1, e1], by rw [f2]; exact e2⟩

/-- The vertices after a bisection of everything are the old ones with other parts. -/
theorem relabelsOthers_map {α : Type} {H H' : Hypergraph} {low high : Int}
    (h : RelabelsOthers 0 H.vertices.length low high H H') (f : Vertex → α) (hf : ∀ v p, f { v with part := p } = f v) :
    H'.vertices.map f = H.vertices.map f := by
  apply List.ext_getElem?
  intro i
  rw [List.getElem?_map, List.getElem?_map]
  cases hc : H.vertices[i]? with
  | none =>
    rw [List.getElem?_eq_none_iff] at hc
    rw [List.getElem?_eq_none (by rw [h.length]; exact hc)]
  | some v =>
    have hi : i < H.vertices.length := (List.getElem?_eq_some_iff.1 hc).1
    by_cases hF : Forgotten H 0 H.vertices.length v
    · rw [h.forgotten i v (Nat.zero_le _) hi hc hF]
    · obtain ⟨p, -, he⟩ := h.inside i v (Nat.zero_le _) hi hc hF
      rw [he]
      exact congrArg some (hf v p)

/-- The recursion of the main program for two parts. -/
theorem main_two {M : MainEnv} {opts : Options} {E V T : Nat} (hE : E < 2147483648)
    (hc : RunsCode M.recEnv opts 1 E T) (hml : opts.bisectionRandom = false) (hM : MainEnvOk M 1) (hT : V < T)
    {es : List (Nat × Nat)} {text : List Char} (hf : GoodFile text E V es) (hne : es ≠ []) (epsilon eta : ℚ) :
    ∃ R C r, readFilePar M.order M.dFree M.dSize M.parts 1 (some text) "degree" = .ok (some [R]) ∧
      [R].mapM (fun H => H.copy) = .ok [C] ∧ HoldMatrix E V es (fun l => (l.length : Int)) [C] ∧
      (∀ v ∈ C.vertices, v.part = -1) ∧ recursiveBisectPar M.recEnv 2 epsilon eta [C] M.rngs = .ok r ∧
      ∃ K, r.Hs = [K] ∧ RelabelsOthers 0 C.vertices.length 0 1 C K := by
  have hmode : ModeMeans "degree" (fun l => (l.length : Int)) := Or.inr ⟨rfl, rfl⟩
  obtain ⟨H, Rs, a2, b2, a3⟩ := goodFile_partition hM hf hmode
  have hread := holdMatrix_read b2 a3
  obtain ⟨R, rfl⟩ : ∃ R, Rs = [R] := List.length_eq_one_iff.1 a3.1
  obtain ⟨Cs, c1, c2, c3⟩ := copies_ok hread
  obtain ⟨C, rfl⟩ : ∃ C, Cs = [C] := List.length_eq_one_iff.1 (by simpa using c2)
  obtain ⟨C', d1, -, d3, -⟩ := copy_ok (hread.dist.wf R (by simp))
  have hCC : C' = C := by
    simp only [List.mapM_cons, List.mapM_nil, d1, ok_bind] at c1
    have c1' : (Except.ok [C'] : Res (List Hypergraph)) = .ok [C] := c1
    injection c1' with c1'
    exact (List.cons.inj c1').1
  subst hCC
  obtain ⟨g, hg⟩ : ∃ g, M.rngs = [g] := List.length_eq_one_iff.1 hM.rngs
  have hin : EntriesIn E V es := hf.2.2.1
  have hpart : ∀ v ∈ C'.vertices, v.part = -1 := by
    intro v hv
    rw [d3] at hv
    obtain ⟨r, -, hL⟩ := forall2_mem_right a3.2.2.1 (List.mem_singleton.2 rfl)
    obtain ⟨u, hu, -, -, e3, -⟩ := hL.vertices v hv
    rw [← e3]
    exact (b2.columns u hu).2.2
  have hlen := holdMatrix_length c3
  simp only [List.flatMap_cons, List.flatMap_nil, List.append_nil] at hlen
  have hnets : C'.nets.length < 2147483648 := by
    have h1 : (C'.nets.map (·.id)).Subperm (List.range E) := by
      apply List.subperm_of_subset (c3.dist.wf C' (by simp)).nids
      intro e he
      obtain ⟨n, hn, rfl⟩ := List.mem_map.1 he
      exact List.mem_range.2 (c3.dist.ids C' (by simp) n hn)
    have := h1.length_le
    rw [List.length_map, List.length_range] at this
    omega
  have htot : C'.totalWeight ≠ 0 := by
    rw [totalWeight_eq]
    obtain ⟨x, hx⟩ := List.exists_mem_of_ne_nil _ hne
    have h1 := hin x hx
    obtain ⟨v, hv, he⟩ := holdMatrix_column c3 (u := x.2 - 1) (by omega)
    have h2 := degree_weights c3 hin hv
    have h3 : ¬ EmptyColumn es v.id := fun h => h x hx (by omega)
    have h4 : v.weight ≤ (C'.vertices.map (·.weight)).sum := by
      apply entry_le_sum (l := C'.vertices.map (·.weight))
      · intro y hy
        obtain ⟨u, hu, rfl⟩ := List.mem_map.1 hy
        exact (degree_weights c3 hin hu).1
      · exact List.mem_map.2 ⟨v, hv, rfl⟩
    have h5 : v.weight ≠ 0 := fun h => h3 (h2.2.2.1 h)
    have h6 := h2.1
    omega
  obtain ⟨F, E0, E1, -, h2, h3, -, h5⟩ := hc.code
  have hbis : (M.recEnv.recEnv []).bis = fun H m0 m1 s e l rng =>
      bisectMultilevel (E1 []) H { opts with sampleSize := opts.sampleSize / 1 } m0 m1 s e l rng := by
    show M.recEnv.alone [] = _
    rw [h5]
    funext H m0 m1 s e l rng
    unfold bisectOne
    simp [hml]
  obtain ⟨s, s1, s2⟩ := C105_two (P := M.recEnv.recEnv []) (h2 []) hbis rfl (c3.dist.wf C' (by simp)) (c3.dist.ids C' (by simp)) hnets
    (fun v hv => (degree_weights c3 hin hv).1) (fun v hv => (degree_weights c3 hin hv).2.1)
    (by rw [h3]; omega) htot epsilon g
  refine ⟨R, C', ⟨[s.H], [], s.calls⟩, a2, c1, c3, hpart, ?_, s.H, rfl, s2⟩
  rw [hg, C61_one_processor _ (by omega), s1]
  rfl

/-- C106: degrees as weights, two parts, one processor, multilevel bisection with any options, any random stream. When
some column is empty and no column with entries is alone, the empty columns get no label, and computing the load
balance accesses the weights of the parts at index -1. -/
theorem C106_lost {M : MainEnv} {opts : Options} {E V T : Nat} (hE : E < 2147483648)
    (hc : RunsCode M.recEnv opts 1 E T) (hml : opts.bisectionRandom = false) (hM : MainEnvOk M 1) (hT : V < T)
    {es : List (Nat × Nat)} {text : List Char} (hf : GoodFile text E V es) (hne : es ≠ []) (epsilon eta : ℚ)
    (hempty : ∃ v < V, EmptyColumn es v) (hall : ∀ v < V, AloneColumn es v → EmptyColumn es v) :
    mainCompute M 1 2 epsilon eta (some text) "degree" = .error .ub := by
  obtain ⟨R, C, r, h1, h2, h3, h4, h5, K, h6, h7⟩ := main_two hE hc hml hM hT hf hne epsilon eta
  have hin : EntriesIn E V es := hf.2.2.1
  obtain ⟨u, hu, hue⟩ := hempty
  obtain ⟨v, hv, rfl⟩ := holdMatrix_column h3 hu
  have hF : Forgotten C 0 C.vertices.length v := by
    constructor
    · rw [lone_column h3 hin _]
      intro x hx hxv
      exact absurd hxv (hue x hx)
    · intro w hw hwl
      rw [slice_whole] at hw
      rw [(degree_weights h3 hin hw).2.2]
      exact hall _ (holdMatrix_vertex h3 hw).1 ((lone_column h3 hin _).1 hwl)
  obtain ⟨i, hi, hiv⟩ := List.getElem_of_mem hv
  have hiv' : C.vertices[i]? = some v := by rw [List.getElem?_eq_getElem hi, hiv]
  have hK := List.mem_of_getElem? (h7.forgotten i v (Nat.zero_le _) hi hiv' hF)
  have hub := C08_global_unassigned_out_of_bounds 2 r.Hs ⟨K, by rw [h6]; simp, v, hK, by rw [h4 v hv]; decide⟩
  unfold mainCompute
  rw [h1, ok_bind]
  dsimp only
  rw [h2, ok_bind, h5, ok_bind]
  unfold loadBalancePar
  rw [hub]
  rfl

/-- C106: in all other cases (no column is alone, or one with entries is) the program labels every column and reports
true values. -/
theorem C106_reports {M : MainEnv} {opts : Options} {E V T : Nat} (hE : E < 2147483648)
    (hc : RunsCode M.recEnv opts 1 E T) (hml : opts.bisectionRandom = false) (hM : MainEnvOk M 1) (hT : V < T)
    {es : List (Nat × Nat)} {text : List Char} (hf : GoodFile text E V es) (hne : es ≠ []) (epsilon eta : ℚ)
    (h : (∀ v < V, ¬ EmptyColumn es v) ∨ ∃ v < V, AloneColumn es v ∧ ¬ EmptyColumn es v) :
    ∃ o, mainCompute M 1 2 epsilon eta (some text) "degree" = .ok (some o) ∧
      Reports 1 2 E V es (fun l => (l.length : Int)) o := by
  obtain ⟨R, C, r, h1, h2, h3, h4, h5, K, h6, h7⟩ := main_two hE hc hml hM hT hf hne epsilon eta
  have hin : EntriesIn E V es := hf.2.2.1
  have hnF : ∀ v ∈ C.vertices, ¬ Forgotten C 0 C.vertices.length v := by
    rintro v hv ⟨hl, hz⟩
    rw [slice_whole] at hz
    rcases h with h | ⟨u, hu, ha, hn⟩
    · exact h _ (holdMatrix_vertex h3 hv).1 ((degree_weights h3 hin hv).2.2.1 (hz v hv hl))
    · obtain ⟨w, hw, rfl⟩ := holdMatrix_column h3 hu
      exact hn ((degree_weights h3 hin hw).2.2.1 (hz w hw ((lone_column h3 hin _).2 ha)))
  have hparts : ∀ v ∈ K.vertices, 0 ≤ v.part ∧ v.part < (2 : Nat) := by
    intro v hv
    obtain ⟨i, hi, hiv⟩ := List.getElem_of_mem hv
    have hi' : i < C.vertices.length := by rw [← h7.length]; exact hi
    obtain ⟨p, hp, he⟩ := h7.inside i C.vertices[i] (Nat.zero_le _) hi' (List.getElem?_eq_getElem hi')
      (hnF _ (List.getElem_mem hi'))
    rw [List.getElem?_eq_getElem hi, hiv] at he
    injection he with he
    rw [he]
    rcases hp with rfl | rfl <;> simp
  have hwf : WF K := wf_parts (h3.dist.wf C (by simp)) h7.rest (relabelsOthers_map h7 _ (fun _ _ => rfl))
  have hkept : Kept E [C] r.Hs := by
    rw [h6]
    refine kept_local h3.dist (.cons ⟨hwf, by rw [h7.rest], ?_, by rw [h7.rest]; rfl⟩ .nil)
    rw [relabelsOthers_map h7 _ (fun _ _ => rfl)]
  have hpos : 0 < matrixWeight V es (fun l => (l.length : Int)) := by
    obtain ⟨x, hx⟩ := List.exists_mem_of_ne_nil _ hne
    have g1 := hin x hx
    have g2 : 0 < ((columnOf es (x.2 - 1)).length : Int) := by
      have : columnOf es (x.2 - 1) ≠ [] := fun hc => columnOf_empty.1 hc x hx (by omega)
      exact_mod_cast List.length_pos_of_ne_nil this
    refine lt_of_lt_of_le g2 (entry_le_sum ?_ (List.mem_map.2 ⟨x.2 - 1, List.mem_range.2 (by omega), rfl⟩))
    intro y hy
    obtain ⟨v, -, rfl⟩ := List.mem_map.1 hy
    exact Int.natCast_nonneg _
  obtain ⟨o, o1, -, o3⟩ := compute_of_weight hM (by rw [hc.rnd]; exact nearest53_rounds) rfl (le_refl 1) (by omega)
    hpos h1 h2 rfl h3 h5 hkept (by
      intro K' hK' v hv
      rw [h6, List.mem_singleton] at hK'
      subst hK'
      exact hparts v hv)
  exact ⟨o, o1, o3⟩

/-- A file of a 3 by 6 matrix in which columns 2, …, 5 are empty and the others share a row. -/
def pairText : String := "%%MatrixMarket matrix coordinate real general\n3 6 2\n1 1 1\n1 6 1"

theorem pairText_mtx : MtxText pairText.toList "general".toList 3 6 2 [(1, 1), (1, 6)] := by
  refine ⟨"%%MatrixMarket matrix coordinate real general".toList, [],
    "3 6 2".toList, ["1 1 1".toList], "1 6 1".toList, ?_, ?_, ?_, ?_, ?_⟩
  · refine ⟨by unfold Word; decide, [], "%%MatrixMarket".toList, [' '], "matrix".toList, [' '], "coordinate".toList, [' '],
      "real".toList, [' '], [], by unfold Blank; decide, by unfold Word; decide, by unfold Blank; decide, by decide,
      by unfold Word; decide, by unfold Blank; decide, by decide, by unfold Word; decide, by unfold Blank; decide, by decide,
      by unfold Word; decide, by unfold Blank; decide, by decide, by decide, ?_, by decide⟩
    rintro c r h; cases h
  · intro c hc; cases hc
  · refine ⟨by decide, by decide, by decide, [], ['3'], [' '], ['6'], [' '], ['2'], [], by unfold Blank; decide,
      .one (i := 3) (by decide), by unfold Blank; decide, by decide, .one (i := 6) (by decide), by unfold Blank; decide,
      by decide, .one (i := 2) (by decide), ⟨by decide, ?_⟩, by decide⟩
    rintro c r h; cases h
  · refine .cons ?_ (.cons ?_ .nil)
    · refine ⟨by decide, by decide, [], ['1'], [' '], ['1'], " 1".toList, by unfold Blank; decide,
        .one (i := 1) (by decide), by unfold Blank; decide, by decide, .one (i := 1) (by decide), ⟨by decide, ?_⟩, by decide⟩
      rintro c r h; cases h; decide
    · refine ⟨by decide, by decide, [], ['1'], [' '], ['6'], " 1".toList, by unfold Blank; decide,
        .one (i := 1) (by decide), by unfold Blank; decide, by decide, .one (i := 6) (by decide), ⟨by decide, ?_⟩, by decide⟩
      rintro c r h; cases h; decide
  · decide +kernel

/-- The empty columns are lost, for every random stream. -/
example (rng : Rng) : mainCompute (mainOne rng) 1 2 (7 / 10) 0 (some pairText.toList) "degree" = .error .ub :=
  C106_lost (opts := exampleOpts) (E := 3) (V := 6) (T := 10) (by decide) (plainRecEnv_runs exampleOpts 3 10 (by decide)) rfl
    (mainOne_ok rng) (by decide)
    ⟨by decide, by decide, by unfold EntriesIn; decide, by decide, 2, _, rfl, by decide, Or.inl ⟨pairText_mtx, rfl⟩⟩
    (by decide) _ _ (by unfold EmptyColumn; decide) (by unfold EmptyColumn AloneColumn; decide)

/-- With one more entry, in a row of its own, they are not. -/
example (rng : Rng) : ∃ o, mainCompute (mainOne rng) 1 2 (7 / 10) 0 (some sixText.toList) "degree" = .ok (some o) ∧
    Reports 1 2 3 6 [(1, 1), (1, 6), (3, 2)] (fun l => (l.length : Int)) o :=
  C106_reports (opts := exampleOpts) (T := 10) (by decide) (plainRecEnv_runs exampleOpts 3 10 (by decide)) rfl
    (mainOne_ok rng) (by decide)
    ⟨by decide, by decide, by unfold EntriesIn; decide, by decide, 3, _, rfl, by decide, Or.inl ⟨sixText_mtx, rfl⟩⟩
    (by decide) _ _ (Or.inr (by unfold EmptyColumn AloneColumn; decide))

end PMondriaan

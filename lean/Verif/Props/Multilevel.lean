import Verif.Proofs.Multilevel

/-
C50: the sequential multilevel bisection.
-/

namespace PMondriaan

open Spec

theorem copyLabels_ok {H : Hypergraph} (w : WF H) (labels : Interval) (vs : List Vertex)
    (hvs : ∀ v ∈ vs, IsVertex H v.id) (P : Nat → Int) :
    vs.foldlM (copyLabel labels) (relabel H P) =
      .ok (relabel H (setAll P (vs.map (fun v => (v.id, labels.label v.part))))) := by
  induction vs generalizing P with
  | nil => rfl
  | cons v vs ih =>
    rw [List.foldlM_cons]
    unfold copyLabel
    rw [setPartOf_relabel w P (hvs v (by simp))]
    simp only [ok_bind]
    have := ih (fun x hx => hvs x (by simp [hx])) (setAll P [(v.id, labels.label v.part)])
    unfold copyLabel at this
    rw [this, ← setAll_append]
    rfl

/-- Relabelling a range. -/
theorem relabel_range {H : Hypergraph} (w : WF H) {s e : Nat}
    {labels : Interval} (hl : labels.low ≠ labels.high)
    {A : Hypergraph} (hb : Bipartitioned A)
    (hp : (A.vertices.map (fun v => (v.id, v.weight))).Perm
      ((slice H.vertices s e).map (fun v => (v.id, v.weight)))) :
    ∃ H', A.vertices.foldlM (copyLabel labels) H = .ok H' ∧
      Relabels s e labels.low labels.high H H' ∧
      partWeight A 0 = rangeWeight H' s e labels.low ∧
      partWeight A 1 = rangeWeight H' s e labels.high ∧
      ∀ v ∈ slice H'.vertices s e, v.part = labels.label (partOf A v.id) := by
  set U := A.vertices.map (fun v => (v.id, labels.label v.part)) with hU
  set P := setAll (partOf H) U with hP
  have hids : (A.vertices.map (·.id)).Perm ((slice H.vertices s e).map (·.id)) := by
    have := hp.map (·.1)
    rw [List.map_map, List.map_map] at this
    exact this
  have hsub : (slice H.vertices s e).Sublist H.vertices :=
    (List.take_sublist _ _).trans (List.drop_sublist _ _)
  have hUid : U.map (·.1) = A.vertices.map (·.id) := by rw [hU, List.map_map]; rfl
  have hnd : (U.map (·.1)).Nodup := by
    rw [hUid]
    exact hids.nodup_iff.2 (w.vids.sublist (hsub.map _))
  have hIs : ∀ v ∈ A.vertices, IsVertex H v.id := by
    intro v hv
    obtain ⟨x, hx, he⟩ := List.mem_map.1 (hids.subset (List.mem_map.2 ⟨v, hv, rfl⟩))
    exact List.mem_map.2 ⟨x, hsub.subset hx, he⟩
  have hlab : ∀ x ∈ A.vertices, P x.id = labels.label x.part := fun x hx =>
    setAll_mem _ U hnd (List.mem_map.2 ⟨x, hx, rfl⟩)
  have hsl : ∀ i (v : Vertex), s ≤ i → i < e → H.vertices[i]? = some v →
      v ∈ slice H.vertices s e := by
    intro i v hi he hv
    rw [List.mem_iff_getElem?]
    refine ⟨i - s, ?_⟩
    unfold slice
    rw [List.getElem?_take, if_pos (by omega), List.getElem?_drop]
    rw [← hv]
    congr 1
    omega
  have hlh : ∀ x ∈ A.vertices, (labels.label x.part = labels.low ↔ x.part = 0) ∧
      (labels.label x.part = labels.high ↔ x.part = 1) := by
    intro x hx
    rcases hb x hx with h | h
    · rw [h]; simp [Interval.label, hl]
    · rw [h]; simp [Interval.label, hl.symm]
  have hin : ∀ v ∈ slice H.vertices s e, P v.id = labels.low ∨ P v.id = labels.high := by
    intro v hv
    obtain ⟨x, hx, he⟩ := List.mem_map.1 (hids.symm.subset (List.mem_map.2 ⟨v, hv, rfl⟩))
    have he : x.id = v.id := he
    rw [← he, hlab x hx]
    rcases hb x hx with h | h
    · left; rw [h]; rfl
    · right; rw [h]; rfl
  have hget : ∀ i : Nat, (relabel H P).vertices[i]? =
      (H.vertices[i]?).map (fun v : Vertex => { v with part := P v.id }) := relabel_get H P
  have hrw : ∀ q : Int, rangeWeight (relabel H P) s e q =
      ((((slice H.vertices s e).map (fun v => (v.id, v.weight))).filter
        (fun z => P z.1 = q)).map (·.2)).sum := by
    intro q
    unfold rangeWeight slice relabel
    simp only
    rw [← List.map_drop, ← List.map_take, List.filter_map, List.map_map, List.filter_map,
      List.map_map]
    rfl
  have hpw : ∀ (q r : Int), (∀ x ∈ A.vertices, (P x.id = r ↔ x.part = q)) → partWeight A q =
      (((A.vertices.map (fun v => (v.id, v.weight))).filter (fun z => P z.1 = r)).map (·.2)).sum := by
    intro q r h
    unfold partWeight
    rw [List.filter_map, List.map_map]
    have : A.vertices.filter (fun v => v.part = q) =
        A.vertices.filter ((fun z : Nat × Int => decide (P z.1 = r)) ∘ fun v => (v.id, v.weight)) := by
      apply List.filter_congr
      intro x hx
      simp only [Function.comp_def]
      rw [decide_eq_decide]
      exact (h x hx).symm
    rw [this]
    rfl
  refine ⟨relabel H P, ?_, ⟨rfl, ?_, ?_, ?_⟩, ?_, ?_, ?_⟩
  · have := copyLabels_ok w labels A.vertices hIs (partOf H)
    rw [relabel_self w] at this
    exact this
  · unfold relabel; simp
  · intro i hi
    rw [hget]
    cases hv : H.vertices[i]? with
    | none => rfl
    | some v =>
      have hvm : v ∈ H.vertices := List.mem_of_getElem? hv
      have hnot : v.id ∉ U.map (·.1) := by
        rw [hUid]
        intro hm
        obtain ⟨x, hx, he⟩ := List.mem_map.1 (hids.subset hm)
        have hxv : x = v := w.vertex_inj (hsub.subset hx) hvm he
        rw [hxv] at hx
        obtain ⟨j, hj⟩ := List.mem_iff_getElem?.1 hx
        unfold slice at hj
        rw [List.getElem?_take] at hj
        split at hj
        · rw [List.getElem?_drop] at hj
          have := w.vindex_inj hj hv rfl
          omega
        · cases hj
      rw [Option.map_some, hP, setAll_not_mem _ _ hnot, w.partOf_eq hvm]
  · intro i v hi he hv
    refine ⟨P v.id, hin v (hsl i v hi he hv), ?_⟩
    rw [hget, hv]
    rfl
  · rw [hpw 0 labels.low (fun x hx => by rw [hlab x hx]; exact (hlh x hx).1), hrw]
    exact ((hp.filter _).map _).sum_eq
  · rw [hpw 1 labels.high (fun x hx => by rw [hlab x hx]; exact (hlh x hx).2), hrw]
    exact ((hp.filter _).map _).sum_eq
  · intro v hv
    have hv' : v ∈ (slice H.vertices s e).map (fun v => { v with part := P v.id }) := by
      unfold slice at hv ⊢
      unfold relabel at hv
      rw [List.map_take, List.map_drop]
      exact hv
    obtain ⟨u, hu, rfl⟩ := List.mem_map.1 hv'
    obtain ⟨x, hx, he⟩ := List.mem_map.1 (hids.symm.subset (List.mem_map.2 ⟨u, hu, rfl⟩))
    have he : x.id = u.id := he
    show P u.id = labels.label (partOf A u.id)
    rw [← he, hlab x hx]
    congr 1
    unfold partOf
    have hndA : (A.vertices.map (·.id)).Nodup := by rw [← hUid]; exact hnd
    cases hc : A.vertices.find? (fun v => v.id == x.id) with
    | none =>
      rw [List.find?_eq_none] at hc
      exact absurd (beq_self_eq_true x.id) (by simpa using hc x hx)
    | some y =>
      have h3 := List.find?_some hc
      have h4 := List.inj_on_of_nodup_map hndA (List.mem_of_find?_eq_some hc) hx (by simpa using h3)
      rw [h4]

/-- `H0` is `H` restricted to the positions `s`, …, `e - 1`, and `H1` is `H0` without the vertices without nets. -/
structure RangeReduced (H : Hypergraph) (s e : Nat) (H0 H1 : Hypergraph) : Prop where
  wf : WF H0
  vertices : H0.vertices.map (fun v => (v.id, v.weight)) = (slice H.vertices s e).map (fun v => (v.id, v.weight))
  kept : H1.vertices.Perm (H0.vertices.filter (fun v => v.nets ≠ []))
  nets : H1.nets = H0.nets
  netOf : ∀ n' ∈ H0.nets, n'.cost = 1 ∧ ∃ n ∈ H.nets, n.id = n'.id ∧
    ∀ v ∈ slice H.vertices s e, v.id ∈ n'.vertices ↔ v.id ∈ n.vertices
  complete : ∀ n ∈ H.nets, ∀ u ∈ slice H.vertices s e, ∀ v ∈ slice H.vertices s e, u.id ∈ n.vertices →
    v.id ∈ n.vertices → u.id ≠ v.id → ∃ n' ∈ H0.nets, n'.id = n.id

/-- The steps of `bisect_multilevel` around the levels. -/
theorem bisectMultilevel_frame {F : Type} {E : Env F} {N : Nat} (hE : E.Ok N) {H : Hypergraph} (w : WF H)
    (hN : ∀ n ∈ H.nets, n.id < N) (hnets : H.nets.length < 2147483648)
    (hpos : ∀ v ∈ H.vertices, 0 < v.weight) (hf : H.vertices.length < E.fuel) {s e : Nat}
    (h1 : s ≤ e) (h2 : e ≤ H.vertices.length) (labels : Interval)
    (hl : labels.low ≠ labels.high) (opts : Options) (max0 max1 : Int) (rng : Rng) :
    ∃ R H0 C0 H1, createNewPar E.orderNets E.d1 E.d2 E.np [{ H := H, s := s, e := e }] = .ok [R] ∧ R.copy = .ok H0 ∧
      Contraction.mergeFree {} H0 = .ok (C0, H1) ∧ RangeReduced H s e H0 H1 ∧ LevelReady E.fuel H1 ∧
      H1.globalSize = H1.vertices.length ∧ ∀ H2 c rng2,
      mlLevel E 0 opts max0 max1 opts.coarseningMaxrounds H1 rng = .ok (H2, c, rng2) → LevelDone H1 H2 →
      ∃ r A l, bisectMultilevel E H opts max0 max1 s e labels rng = .ok r ∧
        Relabels s e labels.low labels.high H r.H ∧
        r.w0 = rangeWeight r.H s e labels.low ∧ r.w1 = rangeWeight r.H s e labels.high ∧
        (∀ v ∈ slice r.H.vertices s e, v.part = labels.label (partOf A v.id)) ∧
        A.vertices = H2.vertices ++ l ∧ (l.map (fun v => (v.id, v.weight))).Perm (freeOf H0) ∧
        GreedyPlaced (partWeight H2 0) (partWeight H2 1) max0 max1 l ∧
        r.w0 = partWeight A 0 ∧ r.w1 = partWeight A 1 := by
  set x : RangeOf := { H := H, s := s, e := e } with hx
  have hD : Distributed N ([x].map (·.H)) := by
    refine ⟨?_, ?_, ?_, ?_⟩
    · intro K hK; simp at hK; rw [hK]; exact w
    · simpa using w.vids
    · intro K hK; simp at hK; rw [hK]; exact hN
    · intro K hK K' hK' n hn n' hn' hid
      simp at hK hK'
      rw [hK] at hn; rw [hK'] at hn'
      rw [w.net_inj hn hn' hid]
  obtain ⟨Rs, c1, c2⟩ := createNewPar_ok hD (by intro y hy; simp at hy; rw [hy]; exact ⟨h1, h2⟩)
    hE.np hE.d1 hE.d2 hE.orderNets
  obtain ⟨R, hR, rfl⟩ : ∃ R, RestrictedTo [x] x R ∧ Rs = [R] := by
    cases c2 with
    | cons h t => cases t; exact ⟨_, h, rfl⟩
  obtain ⟨H0, k1, k2, k3, -, -, -, k7, k8⟩ := copy_ok hR.wf
  obtain ⟨H1, m1, m2, m3, m4, m5⟩ := C28_merge k2 (C := {}) rfl
  -- ids and weights of the reduced hypergraph
  have hslice : inRange x = slice H.vertices s e := rfl
  have hR0 : H0.vertices.map (fun v => (v.id, v.weight)) =
      (slice H.vertices s e).map (fun v => (v.id, v.weight)) := by
    rw [k3, ← hslice]
    exact forall2_map_eq hR.vertices (fun a b h => by rw [h.1, h.2.1])
  have hsub : (slice H.vertices s e).Sublist H.vertices :=
    (List.take_sublist _ _).trans (List.drop_sublist _ _)
  have hpos0 : ∀ v ∈ H0.vertices, 0 < v.weight := by
    intro v hv
    have : (v.id, v.weight) ∈ (slice H.vertices s e).map (fun v => (v.id, v.weight)) := by
      rw [← hR0]; exact List.mem_map.2 ⟨v, hv, rfl⟩
    obtain ⟨y, hy, he⟩ := List.mem_map.1 this
    have he : y.weight = v.weight := congrArg Prod.snd he
    rw [← he]
    exact hpos y (hsub.subset hy)
  have hlen0 : H0.vertices.length ≤ H.vertices.length := by
    have := congrArg List.length hR0
    rw [List.length_map, List.length_map] at this
    rw [this]
    exact hsub.length_le
  have hmem1 : ∀ v ∈ H1.vertices, v ∈ H0.vertices := fun v hv =>
    (List.mem_filter.1 (m3.subset hv)).1
  have hcost1 : ∀ n ∈ H1.nets, n.cost = 1 := by
    intro n hn
    rw [m4.nets] at hn
    obtain ⟨y, -, hy⟩ := forall2_mem_right k8 hn
    exact hy.2.1
  have hnl : H1.nets.length ≤ H.nets.length := by
    rw [m4.nets, ← k8.length_eq, ← List.length_map (f := (·.id)), ← List.length_map (as := H.nets) (f := (·.id))]
    apply List.Subperm.length_le
    apply List.subperm_of_subset hR.wf.nids
    intro i hi
    obtain ⟨-, v, hv, hiv⟩ := (hR.netIds i).1 hi
    obtain ⟨n, hn, hne, -⟩ := w.inc_net v (hsub.subset hv) i hiv
    exact List.mem_map.2 ⟨n, hn, hne⟩
  have hready : LevelReady E.fuel H1 := by
    refine ⟨m2, ?_, ?_, ?_, ?_, ?_⟩
    · intro n hn; rw [hcost1 n hn]; omega
    · have : H1.nets.map (·.cost) = List.replicate H1.nets.length 1 := by
        rw [List.eq_replicate_iff]
        refine ⟨by simp, ?_⟩
        intro c hc
        obtain ⟨n, hn, rfl⟩ := List.mem_map.1 hc
        exact hcost1 n hn
      rw [this]
      rw [List.sum_replicate_int]
      omega
    · intro v hv; exact hpos0 v (hmem1 v hv)
    · rw [m4.dups, k7]
    · have h3 := m3.length_eq
      have h4 := List.length_filter_le (fun v : Vertex => decide (v.nets ≠ [])) H0.vertices
      omega
  refine ⟨R, H0, _, H1, c1, k1, m1, ⟨k2, hR0, m3, m4.nets, ?_, ?_⟩, hready, m5, ?_⟩
  · intro n' hn'
    obtain ⟨y, hy, q1, q2, -, q4⟩ := forall2_mem_right k8 hn'
    obtain ⟨-, v, hv, hiv⟩ := (hR.netIds y.id).1 (List.mem_map.2 ⟨y, hy, rfl⟩)
    obtain ⟨n, hn, hne, hvn⟩ := w.inc_net v (hsub.subset hv) _ hiv
    refine ⟨q2, n, hn, by rw [hne, q1], ?_⟩
    intro u hu
    rw [q4.mem_iff, (hR.nets y hy).1, List.mem_map]
    constructor
    · rintro ⟨z, hz, hzu⟩
      have hz' := List.mem_filter.1 hz
      have hzm : z ∈ slice H.vertices s e := hz'.1
      have := w.vertex_inj (hsub.subset hzm) (hsub.subset hu) hzu
      rw [this] at hz'
      obtain ⟨n2, hn2, hne2, hvn2⟩ := w.inc_net u (hsub.subset hu) _ (of_decide_eq_true hz'.2)
      rw [w.net_inj hn hn2 (hne.trans hne2.symm)]
      exact hvn2
    · intro hun
      obtain ⟨z, hz, hzu, hzn⟩ := w.inc_vtx n hn _ hun
      have := w.vertex_inj hz (hsub.subset hu) hzu
      subst this
      exact ⟨z, List.mem_filter.2 ⟨hu, decide_eq_true (by rw [← hne]; exact hzn)⟩, rfl⟩
  · intro n hn u hu v hv hun hvn hne
    have hmem : ∀ u ∈ slice H.vertices s e, u.id ∈ n.vertices → n.id ∈ u.nets := by
      intro u hu hun
      obtain ⟨z, hz, hzu, hzn⟩ := w.inc_vtx n hn _ hun
      rw [← w.vertex_inj hz (hsub.subset hu) hzu]
      exact hzn
    have hpin : ∀ u ∈ slice H.vertices s e, u.id ∈ n.vertices → u.id ∈ rangePins [x] n.id := by
      intro u hu hun
      unfold rangePins
      rw [List.mem_flatMap]
      exact ⟨x, List.mem_singleton.2 rfl, List.mem_map.2
        ⟨u, List.mem_filter.2 ⟨hu, decide_eq_true (hmem u hu hun)⟩, rfl⟩⟩
    have htwo : 2 ≤ (rangePins [x] n.id).length := by
      have p1 := hpin u hu hun
      have p2 := hpin v hv hvn
      match hp : rangePins [x] n.id with
      | [] => rw [hp] at p1; cases p1
      | [q] =>
        rw [hp, List.mem_singleton] at p1 p2
        exact absurd (p1.trans p2.symm) hne
      | _ :: _ :: _ => simp
    obtain ⟨y, hy, hye⟩ := List.mem_map.1 ((hR.netIds n.id).2 ⟨htwo, u, hu, hmem u hu hun⟩)
    obtain ⟨n', hn', q⟩ := forall2_mem_left k8 hy
    exact ⟨n', hn', q.1.trans hye⟩
  intro H2 c rng2 l1 l2
  -- putting the free vertices back
  have hids2 : H2.vertices.map (·.id) = H1.vertices.map (·.id) := by
    have := congrArg (List.map (·.1)) l2.same.vertices
    rw [List.map_map, List.map_map] at this
    exact this
  have hfreend : ((freeOf H0).map (·.1)).Nodup := by
    unfold freeOf
    rw [List.map_map]
    exact k2.vids.sublist (List.filter_sublist.map _)
  have hfresh : ∀ f ∈ freeOf H0, ¬ IsVertex H2 f.1 := by
    intro f hf hv
    obtain ⟨a, ha, rfl⟩ := List.mem_map.1 hf
    unfold IsVertex at hv
    rw [hids2] at hv
    obtain ⟨b, hb, he⟩ := List.mem_map.1 hv
    have hb2 := List.mem_filter.1 (m3.subset hb)
    have ha2 := List.mem_filter.1 ha
    have : b = a := k2.vertex_inj hb2.1 ha2.1 he
    rw [this] at hb2
    simp at hb2 ha2
    exact hb2.2 ha2.2
  obtain ⟨a, l, a1, a2, a3, a4, -, -, a7, a8, a9⟩ := assignFree_ok hE.srt
    (C := withFree {} (freeOf H0) ((freeOf H0).map (·.2)).sum) l2.wf l2.bip max0 max1 rng2 hfreend hfresh
  have hplaced : FreePlaced (withFree {} (freeOf H0) ((freeOf H0).map (·.2)).sum) := by
    apply freePlaced_pos
    intro f hf
    obtain ⟨v, hv, rfl⟩ := List.mem_map.1 hf
    exact hpos0 v (List.mem_filter.1 hv).1
  have hlf : (l.map (fun v => (v.id, v.weight))).Perm (freeOf H0) := by
    rw [a4.1]
    rcases hplaced with h | h
    · have h : freeOf H0 = [] := h
      split
      · rw [h]
      · exact hE.srt _
    · have h : ¬ (withFree {} (freeOf H0) ((freeOf H0).map (·.2)).sum).globalFree = 0 := h
      rw [if_neg h]
      exact hE.srt _
  have hbA : Bipartitioned a.H := by
    intro v hv
    rw [a3, List.mem_append] at hv
    rcases hv with hv | hv
    · exact l2.bip v hv
    · exact greedy_parts a7 v hv
  have hpA : (a.H.vertices.map (fun v => (v.id, v.weight))).Perm
      ((slice H.vertices s e).map (fun v => (v.id, v.weight))) := by
    rw [a3, List.map_append, l2.same.vertices, ← hR0]
    refine ((m3.map _).append hlf).trans ?_
    unfold freeOf
    rw [← List.map_append]
    apply List.Perm.map
    have := List.filter_append_perm (fun v : Vertex => decide (v.nets ≠ [])) H0.vertices
    refine List.Perm.trans (List.Perm.append_left _ (List.Perm.of_eq ?_)) this
    apply List.filter_congr
    intro v _
    simp
  obtain ⟨H', r1, r2, r3, r4, r5⟩ := relabel_range w hl hbA hpA
  refine ⟨{ H := H', w0 := a.H.weightPart 0, w1 := a.H.weightPart 1, rng := a.rng }, a.H, l, ?_, r2, ?_, ?_, r5, a3, hlf,
    a7, by simp only [weightPart_eq], by simp only [weightPart_eq]⟩
  · unfold bisectMultilevel
    simp only [← hx, c1, ok_bind, vget, List.getElem?_cons_zero, k1, m1, l1, a1, r1, pure_eq_ok]
  · simp only [weightPart_eq]; exact r3
  · simp only [weightPart_eq]; exact r4

/-- C50: on one processor, `bisect_multilevel` succeeds, gives every vertex in the range the low or
the high label, changes no other vertex and no net, and returns the true weights of both labels.
What is missing: vertices of weight zero (`C50_false`), and `2^31` or more nets. -/
theorem C50_partial {F : Type} {E : Env F} {N : Nat} (hE : E.Ok N) {H : Hypergraph} (w : WF H)
    (hN : ∀ n ∈ H.nets, n.id < N) (hnets : H.nets.length < 2147483648)
    (hpos : ∀ v ∈ H.vertices, 0 < v.weight) (hf : H.vertices.length < E.fuel) {s e : Nat}
    (h1 : s ≤ e) (h2 : e ≤ H.vertices.length) (labels : Interval)
    (hl : labels.low ≠ labels.high) (opts : Options) (max0 max1 : Int) (rng : Rng) :
    ∃ r, bisectMultilevel E H opts max0 max1 s e labels rng = .ok r ∧
      Relabels s e labels.low labels.high H r.H ∧
      r.w0 = rangeWeight r.H s e labels.low ∧ r.w1 = rangeWeight r.H s e labels.high := by
  obtain ⟨_, H0, _, H1, -, -, -, -, hready, -, hrest⟩ :=
    bisectMultilevel_frame hE w hN hnets hpos hf h1 h2 labels hl opts max0 max1 rng
  obtain ⟨H2, rng2, l1, l2⟩ := mlLevel_ok hE 0 opts max0 max1 opts.coarseningMaxrounds H1 rng hready
  obtain ⟨r, A, l, r1, r2, r3, r4, -⟩ := hrest H2 _ rng2 l1 l2
  exact ⟨r, r1, r2, r3, r4⟩

/-- An environment for the examples: nothing is rearranged. -/
def exampleEnv (N : Nat) : Env Nat :=
  ⟨plainScores, fun r l => (l, r), id, id, id, fun _ l => l, fun _ l => l, blockPart 1 N, 10⟩

theorem exampleEnv_ok : (exampleEnv 6).Ok 6 where
  shuf := fun _ l => List.Perm.refl l
  order := fun l => List.Perm.refl l
  orderNets := fun l => List.Perm.refl l
  srt := fun l => List.Perm.refl l
  d1 := fun _ l => List.Perm.refl l
  d2 := fun _ l => List.Perm.refl l
  np := blockPart_valid 1 6 (by decide)

/-- One coarsening level, then a bisection of all four vertices with labels 4 and 5. -/
example : WF exampleH ∧ (∀ n ∈ exampleH.nets, n.id < 6) ∧ (∀ v ∈ exampleH.vertices, 0 < v.weight) ∧
    (bisectMultilevel (exampleEnv 6) exampleH
      { exampleOpts with coarseningMaxrounds := 1, maxClustersize := 1 } 6 6 0 4 ⟨4, 5⟩
      (fun n => n)).toOption.map
      (fun r => (r.H.vertices.map (·.part), r.w0, r.w1)) = some ([4, 4, 4, 5], 6, 4) :=
  ⟨exampleH_wf, by decide, by decide, by decide +kernel⟩

/-- Two vertices joined by a net, and a vertex of weight 0 without nets. -/
def zeroColumn : Hypergraph :=
  Hypergraph.create 3 1
    [{ id := 0, nets := [0], weight := 1, part := -1 }, { id := 1, nets := [0], weight := 1, part := -1 },
     { id := 2, nets := [], weight := 0, part := -1 }]
    [{ id := 0, vertices := [0, 1], cost := 1, globalSize := 2 }]

/-- C50 fails for a vertex of weight 0 without nets: it is set aside, not put back, and gets no
label. The reader gives weight 0 to empty columns when the weights are degrees. -/
theorem C50_false : WF zeroColumn ∧
    (bisectMultilevel (exampleEnv 1) zeroColumn exampleOpts 2 2 0 3 ⟨0, 1⟩ (fun n => n)).toOption.map
      (fun r => (r.H.vertices.map (·.part), r.w0, r.w1)) = some ([0, 0, -1], 2, 0) :=
  ⟨WF_create (by decide) (by decide) (by decide) (by decide) (by decide) (by decide),
    by decide +kernel⟩

end PMondriaan

import Verif.Proofs.Lone
import Verif.Proofs.Machine
import Verif.Model.RecBisect

/-
C105: the multilevel bisection with columns of weight zero.
-/

namespace PMondriaan

open Spec

/-- C105: weights are not negative, and positive for vertices that have nets (as with degrees for
weights). On one processor `bisect_multilevel` succeeds, gives every vertex in the range the low or
the high label except the forgotten ones, which keep theirs: the vertices that share no net with
another vertex of the range, provided that all of them weigh nothing. No other vertex and no net is
changed, and the weights returned are the true ones. -/
theorem C105_zero_weights {F : Type} {E : Env F} {N : Nat} (hE : E.Ok N) {H : Hypergraph} (w : WF H)
    (hN : ∀ n ∈ H.nets, n.id < N) (hnets : H.nets.length < 2147483648)
    (hw : ∀ v ∈ H.vertices, 0 ≤ v.weight) (hpos : ∀ v ∈ H.vertices, v.nets ≠ [] → 0 < v.weight)
    (hf : H.vertices.length < E.fuel) {s e : Nat}
    (h1 : s ≤ e) (h2 : e ≤ H.vertices.length) (labels : Interval)
    (hl : labels.low ≠ labels.high) (opts : Options) (max0 max1 : Int) (rng : Rng) :
    ∃ r, bisectMultilevel E H opts max0 max1 s e labels rng = .ok r ∧
      RelabelsOthers s e labels.low labels.high H r.H ∧
      r.w0 = rangeWeight r.H s e labels.low ∧ r.w1 = rangeWeight r.H s e labels.high := by
  obtain ⟨x, hx⟩ : ∃ x : RangeOf, x = { H := H, s := s, e := e } := ⟨_, rfl⟩
  have hD : Distributed N ([x].map (·.H)) := by
    subst hx
    refine ⟨?_, ?_, ?_, ?_⟩
    · intro K hK; simp at hK; rw [hK]; exact w
    · simpa using w.vids
    · intro K hK; simp at hK; rw [hK]; exact hN
    · intro K hK K' hK' n hn n' hn' hid
      simp at hK hK'
      rw [hK] at hn; rw [hK'] at hn'
      rw [w.net_inj hn hn' hid]
  obtain ⟨Rs, c1, c2⟩ := createNewPar_ok hD (by intro y hy; simp at hy; rw [hy, hx]; exact ⟨h1, h2⟩)
    hE.np hE.d1 hE.d2 hE.orderNets
  obtain ⟨R, hR, rfl⟩ : ∃ R, RestrictedTo [x] x R ∧ Rs = [R] := by
    cases c2 with
    | cons h t => cases t; exact ⟨_, h, rfl⟩
  subst hx
  obtain ⟨H0, k1, k2, k3, -, -, -, k7, k8⟩ := copy_ok hR.wf
  obtain ⟨H1, m1, m2, m3, m4, m5⟩ := C28_merge k2 (C := {}) rfl
  have hsub : (slice H.vertices s e).Sublist H.vertices :=
    (List.take_sublist _ _).trans (List.drop_sublist _ _)
  have hF : List.Forall₂ (fun v v' => v'.id = v.id ∧ v'.weight = v.weight ∧ (v'.nets = [] ↔ Lone H s e v) ∧
      (v'.nets ≠ [] → v.nets ≠ [])) (slice H.vertices s e) H0.vertices := by
    rw [k3]
    have hv : List.Forall₂ _ (slice H.vertices s e) R.vertices := hR.vertices
    refine List.Forall₂.imp (R := fun v v' => v ∈ slice H.vertices s e ∧ (v'.id = v.id ∧ v'.weight = v.weight ∧
      v'.part = v.part ∧ ∀ i, i ∈ v'.nets ↔ i ∈ v.nets ∧ 2 ≤ (rangePins [{ H := H, s := s, e := e }] i).length)) ?_ ?_
    · rintro v v' ⟨hm, q1, q2, -, q4⟩
      refine ⟨q1, q2, lone_iff w hm q4, ?_⟩
      intro hne hnil
      obtain ⟨i, hi⟩ := List.exists_mem_of_ne_nil _ hne
      have := ((q4 i).1 hi).1
      rw [hnil] at this
      cases this
    · have : ∀ (l : List Vertex) (l' : List Vertex), List.Forall₂ (fun v v' => v'.id = v.id ∧ v'.weight = v.weight ∧
          v'.part = v.part ∧ ∀ i, i ∈ v'.nets ↔ i ∈ v.nets ∧
            2 ≤ (rangePins [{ H := H, s := s, e := e }] i).length) l l' →
          List.Forall₂ (fun v v' => v ∈ l ∧ (v'.id = v.id ∧ v'.weight = v.weight ∧
          v'.part = v.part ∧ ∀ i, i ∈ v'.nets ↔ i ∈ v.nets ∧
            2 ≤ (rangePins [{ H := H, s := s, e := e }] i).length)) l l' := by
        intro l l' h
        induction h with
        | nil => exact List.Forall₂.nil
        | cons hab _ ih =>
          refine List.Forall₂.cons ⟨by simp, hab⟩ (ih.imp ?_)
          rintro a b ⟨ha, hb⟩
          exact ⟨by simp [ha], hb⟩
      exact this _ _ hv
  have hfrom : ∀ v' ∈ H0.vertices, ∃ v ∈ slice H.vertices s e, v'.id = v.id ∧ v'.weight = v.weight ∧
      (v'.nets = [] ↔ Lone H s e v) ∧ (v'.nets ≠ [] → v.nets ≠ []) := fun v' hv' => forall2_mem_right hF hv'
  have hto : ∀ v ∈ slice H.vertices s e, ∃ v' ∈ H0.vertices, v'.id = v.id ∧ v'.weight = v.weight ∧
      (v'.nets = [] ↔ Lone H s e v) ∧ (v'.nets ≠ [] → v.nets ≠ []) := fun v hv => forall2_mem_left hF hv
  have hmem1 : ∀ v ∈ H1.vertices, v ∈ H0.vertices ∧ v.nets ≠ [] := fun v hv => by
    have := List.mem_filter.1 (m3.subset hv)
    exact ⟨this.1, of_decide_eq_true this.2⟩
  have hcost1 : ∀ n ∈ H1.nets, n.cost = 1 := by
    intro n hn
    rw [m4.nets] at hn
    obtain ⟨y, -, hy⟩ := forall2_mem_right k8 hn
    exact hy.2.1
  have hnl : H1.nets.length ≤ H.nets.length := by
    rw [m4.nets, ← k8.length_eq, ← List.length_map (f := (·.id)), ← List.length_map (as := H.nets) (f := (·.id))]
    apply List.Subperm.length_le
    apply List.subperm_of_subset hR.wf.nids
    intro i hi
    obtain ⟨-, v, hv, hiv⟩ := (hR.netIds i).1 hi
    obtain ⟨n, hn, hne, -⟩ := w.inc_net v (hsub.subset hv) i hiv
    exact List.mem_map.2 ⟨n, hn, hne⟩
  have hready : LevelReady E.fuel H1 := by
    refine ⟨m2, ?_, ?_, ?_, ?_, ?_⟩
    · intro n hn; rw [hcost1 n hn]; omega
    · have : H1.nets.map (·.cost) = List.replicate H1.nets.length 1 := by
        rw [List.eq_replicate_iff]
        refine ⟨by simp, ?_⟩
        intro c hc
        obtain ⟨n, hn, rfl⟩ := List.mem_map.1 hc
        exact hcost1 n hn
      rw [this]
      rw [List.sum_replicate_int]
      omega
    · intro v hv
      obtain ⟨hv0, hvn⟩ := hmem1 v hv
      obtain ⟨u, hu, -, q2, -, q4⟩ := hfrom v hv0
      rw [q2]
      exact hpos u (hsub.subset hu) (q4 hvn)
    · rw [m4.dups, k7]
    · have h3 := m3.length_eq
      have h4 := List.length_filter_le (fun v : Vertex => decide (v.nets ≠ [])) H0.vertices
      have h5 := hF.length_eq
      have h6 := hsub.length_le
      omega
  obtain ⟨H2, rng2, l1, l2⟩ := mlLevel_ok hE 0 opts max0 max1 opts.coarseningMaxrounds H1 rng hready
  have hids2 : H2.vertices.map (·.id) = H1.vertices.map (·.id) := by
    have := congrArg (List.map (·.1)) l2.same.vertices
    rw [List.map_map, List.map_map] at this
    exact this
  have hfreend : ((freeOf H0).map (·.1)).Nodup := by
    unfold freeOf
    rw [List.map_map]
    exact k2.vids.sublist (List.filter_sublist.map _)
  have hfresh : ∀ f ∈ freeOf H0, ¬ IsVertex H2 f.1 := by
    intro f hf hv
    obtain ⟨a, ha, rfl⟩ := List.mem_map.1 hf
    unfold IsVertex at hv
    rw [hids2] at hv
    obtain ⟨b, hb, he⟩ := List.mem_map.1 hv
    have hb2 := hmem1 b hb
    have ha2 := List.mem_filter.1 ha
    have : b = a := k2.vertex_inj hb2.1 ha2.1 he
    rw [this] at hb2
    simp at ha2
    exact hb2.2 ha2.2
  obtain ⟨a, l, a1, a2, a3, a4, -, -, a7, a8, a9⟩ := assignFree_ok hE.srt
    (C := withFree {} (freeOf H0) ((freeOf H0).map (·.2)).sum) l2.wf l2.bip max0 max1 rng2 hfreend hfresh
  have hbA : Bipartitioned a.H := by
    intro v hv
    rw [a3, List.mem_append] at hv
    rcases hv with hv | hv
    · exact l2.bip v hv
    · exact greedy_parts a7 v hv
  -- the kept vertices
  have hkeep1 : (H1.vertices.map (fun v => (v.id, v.weight))).Perm
      (((slice H.vertices s e).filter (fun v => decide (¬ Lone H s e v))).map (fun v => (v.id, v.weight))) := by
    refine (m3.map _).trans (List.Perm.of_eq ?_)
    exact forall2_filter_map hF _ _ _ _ (fun v _ v' h => ⟨by rw [decide_eq_decide, ne_eq, h.2.2.1], by
      rw [h.1, h.2.1]⟩)
  have hfree1 : freeOf H0 =
      ((slice H.vertices s e).filter (fun v => decide (Lone H s e v))).map (fun v => (v.id, v.weight)) := by
    unfold freeOf
    exact forall2_filter_map hF _ _ _ _ (fun v _ v' h => ⟨by rw [decide_eq_decide, h.2.2.1], by
      rw [h.1, h.2.1]⟩)
  have hfw : ∀ f ∈ freeOf H0, 0 ≤ f.2 := by
    intro f hf
    rw [hfree1] at hf
    obtain ⟨v, hv, rfl⟩ := List.mem_map.1 hf
    exact hw v (hsub.subset (List.mem_filter.1 hv).1)
  have hall : (((freeOf H0).map (·.2)).sum = 0) ↔ ∀ u ∈ slice H.vertices s e, Lone H s e u → u.weight = 0 := by
    constructor
    · intro hs u hu hL
      have hmem : (u.id, u.weight) ∈ freeOf H0 := by
        rw [hfree1]
        exact List.mem_map.2 ⟨u, List.mem_filter.2 ⟨hu, decide_eq_true hL⟩, rfl⟩
      have hle : u.weight ≤ ((freeOf H0).map (·.2)).sum := entry_le_sum (by
        intro y hy
        obtain ⟨f, hf, rfl⟩ := List.mem_map.1 hy
        exact hfw f hf) (List.mem_map.2 ⟨_, hmem, rfl⟩)
      have := hw u (hsub.subset hu)
      omega
    · intro hz
      have : (freeOf H0).map (·.2) = List.replicate (freeOf H0).length 0 := by
        rw [List.eq_replicate_iff]
        refine ⟨by simp, ?_⟩
        intro y hy
        obtain ⟨f, hf, rfl⟩ := List.mem_map.1 hy
        rw [hfree1] at hf
        obtain ⟨v, hv, rfl⟩ := List.mem_map.1 hf
        obtain ⟨hv1, hv2⟩ := List.mem_filter.1 hv
        exact hz v hv1 (of_decide_eq_true hv2)
      rw [this]
      simp
  have hpA : (a.H.vertices.map (fun v => (v.id, v.weight))).Perm
      (((slice H.vertices s e).filter (fun v => decide (¬ Forgotten H s e v))).map (fun v => (v.id, v.weight))) := by
    rw [a3, List.map_append, l2.same.vertices, a4.1]
    have hg : (withFree {} (freeOf H0) ((freeOf H0).map (·.2)).sum).globalFree = ((freeOf H0).map (·.2)).sum := rfl
    have hfr : (withFree {} (freeOf H0) ((freeOf H0).map (·.2)).sum).free = freeOf H0 := rfl
    rw [hg, hfr]
    by_cases hz : ((freeOf H0).map (·.2)).sum = 0
    · rw [if_pos hz, List.append_nil]
      refine hkeep1.trans (List.Perm.of_eq ?_)
      congr 1
      apply List.filter_congr
      intro v hv
      rw [decide_eq_decide]
      unfold Forgotten
      constructor
      · intro h h'; exact h h'.1
      · intro h h'; exact h ⟨h', hall.1 hz⟩
    · rw [if_neg hz]
      have hnone : (slice H.vertices s e).filter (fun v => decide (¬ Forgotten H s e v)) = slice H.vertices s e := by
        rw [List.filter_eq_self]
        intro v hv
        apply decide_eq_true
        intro h
        exact hz (hall.2 h.2)
      rw [hnone]
      refine (hkeep1.append (hE.srt _)).trans ?_
      rw [hfree1, ← List.map_append]
      apply List.Perm.map
      have := List.filter_append_perm (fun v : Vertex => decide (¬ Lone H s e v)) (slice H.vertices s e)
      refine List.Perm.trans (List.Perm.append_left _ (List.Perm.of_eq ?_)) this
      apply List.filter_congr
      intro v _
      simp
  obtain ⟨H', r1, r2, r3, r4, r5, r6, r7, r8⟩ := relabel_some w hl hbA (fun v => ¬ Forgotten H s e v)
    (by
      intro v hv hk
      rw [not_not] at hk
      exact hk.2 v hv hk.1) hpA
  refine ⟨{ H := H', w0 := a.H.weightPart 0, w1 := a.H.weightPart 1, rng := a.rng }, ?_, ⟨r2, r3, r4, ?_, r6⟩, ?_, ?_⟩
  · unfold bisectMultilevel
    simp only [c1, ok_bind, vget, List.getElem?_cons_zero, k1, m1, l1, a1, r1, pure_eq_ok]
  · intro i v hi he hv hF
    exact r5 i v hi he hv (not_not.2 hF)
  · simp only [weightPart_eq]; exact r7
  · simp only [weightPart_eq]; exact r8

/-- With a vertex of positive weight among those that are alone, or none that is alone, every vertex
of the range gets a label. -/
theorem C105_all {F : Type} {E : Env F} {N : Nat} (hE : E.Ok N) {H : Hypergraph} (w : WF H)
    (hN : ∀ n ∈ H.nets, n.id < N) (hnets : H.nets.length < 2147483648)
    (hw : ∀ v ∈ H.vertices, 0 ≤ v.weight) (hpos : ∀ v ∈ H.vertices, v.nets ≠ [] → 0 < v.weight)
    (hf : H.vertices.length < E.fuel) {s e : Nat}
    (h1 : s ≤ e) (h2 : e ≤ H.vertices.length) (labels : Interval)
    (hl : labels.low ≠ labels.high) (opts : Options) (max0 max1 : Int) (rng : Rng)
    (hsome : (∃ u ∈ slice H.vertices s e, Lone H s e u ∧ 0 < u.weight) ∨
      ∀ u ∈ slice H.vertices s e, ¬ Lone H s e u) :
    ∃ r, bisectMultilevel E H opts max0 max1 s e labels rng = .ok r ∧
      Relabels s e labels.low labels.high H r.H ∧
      r.w0 = rangeWeight r.H s e labels.low ∧ r.w1 = rangeWeight r.H s e labels.high := by
  obtain ⟨r, r1, r2, r3, r4⟩ := C105_zero_weights hE w hN hnets hw hpos hf h1 h2 labels hl opts max0 max1 rng
  refine ⟨r, r1, ⟨r2.rest, r2.length, r2.outside, ?_⟩, r3, r4⟩
  intro i v hi he hv
  apply r2.inside i v hi he hv
  intro hF
  rcases hsome with ⟨u, hu, hL, hpos'⟩ | hno
  · have := hF.2 u hu hL
    omega
  · refine hno v ?_ hF.1
    rw [List.mem_iff_getElem?]
    refine ⟨i - s, ?_⟩
    unfold slice
    rw [List.getElem?_take, if_pos (by omega), List.getElem?_drop]
    rw [← hv]
    congr 1
    omega

/-- Two parts, λ metric: the whole program part `recursive_bisect` on one processor with the multilevel
method. A column that shares no row with another column gets no part exactly if all such columns
weigh nothing. -/
theorem C105_two {F : Type} {E : Env F} {N : Nat} (hE : E.Ok N) {opts : Options} {P : RecEnv}
    (hb : P.bis = fun H m0 m1 s e l rng => bisectMultilevel E H opts m0 m1 s e l rng) (hc : P.cutMetric = false)
    {H : Hypergraph} (w : WF H)
    (hN : ∀ n ∈ H.nets, n.id < N) (hnets : H.nets.length < 2147483648)
    (hw : ∀ v ∈ H.vertices, 0 ≤ v.weight) (hpos : ∀ v ∈ H.vertices, v.nets ≠ [] → 0 < v.weight)
    (hf : H.vertices.length < E.fuel) (htot : H.totalWeight ≠ 0) (epsilon : ℚ) (rng : Rng) :
    ∃ s, recursiveBisect P H 2 epsilon rng = .ok s ∧ RelabelsOthers 0 H.vertices.length 0 1 H s.H := by
  obtain ⟨r, r1, r2, -⟩ := C105_zero_weights hE w hN hnets hw hpos hf (Nat.zero_le _) (le_refl H.vertices.length)
    ⟨0, 1⟩ (by decide) opts (boundFor P.rnd 2 1 H.totalWeight (maxWeight P.rnd epsilon H.totalWeight 2))
    (boundFor P.rnd 2 1 H.totalWeight (maxWeight P.rnd epsilon H.totalWeight 2)) rng
  refine ⟨⟨r.H, r.rng, [], [], 1, [⟨0, H.vertices.length, 0, 1, boundFor P.rnd 2 1 H.totalWeight (maxWeight P.rnd epsilon H.totalWeight 2),
      boundFor P.rnd 2 1 H.totalWeight (maxWeight P.rnd epsilon H.totalWeight 2), r.w0, r.w1⟩]⟩, ?_, r2⟩
  unfold recursiveBisect recLoop recLoop splitStep computeMax bisectRange pushHigh maybeRemove restoreCut
  simp [hb, hc, htot, r1, Interval.length, ok_bind, pure_eq_ok]

/-- Two columns joined by a row, an empty column of weight 0, and a column of weight 2 in two rows of
its own. -/
def mixedColumns : Hypergraph :=
  Hypergraph.create 4 3
    [{ id := 0, nets := [0], weight := 1, part := -1 }, { id := 1, nets := [0], weight := 1, part := -1 },
     { id := 2, nets := [], weight := 0, part := -1 }, { id := 3, nets := [1, 2], weight := 2, part := -1 }]
    [{ id := 0, vertices := [0, 1], cost := 1, globalSize := 2 }, { id := 1, vertices := [3], cost := 1, globalSize := 1 },
     { id := 2, vertices := [3], cost := 1, globalSize := 1 }]

/-- In `zeroColumn` the empty column is forgotten; in `mixedColumns` there is a column of positive
weight that is alone, and the empty column gets a label with it; in the range without it, the empty
column is forgotten again. -/
example : WF mixedColumns ∧ (∀ v ∈ zeroColumn.vertices, Forgotten zeroColumn 0 3 v ↔ v.id = 2) ∧
    (∀ v ∈ mixedColumns.vertices, ¬ Forgotten mixedColumns 0 4 v) ∧
    (∀ v ∈ mixedColumns.vertices, Lone mixedColumns 0 4 v ↔ v.id = 2 ∨ v.id = 3) ∧
    (∀ v ∈ mixedColumns.vertices, v.nets ≠ [] → 0 < v.weight) ∧
    (bisectMultilevel (exampleEnv 3) mixedColumns exampleOpts 3 3 0 4 ⟨0, 1⟩ (fun n => n)).toOption.map
      (fun r => (r.H.vertices.map (·.part), r.w0, r.w1)) = some ([0, 0, 1, 1], 2, 2) ∧
    (bisectMultilevel (exampleEnv 3) mixedColumns exampleOpts 3 3 0 3 ⟨0, 1⟩ (fun n => n)).toOption.map
      (fun r => (r.H.vertices.map (·.part), r.w0, r.w1)) = some ([0, 0, -1, -1], 2, 0) :=
  ⟨WF_create (by decide) (by decide) (by decide) (by decide) (by decide) (by decide),
    by decide, by decide, by decide, by decide, by decide +kernel, by decide +kernel⟩

end PMondriaan

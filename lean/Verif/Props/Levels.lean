import Verif.Proofs.Levels
import Verif.Props.Multilevel

/-
C80: the bisection of the coarsest hypergraph gets no worse on the way up.
-/

namespace PMondriaan

open Spec

theorem setWeight_map (vs : List Vertex) (S : Nat → Bool) :
    setWeight vs S = (((vs.map (fun v => (v.id, v.weight))).filter (fun z => S z.1)).map (·.2)).sum := by
  unfold setWeight
  rw [List.filter_map, List.map_map]
  rfl

theorem setSize_map (vs : List Vertex) (S : Nat → Bool) :
    setSize vs S = ((vs.map (fun v => (v.id, v.weight))).filter (fun z => S z.1)).length := by
  unfold setSize
  rw [List.filter_map, List.length_map]
  rfl

section

variable {H H0 H1 : Hypergraph} {s e : Nat}

theorem RangeReduced.perm (h : RangeReduced H s e H0 H1) :
    (H1.vertices.map (fun v => (v.id, v.weight)) ++ freeOf H0).Perm
      ((slice H.vertices s e).map (fun v => (v.id, v.weight))) := by
  rw [← h.vertices]
  refine ((h.kept.map _).append_right _).trans ?_
  unfold freeOf
  rw [← List.map_append]
  apply List.Perm.map
  have := List.filter_append_perm (fun v : Vertex => decide (v.nets ≠ [])) H0.vertices
  refine List.Perm.trans (List.Perm.append_left _ (List.Perm.of_eq ?_)) this
  apply List.filter_congr
  intro v _
  simp

theorem RangeReduced.kept_of_pin (h : RangeReduced H s e H0 H1) {n' : Net} (hn : n' ∈ H0.nets) {u : Nat} (hu : u ∈ n'.vertices) :
    ∃ x ∈ H1.vertices, x.id = u := by
  obtain ⟨x, hx, hxe, hxn⟩ := h.wf.inc_vtx n' hn u hu
  refine ⟨x, h.kept.symm.subset (List.mem_filter.2 ⟨hx, decide_eq_true ?_⟩), hxe⟩
  rintro hnil
  rw [hnil] at hxn
  cases hxn

theorem RangeReduced.in_slice (h : RangeReduced H s e H0 H1) {x : Vertex} (hx : x ∈ H0.vertices) :
    ∃ v ∈ slice H.vertices s e, v.id = x.id ∧ v.weight = x.weight := by
  have : (x.id, x.weight) ∈ (slice H.vertices s e).map (fun v => (v.id, v.weight)) := by
    rw [← h.vertices]; exact List.mem_map.2 ⟨x, hx, rfl⟩
  obtain ⟨v, hv, he⟩ := List.mem_map.1 this
  exact ⟨v, hv, congrArg Prod.fst he, congrArg Prod.snd he⟩

theorem RangeReduced.net (h : RangeReduced H s e H0 H1) (w : WF H) {n : Net} (hn : n ∈ H.nets) {u v : Vertex}
    (hu : u ∈ slice H.vertices s e) (hv : v ∈ slice H.vertices s e) (hun : u.id ∈ n.vertices) (hvn : v.id ∈ n.vertices)
    (hne : u.id ≠ v.id) : ∃ n' ∈ H0.nets, n'.id = n.id ∧ u.id ∈ n'.vertices ∧ v.id ∈ n'.vertices := by
  obtain ⟨n', hn', he⟩ := h.complete n hn u hu v hv hun hvn hne
  obtain ⟨-, m, hm, hme, hmv⟩ := h.netOf n' hn'
  have := w.net_inj hm hn (hme.trans he)
  subst this
  exact ⟨n', hn', he, (hmv u hu).2 hun, (hmv v hv).2 hvn⟩

theorem slice_mem {vs : List Vertex} {v : Vertex} (h : v ∈ slice vs s e) : v ∈ vs :=
  ((List.take_sublist _ _).trans (List.drop_sublist _ _)).subset h

theorem RangeReduced.nodup (h : RangeReduced H s e H0 H1) (w : WF H) :
    (H1.vertices.map (·.id) ++ (freeOf H0).map (·.1)).Nodup := by
  have h1 := h.perm.map (·.1)
  rw [List.map_append, List.map_map, List.map_map] at h1
  have h2 : ((slice H.vertices s e).map (·.id)).Nodup :=
    w.vids.sublist (((List.take_sublist _ _).trans (List.drop_sublist _ _)).map _)
  exact h1.nodup_iff.2 h2

/-- A component of the reduced hypergraph is a component of the range. -/
theorem RangeReduced.component (h : RangeReduced H s e H0 H1) (w : WF H) {S : Nat → Bool}
    (hS : Component H1.nets H1.vertices S) :
    ∃ S', Component H.nets (slice H.vertices s e) S' ∧
      setWeight (slice H.vertices s e) S' = setWeight H1.vertices S ∧
      setSize (slice H.vertices s e) S' = setSize H1.vertices S ∧
      ((∃ v ∈ H1.vertices, S v.id = false) → ∃ v ∈ slice H.vertices s e, S' v.id = false) := by
  obtain ⟨Q, hQ⟩ : ∃ Q : Nat → Bool, Q = fun u => S u && decide (u ∈ H1.vertices.map (·.id)) := ⟨_, rfl⟩
  have hQt : ∀ s, Q s = true ↔ S s = true ∧ s ∈ H1.vertices.map (·.id) := by
    intro s; rw [hQ]; simp
  have hQv : ∀ v ∈ H1.vertices, Q v.id = S v.id := by
    intro v hv
    rw [hQ]
    have : v.id ∈ H1.vertices.map (·.id) := List.mem_map.2 ⟨v, hv, rfl⟩
    simp only [this, decide_true, Bool.and_true]
  have hin : ∀ x ∈ H1.vertices, ∃ v ∈ slice H.vertices s e, v.id = x.id := by
    intro x hx
    obtain ⟨v, hv, he, -⟩ := h.in_slice (List.mem_filter.1 (h.kept.subset hx)).1
    exact ⟨v, hv, he⟩
  have hfr : (freeOf H0).filter (fun z => Q z.1) = [] := by
    rw [List.filter_eq_nil_iff]
    intro f hf hQf
    exact (List.nodup_append.1 (h.nodup w)).2.2 f.1 ((hQt _).1 hQf).2 f.1 (List.mem_map.2 ⟨f, hf, rfl⟩) rfl
  have hcg : H1.vertices.filter ((fun x : Nat × Int => Q x.1) ∘ fun v => (v.id, v.weight)) =
      H1.vertices.filter (fun v => S v.id) := List.filter_congr (fun v hv => hQv v hv)
  refine ⟨Q, ⟨?_, ?_, ?_⟩, ?_, ?_, ?_⟩
  · obtain ⟨x, hx, hxS⟩ := hS.nonempty
    obtain ⟨v, hv, he⟩ := hin x hx
    exact ⟨v, hv, by rw [he, hQv x hx]; exact hxS⟩
  · intro n hn u hu v hv hun hvn
    by_cases hne : u.id = v.id
    · rw [hne]
    · obtain ⟨n', hn', -, hun', hvn'⟩ := h.net w hn hu hv hun hvn hne
      obtain ⟨x, hx, hxe⟩ := h.kept_of_pin hn' hun'
      obtain ⟨y, hy, hye⟩ := h.kept_of_pin hn' hvn'
      rw [← hxe, ← hye, hQv x hx, hQv y hy]
      exact hS.closed n' (by rw [h.nets]; exact hn') x hx y hy (by rw [hxe]; exact hun') (by rw [hye]; exact hvn')
  · intro T hT u hu v hv hQu hQv'
    obtain ⟨hSu, hu1⟩ := (hQt _).1 hQu
    obtain ⟨hSv, hv1⟩ := (hQt _).1 hQv'
    obtain ⟨x, hx, hxe⟩ := List.mem_map.1 hu1
    obtain ⟨y, hy, hye⟩ := List.mem_map.1 hv1
    have hxe : x.id = u.id := hxe
    have hye : y.id = v.id := hye
    rw [← hxe, ← hye]
    refine hS.linked T ?_ x hx y hy (by rw [hxe]; exact hSu) (by rw [hye]; exact hSv)
    intro n' hn' a ha b hb han hbn
    rw [h.nets] at hn'
    obtain ⟨-, n, hn, -, hnv⟩ := h.netOf n' hn'
    obtain ⟨a', ha', hae⟩ := hin a ha
    obtain ⟨b', hb', hbe⟩ := hin b hb
    have := hT n hn a' ha' b' hb' ((hnv a' ha').1 (by rw [hae]; exact han)) ((hnv b' hb').1 (by rw [hbe]; exact hbn))
    rw [hae, hbe] at this
    exact this
  · rw [setWeight_map, ← ((h.perm.filter (fun z => Q z.1)).map (·.2)).sum_eq, List.filter_append, List.map_append,
      List.sum_append]
    rw [hfr, List.map_nil, List.sum_nil, add_zero, List.filter_map, List.map_map, hcg]
    rfl
  · rw [setSize_map, ← (h.perm.filter (fun z => Q z.1)).length_eq, List.filter_append, hfr, List.append_nil,
      List.filter_map, List.length_map, hcg]
    rfl
  · rintro ⟨v, hv, hSv⟩
    obtain ⟨u, hu, hue⟩ := hin v hv
    exact ⟨u, hu, by rw [hue, hQv v hv]; exact hSv⟩

/-- A vertex of the range without nets is a component by itself. -/
theorem RangeReduced.free_component (h : RangeReduced H s e H0 H1) (w : WF H) {f : Nat × Int} (hf : f ∈ freeOf H0) :
    ∃ S', Component H.nets (slice H.vertices s e) S' ∧ setWeight (slice H.vertices s e) S' = f.2 ∧
      setSize (slice H.vertices s e) S' = 1 := by
  obtain ⟨v, hv, rfl⟩ := List.mem_map.1 hf
  obtain ⟨hv0, hvn⟩ := List.mem_filter.1 hv
  have hvn : v.nets = [] := of_decide_eq_true hvn
  obtain ⟨v', hv', hve, hvw⟩ := h.in_slice hv0
  have hno : ∀ n' ∈ H0.nets, v.id ∉ n'.vertices := by
    intro n' hn' hm
    obtain ⟨x, hx, hxe, hxn⟩ := h.wf.inc_vtx n' hn' _ hm
    rw [h.wf.vertex_inj hx hv0 hxe, hvn] at hxn
    cases hxn
  have hnd : (slice H.vertices s e).Nodup := List.Nodup.of_map (·.id)
    (w.vids.sublist (((List.take_sublist _ _).trans (List.drop_sublist _ _)).map _))
  have hone : (slice H.vertices s e).filter (fun x => x.id == v.id) = [v'] := by
    have : (slice H.vertices s e).filter (fun x => x.id == v.id) =
        (slice H.vertices s e).filter (fun x => x == v') := by
      apply List.filter_congr
      intro x hx
      rw [Bool.eq_iff_iff, beq_iff_eq, beq_iff_eq]
      constructor
      · intro he
        exact w.vertex_inj (slice_mem hx) (slice_mem hv') (he.trans hve.symm)
      · rintro rfl; exact hve
    rw [this, List.filter_beq, List.count_eq_one_of_mem hnd hv']
    rfl
  refine ⟨fun u => u == v.id, ⟨⟨v', hv', by simp [hve]⟩, ?_, ?_⟩, ?_, ?_⟩
  · intro n hn a ha b hb han hbn
    by_cases hne : a.id = b.id
    · rw [hne]
    · obtain ⟨n', hn', -, han', hbn'⟩ := h.net w hn ha hb han hbn hne
      have h1 : (a.id == v.id) = false := by
        rw [beq_eq_false_iff_ne]; intro he; rw [he] at han'; exact hno n' hn' han'
      have h2 : (b.id == v.id) = false := by
        rw [beq_eq_false_iff_ne]; intro he; rw [he] at hbn'; exact hno n' hn' hbn'
      show (a.id == v.id) = (b.id == v.id)
      rw [h1, h2]
  · intro T _ a _ b _ h1 h2
    rw [eq_of_beq h1, eq_of_beq h2]
  · unfold setWeight
    rw [hone]
    simp [hvw]
  · unfold setSize
    rw [hone]
    rfl

/-- The cut of the range is the cut of the reduced hypergraph. -/
theorem RangeReduced.cut (h : RangeReduced H s e H0 H1) (w : WF H) {H' A H2 : Hypergraph} {l : List Vertex} {labels : Interval}
    (hl : labels.low ≠ labels.high) (hnets : H'.nets = H.nets)
    (hids : (slice H'.vertices s e).map (·.id) = (slice H.vertices s e).map (·.id))
    (hp : ∀ v ∈ slice H'.vertices s e, v.part = labels.label (partOf A v.id)) (hA : A.vertices = H2.vertices ++ l)
    (hb : Bipartitioned H2) (h2 : H2.vertices.map (·.id) = H1.vertices.map (·.id)) :
    (rangeCut H' s e : Int) = cutNet (partOf H2) H1.nets := by
  have hpart : ∀ x ∈ H1.vertices, partOf A x.id = partOf H2 x.id ∧ (partOf H2 x.id = 0 ∨ partOf H2 x.id = 1) := by
    intro x hx
    have hx2 : x.id ∈ H2.vertices.map (·.id) := by rw [h2]; exact List.mem_map.2 ⟨x, hx, rfl⟩
    obtain ⟨y, hy, hye⟩ := List.mem_map.1 hx2
    have hye : y.id = x.id := hye
    unfold partOf
    rw [hA, List.find?_append]
    cases hc : H2.vertices.find? (fun v => v.id == x.id) with
    | none =>
      rw [List.find?_eq_none] at hc
      exact absurd hye (by simpa using hc y hy)
    | some z => exact ⟨rfl, hb z (List.mem_of_find?_eq_some hc)⟩
  have hlab : ∀ x ∈ H1.vertices, ∀ y ∈ H1.vertices,
      (labels.label (partOf A x.id) ≠ labels.label (partOf A y.id) ↔ partOf H2 x.id ≠ partOf H2 y.id) := by
    intro x hx y hy
    rw [(hpart x hx).1, (hpart y hy).1]
    rcases (hpart x hx).2 with h3 | h3 <;> rcases (hpart y hy).2 with h4 | h4 <;> rw [h3, h4] <;>
      simp [Interval.label, hl, hl.symm]
  have hto : ∀ v ∈ slice H'.vertices s e, ∃ u ∈ slice H.vertices s e, u.id = v.id := by
    intro v hv
    have : v.id ∈ (slice H.vertices s e).map (·.id) := by rw [← hids]; exact List.mem_map.2 ⟨v, hv, rfl⟩
    obtain ⟨u, hu, he⟩ := List.mem_map.1 this
    exact ⟨u, hu, he⟩
  have hfrom : ∀ v ∈ slice H.vertices s e, ∃ u ∈ slice H'.vertices s e, u.id = v.id := by
    intro v hv
    have : v.id ∈ (slice H'.vertices s e).map (·.id) := by rw [hids]; exact List.mem_map.2 ⟨v, hv, rfl⟩
    obtain ⟨u, hu, he⟩ := List.mem_map.1 this
    exact ⟨u, hu, he⟩
  have hc : cutNet (partOf H2) H1.nets = ((H0.nets.filter (fun n => decide (IsCut (partOf H2) n))).length : Int) := by
    unfold cutNet
    rw [h.nets]
    have h3 := fun n hn => (h.netOf n hn).1
    generalize H0.nets = ns at h3
    induction ns with
    | nil => rfl
    | cons n ns ih =>
      rw [List.map_cons, List.sum_cons, ih (fun m hm => h3 m (List.mem_cons_of_mem _ hm)), List.filter_cons]
      by_cases hcut : IsCut (partOf H2) n
      · rw [if_pos hcut, if_pos (decide_eq_true hcut), h3 n List.mem_cons_self, List.length_cons]
        push_cast
        omega
      · rw [if_neg hcut, if_neg (by simpa using hcut)]
        omega
  rw [hc]
  unfold rangeCut
  rw [hnets]
  have hperm : ((H.nets.filter (fun n => ∃ u ∈ slice H'.vertices s e, ∃ w ∈ slice H'.vertices s e,
      u.id ∈ n.vertices ∧ w.id ∈ n.vertices ∧ u.part ≠ w.part)).map (·.id)).Perm
      ((H0.nets.filter (fun n => decide (IsCut (partOf H2) n))).map (·.id)) := by
    rw [List.perm_ext_iff_of_nodup (w.nids.sublist (List.filter_sublist.map _))
      (h.wf.nids.sublist (List.filter_sublist.map _))]
    intro i
    rw [List.mem_map, List.mem_map]
    constructor
    · rintro ⟨n, hn, rfl⟩
      obtain ⟨hnm, hn⟩ := List.mem_filter.1 hn
      obtain ⟨u, hu, v, hv, hun, hvn, hne⟩ := of_decide_eq_true hn
      obtain ⟨u', hu', hue⟩ := hto u hu
      obtain ⟨v', hv', hve⟩ := hto v hv
      rw [hp u hu, hp v hv] at hne
      have hid : u'.id ≠ v'.id := by
        intro he
        apply hne
        rw [← hue, ← hve, he]
      obtain ⟨n', hn', he, hun', hvn'⟩ := h.net w hnm hu' hv' (by rw [hue]; exact hun) (by rw [hve]; exact hvn) hid
      refine ⟨n', List.mem_filter.2 ⟨hn', decide_eq_true ⟨u'.id, hun', v'.id, hvn', ?_⟩⟩, he⟩
      obtain ⟨x, hx, hxe⟩ := h.kept_of_pin hn' hun'
      obtain ⟨y, hy, hye⟩ := h.kept_of_pin hn' hvn'
      rw [← hxe, ← hye]
      rw [← hue, ← hve, ← hxe, ← hye] at hne
      exact (hlab x hx y hy).1 hne
    · rintro ⟨n', hn', rfl⟩
      obtain ⟨hnm, hn⟩ := List.mem_filter.1 hn'
      obtain ⟨a, ha, b, hb', hne⟩ := of_decide_eq_true hn
      obtain ⟨-, n, hnH, hne', hnv⟩ := h.netOf n' hnm
      refine ⟨n, List.mem_filter.2 ⟨hnH, decide_eq_true ?_⟩, hne'⟩
      obtain ⟨x, hx, hxe⟩ := h.kept_of_pin hnm ha
      obtain ⟨y, hy, hye⟩ := h.kept_of_pin hnm hb'
      obtain ⟨u, hu, hue, -⟩ := h.in_slice (List.mem_filter.1 (h.kept.subset hx)).1
      obtain ⟨v, hv, hve, -⟩ := h.in_slice (List.mem_filter.1 (h.kept.subset hy)).1
      obtain ⟨u', hu', hue'⟩ := hfrom u hu
      obtain ⟨v', hv', hve'⟩ := hfrom v hv
      refine ⟨u', hu', v', hv', ?_, ?_, ?_⟩
      · rw [hue']; exact (hnv u hu).1 (by rw [hue, hxe]; exact ha)
      · rw [hve']; exact (hnv v hv).1 (by rw [hve, hye]; exact hb')
      · rw [hp u' hu', hp v' hv', hue', hve', hue, hve]
        apply (hlab x hx y hy).2
        rw [hxe, hye]
        exact hne
  have := hperm.length_eq
  rw [List.length_map, List.length_map] at this
  rw [this]

end

theorem relabels_slice_ids {H H' : Hypergraph} {s e : Nat} {low high : Int} (h : Relabels s e low high H H') :
    (slice H'.vertices s e).map (fun v => (v.id, v.weight)) = (slice H.vertices s e).map (fun v => (v.id, v.weight)) := by
  have hv : H'.vertices.map (fun v => (v.id, v.weight)) = H.vertices.map (fun v => (v.id, v.weight)) := by
    apply List.ext_getElem?
    intro i
    rw [List.getElem?_map, List.getElem?_map]
    by_cases hi : i < s ∨ e ≤ i
    · rw [h.outside i hi]
    · cases hc : H.vertices[i]? with
      | none =>
        rw [List.getElem?_eq_none_iff] at hc
        rw [List.getElem?_eq_none (by rw [h.length]; exact hc)]
      | some v =>
        obtain ⟨p, -, he⟩ := h.inside i v (by omega) (by omega) hc
        rw [he]
        rfl
  unfold slice
  rw [List.map_take, List.map_drop, hv, ← List.map_drop, ← List.map_take]

/-- C80: on one processor, `bisect_multilevel` coarsens as long as there are more vertices than `coarsening_nrvertices`
and rounds are left, and bisects the coarsest hypergraph. If that bisection respects both bounds, then the bisection
returned respects them and cuts at most as many nets, unless some connected component of the range weighs more than what
the two bounds together leave over and is small enough to be contracted to one vertex: it has a single vertex, or at
most `(max_clustersize + 1)^j` vertices for `j` rounds, and then it is not the whole range if `max_clustersize` is less
than `coarsening_nrvertices`. What is missing: vertices of weight zero and `2^31` or more nets (see `C50_false`). -/
theorem C80_partial {F : Type} {E : Env F} {N : Nat} (hE : E.Ok N) {H : Hypergraph} (w : WF H)
    (hN : ∀ n ∈ H.nets, n.id < N) (hnets : H.nets.length < 2147483648)
    (hpos : ∀ v ∈ H.vertices, 0 < v.weight) (hf : H.vertices.length < E.fuel) {s e : Nat}
    (h1 : s ≤ e) (h2 : e ≤ H.vertices.length) (labels : Interval)
    (hl : labels.low ≠ labels.high) (opts : Options) (max0 max1 : Int) (rng : Rng) :
    ∃ (r : RState) (R H0 H1 : Hypergraph) (C0 : Contraction) (j : Nat) (G : Hypergraph) (rng0 : Rng) (K0 : Hypergraph) (rng1 : Rng),
      bisectMultilevel E H opts max0 max1 s e labels rng = .ok r ∧
      createNewPar E.orderNets E.d1 E.d2 E.np [{ H := H, s := s, e := e }] = .ok [R] ∧ R.copy = .ok H0 ∧
      Contraction.mergeFree {} H0 = .ok (C0, H1) ∧
      Descends E 0 opts j H1 rng G rng0 ∧ j ≤ opts.coarseningMaxrounds ∧
      (j = opts.coarseningMaxrounds ∨ G.globalSize ≤ opts.coarseningNrvertices) ∧
      initialPartitioning E.fuel E.shuf G max0 max1 opts rng0 = .ok (K0, some (cutValue .cutNet K0), rng1) ∧
      (Balanced K0 max0 max1 →
        (rangeWeight r.H s e labels.low ≤ max0 ∧ rangeWeight r.H s e labels.high ≤ max1 ∧
          (rangeCut r.H s e : Int) ≤ cutValue .cutNet K0) ∨
        ∃ S, Component H.nets (slice H.vertices s e) S ∧
          max0 + max1 < ((slice H.vertices s e).map (·.weight)).sum + setWeight (slice H.vertices s e) S ∧
          (setSize (slice H.vertices s e) S = 1 ∨
            setSize (slice H.vertices s e) S ≤ (opts.maxClustersize + 1) ^ j ∧
            (opts.maxClustersize < opts.coarseningNrvertices → ∃ v ∈ slice H.vertices s e, S v.id = false))) := by
  obtain ⟨R, H0, C0, H1, q1, q2, q3, hred, hready, hgs, hrest⟩ :=
    bisectMultilevel_frame hE w hN hnets hpos hf h1 h2 labels hl opts max0 max1 rng
  obtain ⟨H2, rng', j, G, rng0, K0, rng1, l1, l2, l3, l4, l5, l6, l7⟩ :=
    mlLevel_course hE 0 opts max0 max1 opts.coarseningMaxrounds H1 rng hready hgs
  obtain ⟨r, A, l, r1, r2, r3, r4, r5, r6, r7, r8, r9, r10⟩ := hrest H2 _ rng' l1 l2
  refine ⟨r, R, H0, H1, C0, j, G, rng0, K0, rng1, r1, q1, q2, q3, l3, l4, l5, l6, ?_⟩
  have hfpos : ∀ f ∈ freeOf H0, 0 ≤ f.2 := by
    intro f hf
    obtain ⟨v, hv, rfl⟩ := List.mem_map.1 hf
    obtain ⟨u, hu, -, he⟩ := hred.in_slice (List.mem_filter.1 hv).1
    show 0 ≤ v.weight
    rw [← he]
    exact le_of_lt (hpos u (slice_mem hu))
  have htot : (H1.vertices.map (·.weight)).sum + ((freeOf H0).map (·.2)).sum =
      ((slice H.vertices s e).map (·.weight)).sum := by
    have := (hred.perm.map (·.2)).sum_eq
    simpa [Function.comp_def] using this
  have hids2 : H2.vertices.map (·.id) = H1.vertices.map (·.id) := by
    have := congrArg (List.map (·.1)) l2.same.vertices
    rw [List.map_map, List.map_map] at this
    exact this
  have hw2 : allWeight H2 = (H1.vertices.map (·.weight)).sum := by
    have := congrArg (List.map (·.2)) l2.same.vertices
    rw [List.map_map, List.map_map] at this
    exact congrArg List.sum this
  have hcut : (rangeCut r.H s e : Int) = cutValue .cutNet H2 := by
    have hid : (slice r.H.vertices s e).map (·.id) = (slice H.vertices s e).map (·.id) := by
      have := congrArg (List.map (·.1)) (relabels_slice_ids r2)
      rw [List.map_map, List.map_map] at this
      exact this
    rw [hred.cut w hl (by rw [r2.rest]) hid r5 r6 l2.bip hids2, cutValue_content hready.wf .cutNet l2.same]
    rfl
  intro hbal
  rcases l7 hbal with ⟨b1, b2⟩ | ⟨S, hS, hlt, hsz, hout⟩
  swap
  · right
    obtain ⟨S', g1, g2, g3, g4⟩ := hred.component w hS
    refine ⟨S', g1, ?_, Or.inr ⟨by rw [g3]; exact hsz, fun hmc => g4 (hout hmc)⟩⟩
    have := sum_map_nonneg (freeOf H0) (·.2) hfpos
    rw [g2]
    omega
  have hlw : (l.map (·.weight)).sum = ((freeOf H0).map (·.2)).sum := by
    rw [← (r7.map (·.2)).sum_eq, List.map_map]
    rfl
  rcases greedy_over r8 b1.1 b1.2 (fun v hv => hfpos (v.id, v.weight) (r7.subset (List.mem_map.2 ⟨v, hv, rfl⟩))) with
    g | ⟨v, hv, hov⟩
  · left
    rw [← r3, ← r4, r9, r10, partWeight_add_list r6, partWeight_add_list r6, hcut]
    exact ⟨g.1, g.2, b2⟩
  · right
    obtain ⟨S, g1, g2, g3⟩ := hred.free_component w (r7.subset (List.mem_map.2 ⟨v, hv, rfl⟩))
    refine ⟨S, g1, ?_, Or.inl g3⟩
    rw [g2]
    have := bip_total l2.bip
    show max0 + max1 < _ + v.weight
    omega

/-- Three pairs of vertices of weight 2, each joined by a net. -/
def threePairs : Hypergraph :=
  Hypergraph.create 6 3
    [{ id := 0, nets := [0], weight := 2, part := -1 }, { id := 1, nets := [0], weight := 2, part := -1 },
     { id := 2, nets := [1], weight := 2, part := -1 }, { id := 3, nets := [1], weight := 2, part := -1 },
     { id := 4, nets := [2], weight := 2, part := -1 }, { id := 5, nets := [2], weight := 2, part := -1 }]
    [{ id := 0, vertices := [0, 1], cost := 1, globalSize := 2 },
     { id := 1, vertices := [2, 3], cost := 1, globalSize := 2 },
     { id := 2, vertices := [4, 5], cost := 1, globalSize := 2 }]

/-- One round of coarsening, two matched vertices at most to a cluster. -/
def oneRound : Options := { exampleOpts with coarseningMaxrounds := 1, maxClustersize := 1 }

/-- The bisection of the coarsest hypergraph after one round: parts of its vertices, part weights, cut. -/
def coarsestOf (H : Hypergraph) (N e : Nat) (max0 max1 : Int) : Res (List Int × Int × Int × Option Int) := do
  let Rs ← createNewPar (exampleEnv N).orderNets (exampleEnv N).d1 (exampleEnv N).d2 (exampleEnv N).np
    [{ H := H, s := 0, e := e }]
  let R ← vget Rs 0
  let H0 ← R.copy
  let (_, H1) ← Contraction.mergeFree {} H0
  let H1 ← simplifyDuplicateNets H1
  let (G, _, rng) ← coarsenSeq (exampleEnv N).scores (exampleEnv N).shuf (exampleEnv N).order 0 H1 {} oneRound
    (fun n => n)
  let (K, c, _) ← initialPartitioning (exampleEnv N).fuel (exampleEnv N).shuf G max0 max1 oneRound rng
  pure (K.vertices.map (·.part), partWeight K 0, partWeight K 1, c)

/-- With bounds 6 and 6 the coarsest bisection of the example hypergraph is within the bounds and cuts three nets; so
is and does the bisection returned. With bounds 8 and 8 on the three pairs, no net is cut. -/
example : (coarsestOf exampleH 6 4 6 6).toOption = some ([0, 1], 4, 6, some 3) ∧
    (bisectMultilevel (exampleEnv 6) exampleH oneRound 6 6 0 4 ⟨4, 5⟩ (fun n => n)).toOption.map
      (fun r => (r.H.vertices.map (·.part), r.w0, r.w1, rangeCut r.H 0 4)) = some ([4, 4, 4, 5], 6, 4, 3) ∧
    (coarsestOf threePairs 3 6 8 8).toOption = some ([], 0, 0, some 0) ∧
    (bisectMultilevel (exampleEnv 3) threePairs oneRound 8 8 0 6 ⟨4, 5⟩ (fun n => n)).toOption.map
      (fun r => (r.H.vertices.map (·.part), r.w0, r.w1, rangeCut r.H 0 6)) =
        some ([4, 4, 4, 4, 5, 5], 8, 4, 0) :=
  ⟨by decide +kernel, by decide +kernel, by decide +kernel, by decide +kernel⟩

/-- C80 needs its exception: with bounds 7 and 7 the three pairs are contracted to three vertices of weight 4 without nets,
which are set aside. The bisection of the (empty) coarsest hypergraph is within the bounds and cuts nothing. Two of the
three do not fit together in either part, and the refinement then cuts a net. -/
theorem C80_false : WF threePairs ∧ (∀ v ∈ threePairs.vertices, 0 < v.weight) ∧
    (coarsestOf threePairs 3 6 7 7).toOption = some ([], 0, 0, some 0) ∧
    (bisectMultilevel (exampleEnv 3) threePairs oneRound 7 7 0 6 ⟨4, 5⟩ (fun n => n)).toOption.map
      (fun r => (r.H.vertices.map (·.part), r.w0, r.w1, rangeCut r.H 0 6)) =
        some ([4, 5, 5, 5, 4, 4], 6, 6, 1) :=
  ⟨WF_create (by decide) (by decide) (by decide) (by decide) (by decide) (by decide), by decide,
    by decide +kernel, by decide +kernel⟩

end PMondriaan

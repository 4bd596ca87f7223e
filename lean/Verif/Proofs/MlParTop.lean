import Verif.Proofs.MlPar
import Verif.Props.Multilevel

/-
Proofs about the beginning and the end of the parallel multilevel bisection.
-/

namespace PMondriaan

open Spec

theorem subperm_nodup {α : Type} {a b : List α} (h : a.Subperm b) (hb : b.Nodup) : a.Nodup := by
  obtain ⟨l, h1, h2⟩ := h
  exact h1.nodup_iff.1 (hb.sublist h2)

/-- What a processor has after `create_new_hypergraph`, the copy into `HC_list` and
`merge_free_vertices`. -/
structure Started (N : Nat) (xs : List RangeOf) (x : RangeOf) (m : CProc) : Prop where
  wf : WF m.2
  verts : (m.2.vertices.map (fun v => (v.id, v.weight)) ++ m.1.free).Perm
    ((inRange x).map (fun v => (v.id, v.weight)))
  ids : ∀ n ∈ m.2.nets, n.id < N
  costs : ∀ n ∈ m.2.nets, n.cost = 1
  sizes : ∀ n ∈ m.2.nets, n.globalSize = (rangePins xs n.id).length ∧ 2 ≤ (rangePins xs n.id).length
  pins : ∀ e, 2 ≤ (rangePins xs e).length →
    (((m.2.nets.filter (fun n => n.id = e)).flatMap (·.vertices))).Perm
      (((inRange x).filter (fun v => e ∈ v.nets)).map (·.id))
  localFree : m.1.localFree = (m.1.free.map (·.2)).sum
  nonempty : ∀ n ∈ m.2.nets, n.vertices ≠ []

theorem inRange_sub (x : RangeOf) : (inRange x).Sublist x.H.vertices :=
  (List.take_sublist _ _).trans (List.drop_sublist _ _)

theorem filter_net_one {K : Hypergraph} (w : WF K) {n : Net} (hn : n ∈ K.nets) :
    K.nets.filter (fun m => m.id = n.id) = [n] := by
  have h1 : (K.nets.filter (fun m => m.id = n.id)).Perm [n] := by
    rw [List.perm_ext_iff_of_nodup ((List.Nodup.of_map _ w.nids).filter _) (by simp)]
    intro m
    rw [List.mem_filter, List.mem_singleton, decide_eq_true_eq]
    constructor
    · exact fun h => w.net_inj h.1 hn h.2
    · rintro rfl
      exact ⟨hn, rfl⟩
  exact List.perm_singleton.1 h1

theorem start_ok {N : Nat} {xs : List RangeOf} (hD : Distributed N (xs.map (·.H))) {Rs H0 : List Hypergraph}
    (h1 : List.Forall₂ (RestrictedTo xs) xs Rs)
    (h2 : Rs.mapM (fun R => R.copy) = .ok H0) :
    ∃ M, mergeFreePar (H0.map (fun H => (({} : Contraction), H))) = .ok M ∧
      List.Forall₂ (Started N xs) xs M ∧
      (∀ m ∈ M, m.1.globalFree = totalFree M ∧
        m.2.globalSize = (M.map (fun t => t.2.vertices.length)).sum) := by
  -- the copies
  have hc : List.Forall₂ (fun (R H' : Hypergraph) => WF H' ∧ H'.vertices = R.vertices ∧
      List.Forall₂ (fun n n' => n'.id = n.id ∧ n'.cost = 1 ∧ n'.globalSize = n.globalSize ∧
        n'.vertices.Perm n.vertices) R.nets H'.nets) Rs H0 := by
    obtain ⟨L, l1, l2⟩ := mapM_choose (l := Rs) (f := fun R => R.copy) (P := fun (R H' : Hypergraph) =>
      WF H' ∧ H'.vertices = R.vertices ∧
      List.Forall₂ (fun n n' => n'.id = n.id ∧ n'.cost = 1 ∧ n'.globalSize = n.globalSize ∧
        n'.vertices.Perm n.vertices) R.nets H'.nets) (by
      intro R hR
      obtain ⟨x, hx, hr⟩ := forall2_mem_right h1 hR
      obtain ⟨H', c1, c2, c3, -, -, -, -, c8⟩ := copy_ok hr.wf
      exact ⟨H', c1, c2, c3, c8⟩)
    rw [h2] at l1
    cases l1
    exact l2
  obtain ⟨M, m1, m2⟩ := mergeFreePar_ok (S := H0.map (fun H => (({} : Contraction), H)))
    (by
      intro s hs
      obtain ⟨K, hK, rfl⟩ := List.mem_map.1 hs
      obtain ⟨R, -, hr⟩ := forall2_mem_right hc hK
      exact hr.1)
    (by
      intro s hs
      obtain ⟨K, hK, rfl⟩ := List.mem_map.1 hs
      rfl)
  refine ⟨M, m1, ?_, ?_⟩
  swap
  · intro m hm
    obtain ⟨s, -, hs⟩ := forall2_mem_right m2 hm
    exact ⟨hs.2.2.1, hs.2.2.2.2.2.2.2.2⟩
  rw [List.forall₂_map_left_iff] at m2
  have hl1 := h1.length_eq
  have hl2 := hc.length_eq
  have hl3 := m2.length_eq
  rw [List.forall₂_iff_get]
  refine ⟨by omega, ?_⟩
  intro i hi hi'
  have a1 := (List.forall₂_iff_get.1 h1).2 i hi (by omega)
  have a2 := (List.forall₂_iff_get.1 hc).2 i (by omega) (by omega)
  have a3 := (List.forall₂_iff_get.1 m2).2 i (by omega) hi'
  have hx : xs.get ⟨i, hi⟩ ∈ xs := List.get_mem ..
  set x := xs.get ⟨i, hi⟩
  set R := Rs.get ⟨i, by omega⟩
  set K := H0.get ⟨i, by omega⟩
  set m := M.get ⟨i, hi'⟩
  obtain ⟨kwf, kv, kn⟩ := a2
  obtain ⟨e1, e2, -, -, -, mwf, mv, mn, -⟩ := a3
  dsimp only at e1 e2 mv mn
  have hnet : ∀ n ∈ m.2.nets, ∃ n0 ∈ R.nets, n.id = n0.id ∧ n.cost = 1 ∧ n.globalSize = n0.globalSize ∧
      n.vertices.Perm n0.vertices := by
    intro n hn
    rw [mn.nets] at hn
    exact forall2_mem_right kn hn
  have hR0 : K.vertices.map (fun v => (v.id, v.weight)) = (inRange x).map (fun v => (v.id, v.weight)) := by
    rw [kv]
    exact forall2_map_eq a1.vertices (fun a b h => by rw [h.1, h.2.1])
  refine ⟨mwf, ?_, ?_, ?_, ?_, ?_, ?_, ?_⟩
  · rw [e1, ← hR0]
    refine ((mv.map _).append_right _).trans ?_
    unfold freeOf
    rw [← List.map_append]
    apply List.Perm.map
    have := List.filter_append_perm (fun v : Vertex => decide (v.nets ≠ [])) K.vertices
    refine List.Perm.trans (List.Perm.append_left _ (List.Perm.of_eq ?_)) this
    apply List.filter_congr
    intro v _
    simp
  · intro n hn
    obtain ⟨n0, hn0, h, -⟩ := hnet n hn
    obtain ⟨-, v, hv, hev⟩ := (a1.netIds n0.id).1 (List.mem_map.2 ⟨n0, hn0, rfl⟩)
    have hxm : x.H ∈ xs.map (·.H) := List.mem_map.2 ⟨x, hx, rfl⟩
    obtain ⟨k, hk, he, -⟩ := (hD.wf _ hxm).inc_net v ((inRange_sub x).subset hv) _ hev
    rw [h, ← he]
    exact hD.ids _ hxm k hk
  · intro n hn
    obtain ⟨n0, hn0, -, h, -⟩ := hnet n hn
    exact h
  · intro n hn
    obtain ⟨n0, hn0, h, -, h3, -⟩ := hnet n hn
    rw [h3, h]
    exact ⟨(a1.nets n0 hn0).2.2, ((a1.netIds n0.id).1 (List.mem_map.2 ⟨n0, hn0, rfl⟩)).1⟩
  · intro e he
    by_cases hex : ∃ v ∈ inRange x, e ∈ v.nets
    · have hin := (a1.netIds e).2 ⟨he, hex⟩
      obtain ⟨n0, hn0, h0⟩ := List.mem_map.1 hin
      obtain ⟨n, hn, hid, -, -, hperm⟩ := forall2_mem_left kn hn0
      rw [← mn.nets] at hn
      have h0 : n0.id = e := h0
      have : e = n.id := by rw [hid, h0]
      rw [this, filter_net_one mwf hn]
      simp only [List.flatMap_cons, List.flatMap_nil, List.append_nil]
      refine hperm.trans (List.Perm.of_eq ?_)
      rw [(a1.nets n0 hn0).1, hid]
    · have hfil : (inRange x).filter (fun v => e ∈ v.nets) = [] := by
        rw [List.filter_eq_nil_iff]
        intro v hv hev
        exact hex ⟨v, hv, by simpa using hev⟩
      have hfil2 : m.2.nets.filter (fun n => n.id = e) = [] := by
        rw [List.filter_eq_nil_iff]
        intro n hn hne
        obtain ⟨n0, hn0, hid, -⟩ := hnet n hn
        have hne : n.id = e := by simpa using hne
        exact hex ((a1.netIds e).1 (List.mem_map.2 ⟨n0, hn0, by rw [← hid, hne]⟩)).2
      rw [hfil, hfil2]
      exact List.Perm.refl _
  · rw [e1, e2]
  · intro n hn h0
    obtain ⟨n0, hn0, -, -, -, hp⟩ := hnet n hn
    rw [h0] at hp
    have h1 := List.nil_perm.1 hp
    rw [(a1.nets n0 hn0).1] at h1
    obtain ⟨-, v, hv, hev⟩ := (a1.netIds n0.id).1 (List.mem_map.2 ⟨n0, hn0, rfl⟩)
    have h2 := List.map_eq_nil_iff.1 h1
    rw [List.filter_eq_nil_iff] at h2
    exact h2 v hv (by simpa using hev)

section

variable {N T : Nat} {xs : List RangeOf} {M : List CProc}

theorem Started.sub {x : RangeOf} {m : CProc} (h : Started N xs x m) :
    ((m.2.vertices.map (·.id)) ++ m.1.free.map (·.1)).Subperm (x.H.vertices.map (·.id)) := by
  have h1 := h.verts.map (·.1)
  rw [List.map_append, List.map_map, List.map_map] at h1
  exact h1.subperm.trans ((inRange_sub x).map (·.id)).subperm

theorem started_level (hD : Distributed N (xs.map (·.H))) (hne : xs ≠ [])
    (hpos : ∀ x ∈ xs, ∀ v ∈ x.H.vertices, 0 < v.weight)
    (hT : (xs.map (fun x => x.H.vertices.length)).sum < T)
    (h : List.Forall₂ (Started N xs) xs M)
    (hs : ∀ m ∈ M, m.2.globalSize = (M.map (fun t => t.2.vertices.length)).sum) :
    ParLevel N T (M.map (·.2)) := by
  have hmem : ∀ K ∈ M.map (·.2), ∃ x ∈ xs, ∃ m ∈ M, K = m.2 ∧ Started N xs x m := by
    intro K hK
    obtain ⟨m, hm, rfl⟩ := List.mem_map.1 hK
    obtain ⟨x, hx, hst⟩ := forall2_mem_right h hm
    exact ⟨x, hx, m, hm, rfl, hst⟩
  have hlen : (M.map (·.2)).map (fun H => H.vertices.length) = M.map (fun t => t.2.vertices.length) := by
    rw [List.map_map]; rfl
  refine ⟨?_, ⟨?_, ?_, ?_, ?_⟩, ?_, ?_, ?_, ?_, ?_⟩
  · intro h0
    have h1 := congrArg List.length h0
    rw [List.length_map, ← h.length_eq] at h1
    exact hne (List.length_eq_zero_iff.1 h1)
  · intro K hK
    obtain ⟨x, hx, m, hm, rfl, hst⟩ := hmem K hK
    exact hst.wf
  · have key : (((M.map (·.2)).flatMap (·.vertices)).map (·.id)).Subperm
        (((xs.map (·.H)).flatMap (·.vertices)).map (·.id)) := by
      clear hs hT hpos hne hD hmem hlen
      have h' : List.Forall₂ (fun (x : RangeOf) (m : CProc) =>
          (m.2.vertices.map (·.id)).Subperm (x.H.vertices.map (·.id))) xs M :=
        h.imp (fun x m hst => (List.sublist_append_left _ _).subperm.trans hst.sub)
      clear h
      induction h' with
      | nil => exact List.Subperm.refl _
      | cons hx _ ih =>
        simp only [List.map_cons, List.flatMap_cons, List.map_append] at ih ⊢
        exact hx.append ih
    exact subperm_nodup key hD.disjoint
  · intro K hK n hn
    obtain ⟨x, hx, m, hm, rfl, hst⟩ := hmem K hK
    exact hst.ids n hn
  · intro K hK K' hK' n hn n' hn' _
    obtain ⟨x, hx, m, hm, rfl, hst⟩ := hmem K hK
    obtain ⟨x', hx', m', hm', rfl, hst'⟩ := hmem K' hK'
    rw [hst.costs n hn, hst'.costs n' hn']
  · intro K hK n hn
    obtain ⟨x, hx, m, hm, rfl, hst⟩ := hmem K hK
    exact hst.costs n hn
  · intro K hK n hn
    obtain ⟨x, hx, m, hm, rfl, hst⟩ := hmem K hK
    obtain ⟨s1, s2⟩ := hst.sizes n hn
    rw [s1]
    have key : ∀ {ys : List RangeOf} {L : List CProc}, List.Forall₂ (Started N xs) ys L →
        (unionPins (L.map (·.2)) n.id).length = (rangePins ys n.id).length := by
      intro ys L hF
      induction hF with
      | nil => rfl
      | cons hx _ ih =>
        unfold unionPins rangePins at ih ⊢
        rw [List.map_cons, List.flatMap_cons, List.flatMap_cons, List.length_append, List.length_append, ih,
          (hx.pins n.id s2).length_eq]
    exact (key h).symm
  · intro K hK v hv
    obtain ⟨x, hx, m, hm, rfl, hst⟩ := hmem K hK
    have := hst.verts.subset (List.mem_append_left _ (List.mem_map.2 ⟨v, hv, rfl⟩))
    obtain ⟨u, hu, he⟩ := List.mem_map.1 this
    have he : u.weight = v.weight := congrArg Prod.snd he
    rw [← he]
    exact hpos x hx u ((inRange_sub x).subset hu)
  · intro K hK
    obtain ⟨x, hx, m, hm, rfl, hst⟩ := hmem K hK
    rw [hlen]
    exact hs m hm
  · rw [hlen]
    refine lt_of_le_of_lt ?_ hT
    clear hs hT hpos hne hD hmem hlen
    have h' : List.Forall₂ (fun (x : RangeOf) (m : CProc) =>
        m.2.vertices.length ≤ x.H.vertices.length) xs M :=
      h.imp (fun x m hst => by
        have := hst.sub.length_le
        rw [List.length_append, List.length_map, List.length_map, List.length_map] at this
        omega)
    clear h
    induction h' with
    | nil => simp
    | cons hx _ ih =>
      rw [List.map_cons, List.map_cons, List.sum_cons, List.sum_cons]
      omega

theorem started_roomy (hpos : ∀ x ∈ xs, ∀ v ∈ x.H.vertices, 0 < v.weight)
    (h : List.Forall₂ (Started N xs) xs M) {max0 max1 : Int}
    (h0 : (xs.map (fun x => ((inRange x).map (·.weight)).sum)).sum ≤ max0)
    (h1 : (xs.map (fun x => ((inRange x).map (·.weight)).sum)).sum ≤ max1) : Roomy max0 max1 (M.map (·.2)) := by
  have key : ((M.map (·.2)).map allWeight).sum ≤ (xs.map (fun x => ((inRange x).map (·.weight)).sum)).sum := by
    have h' : List.Forall₂ (fun (x : RangeOf) (m : CProc) =>
        allWeight m.2 ≤ ((inRange x).map (·.weight)).sum) xs M := by
      rw [List.forall₂_iff_get]
      refine ⟨h.length_eq, ?_⟩
      intro i hi hi'
      have hst := (List.forall₂_iff_get.1 h).2 i hi hi'
      have hx : xs.get ⟨i, hi⟩ ∈ xs := List.get_mem ..
      have := (hst.verts.map (·.2)).sum_eq
      rw [List.map_append, List.sum_append, List.map_map, List.map_map] at this
      have hf : 0 ≤ ((M.get ⟨i, hi'⟩).1.free.map (·.2)).sum := by
        apply sum_map_nonneg
        intro f hf
        obtain ⟨u, hu, he⟩ := List.mem_map.1 (hst.verts.subset (List.mem_append_right _ hf))
        rw [← he]
        exact le_of_lt (hpos _ hx u ((inRange_sub _).subset hu))
      have e1 : ((M.get ⟨i, hi'⟩).2.vertices.map ((fun x : Nat × Int => x.2) ∘ fun v => (v.id, v.weight))).sum =
        allWeight (M.get ⟨i, hi'⟩).2 := rfl
      have e2 : ((inRange (xs.get ⟨i, hi⟩)).map ((fun x : Nat × Int => x.2) ∘ fun v => (v.id, v.weight))).sum =
        ((inRange (xs.get ⟨i, hi⟩)).map (·.weight)).sum := rfl
      rw [e1, e2] at this
      omega
    clear h h0 h1 hpos
    induction h' with
    | nil => simp
    | cons hx _ ih =>
      rw [List.map_cons, List.map_cons, List.map_cons, List.sum_cons, List.sum_cons]
      omega
  refine ⟨?_, by omega, by omega⟩
  intro K hK n hn
  obtain ⟨m, hm, rfl⟩ := List.mem_map.1 hK
  obtain ⟨x, -, hst⟩ := forall2_mem_right h hm
  exact hst.nonempty n hn

/-- When there are free vertices the ranges have a positive weight. -/
theorem started_free (hpos : ∀ x ∈ xs, ∀ v ∈ x.H.vertices, 0 < v.weight)
    (h : List.Forall₂ (Started N xs) xs M) (hf : totalFree M ≠ 0) :
    0 < (xs.map (fun x => ((inRange x).map (·.weight)).sum)).sum := by
  have hp : ∀ x ∈ xs, ∀ y ∈ (inRange x).map (·.weight), 0 ≤ y := by
    intro x hx y hy
    obtain ⟨v, hv, rfl⟩ := List.mem_map.1 hy
    exact le_of_lt (hpos x hx v ((inRange_sub x).subset hv))
  have hnn : ∀ y ∈ xs.map (fun x => ((inRange x).map (·.weight)).sum), 0 ≤ y := by
    intro y hy
    obtain ⟨x, hx, rfl⟩ := List.mem_map.1 hy
    exact List.sum_nonneg (hp x hx)
  rcases lt_or_eq_of_le (List.sum_nonneg hnn) with h1 | h1
  · exact h1
  · exfalso
    apply hf
    unfold totalFree
    apply List.sum_eq_zero
    intro y hy
    obtain ⟨m, hm, rfl⟩ := List.mem_map.1 hy
    obtain ⟨x, hx, hst⟩ := forall2_mem_right h hm
    have hz := sum_zero_all hnn h1.symm _ (List.mem_map.2 ⟨x, hx, rfl⟩)
    have hv0 : inRange x = [] := by
      rw [List.eq_nil_iff_forall_not_mem]
      intro v hv
      have h2 := hpos x hx v ((inRange_sub x).subset hv)
      have h3 := sum_zero_all (hp x hx) hz _ (List.mem_map.2 ⟨v, hv, rfl⟩)
      omega
    have h4 := hst.verts.length_eq
    rw [hv0] at h4
    simp only [List.map_nil, List.length_nil, List.length_append] at h4
    have h5 : m.1.free = [] := List.length_eq_zero_iff.1 (by omega)
    simp [h5]

/-- Putting the free vertices back on all processors and copying the labels. -/
theorem finishPar_ok (hD : Distributed N (xs.map (·.H))) (hne : xs ≠ [])
    (hpos : ∀ x ∈ xs, ∀ v ∈ x.H.vertices, 0 < v.weight)
    (h : List.Forall₂ (Started N xs) xs M) (hg : ∀ m ∈ M, m.1.globalFree = totalFree M)
    {L : List (Hypergraph × Option Int × Rng)} (hL : LevelBisected N (M.map (·.2)) L)
    {srt : List (Nat × Int) → List (Nat × Int)} (hsrt : ∀ l, (srt l).Perm l) {max0 max1 : Int}
    {labels : Interval} (hl : labels.low ≠ labels.high) (rngs : Nat → Rng) :
    (totalFree M ≠ 0 ∧ max0 + max1 = 0 ∧
      assignFreePar srt ((M.map (·.1)).zip (L.map (·.1))) max0 max1 rngs = .error .ub) ∨
    ∃ as rs, assignFreePar srt ((M.map (·.1)).zip (L.map (·.1))) max0 max1 rngs = .ok as ∧
      (xs.zip as).mapM (fun x => do
        let H ← x.2.H.vertices.foldlM (copyLabel labels) x.1.H
        pure ({ H := H, w0 := x.2.H.weightPart 0, w1 := x.2.H.weightPart 1, rng := x.2.rng } : RState)) = .ok rs ∧
      List.Forall₂ (fun (x : RangeOf) (r : RState) => Relabels x.s x.e labels.low labels.high x.H r.H ∧
        r.w0 = rangeWeight r.H x.s x.e labels.low ∧ r.w1 = rangeWeight r.H x.s x.e labels.high) xs rs ∧
      ∀ (i : Nat) x q r, xs[i]? = some x → L[i]? = some q → rs[i]? = some r →
        ∀ v ∈ slice r.H.vertices x.s x.e, IsVertex q.1 v.id → v.part = labels.label (partOf q.1 v.id) := by
  have hlM : M.length = xs.length := h.length_eq.symm
  have hlL : L.length = xs.length := by
    have := hL.same.length_eq
    rw [List.length_map, List.length_map] at this
    omega
  set S := (M.map (·.1)).zip (L.map (·.1)) with hS
  have hSl : S.length = xs.length := by rw [hS, List.length_zip, List.length_map, List.length_map]; omega
  have hget : ∀ (i : Nat) s, S[i]? = some s → ∃ x m q, xs[i]? = some x ∧ M[i]? = some m ∧ L[i]? = some q ∧
      s = (m.1, q.1) ∧ Started N xs x m ∧ SameUpToParts m.2 q.1 := by
    intro i s hi
    obtain ⟨i1, i2⟩ := List.getElem?_zip_eq_some.1 hi
    rw [List.getElem?_map] at i1 i2
    obtain ⟨m, hm1, hm2⟩ := Option.map_eq_some_iff.1 i1
    obtain ⟨q, hq1, hq2⟩ := Option.map_eq_some_iff.1 i2
    have hil := (List.getElem?_eq_some_iff.1 hm1).1
    have hix : i < xs.length := by omega
    refine ⟨xs[i], m, q, List.getElem?_eq_getElem hix, hm1, hq1, ?_, ?_, ?_⟩
    · rw [hm2, hq2]
    · have := (List.forall₂_iff_get.1 h).2 i hix hil
      simp only [List.get_eq_getElem] at this
      rw [List.getElem?_eq_getElem hil] at hm1
      rw [← Option.some.inj hm1]
      exact this
    · have hiq := (List.getElem?_eq_some_iff.1 hq1).1
      have := (List.forall₂_iff_get.1 hL.same).2 i (by rw [List.length_map]; exact hil)
        (by rw [List.length_map]; exact hiq)
      simp only [List.get_eq_getElem, List.getElem_map] at this
      rw [List.getElem?_eq_getElem hil] at hm1
      rw [List.getElem?_eq_getElem hiq] at hq1
      rw [← Option.some.inj hm1, ← Option.some.inj hq1]
      exact this
  have hmemS : ∀ s ∈ S, ∃ x m q, x ∈ xs ∧ m ∈ M ∧ q ∈ L ∧ s = (m.1, q.1) ∧ Started N xs x m ∧
      SameUpToParts m.2 q.1 := by
    intro s hs
    obtain ⟨i, hi⟩ := List.getElem?_of_mem hs
    obtain ⟨x, m, q, a1, a2, a3, a4⟩ := hget i s hi
    exact ⟨x, m, q, List.mem_of_getElem? a1, List.mem_of_getElem? a2, List.mem_of_getElem? a3, a4⟩
  have hids : ∀ {m : CProc} {G : Hypergraph}, SameUpToParts m.2 G →
      G.vertices.map (·.id) = m.2.vertices.map (·.id) := fun hs => hs.vids
  have htf : totalFree S = totalFree M := by
    unfold totalFree
    have e1 : S.map (fun s => (s.1.free.map (·.2)).sum) =
        (S.map (·.1)).map (fun c => (c.free.map (·.2)).sum) := by rw [List.map_map]; rfl
    rw [e1, hS, List.map_fst_zip (by rw [List.length_map, List.length_map]; omega), List.map_map]
    rfl
  have hfr : FreeReady S := by
    refine ⟨?_, ?_, ?_, ?_, ?_, ?_, ?_⟩
    · intro h0
      rw [h0] at hSl
      exact hne (List.length_eq_zero_iff.1 hSl.symm)
    · intro s hs
      obtain ⟨x, m, q, hx, hm, hq, rfl, hst, hsm⟩ := hmemS s hs
      exact hL.dist.wf _ (List.mem_map.2 ⟨q, hq, rfl⟩)
    · intro s hs
      obtain ⟨x, m, q, hx, hm, hq, rfl, hst, hsm⟩ := hmemS s hs
      exact hL.bip q hq
    · intro s hs
      obtain ⟨x, m, q, hx, hm, hq, rfl, hst, hsm⟩ := hmemS s hs
      have hnd : (x.H.vertices.map (·.id)).Nodup := (hD.wf _ (List.mem_map.2 ⟨x, hx, rfl⟩)).vids
      have := hst.sub
      exact subperm_nodup ((List.sublist_append_right _ _).subperm.trans this) hnd
    · intro s hs f hf hv
      obtain ⟨x, m, q, hx, hm, hq, rfl, hst, hsm⟩ := hmemS s hs
      have hnd : (x.H.vertices.map (·.id)).Nodup := (hD.wf _ (List.mem_map.2 ⟨x, hx, rfl⟩)).vids
      have h1 := subperm_nodup hst.sub hnd
      unfold IsVertex at hv
      rw [hids hsm] at hv
      exact (List.nodup_append.1 h1).2.2 _ hv _ (List.mem_map.2 ⟨f, hf, rfl⟩) rfl
    · intro s hs
      obtain ⟨x, m, q, hx, hm, hq, rfl, hst, hsm⟩ := hmemS s hs
      exact hst.localFree
    · intro s hs
      obtain ⟨x, m, q, hx, hm, hq, rfl, hst, hsm⟩ := hmemS s hs
      rw [htf]
      exact hg m hm
  have hfpos : ∀ m ∈ M, ∀ f ∈ m.1.free, 0 < f.2 := by
    intro m hm f hf
    obtain ⟨x, hx, hst⟩ := forall2_mem_right h hm
    have := hst.verts.subset (List.mem_append_right _ hf)
    obtain ⟨u, hu, he⟩ := List.mem_map.1 this
    rw [← he]
    exact hpos x hx u ((inRange_sub x).subset hu)
  by_cases hbad : totalFree M ≠ 0 ∧ max0 + max1 = 0
  · left
    exact ⟨hbad.1, hbad.2, C30_zero_bounds hfr (by rw [htf]; exact hbad.1) max0 max1 hbad.2 rngs⟩
  right
  obtain ⟨as, a1, a2, a3, -⟩ := assignFreePar_ok hsrt hfr max0 max1
    (by rw [htf]; exact fun h1 h2 => hbad ⟨h1, h2⟩) rngs
  have hrun : ∀ y ∈ xs.zip as, ∃ r : RState, (fun y : RangeOf × Contraction.AState => do
        let H ← y.2.H.vertices.foldlM (copyLabel labels) y.1.H
        pure ({ H := H, w0 := y.2.H.weightPart 0, w1 := y.2.H.weightPart 1, rng := y.2.rng } : RState)) y = .ok r ∧
      (Relabels y.1.s y.1.e labels.low labels.high y.1.H r.H ∧
        r.w0 = rangeWeight r.H y.1.s y.1.e labels.low ∧ r.w1 = rangeWeight r.H y.1.s y.1.e labels.high) ∧
      ∀ v ∈ slice r.H.vertices y.1.s y.1.e, v.part = labels.label (partOf y.2.H v.id) := by
    intro y hy
    obtain ⟨i, hi⟩ := List.getElem?_of_mem hy
    obtain ⟨i1, i2⟩ := List.getElem?_zip_eq_some.1 hi
    have hil : i < S.length := by
      have := (List.getElem?_eq_some_iff.1 i1).1
      omega
    have hsi := List.getElem?_eq_getElem hil
    obtain ⟨a, l, f, b1, b2, b3⟩ := a3 i _ hsi
    obtain ⟨x, m, q, c1, c2, c3, c4, hst, hsm⟩ := hget i _ hsi
    rw [i2] at b1
    cases b1
    rw [i1] at c1
    cases c1
    have hmM := List.mem_of_getElem? c2
    have hqL := List.mem_of_getElem? c3
    have hf : f.Perm m.1.free := by
      rw [c4] at b3
      split at b3
      · rename_i h0
        subst b3
        rw [htf] at h0
        unfold totalFree at h0
        have hz := sum_zero_all (by
          intro z hz
          obtain ⟨m', hm', rfl⟩ := List.mem_map.1 hz
          exact sum_map_nonneg _ _ (fun y hy => le_of_lt (hfpos m' hm' y hy))) h0
          ((m.1.free.map (·.2)).sum) (List.mem_map.2 ⟨m, hmM, rfl⟩)
        rcases freePlaced_pos (fun f hf => hfpos m hmM f hf) with hf | hf
        · rw [hf]
        · exact absurd hz hf
      · exact b3
    have hwA : WF y.1.H := hD.wf _ (List.mem_map.2 ⟨y.1, List.mem_of_getElem? i1, rfl⟩)
    have hbA : Bipartitioned y.2.H := by
      intro v hv
      rw [b2.verts, c4, List.mem_append] at hv
      rcases hv with hv | hv
      · exact hL.bip q hqL v hv
      · exact b2.parts v hv
    have hpA : (y.2.H.vertices.map (fun v => (v.id, v.weight))).Perm
        ((slice y.1.H.vertices y.1.s y.1.e).map (fun v => (v.id, v.weight))) := by
      rw [b2.verts, c4, List.map_append, b2.free.1]
      have hv2 : q.1.vertices.map (fun v => (v.id, v.weight)) = m.2.vertices.map (fun v => (v.id, v.weight)) := by
        have := congrArg (List.map (fun z : Nat × List Nat × Int => (z.1, z.2.2))) hsm.vertices
        rw [List.map_map, List.map_map] at this
        exact this
      simp only
      rw [hv2]
      exact (List.Perm.append_left _ hf).trans hst.verts
    obtain ⟨H', r1, r2, r3, r4, r5⟩ := relabel_range hwA hl hbA hpA
    refine ⟨_, by simp only [r1, ok_bind]; rfl, ⟨r2, ?_, ?_⟩, r5⟩
    · simp only [weightPart_eq]; exact r3
    · simp only [weightPart_eq]; exact r4
  obtain ⟨rs, r1, r2⟩ := mapM_choose hrun
  refine ⟨as, rs, a1, r1, ?_, ?_⟩
  swap
  · intro i x q r hx hq hr v hv hvq
    have hil : i < S.length := by
      have := (List.getElem?_eq_some_iff.1 hx).1
      omega
    have hsi := List.getElem?_eq_getElem hil
    obtain ⟨a, l, f, b1, b2, -⟩ := a3 i _ hsi
    obtain ⟨x', m, q', c1, c2, c3, c4, -, -⟩ := hget i _ hsi
    rw [hq] at c3
    cases c3
    have hz : (xs.zip as)[i]? = some (x, a) := List.getElem?_zip_eq_some.2 ⟨hx, b1⟩
    have hzi := (List.getElem?_eq_some_iff.1 hz).1
    have hri := (List.getElem?_eq_some_iff.1 hr).1
    have h5 := ((List.forall₂_iff_get.1 r2).2 i hzi hri).2
    simp only [List.get_eq_getElem] at h5
    rw [List.getElem?_eq_getElem hzi] at hz
    rw [List.getElem?_eq_getElem hri] at hr
    rw [Option.some.inj hz, Option.some.inj hr] at h5
    rw [h5 v hv]
    congr 1
    unfold partOf
    rw [b2.verts, c4, List.find?_append]
    obtain ⟨y, hy, hye⟩ := List.mem_map.1 hvq
    have hye : y.id = v.id := hye
    dsimp only
    cases hc : q.1.vertices.find? (fun u => u.id == v.id) with
    | none =>
      rw [List.find?_eq_none] at hc
      exact absurd hye (by simpa using hc y hy)
    | some z => rfl
  have := List.forall₂_map_left_iff (R := fun (x : RangeOf) (r : RState) =>
    Relabels x.s x.e labels.low labels.high x.H r.H ∧
      r.w0 = rangeWeight r.H x.s x.e labels.low ∧ r.w1 = rangeWeight r.H x.s x.e labels.high)
    (f := Prod.fst) (l := xs.zip as) (u := rs)
  rw [List.map_fst_zip (by omega)] at this
  exact this.2 (r2.imp (fun _ _ h => h.1))

end

end PMondriaan

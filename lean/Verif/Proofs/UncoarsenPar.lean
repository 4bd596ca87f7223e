import Verif.Model.UncoarsenPar
import Verif.Proofs.CoarsenPar
import Verif.Proofs.Uncoarsen

/-
Proofs about the parallel uncoarsening.
-/

namespace PMondriaan

open Spec

theorem relabel_congr {H : Hypergraph} {P Q : Nat → Int} (h : ∀ v ∈ H.vertices, P v.id = Q v.id) :
    relabel H P = relabel H Q := by
  unfold relabel
  congr 1
  apply List.map_congr_left
  intro v hv
  rw [h v hv]

theorem partReceives_ok {H : Hypergraph} (w : WF H) (P : Nat → Int) (ms : List (Nat × Int))
    (hms : ∀ m ∈ ms, IsVertex H m.1) :
    ms.foldlM partReceive (relabel H P) = .ok (relabel H (setAll P ms)) := by
  induction ms generalizing P with
  | nil => rfl
  | cons m ms ih =>
    have e1 : partReceive (relabel H P) m = .ok (relabel H (setAll P [m])) :=
      setPartOf_relabel w P (hms m (by simp)) m.2
    rw [List.foldlM_cons, e1, ok_bind, ih _ (fun x hx => hms x (by simp [hx])), ← setAll_append]
    rfl

/-- What processor `t` sends. -/
def partMsgs (HC : Hypergraph) (C : Contraction) : List (Nat × (Nat × Int)) :=
  (C.samples.zip C.matched).flatMap (fun z => z.2.map (fun m => (m.2, (m.1, partOf HC z.1))))

theorem partSends_ok {p : Nat} {HC : Hypergraph} (wc : WF HC) {C : Contraction}
    (hlen : C.matched.length = C.samples.length) (hs : ∀ s ∈ C.samples, IsVertex HC s)
    (hp : ∀ l ∈ C.matched, ∀ m ∈ l, m.2 < p) :
    partSends p HC C = .ok (partMsgs HC C) := by
  unfold partSends
  have h1 : (List.range C.samples.length).mapM (partSend p HC C) =
      .ok ((C.samples.zip C.matched).map (fun z => z.2.map (fun m => (m.2, (m.1, partOf HC z.1))))) := by
    have e : (C.samples.zip C.matched).map (fun z => z.2.map (fun m => (m.2, (m.1, partOf HC z.1)))) =
        (List.range C.samples.length).map (fun i => (C.matched.getD i []).map
          (fun m => (m.2, (m.1, partOf HC (C.samples.getD i 0))))) := by
      apply List.ext_getElem?
      intro i
      by_cases hi : i < C.samples.length
      · have hi2 : i < C.matched.length := by omega
        have hz : (C.samples.zip C.matched)[i]? = some (C.samples[i], C.matched[i]) :=
          List.getElem?_zip_eq_some.2 ⟨List.getElem?_eq_getElem hi, List.getElem?_eq_getElem hi2⟩
        rw [rangeMap_get hi, List.getElem?_map, hz]
        simp [hi, hlen]
      · rw [List.getElem?_eq_none (by simp; omega), List.getElem?_eq_none (by simp; omega)]
    rw [e]
    apply mapM_ok
    intro i hi
    have hi := List.mem_range.1 hi
    have hi2 : i < C.matched.length := by omega
    obtain ⟨v, hv, hid⟩ := List.mem_map.1 (hs _ (List.getElem_mem hi))
    have hid : v.id = C.samples[i] := hid
    unfold partSend
    rw [vget_ok (List.getElem?_eq_getElem hi), ok_bind, ← hid, wc.vertexOf_mem hv, ok_bind,
      vget_ok (List.getElem?_eq_getElem hi2), ok_bind]
    rw [List.getD_eq_getElem?_getD, List.getD_eq_getElem?_getD, List.getElem?_eq_getElem hi,
      List.getElem?_eq_getElem hi2]
    simp only [Option.getD_some]
    rw [← hid, wc.partOf_eq hv]
    apply mapM_ok
    intro m hm
    unfold send
    rw [if_pos (hp _ (List.getElem_mem hi2) m hm)]
  rw [h1, ok_bind]
  rfl

theorem unionH_relabel (N : Nat) (Hs : List Hypergraph) (P : Nat → Int) :
    unionH N (Hs.map (fun H => relabel H P)) = relabel (unionH N Hs) P := by
  have hv : (Hs.map (fun H => relabel H P)).flatMap (·.vertices) =
      (Hs.flatMap (·.vertices)).map (fun v => { v with part := P v.id }) := by
    rw [List.flatMap_map, List.map_flatMap]
    rfl
  have hn : unionNet (Hs.map (fun H => relabel H P)) = unionNet Hs := by
    funext e
    have h1 : unionPins (Hs.map (fun H => relabel H P)) e = unionPins Hs e := by
      unfold unionPins
      rw [List.flatMap_map]
      rfl
    have h2 : unionCost (Hs.map (fun H => relabel H P)) e = unionCost Hs e := by
      unfold unionCost
      rw [List.flatMap_map]
      rfl
    unfold unionNet
    rw [h1, h2]
  unfold unionH
  rw [hv, hn]
  unfold Hypergraph.create relabel
  simp only [List.map_map, List.length_map]
  rfl

theorem relabel_distributed {N : Nat} {Hs : List Hypergraph} (hD : Distributed N Hs) (P : Nat → Int) :
    Distributed N (Hs.map (fun H => relabel H P)) := by
  refine ⟨?_, ?_, ?_, ?_⟩
  · intro H hH
    obtain ⟨H0, h0, rfl⟩ := List.mem_map.1 hH
    exact relabel_wf (hD.wf H0 h0) P
  · rw [List.flatMap_map]
    have : Hs.flatMap (fun H => (relabel H P).vertices) =
        (Hs.flatMap (·.vertices)).map (fun v => { v with part := P v.id }) := by
      rw [List.map_flatMap]; rfl
    rw [this, List.map_map]
    exact hD.disjoint
  · intro H hH
    obtain ⟨H0, h0, rfl⟩ := List.mem_map.1 hH
    exact hD.ids H0 h0
  · intro H hH H' hH'
    obtain ⟨H0, h0, rfl⟩ := List.mem_map.1 hH
    obtain ⟨H1, h1, rfl⟩ := List.mem_map.1 hH'
    exact hD.costs H0 h0 H1 h1

theorem cutValue_dropEmpty (m : Metric) (H : Hypergraph) :
    cutValue m (dropEmpty H) = cutValue m H := by
  rw [cutValue_labels, cutValue_labels]
  have hP : partOf (dropEmpty H) = partOf H := rfl
  rw [hP]
  refine (sum_filter_zero H.nets (fun n => decide (n.vertices ≠ [])) _ ?_).symm
  intro n _ hn
  have : n.vertices = [] := by simpa using hn
  rw [this, List.map_nil, labelValue_small m (by simp)]
  simp

section

variable {N maxC p : Nat} {h hc : Nat → Hypergraph} {c : Nat → Contraction} {d : Delivery (Nat × Int)}

/-- What has to hold of the contractions and the labelled coarse hypergraphs. -/
structure CoarseState (N maxC p : Nat) (h hc : Nat → Hypergraph) (c : Nat → Contraction) : Prop where
  dist : Distributed N ((List.range p).map h)
  coarse : Distributed N ((List.range p).map hc)
  star : StarClustering (unionH N ((List.range p).map h))
    (wholeContraction ((List.range p).map h) ((List.range p).map c)) maxC
  ids : ∀ t, t < p → ((hc t).vertices.map (·.id)).Perm
    (((h t).vertices.map (·.id)).filter (fun u => u ∉ goneIds ((List.range p).map c)))
  len : ∀ t, t < p → (c t).matched.length = (c t).samples.length
  samples : ∀ t, t < p → ∀ u ∈ (c t).samples, IsVertex (h t) u ∧ u ∉ goneIds ((List.range p).map c)
  once : (goneIds ((List.range p).map c)).Nodup
  owner : ∀ t, t < p → ∀ l ∈ (c t).matched, ∀ y ∈ l, y.2 < p ∧ IsVertex (h y.2) y.1

/-- The parallel `uncoarsen_hypergraph` gives every vertex the label of its cluster. -/
theorem uncoarsenPar_ok (hd : Fair d) (I : CoarseState N maxC p h hc c) :
    ∃ P, uncoarsenPar d ((List.range p).map (fun t => (c t, hc t))) ((List.range p).map h) =
        .ok (((List.range p).map h).map (fun H => relabel H P)) ∧
      ∀ s ∈ (wholeContraction ((List.range p).map h) ((List.range p).map c)).samples,
        ∀ u ∈ members (wholeContraction ((List.range p).map h) ((List.range p).map c)) s,
          P u = partOf (unionH N ((List.range p).map hc)) s := by
  set Hs := (List.range p).map h with hHs
  set HCs := (List.range p).map hc with hHCs
  set Cs := (List.range p).map c with hCs
  set CW := wholeContraction Hs Cs with hCW
  have hw : ∀ t, t < p → WF (h t) := fun t ht =>
    I.dist.wf _ (List.mem_map.2 ⟨t, List.mem_range.2 ht, rfl⟩)
  have hwc : ∀ t, t < p → WF (hc t) := fun t ht =>
    I.coarse.wf _ (List.mem_map.2 ⟨t, List.mem_range.2 ht, rfl⟩)
  have hcm : ∀ t, t < p → hc t ∈ HCs := fun t ht => List.mem_map.2 ⟨t, List.mem_range.2 ht, rfl⟩
  have wU : WF (unionH N Hs) := unionH_wf I.dist
  set outs := (List.range p).map (fun t => partMsgs (hc t) (c t)) with houts
  have hkey : ∀ t, (partMsgs (hc t) (c t)).map (fun m => m.2.1) =
      ((c t).samples.zip (c t).matched).flatMap (fun z => z.2.map (·.1)) := by
    intro t
    unfold partMsgs
    rw [List.map_flatMap]
    congr 1
    funext z
    rw [List.map_map]
    rfl
  have hkeygone : ∀ t, t < p → (partMsgs (hc t) (c t)).map (fun m => m.2.1) =
      (c t).matched.flatten.map (·.1) := by
    intro t ht
    rw [hkey t]
    have : ((c t).samples.zip (c t).matched).flatMap (fun z => z.2.map (·.1)) =
        (((c t).samples.zip (c t).matched).map (·.2)).flatMap (fun l => l.map (·.1)) := by
      rw [List.flatMap_map]
    rw [this, List.map_snd_zip (by rw [I.len t ht]), List.map_flatten]
    rfl
  have hallkey : outs.flatten.map (fun m => m.2.1) = goneIds Cs := by
    unfold goneIds
    rw [houts, hCs, List.flatMap_map, List.map_flatten, List.map_map, List.flatMap_def]
    congr 1
    apply List.map_congr_left
    intro t ht
    exact hkeygone t (List.mem_range.1 ht)
  -- all label updates
  set A := (List.range p).flatMap (fun t => (hc t).vertices.map (fun v => (v.id, v.part))) ++
    outs.flatten.map (·.2) with hA
  have hAkeys : A.map (·.1) = (List.range p).flatMap (fun t => (hc t).vertices.map (·.id)) ++
      goneIds Cs := by
    rw [hA, List.map_append, List.map_flatMap, List.map_map, ← hallkey]
    congr 1
    congr 1
    funext t
    rw [List.map_map]
    rfl
  have hkeptnot : ∀ t, t < p → ∀ v ∈ (hc t).vertices, IsVertex (h t) v.id ∧ v.id ∉ goneIds Cs := by
    intro t ht v hv
    have := (I.ids t ht).subset (List.mem_map.2 ⟨v, hv, rfl⟩)
    obtain ⟨h1, h2⟩ := List.mem_filter.1 this
    exact ⟨h1, of_decide_eq_true h2⟩
  have hAnd : (A.map (·.1)).Nodup := by
    rw [hAkeys, List.nodup_append]
    refine ⟨?_, I.once, ?_⟩
    · have := I.coarse.disjoint
      rw [flatMap_rangeMap, List.map_flatMap] at this
      exact this
    · intro a ha b hb hab
      subst hab
      obtain ⟨t, ht, hat⟩ := List.mem_flatMap.1 ha
      obtain ⟨v, hv, rfl⟩ := List.mem_map.1 hat
      exact (hkeptnot t (List.mem_range.1 ht) v hv).2 hb
  set P := setAll (fun _ => 0) A with hP
  have hPmem : ∀ u x, (u, x) ∈ A → P u = x := fun u x hx => setAll_mem _ A hAnd hx
  have hvtx : ∀ t, t < p → ∀ v ∈ (hc t).vertices, (v.id, v.part) ∈ A := by
    intro t ht v hv
    rw [hA, List.mem_append]
    exact Or.inl (List.mem_flatMap.2 ⟨t, List.mem_range.2 ht, List.mem_map.2 ⟨v, hv, rfl⟩⟩)
  have hinbA : ∀ t, ∀ m ∈ inbox d outs t, m ∈ A := by
    intro t m hm
    obtain ⟨o, ho, hmo⟩ := (mem_inbox hd).1 hm
    rw [hA, List.mem_append]
    exact Or.inr (List.mem_map.2 ⟨(t, m), List.mem_flatten.2 ⟨o, ho, hmo⟩, rfl⟩)
  have hmsg : ∀ t, t < p → ∀ x ∈ partMsgs (hc t) (c t), ∃ z ∈ (c t).samples.zip (c t).matched,
      (x.2.1, x.1) ∈ z.2 ∧ x.2.2 = partOf (hc t) z.1 := by
    intro t ht x hx
    obtain ⟨z, hz, hxz⟩ := List.mem_flatMap.1 hx
    obtain ⟨m, hm, rfl⟩ := List.mem_map.1 hxz
    exact ⟨z, hz, hm, rfl⟩
  have hinbV : ∀ t, t < p → ∀ m ∈ inbox d outs t, IsVertex (h t) m.1 := by
    intro t ht m hm
    obtain ⟨o, ho, hmo⟩ := (mem_inbox hd).1 hm
    obtain ⟨s, hs, rfl⟩ := List.mem_map.1 ho
    obtain ⟨z, hz, hxz, -⟩ := hmsg s (List.mem_range.1 hs) _ hmo
    exact (I.owner s (List.mem_range.1 hs) z.2 (List.of_mem_zip hz).2 _ hxz).2
  have hinbN : ∀ t, ((inbox d outs t).map (·.1)).Nodup := by
    intro t
    have h1 := (inbox_perm hd outs t).map (·.1)
    refine h1.nodup_iff.2 ?_
    rw [List.map_map]
    have h2 : (outs.flatten.map (fun m => m.2.1)).Nodup := by rw [hallkey]; exact I.once
    exact h2.sublist (List.filter_sublist.map _)
  -- step by step
  have hz : ((List.range p).map (fun t => (c t, hc t))).zip Hs =
      (List.range p).map (fun t => ((c t, hc t), h t)) := by rw [hHs, List.zip_map']
  have e1 : (((List.range p).map (fun t => (c t, hc t))).zip Hs).mapM
      (fun x => x.1.2.vertices.foldlM uncoarsenVertex x.2) = .ok ((List.range p).map (fun t =>
        relabel (h t) (setAll (partOf (h t)) ((hc t).vertices.map (fun v => (v.id, v.part)))))) := by
    rw [hz]
    apply mapM_rangeMap
    intro t ht
    have := uncoarsenVertices_ok (hw t ht) (partOf (h t)) (hc t).vertices
      (fun v hv => (hkeptnot t ht v hv).1)
    rw [relabel_self (hw t ht)] at this
    exact this
  have e2 : ((List.range p).map (fun t => (c t, hc t))).mapM (fun x => partSends p x.2 x.1) =
      .ok outs := by
    apply mapM_rangeMap
    intro t ht
    refine partSends_ok (hwc t ht) (I.len t ht) ?_ (fun l hl m hm => (I.owner t ht l hl m hm).1)
    intro s hs
    obtain ⟨h1, h2⟩ := I.samples t ht s hs
    exact (I.ids t ht).symm.subset (List.mem_filter.2 ⟨h1, decide_eq_true h2⟩)
  refine ⟨P, ?_, ?_⟩
  · unfold uncoarsenPar
    have hlen : Hs.length = p := by rw [hHs]; simp
    simp only [hlen]
    rw [e1, ok_bind, e2, ok_bind, zipIdx_rangeMap, hHs, List.map_map]
    apply mapM_rangeMap
    intro t ht
    simp only [Function.comp_apply]
    rw [partReceives_ok (hw t ht) _ _ (hinbV t ht), ← setAll_append]
    congr 1
    apply relabel_congr
    intro v hv
    set U := (hc t).vertices.map (fun v => (v.id, v.part)) ++ inbox d outs t with hU
    have hUkeys : (U.map (·.1)).Nodup := by
      rw [hU, List.map_append, List.map_map, List.nodup_append]
      refine ⟨(hwc t ht).vids, hinbN t, ?_⟩
      intro a ha b hb hab
      subst hab
      obtain ⟨x, hx, rfl⟩ := List.mem_map.1 ha
      obtain ⟨m, hm, hme⟩ := List.mem_map.1 hb
      obtain ⟨o, ho, hmo⟩ := (mem_inbox hd).1 hm
      apply (hkeptnot t ht x hx).2
      rw [← hallkey]
      exact List.mem_map.2 ⟨(t, m), List.mem_flatten.2 ⟨o, ho, hmo⟩, hme⟩
    have hUsub : ∀ y ∈ U, y ∈ A := by
      intro y hy
      rw [hU, List.mem_append] at hy
      rcases hy with hy | hy
      · obtain ⟨x, hx, rfl⟩ := List.mem_map.1 hy
        exact hvtx t ht x hx
      · exact hinbA t y hy
    have hin : v.id ∈ U.map (·.1) := by
      rw [hU, List.map_append, List.map_map, List.mem_append]
      by_cases hg : v.id ∈ goneIds Cs
      · right
        rw [← hallkey] at hg
        obtain ⟨m, hm, hme⟩ := List.mem_map.1 hg
        obtain ⟨o, ho, hmo⟩ := List.mem_flatten.1 hm
        obtain ⟨s, hs, rfl⟩ := List.mem_map.1 ho
        obtain ⟨z, hz, hxz, -⟩ := hmsg s (List.mem_range.1 hs) m hmo
        obtain ⟨hmp, hmv⟩ := I.owner s (List.mem_range.1 hs) z.2 (List.of_mem_zip hz).2 _ hxz
        have hmt : m.1 = t := by
          obtain ⟨w, hw', hwid⟩ := List.mem_map.1 hmv
          exact (owner_unique I.dist.disjoint hmp ht hw' hv (hwid.trans hme)).1
        refine List.mem_map.2 ⟨m.2, (mem_inbox hd).2 ⟨_, ho, ?_⟩, hme⟩
        rw [← hmt]
        exact hmo
      · left
        have := (I.ids t ht).symm.subset (List.mem_filter.2
          ⟨List.mem_map.2 ⟨v, hv, rfl⟩, decide_eq_true hg⟩)
        exact this
    obtain ⟨y, hy, hye⟩ := List.mem_map.1 hin
    have hye : y.1 = v.id := hye
    have hy' : (v.id, y.2) ∈ U := by rw [← hye]; exact hy
    rw [setAll_mem _ U hUkeys hy']
    exact (hPmem _ _ (hUsub _ hy')).symm
  · intro s hs u hu
    have hzip : (s, matchesIn Cs s) ∈ CW.samples.zip CW.matched := by
      obtain ⟨i, hi⟩ := List.mem_iff_getElem?.1 hs
      apply List.mem_iff_getElem?.2
      refine ⟨i, List.getElem?_zip_eq_some.2 ⟨hi, ?_⟩⟩
      show (CW.samples.map (matchesIn Cs))[i]? = _
      rw [List.getElem?_map, hi]
      rfl
    have hpart : ∀ t, t < p → ∀ x, IsVertex (hc t) x → partOf (unionH N HCs) x = partOf (hc t) x := by
      intro t ht x hx
      obtain ⟨v, hv, rfl⟩ := List.mem_map.1 hx
      exact partOf_union I.coarse (hcm t ht) hv
    rw [members_of_zip wU I.star hzip] at hu
    rcases List.mem_cons.1 hu with rfl | hu
    · obtain ⟨h1, h2⟩ := List.mem_filter.1 hs
      have h2 : u ∉ goneIds Cs := of_decide_eq_true h2
      obtain ⟨v, hv, hid⟩ := List.mem_map.1 h1
      obtain ⟨H, hH, hvH⟩ := List.mem_flatMap.1 hv
      obtain ⟨t, ht, rfl⟩ := List.mem_map.1 hH
      have ht := List.mem_range.1 ht
      have h3 := (I.ids t ht).symm.subset (List.mem_filter.2
        ⟨List.mem_map.2 ⟨v, hvH, hid⟩, decide_eq_true h2⟩)
      obtain ⟨x, hx, hxu⟩ := List.mem_map.1 h3
      have hxu : x.id = u := hxu
      rw [← hxu, hpart t ht x.id (List.mem_map.2 ⟨x, hx, rfl⟩), (hwc t ht).partOf_eq hx]
      exact hPmem _ _ (hvtx t ht x hx)
    · obtain ⟨y, hy, rfl⟩ := List.mem_map.1 hu
      obtain ⟨C, hC, hyC⟩ := List.mem_flatMap.1 hy
      obtain ⟨t, ht, rfl⟩ := List.mem_map.1 hC
      have htr := ht
      have ht := List.mem_range.1 ht
      obtain ⟨z, hz, hyz⟩ := List.mem_flatMap.1 hyC
      split at hyz
      · rename_i hzs
        have h1 : (y.2, (y.1, partOf (hc t) z.1)) ∈ partMsgs (hc t) (c t) :=
          List.mem_flatMap.2 ⟨z, hz, List.mem_map.2 ⟨y, hyz, rfl⟩⟩
        have h2 : (y.1, partOf (hc t) z.1) ∈ A := by
          rw [hA, List.mem_append]
          exact Or.inr (List.mem_map.2 ⟨_, List.mem_flatten.2
            ⟨_, List.mem_map.2 ⟨t, htr, rfl⟩, h1⟩, rfl⟩)
        have h3 := (List.of_mem_zip hz).1
        obtain ⟨h4, h5⟩ := I.samples t ht _ h3
        have h6 : IsVertex (hc t) z.1 :=
          (I.ids t ht).symm.subset (List.mem_filter.2 ⟨h4, decide_eq_true h5⟩)
        rw [hPmem _ _ h2, ← hzs, hpart t ht _ h6]
      · cases hyz

end

end PMondriaan

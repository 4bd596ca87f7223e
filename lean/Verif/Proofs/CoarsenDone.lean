import Verif.Proofs.CoarsenHeld
import Mathlib.Data.List.Perm.Lattice

/-
Proofs about the parallel coarsening: the coarse hypergraph as a whole.
-/

namespace PMondriaan

open Spec

variable {F : Type}

theorem members_congr {C C' : Contraction} (h1 : C.samples = C'.samples)
    (h2 : C.matched.map (fun l => l.map (·.1)) = C'.matched.map (fun l => l.map (·.1))) (s : Nat) :
    members C s = members C' s := by
  have key : ∀ C : Contraction, members C s =
      (C.samples.zip (C.matched.map (fun l => l.map (·.1)))).flatMap
        (fun p => if p.1 = s then p.1 :: p.2 else []) := by
    intro C
    unfold members
    rw [List.zip_map_right, List.flatMap_map]
    rfl
  rw [key, key, h1, h2]

theorem star_congr {H : Hypergraph} {maxC : Nat} {C C' : Contraction} (h1 : C.samples = C'.samples)
    (h2 : C.matched.map (fun l => l.map (·.1)) = C'.matched.map (fun l => l.map (·.1)))
    (h : StarClustering H C maxC) : StarClustering H C' maxC := by
  refine ⟨?_, ?_, ?_⟩
  · have := congrArg List.length h2
    rw [List.length_map, List.length_map] at this
    rw [← this, ← h1]; exact h.len
  · rw [List.map_flatten, ← h2, ← h1, ← List.map_flatten]; exact h.cover
  · intro l hl
    have : l.map (·.1) ∈ C'.matched.map (fun l => l.map (·.1)) := List.mem_map.2 ⟨l, hl, rfl⟩
    rw [← h2] at this
    obtain ⟨l', hl', he⟩ := List.mem_map.1 this
    have := congrArg List.length he
    rw [List.length_map, List.length_map] at this
    rw [← this]; exact h.size l' hl'

section

variable {N ss maxC p : Nat} {h : Nat → Hypergraph} {σ : Nat → List Nat}
  {m : Nat → List (List (Nat × Nat))} {acc : Nat → List (Nat × Nat)}

/-- The clusters, as matches of the whole hypergraph. -/
theorem whole_match (hw : ∀ t, t < p → WF (h t))
    (hdis : ((((List.range p).map h).flatMap (·.vertices)).map (·.id)).Nodup)
    (hσ : SamplesOk ss p h σ) (hM : Matching ss maxC p h σ m acc) :
    MatchOk (unionH N ((List.range p).map h)) maxC
      ((((List.range p).map h).flatMap (·.vertices)).map (fun v =>
        (matchesIn ((List.range p).map (fun t => contractionOf (h t) (σ t) (m t))) v.id).map (·.1)))
      (((((List.range p).map h).flatMap (·.vertices)).filter (fun v => v.id ∉
        goneIds ((List.range p).map (fun t => contractionOf (h t) (σ t) (m t))))).map newVertex) := by
  set V := ((List.range p).map h).flatMap (·.vertices) with hV
  set Cs := (List.range p).map (fun t => contractionOf (h t) (σ t) (m t)) with hCs
  have hmemV : ∀ t, t < p → ∀ v ∈ (h t).vertices, v ∈ V := fun t ht v hv =>
    List.mem_flatMap.2 ⟨h t, List.mem_map.2 ⟨t, List.mem_range.2 ht, rfl⟩, hv⟩
  -- the matches of an id
  have hcase : ∀ u, matchesIn Cs u = [] ∨ ∃ (t j : Nat) (l : List (Nat × Nat)), t < p ∧ (sampleIds (h t) (σ t))[j]? = some u ∧
      (m t)[j]? = some l ∧ matchesIn Cs u = l := by
    intro u
    by_cases hu : ∃ t, t < p ∧ u ∈ sampleIds (h t) (σ t)
    · obtain ⟨t, ht, hmem⟩ := hu
      obtain ⟨j, hj⟩ := List.mem_iff_getElem?.1 hmem
      have hjl : j < (m t).length := by
        rw [hM.len t ht, ← sampleIds_length (hσ t ht).2.1]
        exact (List.getElem?_eq_some_iff.1 hj).1
      exact Or.inr ⟨t, j, _, ht, hj, List.getElem?_eq_getElem hjl,
        matchesIn_sample hw hdis hσ ht hj (List.getElem?_eq_getElem hjl)⟩
    · refine Or.inl (matchesIn_none ?_)
      intro t ht hmem
      exact hu ⟨t, ht, hmem⟩
  have hgone : goneIds Cs = (List.range p).flatMap (fun t => (m t).flatten.map (·.1)) := by
    unfold goneIds
    rw [hCs, List.flatMap_map]
    rfl
  have hsubV : ∀ u ∈ goneIds Cs, u ∈ V.map (·.id) := by
    intro u hu
    obtain ⟨t, ht, l, hl, y, hy, rfl⟩ := mem_gone.1 hu
    obtain ⟨hp, i, v, hv, hid, -⟩ := hM.vtx t ht l hl y hy
    exact List.mem_map.2 ⟨v, hmemV y.2 hp v (List.mem_of_getElem? hv), hid⟩
  refine ⟨by rw [List.length_map]; rfl, ?_, ?_, ?_, ?_⟩
  · intro l hl
    obtain ⟨v, -, rfl⟩ := List.mem_map.1 hl
    rw [List.length_map]
    rcases hcase v.id with h0 | ⟨t, j, l, ht, -, hl, he⟩
    · rw [h0]; simp
    · rw [he]; exact hM.size t ht l (List.mem_of_getElem? hl)
  · intro v' hv'
    obtain ⟨v, hv, rfl⟩ := List.mem_map.1 hv'
    exact ⟨v, (List.mem_filter.1 hv).1, rfl⟩
  · -- the matched ids
    have hflat : ((V.map (fun v => (matchesIn Cs v.id).map (·.1))).flatten).Perm (goneIds Cs) := by
      have e0 : (V.map (fun v => (matchesIn Cs v.id).map (·.1))).flatten =
          (V.map (·.id)).flatMap (fun u => (matchesIn Cs u).map (·.1)) := by
        rw [List.flatMap_map, List.flatMap_def]
      rw [e0]
      set sampAll := (List.range p).flatMap (fun t => sampleIds (h t) (σ t)) with hsampAll
      have hsub : sampAll.Subperm (V.map (·.id)) := by
        have e5 : V.map (·.id) = (List.range p).flatMap (fun s => (h s).vertices.map (·.id)) := by
          rw [hV, List.map_flatMap, List.flatMap_map]
        rw [e5]
        apply flatMap_subperm
        intro t ht
        have ht := List.mem_range.1 ht
        apply List.subperm_of_subset (sampleIds_nodup (hw t ht) (hσ t ht).2.1 (hσ t ht).1)
        intro u hu
        obtain ⟨x, v, -, hv, rfl⟩ := sampleIds_mem hu
        exact List.mem_map.2 ⟨v, List.mem_of_getElem? hv, rfl⟩
      obtain ⟨l0, hl0, hs0⟩ := hsub
      obtain ⟨rest, hrest⟩ := hs0.exists_perm_append
      have hrest := hrest.trans (hl0.append_right rest)
      have hnd := hrest.nodup_iff.1 hdis
      rw [List.nodup_append] at hnd
      refine (hrest.flatMap_right _).trans ?_
      rw [List.flatMap_append]
      have hr0 : rest.flatMap (fun u => (matchesIn Cs u).map (·.1)) = [] := by
        rw [List.flatMap_eq_nil_iff]
        intro u hu
        rw [matchesIn_none (fun t ht hmem => hnd.2.2 u
          (List.mem_flatMap.2 ⟨t, List.mem_range.2 ht, hmem⟩) u hu rfl)]
        rfl
      rw [hr0, List.append_nil, hgone, hsampAll, List.flatMap_assoc]
      refine List.Perm.of_eq ?_
      rw [List.flatMap_def, List.flatMap_def]
      congr 1
      apply List.map_congr_left
      intro t ht
      have ht := List.mem_range.1 ht
      rw [List.flatMap_def, List.map_flatten]
      congr 1
      apply List.ext_getElem?
      intro j
      rw [List.getElem?_map, List.getElem?_map]
      cases hj : (sampleIds (h t) (σ t))[j]? with
      | none =>
        have : (m t)[j]? = none := by
          rw [List.getElem?_eq_none_iff, hM.len t ht, ← sampleIds_length (hσ t ht).2.1]
          exact List.getElem?_eq_none_iff.1 hj
        rw [this]; rfl
      | some u =>
        have hjl : j < (m t).length := by
          rw [hM.len t ht, ← sampleIds_length (hσ t ht).2.1]
          exact (List.getElem?_eq_some_iff.1 hj).1
        rw [List.getElem?_eq_getElem hjl, Option.map_some, Option.map_some,
          matchesIn_sample hw hdis hσ ht hj (List.getElem?_eq_getElem hjl)]
    have hids : ((V.filter (fun v => v.id ∉ goneIds Cs)).map newVertex).map (·.id) =
        (V.map (·.id)).filter (fun u => u ∉ goneIds Cs) := by
      rw [List.map_map, List.filter_map]
      rfl
    rw [hids]
    have hg2 : (goneIds Cs).Perm ((V.map (·.id)).filter (fun u => u ∈ goneIds Cs)) := by
      rw [List.perm_ext_iff_of_nodup (by rw [hgone]; exact hM.nodup) (hdis.filter _)]
      intro u
      rw [List.mem_filter, decide_eq_true_iff]
      exact ⟨fun hu => ⟨hsubV u hu, hu⟩, fun hu => hu.2⟩
    refine ((hflat.trans hg2).append_left _).trans ?_
    have := List.filter_append_perm (fun u => decide (u ∉ goneIds Cs)) (V.map (·.id))
    refine List.Perm.trans (List.Perm.append_left _ (List.Perm.of_eq ?_)) this
    apply List.filter_congr
    intro u _
    simp
  · intro i v l hv hl hne
    have hv' : V[i]? = some v := hv
    rw [List.getElem?_map, hv', Option.map_some, Option.some.injEq] at hl
    have hvV := List.mem_of_getElem? hv'
    refine List.mem_map.2 ⟨v, List.mem_filter.2 ⟨hvV, ?_⟩, rfl⟩
    rcases hcase v.id with h0 | ⟨t, j, l', ht, hj, -, -⟩
    · rw [h0] at hl; exact absurd hl.symm hne
    · have hj' := hj
      rw [sampleIds_get (hσ t ht).2.1] at hj'
      obtain ⟨x, hx, hx2⟩ := Option.bind_eq_some_iff.1 hj'
      obtain ⟨v', hv1, hv2⟩ := Option.map_eq_some_iff.1 hx2
      have := sample_kept hw hdis hM ht (List.mem_of_getElem? hx) hv1
      rw [hv2] at this
      simpa using this

theorem whole_msAt (wU : WF (unionH N ((List.range p).map h))) {Cs : List Contraction} {v : Vertex}
    (hv : v ∈ ((List.range p).map h).flatMap (·.vertices)) :
    msAt (unionH N ((List.range p).map h)) ((((List.range p).map h).flatMap (·.vertices)).map
      (fun v => (matchesIn Cs v.id).map (·.1))) v.id = (matchesIn Cs v.id).map (·.1) := by
  obtain ⟨i, hi⟩ := List.mem_iff_getElem?.1 hv
  have h1 : (unionH N ((List.range p).map h)).vmap v.id = some i :=
    (wU.vmap_iff _ _).2 ⟨v, hi, rfl⟩
  unfold msAt
  rw [h1]
  simp only
  rw [List.getElem?_map, hi]
  rfl

end

end PMondriaan

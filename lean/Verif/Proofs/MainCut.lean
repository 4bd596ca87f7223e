import Verif.Proofs.Main
import Verif.Spec.RecCutPar

/-
The matrix held by the processors after the recursion with the cut-net metric. The lists of nets of the vertices can
be incomplete then; the functions that report do not use them.
-/

namespace PMondriaan

open Spec

variable {E V : Nat} {es : List (Nat × Nat)} {wt : List Nat → Int}

/-- The vertex with a complete list of nets. -/
def relistV (H : Hypergraph) (v : Vertex) : Vertex :=
  { v with nets := (H.nets.filter (fun n => decide (v.id ∈ n.vertices))).map (·.id) }

/-- The hypergraph with complete lists of nets. -/
def relist (H : Hypergraph) : Hypergraph := { H with vertices := H.vertices.map (relistV H) }

theorem relist_ids (H : Hypergraph) : (relist H).vertices.map (·.id) = H.vertices.map (·.id) := by
  unfold relist; rw [List.map_map]; rfl

theorem relist_flatMap {β : Type} (f : Vertex → β) (hf : ∀ H v, f (relistV H v) = f v) (Hs : List Hypergraph) :
    ((Hs.map relist).flatMap (·.vertices)).map f = (Hs.flatMap (·.vertices)).map f := by
  induction Hs with
  | nil => rfl
  | cons H l ih =>
    rw [List.map_cons, List.flatMap_cons, List.flatMap_cons, List.map_append, List.map_append, ih]
    congr 1
    unfold relist
    rw [List.map_map]
    apply List.map_congr_left
    intro v _
    exact hf H v

theorem relist_pins (Hs : List Hypergraph) (e : Nat) : unionPins (Hs.map relist) e = unionPins Hs e := by
  unfold unionPins
  rw [List.flatMap_map]
  rfl

theorem wf_relist {H : Hypergraph} (hv : (H.vertices.map (·.id)).Nodup) (hn : (H.nets.map (·.id)).Nodup)
    (hvm : ∀ u i, H.vmap u = some i ↔ (H.vertices.map (·.id))[i]? = some u)
    (hnm : ∀ e j, H.nmap e = some j ↔ (H.nets.map (·.id))[j]? = some e)
    (hh : ∀ n ∈ H.nets, n.vertices.Nodup ∧ ∀ u ∈ n.vertices, IsVertex H u) : WF (relist H) := by
  refine ⟨by rw [relist_ids]; exact hv, hn, by rw [relist_ids]; exact hvm, hnm, ?_, fun n hn' => (hh n hn').1, ?_, ?_⟩
  · intro v hv
    obtain ⟨x, -, rfl⟩ := List.mem_map.1 hv
    exact hn.sublist ((List.filter_sublist).map _)
  · intro v hv e he
    obtain ⟨x, -, rfl⟩ := List.mem_map.1 hv
    obtain ⟨n, hn', rfl⟩ := List.mem_map.1 he
    obtain ⟨h1, h2⟩ := List.mem_filter.1 hn'
    exact ⟨n, h1, rfl, of_decide_eq_true h2⟩
  · intro n hn' u hu
    obtain ⟨x, hx, hxu⟩ := List.mem_map.1 ((hh n hn').2 u hu)
    have hxu : x.id = u := hxu
    subst hxu
    exact ⟨relistV H x, List.mem_map_of_mem hx, rfl,
      List.mem_map_of_mem (List.mem_filter.2 ⟨hn', by simpa using hu⟩)⟩

/-- After the recursion with the cut-net metric the matrix is still there. -/
theorem holdMatrix_returned {Hs Hs' : List Hypergraph} (h : HoldMatrix E V es wt Hs) (hr : NetsReturned Hs Hs') :
    HoldMatrix E V es wt (Hs'.map relist) := by
  have hsz : ∀ H ∈ Hs', H.globalSize = V ∧ H.globalNumberNets = E := by
    intro H hH
    have h1 : Spec.sizes H ∈ Hs'.map Spec.sizes := List.mem_map_of_mem hH
    rw [hr.sizes] at h1
    obtain ⟨K, hK, he⟩ := List.mem_map.1 h1
    unfold Spec.sizes at he
    simp only [Prod.mk.injEq] at he
    rw [← he.1, ← he.2.1]
    exact ⟨h.size K hK, h.number K hK⟩
  have hids : ((Hs'.flatMap (·.vertices)).map (·.id)).Nodup := by
    have h1 := (hr.verts.map Prod.fst)
    rw [List.map_map, List.map_map] at h1
    exact (List.Perm.nodup_iff h1).2 h.dist.disjoint
  have hnet : ∀ H ∈ Hs', ∀ n ∈ H.nets, n.id < E ∧ n.cost = 1 := by
    intro H hH n hn
    obtain ⟨K, hK, he⟩ := (hr.nets n.id).1 ⟨H, hH, List.mem_map_of_mem hn⟩
    obtain ⟨m, hm, hmn⟩ := List.mem_map.1 he
    have hmn : m.id = n.id := hmn
    refine ⟨?_, ?_⟩
    · rw [← hmn]; exact h.dist.ids K hK m hm
    · rw [hr.costs H hH n hn, ← hmn, unionCost_eq h.dist hK hm, h.costs K hK m hm]
  refine ⟨⟨?_, ?_, ?_, ?_⟩, ?_, ?_, ?_, ?_, ?_⟩
  · intro H hH
    obtain ⟨K, hK, rfl⟩ := List.mem_map.1 hH
    refine wf_relist ?_ (hr.nids K hK) (hr.vmap K hK) (hr.nmap K hK) (hr.here K hK)
    rw [List.map_flatMap] at hids
    exact (List.nodup_flatMap.1 hids).1 K hK
  · rw [relist_flatMap _ (fun _ _ => rfl)]; exact hids
  · intro H hH n hn
    obtain ⟨K, hK, rfl⟩ := List.mem_map.1 hH
    exact (hnet K hK n hn).1
  · intro H hH H' hH' n hn n' hn' _
    obtain ⟨K, hK, rfl⟩ := List.mem_map.1 hH
    obtain ⟨K', hK', rfl⟩ := List.mem_map.1 hH'
    rw [(hnet K hK n hn).2, (hnet K' hK' n' hn').2]
  · rw [relist_flatMap _ (fun _ _ => rfl)]; exact hr.verts.trans h.verts
  · intro e he
    rw [relist_pins]
    exact (hr.pins e).trans (h.pins e he)
  · intro H hH n hn
    obtain ⟨K, hK, rfl⟩ := List.mem_map.1 hH
    exact (hnet K hK n hn).2
  · intro H hH
    obtain ⟨K, hK, rfl⟩ := List.mem_map.1 hH
    exact (hsz K hK).1
  · intro H hH
    obtain ⟨K, hK, rfl⟩ := List.mem_map.1 hH
    exact (hsz K hK).2

/-! ### The reporting functions do not use the lists -/

theorem relist_vertexOf (H : Hypergraph) (u : Nat) :
    (relist H).vertexOf u = (H.vertexOf u).map (relistV H) := by
  unfold Hypergraph.vertexOf Hypergraph.localId Hypergraph.vertexAt relist
  simp only [List.length_map]
  cases h : H.vmap u with
  | none => rfl
  | some i =>
    simp only
    by_cases hi : i < H.vertices.length
    · rw [if_pos hi]
      simp only [ok_bind, List.getElem?_map]
      cases h2 : H.vertices[i]? with
      | none => rfl
      | some v => rfl
    · rw [if_neg hi]; rfl

theorem relist_partOfV (H : Hypergraph) (u : Nat) : (relist H).partOfV u = H.partOfV u := by
  unfold Hypergraph.partOfV
  rw [relist_vertexOf]
  cases H.vertexOf u <;> rfl

theorem relist_cutSends (so : List Int → List Int) (p : Nat) (np : NetPart) (H : Hypergraph) :
    cutSends so p np (relist H) = cutSends so p np H := by
  unfold cutSends labelsNet
  simp only [relist_partOfV]
  rfl

theorem relist_cutsizePar (so : List Int → List Int) (d : Delivery LabelMsg) (np : NetPart) (Hs : List Hypergraph)
    (m : Metric) : cutsizePar so d np (Hs.map relist) m = cutsizePar so d np Hs m := by
  unfold cutsizePar
  rw [List.mapM_map]
  have : (cutSends so (Hs.map relist).length np ∘ relist) = cutSends so Hs.length np := by
    funext H
    rw [Function.comp_apply, List.length_map, relist_cutSends]
  rw [this, List.length_map]

theorem relist_weightAllParts (H : Hypergraph) (k : Nat) : (relist H).weightAllParts k = H.weightAllParts k := by
  unfold Hypergraph.weightAllParts relist
  rw [List.foldlM_map]
  rfl

theorem relist_globalWeightParts (Hs : List Hypergraph) (k : Nat) :
    globalWeightParts (Hs.map relist) k = globalWeightParts Hs k := by
  unfold globalWeightParts
  rw [List.mapM_map]
  have : ((fun H : Hypergraph => H.weightAllParts k) ∘ relist) = fun H => H.weightAllParts k := by
    funext H
    exact relist_weightAllParts H k
  rw [this]
  simp only [List.map_map]
  rfl

theorem relist_loadBalancePar (rnd : ℚ → ℚ) (Hs : List Hypergraph) (k : Nat) :
    loadBalancePar rnd (Hs.map relist) k = loadBalancePar rnd Hs k := by
  have h : globalWeight (Hs.map relist) = globalWeight Hs := by
    unfold globalWeight
    rw [List.map_map]
    congr 1
    apply List.map_congr_left
    intro H _
    simp only [Function.comp_apply]
    unfold Hypergraph.totalWeight relist
    rw [List.foldl_map]
    rfl
  unfold loadBalancePar
  rw [relist_globalWeightParts, h]

/-- The cut of the hypergraph is the number of rows that are split. -/
theorem holdMatrix_cutNet {Hs : List Hypergraph} (h : HoldMatrix E V es wt Hs) :
    cutValue .cutNet (unionH E Hs) = rowsSplit E es (labelsOf E Hs) := by
  unfold cutValue cutNet rowsSplit
  simp only
  have e1 : (unionH E Hs).nets = (List.range E).map (unionNet Hs) := rfl
  rw [e1, List.map_map]
  have hle : ∀ e ∈ List.range E, e < E := fun e he => List.mem_range.1 he
  generalize List.range E = l at hle
  induction l with
  | nil => rfl
  | cons e l ih =>
    have he := hle e (by simp)
    rw [List.map_cons, List.sum_cons, ih (fun x hx => hle x (by simp [hx])), List.countP_cons]
    have hp := h.pins e he
    have hiff : IsCut (partOf (unionH E Hs)) (unionNet Hs e) ↔
        ∃ u ∈ rowOf es e, ∃ v ∈ rowOf es e, labelsOf E Hs u ≠ labelsOf E Hs v := by
      unfold IsCut unionNet labelsOf
      simp only [hp.mem_iff]
    simp only [Function.comp_apply, hiff, decide_eq_true_eq]
    by_cases hx : ∃ u ∈ rowOf es e, ∃ v ∈ rowOf es e, labelsOf E Hs u ≠ labelsOf E Hs v
    · rw [if_pos hx, if_pos hx]
      obtain ⟨u, hu, -⟩ := hx
      rw [← hp.mem_iff] at hu
      obtain ⟨H, hH, n, hn, rfl, -⟩ := mem_unionPins.1 hu
      have : (unionNet Hs n.id).cost = 1 := by
        unfold unionNet
        dsimp only
        rw [unionCost_eq h.dist hH hn, h.costs H hH n hn]
      rw [this]; push_cast; ring
    · rw [if_neg hx, if_neg hx]; simp

end PMondriaan

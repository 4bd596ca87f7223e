import Verif.Proofs.BestOf
import Verif.Props.UncoarsenPar

/-
C57 and C58: the coarse hypergraph is copied to all processors, and the best bisection is chosen.
-/

namespace PMondriaan

open Spec

section

variable {N : Nat} {Hs : List Hypergraph}

/-- C57: every processor gets a copy of the whole hypergraph: all vertices with their weights and nets,
all nets with all their pins. What is missing: the costs of the nets (they are 1 for the nets the processor
has itself, `C57_cost_false`) and their global sizes (0 for the other nets, `C57_size_false`). -/
theorem C57_replicate_partial (hD : Distributed N Hs) {dV : Delivery VertMsg} {dN : Delivery (Nat × Int)}
    (hV : Fair dV) (hN : Fair dN) :
    ∃ Gs, replicateAll dV dN Hs = .ok Gs ∧ List.Forall₂ (Replica Hs) Hs Gs := by
  have e1 := getD_rangeMap Hs (Hypergraph.create 0 0 [] [])
  set h := fun t => Hs.getD t (Hypergraph.create 0 0 [] [])
  set p := Hs.length
  clear_value p h
  subst e1
  obtain ⟨g, g1, g2⟩ := replicateAll_fun hD hV hN
  exact ⟨_, g1, forall2_range g2⟩

/-- C57 for nets of cost 1: the costs are also right. -/
theorem C57_costs (hD : Distributed N Hs) (h1 : ∀ H ∈ Hs, ∀ n ∈ H.nets, n.cost = 1) {H G : Hypergraph}
    (hG : Replica Hs H G) : ∀ n ∈ G.nets, n.cost = 1 ∧ unionCost Hs n.id = 1 := by
  intro n hn
  obtain ⟨H', hH', hi⟩ := (hG.nets n.id).1 (List.mem_map.2 ⟨n, hn, rfl⟩)
  obtain ⟨m, hm, he⟩ := List.mem_map.1 hi
  have he : m.id = n.id := he
  have hu : unionCost Hs n.id = 1 := by rw [← he, unionCost_eq hD hH' hm, h1 H' hH' m hm]
  refine ⟨?_, hu⟩
  by_cases h : IsNet H n.id
  · exact hG.ownCost n hn h
  · rw [hG.otherCost n hn h, hu]

/-- C58: all processors take the labels and the cutsize of one bisected copy `G`: the hypergraph that they
hold together then has the cutsizes and part weights of `G`; and if any processor has a bisection within
the bounds, then `G` is within the bounds and cuts no more than that one. For nets of cost 1. -/
theorem C58_choose_best (hne : Hs ≠ []) (hD : Distributed N Hs) (h1 : ∀ H ∈ Hs, ∀ n ∈ H.nets, n.cost = 1)
    {dL : Delivery (Nat × Int)} {dC : Delivery (Option Int)} (hL : Fair dL) (hC : Fair dC)
    (max0 max1 : Int) {Gs : List (Hypergraph × Option Int)} (hG : List.Forall₂ (BisectedCopy Hs) Hs Gs)
    (hlt : ∀ g ∈ Gs, cutValue .cutNet g.1 < longMax) :
    ∃ G Rs, (∃ g ∈ Gs, g.1 = G) ∧ chooseBest dL dC max0 max1 Gs Hs = .ok Rs ∧
      LabelledAs N Hs G (Rs.map (·.1)) ∧ (∀ r ∈ Rs, r.2 = some (cutValue .cutNet G)) ∧
      ∀ g ∈ Gs, Within max0 max1 g.1 → Within max0 max1 G ∧ cutValue .cutNet G ≤ cutValue .cutNet g.1 := by
  have hlen : Gs.length = Hs.length := hG.length_eq.symm
  have hp : 0 < Hs.length := List.length_pos_iff.2 hne
  obtain ⟨h, g, e1, e2, hg⟩ : ∃ (h : Nat → Hypergraph) (g : Nat → Hypergraph × Option Int),
      Hs = (List.range Hs.length).map h ∧ Gs = (List.range Hs.length).map g ∧
      ∀ t, t < Hs.length → BisectedCopy Hs (h t) (g t) := by
    refine ⟨_, fun t => Gs.getD t (Hypergraph.create 0 0 [] [], none),
      getD_rangeMap Hs (Hypergraph.create 0 0 [] []), ?_, ?_⟩
    · have := getD_rangeMap Gs (Hypergraph.create 0 0 [] [], none)
      rw [hlen] at this
      exact this
    · intro t ht
      have := (List.forall₂_iff_get.1 hG).2 t ht (by omega)
      dsimp only
      rw [List.getD_eq_getElem?_getD, List.getD_eq_getElem?_getD, List.getElem?_eq_getElem ht,
        List.getElem?_eq_getElem (by omega)]
      exact this
  clear hG
  set p := Hs.length
  clear_value p
  subst e1 e2
  obtain ⟨b, b1, b2, b3⟩ := chooseBest_fun hp hD hL hC max0 max1 hg
  have hB := hg b b1
  obtain ⟨K, k1, k2⟩ := hB.copy
  have hcost : ∀ n ∈ K.nets, n.cost = unionCost ((List.range p).map h) n.id := by
    intro n hn
    obtain ⟨c1, c2⟩ := C57_costs hD h1 k1 n hn
    rw [c1, c2]
  refine ⟨(g b).1, _, ⟨g b, List.mem_map.2 ⟨b, List.mem_range.2 b1, rfl⟩, rfl⟩, b2, ?_, ?_, ?_⟩
  · have := labelledAs hD k1 hcost hB.wf hB.bip k2
    rw [List.map_map] at this ⊢
    exact this
  · intro r hr
    obtain ⟨t, ht, rfl⟩ := List.mem_map.1 hr
    exact hB.cut
  · intro y hy hw
    obtain ⟨t, ht, rfl⟩ := List.mem_map.1 hy
    have hle := b3 t (List.mem_range.1 ht)
    have ht2 := hlt (g t) hy
    have e3 : bestKey max0 max1 (g t) = cutValue .cutNet (g t).1 := by
      unfold bestKey cutSize
      rw [weightPart_eq, weightPart_eq, if_neg (by have := hw.1; have := hw.2; omega),
        (hg t (List.mem_range.1 ht)).cut]
      rfl
    have hW : Within max0 max1 (g b).1 := by
      by_contra hn
      have : bestKey max0 max1 (g b) = longMax := by
        unfold bestKey cutSize
        rw [weightPart_eq, weightPart_eq, if_pos (by unfold Within at hn; omega)]
        rfl
      omega
    refine ⟨hW, ?_⟩
    have e4 : bestKey max0 max1 (g b) = cutValue .cutNet (g b).1 := by
      unfold bestKey cutSize
      rw [weightPart_eq, weightPart_eq, if_neg (by have := hW.1; have := hW.2; omega), hB.cut]
      rfl
    omega

end

/-- The messages of the examples arrive in reverse. -/
def exampleReplicas : Res (List Hypergraph) := replicateAll (revDelivery _) (revDelivery _) exampleD

/-- Both processors know the pins of net 0, also processor 1 that held only vertex 3 of it. -/
example : exampleReplicas.toOption.map (fun Gs => Gs.map (fun G =>
      (G.vertices.map (fun v => (v.id, v.weight)), G.nets.map (fun n => (n.id, n.vertices))))) =
    some [([(1, 2), (4, 3), (3, 5), (0, 1)], [(0, [1, 4, 3]), (2, [1, 0]), (1, [4])]),
      ([(0, 1), (3, 5), (4, 3), (1, 2)], [(2, [0, 1]), (0, [3, 4, 1]), (1, [4])])] := by
  decide +kernel

/-- The costs are not copied: net 0 has cost 2 on both processors, and cost 1 in both copies. -/
theorem C57_cost_false : Distributed 3 exampleD ∧ unionCost exampleD 0 = 2 ∧
    exampleReplicas.toOption.map (fun Gs => Gs.map (fun G => G.nets.map (fun n => (n.id, n.cost)))) =
      some [[(0, 1), (2, 1), (1, 1)], [(2, 1), (0, 1), (1, 7)]] :=
  ⟨exampleD_dist, by decide, by decide +kernel⟩

/-- Net 0 lies on processor 0, net 1 on processor 1. -/
def apart : List Hypergraph :=
  [ Hypergraph.create 4 2
      [ { id := 0, nets := [0], weight := 1, part := -1 }, { id := 1, nets := [0], weight := 1, part := -1 } ]
      [ { id := 0, vertices := [0, 1], cost := 1, globalSize := 2 } ],
    Hypergraph.create 4 2
      [ { id := 2, nets := [1], weight := 1, part := -1 }, { id := 3, nets := [1], weight := 1, part := -1 } ]
      [ { id := 1, vertices := [2, 3], cost := 1, globalSize := 2 } ] ]

/-- The global sizes are not copied: on processor 1 the copy of net 0 has two pins and global size 0, so
that its `scaled_cost()`, the cost divided by the global size minus one, is -1 instead of 1. The
coarsening that follows then avoids the pairs of vertices that this net connects. -/
theorem C57_size_false : Distributed 2 apart ∧ TrueSizes apart ∧
    (replicateAll (revDelivery _) (revDelivery _) apart).toOption.map (fun Gs => Gs.map (fun G =>
      G.nets.map (fun n => (n.id, n.vertices.length, n.globalSize, n.cost / ((n.globalSize : Int) - 1))))) =
      some [[(0, 2, 2, 1), (1, 2, 0, -1)], [(1, 2, 2, 1), (0, 2, 0, -1)]] :=
  ⟨⟨by
      intro H hH
      simp only [apart, List.mem_cons, List.not_mem_nil, or_false] at hH
      rcases hH with rfl | rfl <;>
        exact WF_create (by decide) (by decide) (by decide) (by decide) (by decide) (by decide),
    by decide, by decide, by decide⟩, ⟨by decide, by unfold CostsNonneg; decide⟩, by decide +kernel⟩

/-- Two bisected copies of `apart`: processor 0 puts everything in part 0, which is too heavy;
processor 1 cuts nothing within the bounds and wins. -/
example : (do
      let Gs ← replicateAll (revDelivery _) (revDelivery _) apart
      let Rs := Gs.zipIdx.map (fun x => (relabel x.1 (fun u => if x.2 = 1 ∧ u < 2 then 1 else 0), some 0))
      chooseBest (revDelivery _) (revDelivery _) 2 2 Rs apart :
        Res (List (Hypergraph × Option Int))).toOption.map (fun Rs => Rs.map (fun r =>
          (r.1.vertices.map (fun v => (v.id, v.part)), r.2))) =
    some [([(0, 1), (1, 1)], some 0), ([(2, 0), (3, 0)], some 0)] := by
  decide +kernel

end PMondriaan

import Verif.Proofs.Bsp
import Verif.Props.Container

/-
Properties of the distributed functions: C08 (distributed weights), C10, C11 (parallel), C12, C43.
-/

namespace PMondriaan

open Spec

theorem exampleD_dist : Distributed 3 exampleD := by
  refine ⟨?_, by decide, by decide, by decide⟩
  intro H hH
  simp only [exampleD, List.mem_cons, List.not_mem_nil, or_false] at hH
  rcases hH with rfl | rfl <;>
    exact WF_create (by decide) (by decide) (by decide) (by decide) (by decide) (by decide)

/-- Messages in reverse order. -/
def revDelivery (M : Type) : Delivery M := fun _ l => l.reverse

theorem revDelivery_fair (M : Type) : Fair (revDelivery M) := fun _ l => List.reverse_perm l

/-- The block partitioning of Bulk satisfies what is assumed of it. -/
example : (blockPart 2 3).Valid 2 3 := blockPart_valid 2 3 (by decide)

/-- The union of the example. -/
example : (unionH 3 exampleD).vertices.map (·.id) = [1, 4, 0, 3] ∧
    (unionH 3 exampleD).nets.map (·.vertices) = [[1, 4, 3], [4], [1, 0]] ∧
    (unionH 3 exampleD).nets.map (·.cost) = [2, 7, 1] := by decide

/-! ### C08, distributed -/

/-- C08: the global weight on every processor is the weight of all vertices. -/
theorem C08_global_weight (N : Nat) (Hs : List Hypergraph) :
    globalWeight Hs = Hs.map (fun _ => ((unionH N Hs).vertices.map (·.weight)).sum) := by
  unfold globalWeight
  rw [bulkSum_eq, List.map_map]
  have h : (Hs.map (·.totalWeight)).sum = ((unionH N Hs).vertices.map (·.weight)).sum := by
    simp only [unionH, Hypergraph.create]
    rw [totalWeight_union]
    congr 1
    exact List.map_congr_left (fun H _ => totalWeight_eq H)
  rw [h]; rfl

theorem partWeight_union (N : Nat) (Hs : List Hypergraph) (q : Int) :
    partWeight (unionH N Hs) q = (Hs.map (fun H => partWeight H q)).sum := by
  simp only [partWeight, unionH, Hypergraph.create]
  rw [List.filter_flatMap, List.map_flatMap, sum_flatMap]

/-- C08: the global weight of a part. -/
theorem C08_global_weight_part (N : Nat) (Hs : List Hypergraph) (q : Int) :
    globalWeightPart Hs q = Hs.map (fun _ => partWeight (unionH N Hs) q) := by
  unfold globalWeightPart
  rw [bulkSum_eq, List.map_map, partWeight_union]
  have h : Hs.map (fun H => H.weightPart q) = Hs.map (fun H => partWeight H q) :=
    List.map_congr_left (fun H _ => weightPart_eq H q)
  rw [h]; rfl

theorem foldl_addEach (k : Nat) (g : Nat → Int) (Hs : List Hypergraph) (f : Hypergraph → Nat → Int) :
    (Hs.map (fun H => (List.range k).map (f H))).foldl addEach ((List.range k).map g) =
      (List.range k).map (fun p => g p + (Hs.map (fun H => f H p)).sum) := by
  induction Hs generalizing g with
  | nil => simp
  | cons H Hs ih =>
    rw [List.map_cons, List.foldl_cons]
    have : addEach ((List.range k).map g) ((List.range k).map (f H)) =
        (List.range k).map (fun p => g p + f H p) := by
      unfold addEach
      rw [List.zipWith_map_left, List.zipWith_map_right, List.zipWith_self]
    rw [this, ih]
    apply List.map_congr_left
    intro p _
    rw [List.map_cons, List.sum_cons, add_assoc]

/-- C08: all part weights, on every processor; they add up to the total weight. -/
theorem C08_global_weight_parts (N k : Nat) (Hs : List Hypergraph)
    (hp : ∀ H ∈ Hs, ∀ v ∈ H.vertices, 0 ≤ v.part ∧ v.part < k) :
    ∃ t, globalWeightParts Hs k = .ok (Hs.map (fun _ => t)) ∧
      t = (List.range k).map (fun (p : Nat) => partWeight (unionH N Hs) p) ∧
      t.sum = ((unionH N Hs).vertices.map (·.weight)).sum := by
  refine ⟨_, ?_, rfl, ?_⟩
  · unfold globalWeightParts
    rw [mapM_ok (g := fun H => (List.range k).map (fun (p : Nat) => partWeight H p))]
    · simp only [ok_bind, pure_eq_ok]
      have h0 : List.replicate k (0 : Int) = (List.range k).map (fun _ => 0) := by simp
      rw [h0, foldl_addEach]
      simp only [partWeight_union, zero_add]
    · intro H hH
      exact weightAllParts_ok H k (hp H hH)
  · apply sum_partWeights
    intro v hv
    simp only [unionH, Hypergraph.create] at hv
    obtain ⟨H, hH, hv⟩ := List.mem_flatMap.1 hv
    exact hp H hH v hv

/-- C08: one vertex anywhere without a part makes the distributed version access out of bounds. -/
theorem C08_global_unassigned_out_of_bounds (k : Nat) (Hs : List Hypergraph)
    (hp : ∃ H ∈ Hs, ∃ v ∈ H.vertices, ¬ (0 ≤ v.part ∧ v.part < k)) :
    globalWeightParts Hs k = .error .ub := by
  have hm : Hs.mapM (fun H => H.weightAllParts k) = .error .ub := by
    obtain ⟨H, hH, hv⟩ := hp
    have hall : ∀ H : Hypergraph, (∃ t, H.weightAllParts k = .ok t) ∨
        H.weightAllParts k = .error .ub := by
      intro H
      by_cases h : ∀ v ∈ H.vertices, 0 ≤ v.part ∧ v.part < k
      · exact Or.inl ⟨_, weightAllParts_ok H k h⟩
      · push Not at h
        obtain ⟨v, hv, hbad⟩ := h
        exact Or.inr (C08_unassigned_out_of_bounds H k ⟨v, hv, fun h => absurd h.2 (not_lt.2 (hbad h.1))⟩)
    induction Hs with
    | nil => cases hH
    | cons H0 Hs ih =>
      rw [List.mapM_cons]
      rcases List.mem_cons.1 hH with rfl | hH
      · rw [C08_unassigned_out_of_bounds _ k hv]; rfl
      · rcases hall H0 with ⟨t, ht⟩ | he
        · rw [ht]; simp only [ok_bind]; rw [ih hH]; rfl
        · rw [he]; rfl
  unfold globalWeightParts
  rw [hm]; rfl

example : globalWeightParts exampleD 2 = .ok [[2, 9], [2, 9]] := by decide

/-- C08: the recorded global size is the number of vertices of the whole hypergraph. -/
theorem C08_recompute_global_size (N : Nat) (Hs : List Hypergraph) :
    recomputeGlobalSize Hs = Hs.map (fun H => { H with globalSize := (unionH N Hs).vertices.length }) := by
  unfold recomputeGlobalSize
  have h : ∀ (l : List Hypergraph) (a : Nat), (l.map (·.vertices.length)).foldl (· + ·) a =
      a + (l.flatMap (·.vertices)).length := by
    intro l
    induction l with
    | nil => simp
    | cons H l ih =>
      intro a
      rw [List.map_cons, List.foldl_cons, ih, List.flatMap_cons, List.length_append]; omega
  rw [h]
  simp [unionH, Hypergraph.create]

/-! ### C10 -/

/-- C10: on every processor, the distributed cutsize is the metric of the whole hypergraph. -/
theorem C10_distributed_cutsize {N : Nat} {Hs : List Hypergraph} (hD : Distributed N Hs)
    {np : NetPart} (hv : np.Valid Hs.length N) {d : Delivery LabelMsg} (hd : Fair d)
    {so : List Int → List Int} (hso : ∀ l, (so l).Perm l) (metric : Metric) :
    cutsizePar so d np Hs metric = .ok (Hs.map (fun _ => cutValue metric (unionH N Hs))) :=
  cutsizePar_ok hD hv hd hso metric

/-- C10: it also equals what the sequential function computes on the whole hypergraph. -/
theorem C10_equals_sequential {N : Nat} {Hs : List Hypergraph} (hD : Distributed N Hs)
    {np : NetPart} (hv : np.Valid Hs.length N) {d : Delivery LabelMsg} (hd : Fair d)
    {so : List Int → List Int} (hso : ∀ l, (so l).Perm l) (metric : Metric) :
    ∃ r, cutsize (unionH N Hs) metric = .ok r ∧
      cutsizePar so d np Hs metric = .ok (Hs.map (fun _ => r)) :=
  ⟨_, C09_cutsize (unionH_wf hD) metric, cutsizePar_ok hD hv hd hso metric⟩

/-- Net 0 is cut only across processors plus locally, net 2 only across. -/
example : cutsizePar List.reverse (revDelivery _) (blockPart 2 3) exampleD .cutNet = .ok [3, 3] := by
  decide

/-! ### C11, parallel -/

/-- C11: the parallel counts of every local net are the counts over all processors. -/
theorem C11_init_counts_par {N : Nat} {Hs : List Hypergraph} (hD : Distributed N Hs)
    {np : NetPart} (hv : np.Valid Hs.length N) {d : Delivery (Nat × Int)} (hd : Fair d)
    (hb : ∀ H ∈ Hs, Bipartitioned H)
    (hs : ∀ H ∈ Hs, ∀ n ∈ H.nets, n.globalSize = (unionPins Hs n.id).length) :
    initCountsPar d np Hs = .ok (Hs.map (fun H => H.nets.map (fun n =>
      ⟨pinCount (partOf (unionH N Hs)) (unionNet Hs n.id) 0,
       pinCount (partOf (unionH N Hs)) (unionNet Hs n.id) 1⟩))) :=
  initCountsPar_ok hD hv hd hb hs

example : (∀ H ∈ exampleD, Bipartitioned H) ∧
    (∀ H ∈ exampleD, ∀ n ∈ H.nets, n.globalSize = (unionPins exampleD n.id).length) := by
  unfold Bipartitioned; decide

example : initCountsPar (revDelivery _) (blockPart 2 3) exampleD =
    .ok [[⟨1, 2⟩, ⟨1, 1⟩, ⟨0, 1⟩], [⟨1, 1⟩, ⟨1, 2⟩]] := by decide

/-! ### C12 -/

/-- C12: `global_net_sizes` returns and stores the number of pins over all processors. -/
theorem C12_global_net_sizes {N : Nat} {Hs : List Hypergraph} (hD : Distributed N Hs)
    {np : NetPart} (hv : np.Valid Hs.length N) {d1 d2 : Delivery (Nat × Int)} (hd1 : Fair d1)
    (hd2 : Fair d2) :
    globalNetSizes d1 d2 np Hs = .ok (Hs.map (fun H =>
      (H.nets.map (fun n => ((unionPins Hs n.id).length : Int)),
       { H with nets := H.nets.map (fun n =>
          { n with globalSize := (unionPins Hs n.id).length }) }))) :=
  globalNetSizes_ok hD hv hd1 hd2

/-- C12: the number of pins over all processors is the sum of the local sizes. -/
theorem C12_sum_of_local_sizes (Hs : List Hypergraph) (e : Nat) :
    ((unionPins Hs e).length : Int) =
      (Hs.map (fun H => ((H.nets.filter (fun n => n.id = e)).map
        (fun n => (n.vertices.length : Int))).sum)).sum := by
  have := countP_unionPins Hs e (fun _ => true)
  simpa using this

example : (globalNetSizes (revDelivery _) (revDelivery _) (blockPart 2 3) exampleD).toOption.map
    (·.map (·.1)) = some [[3, 2, 1], [2, 3]] := by decide

/-! ### C43 -/

/-- C43: all processors get the same index; it holds the minimum and is the last to hold it. -/
theorem C43_owner_min {xs : List Int} (h : xs ≠ []) :
    ∃ t x, ownerMin xs = .ok (xs.map (fun _ => t)) ∧ xs[t]? = some x ∧ (∀ y ∈ xs, x ≤ y) ∧
      ∀ (s : Nat) (y : Int), xs[s]? = some y → y = x → s ≤ t := by
  obtain ⟨t, x, h1, h2, h3, h4⟩ := ownerMinLoop_ok h
  refine ⟨t, x, mapM_ok xs (fun _ _ => h1), h2, h3, ?_⟩
  intro s y hs hy
  by_contra hlt
  have := h4 s y (by omega) hs
  omega

example : ownerMin [4, 2, 7, 2, 3] = .ok [3, 3, 3, 3, 3] := by decide

end PMondriaan

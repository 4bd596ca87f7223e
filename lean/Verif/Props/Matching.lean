import Verif.Proofs.Matching
import Verif.Props.Coarsen
import Verif.Props.BisectPar

/-
C72: the sequential coarsening matches greedily on the scaled inner product.
-/

namespace PMondriaan

open Spec

/-- C72: the clustering recorded by `coarsen_hypergraph_seq` comes from one decision for every vertex, in
the shuffled order, and every decision is greedy: a vertex that nobody has joined yet joins the cluster of
a vertex with the largest positive scaled inner product among those that it may join, and it stays when
there is none. The scores are any type of numbers, with any rounding; what is assumed of them holds for
floating-point numbers other than NaN, and for exact ones. -/
theorem C72_greedy {F : Type} {O : ScoreOps F} {shuf : Shuffle}
    (hsh : ∀ r l, (shuf r l).1.Perm l) {order : List Nat → List Nat} (hord : ∀ l, (order l).Perm l)
    (rank : Nat) {H : Hypergraph} (w : WF H) (hs : Shrinks O) (hg : StrictWeak O)
    (opts : Options) (rng : Rng) :
    ∃ HC C rng' ds, coarsenSeq O shuf order rank H {} opts rng = .ok (HC, C, rng') ∧
      ds.map (·.1) = (shuf rng (List.range H.vertices.length)).1.filterMap
        (fun i => (H.vertices[i]?).map (·.id)) ∧
      AllGreedy O H opts.maxClustersize ds ∧
      C.samples = (ds.filter (fun d => d.2 = none)).map (·.1) ∧
      C.matched = C.samples.map (fun x => (chosenBy ds x).map (fun y => (y, rank))) := by
  obtain ⟨s, e1, hM, -⟩ := matching_ok O w opts.maxClustersize (hsh rng (List.range H.vertices.length))
  obtain ⟨s', ds, e1', h1, h2, I⟩ := matching_greedy (O := O) w hs hg opts.maxClustersize
    (hsh rng (List.range H.vertices.length))
  rw [e1] at e1'
  injection e1' with e1'
  subst e1'
  obtain ⟨HC, C, e2, -, -, -, -, -, -, -, -, -, h3, h4⟩ := contractSeq_ok w hM rank hord
  refine ⟨HC, C, (shuf rng (List.range H.vertices.length)).2, ds, ?_, h1, h2, ?_, ?_⟩
  · unfold coarsenSeq
    simp only [e1, ok_bind, e2, pure_eq_ok]
  · rw [h3]
    exact I.kept
  · rw [h3, h4]
    unfold recorded
    simp only [List.map_map]
    apply List.map_congr_left
    intro v hv
    obtain ⟨x, hx, rfl⟩ := hM.copies v hv
    obtain ⟨j, hj⟩ := List.mem_iff_getElem?.1 hx
    have hvm : H.vmap x.id = some j := (w.vmap_iff _ _).2 ⟨x, hj, rfl⟩
    simp only [Function.comp_apply, newVertex, Vertex.mk']
    unfold msAt
    simp only [hvm, I.mat j x hj, Option.getD_some]

/-- The exact scores: what the program computes, without rounding. -/
def exactScores : ScoreOps Rat where
  zero := 0
  isZero := fun x => x = 0
  add := fun a b => a + b
  scale := fun d x => x * (1 / (d : Rat))
  gt := fun a b => b < a
  cost := fun n => (n.cost : Rat) / ((n.globalSize : Rat) - 1)

theorem exactScores_weak : StrictWeak exactScores where
  asymm := by
    intro a b h
    simp only [exactScores, decide_eq_true_eq, decide_eq_false_iff_not, not_lt] at h ⊢
    exact le_of_lt h
  trans := by
    intro a b c h1 h2
    simp only [exactScores, decide_eq_false_iff_not, not_lt] at h1 h2 ⊢
    exact le_trans h1 h2

theorem exactScores_shrinks : Shrinks exactScores where
  zero := by simp [exactScores]
  pos := by
    intro d x hd h
    simp only [exactScores, decide_eq_true_eq, decide_eq_false_iff_not, not_lt] at h ⊢
    have h1 : (1 : Rat) / (d : Rat) ≤ 1 := by
      rw [div_le_one (by exact_mod_cast hd)]
      exact_mod_cast hd
    exact mul_le_of_le_one_right (le_of_lt h) h1
  neg := by
    intro d x hd h
    simp only [exactScores, decide_eq_false_iff_not, not_lt] at h ⊢
    exact mul_nonpos_of_nonpos_of_nonneg h (by positivity)

/-- C72 with exact arithmetic: no condition is left but consistency. -/
theorem C72_exact {shuf : Shuffle} (hsh : ∀ r l, (shuf r l).1.Perm l) {order : List Nat → List Nat}
    (hord : ∀ l, (order l).Perm l) (rank : Nat) {H : Hypergraph} (w : WF H) (opts : Options) (rng : Rng) :
    ∃ HC C rng' ds, coarsenSeq exactScores shuf order rank H {} opts rng = .ok (HC, C, rng') ∧
      ds.map (·.1) = (shuf rng (List.range H.vertices.length)).1.filterMap
        (fun i => (H.vertices[i]?).map (·.id)) ∧
      AllGreedy exactScores H opts.maxClustersize ds ∧
      C.samples = (ds.filter (fun d => d.2 = none)).map (·.1) ∧
      C.matched = C.samples.map (fun x => (chosenBy ds x).map (fun y => (y, rank))) :=
  C72_greedy hsh hord rank w exactScores_shrinks exactScores_weak opts rng

/-- Four vertices in a row, with nets of cost 1, 5 and 1. -/
def exampleRow : Hypergraph :=
  Hypergraph.create 4 3
    [ { id := 0, nets := [0], weight := 1, part := -1 }, { id := 1, nets := [0, 1], weight := 1, part := -1 },
      { id := 2, nets := [1, 2], weight := 1, part := -1 }, { id := 3, nets := [2], weight := 1, part := -1 } ]
    [ { id := 0, vertices := [0, 1], cost := 1, globalSize := 2 },
      { id := 1, vertices := [1, 2], cost := 5, globalSize := 2 },
      { id := 2, vertices := [2, 3], cost := 1, globalSize := 2 } ]

theorem exampleRow_wf : WF exampleRow :=
  WF_create (by decide) (by decide) (by decide) (by decide) (by decide) (by decide)

/-- The clusters of a contraction, without the ranks. -/
def clustersOf (r : Hypergraph × Contraction × Rng) : List Nat × List (List Nat) :=
  (r.2.1.samples, r.2.1.matched.map (fun (l : List (Nat × Nat)) => l.map (fun m => m.1)))

/-- Visited in the order 1, 0, 2, 3: vertex 1 prefers vertex 2 (score 5/2) to vertex 0 (score 1); then
vertex 0 has nobody left to join and vertex 3 joins vertex 2. -/
example :
    (coarsenSeq exactScores (fun r l => ([1, 0] ++ l.drop 2, r)) id 0 exampleRow {}
      { exampleOpts with maxClustersize := 2 } (fun n => n)).toOption.map clustersOf =
    some ([0, 2], [[], [1, 3]]) := by
  decide +kernel

example : score exactScores exampleRow { id := 1, nets := [0, 1], weight := 1, part := -1 }
    { id := 2, nets := [1, 2], weight := 1, part := -1 } = 5 / 2 := by decide +kernel

/-- With a cluster size of 1 there is no room for vertex 3. -/
example :
    (coarsenSeq exactScores (fun r l => ([1, 0] ++ l.drop 2, r)) id 0 exampleRow {}
      { exampleOpts with maxClustersize := 1 } (fun n => n)).toOption.map clustersOf =
    some ([0, 2, 3], [[], [1], []]) := by
  decide +kernel

/-- The same hypergraph with the global size of every net set to its number of pins. -/
def trueSizes (G : Hypergraph) : Hypergraph :=
  { G with nets := G.nets.map (fun n => { n with globalSize := n.vertices.length }) }

/-- The copies of `apart` have global size 0 for the net that came from the other processor. Its two
vertices, which share no other net, are not matched with each other: on processor 0 only vertices 0 and 1
are matched, on processor 1 only vertices 2 and 3. With the true sizes both pairs are matched on both
processors. -/
theorem C72_copy_false :
    Distributed 2 apart ∧ TrueSizes apart ∧
    (do
      let Gs ← replicateAll (revDelivery _) (revDelivery _) apart
      Gs.mapM (fun G => do
        let r ← coarsenSeq exactScores (fun r l => (l, r)) id 0 G {}
          { exampleOpts with maxClustersize := 2 } (fun n => n)
        pure (clustersOf r))).toOption =
      some [([1, 3, 2], [[0], [], []]), ([3, 1, 0], [[2], [], []])] ∧
    (do
      let Gs ← replicateAll (revDelivery _) (revDelivery _) apart
      Gs.mapM (fun G => do
        let r ← coarsenSeq exactScores (fun r l => (l, r)) id 0
          (trueSizes G) {}
          { exampleOpts with maxClustersize := 2 } (fun n => n)
        pure (clustersOf r))).toOption =
      some [([1, 2], [[0], [3]]), ([3, 0], [[2], [1]])] :=
  ⟨C57_size_false.1, C57_size_false.2.1, by decide +kernel, by decide +kernel⟩

/-- Vertex 0 shares nets of cost 0 and 3 with vertex 1, and a net of cost 2 with vertex 2. -/
def exampleZero : Hypergraph :=
  Hypergraph.create 3 3
    [ { id := 0, nets := [0, 1, 2], weight := 1, part := -1 }, { id := 1, nets := [0, 1], weight := 1, part := -1 },
      { id := 2, nets := [2], weight := 1, part := -1 } ]
    [ { id := 0, vertices := [0, 1], cost := 0, globalSize := 2 },
      { id := 1, vertices := [0, 1], cost := 3, globalSize := 2 },
      { id := 2, vertices := [0, 2], cost := 1, globalSize := 2 } ]

/-- A net of cost 0 makes the loop list vertex 1 twice; its score is 3/2 the first time and 3/4 the
second time. It is still preferred to vertex 2, whose score is 1. -/
example : WF exampleZero ∧
    (coarsenSeq exactScores (fun r l => (l, r)) id 0 exampleZero {}
      { exampleOpts with maxClustersize := 2 } (fun n => n)).toOption.map clustersOf =
    some ([1, 2], [[0], []]) :=
  ⟨WF_create (by decide) (by decide) (by decide) (by decide) (by decide) (by decide),
    by decide +kernel⟩

end PMondriaan

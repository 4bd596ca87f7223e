import Verif.Model.BisectPar
import Verif.Spec.Coarsen
import Verif.Spec.Dist
import Verif.Spec.Reduce

/-
Specification of the parts of the parallel multilevel bisection.
-/

namespace PMondriaan.Spec

open PMondriaan

/-- `G` is a copy of the whole hypergraph that the processors hold together, made on the processor that
holds `H`: the vertices with their weights and nets, the local ones first and the others without a label;
the nets of all processors with all their pins. The nets that `H` has get cost 1, the others keep theirs. -/
structure Replica (Hs : List Hypergraph) (H G : Hypergraph) : Prop where
  wf : WF G
  vertices : (G.vertices.map (fun v => (v.id, v.weight, v.nets))).Perm
    ((Hs.flatMap (·.vertices)).map (fun v => (v.id, v.weight, v.nets)))
  own : ∃ l, G.vertices = H.vertices ++ l ∧ ∀ v ∈ l, v.part = -1
  nets : ∀ e, IsNet G e ↔ ∃ H' ∈ Hs, IsNet H' e
  pins : ∀ n ∈ G.nets, n.vertices.Perm (unionPins Hs n.id)
  ownCost : ∀ n ∈ G.nets, IsNet H n.id → n.cost = 1
  otherCost : ∀ n ∈ G.nets, ¬ IsNet H n.id → n.cost = unionCost Hs n.id
  dups : G.dups = []
  size : G.globalSize = H.globalSize
  number : G.globalNumberNets = H.globalNumberNets

/-- The weights of the two parts are within the bounds. -/
def Within (max0 max1 : Int) (G : Hypergraph) : Prop := partWeight G 0 ≤ max0 ∧ partWeight G 1 ≤ max1

/-- `R` is a bisected copy of the whole hypergraph, with its cutsize, on the processor that holds `H`. -/
structure BisectedCopy (Hs : List Hypergraph) (H : Hypergraph) (R : Hypergraph × Option Int) : Prop where
  copy : ∃ G, Replica Hs H G ∧ SameContent G R.1
  wf : WF R.1
  bip : Bipartitioned R.1
  cut : R.2 = some (cutValue .cutNet R.1)

/-- All processors have given their vertices the labels that they have in `G`. -/
structure LabelledAs (N : Nat) (Hs : List Hypergraph) (G : Hypergraph) (Hs' : List Hypergraph) : Prop where
  same : List.Forall₂ SameUpToParts Hs Hs'
  dist : Distributed N Hs'
  label : ∀ H ∈ Hs', ∀ v ∈ H.vertices, v.part = partOf G v.id
  bip : ∀ H ∈ Hs', Bipartitioned H
  cut : ∀ m, cutValue m (unionH N Hs') = cutValue m G
  weight : ∀ q, partWeight (unionH N Hs') q = partWeight G q

/-- The state of the processors at a level of the parallel coarsening. -/
structure ParLevel (N T : Nat) (Hs : List Hypergraph) : Prop where
  nonempty : Hs ≠ []
  dist : Distributed N Hs
  costs : ∀ H ∈ Hs, ∀ n ∈ H.nets, n.cost = 1
  sizes : ∀ H ∈ Hs, ∀ n ∈ H.nets, n.globalSize = (unionPins Hs n.id).length
  pos : ∀ H ∈ Hs, ∀ v ∈ H.vertices, 0 < v.weight
  size : ∀ H ∈ Hs, H.globalSize = (Hs.map (fun H => H.vertices.length)).sum
  total : (Hs.map (fun H => H.vertices.length)).sum < T

/-- What holds on the processors after the bisection of a level. -/
structure LevelBisected (N : Nat) (Hs : List Hypergraph) (L : List (Hypergraph × Option Int × Rng)) : Prop where
  same : List.Forall₂ SameUpToParts Hs (L.map (·.1))
  dist : Distributed N (L.map (·.1))
  bip : ∀ q ∈ L, Bipartitioned q.1
  cut : ∀ q ∈ L, q.2.1 = some (cutValue .cutNet (unionH N (L.map (·.1))))

/-- The number of vertices on all processors. -/
def allSize (Hs : List Hypergraph) : Nat := (Hs.map (fun H => H.vertices.length)).sum

/-- The way down from the hypergraphs `Hs` with `n` rounds left: `Ks` are the hypergraphs on which the coarsening stops,
with `n'` rounds left. It goes on while there are more vertices than `coarsening_nrvertices` and three times the
number of samples, rounds are left, and the round before removed enough vertices (`go`). -/
inductive DescendsPar {F : Type} (E : ParBisectEnv F) (opts : Options) :
    Nat → Nat → Bool → List Hypergraph → List Rng → Nat → List Hypergraph → List Rng → Prop
  | stop {n level : Nat} {go : Bool} {Hs : List Hypergraph} {rngs : List Rng} :
    n = 0 ∨ allSize Hs ≤ max opts.coarseningNrvertices (Hs.length * opts.sampleSize * 3) ∨ go = false →
    DescendsPar E opts n level go Hs rngs n Hs rngs
  | down {n level : Nat} {Hs : List Hypergraph} {rngs rngs1 rngs2 : List Rng} {R : List CProc} {n' : Nat}
    {Ks : List Hypergraph} :
    max opts.coarseningNrvertices (Hs.length * opts.sampleSize * 3) < allSize Hs →
    coarsenPar (E.coarse level) opts Hs rngs = .ok (R, rngs1) →
    DescendsPar E opts n (level + 1) (E.ratio (allSize Hs) (allSize (R.map (·.2)))) (R.map (·.2)) rngs1 n' Ks rngs2 →
    DescendsPar E opts (n + 1) level true Hs rngs n' Ks rngs2

/-- `G` is one of the bisections that the processors make of their copies of the hypergraph they hold together as `Ks`,
with `n` rounds of coarsening left; if one of these bisections respects both bounds, then so does `G`, and `G` cuts
no more. -/
structure BestCopy {F : Type} (E : ParBisectEnv F) (opts : Options) (max0 max1 : Int) (n : Nat) (Ks : List Hypergraph)
    (rngs : List Rng) (G : Hypergraph) : Prop where
  made : ∃ Cs Bs, replicateAll E.dVert E.dCost Ks = .ok Cs ∧ List.Forall₂ (Replica Ks) Ks Cs ∧
    Cs.zipIdx.mapM (fun x => mlLevel (E.seq x.2) x.2 opts max0 max1 n x.1 (rngAt rngs x.2)) = .ok Bs ∧
    (∃ B ∈ Bs, B.1 = G) ∧ ∀ B ∈ Bs, Within max0 max1 B.1 →
      Within max0 max1 G ∧ cutValue .cutNet G ≤ cutValue .cutNet B.1

/-- The number of nets with vertices of different parts in the ranges of the processors. -/
def rangesCut (N : Nat) (xs : List RangeOf) : Nat :=
  ((List.range N).filter (fun e => ∃ u ∈ xs.flatMap inRange, ∃ w ∈ xs.flatMap inRange,
    e ∈ u.nets ∧ e ∈ w.nets ∧ u.part ≠ w.part)).length

end PMondriaan.Spec

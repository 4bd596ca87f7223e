import Verif.Model.Coarsen
import Verif.Spec.Free
import Verif.Spec.LabelProp

/-
Vocabulary for coarsening: clusters of vertices and the contracted hypergraph.
-/

namespace PMondriaan.Spec

open PMondriaan

/-- The ids in the cluster of sample `s`: `s` itself and the vertices matched to it. -/
def members (C : Contraction) (s : Nat) : List Nat :=
  (C.samples.zip C.matched).flatMap (fun p => if p.1 = s then p.1 :: p.2.map (·.1) else [])

/-- The weight of the cluster of `s`: the weights in `H` of its members. -/
def clusterWeight (H : Hypergraph) (C : Contraction) (s : Nat) : Int :=
  ((H.vertices.filter (fun v => v.id ∈ members C s)).map (·.weight)).sum

/-- The samples whose cluster contains a pin of `n`. -/
def touched (C : Contraction) (n : Net) : List Nat :=
  C.samples.filter (fun s => ∃ u ∈ n.vertices, u ∈ members C s)

/-- `C` describes a star clustering of the vertices of `H`: every vertex is a sample or is matched
to exactly one sample, and at most `maxC` vertices are matched to a sample. -/
structure StarClustering (H : Hypergraph) (C : Contraction) (maxC : Nat) : Prop where
  len : C.matched.length = C.samples.length
  cover : (C.samples ++ C.matched.flatten.map (·.1)).Perm (H.vertices.map (·.id))
  size : ∀ l ∈ C.matched, l.length ≤ maxC

/-- The nets of `HC` are the nets of `H` contracted along the clusters of `C`: one net for every net
of `H` that touches at least two clusters, with the same id and cost, and as pins the clusters
touched. -/
structure ContractedNets (H : Hypergraph) (C : Contraction) (HC : Hypergraph) : Prop where
  nets : (HC.nets.map (fun n => (n.id, n.cost))).Perm
    ((H.nets.filter (fun n => 2 ≤ (touched C n).length)).map (fun n => (n.id, n.cost)))
  pins : ∀ n' ∈ HC.nets, ∀ n ∈ H.nets, n.id = n'.id → n'.vertices.Perm (touched C n)

/-- One entry per cluster, with the weight of the cluster. -/
def clusterWeights (H : Hypergraph) (C : Contraction) : List (Nat × Int) :=
  C.samples.map (fun s => (s, clusterWeight H C s))

/-- `HC`, together with the free vertices set aside in `C`, is `H` contracted along the clusters
of `C`. -/
structure IsContraction (H : Hypergraph) (C : Contraction) (HC : Hypergraph) : Prop where
  vertices : (HC.vertices.map (fun v => (v.id, v.weight)) ++ C.free).Perm (clusterWeights H C)
  nets : ContractedNets H C HC
  sizes : ∀ n' ∈ HC.nets, n'.globalSize = n'.vertices.length

/-- The two hypergraphs have the same vertices, in the same order, and the same nets, in any order;
only the parts, the orders inside the lists and the bookkeeping differ. -/
structure SameContent (H H' : Hypergraph) : Prop where
  vertices : H'.vertices.map (fun v => (v.id, v.weight)) = H.vertices.map (fun v => (v.id, v.weight))
  nets : (H'.nets.map (fun n => (n.id, n.cost))).Perm (H.nets.map (fun n => (n.id, n.cost)))
  pins : ∀ n ∈ H.nets, ∀ n' ∈ H'.nets, n'.id = n.id → n'.vertices.Perm n.vertices

/-- The label of a vertex of `H` is the label that `P` gives to its cluster. -/
def Projected (P : Nat → Int) (C : Contraction) (H : Hypergraph) : Prop :=
  ∀ s ∈ C.samples, ∀ u ∈ members C s, partOf H u = P s

end PMondriaan.Spec

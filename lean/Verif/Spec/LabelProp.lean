import Verif.Spec.Hypergraph

/-
Vocabulary for label propagation and initial partitioning.
-/

namespace PMondriaan.Spec

/-- The hypergraph in which the vertex at position `i` has part `L[i]`. -/
def withLabels (H : Hypergraph) (L : List Int) : Hypergraph :=
  { H with vertices := List.zipWith (fun v p => { v with part := p }) H.vertices L }

/-- Total weight of all vertices. -/
def allWeight (H : Hypergraph) : Int := (H.vertices.map (·.weight)).sum

/-- Both parts respect their bound. -/
def Balanced (H : Hypergraph) (max0 max1 : Int) : Prop :=
  partWeight H 0 ≤ max0 ∧ partWeight H 1 ≤ max1

/-- By how much the worst part exceeds its bound (negative when there is room in both). -/
def excess (H : Hypergraph) (max0 max1 : Int) : Int :=
  max (partWeight H 0 - max0) (partWeight H 1 - max1)

end PMondriaan.Spec

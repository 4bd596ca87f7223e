import Verif.Spec.Dist
import Verif.Model.Reduce

/-
Specification of the restriction of a (distributed) hypergraph to ranges of positions.
-/

namespace PMondriaan.Spec

open PMondriaan

/-- The vertices at positions `s`, …, `e - 1`. -/
def inRange (x : RangeOf) : List Vertex := (x.H.vertices.drop x.s).take (x.e - x.s)

/-- The pins of net `e` inside the ranges of all processors. -/
def rangePins (xs : List RangeOf) (e : Nat) : List Nat :=
  xs.flatMap (fun x => ((inRange x).filter (fun v => e ∈ v.nets)).map (·.id))

/-- `R` is the restriction of the hypergraph of processor `x` to the ranges of all processors:
the vertices in the range, and the nets with at least two pins in the ranges and one here. -/
structure RestrictedTo (xs : List RangeOf) (x : RangeOf) (R : Hypergraph) : Prop where
  wf : WF R
  globalSize : R.globalSize = (xs.map (fun x => (inRange x).length)).sum
  globalNumberNets : R.globalNumberNets = x.H.globalNumberNets
  vertices : List.Forall₂ (fun v v' => v'.id = v.id ∧ v'.weight = v.weight ∧ v'.part = v.part ∧
    ∀ e, e ∈ v'.nets ↔ e ∈ v.nets ∧ 2 ≤ (rangePins xs e).length) (inRange x) R.vertices
  netIds : ∀ e, IsNet R e ↔ 2 ≤ (rangePins xs e).length ∧ ∃ v ∈ inRange x, e ∈ v.nets
  nets : ∀ n ∈ R.nets, n.vertices = ((inRange x).filter (fun v => n.id ∈ v.nets)).map (·.id) ∧
    n.cost = 1 ∧ n.globalSize = (rangePins xs n.id).length

end PMondriaan.Spec

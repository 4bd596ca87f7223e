import Verif.Model.Hypergraph
import Mathlib.Data.List.Dedup
import Mathlib.Algebra.BigOperators.Group.List.Basic

/-
Specification vocabulary for hypergraphs: what the observable quantities *should* be, stated on
the lists of vertices and nets only (no maps, no counts, no loops of the code).
-/

namespace PMondriaan.Spec

open PMondriaan

/-- The part of the vertex with id `u` (−1 when there is no such vertex or it is unassigned). -/
def partOf (H : Hypergraph) (u : Nat) : Int :=
  match H.vertices.find? (fun v => v.id == u) with
  | some v => v.part
  | none => -1

/-- `u` is the id of a vertex of `H`. -/
def IsVertex (H : Hypergraph) (u : Nat) : Prop := u ∈ H.vertices.map (·.id)

/-- `e` is the id of a net of `H`. -/
def IsNet (H : Hypergraph) (e : Nat) : Prop := e ∈ H.nets.map (·.id)

/-- The net has two pins in different parts. -/
def IsCut (P : Nat → Int) (n : Net) : Prop :=
  ∃ u ∈ n.vertices, ∃ w ∈ n.vertices, P u ≠ P w

instance (P : Nat → Int) (n : Net) : Decidable (IsCut P n) := by
  unfold IsCut; infer_instance

/-- Cut-net value of an assignment `P`: the total cost of the cut nets. -/
def cutNet (P : Nat → Int) (nets : List Net) : Int :=
  (nets.map (fun n => if IsCut P n then n.cost else 0)).sum

/-- The number of different parts that net `n` touches. -/
def connectivity (P : Nat → Int) (n : Net) : Nat := (n.vertices.map P).dedup.length

/-- λ−1 value of an assignment. A net without pins contributes nothing. -/
def lambdaMinusOne (P : Nat → Int) (nets : List Net) : Int :=
  (nets.map (fun n => ((connectivity P n - 1 : Nat) : Int) * n.cost)).sum

/-- The value of the chosen metric for the labels currently stored in `H`. -/
def cutValue (m : Metric) (H : Hypergraph) : Int :=
  match m with
  | .cutNet => cutNet (partOf H) H.nets
  | .lambdaMinusOne => lambdaMinusOne (partOf H) H.nets

/-- Total weight of the vertices with part `p`. -/
def partWeight (H : Hypergraph) (p : Int) : Int :=
  ((H.vertices.filter (fun v => v.part = p)).map (·.weight)).sum

/-- Number of pins of `n` in part `p`. -/
def pinCount (P : Nat → Int) (n : Net) (p : Int) : Nat :=
  n.vertices.countP (fun u => P u = p)

/-- A hypergraph whose two maps say exactly where each vertex and net is stored, whose ids are
distinct, and whose vertex side and net side describe the same incidence. -/
structure WF (H : Hypergraph) : Prop where
  vids : (H.vertices.map (·.id)).Nodup
  nids : (H.nets.map (·.id)).Nodup
  vmap : ∀ u i, H.vmap u = some i ↔ (H.vertices.map (·.id))[i]? = some u
  nmap : ∀ e j, H.nmap e = some j ↔ (H.nets.map (·.id))[j]? = some e
  vnets : ∀ v ∈ H.vertices, v.nets.Nodup
  npins : ∀ n ∈ H.nets, n.vertices.Nodup
  inc_net : ∀ v ∈ H.vertices, ∀ e ∈ v.nets, ∃ n ∈ H.nets, n.id = e ∧ v.id ∈ n.vertices
  inc_vtx : ∀ n ∈ H.nets, ∀ u ∈ n.vertices, ∃ v ∈ H.vertices, v.id = u ∧ n.id ∈ v.nets

/-- Every vertex is in part 0 or in part 1. -/
def Bipartitioned (H : Hypergraph) : Prop := ∀ v ∈ H.vertices, v.part = 0 ∨ v.part = 1

/-- `C` holds, net by net, the number of pins in part 0 and in part 1. -/
def CountsExact (H : Hypergraph) (C : List Cnt) : Prop :=
  C = H.nets.map (fun n => ⟨pinCount (partOf H) n 0, pinCount (partOf H) n 1⟩)

/-- In every net the pins of part 0 come before the pins of part 1. -/
def SortedOnPart (H : Hypergraph) : Prop :=
  ∀ n ∈ H.nets, n.vertices.Pairwise (fun a b => partOf H a ≤ partOf H b)

/-- The assignment in which `v` alone has changed side (parts 0 and 1). -/
def flipped (P : Nat → Int) (v : Nat) : Nat → Int := fun u => if u = v then 1 - P u else P u

/-- No vertex has a negative weight. -/
def WeightsNonneg (H : Hypergraph) : Prop := ∀ v ∈ H.vertices, 0 ≤ v.weight

/-- No net has a negative cost. -/
def CostsNonneg (H : Hypergraph) : Prop := ∀ n ∈ H.nets, 0 ≤ n.cost

/-- The two hypergraphs differ only in the parts of their vertices and in the order of the pins
inside each net. -/
structure SameUpToParts (H H' : Hypergraph) : Prop where
  globalSize : H'.globalSize = H.globalSize
  globalNumberNets : H'.globalNumberNets = H.globalNumberNets
  nrNz : H'.nrNz = H.nrNz
  dups : H'.dups = H.dups
  vmap : H'.vmap = H.vmap
  nmap : H'.nmap = H.nmap
  vertices : H'.vertices.map (fun v => (v.id, v.nets, v.weight)) =
    H.vertices.map (fun v => (v.id, v.nets, v.weight))
  nets : List.Forall₂ (fun n n' => n'.id = n.id ∧ n'.cost = n.cost ∧
    n'.globalSize = n.globalSize ∧ n'.vertices.Perm n.vertices) H.nets H'.nets

/-- A concrete hypergraph used in non-vacuity examples: four vertices, three nets, all nets cut
differently. Parts: vertices 1,3 in part 0 and 2,7 in part 1. -/
def exampleH : Hypergraph :=
  Hypergraph.create 4 6
    [ { id := 1, nets := [5, 2], weight := 2, part := 0 },
      { id := 2, nets := [5, 0], weight := 3, part := 1 },
      { id := 7, nets := [2, 0], weight := 1, part := 1 },
      { id := 3, nets := [5, 2, 0], weight := 4, part := 0 } ]
    [ { id := 5, vertices := [1, 2, 3], cost := 2, globalSize := 3 },
      { id := 2, vertices := [1, 7, 3], cost := 1, globalSize := 3 },
      { id := 0, vertices := [2, 7, 3], cost := 5, globalSize := 3 } ]

/-- The same hypergraph with the pins of each net sorted on part. -/
def exampleS : Hypergraph :=
  Hypergraph.create 4 6
    [ { id := 1, nets := [5, 2], weight := 2, part := 0 },
      { id := 2, nets := [5, 0], weight := 3, part := 1 },
      { id := 7, nets := [2, 0], weight := 1, part := 1 },
      { id := 3, nets := [5, 2, 0], weight := 4, part := 0 } ]
    [ { id := 5, vertices := [1, 3, 2], cost := 2, globalSize := 3 },
      { id := 2, vertices := [1, 3, 7], cost := 1, globalSize := 3 },
      { id := 0, vertices := [3, 2, 7], cost := 5, globalSize := 3 } ]

/-- The counts of `exampleS`. -/
def exampleC : List Cnt := [⟨2, 1⟩, ⟨2, 1⟩, ⟨1, 2⟩]

end PMondriaan.Spec

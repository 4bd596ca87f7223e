import Verif.Model.Bsp

/-
Model of the functions of src/hypergraph/hypergraph.cpp that simplify or restrict a hypergraph:
`simplify_duplicate_nets`, the parallel `remove_free_nets` and `create_new_hypergraph`.
-/

namespace PMondriaan

/-- Conversion of a `long` to a 32-bit `int`. -/
def wrap32 (x : Int) : Int := x.bmod 4294967296

/-- hypergraph.cpp:599-604 `edge_costs[n.vertices()] += n.cost()` over all nets. The map holds
`int`s, the costs are `long`s. -/
def edgeCosts (nets : List Net) : List Nat → Int :=
  nets.foldl (fun m n => fun k => if k = n.vertices then wrap32 (m k + n.cost) else m k)
    (fun _ => 0)

/-- hypergraph.cpp:600-605 `ids[n.vertices()] = n.id()` over all nets. -/
def lastIds (nets : List Net) : List Nat → Nat :=
  nets.foldl (fun m n => fun k => if k = n.vertices then n.id else m k) (fun _ => 0)

/-- hypergraph.cpp:596-620 `simplify_duplicate_nets`. -/
def simplifyDuplicateNets (H : Hypergraph) : Res Hypergraph :=
  let H1 := H.sortVertices
  let costs := edgeCosts H1.nets
  let ids := lastIds H1.nets
  let rem := (H1.nets.filter (fun n => ids n.vertices ≠ n.id)).map
    (fun n => (n.id, ids n.vertices))
  let H2 := { H1 with nets := H1.nets.map (fun n =>
    if ids n.vertices ≠ n.id then n else { n with cost := costs n.vertices }) }
  rem.foldlM (fun H r => H.removeDuplicateNet r.1 r.2) H2

/-- hypergraph.cpp:571-573 and 588-590: `H.remove_net_by_index(H.local_id_net(n))`. -/
def removeById (H : Hypergraph) (id : Nat) : Res Hypergraph := do
  let j ← H.localIdNet id
  H.removeNetByIndex j

/-- hypergraph.cpp:565-573: the part of `remove_free_nets(world, H, max_size)` after the global
sizes are known. `order` is the iteration order of the `unordered_set`. -/
def removeFreeLocal (order : List Nat → List Nat) (maxSize : Nat) (r : List Int × Hypergraph) :
    Res Hypergraph :=
  let rem := ((r.1.zip r.2.nets).filter
    (fun x => x.1 ≤ (maxSize : Int) ∨ x.2.vertices.length = 0)).map (·.2.id)
  (order rem).foldlM removeById r.2

/-- hypergraph.cpp:563-574 `remove_free_nets(world, H, max_size)`. -/
def removeFreeNetsPar (order : List Nat → List Nat) (d1 d2 : Delivery (Nat × Int)) (np : NetPart)
    (Hs : List Hypergraph) (maxSize : Nat) : Res (List Hypergraph) := do
  let rs ← globalNetSizes d1 d2 np Hs
  rs.mapM (removeFreeLocal order maxSize)

/-- hypergraph.cpp:628-629: the vector built from `begin() + start` and `begin() + end`. -/
def vrange {α : Type} (l : List α) (s e : Nat) : Res (List α) :=
  if s ≤ e ∧ e ≤ l.length then .ok ((l.drop s).take (e - s)) else .error .ub

/-- One processor of `create_new_hypergraph`: its hypergraph and its range. -/
structure RangeOf where
  H : Hypergraph
  s : Nat
  e : Nat

/-- hypergraph.cpp:628-639: the vertices and nets of the new hypergraph. The nets are built with
the default cost 1. -/
def newParts (x : RangeOf) : Res (List Vertex × List Net) := do
  let vs ← vrange x.H.vertices x.s x.e
  let nets ← x.H.refill vs (x.H.nets.map (fun n => Net.mk' n.id []))
  pure (vs, nets)

/-- hypergraph.cpp:625-648 `create_new_hypergraph(new_world, H, start, end)` on the processors of
`new_world`. -/
def createNewPar (order : List Nat → List Nat) (d1 d2 : Delivery (Nat × Int)) (np : NetPart)
    (xs : List RangeOf) : Res (List Hypergraph) := do
  let parts ← xs.mapM newParts
  let size := (parts.map (fun r => r.1.length)).foldl (· + ·) 0
  let Hs := (xs.zip parts).map (fun y =>
    Hypergraph.create size y.1.H.globalNumberNets y.2.1 y.2.2)
  removeFreeNetsPar order d1 d2 np Hs 1

end PMondriaan

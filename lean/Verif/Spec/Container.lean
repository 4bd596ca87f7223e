import Verif.Spec.Hypergraph

/-
Specification vocabulary for the container: exact id maps and histories of operations.
-/

namespace PMondriaan.Spec

open PMondriaan

/-- Both id maps answer exactly with the position at which the id is stored. -/
def MapsExact (H : Hypergraph) : Prop :=
  (∀ u i, H.vmap u = some i ↔ (H.vertices.map (·.id))[i]? = some u) ∧
  (∀ e j, H.nmap e = some j ↔ (H.nets.map (·.id))[j]? = some e)

/-- The public operations that change the set of vertices or nets. -/
inductive COp
  | addVertex (id : Nat) (nets : List Nat) (weight : Int)
  | addNet (id : Nat) (vertices : List Nat) (cost : Int)
  | addToNets (position : Nat)
  | removeNet (id : Nat)
  | removeNetByIndex (index : Nat)
  | removeFreeVertex (id : Nat)
  | removeDuplicateNet (id dup : Nat)
  | updateMaps

/-- Run one operation. -/
def runCOp (H : Hypergraph) : COp → Res Hypergraph
  | .addVertex id nets w => .ok (H.addVertex id nets w)
  | .addNet id vs c => .ok (H.addNet id vs c)
  | .addToNets i => do let v ← vget H.vertices i; H.addToNets v
  | .removeNet id => H.removeNet id
  | .removeNetByIndex j => H.removeNetByIndex j
  | .removeFreeVertex id => H.removeFreeVertex id
  | .removeDuplicateNet id dup => H.removeDuplicateNet id dup
  | .updateMaps => .ok H.updateMap.updateMapNets

/-- The calls a user may make: a new vertex has a new id, and only a present vertex is removed. -/
def COp.legal (H : Hypergraph) : COp → Prop
  | .addVertex id _ _ => ¬ IsVertex H id
  | .removeFreeVertex id => IsVertex H id
  | _ => True

/-- Histories of legal operations that ran to completion. -/
inductive History : Hypergraph → Hypergraph → Prop
  | nil {H} : History H H
  | cons {H H1 H2 o} : History H H1 → o.legal H1 → runCOp H1 o = .ok H2 → History H H2

end PMondriaan.Spec

import Verif.Model.RecCutPar
import Verif.Spec.Dist
import Verif.Spec.Sizes

/-
Specification vocabulary for the recursion on several processors with the cut-net metric.
-/

namespace PMondriaan.Spec

open PMondriaan

/-- `Hs'` is the same hypergraph as `Hs` up to the parts, distributed in another way, except for the lists of nets
of the vertices, which may be incomplete: the same vertices with their weights, each on one processor, the same
nets with the same pins (on the processor where the vertex is) and costs, correct maps. -/
structure NetsReturned (Hs Hs' : List Hypergraph) : Prop where
  length : Hs'.length = Hs.length
  verts : ((Hs'.flatMap (·.vertices)).map (fun v => (v.id, v.weight))).Perm
    ((Hs.flatMap (·.vertices)).map (fun v => (v.id, v.weight)))
  pins : ∀ e, (unionPins Hs' e).Perm (unionPins Hs e)
  costs : ∀ H ∈ Hs', ∀ n ∈ H.nets, n.cost = unionCost Hs n.id
  nets : ∀ e, (∃ H ∈ Hs', IsNet H e) ↔ ∃ H ∈ Hs, IsNet H e
  vmap : ∀ H ∈ Hs', ∀ u i, H.vmap u = some i ↔ (H.vertices.map (·.id))[i]? = some u
  nmap : ∀ H ∈ Hs', ∀ e j, H.nmap e = some j ↔ (H.nets.map (·.id))[j]? = some e
  nids : ∀ H ∈ Hs', (H.nets.map (·.id)).Nodup
  here : ∀ H ∈ Hs', ∀ n ∈ H.nets, n.vertices.Nodup ∧ ∀ u ∈ n.vertices, IsVertex H u
  lists : ∀ H ∈ Hs', ∀ v ∈ H.vertices, ∀ e ∈ v.nets, ∃ n ∈ H.nets, n.id = e ∧ v.id ∈ n.vertices
  sizes : Hs'.map sizes = Hs.map sizes

end PMondriaan.Spec

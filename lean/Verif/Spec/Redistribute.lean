import Verif.Spec.Dist
import Verif.Spec.Search
import Verif.Spec.Sizes
import Verif.Model.Redistribute

/-
Specification of a redistribution of a hypergraph over the processors.
-/

namespace PMondriaan.Spec

open PMondriaan

/-- `Hs'` is the same hypergraph as `Hs`, distributed in another way: the same vertices (with their
nets, weights and parts), each on one processor, the same pins in each net, the same costs. -/
structure Redistributed (N : Nat) (Hs Hs' : List Hypergraph) : Prop where
  length : Hs'.length = Hs.length
  dist : Distributed N Hs'
  vertices : (Hs'.flatMap (·.vertices)).Perm (Hs.flatMap (·.vertices))
  pins : ∀ e, (unionPins Hs' e).Perm (unionPins Hs e)
  costs : ∀ e, unionCost Hs' e = unionCost Hs e
  nets : ∀ e, (∃ H ∈ Hs', IsNet H e) ↔ ∃ H ∈ Hs, IsNet H e
  sizes : Hs'.map sizes = Hs.map sizes

/-- Proper arguments of a redistribution: a distributed hypergraph, the two labels differ, and every processor
passes the weights of its own vertices with these labels. -/
structure RedistInput (N : Nat) (low high : Int) (args : List RedistArgs) : Prop where
  dist : Distributed N (args.map (·.H))
  weights : ∀ a ∈ args, WeightsNonneg a.H
  labels : low ≠ high
  w0 : ∀ a ∈ args, a.w0 = partWeight a.H low
  w1 : ∀ a ∈ args, a.w1 = partWeight a.H high
  max : ∀ a ∈ args, 0 ≤ a.maxLocal

/-- The weight of a label over all processors. -/
def labelTotal (args : List RedistArgs) (q : Int) : Int := (args.map (fun a => partWeight a.H q)).sum

end PMondriaan.Spec

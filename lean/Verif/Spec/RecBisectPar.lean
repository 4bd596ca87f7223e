import Verif.Model.RecBisectPar
import Verif.Spec.Redistribute
import Verif.Spec.RecBisect

/-
Specification vocabulary for the recursion on several processors.
-/

namespace PMondriaan.Spec

open PMondriaan

/-- `Hs'` is the same hypergraph as `Hs` up to the parts, distributed in another way: the same vertices with their
weights, each on one processor, the same nets with the same pins and costs. -/
structure Kept (N : Nat) (Hs Hs' : List Hypergraph) : Prop where
  length : Hs'.length = Hs.length
  dist : Distributed N Hs'
  verts : ((Hs'.flatMap (·.vertices)).map (fun v => (v.id, v.weight))).Perm
    ((Hs.flatMap (·.vertices)).map (fun v => (v.id, v.weight)))
  pins : ∀ e, (unionPins Hs' e).Perm (unionPins Hs e)
  costs : ∀ e, unionCost Hs' e = unionCost Hs e
  nets : ∀ e, (∃ H ∈ Hs', IsNet H e) ↔ ∃ H ∈ Hs, IsNet H e
  sizes : Hs'.map sizes = Hs.map sizes

/-- What the recursion requires of a bisection function for groups of processors: it labels exactly the vertices
in the ranges with the two labels and returns their true local weights, or it fails in one of the ways `Bad`. -/
def ParBisectsWell (bis : ParBisector) (N T : Nat) (Bad : Err → Prop) : Prop :=
  ∀ xs : List RangeOf, 2 ≤ xs.length → Distributed N (xs.map (·.H)) →
    (∀ x ∈ xs, x.s ≤ x.e ∧ x.e ≤ x.H.vertices.length) →
    (∀ x ∈ xs, ∀ v ∈ x.H.vertices, 0 < v.weight) →
    (xs.map (fun x => x.H.vertices.length)).sum < T →
    ∀ labels : Interval, labels.low ≠ labels.high → ∀ max0 max1 (rngs : List Rng), rngs.length = xs.length →
    (∃ rs, bis xs max0 max1 labels rngs = .ok rs ∧
      List.Forall₂ (fun (x : RangeOf) (r : RState) => Relabels x.s x.e labels.low labels.high x.H r.H ∧
        r.w0 = rangeWeight r.H x.s x.e labels.low ∧ r.w1 = rangeWeight r.H x.s x.e labels.high) xs rs) ∨
    ∃ e, bis xs max0 max1 labels rngs = .error e ∧ Bad e

/-- The bisection of a group stayed within the bounds handed to it. -/
def ParSplit.Respects (c : ParSplit) : Prop := c.w0 ≤ c.max0 ∧ c.w1 ≤ c.max1

instance (c : ParSplit) : Decidable (ParSplit.Respects c) := by
  unfold ParSplit.Respects; infer_instance

end PMondriaan.Spec

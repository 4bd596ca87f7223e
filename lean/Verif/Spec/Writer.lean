import Verif.Model.Writer

/-
Specification of a written partitioning.
-/

namespace PMondriaan.Spec

open PMondriaan

/-- The number of stored entries whose vertex is in part `i`. -/
def entriesInPart (Hs : List Hypergraph) (i : Nat) : Nat :=
  (((Hs.flatMap (·.vertices)).filter (fun v => v.part = (i : Int))).map (·.nets.length)).sum

/-- The number of stored entries whose vertex is in a part below `i`. -/
def entriesBelow (Hs : List Hypergraph) (i : Nat) : Nat :=
  (((Hs.flatMap (·.vertices)).filter (fun v => v.part < (i : Int))).map (·.nets.length)).sum

/-- All stored entries, as (net, vertex) counted from 1. -/
def allEntries (Hs : List Hypergraph) : List (Nat × Nat) :=
  (Hs.flatMap (·.vertices)).flatMap (fun v => v.nets.map (fun n => (n + 1, v.id + 1)))

/-- Every label is in `[0, k)`. -/
def LabelsBelow (k : Nat) (Hs : List Hypergraph) : Prop :=
  ∀ H ∈ Hs, ∀ v ∈ H.vertices, 0 ≤ v.part ∧ v.part < k

/-- A stream that draws every cell of an `m` by `n` matrix again and again. -/
def DrawsAll (n m : Nat) (r : Rng) : Prop :=
  ∀ t i j : Nat, i < m → j < n → ∃ t', t ≤ t' ∧ r (2 * t') % m = i ∧ r (2 * t' + 1) % n = j

end PMondriaan.Spec

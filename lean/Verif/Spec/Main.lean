import Verif.Spec.Reader
import Verif.Spec.Sizes

/-
Specification of a partitioning of the columns of a sparse matrix, without hypergraphs.
-/

namespace PMondriaan.Spec

open PMondriaan

/-- The communication volume of the labelling `lab` of the columns: for every row the number of different labels in
it minus one, rows without entries count nothing. -/
def rowsCut (E : Nat) (es : List (Nat × Nat)) (lab : Nat → Int) : Int :=
  ((List.range E).map (fun e => ((((rowOf es e).map lab).dedup.length - 1 : Nat) : Int))).sum

/-- The number of rows with more than one label. -/
def rowsSplit (E : Nat) (es : List (Nat × Nat)) (lab : Nat → Int) : Nat :=
  (List.range E).countP (fun e => ∃ u ∈ rowOf es e, ∃ v ∈ rowOf es e, lab u ≠ lab v)

/-- The weight of the columns with label `q`. -/
def columnsWeight (V : Nat) (es : List (Nat × Nat)) (wt : List Nat → Int) (lab : Nat → Int) (q : Int) : Int :=
  (((List.range V).filter (fun v => lab v = q)).map (fun v => wt (columnOf es v))).sum

/-- The weight of all columns. -/
def matrixWeight (V : Nat) (es : List (Nat × Nat)) (wt : List Nat → Int) : Int :=
  ((List.range V).map (fun v => wt (columnOf es v))).sum

/-- The processors hold the columns, each on exactly one, with the labels `lab`. -/
def HoldLabels (V : Nat) (lab : Nat → Int) (Hs : List Hypergraph) : Prop :=
  ((Hs.flatMap (·.vertices)).map (fun v => (v.id, v.part))).Perm ((List.range V).map (fun v => (v, lab v)))

/-- The processors together hold the hypergraph of the `E` by `V` matrix with entries `es`. -/
structure HoldMatrix (E V : Nat) (es : List (Nat × Nat)) (wt : List Nat → Int) (Hs : List Hypergraph) : Prop where
  dist : Distributed E Hs
  verts : ((Hs.flatMap (·.vertices)).map (fun v => (v.id, v.weight))).Perm
    ((List.range V).map (fun v => (v, wt (columnOf es v))))
  pins : ∀ e < E, (unionPins Hs e).Perm (rowOf es e)
  costs : ∀ H ∈ Hs, ∀ n ∈ H.nets, n.cost = 1
  size : ∀ H ∈ Hs, H.globalSize = V
  number : ∀ H ∈ Hs, H.globalNumberNets = E

/-- No entry is in column `v` (numbered from 0). -/
def EmptyColumn (es : List (Nat × Nat)) (v : Nat) : Prop := ∀ x ∈ es, x.2 ≠ v + 1

/-- Column `v` has no row in common with another column. -/
def AloneColumn (es : List (Nat × Nat)) (v : Nat) : Prop :=
  ∀ x ∈ es, x.2 = v + 1 → ∀ y ∈ es, y.1 = x.1 → y.2 = x.2

end PMondriaan.Spec

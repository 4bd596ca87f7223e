import Verif.Spec.Trace

/-
Vocabulary for the course of label propagation. A labelling is a function `P` from vertex
identifiers to labels.
-/

namespace PMondriaan.Spec

/-- The number of links of `v` to label `a`: over all nets that contain `v`, the other pins with
label `a`. -/
def links (H : Hypergraph) (P : Nat → Int) (v : Vertex) (a : Int) : Nat :=
  (H.nets.map (fun n => if v.id ∈ n.vertices then
    n.vertices.countP (fun u => decide (u ≠ v.id ∧ P u = a)) else 0)).sum

/-- The number of vertices with label `a`. -/
def labelSize (H : Hypergraph) (P : Nat → Int) (a : Int) : Nat :=
  H.vertices.countP (fun v => decide (P v.id = a))

/-- The labelling in which `v` has label `a`. -/
def relabel (P : Nat → Int) (v : Vertex) (a : Int) : Nat → Int :=
  fun u => if u = v.id then a else P u

/-- A visit to `v` with labels 0, …, l−1: a vertex whose label has at most `minSize` vertices keeps
it; any other vertex takes a label to which it has the most links. -/
inductive LabelStep (H : Hypergraph) (l : Nat) (minSize : Int) (P : Nat → Int) (v : Vertex) :
    (Nat → Int) → Prop
  | stay : (labelSize H P (P v.id) : Int) ≤ minSize → LabelStep H l minSize P v P
  | take (a : Nat) : minSize < (labelSize H P (P v.id) : Int) → a < l →
      (∀ b : Nat, b < l → links H P v b ≤ links H P v a) →
      LabelStep H l minSize P v (relabel P v a)

/-- A visit to `v` with labels 0 and 1 that may not be heavier than `max0` and `max1`: a label to
which `v` has the most links is selected, and `v` takes it if it is new and has room. -/
inductive BisectStep (H : Hypergraph) (max0 max1 : Int) (P : Nat → Int) (v : Vertex) :
    (Nat → Int) → Prop
  | stay (a : Int) : a = 0 ∨ a = 1 → links H P v (1 - a) ≤ links H P v a →
      (P v.id = a ∨ limitOf max0 max1 a < weightIn H P a + v.weight) →
      BisectStep H max0 max1 P v P
  | take (a : Int) : a = 0 ∨ a = 1 → links H P v (1 - a) ≤ links H P v a → P v.id ≠ a →
      weightIn H P a + v.weight ≤ limitOf max0 max1 a →
      BisectStep H max0 max1 P v (relabel P v a)

/-- Visits to the vertices of a list, one after the other. -/
inductive Visits (step : (Nat → Int) → Vertex → (Nat → Int) → Prop) :
    List Vertex → (Nat → Int) → (Nat → Int) → Prop
  | nil {P} : Visits step [] P P
  | snoc {vs v P Q R} : Visits step vs P Q → step Q v R → Visits step (vs ++ [v]) P R

/-- At most `k` sweeps. Each sweep visits every vertex once, in some order; the sweeps end after `k`
of them or after one that changed no label. -/
inductive LabelSweeps (H : Hypergraph) (step : (Nat → Int) → Vertex → (Nat → Int) → Prop) :
    Nat → (Nat → Int) → (Nat → Int) → Prop
  | done {P} : LabelSweeps H step 0 P P
  | quiet {k P vs} : vs.Perm H.vertices → Visits step vs P P → LabelSweeps H step (k + 1) P P
  | more {k P Q R vs} : vs.Perm H.vertices → Visits step vs P Q →
      (∃ v ∈ H.vertices, Q v.id ≠ P v.id) → LabelSweeps H step k Q R →
      LabelSweeps H step (k + 1) P R

/-- Exactly `k` sweeps, each of which changes the label of some vertex. -/
inductive BusySweeps (H : Hypergraph) (step : (Nat → Int) → Vertex → (Nat → Int) → Prop) :
    Nat → (Nat → Int) → (Nat → Int) → Prop
  | done {P} : BusySweeps H step 0 P P
  | more {k P Q R vs} : vs.Perm H.vertices → Visits step vs P Q →
      (∃ v ∈ H.vertices, Q v.id ≠ P v.id) → BusySweeps H step k Q R →
      BusySweeps H step (k + 1) P R

/-- The list `L` holds the label of the vertex at each position. -/
def HasLabels (H : Hypergraph) (P : Nat → Int) (L : List Int) : Prop :=
  L = H.vertices.map (fun v => P v.id)

/-- Weight of label `a` among the first `i` vertices. -/
def weightBefore (H : Hypergraph) (P : Nat → Int) (i : Nat) (a : Int) : Int :=
  (((H.vertices.take i).filter (fun v => decide (P v.id = a))).map (·.weight)).sum

/-- The random start with `l` labels: the `i`-th draw modulo `l`. -/
def LabelStart (H : Hypergraph) (l : Nat) (rng : Nat → Nat) (P : Nat → Int) : Prop :=
  ∀ (i : Nat) (v : Vertex), H.vertices[i]? = some v → P v.id = (rng i % l : Nat)

/-- The random start of a bisection: the `i`-th draw modulo 2 if that label still has room for the
vertex, otherwise the other label. -/
def BisectStart (H : Hypergraph) (max0 max1 : Int) (rng : Nat → Nat) (P : Nat → Int) : Prop :=
  ∀ (i : Nat) (v : Vertex), H.vertices[i]? = some v →
    P v.id = if weightBefore H P i (rng i % 2 : Nat) + v.weight ≤
        limitOf max0 max1 (rng i % 2 : Nat)
      then ((rng i % 2 : Nat) : Int) else 1 - ((rng i % 2 : Nat) : Int)

end PMondriaan.Spec

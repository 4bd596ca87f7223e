import Verif.Spec.Recursive

/-
Specification of C105: vertices that a bisection sets aside.
-/

namespace PMondriaan.Spec

/-- No net joins `v` with another vertex in the positions `s`, …, `e - 1` of `H`. -/
def Lone (H : Hypergraph) (s e : Nat) (v : Vertex) : Prop :=
  ∀ n ∈ H.nets, v.id ∈ n.vertices → ∀ u ∈ slice H.vertices s e, u.id ∈ n.vertices → u.id = v.id

instance (H : Hypergraph) (s e : Nat) (v : Vertex) : Decidable (Lone H s e v) := by
  unfold Lone; infer_instance

/-- `v` is alone, and the vertices of the range that are alone weigh nothing. -/
def Forgotten (H : Hypergraph) (s e : Nat) (v : Vertex) : Prop :=
  Lone H s e v ∧ ∀ u ∈ slice H.vertices s e, Lone H s e u → u.weight = 0

instance (H : Hypergraph) (s e : Nat) (v : Vertex) : Decidable (Forgotten H s e v) := by
  unfold Forgotten; infer_instance

/-- `H'` is `H` with new parts for the vertices in positions `s`, …, `e - 1`: the forgotten ones keep
theirs, each of the others gets `low` or `high`. -/
structure RelabelsOthers (s e : Nat) (low high : Int) (H H' : Hypergraph) : Prop where
  rest : H' = { H with vertices := H'.vertices }
  length : H'.vertices.length = H.vertices.length
  outside : ∀ i, i < s ∨ e ≤ i → H'.vertices[i]? = H.vertices[i]?
  forgotten : ∀ i v, s ≤ i → i < e → H.vertices[i]? = some v → Forgotten H s e v → H'.vertices[i]? = some v
  inside : ∀ i v, s ≤ i → i < e → H.vertices[i]? = some v → ¬ Forgotten H s e v →
    ∃ p, (p = low ∨ p = high) ∧ H'.vertices[i]? = some { v with part := p }

end PMondriaan.Spec

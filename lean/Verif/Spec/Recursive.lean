import Verif.Spec.Sizes

/-
Specification of ranges of positions in the vertex list.
-/

namespace PMondriaan.Spec

open PMondriaan

/-- The vertices at positions `s`, …, `e - 1`. -/
def slice (vs : List Vertex) (s e : Nat) : List Vertex := (vs.drop s).take (e - s)

/-- Total weight of the vertices at positions `s`, …, `e - 1` with label `p`. -/
def rangeWeight (H : Hypergraph) (s e : Nat) (p : Int) : Int :=
  (((slice H.vertices s e).filter (fun v => v.part = p)).map (·.weight)).sum

/-- `H'` differs from `H` only in the parts of the vertices at positions `s`, …, `e - 1`, and those
have one of the two labels. -/
structure Relabels (s e : Nat) (low high : Int) (H H' : Hypergraph) : Prop where
  rest : H' = { H with vertices := H'.vertices }
  length : H'.vertices.length = H.vertices.length
  outside : ∀ i, i < s ∨ e ≤ i → H'.vertices[i]? = H.vertices[i]?
  inside : ∀ i v, s ≤ i → i < e → H.vertices[i]? = some v →
    ∃ p, (p = low ∨ p = high) ∧ H'.vertices[i]? = some { v with part := p }

/-- The vertices in positions `s`, …, `e - 1` of `H` have been rearranged so that those with label
`low` come first, up to position `m`, and those with label `high` after. -/
structure SplitAt (s m e : Nat) (low high : Int) (H H' : Hypergraph) : Prop where
  start_le : s ≤ m
  le_end : m ≤ e
  perm : (slice H'.vertices s e).Perm (slice H.vertices s e)
  outside : ∀ i, i < s ∨ e ≤ i → H'.vertices[i]? = H.vertices[i]?
  lows : ∀ v ∈ slice H'.vertices s m, v.part = low
  highs : ∀ v ∈ slice H'.vertices m e, v.part = high
  nets : H'.nets = H.nets
  wf : WF H'
  sizes : sizes H' = sizes H

end PMondriaan.Spec

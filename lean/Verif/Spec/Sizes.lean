import Verif.Spec.Hypergraph

/-
The sizes stored in a hypergraph that are not those of its lists.
-/

namespace PMondriaan.Spec

open PMondriaan

/-- The global number of vertices, of nets, and the number of nonzeros. -/
def sizes (H : Hypergraph) : Nat × Nat × Nat := (H.globalSize, H.globalNumberNets, H.nrNz)

end PMondriaan.Spec

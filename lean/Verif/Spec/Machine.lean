import Verif.Spec.Free

/-
Specification vocabulary for C81: the totals on which it depends whether 64 bits are enough.
-/

namespace PMondriaan.Spec

open PMondriaan

/-- The most that a net can add to the cut. -/
def netLimit (metric : Metric) (n : Net) : Int :=
  match metric with
  | .cutNet => n.cost
  | .lambdaMinusOne => n.vertices.length * n.cost

/-- The total weight on all processors: the vertices and the free vertices set aside. -/
def worldWeight (S : List CProc) : Int :=
  (S.map (fun s => (s.2.vertices.map (·.weight)).sum)).sum + totalFree S

end PMondriaan.Spec

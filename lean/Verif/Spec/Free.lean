import Verif.Model.Contraction
import Verif.Spec.Dist

/-
Specification vocabulary for free vertices (vertices without nets).
-/

namespace PMondriaan.Spec

open PMondriaan

/-- Weight of the vertices of a list that are in part `p`. -/
def placedWeight (l : List Vertex) (p : Int) : Int :=
  ((l.filter (fun v => v.part = p)).map (·.weight)).sum

/-- `l` is a sequence of vertices placed one after the other, starting from part weights `W0`,
`W1`, according to the greedy rule: a part goes over its bound only when the vertex fits in
neither; a vertex that fits in only one part goes there; one that fits in both does not go to the
relatively fuller part. -/
def GreedyPlaced (W0 W1 max0 max1 : Int) (l : List Vertex) : Prop :=
  ∀ pre v post, l = pre ++ v :: post →
    let A := W0 + placedWeight pre 0
    let B := W1 + placedWeight pre 1
    (v.part = 0 ∨ v.part = 1) ∧
    (v.part = 0 → A + v.weight > max0 → B + v.weight > max1) ∧
    (v.part = 1 → B + v.weight ≤ max1) ∧
    (A + v.weight ≤ max0 → B + v.weight ≤ max1 →
      (v.part = 0 → A * max1 ≤ B * max0) ∧ (v.part = 1 → B * max0 ≤ A * max1))

/-- The free vertices of `H`: id and weight. -/
def freeOf (H : Hypergraph) : List (Nat × Int) :=
  (H.vertices.filter (fun v => v.nets = [])).map (fun v => (v.id, v.weight))

/-- The vertices of `l` are free vertices, with the ids and weights of `f`. -/
def FreeVertices (l : List Vertex) (f : List (Nat × Int)) : Prop :=
  l.map (fun v => (v.id, v.weight)) = f ∧ ∀ v ∈ l, v.nets = []

end PMondriaan.Spec

namespace PMondriaan.Spec

open PMondriaan

/-- Total free weight over the processors. -/
def totalFree (S : List CProc) : Int := (S.map (fun s => (s.1.free.map (·.2)).sum)).sum

/-- Processors holding free vertices set aside, and bisected hypergraphs without them: the state
in which the parallel `assign_free_vertices` is called. -/
structure FreeReady (S : List CProc) : Prop where
  nonempty : S ≠ []
  wf : ∀ s ∈ S, WF s.2
  bip : ∀ s ∈ S, Bipartitioned s.2
  nodup : ∀ s ∈ S, (s.1.free.map (·.1)).Nodup
  fresh : ∀ s ∈ S, ∀ f ∈ s.1.free, ¬ IsVertex s.2 f.1
  localFree : ∀ s ∈ S, s.1.localFree = (s.1.free.map (·.2)).sum
  globalFree : ∀ s ∈ S, s.1.globalFree = totalFree S

end PMondriaan.Spec

import Verif.Model.Coarsen
import Verif.Spec.Coarsen

/-
Vocabulary for the quality of the matching: inner products of vertices and greedy choices.
-/

namespace PMondriaan.Spec

open PMondriaan

/-- The nets that `v` and `u` have in common, in the order of the net list of `v`. -/
def sharedNets (H : Hypergraph) (v u : Vertex) : List Net :=
  v.nets.filterMap (fun e => H.nets.find? (fun n => n.id = e ∧ u.id ∈ n.vertices))

/-- The scaled inner product of `v` and `u`: the sum of the scaled costs of the nets they share,
divided by the smaller of the two degrees. -/
def score {F : Type} (O : ScoreOps F) (H : Hypergraph) (v u : Vertex) : F :=
  O.scale (min v.nets.length u.nets.length)
    (((sharedNets H v u).map O.cost).foldl O.add O.zero)

/-- Dividing a score by a degree a second time does not make a positive score larger, nor a score that
is not positive positive. -/
structure Shrinks {F : Type} (O : ScoreOps F) : Prop where
  zero : O.isZero O.zero = true
  pos : ∀ d x, 1 ≤ d → O.gt (O.scale d x) O.zero = true →
    O.gt (O.scale d (O.scale d x)) (O.scale d x) = false
  neg : ∀ d x, 1 ≤ d → O.gt (O.scale d x) O.zero = false →
    O.gt (O.scale d (O.scale d x)) O.zero = false

/-- The comparison of scores is a strict weak order: this holds for the comparison of floating-point
numbers that are not NaN. -/
structure StrictWeak {F : Type} (O : ScoreOps F) : Prop where
  asymm : ∀ a b, O.gt a b = true → O.gt b a = false
  trans : ∀ a b c, O.gt a b = false → O.gt b c = false → O.gt a c = false

/-- The ids of the vertices that have chosen `u` in the decisions `ds`. A decision is the id of a
vertex and the id of the vertex whose cluster it joins, or `none` when it stays. -/
def chosenBy (ds : List (Nat × Option Nat)) (u : Nat) : List Nat :=
  (ds.filter (fun d => d.2 = some u)).map (·.1)

/-- After the decisions `ds`, `v` may still join the cluster of `u`: they share a net, `u` has not
joined another cluster, and fewer than `maxC` vertices have joined `u`. -/
structure MayJoin (H : Hypergraph) (maxC : Nat) (ds : List (Nat × Option Nat)) (v u : Vertex) :
    Prop where
  mem : u ∈ H.vertices
  ne : u.id ≠ v.id
  shares : sharedNets H v u ≠ []
  stays : ∀ d ∈ ds, d.1 = u.id → d.2 = none
  room : (chosenBy ds u.id).length < maxC

/-- After the decisions `ds`, the decision `d` is greedy. A vertex that nobody has joined yet joins a
vertex with the largest positive score among those it may join; it stays when there is none with
a positive score, or when it has been joined itself. -/
def GreedyChoice {F : Type} (O : ScoreOps F) (H : Hypergraph) (maxC : Nat)
    (ds : List (Nat × Option Nat)) (d : Nat × Option Nat) : Prop :=
  ∃ v ∈ H.vertices, v.id = d.1 ∧
    match d.2 with
    | some c => chosenBy ds v.id = [] ∧ ∃ u, MayJoin H maxC ds v u ∧ u.id = c ∧
        O.gt (score O H v u) O.zero = true ∧
        ∀ u', MayJoin H maxC ds v u' → O.gt (score O H v u') (score O H v u) = false
    | none => chosenBy ds v.id ≠ [] ∨
        ∀ u', MayJoin H maxC ds v u' → O.gt (score O H v u') O.zero = false

/-- Every decision in `ds` is greedy after those before it. -/
def AllGreedy {F : Type} (O : ScoreOps F) (H : Hypergraph) (maxC : Nat)
    (ds : List (Nat × Option Nat)) : Prop :=
  ∀ pre d post, ds = pre ++ d :: post → GreedyChoice O H maxC pre d

end PMondriaan.Spec

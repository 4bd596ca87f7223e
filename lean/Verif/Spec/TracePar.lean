import Verif.Spec.Trace
import Verif.Spec.Dist
import Verif.Model.KLFMPar

/-
Specification vocabulary for the course of the parallel refinement: which moves a processor proposes
in a round, which bisections the rounds visit and which one a pass keeps.
-/

namespace PMondriaan.Spec

open PMondriaan

/-- The room left in part `p` when the parts weigh `w`. -/
def roomOf (max0 max1 : Int) (w : W2) (p : Int) : Int :=
  if p = 0 then max0 - w.w0 else max1 - w.w1

/-- The weights after `x` leaves its part. -/
def movedWeights (w : W2) (P : Nat → Int) (x : Vertex) : W2 :=
  if P x.id = 0 then ⟨w.w0 - x.weight, w.w1 + x.weight⟩ else ⟨w.w0 + x.weight, w.w1 - x.weight⟩

/-- `x` is on the processor with the vertices of `H`, it is not locked, and no vertex there of the
same part that is not locked has a larger gain. -/
def BestHere (gain : (Nat → Int) → Nat → Int) (H : Hypergraph) (P : Nat → Int) (locked : List Nat)
    (x : Vertex) : Prop :=
  x ∈ H.vertices ∧ x.id ∉ locked ∧
    ∀ y ∈ H.vertices, y.id ∉ locked → P y.id = P x.id → gain P y.id ≤ gain P x.id

/-- The rule by which the program picks the part (compare `PartRule`), on one processor. -/
def PartRuleHere (gain : (Nat → Int) → Nat → Int) (H : Hypergraph) (P : Nat → Int)
    (max0 max1 : Int) (w : W2) (locked : List Nat) (p : Int) : Prop :=
  (∀ z ∈ H.vertices, z.id ∉ locked → P z.id ≠ 1 - p) ∨
  ∃ y z, BestHere gain H P locked y ∧ P y.id = p ∧ BestHere gain H P locked z ∧ P z.id = 1 - p ∧
    ((y.weight < roomOf max0 max1 w p ∧
        (z.weight < roomOf max0 max1 w (1 - p) → gain P z.id ≤ gain P y.id)) ∨
      (roomOf max0 max1 w p ≤ y.weight ∧ roomOf max0 max1 w (1 - p) ≤ z.weight))

/-- The search of one processor for at most `K` moves, from the assignment `A`, the weights `a` and the
locked vertices `l0`. `TopRun … P w ms l`: the moves `ms` have been found, latest last; with them the
assignment is `P` and the weights are `w`; `l` are the locked vertices. A step looks at a best vertex
of the part picked by the rule. If its gain is not negative and it fits into the other part, it is
moved; its gain at that moment and the change of the weight of part 0 are recorded. If it does not
fit it is only locked. -/
inductive TopRun (gain : (Nat → Int) → Nat → Int) (H : Hypergraph) (max0 max1 : Int) (K : Nat)
    (A : Nat → Int) (a : W2) (l0 : List Nat) :
    (Nat → Int) → W2 → List MoveP → List Nat → Prop
  | start : TopRun gain H max0 max1 K A a l0 A a [] l0
  | move {P w ms l x} : TopRun gain H max0 max1 K A a l0 P w ms l → ms.length < K →
      BestHere gain H P l x → PartRuleHere gain H P max0 max1 w l (P x.id) → 0 ≤ gain P x.id →
      x.weight ≤ roomOf max0 max1 w (1 - P x.id) →
      TopRun gain H max0 max1 K A a l0 (flipped P x.id) (movedWeights w P x)
        (ms ++ [⟨x.id, gain P x.id, if P x.id = 0 then -x.weight else x.weight⟩]) (x.id :: l)
  | lock {P w ms l x} : TopRun gain H max0 max1 K A a l0 P w ms l → ms.length < K →
      BestHere gain H P l x → PartRuleHere gain H P max0 max1 w l (P x.id) → 0 ≤ gain P x.id →
      roomOf max0 max1 w (1 - P x.id) < x.weight →
      TopRun gain H max0 max1 K A a l0 P w ms (x.id :: l)

/-- The reasons to end the search: `K` moves, no vertex left, or a negative gain. -/
def TopOver (gain : (Nat → Int) → Nat → Int) (H : Hypergraph) (max0 max1 : Int) (K : Nat)
    (P : Nat → Int) (w : W2) (ms : List MoveP) (l : List Nat) : Prop :=
  K ≤ ms.length ∨ (∀ v, IsVertex H v → v ∈ l) ∨
    ∃ x, BestHere gain H P l x ∧ PartRuleHere gain H P max0 max1 w l (P x.id) ∧ gain P x.id < 0

/-- A complete search proposes the moves `ms` and locks the vertices `l`. -/
def TopFound (gain : (Nat → Int) → Nat → Int) (H : Hypergraph) (max0 max1 : Int) (K : Nat)
    (A : Nat → Int) (a : W2) (l0 : List Nat) (ms : List MoveP) (l : List Nat) : Prop :=
  ∃ P w, TopRun gain H max0 max1 K A a l0 P w ms l ∧ TopOver gain H max0 max1 K P w ms l

/-- The rounds of a pass of the parallel refinement in which nothing is rejected, from the assignment
`A`. `ParRun … P B vs ls fin`: the current assignment is `P`; `B` is the best one after a round so
far, the latest if there are several; `vs` are the assignments after the rounds, latest first; `ls`
are the locked vertices of each processor; `fin` tells which processors have nothing more to do. In a
round every processor searches for moves on its own, with the gains in the whole hypergraph as if the
others stood still; then all moves of all processors are made. -/
inductive ParRun (N : Nat) (Hs : List Hypergraph) (max0 max1 : Int) (K : Nat) (A : Nat → Int) :
    (Nat → Int) → (Nat → Int) → List (Nat → Int) → (Nat → List Nat) → (Nat → Bool) → Prop
  | start : ParRun N Hs max0 max1 K A A A [A] (fun _ => []) (fun _ => false)
  | round {P B vs ls fin P' ls' fin'} (ms : Nat → List MoveP) :
      ParRun N Hs max0 max1 K A P B vs ls fin → (∃ t, t < Hs.length ∧ fin t = false) →
      (∀ t H, Hs[t]? = some H → TopFound (gainAt (unionH N Hs)) H max0 max1 K P
        ⟨weightIn (unionH N Hs) P 0, weightIn (unionH N Hs) P 1⟩ (ls t) (ms t) (ls' t)) →
      (∀ t H, Hs[t]? = some H → ∀ v, IsVertex H v →
        P' v = if v ∈ (ms t).map (·.v) then 1 - P v else P v) →
      (∀ t H, Hs[t]? = some H →
        (fin' t = true ↔ fin t = true ∨ ms t = [] ∨ ∀ v, IsVertex H v → v ∈ ls' t)) →
      ParRun N Hs max0 max1 K A P'
        (if cutNet B (unionH N Hs).nets < cutNet P' (unionH N Hs).nets then B else P') (P' :: vs)
        ls' fin'

/-- A complete pass from `A` keeps `B`: every processor has nothing more to do. -/
def ParKeeps (N : Nat) (Hs : List Hypergraph) (max0 max1 : Int) (K : Nat) (A B : Nat → Int) : Prop :=
  ∃ P vs ls fin, ParRun N Hs max0 max1 K A P B vs ls fin ∧ ∀ t, t < Hs.length → fin t = true

/-- At most `k` passes, each from what the one before kept; the first that does not lower the cut is
the last. -/
inductive ParPassRun (N : Nat) (Hs : List Hypergraph) (max0 max1 : Int) (K : Nat) :
    Nat → (Nat → Int) → (Nat → Int) → Prop
  | none {A} : ParPassRun N Hs max0 max1 K 0 A A
  | more {k A B C} : ParKeeps N Hs max0 max1 K A B →
      cutNet B (unionH N Hs).nets < cutNet A (unionH N Hs).nets →
      ParPassRun N Hs max0 max1 K k B C → ParPassRun N Hs max0 max1 K (k + 1) A C
  | last {k A B} : ParKeeps N Hs max0 max1 K A B →
      cutNet A (unionH N Hs).nets ≤ cutNet B (unionH N Hs).nets →
      ParPassRun N Hs max0 max1 K (k + 1) A B

end PMondriaan.Spec

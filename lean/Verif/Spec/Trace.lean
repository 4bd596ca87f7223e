import Verif.Spec.Search

/-
Specification vocabulary for the course of the refinement: which vertex is proposed, what is done
with it, which bisections are visited and which one is kept.
-/

namespace PMondriaan.Spec

open PMondriaan

/-- The weight of part `p` under the assignment `P`. -/
def weightIn (H : Hypergraph) (P : Nat → Int) (p : Int) : Int :=
  ((H.vertices.filter (fun v => P v.id = p)).map (·.weight)).sum

/-- How much the cut of the assignment `P` drops when `v` alone changes side. -/
def gainAt (H : Hypergraph) (P : Nat → Int) (v : Nat) : Int :=
  cutNet P H.nets - cutNet (flipped P v) H.nets

/-- The limit of part `p`. -/
def limitOf (max0 max1 : Int) (p : Int) : Int := if p = 0 then max0 else max1

/-- The room left in part `p`. -/
def roomIn (H : Hypergraph) (P : Nat → Int) (max0 max1 : Int) (p : Int) : Int :=
  limitOf max0 max1 p - weightIn H P p

/-- `x` is not locked, and no vertex of its part that is not locked has a larger gain. -/
def BestOfPart (H : Hypergraph) (P : Nat → Int) (locked : List Nat) (x : Vertex) : Prop :=
  x ∈ H.vertices ∧ x.id ∉ locked ∧
    ∀ y ∈ H.vertices, y.id ∉ locked → P y.id = P x.id → gainAt H P y.id ≤ gainAt H P x.id

/-- The other part has room for `x`. -/
def Fits (H : Hypergraph) (P : Nat → Int) (max0 max1 : Int) (x : Vertex) : Prop :=
  x.weight ≤ roomIn H P max0 max1 (1 - P x.id)

/-- The rule by which the program picks the part from which the next vertex is taken. If the other
part has no vertex left, there is no choice. Otherwise it looks at a best vertex of either part. The
gain of a vertex counts only if the vertex weighs less than the room *in the part it is in*; a gain
that counts beats one that does not, and otherwise the larger gain wins. -/
def PartRule (H : Hypergraph) (P : Nat → Int) (max0 max1 : Int) (locked : List Nat) (p : Int) :
    Prop :=
  (∀ z ∈ H.vertices, z.id ∉ locked → P z.id ≠ 1 - p) ∨
  ∃ y z, BestOfPart H P locked y ∧ P y.id = p ∧ BestOfPart H P locked z ∧ P z.id = 1 - p ∧
    ((y.weight < roomIn H P max0 max1 p ∧
        (z.weight < roomIn H P max0 max1 (1 - p) → gainAt H P z.id ≤ gainAt H P y.id)) ∨
      (roomIn H P max0 max1 p ≤ y.weight ∧ roomIn H P max0 max1 (1 - p) ≤ z.weight))

/-- A pass of the refinement, step by step, from the assignment `A`. `PassRun … P B vs l n`: the
current assignment is `P`; `B` is the best one so far; `vs` are all assignments visited, latest
first; `l` are the locked vertices; `n` moves were made since `B`. A step proposes a best vertex of
a part. If it fits into the other part it is moved and locked, otherwise it is only locked. No step
is made after `limit` moves in a row that gave a larger cut than the best. -/
inductive PassRun (H : Hypergraph) (max0 max1 : Int) (limit : Nat) (A : Nat → Int) :
    (Nat → Int) → (Nat → Int) → List (Nat → Int) → List Nat → Nat → Prop
  | start : PassRun H max0 max1 limit A A A [A] [] 0
  | better {P B vs l n x} : PassRun H max0 max1 limit A P B vs l n → n < limit →
      BestOfPart H P l x → PartRule H P max0 max1 l (P x.id) → Fits H P max0 max1 x →
      cutNet (flipped P x.id) H.nets ≤ cutNet B H.nets →
      PassRun H max0 max1 limit A (flipped P x.id) (flipped P x.id) (flipped P x.id :: vs)
        (x.id :: l) 0
  | worse {P B vs l n x} : PassRun H max0 max1 limit A P B vs l n → n < limit →
      BestOfPart H P l x → PartRule H P max0 max1 l (P x.id) → Fits H P max0 max1 x →
      cutNet B H.nets < cutNet (flipped P x.id) H.nets →
      PassRun H max0 max1 limit A (flipped P x.id) B (flipped P x.id :: vs) (x.id :: l) (n + 1)
  | lock {P B vs l n x} : PassRun H max0 max1 limit A P B vs l n → n < limit →
      BestOfPart H P l x → PartRule H P max0 max1 l (P x.id) → ¬ Fits H P max0 max1 x →
      PassRun H max0 max1 limit A P B vs (x.id :: l) n

/-- A complete pass from `A` keeps `B`: it ended because every vertex is locked or because of
`limit` moves in a row without improvement. -/
def PassKeeps (H : Hypergraph) (max0 max1 : Int) (limit : Nat) (A B : Nat → Int) : Prop :=
  ∃ P vs l n, PassRun H max0 max1 limit A P B vs l n ∧
    ((∀ v, IsVertex H v → v ∈ l) ∨ limit ≤ n)

/-- At most `k` passes, one after the other, each from what the one before kept; the first pass
that does not lower the cut is the last. -/
inductive Passes (H : Hypergraph) (max0 max1 : Int) (limit : Nat) :
    Nat → (Nat → Int) → (Nat → Int) → Prop
  | none {A} : Passes H max0 max1 limit 0 A A
  | more {k A B C} : PassKeeps H max0 max1 limit A B → cutNet B H.nets < cutNet A H.nets →
      Passes H max0 max1 limit k B C → Passes H max0 max1 limit (k + 1) A C
  | last {k A B} : PassKeeps H max0 max1 limit A B → cutNet A H.nets ≤ cutNet B H.nets →
      Passes H max0 max1 limit (k + 1) A B

/-- Unloading part `p`, step by step, from `A`: as long as `p` is too heavy, a best vertex of `p` is
proposed; it is moved if it fits and locked. -/
inductive UnloadRun (H : Hypergraph) (max0 max1 : Int) (p : Int) (A : Nat → Int) :
    (Nat → Int) → List Nat → Prop
  | start : UnloadRun H max0 max1 p A A []
  | move {P l x} : UnloadRun H max0 max1 p A P l → limitOf max0 max1 p < weightIn H P p →
      BestOfPart H P l x → P x.id = p → Fits H P max0 max1 x →
      UnloadRun H max0 max1 p A (flipped P x.id) (x.id :: l)
  | lock {P l x} : UnloadRun H max0 max1 p A P l → limitOf max0 max1 p < weightIn H P p →
      BestOfPart H P l x → P x.id = p → ¬ Fits H P max0 max1 x →
      UnloadRun H max0 max1 p A P (x.id :: l)

/-- Unloading part `p` of `A` ends with `B`: `p` is within its limit or all its vertices are locked. -/
def Unloaded (H : Hypergraph) (max0 max1 : Int) (p : Int) (A B : Nat → Int) : Prop :=
  ∃ l, UnloadRun H max0 max1 p A B l ∧
    (weightIn H B p ≤ limitOf max0 max1 p ∨ ∀ v, IsVertex H v → B v = p → v ∈ l)

end PMondriaan.Spec

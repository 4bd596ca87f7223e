import Verif.Spec.Hypergraph
import Verif.Model.KLFM

/-
Specification vocabulary for the gain buckets and the refinement: operation histories and what is
present after them.
-/

namespace PMondriaan.Spec

open PMondriaan

/-- An operation on one object of class `gain_buckets`. -/
inductive BOp
  | insert (id : Nat) (gain : Int)
  | remove (id : Nat) (gain : Int)
  | next (rng : Rng)
  | gainNext

/-- The (id, gain) pairs that should be present after a history (latest operation first). -/
def Present : List BOp → Nat → Int → Prop
  | [], _, _ => False
  | .insert id g :: h, u, g' => Present h u g' ∨ (u = id ∧ g' = g)
  | .remove id g :: h, u, g' => Present h u g' ∧ ¬ (u = id ∧ g' = g)
  | .next _ :: h, u, g' => Present h u g'
  | .gainNext :: h, u, g' => Present h u g'

/-- The gains used by the operation are in range for `2 M + 1` buckets. -/
def BOp.inRange (M : Nat) : BOp → Prop
  | .insert _ g => -(M : Int) ≤ g ∧ g ≤ M
  | .remove _ g => -(M : Int) ≤ g ∧ g ≤ M
  | .next _ => True
  | .gainNext => True

/-- The operation only fills the structure (allowed before `set_max_present`). -/
def BOp.isInsert : BOp → Prop
  | .insert _ _ => True
  | _ => False

/-- Run one operation of the model. -/
def runBOp (b : Buckets) : BOp → Res Buckets
  | .insert id g => b.insert id g
  | .remove id g => do let (_, b) ← b.remove id g; pure b
  | .next r => do let (_, b, _) ← b.next r; pure b
  | .gainNext => do let (_, b) ← b.gainNext; pure b

/-- The states of the gain structure that refinement can reach from `H` and `C`, with the ids of
the vertices that were moved or removed on the way. -/
inductive Reach (H : Hypergraph) (C : List Cnt) : GainStructure → List Nat → Prop
  | init {s} : GainStructure.create H C = .ok s → Reach H C s []
  | move {s s' l v} : Reach H C s l → IsVertex H v → v ∉ l → s.move v = .ok s' →
      Reach H C s' (v :: l)
  | remove {s s' l v} : Reach H C s l → IsVertex H v → v ∉ l → s.remove v = .ok s' →
      Reach H C s' (v :: l)
  | next {s s' l p r r' o} : Reach H C s l → p = 0 ∨ p = 1 → s.next p r = .ok (o, s', r') →
      Reach H C s' l
  | gainNext {s s' l p o} : Reach H C s l → p = 0 ∨ p = 1 → s.gainNext p = .ok (o, s') →
      Reach H C s' l
  | done {s s' l d} : Reach H C s l → s.done = .ok (d, s') → Reach H C s' l
  | bucketDone {s s' l p d} : Reach H C s l → p = 0 ∨ p = 1 → s.bucketDone p = .ok (d, s') →
      Reach H C s' l

/-- How much the cut of the stored partition drops when `v` alone changes side. -/
def trueGain (H : Hypergraph) (v : Nat) : Int :=
  cutNet (partOf H) H.nets - cutNet (flipped (partOf H) v) H.nets

end PMondriaan.Spec

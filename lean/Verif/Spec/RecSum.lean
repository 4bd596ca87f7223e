import Verif.Model.RecBisect
import Verif.Model.Reduce
import Verif.Spec.Recursive

/-
Specification vocabulary for the cuts of the bisections that the recursion makes.
-/

namespace PMondriaan.Spec

open PMondriaan

/-- Two vertices of different parts at positions `s`, …, `e - 1` are among the pins. -/
def CutIn (H : Hypergraph) (s e : Nat) (pins : List Nat) : Prop :=
  ∃ u ∈ slice H.vertices s e, ∃ w ∈ slice H.vertices s e, u.id ∈ pins ∧ w.id ∈ pins ∧ u.part ≠ w.part

instance (H : Hypergraph) (s e : Nat) (pins : List Nat) : Decidable (CutIn H s e pins) := by
  unfold CutIn; infer_instance

/-- The total cost of the nets with two vertices of different parts at positions `s`, …, `e - 1`. -/
def rangeCost (H : Hypergraph) (s e : Nat) : Int :=
  (H.nets.map (fun n => if CutIn H s e n.vertices then n.cost else 0)).sum

/-- The recursion from the current work item and state ends in the last state; the costs of the bisections that it makes on
the way, in order, are the integers in the list. A bisection is a call of the bisection function, which
turns the hypergraph into `r.H`, with the bounds `m0` and `m1`; its cost is that of the nets in the range with vertices on both sides. -/
inductive Bisections (P : RecEnv) (M : Int) : WorkItem → RecState → List Int → RecState → Prop
  | done {cur : WorkItem} {s : RecState} : ¬ cur.low < cur.high → s.jobs = [] → Bisections P M cur s [] s
  | next {cur j : WorkItem} {s s' : RecState} {js : List WorkItem} {cs : List Int} : ¬ cur.low < cur.high →
    s.jobs = j :: js → Bisections P M j { s with jobs := js } cs s' → Bisections P M cur s cs s'
  | split {cur cur' : WorkItem} {s s' s'' : RecState} {S E : Nat} {m0 m1 : Int} {r : RState} {cs : List Int} :
    cur.low < cur.high → cur.start = S → cur.fin = E →
    m0 = boundFor P.rnd (cur.high - cur.low + 1).toNat ((cur.high - cur.low + 1).toNat / 2) cur.weight M →
    m1 = boundFor P.rnd (cur.high - cur.low + 1).toNat
      ((cur.high - cur.low + 1).toNat - (cur.high - cur.low + 1).toNat / 2) cur.weight M →
    P.bis s.H m0 m1 S E ⟨cur.low, cur.high⟩ s.rng = .ok r →
    splitStep P M cur s = .ok (cur', s') → Bisections P M cur' s' cs s'' →
    Bisections P M cur s (rangeCost r.H S E :: cs) s''

/-- The same with the bisections themselves: the hypergraph after the bisection and the range. -/
inductive BisectionSteps (P : RecEnv) (M : Int) : WorkItem → RecState → List RangeOf → RecState → Prop
  | done {cur : WorkItem} {s : RecState} : ¬ cur.low < cur.high → s.jobs = [] → BisectionSteps P M cur s [] s
  | next {cur j : WorkItem} {s s' : RecState} {js : List WorkItem} {bs : List RangeOf} : ¬ cur.low < cur.high →
    s.jobs = j :: js → BisectionSteps P M j { s with jobs := js } bs s' → BisectionSteps P M cur s bs s'
  | split {cur cur' : WorkItem} {s s' s'' : RecState} {S E : Nat} {m0 m1 : Int} {r : RState} {bs : List RangeOf} :
    cur.low < cur.high → cur.start = S → cur.fin = E →
    m0 = boundFor P.rnd (cur.high - cur.low + 1).toNat ((cur.high - cur.low + 1).toNat / 2) cur.weight M →
    m1 = boundFor P.rnd (cur.high - cur.low + 1).toNat
      ((cur.high - cur.low + 1).toNat - (cur.high - cur.low + 1).toNat / 2) cur.weight M →
    P.bis s.H m0 m1 S E ⟨cur.low, cur.high⟩ s.rng = .ok r →
    splitStep P M cur s = .ok (cur', s') → BisectionSteps P M cur' s' bs s'' →
    BisectionSteps P M cur s (⟨r.H, S, E⟩ :: bs) s''

theorem BisectionSteps.costs {P : RecEnv} {M : Int} {cur : WorkItem} {s s' : RecState} {bs : List RangeOf}
    (h : BisectionSteps P M cur s bs s') : Bisections P M cur s (bs.map (fun b => rangeCost b.H b.s b.e)) s' := by
  induction h with
  | done h1 h2 => exact .done h1 h2
  | next h1 h2 _ ih => exact .next h1 h2 ih
  | split h1 h2 h3 h4 h5 h6 h7 _ ih => exact .split h1 h2 h3 h4 h5 h6 h7 ih

end PMondriaan.Spec

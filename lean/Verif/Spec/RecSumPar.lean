import Verif.Spec.RecSum
import Verif.Spec.RecBisectPar

/-
Specification vocabulary for the cuts of the bisections that the recursion on several processors makes.
-/

namespace PMondriaan.Spec

open PMondriaan

/-- A bisection by a group, given by the hypergraphs of its processors after it and the ranges, cuts net `e`: two vertices
of different parts in the ranges, on the same or on different processors, are pins of the net. -/
def GroupCuts (B : List RangeOf) (e : Nat) : Prop :=
  ∃ x ∈ B, ∃ y ∈ B, ∃ u ∈ slice x.H.vertices x.s x.e, ∃ w ∈ slice y.H.vertices y.s y.e,
    u.id ∈ unionPins (B.map (·.H)) e ∧ w.id ∈ unionPins (B.map (·.H)) e ∧ u.part ≠ w.part

instance (B : List RangeOf) (e : Nat) : Decidable (GroupCuts B e) := by
  unfold GroupCuts; infer_instance

/-- The total cost of the nets that the bisection cuts. -/
def groupCutCost (N : Nat) (B : List RangeOf) : Int :=
  ((List.range N).map (fun e => if GroupCuts B e then unionCost (B.map (·.H)) e else 0)).sum

/-- The recursion of a group with the given path, labels, weight and processors ends with the hypergraphs in the last
list; the bisections that it makes are in the list before. A group of several processors makes one bisection
of the ranges `0`, …, `fin - 1` and continues as two groups, unless two labels were left; a processor that is alone
makes bisections on its own. -/
inductive GroupBisections (P : ParRecEnv) (eta : ℚ) (M : Int) :
    List Bool → Interval → Int → List RecProc → List (List RangeOf) → List Hypergraph → Prop
  | nobody {path : List Bool} {labels : Interval} {weight : Int} : GroupBisections P eta M path labels weight [] [] []
  | alone {path : List Bool} {labels : Interval} {weight : Int} {x : RecProc} {bs : List RangeOf} {s : RecState} :
    BisectionSteps (P.recEnv path) M
      { start := 0, fin := x.fin, low := labels.low, high := labels.high, weight := weight }
      { H := x.H, rng := x.rng, jobs := [], cut := [], splits := 0, calls := [] } bs s →
    GroupBisections P eta M path labels weight [x] (bs.map (fun b => [b])) [s.H]
  | last {path : List Bool} {labels : Interval} {weight : Int} {xs : List RecProc} {sp : ParSplit} {rs : List RState} :
    2 ≤ xs.length → groupSplit P eta M path labels weight xs = .ok (sp, rs, none) →
    GroupBisections P eta M path labels weight xs
      [(xs.zip rs).map (fun y => { H := y.2.H, s := 0, e := y.1.fin })] (rs.map (·.H))
  | split {path : List Bool} {labels : Interval} {weight : Int} {xs zs : List RecProc} {sp : ParSplit}
      {rs : List RState} {A B : List (List RangeOf)} {Ha Hb : List Hypergraph} :
    2 ≤ xs.length → groupSplit P eta M path labels weight xs = .ok (sp, rs, some zs) →
    GroupBisections P eta M (path ++ [true]) (lowLabels labels) sp.w0 (zs.take sp.plow) A Ha →
    GroupBisections P eta M (path ++ [false]) (highLabels labels) sp.w1 (zs.drop sp.plow) B Hb →
    GroupBisections P eta M path labels weight xs
      ((xs.zip rs).map (fun y => { H := y.2.H, s := 0, e := y.1.fin }) :: A ++ B) (Ha ++ Hb)

end PMondriaan.Spec

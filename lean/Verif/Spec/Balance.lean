import Verif.Spec.RecBisect
import Verif.Spec.RecBisectPar

/-
Specification vocabulary for the balance of the recursion.
-/

namespace PMondriaan.Spec

open PMondriaan

/-- A bisection function that, when no vertex weighs more than `om`, stays within its bounds whenever these leave
over at least `room`, less one. -/
def Balances (bis : Bisector) (N f : Nat) (om room : Int) : Prop :=
  ∀ H, Fit N f H → (∀ v ∈ H.vertices, v.weight ≤ om) → ∀ s e, s ≤ e → e ≤ H.vertices.length →
    ∀ labels : Interval, labels.low ≠ labels.high → ∀ max0 max1 : Int, 0 ≤ max0 → 0 ≤ max1 →
    ((slice H.vertices s e).map (·.weight)).sum + room ≤ max0 + max1 + 1 →
    ∀ rng r, bis H max0 max1 s e labels rng = .ok r → r.w0 ≤ max0 ∧ r.w1 ≤ max1

/-- A bisection function on several processors that, when no vertex weighs more than `om`, stays within its bounds
whenever the weight of every processor and `om`, less one, fit in the shares `⌊max0 / p⌋ + ⌊max1 / p⌋` of one
processor. -/
def ParBalances (bis : ParBisector) (om : Int) : Prop :=
  ∀ xs : List RangeOf, (∀ x ∈ xs, x.s ≤ x.e ∧ x.e ≤ x.H.vertices.length) →
    (∀ x ∈ xs, ∀ v ∈ x.H.vertices, 0 < v.weight ∧ v.weight ≤ om) →
    ∀ labels : Interval, labels.low ≠ labels.high → ∀ max0 max1 : Int, 0 ≤ max0 → 0 ≤ max1 →
    (∀ x ∈ xs, ((slice x.H.vertices x.s x.e).map (·.weight)).sum + om ≤
      max0 / xs.length + max1 / xs.length + 1) →
    ∀ rngs : List Rng, rngs.length = xs.length → ∀ rs, bis xs max0 max1 labels rngs = .ok rs →
      (rs.map (·.w0)).sum ≤ max0 ∧ (rs.map (·.w1)).sum ≤ max1

end PMondriaan.Spec

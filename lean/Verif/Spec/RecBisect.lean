import Verif.Model.RecBisect
import Verif.Spec.Recursive

/-
Specification vocabulary for the recursion: hypergraphs that a bisection function accepts, and what
is required of a bisection function.
-/

namespace PMondriaan.Spec

open PMondriaan

/-- A hypergraph within the limits of the model: consistent, net ids below `N`, fewer than 2^31 nets,
positive weights, fewer than `f` vertices. -/
structure Fit (N f : Nat) (H : Hypergraph) : Prop where
  wf : WF H
  ids : ∀ n ∈ H.nets, n.id < N
  nets : H.nets.length < 2147483648
  pos : ∀ v ∈ H.vertices, 0 < v.weight
  size : H.vertices.length < f

/-- What the recursion requires of a bisection function: it labels exactly the vertices in the range
with the two labels and returns their true weights. Nothing is said about the bounds. -/
def BisectsWell (bis : Bisector) (N f : Nat) : Prop :=
  ∀ H, Fit N f H → ∀ s e, s ≤ e → e ≤ H.vertices.length → ∀ labels : Interval,
    labels.low ≠ labels.high → ∀ max0 max1 rng,
    ∃ r, bis H max0 max1 s e labels rng = .ok r ∧ Relabels s e labels.low labels.high H r.H ∧
      r.w0 = rangeWeight r.H s e labels.low ∧ r.w1 = rangeWeight r.H s e labels.high

/-- A bisection function that leaves enough vertices for the labels of both sides: a range of at
least as many vertices as labels is split so that each side has at least as many vertices as it will
have labels. -/
def Fills (bis : Bisector) (N f : Nat) : Prop :=
  ∀ H, Fit N f H → ∀ s e, s ≤ e → e ≤ H.vertices.length → ∀ labels : Interval,
    labels.low < labels.high → labels.high - labels.low + 1 ≤ (e : Int) - s →
    ∀ max0 max1 rng r, bis H max0 max1 s e labels rng = .ok r →
    (labels.high - labels.low + 1).toNat / 2 ≤
      (slice r.H.vertices s e).countP (fun v => v.part = labels.low) ∧
    (labels.high - labels.low + 1).toNat - (labels.high - labels.low + 1).toNat / 2 ≤
      (slice r.H.vertices s e).countP (fun v => v.part = labels.high)

/-- The bisection stayed within the bounds handed to it. -/
def BisectCall.Respects (c : BisectCall) : Prop := c.w0 ≤ c.max0 ∧ c.w1 ≤ c.max1

instance (c : BisectCall) : Decidable (BisectCall.Respects c) := by
  unfold BisectCall.Respects; infer_instance

end PMondriaan.Spec

import Verif.Model.RecBisect

/-
Model of the number of synchronizations of the full world in `recursive_bisect`
(src/recursive_bisection.cpp:26-199), for one of `p` processors.

`world.sync()` is called in `remove_cut_nets` (line 434), in `add_cut_nets` (line 468) and at the end
(line 198); the calls on `sub_world` only concern the processors of that group. `global_weight` and
`world.split` at the beginning are executed once by every processor and not counted. Which branches
a processor takes depends only on the numbers of labels and on the numbers of processors `p_low`
given to the low side, so everything else is left out. The number of labels is
`labels.length() + 1`.
-/

namespace PMondriaan

/-- The counters of a processor: `splits` (line 59), and the calls of `remove_cut_nets`. -/
structure Counts where
  splits : Nat
  removals : Nat
deriving DecidableEq, Repr

/-- recursive_bisection.cpp:150-189, the sequential loops: `n` is the number of labels of the current
range, `jobs` those of the jobs on the stack. -/
def seqLoop : Nat → Nat → List Nat → Counts → Res Counts
  | 0, _, _, _ => .error .fuel
  | f + 1, n, jobs, c =>
    if n ≥ 2 then
      let klow := n / 2
      let khigh := n - klow
      let jobs' := if khigh ≥ 2 then khigh :: jobs else jobs
      seqLoop f klow jobs' ⟨c.splits + 1, if jobs'.isEmpty then c.removals else c.removals + 1⟩
    else match jobs with
      | [] => .ok c
      | j :: js => seqLoop f j js c

/-- recursive_bisection.cpp:86-87: the number of processors for the low side, from the weights of the
two sides. -/
def pLow (rnd : ℚ → ℚ) (w0 w1 : Int) (p : Nat) : Int :=
  truncQ (rnd (rnd (rnd (rnd (w0 : ℚ) / rnd ((w0 + w1 : Int) : ℚ)) * rnd (p : ℚ)) + 1 / 2))

/-- recursive_bisection.cpp:63-147, the parallel loop, then the sequential one. `p` and `s` are the
number of processors of the group and the rank in it, `n` the number of labels. `low path` is the
value computed in lines 86-87 by the group that was reached by the decisions `path` (`true` for the
low side); all processors of a group compute the same value. A processor that is alone has exactly
one job (lines 54-56 and 137-140); the other processors have none when the loop ends. -/
def parLoop (low : List Bool → Nat) : Nat → List Bool → Nat → Nat → Nat → Counts → Res Counts
  | 0, _, _, _, _, _ => .error .fuel
  | f + 1, path, p, s, n, c =>
    if n ≥ 2 ∧ p > 1 then
      let klow := n / 2
      let khigh := n - klow
      let plow := if klow = 1 ∧ khigh > 1 then 0 else low path
      let mine := decide (s < plow)
      let n' := if mine then klow else khigh
      if n' ≥ 2 then
        parLoop low f (path ++ [mine]) (if mine then plow else p - plow) (if mine then s else s - plow) n'
          ⟨c.splits + 1, c.removals + 1⟩
      else .ok ⟨c.splits + 1, c.removals⟩
    else if p = 1 then seqLoop (2 * n + 1) n [] c
    else .ok c

/-- The synchronizations of the full world by the processor with rank `s` (cut-net metric or not). -/
def worldSyncs (cutMetric : Bool) (low : List Bool → Nat) (p s k : Nat) : Res Nat := do
  let c ← parLoop low (k + 1) [] p s k ⟨0, 0⟩
  pure (if cutMetric then c.removals + (if c.splits * 2 < k then 1 else 0) + 1 + 1 else 1)

end PMondriaan

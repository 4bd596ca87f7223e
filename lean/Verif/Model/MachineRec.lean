import Verif.Model.RecBisect
import Verif.Model.MachineMl

/-
`recursive_bisect` on one processor with the 64-bit numbers of the program. As in Model/RecBisect.lean,
`double` values are rationals and every operation is followed by `rnd`. Labels, positions and numbers of
parts are not limited.
-/

namespace PMondriaan

/-- Conversion of a `double` to `long`: rounding towards zero, undefined when the result does not
fit in 64 bits. -/
def toLong (x : ℚ) : Res Int := long (truncQ x)

/-- recursive_bisection.cpp:204-215: the bound for the side that gets `kside` of the `k_` labels;
`maxweight * k_` is a product of two `long`s. -/
def boundFor64 (rnd : ℚ → ℚ) (k_ kside : Nat) (weight maxweight : Int) : Res Int := do
  let m ← long (maxweight * k_)
  let eps := rnd (rnd (rnd (m : ℚ) / rnd (weight : ℚ)) - 1)
  let q := Nat.log2 kside + 1
  let delta := rnd (eps / (q : ℚ))
  toLong (rnd (rnd (rnd (rnd (weight : ℚ) / rnd (k_ : ℚ)) * rnd (kside : ℚ)) * rnd (1 + delta)))

/-- recursive_bisection.cpp:201-218 `compute_max_global_weight`. The product is computed twice here,
once in the code. -/
def computeMax64 (rnd : ℚ → ℚ) (k_ klow khigh : Nat) (weight maxweight : Int) : Res (Int × Int) :=
  if weight = 0 then .error .ub
  else do
    let x ← boundFor64 rnd k_ klow weight maxweight
    let y ← boundFor64 rnd k_ khigh weight maxweight
    pure (x, y)

/-- recursive_bisection.cpp:40 `maxweight`. -/
def maxWeight64 (rnd : ℚ → ℚ) (epsilon : ℚ) (W : Int) (k : Nat) : Res Int :=
  toLong (rnd (rnd (rnd (1 + epsilon) * rnd (W : ℚ)) / rnd (k : ℚ)))

/-- recursive_bisection.cpp:160-187: the body of the inner loop. -/
def splitStep64 (P : RecEnv) (maxweight : Int) (cur : WorkItem) (s : RecState) :
    Res (WorkItem × RecState) := do
  let k_ := (cur.high - cur.low + 1).toNat
  let klow := k_ / 2
  let khigh := k_ - klow
  let m ← computeMax64 P.rnd k_ klow khigh cur.weight maxweight
  let r ← bisectRange P.bis s.H m.1 m.2 cur.start cur.fin ⟨cur.low, cur.high⟩ s.rng
  let labels0 : Interval := ⟨cur.low, cur.high - khigh⟩
  let labels1 : Interval := ⟨cur.low + klow, cur.high⟩
  let (H1, e, jobs) ← pushHigh cur labels1 r.w1 r.H s.jobs
  let (H2, cut) ← maybeRemove P (!jobs.isEmpty) H1 s.cut
  pure ({ start := cur.start, fin := e, low := labels0.low, high := labels0.high, weight := r.w0 },
    { H := H2, rng := r.rng, jobs := jobs, cut := cut, splits := s.splits + 1,
      calls := s.calls ++ [{ start := cur.start, fin := cur.fin, low := cur.low, high := cur.high,
                             max0 := m.1, max1 := m.2, w0 := r.w0, w1 := r.w1 }] })

/-- recursive_bisection.cpp:150-189: the two nested loops, from the test of the inner one. -/
def recLoop64 (P : RecEnv) (maxweight : Int) : Nat → WorkItem → RecState → Res RecState
  | 0, _, _ => .error .fuel
  | f + 1, cur, s =>
    if cur.high - cur.low > 0 then do
      let (cur', s') ← splitStep64 P maxweight cur s
      recLoop64 P maxweight f cur' s'
    else match s.jobs with
      | [] => .ok s
      | j :: js => recLoop64 P maxweight f j { s with jobs := js }

/-- recursive_bisection.cpp:26-199 `recursive_bisect` on one processor. `P.bis` is a 64-bit bisection
such as `bisectOne64`. On one processor `global_weight` adds one number to zero. -/
def recursiveBisect64 (P : RecEnv) (H : Hypergraph) (k : Nat) (epsilon : ℚ) (rng : Rng) :
    Res RecState := do
  let W ← totalWeight64 H
  let M ← maxWeight64 P.rnd epsilon W k
  let s ← recLoop64 P M (2 * k)
    { start := 0, fin := H.vertices.length, low := 0, high := (k : Int) - 1, weight := W }
    { H := H, rng := rng, jobs := [], cut := [], splits := 0, calls := [] }
  restoreCut P k s

end PMondriaan

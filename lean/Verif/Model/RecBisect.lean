import Mathlib.Data.Rat.Floor
import Verif.Model.Multilevel

/-
Model of src/recursive_bisection.cpp on one processor: `compute_max_global_weight`,
`remove_cut_nets`, `add_cut_nets` and `recursive_bisect`. The number of synchronizations of
the full world for any number of processors is in Model/SyncCount.lean.

`double` values are rationals; every operation is followed by `rnd`. The integers `long` and
`size_t` are unbounded. Log messages are left out.
-/

namespace PMondriaan

/-- Conversion of a `double` to `long`: rounding towards zero. -/
def truncQ (x : ℚ) : Int := if 0 ≤ x then ⌊x⌋ else ⌈x⌉

/-! ### Weight bounds -/

/-- recursive_bisection.cpp:204-215: the bound for the side that gets `kside` of the `k_` labels.
`std::log2` of a `long` below 2^48, increased by one and converted to `long`, is taken to be the
exact integer logarithm plus one; that number is below 64, so its conversion to `double` is exact. -/
def boundFor (rnd : ℚ → ℚ) (k_ kside : Nat) (weight maxweight : Int) : Int :=
  let eps := rnd (rnd (rnd ((maxweight * k_ : Int) : ℚ) / rnd (weight : ℚ)) - 1)
  let q := Nat.log2 kside + 1
  let delta := rnd (eps / (q : ℚ))
  truncQ (rnd (rnd (rnd (rnd (weight : ℚ) / rnd (k_ : ℚ)) * rnd (kside : ℚ)) * rnd (1 + delta)))

/-- recursive_bisection.cpp:201-218 `compute_max_global_weight`. With a zero `weight_mypart` the
quotient is infinite or not a number and so is (0 times infinity) the product, whose conversion
to `long` is undefined behaviour. -/
def computeMax (rnd : ℚ → ℚ) (k_ klow khigh : Nat) (weight maxweight : Int) : Res (Int × Int) :=
  if weight = 0 then .error .ub
  else .ok (boundFor rnd k_ klow weight maxweight, boundFor rnd k_ khigh weight maxweight)

/-- recursive_bisection.cpp:40 `maxweight`. -/
def maxWeight (rnd : ℚ → ℚ) (epsilon : ℚ) (W : Int) (k : Nat) : Int :=
  truncQ (rnd (rnd (rnd (1 + epsilon) * rnd (W : ℚ)) / rnd (k : ℚ)))

/-! ### Cut nets -/

/-- recursive_bisection.cpp:387-394: does some pin have an id different from `label`? -/
def idDiffers (H : Hypergraph) (label : Nat) : List Nat → Res Bool
  | [] => .ok false
  | v :: vs => do
    let u ← H.vertexOf v
    if label ≠ u.id then pure true else idDiffers H label vs

/-- recursive_bisection.cpp:385-394: is the net reported, on a processor that is alone in its
`sub_world`? Note that `label` is the *id* of the first pin, not its part. -/
def reportsNet (H : Hypergraph) (n : Net) : Res Bool := do
  let v0 ← vget n.vertices 0
  let u ← H.vertexOf v0
  idDiffers H u.id n.vertices

/-- recursive_bisection.cpp:384-395: the ids sent by one processor, in order. -/
def reportedNets (H : Hypergraph) : Res (List Nat) :=
  H.nets.foldlM (fun out n => do
    let b ← reportsNet H n
    pure (if b then out ++ [n.id] else out)) []

/-- recursive_bisection.cpp:389-391, 421-423 and 428-430: a message to every processor. -/
def toAll {M : Type} (p : Nat) (ms : List M) : List (Nat × M) :=
  ms.flatMap (fun m => (List.range p).map (fun t => (t, m)))

/-- recursive_bisection.cpp:436-442, one received id: the net is copied to `cut_nets` and removed. -/
def setAside (x : Hypergraph × List Net) (id : Nat) : Res (Hypergraph × List Net) :=
  if x.1.isLocalNet id then do
    let n ← x.1.netOf id
    let H' ← x.1.removeNet id
    pure (H', x.2 ++ [Net.mk' n.id n.vertices n.cost])
  else pure x

/-- recursive_bisection.cpp:378-443 `remove_cut_nets` when every processor is alone in its
`sub_world`. The state of a processor is its hypergraph and `cut_nets`. -/
def removeCutNetsAlone (d : Delivery Nat) (xs : List (Hypergraph × List Net)) :
    Res (List (Hypergraph × List Net)) := do
  let outs ← xs.mapM (fun x => do
    let ids ← reportedNets x.1
    pure (toAll xs.length ids))
  xs.zipIdx.mapM (fun (x, t) => (inbox d outs t).foldlM setAside x)

/-- recursive_bisection.cpp:404-410: `label_net`, −1 when some pin's *id* differs from the *part*
of the first pin. -/
def labelLoop (H : Hypergraph) (label : Int) : List Nat → Res Int
  | [] => .ok label
  | v :: vs => do
    let u ← H.vertexOf v
    if label ≠ u.id then pure (-1) else labelLoop H label vs

/-- recursive_bisection.cpp:403-412: the messages (net, label) sent to the owners of the nets. -/
def sendLabels (np : NetPart) (p : Nat) (H : Hypergraph) : Res (List (Nat × (Nat × Int))) :=
  H.nets.mapM (fun n => do
    let v0 ← vget n.vertices 0
    let u ← H.vertexOf v0
    let l ← labelLoop H u.part n.vertices
    send p (np.owner n.id) (n.id, l))

/-- recursive_bisection.cpp:417-432, one message: `total_cut` and the ids reported so far. -/
def collectLabel (np : NetPart) (st : List Int × List Nat) (m : Nat × Int) :
    Res (List Int × List Nat) := do
  let t ← vget st.1 (np.loc m.1)
  if t = -2 then do
    let tc ← vset st.1 (np.loc m.1) m.2
    pure (tc, if m.2 = -1 then st.2 ++ [m.1] else st.2)
  else if t ≥ 0 ∧ t ≠ m.2 then do
    let tc ← vset st.1 (np.loc m.1) (-1)
    pure (tc, st.2 ++ [m.1])
  else pure st

/-- recursive_bisection.cpp:378-443 `remove_cut_nets` when `sub_world` is the whole world and has
at least two processors. -/
def removeCutNetsGroup (np : NetPart) (d1 : Delivery (Nat × Int)) (d2 : Delivery Nat)
    (xs : List (Hypergraph × List Net)) : Res (List (Hypergraph × List Net)) := do
  let outs1 ← xs.mapM (fun x => sendLabels np xs.length x.1)
  let outs2 ← (List.range xs.length).mapM (fun t => do
    let r ← (inbox d1 outs1 t).foldlM (collectLabel np) (List.replicate (np.count t) (-2), [])
    pure (toAll xs.length r.2))
  xs.zipIdx.mapM (fun (x, t) => (inbox d2 outs2 t).foldlM setAside x)

/-- recursive_bisection.cpp:453-467, one net of `cut_nets`: the pins that are local are kept with
the net, the others are sent to every processor. -/
def addCutStep (p : Nat) (x : Hypergraph × List (Nat × (Nat × Nat × Int))) (n : Net) :
    Hypergraph × List (Nat × (Nat × Nat × Int)) :=
  let away := n.vertices.filter (fun v => !x.1.isLocal v)
  let newV := n.vertices.filter (fun v => x.1.isLocal v)
  (if n.vertices.length > 0 then x.1.addNet n.id newV n.cost else x.1,
    x.2 ++ toAll p (away.map (fun v => (n.id, v, n.cost))))

/-- recursive_bisection.cpp:471-480, one received pin. -/
def addCutMsg (H : Hypergraph) (m : Nat × Nat × Int) : Res Hypergraph :=
  if H.isLocal m.2.1 then do
    let H1 ← if H.isLocalNet m.1 then
        H.modifyNet m.1 (fun n => { n with vertices := n.vertices ++ [m.2.1] })
      else pure (H.addNet m.1 [m.2.1] m.2.2)
    let i ← H1.localId m.2.1
    let v ← H1.vertexAt i
    pure (H1.setVertex i { v with nets := v.nets ++ [m.1] })
  else pure H

/-- recursive_bisection.cpp:448-481 `add_cut_nets`. -/
def addCutNets (d : Delivery (Nat × Nat × Int)) (xs : List (Hypergraph × List Net)) :
    Res (List Hypergraph) :=
  let ys := xs.map (fun x => x.2.foldl (addCutStep xs.length) (x.1, []))
  ys.zipIdx.mapM (fun (y, t) => (inbox d (ys.map (·.2)) t).foldlM addCutMsg y.1)

/-! ### The recursion on one processor -/

/-- A bisection function: hypergraph, the two bounds, first and end position, labels, generator. -/
abbrev Bisector := Hypergraph → Int → Int → Nat → Nat → Interval → Rng → Res RState

/-- include/work_item.hpp:9-27 `work_item`. -/
structure WorkItem where
  start : Int
  fin : Int
  low : Int
  high : Int
  weight : Int
deriving DecidableEq, Repr

/-- A bisection done by the recursion: range, labels, bounds handed to it, weights returned. This is
not in the code: the model records the bisections so that properties can refer to them. -/
structure BisectCall where
  start : Int
  fin : Int
  low : Int
  high : Int
  max0 : Int
  max1 : Int
  w0 : Int
  w1 : Int
deriving DecidableEq, Repr

/-- The environment of `recursive_bisect`: rounding, bisection function, metric (`true` for the
cut-net metric), delivery orders of the two queues. -/
structure RecEnv where
  rnd : ℚ → ℚ
  bis : Bisector
  cutMetric : Bool
  d1 : Delivery Nat
  d2 : Delivery (Nat × Nat × Int)

/-- The variables of recursive_bisection.cpp:150-189, and the record of bisections. -/
structure RecState where
  H : Hypergraph
  rng : Rng
  jobs : List WorkItem
  cut : List Net
  splits : Nat
  calls : List BisectCall

/-- A call of the bisection on a range given by `long` values. A negative start would fail the assert
of `H(…)` (random) or give an invalid iterator range (multilevel); so would an end before the start
for the multilevel bisection. These ranges are never bisected (`recLoop_outcome`). -/
def bisectRange (bis : Bisector) (H : Hypergraph) (max0 max1 : Int) (start fin : Int)
    (labels : Interval) (rng : Rng) : Res RState :=
  if 0 ≤ start ∧ start ≤ fin then bis H max0 max1 start.toNat fin.toNat labels rng
  else .error .abort

/-- recursive_bisection.cpp:177-181: reorder and push the job for the high labels. Returns the new
hypergraph, `end` and the jobs. `reorderHypergraph` takes natural numbers: `start` and `end` have
just been accepted by `bisectRange`. -/
def pushHigh (cur : WorkItem) (labels1 : Interval) (w1 : Int) (H : Hypergraph)
    (jobs : List WorkItem) : Res (Hypergraph × Int × List WorkItem) :=
  if labels1.length > 0 then do
    let (H', e) ← reorderHypergraph H cur.start.toNat cur.fin.toNat cur.low cur.high
    pure (H', e, { start := e, fin := cur.fin, low := labels1.low, high := labels1.high,
                   weight := w1 } :: jobs)
  else pure (H, cur.fin, jobs)

/-- recursive_bisection.cpp:185-187: the cut nets are set aside when jobs are left. -/
def maybeRemove (P : RecEnv) (b : Bool) (H : Hypergraph) (cut : List Net) :
    Res (Hypergraph × List Net) :=
  if P.cutMetric && b then do
    let xs ← removeCutNetsAlone P.d1 [(H, cut)]
    vget xs 0
  else pure (H, cut)

/-- recursive_bisection.cpp:160-187: the body of the inner loop. `cur` holds `start`, `end`, `labels`
and `weight_mypart`. -/
def splitStep (P : RecEnv) (maxweight : Int) (cur : WorkItem) (s : RecState) :
    Res (WorkItem × RecState) := do
  let k_ := (cur.high - cur.low + 1).toNat
  let klow := k_ / 2
  let khigh := k_ - klow
  let m ← computeMax P.rnd k_ klow khigh cur.weight maxweight
  let r ← bisectRange P.bis s.H m.1 m.2 cur.start cur.fin ⟨cur.low, cur.high⟩ s.rng
  let labels0 : Interval := ⟨cur.low, cur.high - khigh⟩
  let labels1 : Interval := ⟨cur.low + klow, cur.high⟩
  let (H1, e, jobs) ← pushHigh cur labels1 r.w1 r.H s.jobs
  let (H2, cut) ← maybeRemove P (!jobs.isEmpty) H1 s.cut
  pure ({ start := cur.start, fin := e, low := labels0.low, high := labels0.high, weight := r.w0 },
    { H := H2, rng := r.rng, jobs := jobs, cut := cut, splits := s.splits + 1,
      calls := s.calls ++ [{ start := cur.start, fin := cur.fin, low := cur.low, high := cur.high,
                             max0 := m.1, max1 := m.2, w0 := r.w0, w1 := r.w1 }] })

/-- recursive_bisection.cpp:150-189: the two nested loops, from the test of the inner one. -/
def recLoop (P : RecEnv) (maxweight : Int) : Nat → WorkItem → RecState → Res RecState
  | 0, _, _ => .error .fuel
  | f + 1, cur, s =>
    if cur.high - cur.low > 0 then do
      let (cur', s') ← splitStep P maxweight cur s
      recLoop P maxweight f cur' s'
    else match s.jobs with
      | [] => .ok s
      | j :: js => recLoop P maxweight f j { s with jobs := js }

/-- recursive_bisection.cpp:191-196: the end, for the cut-net metric. -/
def restoreCut (P : RecEnv) (k : Nat) (s : RecState) : Res RecState :=
  if P.cutMetric then do
    let (H, cut) ← maybeRemove P (s.splits * 2 < k) s.H s.cut
    let Hs ← addCutNets P.d2 [(H, cut)]
    let H' ← vget Hs 0
    pure { s with H := H', cut := cut }
  else pure s

/-- recursive_bisection.cpp:26-199 `recursive_bisect` on one processor. The parallel loop is not
entered. `2 k` steps of `recLoop` suffice (`recLoop_outcome`). -/
def recursiveBisect (P : RecEnv) (H : Hypergraph) (k : Nat) (epsilon : ℚ) (rng : Rng) :
    Res RecState := do
  let W := H.totalWeight
  let M := maxWeight P.rnd epsilon W k
  let s ← recLoop P M (2 * k)
    { start := 0, fin := H.vertices.length, low := 0, high := (k : Int) - 1, weight := W }
    { H := H, rng := rng, jobs := [], cut := [], splits := 0, calls := [] }
  restoreCut P k s

end PMondriaan

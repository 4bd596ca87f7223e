import Verif.Model.MachineRec
import Verif.Model.MachineMlPar

/-
`recursive_bisect` on several processors with the lambda metric (recursive_bisection.cpp:26-354) in 64-bit arithmetic:
a sum, difference or product of weights, or a conversion of a `double` to `long`, that does not fit is
undefined behaviour. Labels, positions and numbers of processors are not checked.
-/

namespace PMondriaan

/-- `bulk::sum` of one value per processor. -/
def sumLongs (ws : List Int) : Res Int := ws.foldlM (fun t x => long (t + x)) 0

/-! ### Redistribution -/

/-- recursive_bisection.cpp:325-341. -/
def sendUntil64 (p t : Nat) (label max : Int) : Nat → SendState → Res SendState
  | 0, x => if x.sent < max then .error .fuel else .ok x
  | f + 1, x =>
    if x.sent < max then do
      let i ← x.H.nextLabel label x.index
      let v ← x.H.vertexAt i
      let y ← long (x.sent + v.weight)
      let m ← send p t v
      sendUntil64 p t label max f
        { H := x.H.takeOut i v.id, index := i, sent := y
          nets := v.nets.foldl setInsert x.nets, out := x.out ++ [m] }
    else .ok x

/-- recursive_bisection.cpp:320-348. -/
def sendTo64 (ord : List Nat → List Nat) (p : Nat) (label : Int) (x : SurplusState) : Res SurplusState := do
  let lack ← long (-1 * x.own)
  let y ← sendUntil64 p x.t label (min x.others lack) (x.H.size + 1)
    { H := x.H, index := x.index, sent := 0, nets := [], out := x.verts }
  let cs ← (ord y.nets).mapM (fun n => do
    let net ← y.H.netOf n
    send p x.t (n, net.cost))
  let own ← long (x.own + y.sent)
  pure { H := y.H, index := y.index, own := own, others := 0, t := x.t
         verts := y.out, costs := x.costs ++ cs }

/-- recursive_bisection.cpp:309-353. -/
def surplusLoop64 (ord : List Nat → List Nat) (p s : Nat) (label : Int) (surplus : List Int) :
    Nat → SurplusState → Res (SurplusState × Int)
  | 0, _ => .error .fuel
  | f + 1, x =>
    if x.own < 0 then
      let t := if x.t ≥ p then 0 else x.t
      if t = s then .ok (x, -1)
      else do
        let st ← vget surplus t
        let o ← long (x.others + st)
        let x' : SurplusState := { x with t := t, others := o }
        let x' ← runIf (st > 0 ∧ o > 0) (sendTo64 ord p label x') x'
        surplusLoop64 ord p s label surplus f { x' with t := t + 1 }
    else .ok (x, 0)

/-- recursive_bisection.cpp:291-354 `reduce_surplus`, on processor `s`. -/
def reduceSurplus64 (ord : List Nat → List Nat) (p s : Nat) (label : Int) (surplus : List Int)
    (o : Outgoing) : Res (Outgoing × Int) := do
  let own ← vget surplus s
  if own ≥ 0 then .ok (o, 0)
  else
    let (x, r) ← surplusLoop64 ord p s label surplus (p + 1)
      { H := o.H, index := 0, own := own, others := 0, t := s + 1, verts := o.verts, costs := o.costs }
    pure (⟨x.H, x.verts, x.costs⟩, r)

/-- recursive_bisection.cpp:106-113. -/
def newMaxLocal64 (rnd : ℚ → ℚ) (w : Int) (q : Nat) (eta : ℚ) : Res Int :=
  toLong (rnd ((⌈rnd (rnd (w : ℚ) / rnd (q : ℚ))⌉ : ℚ) * rnd (1 + eta)))

/-- recursive_bisection.cpp:236-237; the product with `my_part` is 0 or the other factor. -/
def surplusOf64 (plow : Nat) (s : Nat) (a : RedistArgs) : Res (Int × Int) := do
  let x ← long ((if s < plow then a.maxLocal else 0) - a.w0)
  let y ← long ((if s < plow then 0 else a.maxLocal) - a.w1)
  pure (x, y)

/-- recursive_bisection.cpp:243-263, before the synchronization. -/
def redistSend64 (ord : List Nat → List Nat) (p s plow : Nat) (low high : Int)
    (sur0 sur1 : List Int) (H : Hypergraph) : Res (Outgoing × List Vertex) := do
  let (o, _) ← reduceSurplus64 ord p s high sur1 ⟨H, [], []⟩
  if plow > 0 then do
    let (o, _) ← reduceSurplus64 ord p s low sur0 o
    pure (o, [])
  else do
    let (vs, vs0) ← pullLabel low o.H.vertices
    pure ({ o with H := { o.H with vertices := vs } }, vs0)

/-- recursive_bisection.cpp:226-285 `redistribute_hypergraph`, on all processors. -/
def redistribute64 (ord : List Nat → List Nat) (dv : Delivery Vertex) (dc : Delivery (Nat × Int))
    (plow : Nat) (low high : Int) (args : List RedistArgs) : Res (List (Hypergraph × Int)) := do
  let p := args.length
  let sur ← args.zipIdx.mapM (fun x => surplusOf64 plow x.2 x.1)
  let outs ← args.zipIdx.mapM (fun (a, s) =>
    redistSend64 ord p s plow low high (sur.map (·.1)) (sur.map (·.2)) a.H)
  outs.zipIdx.mapM (fun (o, t) =>
    redistFinish plow o.1.H o.2 (inbox dc (outs.map (·.1.costs)) t) (inbox dv (outs.map (·.1.verts)) t))

/-! ### The recursion -/

/-- recursive_bisection.cpp:85-90 `p_low`: the sum of two `long`s, and the conversion of the quotient. -/
def procsLow64 (rnd : ℚ → ℚ) (w0 w1 : Int) (p klow khigh : Nat) : Res Nat := do
  let w ← long (w0 + w1)
  if w = 0 then .error .ub
  else do
    let q ← toLong (rnd (rnd (rnd (rnd (w0 : ℚ) / rnd (w : ℚ)) * rnd (p : ℚ)) + 1 / 2))
    pure (if klow = 1 ∧ khigh > 1 then 0 else q.toNat)

/-- recursive_bisection.cpp:106-125: the arguments of `redistribute_hypergraph`. -/
def redistArgs64 (rnd : ℚ → ℚ) (eta : ℚ) (w0 w1 : Int) (plow : Nat) (rs : List RState) : Res (List RedistArgs) :=
  rs.zipIdx.mapM (fun x => do
    let m ← if x.2 < plow then newMaxLocal64 rnd w0 plow eta else newMaxLocal64 rnd w1 (rs.length - plow) eta
    pure { H := x.1.H, maxLocal := m, w0 := x.1.w0, w1 := x.1.w1 })

/-- recursive_bisection.cpp:68-81: the bounds and the bisection. -/
def groupBisect64 (P : ParRecEnv) (maxweight : Int) (path : List Bool) (labels : Interval) (weight : Int)
    (xs : List RecProc) : Res ((Int × Int) × List RState) := do
  let k_ := labels.count
  let m ← computeMax64 P.rnd k_ (k_ / 2) (k_ - k_ / 2) weight maxweight
  let rs ← P.bis path (xs.map (fun x => ⟨x.H, 0, x.fin⟩)) m.1 m.2 labels (xs.map (·.rng))
  pure (m, rs)

/-- recursive_bisection.cpp:150-189 on a processor that is alone, with its only job (lines 54-56 and 137-141). -/
def aloneRun64 (P : ParRecEnv) (maxweight : Int) (path : List Bool) (labels : Interval) (weight : Int)
    (x : RecProc) : Res GroupResult := do
  let s ← recLoop64 (P.recEnv path) maxweight (2 * labels.count)
    { start := 0, fin := x.fin, low := labels.low, high := labels.high, weight := weight }
    { H := x.H, rng := x.rng, jobs := [], cut := [], splits := 0, calls := [] }
  pure ⟨[s.H], [], s.calls⟩

/-- recursive_bisection.cpp:64-102, the first half of a round of a group. -/
def groupHead64 (P : ParRecEnv) (maxweight : Int) (path : List Bool) (labels : Interval) (weight : Int)
    (xs : List RecProc) : Res (ParSplit × List RState × Bool) := do
  let k_ := labels.count
  let klow := k_ / 2
  let khigh := k_ - klow
  let (m, rs) ← groupBisect64 P maxweight path labels weight xs
  let w0 ← sumLongs (rs.map (·.w0))
  let w1 ← sumLongs (rs.map (·.w1))
  let plow ← procsLow64 P.rnd w0 w1 xs.length klow khigh
  let split : ParSplit := ⟨xs.length, plow, labels.low, labels.high, m.1, m.2, w0, w1⟩
  let go ← agreed ((List.range xs.length).map (fun s =>
    decide ((newLabels labels plow s).length > 0)))
  pure (split, rs, go)

/-- recursive_bisection.cpp:64-146, one round of a group. -/
def groupSplit64 (P : ParRecEnv) (eta : ℚ) (maxweight : Int) (path : List Bool) (labels : Interval) (weight : Int)
    (xs : List RecProc) : Res (ParSplit × List RState × Option (List RecProc)) := do
  let (split, rs, go) ← groupHead64 P maxweight path labels weight xs
  if go then do
    let args ← redistArgs64 P.rnd eta split.w0 split.w1 split.plow rs
    let ys ← redistribute64 (P.ord path) (P.dVert path) (P.dCost path) split.plow labels.low labels.high args
    pure (split, rs, some (afterRedist rs ys))
  else pure (split, rs, none)

/-- recursive_bisection.cpp:64-189, a group of processors. -/
def recPar64 (P : ParRecEnv) (eta : ℚ) (maxweight : Int) :
    Nat → List Bool → Interval → Int → List RecProc → Res GroupResult
  | 0, _, _, _, _ => .error .fuel
  | _ + 1, _, _, _, [] => .ok ⟨[], [], []⟩
  | _ + 1, path, labels, weight, [x] => aloneRun64 P maxweight path labels weight x
  | f + 1, path, labels, weight, x :: y :: l =>
    if labels.length > 0 then do
      let (split, rs, next) ← groupSplit64 P eta maxweight path labels weight (x :: y :: l)
      match next with
      | none => pure ⟨rs.map (·.H), [split], []⟩
      | some zs => do
        let a ← recPar64 P eta maxweight f (path ++ [true]) (lowLabels labels) split.w0 (zs.take split.plow)
        let b ← recPar64 P eta maxweight f (path ++ [false]) (highLabels labels) split.w1 (zs.drop split.plow)
        pure ⟨a.Hs ++ b.Hs, split :: a.splits ++ b.splits, a.calls ++ b.calls⟩
    else pure ⟨(x :: y :: l).map (·.H), [], []⟩

/-- recursive_bisection.cpp:26-199 `recursive_bisect` with the lambda metric. `P.bis` and `P.alone` are 64-bit bisections such as
`bisectPar64` and `bisectOne64`. -/
def recursiveBisectPar64 (P : ParRecEnv) (k : Nat) (epsilon eta : ℚ) (Hs : List Hypergraph) (rngs : List Rng) :
    Res GroupResult := do
  let Ws ← globalWeight64 Hs
  let W ← agreed Ws
  let M ← maxWeight64 P.rnd epsilon W k
  recPar64 P eta M (k + 1) [] ⟨0, (k : Int) - 1⟩ W
    ((Hs.zip rngs).map (fun x => { H := x.1, fin := x.1.vertices.length, rng := x.2 }))

end PMondriaan

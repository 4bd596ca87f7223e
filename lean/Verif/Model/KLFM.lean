import Verif.Model.GainBuckets

/-
Model of src/multilevel_bisect/KLFM/KLFM.cpp.
-/

namespace PMondriaan

/-- `std::array<long, 2>`: the weights of the two parts. -/
structure W2 where
  w0 : Int
  w1 : Int
deriving DecidableEq, Repr

/-- `weights[part]`. -/
def W2.get (w : W2) (part : Int) : Res Int :=
  if part = 0 then .ok w.w0 else if part = 1 then .ok w.w1 else .error .ub

/-- `weights[part] += d`. -/
def W2.add (w : W2) (part d : Int) : Res W2 :=
  if part = 0 then .ok { w with w0 := w.w0 + d }
  else if part = 1 then .ok { w with w1 := w.w1 + d } else .error .ub

/-- KLFM.cpp:74-78, 80-104: local variables of `KLFM_pass` during the move loop. -/
structure PassState where
  gs : GainStructure
  w : W2
  cut : Int
  best : Int
  noImp : List Nat
  rng : Rng

/-- KLFM.cpp:81-104: the body of the while loop of `KLFM_pass`. -/
def passBody (max0 max1 : Int) (st : PassState) : Res PassState := do
  let e0 := max0 - st.w.w0
  let e1 := max1 - st.w.w1
  let (part, gs, rng) ← st.gs.partNext e0 e1 st.rng
  let (v, gs, rng) ← gs.next part rng
  match v with
  | none => .error .abort
  | some v => do
    let x ← gs.H.vertexOf v
    let extra ← (W2.mk e0 e1).get (other part)
    if extra - x.weight ≥ 0 then do
      let (g, gs) ← gs.gainNext part
      match g with
      | none => .error .ub
      | some g => do
        let cut := st.cut - g
        let w ← st.w.add part (-x.weight)
        let w ← w.add (other part) x.weight
        let gs ← gs.move v
        if cut > st.best then
          pure { gs, w, cut, best := st.best, noImp := st.noImp ++ [v], rng }
        else
          pure { gs, w, cut, best := cut, noImp := [], rng }
    else do
      let gs ← gs.remove v
      pure { st with gs, rng }

/-- KLFM.cpp:80-104: the while loop, with a bound on the number of iterations. -/
def passLoop (max0 max1 : Int) (maxNoGain : Nat) : Nat → PassState → Res PassState
  | 0, _ => .error .fuel
  | f + 1, st => do
    let (d, gs) ← st.gs.done
    let st := { st with gs }
    if !d ∧ st.noImp.length < maxNoGain then do
      let st ← passBody max0 max1 st
      passLoop max0 max1 maxNoGain f st
    else pure st

/-- KLFM.cpp:107-112: one step of the rollback. -/
def rollbackStep (st : Hypergraph × List Cnt × W2) (v : Nat) : Res (Hypergraph × List Cnt × W2) := do
  let (H, C, w) := st
  let x ← H.vertexOf v
  let w ← w.add x.part (-x.weight)
  let w ← w.add (other x.part) x.weight
  let (H, C) ← H.move v C
  pure (H, C, w)

/-- What `KLFM_pass` and `make_balanced` return or leave behind in their reference arguments. -/
structure PassResult where
  cut : Int
  H : Hypergraph
  C : List Cnt
  w : W2
  rng : Rng

/-- KLFM.cpp:65-115 `KLFM_pass`. `fuel` bounds the iterations of the while loop. -/
def KLFMPass (fuel : Nat) (H : Hypergraph) (C : List Cnt) (cut : Int) (w : W2) (max0 max1 : Int)
    (maxNoGain : Nat) (rng : Rng) : Res PassResult := do
  let gs ← GainStructure.create H C
  let st ← passLoop max0 max1 maxNoGain fuel
    { gs, w, cut, best := cut, noImp := [], rng }
  let (H, C, w) ← st.noImp.foldlM rollbackStep (st.gs.H, st.gs.C, st.w)
  pure { cut := st.best, H, C, w, rng := st.rng }

/-- KLFM.cpp:131-142: the while loop of `make_balanced`. -/
def balanceLoop (part : Int) (maxw : W2) : Nat → GainStructure × W2 × Int × Rng →
    Res (GainStructure × W2 × Int × Rng)
  | 0, _ => .error .fuel
  | f + 1, (gs, w, cut, rng) => do
    let wp ← w.get part
    let mp ← maxw.get part
    if wp > mp then do
      let (d, gs) ← gs.bucketDone part
      if d then pure (gs, w, cut, rng)
      else do
        let (v, gs, rng) ← gs.next part rng
        match v with
        | none => .error .abort
        | some v => do
          let x ← gs.H.vertexOf v
          let wo ← w.get (other part)
          let mo ← maxw.get (other part)
          if wo + x.weight ≤ mo then do
            let (g, gs) ← gs.gainNext part
            match g with
            | none => .error .ub
            | some g => do
              let w ← w.add part (-x.weight)
              let w ← w.add (other part) x.weight
              let gs ← gs.move v
              balanceLoop part maxw f (gs, w, cut - g, rng)
          else do
            let gs ← gs.remove v
            balanceLoop part maxw f (gs, w, cut, rng)
    else pure (gs, w, cut, rng)

/-- KLFM.cpp:117-144 `make_balanced`. -/
def makeBalanced (fuel : Nat) (H : Hypergraph) (C : List Cnt) (cut : Int) (w : W2)
    (max0 max1 : Int) (rng : Rng) : Res PassResult := do
  let gs ← GainStructure.create H C
  let part : Int := if w.w1 > max1 then 1 else 0
  let (gs, w, cut, rng) ← balanceLoop part ⟨max0, max1⟩ fuel (gs, w, cut, rng)
  pure { cut, H := gs.H, C := gs.C, w, rng }

/-- KLFM.cpp:49-58: the loop over passes (at most `KLFM_max_passes`, here the first argument). -/
def klfmLoop (fuel : Nat) (max0 max1 : Int) (maxNoGain : Nat) : Nat → PassResult → Res PassResult
  | 0, p => pure p
  | k + 1, p => do
    let q ← KLFMPass fuel p.H p.C p.cut p.w max0 max1 maxNoGain p.rng
    if q.cut < p.cut then klfmLoop fuel max0 max1 maxNoGain k q
    else pure { q with cut := p.cut }

/-- include/options.hpp:11-24 `struct options`. -/
structure Options where
  sampleSize : Nat
  maxClustersize : Nat
  lpMaxIterations : Nat
  coarseningNrvertices : Nat
  coarseningMaxrounds : Nat
  klfmMaxPasses : Nat
  klfmMaxNoGainMoves : Nat
  klfmParSendMoves : Nat
  metric : Metric
  samplingLp : Bool
  bisectionRandom : Bool

/-- KLFM.cpp:31-37: the starting value; `none` is `LONG_MAX`. -/
def startCut (H : Hypergraph) (C : List Cnt) : Option Int → Res Int
  | none => cutsizeC H C
  | some c => .ok c

/-- KLFM.cpp:21-60 `KLFM`. `cutSize = none` is the default `LONG_MAX` ("not given").
`fuel` bounds the iterations of each inner while loop. -/
def KLFM (fuel : Nat) (H : Hypergraph) (C : List Cnt) (w : W2) (max0 max1 : Int)
    (opts : Options) (rng : Rng) (cutSize : Option Int) : Res PassResult := do
  let prev ← startCut H C cutSize
  let H ← H.sortVerticesOnPart C
  let p ← runIf (w.w0 > max0 ∨ w.w1 > max1) (makeBalanced fuel H C prev w max0 max1 rng)
    { cut := prev, H, C, w, rng }
  klfmLoop fuel max0 max1 opts.klfmMaxNoGainMoves opts.klfmMaxPasses p

end PMondriaan

import Verif.Model.Coarsen
import Verif.Model.Reduce

/-
Model of the parallel part of src/multilevel_bisect/coarsen.cpp: `coarsen_hypergraph_par`,
`request_matches`, `send_information_matches` and the parallel `contract_hypergraph`.
Processor `s` of `p` is position `s` in the lists.
-/

namespace PMondriaan

/-- A message of `sample_queue`: processor, number of the sample there, and its nets. -/
abbrev SampleMsg := Nat × Nat × List Nat

/-- A message of `request_queue`: sender, number of the sample, proposer, score. -/
structure ReqMsg (F : Type) where
  sender : Nat
  sample : Nat
  proposer : Nat
  score : F

/-- A message of `info_queue`: number of the sample, weight, nets and their costs. -/
structure InfoMsg where
  sample : Nat
  weight : Int
  nets : List Nat
  costs : List Int
deriving DecidableEq, Repr

/-- What is not determined by the source code: scores, shuffle, the comparisons in the sampling,
iteration orders of unordered sets, the two `nth_element`s, and the deliveries. -/
structure CoarseEnv (F : Type) where
  scores : ScoreOps F
  shuf : Shuffle
  accRandom : Nat → Nat → Nat → Bool
  accLp : Nat → Int → Bool
  order : List Nat → List Nat
  nthLocal : Nat → List (Nat × F) → List (Nat × F)
  nthOwner : Nat → List (ReqMsg F) → List (ReqMsg F)
  dSample : Delivery SampleMsg
  dReq : Delivery (ReqMsg F)
  dAcc : Delivery (Nat × Nat)
  dInfo : Delivery InfoMsg
  d1 : Delivery (Nat × Int)
  d2 : Delivery (Nat × Int)
  np : NetPart

/-! ### Sampling -/

/-- coarsen.cpp:34-39. -/
def drawSamples {F : Type} (E : CoarseEnv F) (opts : Options) (H : Hypergraph) (rng : Rng) :
    Res (List Nat × Rng) :=
  if opts.samplingLp then sampleLp E.shuf E.accLp H opts rng
  else sampleRandom E.accRandom H opts.sampleSize rng

/-- coarsen.cpp:42-47: processor `s` sends its samples to all `p` processors. -/
def sampleSends (p s : Nat) (H : Hypergraph) (samples : List Nat) :
    Res (List (Nat × SampleMsg)) := do
  let ls ← samples.zipIdx.mapM (fun x => do
    let v ← H.vertexAt x.1
    pure ((List.range p).map (fun t => (t, (s, x.2, v.nets)))))
  pure ls.flatten

/-! ### request_matches -/

/-- coarsen.cpp:99-102: one pin `u` of a net of scaled cost `c`; the state is `current_ip` and
`changed_indices`. -/
def ipPin {F : Type} (O : ScoreOps F) (H : Hypergraph) (c : F) (st : List F × List Nat) (u : Nat) :
    Res (List F × List Nat) := do
  let i ← H.localId u
  let x ← vget st.1 i
  pure (st.1.set i (O.add x c), setInsert st.2 i)

/-- coarsen.cpp:96-104: one net of the sample. -/
def ipNet {F : Type} (O : ScoreOps F) (H : Hypergraph) (st : List F × List Nat) (e : Nat) :
    Res (List F × List Nat) :=
  if H.isLocalNet e then do
    let n ← H.netOf e
    n.vertices.foldlM (ipPin O H (O.cost n)) st
  else pure st

/-- coarsen.cpp:105-113: one changed index; the state is `current_ip` and `best_ip`. `g` is the
global number of the sample and `d` the number of its nets; `none` is −1. -/
def ipBest {F : Type} (O : ScoreOps F) (H : Hypergraph) (g d : Nat)
    (st : List F × List (F × Option Nat)) (i : Nat) : Res (List F × List (F × Option Nat)) := do
  let v ← H.vertexAt i
  let x ← vget st.1 i
  let b ← vget st.2 i
  let y := O.scale (min v.nets.length d) x
  pure (st.1.set i O.zero, if O.gt y b.1 then st.2.set i (y, some g) else st.2)

/-- coarsen.cpp:95-115: one sample received. -/
def ipMsg {F : Type} (O : ScoreOps F) (order : List Nat → List Nat) (H : Hypergraph) (ss : Nat)
    (st : List F × List (F × Option Nat)) (m : SampleMsg) : Res (List F × List (F × Option Nat)) := do
  let (cur, changed) ← m.2.2.foldlM (ipNet O H) (st.1, [])
  (order changed).foldlM (ipBest O H (m.1 * ss + m.2.1) m.2.2.length) (cur, st.2)

/-- coarsen.cpp:118-120: a local sample does not look for a match. -/
def clearBest {F : Type} (O : ScoreOps F) (best : List (F × Option Nat)) (i : Nat) :
    Res (List (F × Option Nat)) :=
  vset best i (O.zero, none)

/-- coarsen.cpp:125-131: the request of vertex `v`; the state is `requested_matches`. -/
def addRequest {F : Type} (H : Hypergraph) (best : List (F × Option Nat))
    (reqs : List (List (Nat × F))) (v : Vertex) : Res (List (List (Nat × F))) := do
  let i ← H.localId v.id
  let b ← vget best i
  match b.2 with
  | none => pure reqs
  | some g => do
    let l ← vget reqs g
    pure (reqs.set g (l ++ [(v.id, b.1)]))

/-- coarsen.cpp:134-140 with 147-149, and 166-175: the first `maxC` elements after
`nth_element(begin, begin + maxC, end)`. -/
def topC {α : Type} (nth : Nat → List α → List α) (maxC : Nat) (l : List α) : List α :=
  (if l.length > maxC then nth maxC l else l).take maxC

/-- coarsen.cpp:145-154: the requests for the sample with global number `g`. -/
def reqSends {F : Type} (E : CoarseEnv F) (p s ss maxC : Nat) (g : Nat) (l : List (Nat × F)) :
    Res (List (Nat × ReqMsg F)) :=
  (topC E.nthLocal maxC l).mapM (fun x =>
    send p (g / ss) { sender := s, sample := g - g / ss * ss, proposer := x.1, score := x.2 })

/-- coarsen.cpp:82-154: the part of `request_matches` before its first sync, on processor `s`. -/
def requests {F : Type} (E : CoarseEnv F) (opts : Options) (p s : Nat) (H : Hypergraph)
    (samples : List Nat) (msgs : List SampleMsg) : Res (List (Nat × ReqMsg F)) := do
  let n := H.vertices.length
  let (_, best) ← msgs.foldlM (ipMsg E.scores E.order H opts.sampleSize)
    (List.replicate n E.scores.zero, List.replicate n (E.scores.zero, none))
  let best ← samples.foldlM (clearBest E.scores) best
  let reqs ← H.vertices.foldlM (addRequest H best) (List.replicate (p * opts.sampleSize) [])
  let ls ← reqs.zipIdx.mapM (fun x => reqSends E p s opts.sampleSize opts.maxClustersize x.2 x.1)
  pure ls.flatten

/-- coarsen.cpp:160-162: one request received; the state is `matches`. -/
def takeRequest {F : Type} (ms : List (List (ReqMsg F))) (m : ReqMsg F) :
    Res (List (List (ReqMsg F))) := do
  let l ← vget ms m.sample
  vset ms m.sample (l ++ [m])

/-- coarsen.cpp:176-179: one accepted match of sample `i`; the state is `C` and the queue
`accepted_matches`. -/
def acceptMatch {F : Type} (p s ss i : Nat) (st : Contraction × List (Nat × (Nat × Nat)))
    (m : ReqMsg F) : Res (Contraction × List (Nat × (Nat × Nat))) := do
  let C ← st.1.addMatch i m.proposer m.sender
  let o ← send p m.sender (i + s * ss, m.proposer)
  pure (C, st.2 ++ [o])

/-- coarsen.cpp:164-181: the matches of sample `i`. -/
def acceptSample {F : Type} (E : CoarseEnv F) (p s ss maxC : Nat) (ms : List (List (ReqMsg F)))
    (st : Contraction × List (Nat × (Nat × Nat))) (i : Nat) :
    Res (Contraction × List (Nat × (Nat × Nat))) := do
  let l ← vget ms i
  (topC E.nthOwner maxC l).foldlM (acceptMatch p s ss i) st

/-- coarsen.cpp:157-181: `request_matches` between its two syncs, on processor `s` with `k` samples. -/
def accepts {F : Type} (E : CoarseEnv F) (opts : Options) (p s k : Nat) (C : Contraction)
    (msgs : List (ReqMsg F)) : Res (Contraction × List (Nat × (Nat × Nat))) := do
  let ms ← msgs.foldlM takeRequest (List.replicate k [])
  (List.range k).foldlM (acceptSample E p s opts.sampleSize opts.maxClustersize ms) (C, [])

/-! ### send_information_matches -/

/-- The order of pairs used by `std::sort`. -/
def pairLe (a b : Nat × Nat) : Bool := a.1 < b.1 || (a.1 == b.1 && a.2 ≤ b.2)

/-- coarsen.cpp:196-198: `prev_sample`, `total_weight_sample`, `total_nets_sample`; also what has been sent and
`matched`. `none` is −1. -/
structure InfoState where
  prev : Option Nat
  weight : Int
  nets : List Nat
  out : List (Nat × InfoMsg)
  matched : List Bool

/-- coarsen.cpp:202-210 and 223-231: the message about the sample with global number `g`. -/
def infoFlush (order : List Nat → List Nat) (p ss : Nat) (H : Hypergraph) (st : InfoState) (g : Nat) :
    Res (List (Nat × InfoMsg)) := do
  if ss = 0 then .error .ub
  else do
    let costs ← (order st.nets).mapM (fun e => do
      let n ← H.netOf e
      pure n.cost)
    let o ← send p (g / ss)
      { sample := g - g / ss * ss, weight := st.weight, nets := order st.nets, costs := costs }
    pure (st.out ++ [o])

/-- coarsen.cpp:200-213: send the information about the previous sample when a new one begins. -/
def infoNext (order : List Nat → List Nat) (p ss : Nat) (H : Hypergraph) (st : InfoState) (g : Nat) :
    Res InfoState :=
  match st.prev with
  | none => pure st
  | some q =>
    if g ≠ q then do
      let out ← infoFlush order p ss H st q
      pure { st with weight := 0, nets := [], out := out }
    else pure st

/-- coarsen.cpp:199-219: one accepted match. -/
def infoStep (order : List Nat → List Nat) (p ss : Nat) (H : Hypergraph) (st : InfoState)
    (m : Nat × Nat) : Res InfoState := do
  let st ← infoNext order p ss H st m.1
  let i ← H.localId m.2
  let matched ← vset st.matched i true
  let v ← H.vertexAt i
  pure { prev := some m.1, weight := st.weight + v.weight, nets := v.nets.foldl setInsert st.nets,
         out := st.out, matched := matched }

/-- coarsen.cpp:222-232: the message about the last sample. -/
def infoLast (order : List Nat → List Nat) (p ss : Nat) (H : Hypergraph) (st : InfoState) :
    Res (List (Nat × InfoMsg)) :=
  match st.prev with
  | none => pure st.out
  | some q => infoFlush order p ss H st q

/-- coarsen.cpp:189-235 `send_information_matches`: `matched` and the messages. -/
def infoSends (order : List Nat → List Nat) (p ss : Nat) (H : Hypergraph)
    (acc : List (Nat × Nat)) : Res (List Bool × List (Nat × InfoMsg)) := do
  let st ← (acc.mergeSort pairLe).foldlM (infoStep order p ss H)
    { prev := none, weight := 0, nets := [], out := [],
      matched := List.replicate H.vertices.length false }
  let out ← infoLast order p ss H st
  pure (st.matched, out)

/-! ### contract_hypergraph (parallel) -/

/-- coarsen.cpp:260-268: one net `e` of the new vertex `u`; the state is `new_nets`. The map
`net_global_to_local` sends the ids of `new_nets` to their positions, so it is not modelled. -/
def newPin (H : Hypergraph) (u : Nat) (nets : List Net) (e : Nat) : Res (List Net) :=
  if e ∈ nets.map (·.id) then
    pure (nets.map (fun n => if n.id = e then { n with vertices := n.vertices ++ [u] } else n))
  else do
    let n ← H.netOf e
    pure (nets ++ [Net.mk' e [u] n.cost])

/-- coarsen.cpp:251-270: position `i`; the state is `new_vertices` and `new_nets`. -/
def keepVertex (H : Hypergraph) (matched : List Bool) (st : List Vertex × List Net) (i : Nat) :
    Res (List Vertex × List Net) := do
  let b ← vget matched i
  if b then pure st
  else do
    let v ← H.vertexAt i
    let nets ← v.nets.foldlM (newPin H v.id) st.2
    pure (st.1 ++ [newVertex v], nets)

/-- coarsen.cpp:278-285: a net that is only known from a message. -/
def newNet (costs : List Int) (nets : List Net) (x : Nat × Nat) : Res (List Net) :=
  if x.1 ∈ nets.map (·.id) then pure nets
  else do
    let c ← vget costs x.2
    pure (nets ++ [Net.mk' x.1 [] c])

/-- coarsen.cpp:273-274 and 245: `sample_total_weight`, `sample_net_lists` and `new_nets`. -/
structure GrowState where
  weights : List Int
  lists : List (List Nat)
  nets : List Net

/-- coarsen.cpp:275-286: one message. -/
def infoReceive (st : GrowState) (m : InfoMsg) : Res GrowState := do
  let w ← vget st.weights m.sample
  let l ← vget st.lists m.sample
  let nets ← m.nets.zipIdx.foldlM (newNet m.costs) st.nets
  pure { weights := st.weights.set m.sample (w + m.weight),
         lists := st.lists.set m.sample (m.nets.foldl setInsert l), nets := nets }

/-- coarsen.cpp:244-286, on one processor: new vertices, and what is known about the samples. -/
def contractLocal (H : Hypergraph) (samples : List Nat) (matched : List Bool) (msgs : List InfoMsg) :
    Res (List Vertex × GrowState) := do
  let (vs, nets) ← (List.range H.vertices.length).foldlM (keepVertex H matched) ([], [])
  let st ← msgs.foldlM infoReceive
    { weights := List.replicate samples.length 0, lists := List.replicate samples.length [],
      nets := nets }
  pure (vs, st)

/-- coarsen.cpp:294-309: the sample number `x.2`, at position `x.1` of `H`, gets its weight and nets.
As in `contractNet` the vertex is kept apart from `HC` until it is finished. -/
def growSample (order : List Nat → List Nat) (H : Hypergraph) (st : GrowState) (HC : Hypergraph)
    (x : Nat × Nat) : Res Hypergraph := do
  let v0 ← H.vertexAt x.1
  let i ← HC.localId v0.id
  let v ← HC.vertexAt i
  let w ← vget st.weights x.2
  let l ← vget st.lists x.2
  let (HC, v') ← (order l).foldlM contractNet (HC, { v with weight := v.weight + w })
  pure (HC.setVertex i v')

/-- coarsen.cpp:288-309: the new hypergraph; `size` is `new_global_size`. -/
def growAll (order : List Nat → List Nat) (size : Nat) (H : Hypergraph) (samples : List Nat)
    (r : List Vertex × GrowState) : Res Hypergraph :=
  samples.zipIdx.foldlM (growSample order H r.2)
    (Hypergraph.create size H.globalNumberNets r.1 r.2.nets)

/-- One processor between the first sync of `coarsen_hypergraph_par` and the second:
coarsen.cpp:51-55 up to the first sync of `request_matches`. -/
def requestStep {F : Type} (E : CoarseEnv F) (opts : Options) (p : Nat)
    (outs : List (List (Nat × SampleMsg))) (x : (Hypergraph × List Nat) × Nat) :
    Res (Contraction × List (Nat × ReqMsg F)) := do
  let C ← Contraction.addSamples {} x.1.1 x.1.2
  let r ← requests E opts p x.2 x.1.1 x.1.2 (inbox E.dSample outs x.2)
  pure (C, r)

/-- coarsen.cpp:41-68 and 237-315 `coarsen_hypergraph_par`, with all it calls, from the sampling on; `S` are the samples of the
processors. -/
def coarsenFrom {F : Type} (E : CoarseEnv F) (opts : Options) (Hs : List Hypergraph)
    (S : List (List Nat)) : Res (List CProc) := do
  let p := Hs.length
  let outs ← (Hs.zip S).zipIdx.mapM (fun x => sampleSends p x.2 x.1.1 x.1.2)
  let r1 ← (Hs.zip S).zipIdx.mapM (requestStep E opts p outs)
  let r2 ← (r1.zip S).zipIdx.mapM (fun x =>
    accepts E opts p x.2 x.1.2.length x.1.1.1 (inbox E.dReq (r1.map (·.2)) x.2))
  let r3 ← Hs.zipIdx.mapM (fun x =>
    infoSends E.order p opts.sampleSize x.1 (inbox E.dAcc (r2.map (·.2)) x.2))
  let r4 ← ((Hs.zip S).zip r3).zipIdx.mapM (fun x =>
    contractLocal x.1.1.1 x.1.1.2 x.1.2.1 (inbox E.dInfo (r3.map (·.2)) x.2))
  let size := (r4.map (fun r => r.1.length)).foldl (· + ·) 0
  let HCs ← ((Hs.zip S).zip r4).mapM (fun x => growAll E.order size x.1.1 x.1.2 x.2)
  let HCs ← removeFreeNetsPar E.order E.d1 E.d2 E.np HCs 1
  mergeFreePar ((r2.map (·.1)).zip HCs)

/-- coarsen.cpp:25-68 `coarsen_hypergraph_par` on all processors. -/
def coarsenPar {F : Type} (E : CoarseEnv F) (opts : Options) (Hs : List Hypergraph)
    (rngs : List Rng) : Res (List CProc × List Rng) := do
  let ss ← (Hs.zip rngs).mapM (fun x => drawSamples E opts x.1 x.2)
  let cs ← coarsenFrom E opts Hs (ss.map (·.1))
  pure (cs, ss.map (·.2))

end PMondriaan

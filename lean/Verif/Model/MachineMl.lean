import Verif.Model.MachineKLFM
import Verif.Model.Multilevel

/-
The bisection on one processor (bisect.cpp, label_propagation.cpp:87-167, initial_partitioning.cpp, and the sequential
functions of coarsen.cpp, contraction.cpp and uncoarsen.cpp) in 64-bit arithmetic: a sum or difference of weights that
does not fit is undefined behaviour (`long`). The counts of pins, the positions in lists and the numbers of rounds are not
checked, they are bounded by the size of the lists. The costs merged by `simplify_duplicate_nets` are `int` in
Model/Reduce.lean already.
-/

namespace PMondriaan

/-- A `long` that is not `LONG_MAX`, which would be taken for "nothing yet". -/
def longMark (x : Int) : Res Int := if -2 ^ 63 ≤ x ∧ x < 2 ^ 63 - 1 then .ok x else .error .ub

/-! ### bisect_random -/

/-- bisect.cpp:67-76: the vertex at position `i`. -/
def randomStep64 (max0 max1 : Int) (labels : Interval) (s : RState) (i : Nat) : Res RState := do
  let v ← s.H.vertexAt i
  let first : Int := (s.rng.draw.1 % 2 : Nat)
  let x ← long ((if first = 0 then s.w0 else s.w1) + v.weight)
  let part := if x > (if first = 0 then max0 else max1) then other first else first
  let H' ← s.H.setPartAt i (labels.label part)
  let y ← long ((if part = 0 then s.w0 else s.w1) + v.weight)
  pure { H := H', w0 := if part = 0 then y else s.w0, w1 := if part = 0 then s.w1 else y, rng := s.rng.draw.2 }

/-- bisect.cpp:56-79 `bisect_random`. -/
def bisectRandom64 (H : Hypergraph) (max0 max1 : Int) (start fin : Nat) (labels : Interval)
    (rng : Rng) : Res RState :=
  (List.range' start (fin - start)).foldlM (randomStep64 max0 max1 labels)
    { H := H, w0 := 0, w1 := 0, rng := rng }

/-! ### label_propagation_bisect -/

/-- label_propagation.cpp:101-111: the random label of position `i`. -/
def lpbStartStep64 (H : Hypergraph) (s : LPBState) (i : Nat) : Res LPBState := do
  let v ← H.vertexAt i
  let first : Int := (s.rng.draw.1 % 2 : Nat)
  let x ← long (s.room first - v.weight)
  let k := if x < 0 then other first else first
  let L ← vset s.L i k
  let y ← long (s.room k - v.weight)
  let C ← v.nets.foldlM (lpbCount H k 1) s.C
  pure { s with L := L, C := C, r0 := if k = 0 then y else s.r0, r1 := if k = 0 then s.r1 else y,
                rng := s.rng.draw.2 }

/-- label_propagation.cpp:94-111: the random start. -/
def lpbStart64 (H : Hypergraph) (C : List Cnt) (max0 max1 : Int) (rng : Rng) : Res LPBState :=
  (List.range H.vertices.length).foldlM (lpbStartStep64 H)
    { L := List.replicate H.vertices.length 0, C := C, r0 := max0, r1 := max1, rng := rng,
      change := true }

/-- label_propagation.cpp:146-151: the new label; the room of a different label is computed. -/
def lpbChoose64 (s : LPBState) (k w : Int) (m : Int × List Nat) : Res (Int × Rng) :=
  if m.1 = -1 then pure (k, s.rng)
  else if m.2.length = 0 then .error .ub
  else do
    let b ← vget m.2 (s.rng.draw.1 % m.2.length)
    if (b : Int) ≠ k then do
      let x ← long (s.room b - w)
      pure (if x ≥ 0 then (b : Int) else k, s.rng.draw.2)
    else pure (k, s.rng.draw.2)

/-- label_propagation.cpp:151-153: the rooms after a move from label `k` to the other one. -/
def lpbMove64 (s : LPBState) (k w : Int) : Res (Int × Int) :=
  if k = 0 then do
    let x ← long (s.r0 + w)
    let y ← long (s.r1 - w)
    pure (x, y)
  else do
    let y ← long (s.r1 + w)
    let x ← long (s.r0 - w)
    pure (x, y)

/-- label_propagation.cpp:122-162: position `i` during a sweep. -/
def lpbSweepStep64 (H : Hypergraph) (s : LPBState) (i : Nat) : Res LPBState := do
  let v ← H.vertexAt i
  let k ← vget s.L i
  let g ← v.nets.foldlM (lpbGather H k) (s.C, 0, 0)
  let c ← lpbChoose64 s k v.weight (argmaxLoop [g.2.1, g.2.2] 0 (-1) [])
  let C ← v.nets.foldlM (lpbCount H c.1 1) g.1
  if c.1 ≠ k then do
    let r ← lpbMove64 s k v.weight
    pure { L := s.L.set i c.1, C := C, r0 := r.1, r1 := r.2, rng := c.2, change := true }
  else pure { s with C := C, rng := c.2 }

/-- label_propagation.cpp:113-164: the sweeps. -/
def lpbSweeps64 (shuf : Shuffle) (H : Hypergraph) : Nat → LPBState → List Nat → Res LPBState
  | 0, s, _ => pure s
  | k + 1, s, idx =>
    if s.change then do
      let (idx', rng) := shuf s.rng idx
      let s' ← idx'.foldlM (lpbSweepStep64 H) { s with rng := rng, change := false }
      lpbSweeps64 shuf H k s' idx'
    else pure s

/-- label_propagation.cpp:87-167 `label_propagation_bisect`. -/
def lpBisect64 (shuf : Shuffle) (H : Hypergraph) (C : List Cnt) (maxIter : Nat) (max0 max1 : Int)
    (rng : Rng) : Res LPBState := do
  let s ← lpbStart64 H C max0 max1 rng
  lpbSweeps64 shuf H maxIter s (List.range H.vertices.length)

/-! ### initial_partitioning -/

/-- hypergraph.cpp:39-47 `weight_part`. -/
def weightPart64 (H : Hypergraph) (part : Int) : Res Int :=
  H.vertices.foldlM (fun t v => if v.part = part then long (t + v.weight) else pure t) 0

/-- initial_partitioning.cpp:38-50: one round up to and including `KLFM`. -/
def ipRound64 (fuel : Nat) (shuf : Shuffle) (opts : Options) (max0 max1 : Int) (H : Hypergraph)
    (rng : Rng) : Res PassResult := do
  let s ← lpBisect64 shuf H (List.replicate H.nets.length ⟨0, 0⟩) opts.lpMaxIterations max0 max1 rng
  let H1 ← setPartsFrom H s.L
  let w0 ← weightPart64 H1 0
  let w1 ← weightPart64 H1 1
  KLFM64 fuel H1 s.C ⟨w0, w1⟩ max0 max1 opts s.rng none

/-- initial_partitioning.cpp:35-65: the body of the loop over the rounds. -/
def ipStep64 (fuel : Nat) (shuf : Shuffle) (opts : Options) (max0 max1 : Int) (s : IPState)
    (_ : Nat) : Res IPState := do
  let r ← ipRound64 fuel shuf opts max0 max1 s.H s.rng
  let w0 ← weightPart64 r.H 0
  let w1 ← weightPart64 r.H 1
  let x0 ← long (w0 - max0)
  let x1 ← long (w1 - max1)
  let imb ← longMark (max x0 x1)
  let cut ← longMark r.cut
  if ipAccept cut imb s.cut s.imb then
    pure { H := r.H, rng := r.rng, L := r.H.vertices.map (·.part), cut := some cut, imb := some imb }
  else pure { s with H := r.H, rng := r.rng }

/-- initial_partitioning.cpp:21-72 `initial_partitioning`. -/
def initialPartitioning64 (fuel : Nat) (shuf : Shuffle) (H : Hypergraph) (max0 max1 : Int)
    (opts : Options) (rng : Rng) : Res (Hypergraph × Option Int × Rng) := do
  let s ← (List.range 10).foldlM (ipStep64 fuel shuf opts max0 max1)
    { H := H, rng := rng, L := List.replicate H.vertices.length 0, cut := none, imb := none }
  let H' ← setPartsFrom s.H s.L
  pure (H', s.cut, s.rng)

/-! ### Coarsening -/

namespace Contraction

/-- contraction.cpp:122-127: one vertex of the collecting loop. -/
def collectFree64 (s : List (Nat × Int) × Int) (v : Vertex) : Res (List (Nat × Int) × Int) :=
  if v.nets.length = 0 then do
    let t ← long (s.2 + v.weight)
    pure (s.1 ++ [(v.id, v.weight)], t)
  else pure s

/-- contraction.cpp:120-132 `remove_free_vertices_`. -/
def removeFreeVertices64 (C : Contraction) (H : Hypergraph) : Res (Contraction × Hypergraph × Int) := do
  let (free, total) ← H.vertices.foldlM collectFree64 (C.free, 0)
  let H' ← free.foldlM (fun (H : Hypergraph) f => H.removeFreeVertex f.1) H
  pure ({ C with free := free }, H', total)

/-- contraction.cpp:22-27 `merge_free_vertices` (sequential). -/
def mergeFree64 (C : Contraction) (H : Hypergraph) : Res (Contraction × Hypergraph) := do
  let (C', H', total) ← C.removeFreeVertices64 H
  pure ({ C' with localFree := total, globalFree := total },
        { H' with globalSize := H'.vertices.length })

end Contraction

/-- coarsen.cpp:418-427: one match of the sample at position `i`. -/
def contractMatch64 (H : Hypergraph) (rank i : Nat) (s : Hypergraph × Contraction × Vertex)
    (m : Nat) : Res (Hypergraph × Contraction × Vertex) := do
  let C ← s.2.1.addMatch i m rank
  let u ← H.vertexOf m
  let x ← long (s.2.2.weight + u.weight)
  let (HC, v) ← u.nets.foldlM contractNet (s.1, { s.2.2 with weight := x })
  pure (HC, C, v)

/-- coarsen.cpp:402-429: the body of the loop for the new vertex at position `i`. -/
def contractVertex64 (H : Hypergraph) (matchesL : List (List Nat)) (rank : Nat)
    (s : Hypergraph × Contraction) (i : Nat) : Res (Hypergraph × Contraction) := do
  let v ← s.1.vertexAt i
  let l ← H.localId v.id
  let HC ← v.nets.foldlM (fun HC e => addPinOf HC v.id e) s.1
  let ms ← vget matchesL l
  let (HC, C, v') ← ms.foldlM (contractMatch64 H rank i) (HC, s.2.addSample v.id, v)
  pure (HC.setVertex i v', C)

/-- coarsen.cpp:387-434 `contract_hypergraph` (sequential). -/
def contractSeq64 (order : List Nat → List Nat) (rank : Nat) (H : Hypergraph) (C : Contraction)
    (matchesL : List (List Nat)) (newV : List Vertex) : Res (Hypergraph × Contraction) := do
  let HC0 := Hypergraph.create newV.length H.globalNumberNets newV
    (H.nets.map (fun n => Net.mk' n.id [] n.cost))
  let (HC1, C1) ← (List.range newV.length).foldlM (contractVertex64 H matchesL rank) (HC0, C)
  let HC2 ← removeFreeNets order HC1 1
  let (C2, HC3) ← C1.mergeFree64 HC2
  pure (HC3, C2)

/-- coarsen.cpp:321-379 `coarsen_hypergraph_seq`. -/
def coarsenSeq64 {F : Type} (O : ScoreOps F) (shuf : Shuffle) (order : List Nat → List Nat)
    (rank : Nat) (H : Hypergraph) (C : Contraction) (opts : Options) (rng : Rng) :
    Res (Hypergraph × Contraction × Rng) := do
  let n := H.vertices.length
  let (indices, rng) := shuf rng (List.range n)
  let s ← indices.foldlM (matchStep O H opts.maxClustersize)
    { matchesL := List.replicate n [], matched := List.replicate n false, newV := [],
      ip := List.replicate n O.zero }
  let (HC, C) ← contractSeq64 order rank H C s.matchesL s.newV
  pure (HC, C, rng)

/-! ### Uncoarsening and the levels -/

/-- uncoarsen.cpp:25-39 `uncoarsen_hypergraph_seq`. -/
def uncoarsenSeq64 (fuel : Nat) (srt : List (Nat × Int) → List (Nat × Int)) (HC H : Hypergraph)
    (C : Contraction) (opts : Options) (max0 max1 : Int) (rng : Rng) : Res PassResult := do
  let a ← C.assignFree64 srt HC max0 max1 rng
  let H1 ← uncoarsen a.H H C
  let counts ← initCounts H1
  KLFM64 fuel H1 counts ⟨a.w0, a.w1⟩ max0 max1 opts a.rng none

/-- bisect.cpp:190-264, from a given level on. -/
def mlLevel64 {F : Type} (E : Env F) (rank : Nat) (opts : Options) (max0 max1 : Int) :
    Nat → Hypergraph → Rng → Res (Hypergraph × Option Int × Rng)
  | 0, H, rng => initialPartitioning64 E.fuel E.shuf H max0 max1 opts rng
  | n + 1, H, rng =>
    if H.globalSize > opts.coarseningNrvertices then do
      let H1 ← simplifyDuplicateNets H
      let (HC, C, rng) ← coarsenSeq64 E.scores E.shuf E.order rank H1 {} opts rng
      let (HC', _, rng) ← mlLevel64 E rank opts max0 max1 n HC rng
      let r ← uncoarsenSeq64 E.fuel E.srt HC' H1 C opts max0 max1 rng
      let H2 ← r.H.resetDuplicateNets
      pure (H2, some r.cut, r.rng)
    else initialPartitioning64 E.fuel E.shuf H max0 max1 opts rng

/-- bisect.cpp:83-333 `bisect_multilevel` on one processor. -/
def bisectMultilevel64 {F : Type} (E : Env F) (H : Hypergraph) (opts : Options) (max0 max1 : Int)
    (start fin : Nat) (labels : Interval) (rng : Rng) : Res RState := do
  let Rs ← createNewPar E.orderNets E.d1 E.d2 E.np [{ H := H, s := start, e := fin }]
  let R ← vget Rs 0
  let H0 ← R.copy
  let (C, H1) ← Contraction.mergeFree64 {} H0
  let (H2, _, rng) ← mlLevel64 E 0 opts max0 max1 opts.coarseningMaxrounds H1 rng
  let a ← C.assignFree64 E.srt H2 max0 max1 rng
  let H' ← a.H.vertices.foldlM (copyLabel labels) H
  let w0 ← weightPart64 a.H 0
  let w1 ← weightPart64 a.H 1
  pure { H := H', w0 := w0, w1 := w1, rng := a.rng }

/-- bisect.cpp:27-51 `bisect` on one processor. -/
def bisectOne64 {F : Type} (E : Env F) (H : Hypergraph) (opts : Options) (max0 max1 : Int)
    (start fin : Nat) (labels : Interval) (rng : Rng) : Res RState :=
  if opts.bisectionRandom then bisectRandom64 H max0 max1 start fin labels rng
  else bisectMultilevel64 E H opts max0 max1 start fin labels rng

end PMondriaan

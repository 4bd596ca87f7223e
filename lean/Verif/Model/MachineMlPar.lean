import Verif.Model.MachineKLFMPar
import Verif.Model.MachineMain
import Verif.Model.RecBisectPar

/-
The bisection on several processors (bisect.cpp and the parallel functions of coarsen.cpp, contraction.cpp and
uncoarsen.cpp) in 64-bit arithmetic: a sum or difference of weights that does not fit is undefined behaviour
(`long`). Ids, positions, sizes and scores are not checked.
-/

namespace PMondriaan

open Contraction

/-! ### Coarsening -/

/-- contraction.cpp:15-20 `merge_free_vertices(world, H)` on all processors. -/
def mergeFreePar64 (S : List CProc) : Res (List CProc) := do
  let rs ← S.mapM (fun s => s.1.removeFreeVertices64 s.2)
  let size := (rs.map (fun r => r.2.1.vertices.length)).foldl (· + ·) 0
  let total ← (rs.map (fun r => r.2.2)).foldlM (fun t x => long (t + x)) 0
  pure (rs.map (fun r => ({ r.1 with localFree := r.2.2, globalFree := total },
                          { r.2.1 with globalSize := size })))

/-- coarsen.cpp:199-219: one accepted match. -/
def infoStep64 (order : List Nat → List Nat) (p ss : Nat) (H : Hypergraph) (st : InfoState)
    (m : Nat × Nat) : Res InfoState := do
  let st ← infoNext order p ss H st m.1
  let i ← H.localId m.2
  let matched ← vset st.matched i true
  let v ← H.vertexAt i
  let x ← long (st.weight + v.weight)
  pure { prev := some m.1, weight := x, nets := v.nets.foldl setInsert st.nets, out := st.out, matched := matched }

/-- coarsen.cpp:189-235 `send_information_matches`. -/
def infoSends64 (order : List Nat → List Nat) (p ss : Nat) (H : Hypergraph)
    (acc : List (Nat × Nat)) : Res (List Bool × List (Nat × InfoMsg)) := do
  let st ← (acc.mergeSort pairLe).foldlM (infoStep64 order p ss H)
    { prev := none, weight := 0, nets := [], out := [],
      matched := List.replicate H.vertices.length false }
  let out ← infoLast order p ss H st
  pure (st.matched, out)

/-- coarsen.cpp:275-286: one message. -/
def infoReceive64 (st : GrowState) (m : InfoMsg) : Res GrowState := do
  let w ← vget st.weights m.sample
  let x ← long (w + m.weight)
  let l ← vget st.lists m.sample
  let nets ← m.nets.zipIdx.foldlM (newNet m.costs) st.nets
  pure { weights := st.weights.set m.sample x, lists := st.lists.set m.sample (m.nets.foldl setInsert l), nets := nets }

/-- coarsen.cpp:244-286, on one processor: new vertices, and what is known about the samples. -/
def contractLocal64 (H : Hypergraph) (samples : List Nat) (matched : List Bool) (msgs : List InfoMsg) :
    Res (List Vertex × GrowState) := do
  let (vs, nets) ← (List.range H.vertices.length).foldlM (keepVertex H matched) ([], [])
  let st ← msgs.foldlM infoReceive64
    { weights := List.replicate samples.length 0, lists := List.replicate samples.length [],
      nets := nets }
  pure (vs, st)

/-- coarsen.cpp:294-309: the sample number `x.2`, at position `x.1` of `H`, gets its weight and nets. -/
def growSample64 (order : List Nat → List Nat) (H : Hypergraph) (st : GrowState) (HC : Hypergraph)
    (x : Nat × Nat) : Res Hypergraph := do
  let v0 ← H.vertexAt x.1
  let i ← HC.localId v0.id
  let v ← HC.vertexAt i
  let w ← vget st.weights x.2
  let y ← long (v.weight + w)
  let l ← vget st.lists x.2
  let (HC, v') ← (order l).foldlM contractNet (HC, { v with weight := y })
  pure (HC.setVertex i v')

/-- coarsen.cpp:288-309: the new hypergraph; `size` is `new_global_size`. -/
def growAll64 (order : List Nat → List Nat) (size : Nat) (H : Hypergraph) (samples : List Nat)
    (r : List Vertex × GrowState) : Res Hypergraph :=
  samples.zipIdx.foldlM (growSample64 order H r.2)
    (Hypergraph.create size H.globalNumberNets r.1 r.2.nets)

/-- coarsen.cpp:41-68 and 237-315 `coarsen_hypergraph_par`, with all it calls, from the sampling on; `S` are the
samples of the processors. -/
def coarsenFrom64 {F : Type} (E : CoarseEnv F) (opts : Options) (Hs : List Hypergraph)
    (S : List (List Nat)) : Res (List CProc) := do
  let p := Hs.length
  let outs ← (Hs.zip S).zipIdx.mapM (fun x => sampleSends p x.2 x.1.1 x.1.2)
  let r1 ← (Hs.zip S).zipIdx.mapM (requestStep E opts p outs)
  let r2 ← (r1.zip S).zipIdx.mapM (fun x =>
    accepts E opts p x.2 x.1.2.length x.1.1.1 (inbox E.dReq (r1.map (·.2)) x.2))
  let r3 ← Hs.zipIdx.mapM (fun x =>
    infoSends64 E.order p opts.sampleSize x.1 (inbox E.dAcc (r2.map (·.2)) x.2))
  let r4 ← ((Hs.zip S).zip r3).zipIdx.mapM (fun x =>
    contractLocal64 x.1.1.1 x.1.1.2 x.1.2.1 (inbox E.dInfo (r3.map (·.2)) x.2))
  let size := (r4.map (fun r => r.1.length)).foldl (· + ·) 0
  let HCs ← ((Hs.zip S).zip r4).mapM (fun x => growAll64 E.order size x.1.1 x.1.2 x.2)
  let HCs ← removeFreeNetsPar E.order E.d1 E.d2 E.np HCs 1
  mergeFreePar64 ((r2.map (·.1)).zip HCs)

/-- coarsen.cpp:25-68 `coarsen_hypergraph_par` on all processors. -/
def coarsenPar64 {F : Type} (E : CoarseEnv F) (opts : Options) (Hs : List Hypergraph)
    (rngs : List Rng) : Res (List CProc × List Rng) := do
  let ss ← (Hs.zip rngs).mapM (fun x => drawSamples E opts x.1 x.2)
  let cs ← coarsenFrom64 E opts Hs (ss.map (·.1))
  pure (cs, ss.map (·.2))

/-! ### Uncoarsening -/

/-- uncoarsen.cpp:46-61 `uncoarsen_hypergraph_par` on all processors. -/
def uncoarsenStepPar64 (E : UncoarseEnv) (opts : Options) (max0 max1 : Int) (cut : Option Int)
    (S : List CProc) (Hs : List Hypergraph) (rngs : List Rng) : Res (List ParResult) := do
  let as ← assignFreePar64 E.srt S max0 max1 (rngAt rngs)
  let H1 ← uncoarsenPar E.dPart ((S.map (·.1)).zip (as.map (·.H))) Hs
  let counts ← initCountsPar E.dCount E.refine.np H1
  KLFMPar64 E.rounds E.fuel E.refine (refineArgs H1 counts as) max0 max1 opts cut

/-! ### The coarsest level -/

/-- bisect.cpp:273-278 `cut_size`. The weight of part 1 is only computed when part 0 is not too heavy; a cut of
`LONG_MAX` would be taken for "too heavy". -/
def cutSize64 (max0 max1 : Int) (G : Hypergraph) (cut : Option Int) : Res (Option Int) := do
  match cut with
  | none => pure ()
  | some c => do
    let _ ← longMark c
    pure ()
  let w0 ← weightPart64 G 0
  if w0 > max0 then pure none
  else do
    let w1 ← weightPart64 G 1
    if w1 > max1 then pure none else pure cut

/-- bisect.cpp:142-301: the coarsest level. `n` is `max_rounds - nc_tot`. -/
def initialPar64 {F : Type} (E : ParBisectEnv F) (opts : Options) (max0 max1 : Int) (n : Nat)
    (Hs : List Hypergraph) (rngs : List Rng) : Res (List (Hypergraph × Option Int × Rng)) := do
  let Gs ← replicateAll E.dVert E.dCost Hs
  let Rs ← Gs.zipIdx.mapM (fun x => mlLevel64 (E.seq x.2) x.2 opts max0 max1 n x.1 (rngAt rngs x.2))
  let _ ← Rs.mapM (fun r => cutSize64 max0 max1 r.1 r.2.1)
  let Bs ← chooseBest E.dLabel E.dCut max0 max1 (Rs.map (fun r => (r.1, r.2.1))) Hs
  pure ((Bs.zip Rs).map (fun x => (x.1.1, x.1.2, x.2.2.2)))

/-! ### All levels -/

/-- bisect.cpp:119-323 from a given level on, on all processors. -/
def mlPar64 {F : Type} (E : ParBisectEnv F) (opts : Options) (max0 max1 : Int) :
    Nat → Nat → List Bool → List Hypergraph → List Rng → Res (List (Hypergraph × Option Int × Rng))
  | 0, _, gos, Hs, rngs => do
    let _ ← agreed ((Hs.zip gos).map (fun x => goesOn opts Hs.length 0 x.1 x.2))
    initialPar64 E opts max0 max1 0 Hs rngs
  | n + 1, level, gos, Hs, rngs => do
    let go ← agreed ((Hs.zip gos).map (fun x => goesOn opts Hs.length (n + 1) x.1 x.2))
    if go then do
      let (R, rngs) ← coarsenPar64 (E.coarse level) opts Hs rngs
      let gos := (Hs.zip R).map (fun x => E.ratio x.1.globalSize x.2.2.globalSize)
      let L ← mlPar64 E opts max0 max1 n (level + 1) gos (R.map (·.2)) rngs
      let cut ← agreed (L.map (fun q => q.2.1))
      let ps ← uncoarsenStepPar64 (E.uncoarse level) opts max0 max1 cut
        ((R.map (·.1)).zip (L.map (·.1))) Hs (L.map (fun q => q.2.2))
      pure (ps.map (fun q => (q.H, some q.cut, q.rng)))
    else initialPar64 E opts max0 max1 (n + 1) Hs rngs

/-- bisect.cpp:324-341 on one processor: the labels and the two values returned. -/
def finishOne64 (labels : Interval) (x : RangeOf × AState) : Res RState := do
  let H ← x.2.H.vertices.foldlM (copyLabel labels) x.1.H
  let w0 ← weightPart64 x.2.H 0
  let w1 ← weightPart64 x.2.H 1
  pure { H := H, w0 := w0, w1 := w1, rng := x.2.rng }

/-- bisect.cpp:83-341 `bisect_multilevel` on more than one processor. -/
def bisectMultilevelPar64 {F : Type} (E : ParBisectEnv F) (opts : Options) (max0 max1 : Int)
    (xs : List RangeOf) (labels : Interval) (rngs : List Rng) : Res (List RState) := do
  let Rs ← createNewPar E.orderNets E.d1 E.d2 E.np xs
  let H0 ← Rs.mapM (fun R => R.copy)
  let M ← mergeFreePar64 (H0.map (fun H => (({} : Contraction), H)))
  let L ← mlPar64 E opts max0 max1 opts.coarseningMaxrounds 0 (M.map (fun _ => true)) (M.map (·.2)) rngs
  let as ← assignFreePar64 E.srt ((M.map (·.1)).zip (L.map (·.1))) max0 max1 (rngAt (L.map (fun q => q.2.2)))
  (xs.zip as).mapM (finishOne64 labels)

/-- bisect.cpp:27-51 `bisect` on more than one processor. -/
def bisectPar64 {F : Type} (E : ParBisectEnv F) (opts : Options) : ParBisector := fun xs max0 max1 labels rngs =>
  if opts.bisectionRandom then
    (xs.zip rngs).mapM (fun x =>
      bisectRandom64 x.1.H (max0.tdiv xs.length) (max1.tdiv xs.length) x.1.s x.1.e labels x.2)
  else bisectMultilevelPar64 E opts max0 max1 xs labels rngs

end PMondriaan

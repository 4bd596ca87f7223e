import Verif.Model.Multilevel
import Verif.Model.UncoarsenPar

/-
Model of `bisect_multilevel` (src/bisect.cpp) for several processors.
-/

namespace PMondriaan

/-! ### The coarse hypergraph is copied to all processors -/

/-- bisect.cpp:145-150: the targets of processor `s`. -/
def others (p s : Nat) : List Nat := List.range s ++ List.range' (s + 1) (p - (s + 1))

/-- A message of `vertex_queue`: id, weight and nets. -/
abbrev VertMsg := Nat × Int × List Nat

/-- bisect.cpp:144-151. -/
def vertSends (p s : Nat) (H : Hypergraph) : List (Nat × VertMsg) :=
  H.vertices.flatMap (fun v => (others p s).map (fun t => (t, (v.id, v.weight, v.nets))))

/-- bisect.cpp:154-161. -/
def costSends (p s : Nat) (H : Hypergraph) : List (Nat × (Nat × Int)) :=
  H.nets.flatMap (fun n => (others p s).map (fun t => (t, (n.id, n.cost))))

/-- bisect.cpp:176-179: one received vertex; `vertices().back()` of an empty vector is undefined. -/
def replReceive (G : Hypergraph) (m : VertMsg) : Res Hypergraph :=
  let G1 := G.addVertex m.1 m.2.2 m.2.1
  match G1.vertices.getLast? with
  | some v => G1.addToNets v
  | none => .error .ub

/-- bisect.cpp:162 (the copy constructor) and 173-179. -/
def replicateOne (H : Hypergraph) (costs : List (Nat × Int)) (verts : List VertMsg) : Res Hypergraph := do
  let G ← H.copy
  verts.foldlM replReceive (costs.foldl (fun G m => G.addNet m.1 [] m.2) G)

/-- bisect.cpp:142-179 on all processors. -/
def replicateAll (dV : Delivery VertMsg) (dN : Delivery (Nat × Int)) (Hs : List Hypergraph) :
    Res (List Hypergraph) :=
  let vouts := Hs.zipIdx.map (fun x => vertSends Hs.length x.2 x.1)
  let nouts := Hs.zipIdx.map (fun x => costSends Hs.length x.2 x.1)
  Hs.zipIdx.mapM (fun x => replicateOne x.1 (inbox dN nouts x.2) (inbox dV vouts x.2))

/-! ### The best of the bisections -/

/-- `std::numeric_limits<long>::max()`. -/
def longMax : Int := 9223372036854775807

/-- bisect.cpp:273-278 `cut_size`; `none` is `LONG_MAX`. -/
def cutSize (max0 max1 : Int) (G : Hypergraph) (cut : Option Int) : Option Int :=
  if G.weightPart 0 > max0 ∨ G.weightPart 1 > max1 then none else cut

/-- bisect.cpp:285-289: the labels go to all `p` processors. -/
def labelSends (p : Nat) (G : Hypergraph) : List (Nat × (Nat × Int)) :=
  G.vertices.flatMap (fun v => (List.range p).map (fun t => (t, (v.id, v.part))))

/-- bisect.cpp:295-299: one received label. -/
def labelReceive (H : Hypergraph) (m : Nat × Int) : Res Hypergraph :=
  if H.isLocal m.1 then H.setPartOf m.1 m.2 else pure H

/-- bisect.cpp:271-301 on all processors: `Gs` are the bisected copies with their cuts, `Hs` the local
hypergraphs. `var.broadcast` puts the value on every processor, also the own one. -/
def chooseBest (dL : Delivery (Nat × Int)) (dC : Delivery (Option Int)) (max0 max1 : Int)
    (Gs : List (Hypergraph × Option Int)) (Hs : List Hypergraph) : Res (List (Hypergraph × Option Int)) := do
  let p := Hs.length
  let sizes := Gs.map (fun g => cutSize max0 max1 g.1 g.2)
  let bests ← ownerMin (sizes.map (fun c => c.getD longMax))
  let louts := (Gs.zip bests).zipIdx.map (fun x => if x.1.2 = x.2 then labelSends p x.1.1.1 else [])
  let couts := (Gs.zip bests).zipIdx.map (fun x =>
    if x.1.2 = x.2 then (List.range p).map (fun t => (t, x.1.1.2)) else [])
  (Hs.zip sizes).zipIdx.mapM (fun x => do
    let H ← (inbox dL louts x.2).foldlM labelReceive x.1.1
    pure (H, (inbox dC couts x.2).foldl (fun _ c => c) x.1.2))

/-! ### All levels -/

/-- What is undetermined in the parallel multilevel bisection. `coarse` and `uncoarse` are indexed by the
level, `seq` by the processor; `ratio old new` is `ratio > 0.05`. -/
structure ParBisectEnv (F : Type) where
  coarse : Nat → CoarseEnv F
  uncoarse : Nat → UncoarseEnv
  seq : Nat → Env F
  dVert : Delivery VertMsg
  dCost : Delivery (Nat × Int)
  dLabel : Delivery (Nat × Int)
  dCut : Delivery (Option Int)
  ratio : Nat → Nat → Bool
  orderNets : List Nat → List Nat
  d1 : Delivery (Nat × Int)
  d2 : Delivery (Nat × Int)
  np : NetPart
  srt : List (Nat × Int) → List (Nat × Int)

/-- A value on which the processors agree. When they do not (which cannot happen by `C59`) they would take
different branches; the model then stops. -/
def agreed {α : Type} [DecidableEq α] : List α → Res α
  | [] => .error .abort
  | a :: l => if l.all (fun b => b = a) then .ok a else .error .abort

/-- bisect.cpp:115-121: does the processor go on with the parallel coarsening? `n` is
`coarsening_maxrounds - nc_par`. -/
def goesOn (opts : Options) (p n : Nat) (H : Hypergraph) (ratio : Bool) : Bool :=
  decide (H.globalSize > max opts.coarseningNrvertices (p * opts.sampleSize * 3)) && decide (0 < n) && ratio

/-- bisect.cpp:142-301: the coarsest level. `n` is `max_rounds - nc_tot`. -/
def initialPar {F : Type} (E : ParBisectEnv F) (opts : Options) (max0 max1 : Int) (n : Nat)
    (Hs : List Hypergraph) (rngs : List Rng) : Res (List (Hypergraph × Option Int × Rng)) := do
  let Gs ← replicateAll E.dVert E.dCost Hs
  let Rs ← Gs.zipIdx.mapM (fun x => mlLevel (E.seq x.2) x.2 opts max0 max1 n x.1 (rngAt rngs x.2))
  let Bs ← chooseBest E.dLabel E.dCut max0 max1 (Rs.map (fun r => (r.1, r.2.1))) Hs
  pure ((Bs.zip Rs).map (fun x => (x.1.1, x.1.2, x.2.2.2)))

/-- bisect.cpp:119-323 from a given level on: the remaining iterations of the parallel coarsening loop, the
coarsest level, and the corresponding iterations of the parallel uncoarsening loop, on all processors. -/
def mlPar {F : Type} (E : ParBisectEnv F) (opts : Options) (max0 max1 : Int) :
    Nat → Nat → List Bool → List Hypergraph → List Rng → Res (List (Hypergraph × Option Int × Rng))
  | 0, _, gos, Hs, rngs => do
    let _ ← agreed ((Hs.zip gos).map (fun x => goesOn opts Hs.length 0 x.1 x.2))
    initialPar E opts max0 max1 0 Hs rngs
  | n + 1, level, gos, Hs, rngs => do
    let go ← agreed ((Hs.zip gos).map (fun x => goesOn opts Hs.length (n + 1) x.1 x.2))
    if go then do
      let (R, rngs) ← coarsenPar (E.coarse level) opts Hs rngs
      let gos := (Hs.zip R).map (fun x => E.ratio x.1.globalSize x.2.2.globalSize)
      let L ← mlPar E opts max0 max1 n (level + 1) gos (R.map (·.2)) rngs
      let cut ← agreed (L.map (fun q => q.2.1))
      let ps ← uncoarsenStepPar (E.uncoarse level) opts max0 max1 cut
        ((R.map (·.1)).zip (L.map (·.1))) Hs (L.map (fun q => q.2.2))
      pure (ps.map (fun q => (q.H, some q.cut, q.rng)))
    else initialPar E opts max0 max1 (n + 1) Hs rngs

/-- bisect.cpp:83-341 `bisect_multilevel` on more than one processor: for each processor the new
hypergraph, the two values returned, and the generator. -/
def bisectMultilevelPar {F : Type} (E : ParBisectEnv F) (opts : Options) (max0 max1 : Int)
    (xs : List RangeOf) (labels : Interval) (rngs : List Rng) : Res (List RState) := do
  let Rs ← createNewPar E.orderNets E.d1 E.d2 E.np xs
  let H0 ← Rs.mapM (fun R => R.copy)
  let M ← mergeFreePar (H0.map (fun H => (({} : Contraction), H)))
  let L ← mlPar E opts max0 max1 opts.coarseningMaxrounds 0 (M.map (fun _ => true)) (M.map (·.2)) rngs
  let as ← assignFreePar E.srt ((M.map (·.1)).zip (L.map (·.1))) max0 max1 (rngAt (L.map (fun q => q.2.2)))
  (xs.zip as).mapM (fun x => do
    let H ← x.2.H.vertices.foldlM (copyLabel labels) x.1.H
    pure { H := H, w0 := x.2.H.weightPart 0, w1 := x.2.H.weightPart 1, rng := x.2.rng })

end PMondriaan

import Verif.Model.CoarsenPar
import Verif.Model.KLFMPar
import Verif.Model.Contraction

/-
Model of the parallel part of src/multilevel_bisect/uncoarsen.cpp.
-/

namespace PMondriaan

/-- uncoarsen.cpp:82-86: the labels sent to the owners of the matches of the sample at position `i`. -/
def partSend (p : Nat) (HC : Hypergraph) (C : Contraction) (i : Nat) :
    Res (List (Nat × (Nat × Int))) := do
  let s ← vget C.samples i
  let v ← HC.vertexOf s
  let ms ← vget C.matched i
  ms.mapM (fun m => send p m.2 (m.1, v.part))

/-- uncoarsen.cpp:80-87. -/
def partSends (p : Nat) (HC : Hypergraph) (C : Contraction) : Res (List (Nat × (Nat × Int))) := do
  let ls ← (List.range C.samples.length).mapM (partSend p HC C)
  pure ls.flatten

/-- uncoarsen.cpp:91-93. -/
def partReceive (H : Hypergraph) (m : Nat × Int) : Res Hypergraph := H.setPartOf m.1 m.2

/-- uncoarsen.cpp:65-94 `uncoarsen_hypergraph(world, …)` on all processors: `S` holds, per processor,
the contraction and the coarse hypergraph, `Hs` the hypergraphs to be labelled. -/
def uncoarsenPar (d : Delivery (Nat × Int)) (S : List CProc) (Hs : List Hypergraph) :
    Res (List Hypergraph) := do
  let p := Hs.length
  let H1 ← (S.zip Hs).mapM (fun x => x.1.2.vertices.foldlM uncoarsenVertex x.2)
  let outs ← S.mapM (fun x => partSends p x.2 x.1)
  H1.zipIdx.mapM (fun x => (inbox d outs x.2).foldlM partReceive x.1)

/-- What is undetermined in one step of the parallel uncoarsening: the sort of the free vertices, the
deliveries of the labels and of the counts, and those of `KLFM_par`. -/
structure UncoarseEnv where
  srt : List (Nat × Int) → List (Nat × Int)
  dPart : Delivery (Nat × Int)
  dCount : Delivery (Nat × Int)
  refine : ParEnv
  rounds : Nat
  fuel : Nat

/-- The generator of processor `t`. -/
def rngAt (rngs : List Rng) (t : Nat) : Rng := (rngs[t]?).getD (fun n => n)

/-- The arguments of `KLFM_par` on all processors. -/
def refineArgs (Hs : List Hypergraph) (counts : List (List Cnt)) (as : List Contraction.AState) : List ParArgs :=
  ((Hs.zip counts).zip as).map (fun x =>
    { H := x.1.1, C := x.1.2, w := ⟨x.2.w0, x.2.w1⟩, rng := x.2.rng })

/-- uncoarsen.cpp:46-61 `uncoarsen_hypergraph_par` on all processors; `cut` is `cut_size`, `none` is
`LONG_MAX`. -/
def uncoarsenStepPar (E : UncoarseEnv) (opts : Options) (max0 max1 : Int) (cut : Option Int)
    (S : List CProc) (Hs : List Hypergraph) (rngs : List Rng) : Res (List ParResult) := do
  let as ← assignFreePar E.srt S max0 max1 (rngAt rngs)
  let H1 ← uncoarsenPar E.dPart ((S.map (·.1)).zip (as.map (·.H))) Hs
  let counts ← initCountsPar E.dCount E.refine.np H1
  KLFMPar E.rounds E.fuel E.refine (refineArgs H1 counts as) max0 max1 opts cut

end PMondriaan

import Verif.Model.Coarsen
import Verif.Model.Contraction
import Verif.Model.InitPart
import Verif.Model.Recursive
import Verif.Model.Reduce

/-
Model of `bisect_multilevel` and `bisect` (src/bisect.cpp) for one processor. Timers and log
messages are left out. `HC_list.push_back` is assumed to move the hypergraphs already in the list
(the copy constructor would reset their costs).
-/

namespace PMondriaan

/-- Everything that is not determined by the source code: the scores, the shuffle, iteration orders of
the unordered containers, the unstable sort, the order of delivery and the block partitioning of the
library, and the bound on the while loops inside `KLFM`. -/
structure Env (F : Type) where
  scores : ScoreOps F
  shuf : Shuffle
  order : List Nat → List Nat
  orderNets : List Nat → List Nat
  srt : List (Nat × Int) → List (Nat × Int)
  d1 : Delivery (Nat × Int)
  d2 : Delivery (Nat × Int)
  np : NetPart
  fuel : Nat

/-- bisect.cpp:190-264, from a given level on: the remaining iterations of the sequential coarsening
loop (the first `Nat` argument after the bounds is `max_rounds - nc_tot`), the initial partitioning, and the
corresponding iterations of the sequential uncoarsening loop. The two loops of the code use `HC_list` and
`C_list` as stacks; here they are the recursion stack. `rank` is `world.rank()`; the `Option Int` of the result
is `cut`, where `none` is `LONG_MAX`. -/
def mlLevel {F : Type} (E : Env F) (rank : Nat) (opts : Options) (max0 max1 : Int) :
    Nat → Hypergraph → Rng → Res (Hypergraph × Option Int × Rng)
  | 0, H, rng => initialPartitioning E.fuel E.shuf H max0 max1 opts rng
  | n + 1, H, rng =>
    if H.globalSize > opts.coarseningNrvertices then do
      let H1 ← simplifyDuplicateNets H
      let (HC, C, rng) ← coarsenSeq E.scores E.shuf E.order rank H1 {} opts rng
      let (HC', _, rng) ← mlLevel E rank opts max0 max1 n HC rng
      let r ← uncoarsenSeq E.fuel E.srt HC' H1 C opts max0 max1 rng
      let H2 ← r.H.resetDuplicateNets
      pure (H2, some r.cut, r.rng)
    else initialPartitioning E.fuel E.shuf H max0 max1 opts rng

/-- bisect.cpp:324-327: `H(H.local_id(v.id())).set_part(labels(v.part()))`. -/
def copyLabel (labels : Interval) (H : Hypergraph) (v : Vertex) : Res Hypergraph :=
  H.setPartOf v.id (labels.label v.part)

/-- bisect.cpp:83-333 `bisect_multilevel` on one processor. -/
def bisectMultilevel {F : Type} (E : Env F) (H : Hypergraph) (opts : Options) (max0 max1 : Int)
    (start fin : Nat) (labels : Interval) (rng : Rng) : Res RState := do
  let Rs ← createNewPar E.orderNets E.d1 E.d2 E.np [{ H := H, s := start, e := fin }]
  let R ← vget Rs 0
  let H0 ← R.copy
  let (C, H1) ← Contraction.mergeFree {} H0
  let (H2, _, rng) ← mlLevel E 0 opts max0 max1 opts.coarseningMaxrounds H1 rng
  let a ← C.assignFree E.srt H2 max0 max1 rng
  let H' ← a.H.vertices.foldlM (copyLabel labels) H
  pure { H := H', w0 := a.H.weightPart 0, w1 := a.H.weightPart 1, rng := a.rng }

/-- bisect.cpp:27-51 `bisect` on one processor. -/
def bisectOne {F : Type} (E : Env F) (H : Hypergraph) (opts : Options) (max0 max1 : Int)
    (start fin : Nat) (labels : Interval) (rng : Rng) : Res RState :=
  if opts.bisectionRandom then bisectRandom H max0 max1 start fin labels rng
  else bisectMultilevel E H opts max0 max1 start fin labels rng

end PMondriaan

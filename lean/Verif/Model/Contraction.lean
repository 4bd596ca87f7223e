import Verif.Model.Bsp

/-
Model of include/hypergraph/contraction.hpp and src/hypergraph/contraction.cpp.
Messages printed to std::cout are left out. `long` is unbounded.
-/

namespace PMondriaan

/-- include/hypergraph/contraction.hpp:34-110 `class contraction`. A match is a pair (vertex id,
processor). `local_free_weight_` is not initialised by the constructor; it is always written by
`merge_free_vertices` before it is read, so the default does not matter. -/
structure Contraction where
  samples : List Nat := []
  matched : List (List (Nat × Nat)) := []
  free : List (Nat × Int) := []
  localFree : Int := 0
  globalFree : Int := 0
deriving DecidableEq, Repr

namespace Contraction

/-- contraction.hpp:38-41 `add_sample`. -/
def addSample (C : Contraction) (id : Nat) : Contraction :=
  { C with samples := C.samples ++ [id], matched := C.matched ++ [[]] }

/-- contraction.hpp:43-50 `add_samples`. -/
def addSamples (C : Contraction) (H : Hypergraph) (indices : List Nat) : Res Contraction := do
  let ids ← indices.mapM (fun i => do
    let v ← H.vertexAt i
    pure v.id)
  pure { C with samples := C.samples ++ ids, matched := List.replicate indices.length [] }

/-- contraction.hpp:52-55 `add_match` (asserts the range of `sample`). -/
def addMatch (C : Contraction) (sample id proc : Nat) : Res Contraction :=
  match C.matched[sample]? with
  | none => .error .abort
  | some l => .ok { C with matched := C.matched.set sample (l ++ [(id, proc)]) }

/-- contraction.cpp:122-127: one vertex of the collecting loop. -/
def collectFree (s : List (Nat × Int) × Int) (v : Vertex) : List (Nat × Int) × Int :=
  if v.nets.length = 0 then (s.1 ++ [(v.id, v.weight)], s.2 + v.weight) else s

/-- contraction.cpp:120-132 `remove_free_vertices_`. -/
def removeFreeVertices (C : Contraction) (H : Hypergraph) :
    Res (Contraction × Hypergraph × Int) := do
  let (free, total) := H.vertices.foldl collectFree (C.free, 0)
  let H' ← free.foldlM (fun (H : Hypergraph) f => H.removeFreeVertex f.1) H
  pure ({ C with free := free }, H', total)

/-- contraction.cpp:22-27 `merge_free_vertices` (sequential). -/
def mergeFree (C : Contraction) (H : Hypergraph) : Res (Contraction × Hypergraph) := do
  let (C', H', total) ← C.removeFreeVertices H
  pure ({ C' with localFree := total, globalFree := total },
        { H' with globalSize := H'.vertices.length })

/-- contraction.cpp:173-174 and 138-139: `add_vertex` followed by `set_part`. -/
def addFree (H : Hypergraph) (f : Nat × Int) (part : Int) : Res Hypergraph :=
  (H.addVertex f.1 [] f.2).setPartOf f.1 part

/-- contraction.cpp:156-171: the part for a free vertex of weight `w`. -/
def choosePart (w0 w1 max0 max1 w : Int) (rng : Rng) : Int × Rng :=
  if w0 + w > max0 ∧ w1 + w > max1 then (0, rng)
  else if w0 + w > max0 then (1, rng)
  else if w1 + w > max1 then (0, rng)
  else if w0 * max1 < w1 * max0 then (0, rng)
  else if w0 * max1 > w1 * max0 then (1, rng)
  else ((rng.draw.1 % 2 : Nat), rng.draw.2)

/-- State of the greedy loop: hypergraph, the two part weights, generator. -/
structure AState where
  H : Hypergraph
  w0 : Int
  w1 : Int
  rng : Rng

/-- contraction.cpp:153-175: one free vertex. -/
def assignStep (max0 max1 : Int) (s : AState) (f : Nat × Int) : Res AState := do
  let (part, rng) := choosePart s.w0 s.w1 max0 max1 f.2 s.rng
  let H' ← addFree s.H f part
  pure { H := H',
         w0 := if part = 0 then s.w0 + f.2 else s.w0,
         w1 := if part = 0 then s.w1 else s.w1 + f.2,
         rng := rng }

/-- contraction.cpp:146-176 `assign_free_vertices_`. `srt` is the result of the unstable
`std::sort` by decreasing weight. -/
def assignGreedy (srt : List (Nat × Int) → List (Nat × Int)) (C : Contraction) (H : Hypergraph)
    (w0 w1 max0 max1 : Int) (rng : Rng) : Res AState :=
  (srt C.free).foldlM (assignStep max0 max1) { H := H, w0 := w0, w1 := w1, rng := rng }

/-- contraction.cpp:33-50 `assign_free_vertices` (sequential). The value returned is the vector
of the two part weights. -/
def assignFree (srt : List (Nat × Int) → List (Nat × Int)) (C : Contraction) (H : Hypergraph)
    (max0 max1 : Int) (rng : Rng) : Res AState := do
  let ws ← H.weightAllParts 2
  let w0 ← vget ws 0
  let w1 ← vget ws 1
  if C.globalFree = 0 then pure { H := H, w0 := w0, w1 := w1, rng := rng }
  else assignGreedy srt C H w0 w1 max0 max1 rng

/-- contraction.cpp:134-141 `assign_all_vertices_`. -/
def assignAll (C : Contraction) (H : Hypergraph) (part : Int) : Res Hypergraph :=
  C.free.foldlM (fun H f => addFree H f part) H

end Contraction

open Contraction

/-- One processor: its contraction and its hypergraph. -/
abbrev CProc := Contraction × Hypergraph

/-- contraction.cpp:15-20 `merge_free_vertices(world, H)` on all processors. -/
def mergeFreePar (S : List CProc) : Res (List CProc) := do
  let rs ← S.mapM (fun s => s.1.removeFreeVertices s.2)
  let size := (rs.map (fun r => r.2.1.vertices.length)).foldl (· + ·) 0
  let total := (rs.map (fun r => r.2.2)).foldl (· + ·) 0
  pure (rs.map (fun r => ({ r.1 with localFree := r.2.2, globalFree := total },
                          { r.2.1 with globalSize := size })))

/-- contraction.cpp:84-90: the search for the processor whose free vertices are split. Returns
the weight assigned to part 0 and the processor (`= p` when there is none). -/
def splitLoop (target : Int) : List Int → Int → Nat → Int × Nat
  | [], assigned, t => (assigned, t)
  | x :: xs, assigned, t =>
    if assigned + x ≤ target then splitLoop target xs (assigned + x) (t + 1) else (assigned, t)

/-- contraction.cpp:56-118, what processor `r` does after the first sync. -/
def assignOne (srt : List (Nat × Int) → List (Nat × Int)) (max0 max1 w0 w1 : Int)
    (locals : List Int) (assigned : Int) (split : Nat) (s : CProc) (rng : Rng) (r : Nat) :
    Res AState :=
  if r < split then do
    let H' ← s.1.assignAll s.2 0
    pure { H := H', w0 := w0 + assigned, w1 := w1, rng := rng }
  else if r > split then do
    let H' ← s.1.assignAll s.2 1
    pure { H := H', w0 := w0 + assigned, w1 := w1, rng := rng }
  else
    assignGreedy srt s.1 s.2 (w0 + assigned) (w1 + (locals.drop (split + 1)).foldl (· + ·) 0)
      max0 max1 rng

/-- contraction.cpp:56-118 `assign_free_vertices(world, H, …)` on all processors; `rngs r` is the
generator of processor `r`. All processors must take the same early exit (otherwise they wait for
each other: `fuel`). The `bulk::var`s hold the value broadcast by the split processor. -/
def assignFreePar (srt : List (Nat × Int) → List (Nat × Int)) (S : List CProc) (max0 max1 : Int)
    (rngs : Nat → Rng) : Res (List AState) := do
  let wss ← globalWeightParts (S.map (·.2)) 2
  let ws ← vget wss 0
  let w0 ← vget ws 0
  let w1 ← vget ws 1
  if S.all (fun s => s.1.globalFree == 0) then
    pure (S.zipIdx.map (fun x => { H := x.1.2, w0 := w0, w1 := w1, rng := rngs x.2 }))
  else if S.any (fun s => s.1.globalFree == 0) then .error .fuel
  else do
    let s0 ← vget S 0
    if max0 + max1 = 0 then .error .ub
    else do
      let target := (w1 * max0 - w0 * max1 + s0.1.globalFree * max0).tdiv (max0 + max1)
      let locals := S.map (fun s => s.1.localFree)
      let (assigned, split) := splitLoop target locals 0 0
      let rs ← S.zipIdx.mapM (fun x =>
        assignOne srt max0 max1 w0 w1 locals assigned split x.1 (rngs x.2) x.2)
      match rs[split]? with
      | some a => pure (rs.map (fun r => { r with w0 := a.w0, w1 := a.w1 }))
      | none => pure rs

end PMondriaan

import Verif.Model.Text
import Verif.Model.Reduce
import Verif.Model.Writer
import Verif.Model.InitPart
import Verif.Model.KLFMPar
import Verif.Model.Checks
import Mathlib.Data.List.Sort

/-
The unit tests of the repository, run on the model. These are tests of the model and not proofs: they show that
the model gives the values that the authors expect of the code. Assertions about the matrix "dolphins" are left
out. Test inputs and expected values are those of /repo/unittest.
-/

namespace PMondriaan

namespace UnitTests

/-- The messages arrive in the order of the processors. -/
def inOrder {M : Type} : Delivery M := fun _ l => l

/-- A random stream. -/
def zeros : Rng := fun _ => 0

/-- hypergraph_test.cpp:20-26 `mtx_three_nonzeros`, also in other tests. -/
def three : List Char :=
  "%%MatrixMarket matrix coordinate real general\n3 3 4\n1 1 1.0\n2 1 1.0\n2 2 1.0\n1 3 1.0\n".toList

/-- contraction_test.cpp:20-27. -/
def free : List Char :=
  "%%MatrixMarket matrix coordinate real general\n3 4 5\n1 1 1.0\n2 1 1.0\n2 2 1.0\n1 3 1.0\n3 4 1.0\n".toList

/-- simplify_test.cpp:20-29. -/
def dup : List Char :=
  "%%MatrixMarket matrix coordinate real general\n5 4 7\n1 1 1.0\n1 3 1.0\n2 3 1.0\n2 1 1.0\n3 4 1.0\n4 2 1.0\n5 2 1.0\n".toList

/-- `.value()` of what a reader returns. -/
def value {α : Type} (x : Res (Option α)) : Res α := do
  match ← x with
  | some a => pure a
  | none => .error .throw

/-- `H(i).set_part(p)` for the vertices in order. -/
def setParts (H : Hypergraph) (ps : List Int) : Hypergraph :=
  { H with vertices := List.zipWith (fun v p => { v with part := p }) H.vertices ps }

/-- Two processors read a matrix and set the parts. -/
def twoProcs (text : List Char) (mode : String) (ps : List (List Int)) : Res (List Hypergraph) := do
  let Hs ← value (readTextPar id inOrder inOrder (blockPart 2) 2 text mode)
  pure (List.zipWith setParts Hs ps)

/-! ### readhypergraph_test.cpp and read_mtx_test.cpp -/

example : (readFile id none "one").toOption.map Option.isSome = some false := by decide +kernel

example : (value (readText id three "degree")).toOption.map (fun H => (H.size, H.nrNz)) = some (3, 4) := by decide +kernel

/-! ### hypergraph_test.cpp -/

example : (do cutsizePar id inOrder (blockPart 2 3) (← twoProcs three "degree" [[0, 1], [1]]) .cutNet).toOption =
    some [2, 2] := by decide +kernel

/-! ### contraction_test.cpp -/

/-- contraction_test.cpp:29-48. -/
def mergeFreeVertices (rng : Rng) : Res (List Int) := do
  let H ← value (readText id free "one")
  let H ← removeFreeNets id H 1
  let r ← Contraction.mergeFree {} H
  let a ← Contraction.assignFree id r.1 (setParts r.2 [0, 1, 0]) 3 3 rng
  pure [(H.size : Int), H.globalSize, r.2.size, r.2.globalSize, a.w0, a.w1]

example : (mergeFreeVertices zeros).toOption = some [4, 4, 3, 3, 2, 2] := by decide +kernel

/-- contraction_test.cpp:50-71. -/
def parallelMergeFreeVertices (rng : Rng) : Res (List Nat × List Nat × List Int × List Int) := do
  let Hs ← value (readTextPar id inOrder inOrder (blockPart 2) 2 free "one")
  let Hs ← removeFreeNetsPar id inOrder inOrder (blockPart 2 3) Hs 1
  let S : List CProc ← mergeFreePar (Hs.map (fun H => ({}, H)))
  let a : List Contraction.AState ← assignFreePar id (List.zipWith (fun s ps => (s.1, setParts s.2 ps)) S [[0, 1], [0]]) 3 3
    (fun _ => rng)
  pure (Hs.map (fun (H : Hypergraph) => H.globalSize), S.map (fun (s : CProc) => s.2.globalSize), a.map (fun (r : Contraction.AState) => r.w0),
    a.map (fun (r : Contraction.AState) => r.w1))

example : (parallelMergeFreeVertices zeros).toOption = some ([4, 4], [3, 3], [2, 2], [2, 2]) := by decide +kernel

/-! ### simplify_test.cpp -/

/-- simplify_test.cpp:31-63. -/
def simplify : Res (Nat × List (Nat × Int) × List (Nat × Nat) × List Int × List (Nat × Nat)) := do
  let H ← value (readText id dup "one")
  let H1 ← simplifyDuplicateNets H
  let H2 ← H1.resetDuplicateNets
  pure (H.nets.length, H1.nets.map (fun (n : Net) => (n.id, n.cost)), H1.vertices.map (fun (v : Vertex) => (v.id, v.nets.length)),
    H2.nets.map (fun (n : Net) => n.cost), H2.vertices.map (fun (v : Vertex) => (v.id, v.nets.length)))

set_option synthInstance.maxSize 1000 in
example : simplify.toOption = some (5, [(4, 2), (1, 2), (2, 1)], [(0, 1), (1, 1), (2, 1), (3, 1)], [1, 1, 1, 1, 1],
    [(0, 2), (1, 2), (2, 2), (3, 1)]) := by
  decide +kernel

/-! ### sort_vertices_test.cpp -/

example : (do
    let H ← value (readText id three "degree")
    let H := setParts H [1, 0, 1]
    let C ← initCounts H
    let H' ← H.sortVerticesOnPart C
    let n ← H'.netOf 1
    pure (C, n.vertices)).toOption = some ([⟨0, 2⟩, ⟨1, 1⟩], [1, 0]) := by
  decide +kernel

/-! ### gain_buckets_test.cpp -/

/-- gain_buckets_test.cpp:17-41. -/
def gainBucketInit (r : Rng) : Res ((Int × Option Int × Option Int × Option Nat) × (Int × Option Nat × Option Nat × Option Int) × Bool) := do
  let H ← value (readText id three "one")
  let s ← GainStructure.create (setParts H [0, 1, 0]) [⟨2, 0⟩, ⟨1, 1⟩]
  let (p, s, r) ← s.partNext 3 3 r
  let (g0, s) ← s.gainNext 0
  let (g1, s) ← s.gainNext 1
  let (v, s, r) ← s.next 1 r
  let s ← s.move 1
  let (p', s, r) ← s.partNext 3 3 r
  let (v1, s, r) ← s.next 1 r
  let (v0, s, _) ← s.next 0 r
  let (g0', s) ← s.gainNext 0
  let c ← cutsizeC s.H s.C
  let c' ← cutsize s.H .cutNet
  pure ((p, g0, g1, v), (p', v1, v0, g0'), decide (c = c'))

set_option synthInstance.maxSize 1000 in
example : (gainBucketInit zeros).toOption = some ((1, some 0, some 1, some 1), (0, none, some 2, some (-1)), true) := by
  decide +kernel

/-! ### KLFM_par_test.cpp -/

/-- KLFM_par_test.cpp:57-112. -/
def initPrevious : Res (List (List Cnt) × List Int × List OwnerData) := do
  let Hs ← twoProcs three "degree" [[0, 1], [1]]
  let C ← initCountsPar inOrder (blockPart 2 3) Hs
  let own ← initCostMyNets inOrder inOrder (blockPart 2 3) Hs
  let prev ← initPreviousC inOrder (blockPart 2 3) (List.zip Hs C) own
  pure (C, prev.map (fun (x : List Cnt × Int) => x.2), own)

example : initPrevious.toOption =
    some ([[⟨1, 1⟩, ⟨1, 1⟩], [⟨1, 1⟩]], [2, 0], [⟨[1, 1], [[0, 1], [0]]⟩, ⟨[0], [[]]⟩]) := by
  decide +kernel

/-- The pass of the next test; the moves are taken from the queue in ascending order of the gain. -/
def passEnv : PassEnv :=
  { dInit := inOrder, dMoves := fun _ => inOrder, dUp := fun _ => inOrder, dDown := fun _ => inOrder, dLastUp := inOrder,
    dLastDown := inOrder, srt := fun l => l.insertionSort (fun a b => ¬ QMove.before b a) }

/-- KLFM_par_test.cpp:28-55: the cut returned and the true one. -/
def parPass (r0 r1 : Rng) : Res (List Int × List Int) := do
  let Hs ← twoProcs three "degree" [[0, 1], [1]]
  let C ← initCountsPar inOrder (blockPart 2 3) Hs
  let W := globalWeightPart Hs 0
  let W' := globalWeightPart Hs 1
  let args := (List.zip (List.zip Hs C) (List.zip (List.zip W W') [r0, r1])).map
    (fun x => ({ H := x.1.1, C := x.1.2, w := ⟨x.2.1.1, x.2.1.2⟩, rng := x.2.2 } : ParArgs))
  let res ← KLFMPar 100 100 ⟨blockPart 2 3, id, inOrder, inOrder, inOrder, fun _ => passEnv⟩ args 3 3
    ⟨0, 0, 0, 0, 0, 1, 100, 1, .cutNet, true, false⟩ none
  let cuts ← cutsizePar id inOrder (blockPart 2 3) (res.map (fun (r : ParResult) => r.H)) .cutNet
  pure (res.map (fun (r : ParResult) => r.cut), cuts)

example : (parPass zeros zeros).toOption = some ([1, 1], [1, 1]) := by decide +kernel

/-- KLFM_par_test.cpp:119-136: all moves go to processor 0; they are sorted as in line 416. -/
def moves : List QMove := [⟨-5, 0, 1, 4⟩, ⟨-2, 2, 0, 4⟩, ⟨-2, -1, 0, 3⟩, ⟨1, 4, 1, 3⟩, ⟨1, 3, 0, 2⟩, ⟨2, -3, 1, 2⟩, ⟨3, -4, 0, 1⟩,
  ⟨4, -2, 1, 1⟩, ⟨5, -3, 0, 0⟩, ⟨5, -1, 1, 0⟩]

example : moves.Pairwise (fun a b => ¬ QMove.before b a) := by decide

example : (do
    let r0 ← rejectUnbalanced 2 22 22 moves ⟨20, 18⟩
    let r1 ← rejectUnbalanced 2 22 22 [] ⟨20, 18⟩
    let a ← vget r0.1 0
    let b ← vget r1.1 1
    pure (a, b)).toOption = some (-1, 0) := by
  decide +kernel

/-! ### partitioning_to_file_test.cpp -/

-- The test passes although the last round of the loop is outside the vector (C41): the three values are right before it.
example : (do startParts (← twoProcs three "degree" [[0, 1], [0]]) 2).toOption = none := by decide +kernel

example : (do
    let cs ← (← twoProcs three "degree" [[0, 1], [0]]).mapM (fun H => startCounts H 2)
    startLoop 1 (0 :: cs.foldl addEach [0, 0])).toOption = some [0, 3, 4] := by decide +kernel

end UnitTests

end PMondriaan

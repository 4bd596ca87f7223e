import Verif.Model.Reader

/-
Model of src/util/write_partitioning.cpp and src/util/random_hypergraph.cpp.

Files open without errors (files that do not are in Model/WritePar.lean). A line of two numbers is a pair.
-/

namespace PMondriaan

/-! ### Writing a partitioning -/

/-- write_partitioning.cpp:58-64: `counts[v.part()] += v.degree()`. -/
def startCounts (H : Hypergraph) (k : Nat) : Res (List Int) :=
  H.vertices.foldlM (fun t v => do
    let x ← vgetI t v.part
    vsetI t v.part (x + (v.nets.length : Int))) (List.replicate k 0)

/-- write_partitioning.cpp:69: `result[i + 1] += result[i]`. -/
def startStep (l : List Int) (i : Nat) : Res (List Int) := do
  let a ← vget l i
  let b ← vget l (i + 1)
  vset l (i + 1) (b + a)

/-- write_partitioning.cpp:68-70: the loop for `i = 1, …, n`. -/
def startLoop (n : Nat) (l : List Int) : Res (List Int) :=
  (List.range n).foldlM (fun l t => startStep l (t + 1)) l

/-- write_partitioning.cpp:57-72 `start_parts`, on all processors. -/
def startParts (Hs : List Hypergraph) (k : Nat) : Res (List (List Int)) := do
  let cs ← Hs.mapM (fun H => startCounts H k)
  let total := cs.foldl addEach (List.replicate k 0)
  Hs.mapM (fun _ => startLoop k (0 :: total))

/-- write_partitioning.cpp:42-48: what one processor appends for part `i`. -/
def partLines (H : Hypergraph) (i : Nat) : List (Nat × Nat) :=
  H.vertices.foldl (fun out v =>
    if v.part = (i : Int) then v.nets.foldl (fun out n => out ++ [(n + 1, v.id + 1)]) out else out) []

/-- write_partitioning.cpp:34-53: the processors append one after the other, part by part. -/
def writeBody (Hs : List Hypergraph) (k : Nat) : List (Nat × Nat) :=
  (List.range k).foldl (fun file i => Hs.foldl (fun file H => file ++ partLines H i) file) []

/-- The written file. -/
structure OutFile where
  E : Nat
  V : Nat
  nz : Nat
  k : Nat
  starts : List Int
  body : List (Nat × Nat)

/-- write_partitioning.cpp:18-55 `partitioning_to_file`; the header is written by processor 0. -/
def partitioningToFile (Hs : List Hypergraph) (k : Nat) : Res OutFile := do
  let starts ← startParts Hs k
  let H0 ← vget Hs 0
  let s0 ← vget starts 0
  pure ⟨H0.globalNumberNets, H0.globalSize, H0.nrNz, k, s0, writeBody Hs k⟩

/-! ### The random generator of matrices -/

/-- The variables of `create_random_hypergraph`. -/
structure GenState where
  rng : Rng
  added : Nat
  sets : List (List Nat)
  out : List (Nat × Nat)

/-- random_hypergraph.cpp:26-31: draw a row and a column (`rng() % 0` is undefined) and write the
entry if it is new. -/
def genStep (n m : Nat) (s : GenState) : Res GenState :=
  if m = 0 ∨ n = 0 then .error .ub
  else do
    let i := s.rng.draw.1 % m
    let j := s.rng.draw.2.draw.1 % n
    let rng := s.rng.draw.2.draw.2
    let row ← vget s.sets i
    if j ∈ row then pure ⟨rng, s.added, s.sets, s.out⟩
    else pure ⟨rng, s.added + 1, s.sets.set i (row ++ [j]), s.out ++ [(i + 1, j + 1)]⟩

/-- random_hypergraph.cpp:25-32: `while (nz_added < nz)`, at most `fuel` times. -/
def genLoop (n m nz : Nat) : Nat → GenState → Res GenState
  | 0, s => if s.added < nz then .error .fuel else .ok s
  | fuel + 1, s => if s.added < nz then (do
      let s' ← genStep n m s
      genLoop n m nz fuel s') else .ok s

/-- random_hypergraph.cpp:12-35 `create_random_hypergraph(file, n, m, nz)`. -/
def createRandom (fuel : Nat) (rng : Rng) (n m nz : Nat) : Res MtxFile := do
  let s ← genLoop n m nz fuel ⟨rng, 0, List.replicate m [], []⟩
  pure ⟨some "general", m, n, nz, s.out.map some⟩

end PMondriaan

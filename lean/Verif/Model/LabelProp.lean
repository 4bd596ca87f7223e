import Verif.Model.KLFM

/-
Model of src/multilevel_bisect/label_propagation.cpp, initial_partitioning.cpp and sample.cpp.
`std::shuffle` is an arbitrary function of the generator and the list (the theorems assume that it
returns a permutation).
-/

namespace PMondriaan

/-- `std::shuffle(begin, end, rng)`: the new order and the advanced generator. -/
abbrev Shuffle := Rng → List Nat → List Nat × Rng

/-- label_propagation.cpp:52-64 and 133-144: positions of the maximum of `T`, starting the search
at −1 (so nothing is found when all entries are below −1). Returns `max` and `label_max`. -/
def argmaxLoop : List Int → Nat → Int → List Nat → Int × List Nat
  | [], _, m, ls => (m, ls)
  | t :: ts, j, m, ls =>
    if t = m then argmaxLoop ts (j + 1) m (ls ++ [j])
    else if t > m then argmaxLoop ts (j + 1) t [j]
    else argmaxLoop ts (j + 1) m ls

/-! ### label_propagation with `l` labels -/

/-- `C[j][k] += d`. -/
def matAdd (C : List (List Int)) (j k : Nat) (d : Int) : Res (List (List Int)) := do
  let row ← vget C j
  let x ← vget row k
  pure (C.set j (row.set k (x + d)))

/-- label_propagation.cpp:16-35: the labels, label sizes, counts, generator and `change`. -/
structure LPState where
  L : List Nat
  size : List Int
  C : List (List Int)
  rng : Rng
  change : Bool

/-- label_propagation.cpp:25-27 and 75-78: adding `d` to the count of label `k` in each net. -/
def lpCount (H : Hypergraph) (k : Nat) (d : Int) (C : List (List Int)) (e : Nat) :
    Res (List (List Int)) := do
  let j ← H.localIdNet e
  matAdd C j k d

/-- label_propagation.cpp:21-28: the random label of position `i`. -/
def lpStartStep (H : Hypergraph) (l : Nat) (s : LPState) (i : Nat) : Res LPState :=
  if l = 0 then .error .ub
  else do
    let k := s.rng.draw.1 % l
    let L ← vset s.L i k
    let x ← vget s.size k
    let v ← H.vertexAt i
    let C ← v.nets.foldlM (lpCount H k 1) s.C
    pure { s with L := L, size := s.size.set k (x + 1), C := C, rng := s.rng.draw.2 }

/-- label_propagation.cpp:15-28: the random start. -/
def lpStart (H : Hypergraph) (l : Nat) (rng : Rng) : Res LPState :=
  (List.range H.vertices.length).foldlM (lpStartStep H l)
    { L := List.replicate H.vertices.length 0, size := List.replicate l 0,
      C := List.replicate H.nets.length (List.replicate l 0), rng := rng, change := true }

/-- label_propagation.cpp:45-50: one net of the vertex; the entries of `T` are increased by the
row of the net. -/
def lpGather (H : Hypergraph) (k : Nat) (s : List (List Int) × List Int) (e : Nat) :
    Res (List (List Int) × List Int) := do
  let j ← H.localIdNet e
  let C ← matAdd s.1 j k (-1)
  let row ← vget C j
  pure (C, List.zipWith (· + ·) s.2 row)

/-- label_propagation.cpp:40-81: position `i` during a sweep. -/
def lpSweepStep (H : Hypergraph) (l : Nat) (minSize : Int) (s : LPState) (i : Nat) :
    Res LPState := do
  let k ← vget s.L i
  let sz ← vget s.size k
  if sz > minSize then do
    let v ← H.vertexAt i
    let (C, T) ← v.nets.foldlM (lpGather H k) (s.C, List.replicate l 0)
    let best := (argmaxLoop T 0 (-1) []).2
    if best.length = 0 then .error .ub
    else do
      let k' ← vget best (s.rng.draw.1 % best.length)
      let sz' ← vget ((s.size).set k (sz - 1)) k'
      let C' ← v.nets.foldlM (lpCount H k' 1) C
      if k' ≠ k then
        pure { L := s.L.set i k', size := ((s.size).set k (sz - 1)).set k' (sz' + 1), C := C',
               rng := s.rng.draw.2, change := true }
      else pure { s with C := C', rng := s.rng.draw.2 }
  else pure s

/-- label_propagation.cpp:30-83: the sweeps; the first argument is the number of iterations
left. -/
def lpSweeps (shuf : Shuffle) (H : Hypergraph) (l : Nat) (minSize : Int) :
    Nat → LPState → List Nat → Res LPState
  | 0, s, _ => pure s
  | k + 1, s, idx =>
    if s.change then do
      let (idx', rng) := shuf s.rng idx
      let s' ← idx'.foldlM (lpSweepStep H l minSize) { s with rng := rng, change := false }
      lpSweeps shuf H l minSize k s' idx'
    else pure s

/-- label_propagation.cpp:13-86 `label_propagation`: the labels and the generator. -/
def labelPropagation (shuf : Shuffle) (H : Hypergraph) (l maxIter : Nat) (minSize : Int)
    (rng : Rng) : Res (List Nat × Rng) := do
  let s ← lpStart H l rng
  let s' ← lpSweeps shuf H l minSize maxIter s (List.range H.vertices.length)
  pure (s'.L, s'.rng)

/-! ### label_propagation_bisect -/

/-- label_propagation.cpp:94-99: labels, counts, the weight each label can still take
(`weight_L`), generator, `change`. -/
structure LPBState where
  L : List Int
  C : List Cnt
  r0 : Int
  r1 : Int
  rng : Rng
  change : Bool

/-- `weight_L[k]`. -/
def LPBState.room (s : LPBState) (k : Int) : Int := if k = 0 then s.r0 else s.r1

/-- label_propagation.cpp:108-110 and 158-161: adding `d` to the count of label `k` in each net. -/
def lpbCount (H : Hypergraph) (k : Int) (d : Int) (C : List Cnt) (e : Nat) : Res (List Cnt) := do
  let j ← H.localIdNet e
  cAdd C j k d

/-- label_propagation.cpp:102-106: the label for a vertex of weight `w`. -/
def lpbPick (r0 r1 w : Int) (draw : Nat) : Int :=
  let k : Int := (draw % 2 : Nat)
  if (if k = 0 then r0 else r1) - w < 0 then other k else k

/-- label_propagation.cpp:101-111: the random label of position `i`. -/
def lpbStartStep (H : Hypergraph) (s : LPBState) (i : Nat) : Res LPBState := do
  let v ← H.vertexAt i
  let k := lpbPick s.r0 s.r1 v.weight s.rng.draw.1
  let L ← vset s.L i k
  let C ← v.nets.foldlM (lpbCount H k 1) s.C
  pure { s with L := L, C := C, r0 := if k = 0 then s.r0 - v.weight else s.r0,
                r1 := if k = 0 then s.r1 else s.r1 - v.weight, rng := s.rng.draw.2 }

/-- label_propagation.cpp:94-111: the random start. -/
def lpbStart (H : Hypergraph) (C : List Cnt) (max0 max1 : Int) (rng : Rng) : Res LPBState :=
  (List.range H.vertices.length).foldlM (lpbStartStep H)
    { L := List.replicate H.vertices.length 0, C := C, r0 := max0, r1 := max1, rng := rng,
      change := true }

/-- label_propagation.cpp:126-131: one net of the vertex; the state holds `C`, `T[0]`, `T[1]`. -/
def lpbGather (H : Hypergraph) (k : Int) (s : List Cnt × Int × Int) (e : Nat) :
    Res (List Cnt × Int × Int) := do
  let j ← H.localIdNet e
  let C ← cAdd s.1 j k (-1)
  let c ← vget C j
  pure (C, s.2.1 + c.c0, s.2.2 + c.c1)

/-- label_propagation.cpp:146-156: the new label of the vertex (the old one when the search found
nothing, when it is the same, or when there is no room), and the advanced generator. -/
def lpbChoose (s : LPBState) (k w : Int) (m : Int × List Nat) : Res (Int × Rng) :=
  if m.1 = -1 then pure (k, s.rng)
  else if m.2.length = 0 then .error .ub
  else do
    let b ← vget m.2 (s.rng.draw.1 % m.2.length)
    if (b : Int) ≠ k ∧ s.room b - w ≥ 0 then pure ((b : Int), s.rng.draw.2)
    else pure (k, s.rng.draw.2)

/-- label_propagation.cpp:122-162: position `i` during a sweep. -/
def lpbSweepStep (H : Hypergraph) (s : LPBState) (i : Nat) : Res LPBState := do
  let v ← H.vertexAt i
  let k ← vget s.L i
  let g ← v.nets.foldlM (lpbGather H k) (s.C, 0, 0)
  let c ← lpbChoose s k v.weight (argmaxLoop [g.2.1, g.2.2] 0 (-1) [])
  let C ← v.nets.foldlM (lpbCount H c.1 1) g.1
  if c.1 ≠ k then
    pure { L := s.L.set i c.1, C := C,
           r0 := if k = 0 then s.r0 + v.weight else s.r0 - v.weight,
           r1 := if k = 0 then s.r1 - v.weight else s.r1 + v.weight,
           rng := c.2, change := true }
  else pure { s with C := C, rng := c.2 }

/-- label_propagation.cpp:113-164: the sweeps; the first argument is the number of iterations
left. -/
def lpbSweeps (shuf : Shuffle) (H : Hypergraph) : Nat → LPBState → List Nat → Res LPBState
  | 0, s, _ => pure s
  | k + 1, s, idx =>
    if s.change then do
      let (idx', rng) := shuf s.rng idx
      let s' ← idx'.foldlM (lpbSweepStep H) { s with rng := rng, change := false }
      lpbSweeps shuf H k s' idx'
    else pure s

/-- label_propagation.cpp:87-167 `label_propagation_bisect`: the state holds the labels, the counts
left in `C` and the generator. -/
def lpBisect (shuf : Shuffle) (H : Hypergraph) (C : List Cnt) (maxIter : Nat) (max0 max1 : Int)
    (rng : Rng) : Res LPBState := do
  let s ← lpbStart H C max0 max1 rng
  lpbSweeps shuf H maxIter s (List.range H.vertices.length)

end PMondriaan

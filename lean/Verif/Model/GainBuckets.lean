import Verif.Model.Hypergraph

/-
Model of include/multilevel_bisect/KLFM/gain_buckets.hpp and
src/multilevel_bisect/KLFM/gain_buckets.cpp.

An `unordered_set<long>` is modelled as a duplicate-free list; `*begin()` is an element chosen by
the stream of draws, so every iteration order (and every rehash) is covered.
`std::numeric_limits<long>::min()`, used as "locked" mark and as "nothing left" gain, is `none`;
the vertex id `-1` returned by `next()` when nothing is left is `none`.
-/

namespace PMondriaan

/-- gain_buckets.hpp:18-48 `class gain_buckets` (data members at 43-45). -/
structure Buckets where
  buckets : List (List Nat)
  maxIndex : Int
  minValue : Int
deriving DecidableEq, Repr

namespace Buckets

/-- gain_buckets.hpp:35 `gain_to_index`. -/
def gainToIndex (b : Buckets) (g : Int) : Int := (b.buckets.length / 2 : Nat) + g

/-- gain_buckets.hpp:36 `index_to_gain`. -/
def indexToGain (b : Buckets) (i : Int) : Int := i - (b.buckets.length / 2 : Nat)

/-- gain_buckets.hpp:20-24 constructor. -/
def create (size : Int) : Buckets :=
  let l := List.replicate size.toNat []
  { buckets := l, maxIndex := size, minValue := (size - 1) - (l.length / 2 : Nat) }

/-- gain_buckets.hpp:38 `set_max_present`. -/
def setMaxPresent (b : Buckets) (i : Int) : Buckets := { b with maxIndex := i }

/-- gain_buckets.cpp:13-24 `insert`. -/
def insert (b : Buckets) (id : Nat) (g : Int) : Res Buckets := do
  let index := b.gainToIndex g
  let s ← vgetI b.buckets index
  let b1 := if s.isEmpty then
      { b with
        minValue := if g < b.minValue then g else b.minValue,
        maxIndex := if index > b.maxIndex then index else b.maxIndex }
    else b
  let bs ← vsetI b1.buckets index (setInsert s id)
  pure { b1 with buckets := bs }

/-- gain_buckets.cpp:26-33 `remove`: whether the element existed, and the new buckets. -/
def remove (b : Buckets) (id : Nat) (g : Int) : Res (Bool × Buckets) := do
  let index := b.gainToIndex g
  let s ← vgetI b.buckets index
  let bs ← vsetI b.buckets index (s.erase id)
  pure (s.contains id, { b with buckets := bs })

/-- gain_buckets.cpp:70-72: `while ((index >= min_index) && buckets[index].empty()) index--;`
The counter is `index + 1`; at 0 the index is -1, which is UB to read if `min_index ≤ -1`. -/
def descend (l : List (List Nat)) (minIndex : Int) : Nat → Res Int
  | 0 => if -1 ≥ minIndex then .error .ub else .ok (-1)
  | i + 1 =>
    if (i : Int) ≥ minIndex then do
      let s ← vget l i
      if s.isEmpty then descend l minIndex i else pure i
    else pure i

/-- gain_buckets.cpp:64-79 `find_next_index`: `none` for -1; `max_index_present` is lowered. -/
def findNextIndex (b : Buckets) : Res (Option Nat × Buckets) :=
  if b.maxIndex = -1 then pure (none, b)
  else if b.maxIndex < -1 then .error .ub
  else do
    let minIndex := b.gainToIndex b.minValue
    let index ← descend b.buckets minIndex (b.maxIndex + 1).toNat
    let b1 := { b with maxIndex := index }
    if index ≥ minIndex then pure (some index.toNat, b1) else pure (none, b1)

/-- gain_buckets.cpp:35-42 `next`. The element `*buckets[index].begin()` is chosen by a draw. -/
def next (b : Buckets) (r : Rng) : Res (Option Nat × Buckets × Rng) := do
  let (i, b1) ← b.findNextIndex
  match i with
  | none => pure (none, b1, r)
  | some i => do
    let s ← vget b1.buckets i
    let u ← vget s (r.draw.1 % s.length)
    pure (some u, b1, r.draw.2)

/-- gain_buckets.cpp:44-51 `gain_next`. -/
def gainNext (b : Buckets) : Res (Option Int × Buckets) := do
  let (i, b1) ← b.findNextIndex
  match i with
  | none => pure (none, b1)
  | some i => pure (some (b1.indexToGain i), b1)

end Buckets

/-- gain_buckets.hpp:54-96 `class gain_structure`. The references `H_` and `C_` to the caller's objects are
part of the state. `gains[i] = none` is the "locked" mark. -/
structure GainStructure where
  H : Hypergraph
  C : List Cnt
  b0 : Buckets
  b1 : Buckets
  gains : List (Option Int)

namespace GainStructure

/-- `buckets[part]` on a vector of length 2. -/
def bucket (s : GainStructure) (part : Int) : Res Buckets :=
  if part = 0 then .ok s.b0 else if part = 1 then .ok s.b1 else .error .ub

/-- Assignment to `buckets[part]`. -/
def setBucket (s : GainStructure) (part : Int) (b : Buckets) : Res GainStructure :=
  if part = 0 then .ok { s with b0 := b } else if part = 1 then .ok { s with b1 := b }
  else .error .ub

/-- gain_buckets.cpp:269-281 `compute_size_buckets`. -/
def computeSizeBuckets (H : Hypergraph) : Res Int := do
  let m ← H.vertices.foldlM (fun maxv v => do
    let sum ← v.nets.foldlM (fun sum e => do
      let n ← H.netOf e
      pure (sum + n.cost)) (0 : Int)
    pure (if sum > maxv then sum else maxv)) (0 : Int)
  pure (2 * m + 1)

/-- gain_buckets.cpp:85-95 (in `init_`) and gain_buckets.cpp:297-307 (in `check_gains`): the gain of a vertex
computed from the counts. -/
def gainOf (H : Hypergraph) (C : List Cnt) (v : Vertex) : Res Int :=
  v.nets.foldlM (fun g e => do
    let j ← H.localIdNet e
    let cf ← cGet C j v.part
    let n ← H.netOf e
    let g := if cf = 1 then g + n.cost else g
    let ct ← cGet C j (other v.part)
    pure (if ct = 0 then g - n.cost else g)) 0

/-- gain_buckets.cpp:81-105 `init_`, the loop body at 83-101. The state also carries `max_gain`. -/
def initStep (st : GainStructure × Int × Int) (iv : Vertex × Nat) :
    Res (GainStructure × Int × Int) := do
  let (s, m0, m1) := st
  let (v, i) := iv
  let g ← gainOf s.H s.C v
  let b ← s.bucket v.part
  let b' ← b.insert v.id g
  let s1 ← s.setBucket v.part b'
  let gs ← vset s1.gains i (some g)
  let s2 := { s1 with gains := gs }
  pure (s2,
    if v.part = 0 ∧ g > m0 then g else m0,
    if v.part = 1 ∧ g > m1 then g else m1)

/-- gain_buckets.hpp:56-62 constructor and gain_buckets.cpp:81-105 `init_`. -/
def create (H : Hypergraph) (C : List Cnt) : Res GainStructure := do
  let size ← computeSizeBuckets H
  let b := Buckets.create size
  let s0 : GainStructure :=
    { H := H, C := C, b0 := b, b1 := b, gains := List.replicate H.size (some 0) }
  let g0 := b.indexToGain 0
  let (s, m0, m1) ← (H.vertices.zipIdx).foldlM initStep (s0, g0, g0)
  pure { s with
    b0 := s.b0.setMaxPresent (s.b0.gainToIndex m0),
    b1 := s.b1.setMaxPresent (s.b1.gainToIndex m1) }

/-- gain_buckets.hpp:67 `next`. -/
def next (s : GainStructure) (part : Int) (r : Rng) : Res (Option Nat × GainStructure × Rng) := do
  let b ← s.bucket part
  let (u, b', r') ← b.next r
  let s' ← s.setBucket part b'
  pure (u, s', r')

/-- gain_buckets.hpp:69 `gain_next`. -/
def gainNext (s : GainStructure) (part : Int) : Res (Option Int × GainStructure) := do
  let b ← s.bucket part
  let (g, b') ← b.gainNext
  let s' ← s.setBucket part b'
  pure (g, s')

/-- gain_buckets.cpp:260-266 `done`. (`&&` evaluates the second `next` only if the first is -1.) -/
def done (s : GainStructure) : Res (Bool × GainStructure) := do
  let (i0, b0) ← s.b0.findNextIndex
  let s := { s with b0 := b0 }
  match i0 with
  | some _ => pure (false, s)
  | none => do
    let (i1, b1) ← s.b1.findNextIndex
    pure (i1.isNone, { s with b1 := b1 })

/-- gain_buckets.hpp:82 `bucket_done`. -/
def bucketDone (s : GainStructure) (part : Int) : Res (Bool × GainStructure) := do
  let b ← s.bucket part
  let (i, b') ← b.findNextIndex
  let s' ← s.setBucket part b'
  pure (i.isNone, s')

/-- Comparison `a > b` of two gains where `none` is `LONG_MIN`. -/
def gainGt (a b : Option Int) : Bool :=
  match a, b with
  | none, _ => false
  | some _, none => true
  | some x, some y => x > y

/-- gain_buckets.cpp:107-131 `part_next`. -/
def partNext (s : GainStructure) (extra0 extra1 : Int) (r : Rng) :
    Res (Int × GainStructure × Rng) := do
  let (v0, s, r) ← s.next 0 r
  let (v1, s, r) ← s.next 1 r
  match v0, v1 with
  | none, _ => pure (1, s, r)
  | some _, none => pure (0, s, r)
  | some v0, some v1 => do
    let x0 ← s.H.vertexOf v0
    let (g0, s) ← runIf (extra0 - x0.weight > 0) (s.gainNext 0) (none, s)
    let x1 ← s.H.vertexOf v1
    let (g1, s) ← runIf (extra1 - x1.weight > 0) (s.gainNext 1) (none, s)
    if gainGt g0 g1 then pure (0, s, r)
    else if gainGt g1 g0 then pure (1, s, r)
    else pure (((r.draw.1 % 2 : Nat) : Int), s, r.draw.2)

/-- gain_buckets.cpp:283-293 `add_gain`. -/
def addGain (s : GainStructure) (u : Nat) (value : Int) : Res GainStructure := do
  let i ← s.H.localId u
  let old ← vget s.gains i
  match old with
  | none => pure s
  | some g => do
    let v ← s.H.vertexAt i
    let b ← s.bucket v.part
    let (_, b1) ← b.remove u g
    let b2 ← b1.insert u (g + value)
    let s1 ← s.setBucket v.part b2
    let gs ← vset s1.gains i (some (g + value))
    pure { s1 with gains := gs }

/-- gain_buckets.cpp:145-147, 170-172 (and 207-209, 231-233): `add_gain` to every vertex of net `e`. -/
def addGainAll (s : GainStructure) (e : Nat) (value : Int) : Res GainStructure := do
  let n ← s.H.netOf e
  n.vertices.foldlM (fun s u => s.addGain u value) s

/-- gain_buckets.cpp:150-155, 175-180: the vertex at the end of the list that belongs to `part`. -/
def endVertex (n : Net) (part : Int) : Res Nat :=
  if part = 1 then vgetI n.vertices ((n.vertices.length : Int) - 1) else vget n.vertices 0

/-- gain_buckets.cpp:149-163, 174-190 (and 211-223, 235-246): `add_gain` to that vertex. The code between
only prints a diagnostic; it evaluates `H_.local_id(u)`, as does `add_gain`. -/
def addGainEnd (s : GainStructure) (e : Nat) (part value : Int) : Res GainStructure := do
  let n ← s.H.netOf e
  let u ← endVertex n part
  s.addGain u value

/-- gain_buckets.cpp:134-141: move the vertex, take it out of its bucket and lock it. `Cs` are the counts
used for the sorted lists (`C_` or `C_loc`). -/
def moveAndLock (s : GainStructure) (v : Nat) (Cs : List Cnt) : Res GainStructure := do
  let x ← s.H.vertexOf v
  let H1 ← s.H.moveSorted v Cs
  let s := { s with H := H1 }
  let i ← s.H.localId v
  let g ← vget s.gains i
  match g with
  | none => .error .ub
  | some g => do
    let b ← s.bucket x.part
    let (_, b') ← b.remove v g
    let s ← s.setBucket x.part b'
    let gs ← vset s.gains i none
    pure { s with gains := gs }

/-- gain_buckets.cpp:143-192: the work for one net `e` of the moved vertex. -/
def moveNet (fromP toP : Int) (s : GainStructure) (e : Nat) : Res GainStructure := do
  let j ← s.H.localIdNet e
  let n ← s.H.netOf e
  let t ← cGet s.C j toP
  let s ← runIf (t = 0) (s.addGainAll e n.cost) s
  let s ← runIf (t = 1) (s.addGainEnd e toP (-1 * n.cost)) s
  let C1 ← cAdd s.C j toP 1
  let C2 ← cAdd C1 j fromP (-1)
  let s := { s with C := C2 }
  let f ← cGet s.C j fromP
  let s ← runIf (f = 0) (s.addGainAll e (-1 * n.cost)) s
  runIf (f = 1) (s.addGainEnd e fromP n.cost) s

/-- gain_buckets.cpp:133-193 `move(v)`. -/
def move (s : GainStructure) (v : Nat) : Res GainStructure := do
  let x ← s.H.vertexOf v
  let s ← s.moveAndLock v s.C
  x.nets.foldlM (moveNet x.part (other x.part)) s

/-- gain_buckets.cpp:205-248: the work for one net with global counts `C` and local counts `L`. -/
def moveNetLoc (fromP toP : Int) (st : GainStructure × List Cnt) (e : Nat) :
    Res (GainStructure × List Cnt) := do
  let (s, L) := st
  let j ← s.H.localIdNet e
  let n ← s.H.netOf e
  let t ← cGet s.C j toP
  let s ← runIf (t = 0) (s.addGainAll e n.cost) s
  let tl ← cGet L j toP
  let s ← runIf (t = 1 ∧ tl = 1) (s.addGainEnd e toP (-1 * n.cost)) s
  let C1 ← cAdd s.C j toP 1
  let C2 ← cAdd C1 j fromP (-1)
  let L1 ← cAdd L j toP 1
  let L2 ← cAdd L1 j fromP (-1)
  let s := { s with C := C2 }
  let f ← cGet s.C j fromP
  let s ← runIf (f = 0) (s.addGainAll e (-1 * n.cost)) s
  let fl ← cGet L2 j fromP
  let s ← runIf (f = 1 ∧ fl = 1) (s.addGainEnd e fromP n.cost) s
  pure (s, L2)

/-- gain_buckets.cpp:195-249 `move(v, C_loc)`. -/
def moveLoc (s : GainStructure) (v : Nat) (L : List Cnt) : Res (GainStructure × List Cnt) := do
  let x ← s.H.vertexOf v
  let s ← s.moveAndLock v L
  x.nets.foldlM (moveNetLoc x.part (other x.part)) (s, L)

/-- gain_buckets.cpp:251-258 `remove`. (When the vertex is not found only a message is printed.) -/
def remove (s : GainStructure) (v : Nat) : Res GainStructure := do
  let i ← s.H.localId v
  let x ← s.H.vertexAt i
  let g ← vget s.gains i
  match g with
  | none => .error .ub
  | some g => do
    let b ← s.bucket x.part
    let (_, b') ← b.remove v g
    let s ← s.setBucket x.part b'
    let gs ← vset s.gains i none
    pure { s with gains := gs }

end GainStructure

end PMondriaan

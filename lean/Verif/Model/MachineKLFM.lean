import Verif.Model.Machine
import Verif.Model.KLFM

/-
The refinement on one processor (KLFM.cpp, gain_buckets.hpp and gain_buckets.cpp) in 64-bit arithmetic: a sum, difference
or product of signed numbers that does not fit is undefined behaviour (`long`); `gain_to_index` and `index_to_gain`
compute with `size_t` and are reduced modulo 2^64 (`wrap64`). A gain that equals `LONG_MIN` would be taken for the mark of
a locked vertex; here it is an error as well (`longGain`). The counts of pins and the positions in lists are at most the
number of pins and are not checked.
-/

namespace PMondriaan

/-- A `long` that is not `LONG_MIN`. -/
def longGain (x : Int) : Res Int := if -2 ^ 63 < x ∧ x < 2 ^ 63 then .ok x else .error .ub

namespace Buckets

/-- gain_buckets.hpp:35 `gain_to_index`. -/
def gainToIndex64 (b : Buckets) (g : Int) : Int := wrap64 ((b.buckets.length / 2 : Nat) + g)

/-- gain_buckets.hpp:36 `index_to_gain`. -/
def indexToGain64 (b : Buckets) (i : Int) : Int := wrap64 (i - (b.buckets.length / 2 : Nat))

/-- gain_buckets.hpp:20-24 constructor. -/
def create64 (size : Int) : Res Buckets := do
  let l := List.replicate size.toNat []
  let last ← long (size - 1)
  pure { buckets := l, maxIndex := size, minValue := wrap64 (last - (l.length / 2 : Nat)) }

/-- gain_buckets.cpp:13-24 `insert`. -/
def insert64 (b : Buckets) (id : Nat) (g : Int) : Res Buckets := do
  let index := b.gainToIndex64 g
  let s ← vgetI b.buckets index
  let b1 := if s.isEmpty then
      { b with
        minValue := if g < b.minValue then g else b.minValue,
        maxIndex := if index > b.maxIndex then index else b.maxIndex }
    else b
  let bs ← vsetI b1.buckets index (setInsert s id)
  pure { b1 with buckets := bs }

/-- gain_buckets.cpp:26-33 `remove`. -/
def remove64 (b : Buckets) (id : Nat) (g : Int) : Res (Bool × Buckets) := do
  let index := b.gainToIndex64 g
  let s ← vgetI b.buckets index
  let bs ← vsetI b.buckets index (s.erase id)
  pure (s.contains id, { b with buckets := bs })

/-- gain_buckets.cpp:64-79 `find_next_index`. -/
def findNextIndex64 (b : Buckets) : Res (Option Nat × Buckets) :=
  if b.maxIndex = -1 then pure (none, b)
  else if b.maxIndex < -1 then .error .ub
  else do
    let minIndex := b.gainToIndex64 b.minValue
    let index ← descend b.buckets minIndex (b.maxIndex + 1).toNat
    let b1 := { b with maxIndex := index }
    if index ≥ minIndex then pure (some index.toNat, b1) else pure (none, b1)

/-- gain_buckets.cpp:35-42 `next`. -/
def next64 (b : Buckets) (r : Rng) : Res (Option Nat × Buckets × Rng) := do
  let (i, b1) ← b.findNextIndex64
  match i with
  | none => pure (none, b1, r)
  | some i => do
    let s ← vget b1.buckets i
    let u ← vget s (r.draw.1 % s.length)
    pure (some u, b1, r.draw.2)

/-- gain_buckets.cpp:44-51 `gain_next`. -/
def gainNext64 (b : Buckets) : Res (Option Int × Buckets) := do
  let (i, b1) ← b.findNextIndex64
  match i with
  | none => pure (none, b1)
  | some i => pure (some (b1.indexToGain64 i), b1)

end Buckets

namespace GainStructure

/-- gain_buckets.cpp:271-279: the sum of the costs of the nets of a vertex. -/
def costs64 (H : Hypergraph) (v : Vertex) : Res Int :=
  v.nets.foldlM (fun sum e => do
    let n ← H.netOf e
    long (sum + n.cost)) (0 : Int)

/-- gain_buckets.cpp:269-281 `compute_size_buckets`. -/
def computeSizeBuckets64 (H : Hypergraph) : Res Int := do
  let m ← H.vertices.foldlM (fun maxv v => do
    let sum ← costs64 H v
    pure (if sum > maxv then sum else maxv)) (0 : Int)
  let d ← long (2 * m)
  long (d + 1)

/-- gain_buckets.cpp:88-95 (in `init_`): the work for one net. -/
def gainStep64 (H : Hypergraph) (C : List Cnt) (v : Vertex) (g : Int) (e : Nat) : Res Int := do
  let j ← H.localIdNet e
  let cf ← cGet C j v.part
  let n ← H.netOf e
  let g ← runIf (cf = 1) (longGain (g + n.cost)) g
  let ct ← cGet C j (other v.part)
  runIf (ct = 0) (longGain (g - n.cost)) g

/-- gain_buckets.cpp:85-95 (in `init_`): the gain of a vertex computed from the counts. -/
def gainOf64 (H : Hypergraph) (C : List Cnt) (v : Vertex) : Res Int := v.nets.foldlM (gainStep64 H C v) 0

/-- gain_buckets.cpp:81-105 `init_`, the loop body at 83-101. -/
def initStep64 (st : GainStructure × Int × Int) (iv : Vertex × Nat) :
    Res (GainStructure × Int × Int) := do
  let (s, m0, m1) := st
  let (v, i) := iv
  let g ← gainOf64 s.H s.C v
  let b ← s.bucket v.part
  let b' ← b.insert64 v.id g
  let s1 ← s.setBucket v.part b'
  let gs ← vset s1.gains i (some g)
  let s2 := { s1 with gains := gs }
  pure (s2,
    if v.part = 0 ∧ g > m0 then g else m0,
    if v.part = 1 ∧ g > m1 then g else m1)

/-- gain_buckets.hpp:56-62 constructor and gain_buckets.cpp:81-105 `init_`. -/
def create64 (H : Hypergraph) (C : List Cnt) : Res GainStructure := do
  let size ← computeSizeBuckets64 H
  let b ← Buckets.create64 size
  let s0 : GainStructure :=
    { H := H, C := C, b0 := b, b1 := b, gains := List.replicate H.size (some 0) }
  let g0 := b.indexToGain64 0
  let (s, m0, m1) ← (H.vertices.zipIdx).foldlM initStep64 (s0, g0, g0)
  pure { s with
    b0 := s.b0.setMaxPresent (s.b0.gainToIndex64 m0),
    b1 := s.b1.setMaxPresent (s.b1.gainToIndex64 m1) }

/-- gain_buckets.hpp:67 `next`. -/
def next64 (s : GainStructure) (part : Int) (r : Rng) : Res (Option Nat × GainStructure × Rng) := do
  let b ← s.bucket part
  let (u, b', r') ← b.next64 r
  let s' ← s.setBucket part b'
  pure (u, s', r')

/-- gain_buckets.hpp:69 `gain_next`. -/
def gainNext64 (s : GainStructure) (part : Int) : Res (Option Int × GainStructure) := do
  let b ← s.bucket part
  let (g, b') ← b.gainNext64
  let s' ← s.setBucket part b'
  pure (g, s')

/-- gain_buckets.cpp:260-266 `done`. -/
def done64 (s : GainStructure) : Res (Bool × GainStructure) := do
  let (i0, b0) ← s.b0.findNextIndex64
  let s := { s with b0 := b0 }
  match i0 with
  | some _ => pure (false, s)
  | none => do
    let (i1, b1) ← s.b1.findNextIndex64
    pure (i1.isNone, { s with b1 := b1 })

/-- gain_buckets.hpp:82 `bucket_done`. -/
def bucketDone64 (s : GainStructure) (part : Int) : Res (Bool × GainStructure) := do
  let b ← s.bucket part
  let (i, b') ← b.findNextIndex64
  let s' ← s.setBucket part b'
  pure (i.isNone, s')

/-- gain_buckets.cpp:107-131 `part_next`. -/
def partNext64 (s : GainStructure) (extra0 extra1 : Int) (r : Rng) :
    Res (Int × GainStructure × Rng) := do
  let (v0, s, r) ← s.next64 0 r
  let (v1, s, r) ← s.next64 1 r
  match v0, v1 with
  | none, _ => pure (1, s, r)
  | some _, none => pure (0, s, r)
  | some v0, some v1 => do
    let x0 ← s.H.vertexOf v0
    let d0 ← long (extra0 - x0.weight)
    let (g0, s) ← runIf (d0 > 0) (s.gainNext64 0) (none, s)
    let x1 ← s.H.vertexOf v1
    let d1 ← long (extra1 - x1.weight)
    let (g1, s) ← runIf (d1 > 0) (s.gainNext64 1) (none, s)
    if gainGt g0 g1 then pure (0, s, r)
    else if gainGt g1 g0 then pure (1, s, r)
    else pure (((r.draw.1 % 2 : Nat) : Int), s, r.draw.2)

/-- gain_buckets.cpp:283-293 `add_gain`. -/
def addGain64 (s : GainStructure) (u : Nat) (value : Int) : Res GainStructure := do
  let i ← s.H.localId u
  let old ← vget s.gains i
  match old with
  | none => pure s
  | some g => do
    let v ← s.H.vertexAt i
    let b ← s.bucket v.part
    let (_, b1) ← b.remove64 u g
    let g' ← longGain (g + value)
    let b2 ← b1.insert64 u g'
    let s1 ← s.setBucket v.part b2
    let gs ← vset s1.gains i (some g')
    pure { s1 with gains := gs }

/-- gain_buckets.cpp:145-147, 170-172: `add_gain` to every vertex of net `e`. -/
def addGainAll64 (s : GainStructure) (e : Nat) (value : Int) : Res GainStructure := do
  let n ← s.H.netOf e
  n.vertices.foldlM (fun s u => s.addGain64 u value) s

/-- gain_buckets.cpp:149-163, 174-190: `add_gain` to the vertex at the end of the list that belongs to `part`. -/
def addGainEnd64 (s : GainStructure) (e : Nat) (part value : Int) : Res GainStructure := do
  let n ← s.H.netOf e
  let u ← endVertex n part
  s.addGain64 u value

/-- gain_buckets.cpp:134-141: move the vertex, take it out of its bucket and lock it. -/
def moveAndLock64 (s : GainStructure) (v : Nat) (Cs : List Cnt) : Res GainStructure := do
  let x ← s.H.vertexOf v
  let H1 ← s.H.moveSorted v Cs
  let s := { s with H := H1 }
  let i ← s.H.localId v
  let g ← vget s.gains i
  match g with
  | none => .error .ub
  | some g => do
    let b ← s.bucket x.part
    let (_, b') ← b.remove64 v g
    let s ← s.setBucket x.part b'
    let gs ← vset s.gains i none
    pure { s with gains := gs }

/-- gain_buckets.cpp:143-192: the work for one net `e` of the moved vertex. -/
def moveNet64 (fromP toP : Int) (s : GainStructure) (e : Nat) : Res GainStructure := do
  let j ← s.H.localIdNet e
  let n ← s.H.netOf e
  let t ← cGet s.C j toP
  let s ← runIf (t = 0) (s.addGainAll64 e n.cost) s
  let s ← runIf (t = 1) (do
    let c ← long (-1 * n.cost)
    s.addGainEnd64 e toP c) s
  let C1 ← cAdd s.C j toP 1
  let C2 ← cAdd C1 j fromP (-1)
  let s := { s with C := C2 }
  let f ← cGet s.C j fromP
  let s ← runIf (f = 0) (do
    let c ← long (-1 * n.cost)
    s.addGainAll64 e c) s
  runIf (f = 1) (s.addGainEnd64 e fromP n.cost) s

/-- gain_buckets.cpp:133-193 `move(v)`. -/
def move64 (s : GainStructure) (v : Nat) : Res GainStructure := do
  let x ← s.H.vertexOf v
  let s ← s.moveAndLock64 v s.C
  x.nets.foldlM (moveNet64 x.part (other x.part)) s

/-- gain_buckets.cpp:251-258 `remove`. -/
def remove64 (s : GainStructure) (v : Nat) : Res GainStructure := do
  let i ← s.H.localId v
  let x ← s.H.vertexAt i
  let g ← vget s.gains i
  match g with
  | none => .error .ub
  | some g => do
    let b ← s.bucket x.part
    let (_, b') ← b.remove64 v g
    let s ← s.setBucket x.part b'
    let gs ← vset s.gains i none
    pure { s with gains := gs }

end GainStructure

/-- `weights[part] += d`. -/
def W2.add64 (w : W2) (part d : Int) : Res W2 := do
  let x ← w.get part
  let y ← long (x + d)
  if part = 0 then pure { w with w0 := y } else pure { w with w1 := y }

/-- KLFM.cpp:81-104: the body of the while loop of `KLFM_pass`. (`weights[…] -= w` is the sum with `-w`, and `-w` fits when
the weight is not negative.) -/
def passBody64 (max0 max1 : Int) (st : PassState) : Res PassState := do
  let e0 ← long (max0 - st.w.w0)
  let e1 ← long (max1 - st.w.w1)
  let (part, gs, rng) ← st.gs.partNext64 e0 e1 st.rng
  let (v, gs, rng) ← gs.next64 part rng
  match v with
  | none => .error .abort
  | some v => do
    let x ← gs.H.vertexOf v
    let extra ← (W2.mk e0 e1).get (other part)
    let room ← long (extra - x.weight)
    if room ≥ 0 then do
      let (g, gs) ← gs.gainNext64 part
      match g with
      | none => .error .ub
      | some g => do
        let cut ← long (st.cut - g)
        let w ← st.w.add64 part (-x.weight)
        let w ← w.add64 (other part) x.weight
        let gs ← gs.move64 v
        if cut > st.best then
          pure { gs, w, cut, best := st.best, noImp := st.noImp ++ [v], rng }
        else
          pure { gs, w, cut, best := cut, noImp := [], rng }
    else do
      let gs ← gs.remove64 v
      pure { st with gs, rng }

/-- KLFM.cpp:80-104: the while loop. -/
def passLoop64 (max0 max1 : Int) (maxNoGain : Nat) : Nat → PassState → Res PassState
  | 0, _ => .error .fuel
  | f + 1, st => do
    let (d, gs) ← st.gs.done64
    let st := { st with gs }
    if !d ∧ st.noImp.length < maxNoGain then do
      let st ← passBody64 max0 max1 st
      passLoop64 max0 max1 maxNoGain f st
    else pure st

/-- KLFM.cpp:107-112: one step of the rollback. -/
def rollbackStep64 (st : Hypergraph × List Cnt × W2) (v : Nat) : Res (Hypergraph × List Cnt × W2) := do
  let (H, C, w) := st
  let x ← H.vertexOf v
  let w ← w.add64 x.part (-x.weight)
  let w ← w.add64 (other x.part) x.weight
  let (H, C) ← H.move v C
  pure (H, C, w)

/-- KLFM.cpp:65-115 `KLFM_pass`. -/
def KLFMPass64 (fuel : Nat) (H : Hypergraph) (C : List Cnt) (cut : Int) (w : W2) (max0 max1 : Int)
    (maxNoGain : Nat) (rng : Rng) : Res PassResult := do
  let gs ← GainStructure.create64 H C
  let st ← passLoop64 max0 max1 maxNoGain fuel
    { gs, w, cut, best := cut, noImp := [], rng }
  let (H, C, w) ← st.noImp.foldlM rollbackStep64 (st.gs.H, st.gs.C, st.w)
  pure { cut := st.best, H, C, w, rng := st.rng }

/-- KLFM.cpp:131-142: the while loop of `make_balanced`. -/
def balanceLoop64 (part : Int) (maxw : W2) : Nat → GainStructure × W2 × Int × Rng →
    Res (GainStructure × W2 × Int × Rng)
  | 0, _ => .error .fuel
  | f + 1, (gs, w, cut, rng) => do
    let wp ← w.get part
    let mp ← maxw.get part
    if wp > mp then do
      let (d, gs) ← gs.bucketDone64 part
      if d then pure (gs, w, cut, rng)
      else do
        let (v, gs, rng) ← gs.next64 part rng
        match v with
        | none => .error .abort
        | some v => do
          let x ← gs.H.vertexOf v
          let wo ← w.get (other part)
          let mo ← maxw.get (other part)
          let wo' ← long (wo + x.weight)
          if wo' ≤ mo then do
            let (g, gs) ← gs.gainNext64 part
            match g with
            | none => .error .ub
            | some g => do
              let cut ← long (cut - g)
              let w ← w.add64 part (-x.weight)
              let w ← w.add64 (other part) x.weight
              let gs ← gs.move64 v
              balanceLoop64 part maxw f (gs, w, cut, rng)
          else do
            let gs ← gs.remove64 v
            balanceLoop64 part maxw f (gs, w, cut, rng)
    else pure (gs, w, cut, rng)

/-- KLFM.cpp:117-144 `make_balanced`. -/
def makeBalanced64 (fuel : Nat) (H : Hypergraph) (C : List Cnt) (cut : Int) (w : W2)
    (max0 max1 : Int) (rng : Rng) : Res PassResult := do
  let gs ← GainStructure.create64 H C
  let part : Int := if w.w1 > max1 then 1 else 0
  let (gs, w, cut, rng) ← balanceLoop64 part ⟨max0, max1⟩ fuel (gs, w, cut, rng)
  pure { cut, H := gs.H, C := gs.C, w, rng }

/-- KLFM.cpp:49-58: the loop over passes. -/
def klfmLoop64 (fuel : Nat) (max0 max1 : Int) (maxNoGain : Nat) : Nat → PassResult → Res PassResult
  | 0, p => pure p
  | k + 1, p => do
    let q ← KLFMPass64 fuel p.H p.C p.cut p.w max0 max1 maxNoGain p.rng
    if q.cut < p.cut then klfmLoop64 fuel max0 max1 maxNoGain k q
    else pure { q with cut := p.cut }

/-- hypergraph.cpp:507-511: the work for one net in `cutsize(H, C)`. -/
def cutCStep64 (H : Hypergraph) (cut : Int) (ci : Cnt × Nat) : Res Int :=
  if ci.1.c0 > 0 ∧ ci.1.c1 > 0 then do
    let n ← vget H.nets ci.2
    long (cut + n.cost)
  else pure cut

/-- hypergraph.cpp:505-513 `cutsize(H, C)`. -/
def cutsizeC64 (H : Hypergraph) (C : List Cnt) : Res Int := (C.zipIdx).foldlM (cutCStep64 H) 0

/-- KLFM.cpp:31-37: the starting value; `none` is `LONG_MAX`. -/
def startCut64 (H : Hypergraph) (C : List Cnt) : Option Int → Res Int
  | none => cutsizeC64 H C
  | some c => .ok c

/-- KLFM.cpp:21-60 `KLFM`. -/
def KLFM64 (fuel : Nat) (H : Hypergraph) (C : List Cnt) (w : W2) (max0 max1 : Int)
    (opts : Options) (rng : Rng) (cutSize : Option Int) : Res PassResult := do
  let prev ← startCut64 H C cutSize
  let H ← H.sortVerticesOnPart C
  let p ← runIf (w.w0 > max0 ∨ w.w1 > max1) (makeBalanced64 fuel H C prev w max0 max1 rng)
    { cut := prev, H, C, w, rng }
  klfmLoop64 fuel max0 max1 opts.klfmMaxNoGainMoves opts.klfmMaxPasses p

end PMondriaan

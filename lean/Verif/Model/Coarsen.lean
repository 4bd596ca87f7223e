import Verif.Model.Contraction
import Verif.Model.InitPart

/-
Model of the sequential part of src/multilevel_bisect/coarsen.cpp and uncoarsen.cpp.
-/

namespace PMondriaan

/-- The floating-point operations used by the matching, on an arbitrary type: nothing is assumed
about rounding, infinities or NaN.
* `isZero x` is `x == 0.0` and `gt x y` is `x > y`;
* `scale d x` is `x * (1.0 / (double) d)`;
* `cost n` is `n.scaled_cost()` (hypergraph.hpp:70-72). -/
structure ScoreOps (F : Type) where
  zero : F
  isZero : F → Bool
  add : F → F → F
  scale : Nat → F → F
  gt : F → F → Bool
  cost : Net → F

/-- coarsen.cpp:346-352: one pin `u` of a net of scaled cost `c`; the state is `visited`, `ip`. -/
def visitPin {F : Type} (O : ScoreOps F) (H : Hypergraph) (matched : List Bool) (i : Nat) (c : F)
    (s : List Nat × List F) (u : Nat) : Res (List Nat × List F) := do
  let ul ← H.localId u
  let m ← vget matched ul
  if m = false ∧ ul ≠ i then do
    let x ← vget s.2 ul
    pure (if O.isZero x then s.1 ++ [ul] else s.1, s.2.set ul (O.add x c))
  else pure s

/-- coarsen.cpp:343-354: one net of the vertex at position `i`. -/
def visitNet {F : Type} (O : ScoreOps F) (H : Hypergraph) (matched : List Bool) (i : Nat)
    (s : List Nat × List F) (e : Nat) : Res (List Nat × List F) := do
  let n ← H.netOf e
  n.vertices.foldlM (visitPin O H matched i (O.cost n)) s

/-- coarsen.cpp:358-364: one candidate `u`; the state is `ip`, `max_ip`, `best_match`. -/
def pickStep {F : Type} (O : ScoreOps F) (H : Hypergraph) (maxC : Nat) (matchesL : List (List Nat))
    (v : Vertex) (s : List F × F × Option Nat) (u : Nat) : Res (List F × F × Option Nat) := do
  let x ← vget s.1 u
  let vu ← H.vertexAt u
  let l ← vget matchesL u
  let y := O.scale (min v.nets.length vu.nets.length) x
  if O.gt y s.2.1 = true ∧ l.length < maxC then pure (s.1.set u y, y, some u)
  else pure (s.1.set u y, s.2.1, s.2.2)

/-- coarsen.cpp:381-385 `add_v_to_list`: a copy with the same id, nets and weight (part −1). -/
def newVertex (v : Vertex) : Vertex := Vertex.mk' v.id v.nets v.weight

/-- coarsen.cpp:327-332: `matches`, `matched`, `new_v`, `ip`. -/
structure MState (F : Type) where
  matchesL : List (List Nat)
  matched : List Bool
  newV : List Vertex
  ip : List F

/-- coarsen.cpp:339-378: the body of the loop for position `i`. -/
def matchStep {F : Type} (O : ScoreOps F) (H : Hypergraph) (maxC : Nat) (s : MState F) (i : Nat) :
    Res (MState F) := do
  let v ← H.vertexAt i
  let l ← vget s.matchesL i
  if l = [] then do
    let (visited, ip1) ← v.nets.foldlM (visitNet O H s.matched i) ([], s.ip)
    let (ip2, _, best) ← visited.foldlM (pickStep O H maxC s.matchesL v) (ip1, O.zero, none)
    let ip3 := visited.foldl (fun (ip : List F) u => ip.set u O.zero) ip2
    match best with
    | some b => do
      let lb ← vget s.matchesL b
      pure { matchesL := s.matchesL.set b (lb ++ [v.id]), matched := s.matched.set i true,
             newV := s.newV, ip := ip3 }
    | none => pure { s with newV := s.newV ++ [newVertex v], ip := ip3 }
  else pure { s with newV := s.newV ++ [newVertex v] }

/-! ### contract_hypergraph -/

/-- `net.add_vertex(u)`. hypergraph.hpp:62 -/
def addPinOf (HC : Hypergraph) (u e : Nat) : Res Hypergraph :=
  HC.modifyNet e (fun n => { n with vertices := n.vertices ++ [u] })

/-- coarsen.cpp:421-426: one net of a match. The current vertex is kept apart from `HC` until it is
finished (nothing reads it in between); `nets_set` holds the same elements as its net list. -/
def contractNet (s : Hypergraph × Vertex) (e : Nat) : Res (Hypergraph × Vertex) :=
  if e ∈ s.2.nets then pure s
  else do
    let HC ← addPinOf s.1 s.2.id e
    pure (HC, { s.2 with nets := s.2.nets ++ [e] })

/-- coarsen.cpp:418-427: one match of the sample at position `i`. -/
def contractMatch (H : Hypergraph) (rank i : Nat) (s : Hypergraph × Contraction × Vertex)
    (m : Nat) : Res (Hypergraph × Contraction × Vertex) := do
  let C ← s.2.1.addMatch i m rank
  let u ← H.vertexOf m
  let (HC, v) ← u.nets.foldlM contractNet
    (s.1, { s.2.2 with weight := s.2.2.weight + u.weight })
  pure (HC, C, v)

/-- coarsen.cpp:402-429: the body of the loop for the new vertex at position `i`;
`sample_count − 1` is `i`. -/
def contractVertex (H : Hypergraph) (matchesL : List (List Nat)) (rank : Nat)
    (s : Hypergraph × Contraction) (i : Nat) : Res (Hypergraph × Contraction) := do
  let v ← s.1.vertexAt i
  let l ← H.localId v.id
  let HC ← v.nets.foldlM (fun HC e => addPinOf HC v.id e) s.1
  let ms ← vget matchesL l
  let (HC, C, v') ← ms.foldlM (contractMatch H rank i) (HC, s.2.addSample v.id, v)
  pure (HC.setVertex i v', C)

/-- coarsen.cpp:387-434 `contract_hypergraph` (sequential). `order` as in `removeFreeNets`. -/
def contractSeq (order : List Nat → List Nat) (rank : Nat) (H : Hypergraph) (C : Contraction)
    (matchesL : List (List Nat)) (newV : List Vertex) : Res (Hypergraph × Contraction) := do
  let HC0 := Hypergraph.create newV.length H.globalNumberNets newV
    (H.nets.map (fun n => Net.mk' n.id [] n.cost))
  let (HC1, C1) ← (List.range newV.length).foldlM (contractVertex H matchesL rank) (HC0, C)
  let HC2 ← removeFreeNets order HC1 1
  let (C2, HC3) ← C1.mergeFree HC2
  pure (HC3, C2)

/-- coarsen.cpp:321-379 `coarsen_hypergraph_seq`: the coarse hypergraph, the contraction and the
generator. -/
def coarsenSeq {F : Type} (O : ScoreOps F) (shuf : Shuffle) (order : List Nat → List Nat)
    (rank : Nat) (H : Hypergraph) (C : Contraction) (opts : Options) (rng : Rng) :
    Res (Hypergraph × Contraction × Rng) := do
  let n := H.vertices.length
  let (indices, rng) := shuf rng (List.range n)
  let s ← indices.foldlM (matchStep O H opts.maxClustersize)
    { matchesL := List.replicate n [], matched := List.replicate n false, newV := [],
      ip := List.replicate n O.zero }
  let (HC, C) ← contractSeq order rank H C s.matchesL s.newV
  pure (HC, C, rng)

/-! ### uncoarsen.cpp -/

/-- uncoarsen.cpp:103-108: one vertex of `HC`. -/
def uncoarsenVertex (H : Hypergraph) (v : Vertex) : Res Hypergraph :=
  match H.vmap v.id with
  | some i => H.setPartAt i v.part
  | none => pure H

/-- uncoarsen.cpp:110-116: the matches of the sample at position `i`. -/
def uncoarsenSample (HC : Hypergraph) (C : Contraction) (H : Hypergraph) (i : Nat) :
    Res Hypergraph := do
  let s ← vget C.samples i
  let v ← HC.vertexOf s
  let ms ← vget C.matched i
  ms.foldlM (fun (H : Hypergraph) m => H.setPartOf m.1 v.part) H

/-- uncoarsen.cpp:99-117 `uncoarsen_hypergraph` (sequential). -/
def uncoarsen (HC H : Hypergraph) (C : Contraction) : Res Hypergraph := do
  let H1 ← HC.vertices.foldlM uncoarsenVertex H
  (List.range C.samples.length).foldlM (uncoarsenSample HC C) H1

/-- uncoarsen.cpp:25-39 `uncoarsen_hypergraph_seq`. The argument `cut_size` is not used by the
code; `KLFM` computes the cutsize itself. -/
def uncoarsenSeq (fuel : Nat) (srt : List (Nat × Int) → List (Nat × Int)) (HC H : Hypergraph)
    (C : Contraction) (opts : Options) (max0 max1 : Int) (rng : Rng) : Res PassResult := do
  let a ← C.assignFree srt HC max0 max1 rng
  let H1 ← uncoarsen a.H H C
  let counts ← initCounts H1
  KLFM fuel H1 counts ⟨a.w0, a.w1⟩ max0 max1 opts a.rng none

end PMondriaan

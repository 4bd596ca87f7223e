import Verif.Basic
import Mathlib.Data.List.Sort

/-
Model of include/hypergraph/hypergraph.hpp and the sequential part of
src/hypergraph/hypergraph.cpp.
-/

namespace PMondriaan

/-- include/hypergraph/hypergraph.hpp:24-47 `class vertex`. `part = -1` means unassigned. -/
structure Vertex where
  id : Nat
  nets : List Nat
  weight : Int := 1
  part : Int := -1
deriving DecidableEq, Repr

/-- hypergraph.hpp:52-79 `class net`. -/
structure Net where
  id : Nat
  vertices : List Nat
  cost : Int := 1
  globalSize : Nat := 0
deriving DecidableEq, Repr

/-- hypergraph.hpp:228-237, the data members of `class hypergraph`. The two
`unordered_map`s are modelled as partial functions (they are never iterated). -/
structure Hypergraph where
  globalSize : Nat
  globalNumberNets : Nat
  vertices : List Vertex
  nets : List Net
  nrNz : Nat := 0
  vmap : Nat → Option Nat
  nmap : Nat → Option Nat
  dups : List (Net × Nat) := []

/-- `m[k] = v` / `insert_or_assign`. -/
def mapSet (m : Nat → Option Nat) (k v : Nat) : Nat → Option Nat :=
  fun x => if x = k then some v else m x

/-- `m.erase(k)`. -/
def mapErase (m : Nat → Option Nat) (k : Nat) : Nat → Option Nat :=
  fun x => if x = k then none else m x

/-- The loop shared by `update_map` and `update_map_nets`
(src/hypergraph/hypergraph.cpp:218-230): positions of the ids, later ones win. -/
def buildMap (ids : List Nat) : Nat → Option Nat :=
  (ids.zipIdx).foldl (fun m p => mapSet m p.1 p.2) (fun _ => none)

/-- hypergraph.hpp:26-27 constructor of `vertex` (part is -1). -/
def Vertex.mk' (id : Nat) (nets : List Nat) (weight : Int := 1) : Vertex :=
  { id := id, nets := nets, weight := weight, part := -1 }

/-- hypergraph.hpp:54-55 constructor of `net` (global size 0). -/
def Net.mk' (id : Nat) (vertices : List Nat) (cost : Int := 1) : Net :=
  { id := id, vertices := vertices, cost := cost, globalSize := 0 }

namespace Hypergraph

/-- hypergraph.cpp:218-223 `update_map`. -/
def updateMap (H : Hypergraph) : Hypergraph :=
  { H with vmap := buildMap (H.vertices.map (·.id)) }

/-- hypergraph.cpp:225-230 `update_map_nets`. -/
def updateMapNets (H : Hypergraph) : Hypergraph :=
  { H with nmap := buildMap (H.nets.map (·.id)) }

/-- hypergraph.hpp:87-96, the main constructor. -/
def create (globalSize globalNumberNets : Nat) (vertices : List Vertex) (nets : List Net)
    (nrNz : Nat := 0) : Hypergraph :=
  { globalSize, globalNumberNets, vertices, nets, nrNz,
    vmap := buildMap (vertices.map (·.id)), nmap := buildMap (nets.map (·.id)), dups := [] }

/-- hypergraph.hpp:177-182 `local_id`: two asserts, then the map entry. -/
def localId (H : Hypergraph) (id : Nat) : Res Nat :=
  match H.vmap id with
  | none => .error .abort
  | some i => if i < H.vertices.length then .ok i else .error .abort

/-- hypergraph.hpp:184-186 `local_id_net` (`.at` throws on a missing key). -/
def localIdNet (H : Hypergraph) (id : Nat) : Res Nat :=
  match H.nmap id with
  | none => .error .throw
  | some i => .ok i

/-- hypergraph.hpp:188-190 `is_local`. -/
def isLocal (H : Hypergraph) (id : Nat) : Bool := (H.vmap id).isSome

/-- hypergraph.hpp:191-193 `is_local_net`. -/
def isLocalNet (H : Hypergraph) (id : Nat) : Bool := (H.nmap id).isSome

/-- hypergraph.hpp:202-205 `operator()(index)` with its assert. -/
def vertexAt (H : Hypergraph) (i : Nat) : Res Vertex :=
  match H.vertices[i]? with
  | some v => .ok v
  | none => .error .abort

/-- `H(H.local_id(id))`, or `vertices_[local_id(id)]`: the vertex with the given id. -/
def vertexOf (H : Hypergraph) (id : Nat) : Res Vertex := do
  let i ← H.localId id
  H.vertexAt i

/-- hypergraph.hpp:210-215 `net(id)`: asserts that the id is present and in range.
Returns the position and the net (the caller may mutate it in place). -/
def netOf (H : Hypergraph) (id : Nat) : Res Net :=
  match H.nmap id with
  | none => .error .abort
  | some i =>
    match H.nets[i]? with
    | some n => .ok n
    | none => .error .abort

/-- `size()`. hypergraph.hpp:217 -/
def size (H : Hypergraph) : Nat := H.vertices.length

/-- Replace the vertex at position `i` (a mutation through a `vertex&`). -/
def setVertex (H : Hypergraph) (i : Nat) (v : Vertex) : Hypergraph :=
  { H with vertices := H.vertices.set i v }

/-- Replace the net at position `i` (a mutation through a `net&`). -/
def setNet (H : Hypergraph) (i : Nat) (n : Net) : Hypergraph :=
  { H with nets := H.nets.set i n }

/-- `H(i).set_part(p)`. hypergraph.hpp:37,202-205 -/
def setPartAt (H : Hypergraph) (i : Nat) (p : Int) : Res Hypergraph := do
  let v ← H.vertexAt i
  pure (H.setVertex i { v with part := p })

/-- `H(H.local_id(id)).set_part(p)`. -/
def setPartOf (H : Hypergraph) (id : Nat) (p : Int) : Res Hypergraph := do
  let i ← H.localId id
  H.setPartAt i p

/-- Mutation of `net(id)` in place by `f`. hypergraph.hpp:210-215 -/
def modifyNet (H : Hypergraph) (id : Nat) (f : Net → Net) : Res Hypergraph :=
  match H.nmap id with
  | none => .error .abort
  | some i =>
    match H.nets[i]? with
    | some n => .ok (H.setNet i (f n))
    | none => .error .abort

/-- hypergraph.cpp:30-36 `total_weight`. -/
def totalWeight (H : Hypergraph) : Int :=
  H.vertices.foldl (fun t v => t + v.weight) 0

/-- hypergraph.cpp:39-47 `weight_part`. -/
def weightPart (H : Hypergraph) (part : Int) : Int :=
  H.vertices.foldl (fun t v => if v.part = part then t + v.weight else t) 0

/-- hypergraph.cpp:50-56 `weight_all_parts`: `total[v.part()] += v.weight()`. -/
def weightAllParts (H : Hypergraph) (k : Nat) : Res (List Int) :=
  H.vertices.foldlM (fun t v => do
    let x ← vgetI t v.part
    vsetI t v.part (x + v.weight)) (List.replicate k 0)

/-- hypergraph.cpp:59-62 `add_vertex`. -/
def addVertex (H : Hypergraph) (id : Nat) (nets : List Nat) (weight : Int := 1) : Hypergraph :=
  { H with
    vertices := H.vertices ++ [Vertex.mk' id nets weight],
    vmap := mapSet H.vmap id H.vertices.length }

/-- hypergraph.cpp:73-78 `add_net`: only if no net with this id is present. -/
def addNet (H : Hypergraph) (id : Nat) (vertices : List Nat) (cost : Int := 1) : Hypergraph :=
  if (H.nmap id).isSome then H
  else { H with
    nets := H.nets ++ [Net.mk' id vertices cost],
    nmap := mapSet H.nmap id H.nets.length }

/-- hypergraph.cpp:65-70 `add_local_net`. -/
def addLocalNet (H : Hypergraph) (n : Net) : Res Hypergraph :=
  n.vertices.foldlM (fun H u => do
    let i ← H.localId u
    let v ← vget H.vertices i
    pure (H.setVertex i { v with nets := v.nets ++ [n.id] })) (H.addNet n.id n.vertices n.cost)

/-- hypergraph.cpp:80-84 `add_to_nets`. -/
def addToNets (H : Hypergraph) (v : Vertex) : Res Hypergraph :=
  v.nets.foldlM (fun H e => do
    let j ← H.localIdNet e
    let n ← vget H.nets j
    pure (H.setNet j { n with vertices := n.vertices ++ [v.id] })) H

/-- hypergraph.cpp:87-95 `remove_from_nets`: swap-remove the first occurrence in each net. -/
def removeFromNets (H : Hypergraph) (id : Nat) : Hypergraph :=
  { H with nets := H.nets.map (fun n => { n with vertices := swapRemove n.vertices id }) }

/-- hypergraph.cpp:22-28 `vertex::remove_net`. -/
def _root_.PMondriaan.Vertex.removeNet (v : Vertex) (e : Nat) : Vertex :=
  { v with nets := swapRemove v.nets e }

/-- hypergraph.cpp:98-104 `remove_free_vertex`.
`global_to_local[id]` on a missing key inserts 0 (no assert here).
After `pop_back`, `vertices_[index].id()` reads position `index`; when the removed vertex was
the last one this reads the just-destroyed element. This definition models what compiled code
does: the destroyed element still holds the removed id. See `removeFreeVertexStrict`. -/
def removeFreeVertex (H : Hypergraph) (id : Nat) : Res Hypergraph :=
  let index := (H.vmap id).getD 0
  match H.vertices[index]? with
  | none => .error .ub
  | some v =>
    let vs := swapRemoveAt H.vertices index
    let staleId := match vs[index]? with
      | some w => w.id
      | none => v.id
    .ok { H with vertices := vs, vmap := mapErase (mapSet H.vmap staleId index) id }

/-- hypergraph.cpp:98-104 under the C++ standard: `vertices_[index]` past the end is `ub`. -/
def removeFreeVertexStrict (H : Hypergraph) (id : Nat) : Res Hypergraph := do
  let index := (H.vmap id).getD 0
  let _ ← vget H.vertices index
  let vs := swapRemoveAt H.vertices index
  let w ← vget vs index
  pure { H with vertices := vs, vmap := mapErase (mapSet H.vmap w.id index) id }

/-- hypergraph.cpp:107-116 `remove_net_by_index`. As in `removeFreeVertex`, removing the last
net reads the just-destroyed element, which still holds the removed id in compiled code. -/
def removeNetByIndex (H : Hypergraph) (index : Nat) : Res Hypergraph :=
  match H.nets[index]? with
  | none => .error .ub
  | some n => do
    let H1 ← n.vertices.foldlM (fun H u => do
      let i ← H.localId u
      let v ← vget H.vertices i
      pure (H.setVertex i (v.removeNet n.id))) H
    let ns := swapRemoveAt H1.nets index
    let staleId := match ns[index]? with
      | some m => m.id
      | none => n.id
    pure { H1 with nets := ns, nmap := mapErase (mapSet H1.nmap staleId index) n.id }

/-- hypergraph.cpp:107-116 under the C++ standard. -/
def removeNetByIndexStrict (H : Hypergraph) (index : Nat) : Res Hypergraph := do
  let n ← vget H.nets index
  let H1 ← n.vertices.foldlM (fun H u => do
    let i ← H.localId u
    let v ← vget H.vertices i
    pure (H.setVertex i (v.removeNet n.id))) H
  let ns := swapRemoveAt H1.nets index
  let m ← vget ns index
  pure { H1 with nets := ns, nmap := mapErase (mapSet H1.nmap m.id index) n.id }

/-- hypergraph.hpp:145 `remove_net`. -/
def removeNet (H : Hypergraph) (id : Nat) : Res Hypergraph := do
  let j ← H.localIdNet id
  H.removeNetByIndex j

/-- hypergraph.cpp:119-122 `remove_duplicate_net`. -/
def removeDuplicateNet (H : Hypergraph) (id dup : Nat) : Res Hypergraph := do
  let n ← H.netOf id
  ({ H with dups := H.dups ++ [(n, dup)] }).removeNet id

/-- hypergraph.cpp:125-131 `reset_duplicate_nets` (the vector is not cleared). -/
def resetDuplicateNets (H : Hypergraph) : Res Hypergraph :=
  H.dups.foldlM (fun H d => do
    let H1 ← H.addLocalNet d.1
    let n ← H1.netOf d.2
    H1.modifyNet d.2 (fun m => { m with cost := n.cost - d.1.cost })) H

/-- hypergraph.cpp:134-139 `sort_vertices`. Any sorting algorithm gives the same list of ids. -/
def sortVertices (H : Hypergraph) : Hypergraph :=
  { H with nets := H.nets.map (fun n => { n with vertices := n.vertices.insertionSort (· ≤ ·) }) }

/-- hypergraph.hpp:107-109 and hypergraph.cpp:636-638, one net `e` of a vertex `u`:
`nets[H.local_id_net(e)].add_vertex(u)`. -/
def refillPin (H : Hypergraph) (u : Nat) (nets : List Net) (e : Nat) : Res (List Net) := do
  let j ← H.localIdNet e
  let n ← vget nets j
  pure (nets.set j { n with vertices := n.vertices ++ [u] })

/-- hypergraph.hpp:106-110 and hypergraph.cpp:635-639: the pins of `nets` are filled from the net
lists of the vertices `vs`; positions are those of `H`. -/
def refill (H : Hypergraph) (vs : List Vertex) (nets : List Net) : Res (List Net) :=
  vs.foldlM (fun nets v => v.nets.foldlM (refillPin H v.id) nets) nets

/-- hypergraph.hpp:98-114 copy constructor: costs are *not* copied (they become 1) and the
list of duplicates is not copied; the pins are rebuilt from the vertex side. -/
def copy (H : Hypergraph) : Res Hypergraph := do
  let nets ← H.refill H.vertices
    (H.nets.map (fun n => { Net.mk' n.id [] with globalSize := n.globalSize }))
  pure { globalSize := H.globalSize, globalNumberNets := H.globalNumberNets,
         vertices := H.vertices, nets := nets, nrNz := H.nrNz,
         vmap := buildMap (H.vertices.map (·.id)), nmap := buildMap (nets.map (·.id)),
         dups := [] }

/-- hypergraph.cpp:232-236 `set_global_net_sizes`. -/
def setGlobalNetSizes (H : Hypergraph) (sizes : List Nat) : Res Hypergraph := do
  let nets ← (H.nets.zipIdx).mapM (fun (n, i) => do
    let s ← vget sizes i
    pure { n with globalSize := s })
  pure { H with nets := nets }

end Hypergraph

/-! ### Counts of a bisection -/

/-- A row of `C`: `std::vector<long>(2, 0)`, the number of pins in part 0 and in part 1. -/
structure Cnt where
  c0 : Int
  c1 : Int
deriving DecidableEq, Repr

/-- `C[i][part]` on a vector of length 2. -/
def Cnt.get (c : Cnt) (part : Int) : Res Int :=
  if part = 0 then .ok c.c0 else if part = 1 then .ok c.c1 else .error .ub

/-- `C[i][part] += d` on a vector of length 2. -/
def Cnt.add (c : Cnt) (part : Int) (d : Int) : Res Cnt :=
  if part = 0 then .ok { c with c0 := c.c0 + d }
  else if part = 1 then .ok { c with c1 := c.c1 + d } else .error .ub

/-- `C[j][part]`. -/
def cGet (C : List Cnt) (j : Nat) (part : Int) : Res Int := do
  let c ← vget C j
  c.get part

/-- `C[j][part] += d`. -/
def cAdd (C : List Cnt) (j : Nat) (part : Int) (d : Int) : Res (List Cnt) := do
  let c ← vget C j
  let c' ← c.add part d
  pure (C.set j c')

/-- hypergraph.cpp:283-292 `init_counts`. -/
def initCounts (H : Hypergraph) : Res (List Cnt) :=
  H.vertices.foldlM (fun C v =>
    v.nets.foldlM (fun C e => do
      let j ← H.localIdNet e
      cAdd C j v.part 1) C) (List.replicate H.nets.length ⟨0, 0⟩)

/-- `(part + 1) % 2` as used throughout; for `part ∈ {0,1}` the other part.
(C++ `%` and `Int.emod` agree for `part ≥ -1`.) -/
def other (part : Int) : Int := (part + 1) % 2

namespace Hypergraph

/-- The part of the vertex with id `u`: `vertices_[local_id(u)].part()`. -/
def partOfV (H : Hypergraph) (u : Nat) : Res Int := do
  let v ← H.vertexOf u
  pure v.part

/-- hypergraph.cpp:150-152 `while (vertices_[local_id(vertex_list[end])].part() == 1) end--;`
The argument and the result are `end + 1`; running below position 0 is `ub`. -/
def skipOnes (H : Hypergraph) (l : List Nat) : Nat → Res Nat
  | 0 => .error .ub
  | e + 1 => do
    let u ← vget l e
    let p ← H.partOfV u
    if p = 1 then skipOnes H l e else pure (e + 1)

/-- hypergraph.cpp:146-158: the outer while loop on one net; `e1` is `end + 1`.
Every iteration either increments `index` or is followed by one that does. -/
def sortNetLoop (H : Hypergraph) (c0 : Int) : Nat → List Nat → Nat → Nat → Res (List Nat)
  | 0, _, _, _ => .error .fuel
  | f + 1, l, index, e1 =>
    if (index : Int) < c0 then do
      let u ← vget l index
      let p ← H.partOfV u
      if p ≠ 0 then do
        let e2 ← H.skipOnes l e1
        let l' ← vswap l index (e2 - 1)
        sortNetLoop H c0 f l' index (e2 - 1)
      else sortNetLoop H c0 f l (index + 1) e1
    else pure l

/-- hypergraph.cpp:142-160 `sort_vertices_on_part`. Fuel: two iterations per pin and one to stop. -/
def sortVerticesOnPart (H : Hypergraph) (C : List Cnt) : Res Hypergraph := do
  let nets ← (H.nets.zipIdx).mapM (fun (n, i) => do
    let c ← vget C i
    let l ← sortNetLoop H c.c0 (2 * n.vertices.length + 1) n.vertices 0 n.vertices.length
    pure { n with vertices := l })
  pure { H with nets := nets }

/-- hypergraph.cpp:168-177 (vertex moved to part 0) and 179-188 (moved to part 1), one net:
find the vertex and swap it to the border between the parts. -/
def borderSwap (l : List Nat) (c0 : Int) (id : Nat) (newPart : Int) : Res (List Nat) :=
  if newPart = 0 then
    if c0 < 0 then .error .ub else do
      let i ← findFrom l c0.toNat id
      vswap l i c0.toNat
  else
    do
      let i ← findFrom l 0 id
      if c0 - 1 < 0 then .error .ub else vswap l i (c0 - 1).toNat

/-- hypergraph.cpp:163-190 `move_sorted` (before updating the counts). -/
def moveSorted (H : Hypergraph) (id : Nat) (C : List Cnt) : Res Hypergraph := do
  let idl ← H.localId id
  let v ← vget H.vertices idl
  let np := other v.part
  let H1 := H.setVertex idl { v with part := np }
  v.nets.foldlM (fun H e => do
    let n ← H.netOf e
    let j ← H.localIdNet e
    let c ← vget C j
    let l ← borderSwap n.vertices c.c0 id np
    H.modifyNet e (fun m => { m with vertices := l })) H1

/-- hypergraph.cpp:192-201 `move(id, C)`. -/
def move (H : Hypergraph) (id : Nat) (C : List Cnt) : Res (Hypergraph × List Cnt) := do
  let idl ← H.localId id
  let v ← vget H.vertices idl
  let H1 ← H.moveSorted id C
  let v1 ← vget H1.vertices idl
  let C1 ← v1.nets.foldlM (fun C e => do
    let j ← H1.localIdNet e
    let C ← cAdd C j v.part (-1)
    cAdd C j v1.part 1) C
  pure (H1, C1)

/-- hypergraph.cpp:203-216 `move(id, C, C_loc)`. -/
def moveLoc (H : Hypergraph) (id : Nat) (C Cloc : List Cnt) :
    Res (Hypergraph × List Cnt × List Cnt) := do
  let idl ← H.localId id
  let v ← vget H.vertices idl
  let H1 ← H.moveSorted id Cloc
  let v1 ← vget H1.vertices idl
  let (C1, L1) ← v1.nets.foldlM (fun (C, L) e => do
    let j ← H1.localIdNet e
    let C ← cAdd C j v.part (-1)
    let C ← cAdd C j v1.part 1
    let L ← cAdd L j v.part (-1)
    let L ← cAdd L j v1.part 1
    pure (C, L)) (C, Cloc)
  pure (H1, C1, L1)

end Hypergraph

/-! ### Cutsize -/

/-- include/options.hpp:5 `enum class m`. -/
inductive Metric
  | cutNet | lambdaMinusOne
deriving DecidableEq, Repr

/-- `unordered_set::insert` on a list used as a set. -/
def setInsert {α : Type} [DecidableEq α] (s : List α) (x : α) : List α :=
  if x ∈ s then s else s ++ [x]

/-- hypergraph.cpp:416-419, 428-431: the set of labels of a net. -/
def labelsNet (H : Hypergraph) (n : Net) : Res (List Int) :=
  n.vertices.foldlM (fun s u => do
    let p ← H.partOfV u
    pure (setInsert s p)) []

/-- hypergraph.cpp:416-422, 428-434: the work of `cutsize` for one net. -/
def cutStep (H : Hypergraph) (metric : Metric) (result : Int) (n : Net) : Res Int := do
  let s ← labelsNet H n
  if s.length > 1 then
    match metric with
    | .cutNet => pure (result + n.cost)
    | .lambdaMinusOne => pure (result + ((s.length : Int) - 1) * n.cost)
  else pure result

/-- hypergraph.cpp:411-444 `cutsize(H, metric)`. -/
def cutsize (H : Hypergraph) (metric : Metric) : Res Int :=
  H.nets.foldlM (cutStep H metric) 0

/-- hypergraph.cpp:505-513 `cutsize(H, C)`. -/
def cutsizeC (H : Hypergraph) (C : List Cnt) : Res Int :=
  (C.zipIdx).foldlM (fun cut (c, i) =>
    if c.c0 > 0 ∧ c.c1 > 0 then do
      let n ← vget H.nets i
      pure (cut + n.cost)
    else pure cut) 0

/-- hypergraph.cpp:579-591 `remove_free_nets(H, max_size)`. `order` is the iteration order of the
`unordered_set` of ids to remove (any permutation of it). -/
def removeFreeNets (order : List Nat → List Nat) (H : Hypergraph) (maxSize : Nat) :
    Res Hypergraph :=
  let rem := (H.nets.filter (fun n => n.vertices.length ≤ maxSize)).map (·.id)
  let H1 := { H with nets := H.nets.map (fun n =>
    if n.vertices.length ≤ maxSize then n else { n with globalSize := n.vertices.length }) }
  (order rem).foldlM (fun H id => do
    let j ← H.localIdNet id
    H.removeNetByIndex j) H1

end PMondriaan

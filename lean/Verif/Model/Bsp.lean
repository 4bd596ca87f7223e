import Verif.Model.Hypergraph

/-
Superstep model of the Bulk primitives used by the code, and the distributed functions of
src/hypergraph/hypergraph.cpp and include/algorithm.hpp.

The state of a parallel program is the list of the local states, one per processor. A
`world.sync()` ends a superstep: all messages sent before it are delivered. The arrival order of
the messages at each processor is a parameter `d : Delivery M`; theorems assume only that it
permutes the messages (`Fair d`). Bulk itself is not in the repository: this file states what the
model assumes of it.
-/

namespace PMondriaan

/-- Arrival order of messages, per receiving processor. -/
abbrev Delivery (M : Type) := Nat → List M → List M

/-- Every message arrives exactly once. -/
def Fair {M : Type} (d : Delivery M) : Prop := ∀ t l, (d t l).Perm l

/-- The `bulk::queue` contents at processor `t` after the sync, given what each processor sent
(pairs of target and message, in program order). -/
def inbox {M : Type} (d : Delivery M) (outs : List (List (Nat × M))) (t : Nat) : List M :=
  d t ((outs.flatten.filter (fun x => x.1 = t)).map (·.2))

/-- `queue(target).send(m)`: the target must be a processor. -/
def send {M : Type} (p target : Nat) (m : M) : Res (Nat × M) :=
  if target < p then .ok (target, m) else .error .ub

/-- `bulk::block_partitioning<1>`: owner and local index of a global index, number of local
indices of a processor, and global index of a local one. -/
structure NetPart where
  owner : Nat → Nat
  loc : Nat → Nat
  count : Nat → Nat
  glob : Nat → Nat → Nat

/-- What is assumed of `bulk::block_partitioning<1>({N}, {p})`: the pairs (processor, local index
below the local count) are in bijection with the global indices below `N`. -/
structure NetPart.Valid (np : NetPart) (p N : Nat) : Prop where
  owner_lt : ∀ e, e < N → np.owner e < p
  loc_lt : ∀ e, e < N → np.loc e < np.count (np.owner e)
  glob_loc : ∀ e, e < N → np.glob (np.loc e) (np.owner e) = e
  glob_lt : ∀ s, s < p → ∀ i, i < np.count s → np.glob i s < N
  owner_glob : ∀ s, s < p → ∀ i, i < np.count s → np.owner (np.glob i s) = s
  loc_glob : ∀ s, s < p → ∀ i, i < np.count s → np.loc (np.glob i s) = i

/-- Bulk's formula: blocks of size `⌈N / p⌉`. -/
def blockPart (p N : Nat) : NetPart :=
  let b := (N - 1) / p + 1
  { owner := fun e => e / b
    loc := fun e => e % b
    count := fun s => min b (N - s * b)
    glob := fun i s => s * b + i }

/-- `bulk::sum(world, x)`: every processor gets the sum of all contributions. -/
def bulkSum (xs : List Int) : List Int := xs.map (fun _ => xs.foldl (· + ·) 0)

/-! ### Weights -/

/-- hypergraph.cpp:338-343 `recompute_global_size`. -/
def recomputeGlobalSize (Hs : List Hypergraph) : List Hypergraph :=
  Hs.map (fun H => { H with globalSize := (Hs.map (·.vertices.length)).foldl (· + ·) 0 })

/-- hypergraph.cpp:345-352 `global_weight`. -/
def globalWeight (Hs : List Hypergraph) : List Int := bulkSum (Hs.map (·.totalWeight))

/-- hypergraph.cpp:354-361 `global_weight_part`. -/
def globalWeightPart (Hs : List Hypergraph) (part : Int) : List Int :=
  bulkSum (Hs.map (·.weightPart part))

/-- One `lhs += rhs` of `bulk::foldl_each` on vectors. -/
def addEach (a b : List Int) : List Int := List.zipWith (· + ·) a b

/-- hypergraph.cpp:363-372 `global_weight_parts`: `foldl_each` adds, index by index, over all
processors. -/
def globalWeightParts (Hs : List Hypergraph) (k : Nat) : Res (List (List Int)) := do
  let ws ← Hs.mapM (fun H => H.weightAllParts k)
  pure (Hs.map (fun _ => ws.foldl addEach (List.replicate k 0)))

/-! ### Cutsize -/

/-- Message of the cutsize queue: net id, labels present, cost. -/
structure LabelMsg where
  net : Nat
  labels : List Int
  cost : Int

/-- hypergraph.cpp:455-465: the messages one processor sends. `so` is the iteration order of the
label set. -/
def cutSends (so : List Int → List Int) (p : Nat) (np : NetPart) (H : Hypergraph) :
    Res (List (Nat × LabelMsg)) :=
  H.nets.mapM (fun n => do
    let s ← labelsNet H n
    send p (np.owner n.id) ⟨n.id, so s, n.cost⟩)

/-- hypergraph.cpp:471-476: one received message. -/
def cutReceive (np : NetPart) (st : List (List Int) × List Int) (m : LabelMsg) :
    Res (List (List Int) × List Int) := do
  let costs ← vset st.2 (np.loc m.net) m.cost
  let s ← vget st.1 (np.loc m.net)
  let sets ← vset st.1 (np.loc m.net) (m.labels.foldl setInsert s)
  pure (sets, costs)

/-- hypergraph.cpp:478-497: the local sum over the owned nets. -/
def cutLocal (metric : Metric) (sets : List (List Int)) (costs : List Int) : Int :=
  (List.zip sets costs).foldl (fun r x =>
    if x.1.length > 1 then
      match metric with
      | .cutNet => r + x.2
      | .lambdaMinusOne => r + ((x.1.length : Int) - 1) * x.2
    else r) 0

/-- hypergraph.cpp:449-500 `cutsize(world, H, metric)`: the value returned by each processor. -/
def cutsizePar (so : List Int → List Int) (d : Delivery LabelMsg) (np : NetPart)
    (Hs : List Hypergraph) (metric : Metric) : Res (List Int) := do
  let outs ← Hs.mapM (cutSends so Hs.length np)
  let rs ← (List.range Hs.length).mapM (fun t => do
    let (sets, costs) ← (inbox d outs t).foldlM (cutReceive np)
      (List.replicate (np.count t) [], List.replicate (np.count t) 0)
    pure (cutLocal metric sets costs))
  pure (bulkSum rs)

/-! ### Counts and net sizes -/

/-- `a[i] += x`. -/
def vaddAt (a : List Int) (i : Nat) (x : Int) : Res (List Int) := do
  let y ← vget a i
  vset a i (y + x)

/-- hypergraph.cpp:306-311: one net of the sending loop of `init_counts(world, H)`. -/
def countSend (p : Nat) (np : NetPart) (H : Hypergraph) (acc : List (Nat × (Nat × Int)))
    (x : Cnt × Nat) : Res (List (Nat × (Nat × Int))) :=
  if x.1.c0 > 0 then do
    let n ← vget H.nets x.2
    let m ← send p (np.owner n.id) (n.id, x.1.c0)
    pure (acc ++ [m])
  else pure acc

/-- hypergraph.cpp:306-311: the messages one processor sends. -/
def countSends (p : Nat) (np : NetPart) (H : Hypergraph) (C : List Cnt) :
    Res (List (Nat × (Nat × Int))) :=
  (C.zipIdx).foldlM (countSend p np H) []

/-- hypergraph.cpp:315-321: accumulate the received counts. -/
def countOwned (np : NetPart) (t : Nat) (msgs : List (Nat × Int)) : Res (List Int) :=
  msgs.foldlM (fun a (m : Nat × Int) => vaddAt a (np.loc m.1) m.2) (List.replicate (np.count t) 0)

/-- hypergraph.cpp:297-335 `init_counts(world, H)`. The `get`s of the coarray are served at the
sync, after every processor has filled its part. -/
def initCountsPar (d : Delivery (Nat × Int)) (np : NetPart) (Hs : List Hypergraph) :
    Res (List (List Cnt)) := do
  let outs ← Hs.mapM (fun H => do
    let C ← initCounts H
    countSends Hs.length np H C)
  let owned ← (List.range Hs.length).mapM (fun t => countOwned np t (inbox d outs t))
  Hs.mapM (fun H => H.nets.mapM (fun n => do
    let a ← vget owned (np.owner n.id)
    let c ← vget a (np.loc n.id)
    pure ⟨c, (n.globalSize : Int) - c⟩))

/-- hypergraph.cpp:526-529: the first messages of `global_net_sizes`. -/
def sizeSends (p : Nat) (np : NetPart) (H : Hypergraph) : Res (List (Nat × (Nat × Int))) :=
  H.nets.mapM (fun n => send p (np.owner n.id) (n.id, (n.vertices.length : Int)))

/-- hypergraph.cpp:539-546: the owner sends each positive size to every processor. -/
def sizeReplies (p : Nat) (np : NetPart) (t : Nat) (sizes : List Int) : List (Nat × (Nat × Int)) :=
  (sizes.zipIdx).flatMap (fun (s, i) =>
    if s > 0 then (List.range p).map (fun r => (r, (np.glob i t, s))) else [])

/-- hypergraph.cpp:548-553: what a processor does with a reply. -/
def sizeReceive (H : Hypergraph) (r : List Int) (m : Nat × Int) : Res (List Int) :=
  if H.isLocalNet m.1 then do
    let j ← H.localIdNet m.1
    vset r j m.2
  else pure r

/-- hypergraph.cpp:518-557 `global_net_sizes`: the returned sizes and the updated hypergraphs. -/
def globalNetSizes (d1 d2 : Delivery (Nat × Int)) (np : NetPart) (Hs : List Hypergraph) :
    Res (List (List Int × Hypergraph)) := do
  let p := Hs.length
  let outs ← Hs.mapM (sizeSends p np)
  let owned ← (List.range p).mapM (fun t => countOwned np t (inbox d1 outs t))
  let outs2 := (owned.zipIdx).map (fun (a, t) => sizeReplies p np t a)
  (Hs.zipIdx).mapM (fun (H, t) => do
    let r ← (inbox d2 outs2 t).foldlM (sizeReceive H) (List.replicate H.nets.length 0)
    let H' ← H.setGlobalNetSizes (r.map Int.toNat)
    pure (r, H'))

/-! ### owner_min -/

/-- include/algorithm.hpp:18-34 `owner_min`: the loop over the gathered values. `T` is `Int`. -/
def ownerMinLoop (images : List Int) : Res Nat := do
  let x0 ← vget images 0
  let r ← (List.range' 1 (images.length - 1)).foldlM (fun (st : Int × Nat) t => do
    let x ← vget images t
    if x ≤ st.1 then pure (x, t) else pure st) (x0, 0)
  pure r.2

/-- `owner_min` on all processors: `bulk::gather_all` gives everyone the same list. -/
def ownerMin (xs : List Int) : Res (List Nat) := xs.mapM (fun _ => ownerMinLoop xs)

end PMondriaan

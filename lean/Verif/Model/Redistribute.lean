import Verif.Model.Bsp
import Verif.Model.SyncCount

/-
Model of `redistribute_hypergraph` and `reduce_surplus`, src/recursive_bisection.cpp:226-354, and of the
maximum local weight passed to it (lines 106-113).
The processors are those of the group `sub_world`.
-/

namespace PMondriaan

namespace Hypergraph

/-- recursive_bisection.cpp:337-340: the vertex at position `i` with id `id` leaves this processor. The map
of positions is not brought up to date. -/
def takeOut (H : Hypergraph) (i id : Nat) : Hypergraph :=
  { H.removeFromNets id with
    vertices := H.vertices.eraseIdx i
    vmap := mapErase H.vmap id }

/-- recursive_bisection.cpp:326-329: the next position from `index` with the given label; the assert of
`operator()` fails when there is none. -/
def nextLabel (H : Hypergraph) (label : Int) (index : Nat) : Res Nat :=
  match (H.vertices.drop index).findIdx? (fun v => v.part = label) with
  | some k => .ok (index + k)
  | none => .error .abort

end Hypergraph

/-- recursive_bisection.cpp:306, 320-325: the variables of the loop that sends vertices to one processor. `sent` is
`total_sent`, `nets` is `nets_to_send` and `out` what is in the queue `q`. -/
structure SendState where
  H : Hypergraph
  index : Nat
  sent : Int
  nets : List Nat
  out : List (Nat × Vertex)

/-- recursive_bisection.cpp:325-341: send vertices to `t` until their weight is at least `max`. -/
def sendUntil (p t : Nat) (label max : Int) : Nat → SendState → Res SendState
  | 0, x => if x.sent < max then .error .fuel else .ok x
  | f + 1, x =>
    if x.sent < max then do
      let i ← x.H.nextLabel label x.index
      let v ← x.H.vertexAt i
      let m ← send p t v
      sendUntil p t label max f
        { H := x.H.takeOut i v.id, index := i, sent := x.sent + v.weight
          nets := v.nets.foldl setInsert x.nets, out := x.out ++ [m] }
    else .ok x

/-- recursive_bisection.cpp:298-308: the variables of `reduce_surplus`. `own` is `surplus[s]`, `verts` and
`costs` what is in the two queues. -/
structure SurplusState where
  H : Hypergraph
  index : Nat
  own : Int
  others : Int
  t : Nat
  verts : List (Nat × Vertex)
  costs : List (Nat × (Nat × Int))

/-- recursive_bisection.cpp:320-348: send vertices, then the costs of their nets, to processor `x.t`. `ord` is
the order in which the set of nets is traversed. -/
def sendTo (ord : List Nat → List Nat) (p : Nat) (label : Int) (x : SurplusState) : Res SurplusState := do
  let max := min x.others (-1 * x.own)
  let y ← sendUntil p x.t label max (x.H.size + 1)
    { H := x.H, index := x.index, sent := 0, nets := [], out := x.verts }
  let cs ← (ord y.nets).mapM (fun n => do
    let net ← y.H.netOf n
    send p x.t (n, net.cost))
  pure { H := y.H, index := y.index, own := x.own + y.sent, others := 0, t := x.t
         verts := y.out, costs := x.costs ++ cs }

/-- recursive_bisection.cpp:309-353, the loop of `reduce_surplus`; also gives the value returned. -/
def surplusLoop (ord : List Nat → List Nat) (p s : Nat) (label : Int) (surplus : List Int) :
    Nat → SurplusState → Res (SurplusState × Int)
  | 0, _ => .error .fuel
  | f + 1, x =>
    if x.own < 0 then
      let t := if x.t ≥ p then 0 else x.t
      if t = s then .ok (x, -1)
      else do
        let st ← vget surplus t
        let x' : SurplusState := { x with t := t, others := x.others + st }
        let x' ← runIf (st > 0 ∧ x'.others > 0) (sendTo ord p label x') x'
        surplusLoop ord p s label surplus f { x' with t := t + 1 }
    else .ok (x, 0)

/-- What a processor has and has sent. -/
structure Outgoing where
  H : Hypergraph
  verts : List (Nat × Vertex)
  costs : List (Nat × (Nat × Int))

/-- recursive_bisection.cpp:291-354 `reduce_surplus`, on processor `s`. The value returned is not used by the
caller, but kept here. -/
def reduceSurplus (ord : List Nat → List Nat) (p s : Nat) (label : Int) (surplus : List Int)
    (o : Outgoing) : Res (Outgoing × Int) := do
  let own ← vget surplus s
  if own ≥ 0 then .ok (o, 0)
  else
    let (x, r) ← surplusLoop ord p s label surplus (p + 1)
      { H := o.H, index := 0, own := own, others := 0, t := s + 1, verts := o.verts, costs := o.costs }
    pure (⟨x.H, x.verts, x.costs⟩, r)

/-- recursive_bisection.cpp:256-261: one step of the loop that takes out the vertices of the low label, `x` is
the list of vertices and `vertices_0`. -/
def pullStep (label : Int) (x : List Vertex × List Vertex) (i : Nat) :
    Res (List Vertex × List Vertex) :=
  match x.1[i]? with
  | none => .error .abort
  | some v => .ok (if v.part = label then (x.1.eraseIdx i, x.2 ++ [v]) else x)

/-- recursive_bisection.cpp:254-262. -/
def pullLabel (label : Int) (vs : List Vertex) : Res (List Vertex × List Vertex) :=
  (List.range vs.length).reverse.foldlM (pullStep label) (vs, [])

/-- recursive_bisection.cpp:106-113: the maximum local weight on a side of weight `w` with `q` processors. -/
def newMaxLocal (rnd : ℚ → ℚ) (w : Int) (q : Nat) (eta : ℚ) : Int :=
  truncQ (rnd ((⌈rnd (rnd (w : ℚ) / rnd (q : ℚ))⌉ : ℚ) * rnd (1 + eta)))

/-- The arguments of `redistribute_hypergraph` that differ per processor. -/
structure RedistArgs where
  H : Hypergraph
  maxLocal : Int
  w0 : Int
  w1 : Int

/-- recursive_bisection.cpp:236-237: the two surpluses of processor `s`. `my_part` is 0 for the first `plow`
processors (lines 93-96). -/
def surplusOf (plow : Nat) (s : Nat) (a : RedistArgs) : Int × Int :=
  if s < plow then (a.maxLocal - a.w0, 0 - a.w1) else (0 - a.w0, a.maxLocal - a.w1)

/-- recursive_bisection.cpp:243-263, before the synchronization. The second component is `vertices_0`. -/
def redistSend (ord : List Nat → List Nat) (p s plow : Nat) (low high : Int)
    (sur0 sur1 : List Int) (H : Hypergraph) : Res (Outgoing × List Vertex) := do
  let (o, _) ← reduceSurplus ord p s high sur1 ⟨H, [], []⟩
  if plow > 0 then do
    let (o, _) ← reduceSurplus ord p s low sur0 o
    pure (o, [])
  else do
    let (vs, vs0) ← pullLabel low o.H.vertices
    pure ({ o with H := { o.H with vertices := vs } }, vs0)

/-- recursive_bisection.cpp:273-275: a received vertex. -/
def redistReceive (H : Hypergraph) (v : Vertex) : Res Hypergraph :=
  { H with vertices := H.vertices ++ [v] }.addToNets v

/-- recursive_bisection.cpp:267-284, after the synchronization: the new local hypergraph and the value
returned. -/
def redistFinish (plow : Nat) (H : Hypergraph) (vs0 : List Vertex) (costs : List (Nat × Int))
    (verts : List Vertex) : Res (Hypergraph × Int) := do
  let H := costs.foldl (fun H m => H.addNet m.1 [] m.2) H
  let H ← verts.foldlM redistReceive H
  let H := if plow = 0 then { H with vertices := H.vertices ++ vs0 } else H
  let H := H.updateMap
  pure (H, (H.size : Int) - vs0.length)

/-- recursive_bisection.cpp:226-285 `redistribute_hypergraph`, on all processors. `bulk::gather_all` gives every
processor the list of all values. -/
def redistribute (ord : List Nat → List Nat) (dv : Delivery Vertex) (dc : Delivery (Nat × Int))
    (plow : Nat) (low high : Int) (args : List RedistArgs) : Res (List (Hypergraph × Int)) := do
  let p := args.length
  let sur := args.zipIdx.map (fun (a, s) => surplusOf plow s a)
  let outs ← args.zipIdx.mapM (fun (a, s) =>
    redistSend ord p s plow low high (sur.map (·.1)) (sur.map (·.2)) a.H)
  outs.zipIdx.mapM (fun (o, t) =>
    redistFinish plow o.1.H o.2 (inbox dc (outs.map (·.1.costs)) t) (inbox dv (outs.map (·.1.verts)) t))

end PMondriaan

import Verif.Model.KLFM
import Verif.Model.Bsp

/-
Model of src/multilevel_bisect/KLFM/KLFM_parallel.cpp.

The state is a list with one entry per processor; every function of the file that communicates is
written for all processors at once, superstep by superstep. Arrival orders are parameters
(`PassEnv`), one for every superstep of every round. A `bulk::coarray` put `x(t)[i] = a` is a
message to processor `t` that takes effect at the next sync. The move `(-1, 0, 0)` that marks an
unused or withdrawn slot is `none`.
-/

namespace PMondriaan

/-! ### Finding moves -/

/-- KLFM_parallel.cpp:128-131 `tuple<long, long, long>`: vertex, gain, weight change of part 0. -/
structure MoveP where
  v : Nat
  gain : Int
  change : Int
deriving DecidableEq, Repr

/-- KLFM_parallel.cpp:354-363: the state of `find_top_moves`. `moves` are the slots filled so far; the other
slots of the vector hold `(-1, 0, 0)`. -/
structure TopState where
  gs : GainStructure
  L : List Cnt
  moves : List MoveP
  w : W2
  rng : Rng

/-- KLFM_parallel.cpp:374: `gain_next(..) < 0`, where `none` is `LONG_MIN`. -/
def gainNeg : Option Int → Bool
  | none => true
  | some g => g < 0

/-- KLFM_parallel.cpp:378-396: move the vertex if it fits, otherwise take it out of its bucket. The code
calls `gain_next` again for the recorded gain; nothing changed since the first call. -/
def topMove (max0 max1 : Int) (st : TopState) (part : Int) : Option Nat → Option Int → Res TopState
  | some v, some g => do
    let x ← st.gs.H.vertexOf v
    let extra ← (W2.mk (max0 - st.w.w0) (max1 - st.w.w1)).get (other part)
    if extra - x.weight ≥ 0 then do
      let w ← st.w.add part (-x.weight)
      let w ← w.add (other part) x.weight
      let (gs, L) ← st.gs.moveLoc v st.L
      pure { st with
        gs, L, w,
        moves := st.moves ++ [⟨v, g, if part = 0 then -1 * x.weight else x.weight⟩] }
    else do
      let gs ← st.gs.remove v
      pure { st with gs }
  | _, _ => .error .abort

/-- KLFM_parallel.cpp:366-396: the body of the while loop of `find_top_moves`; `false` for its `return`. -/
def topBody (max0 max1 : Int) (st : TopState) : Res (Bool × TopState) := do
  let (part, gs, rng) ← st.gs.partNext (max0 - st.w.w0) (max1 - st.w.w1) st.rng
  let (v, gs, rng) ← gs.next part rng
  let (g, gs) ← gs.gainNext part
  if gainNeg g then pure (false, { st with gs, rng })
  else do
    let st ← topMove max0 max1 { st with gs, rng } part v g
    pure (true, st)

/-- KLFM_parallel.cpp:354-398 `find_top_moves` with room for `K` moves. The first argument bounds the number
of iterations. -/
def topLoop (max0 max1 : Int) (K : Nat) : Nat → TopState → Res TopState
  | 0, _ => .error .fuel
  | f + 1, st => do
    let (d, gs) ← st.gs.done
    if !d ∧ st.moves.length < K then do
      let (go, st) ← topBody max0 max1 { st with gs }
      if go then topLoop max0 max1 K f st else pure st
    else pure { st with gs }

/-! ### Rejecting moves -/

/-- KLFM_parallel.cpp:116: an entry of `moves_queue`: gain, weight change, processor, tag. -/
structure QMove where
  gain : Int
  change : Int
  proc : Nat
  tag : Nat
deriving DecidableEq, Repr

/-- KLFM_parallel.cpp:135-144: the moves sent by processor `s`; each goes to all `p` processors. -/
def moveSends (p s : Nat) (moves : List MoveP) : List (Nat × QMove) :=
  moves.zipIdx.flatMap (fun x => (List.range p).map (fun t => (t, ⟨x.1.gain, x.1.change, s, x.2⟩)))

/-- KLFM_parallel.cpp:416-422: the comparison used by `std::sort`. -/
def QMove.before (a b : QMove) : Bool :=
  if a.gain = b.gain then a.tag > b.tag else a.gain < b.gain

/-- KLFM_parallel.cpp:411-413, 424-432: the variables of `reject_unbalanced_moves`. -/
structure RejState where
  rejected : List Int
  fin : List Bool
  w : W2
deriving DecidableEq, Repr

/-- KLFM_parallel.cpp:437-448: one iteration of the first loop. -/
def rejectPosStep (max1 : Int) (st : RejState) (m : QMove) : Res RejState :=
  if m.change > 0 then do
    let f ← vget st.fin m.proc
    if f then pure st
    else if st.w.w1 + m.change ≤ max1 then do
      let r ← vget st.rejected m.proc
      let rs ← vset st.rejected m.proc (r + 1)
      pure { st with rejected := rs, w := ⟨st.w.w0 - m.change, st.w.w1 + m.change⟩ }
    else do
      let fs ← vset st.fin m.proc true
      pure { st with fin := fs }
  else pure st

/-- KLFM_parallel.cpp:433-449: the first loop; returns what is left in the queue. -/
def rejectPos (max0 max1 : Int) : List QMove → RejState → Res (List QMove × RejState)
  | [], st => pure ([], st)
  | m :: q, st =>
    if st.w.w0 > max0 then do
      let st ← rejectPosStep max1 st m
      rejectPos max0 max1 q st
    else pure (m :: q, st)

/-- KLFM_parallel.cpp:455-466: one iteration of the second loop. -/
def rejectNegStep (max0 : Int) (st : RejState) (m : QMove) : Res RejState :=
  if m.change < 0 then do
    let f ← vget st.fin m.proc
    if f then pure st
    else if st.w.w0 - m.change ≤ max0 then do
      let r ← vget st.rejected m.proc
      let rs ← vset st.rejected m.proc (r - 1)
      pure { st with rejected := rs, w := ⟨st.w.w0 - m.change, st.w.w1 + m.change⟩ }
    else do
      let fs ← vset st.fin m.proc true
      pure { st with fin := fs }
  else pure st

/-- KLFM_parallel.cpp:451-467: the second loop. -/
def rejectNeg (max0 max1 : Int) : List QMove → RejState → Res RejState
  | [], st => pure st
  | m :: q, st =>
    if st.w.w1 > max1 then do
      let st ← rejectNegStep max0 st m
      rejectNeg max0 max1 q st
    else pure st

/-- KLFM_parallel.cpp:405-469 `reject_unbalanced_moves` after the sort: all rejection counts (the code
returns the one of this processor) and the new weights. -/
def rejectUnbalanced (p : Nat) (max0 max1 : Int) (q : List QMove) (w : W2) :
    Res (List Int × W2) := do
  let balance := q.foldl (fun s m => s + m.change) 0
  let st0 : RejState :=
    { rejected := List.replicate p 0, fin := List.replicate p false,
      w := ⟨w.w0 + balance, w.w1 - balance⟩ }
  let (q1, st1) ← rejectPos max0 max1 q st0
  let st2 ← rejectNeg max0 max1 q1 st1
  pure (st2.rejected, st2.w)

/-! ### Undoing rejected moves -/

/-- KLFM_parallel.cpp:152-176: state of the reversal. -/
structure UndoState where
  H : Hypergraph
  C : List Cnt
  L : List Cnt
  moves : List (Option MoveP)

/-- Whether the slot holds a move of the wanted sign; the weight change of an empty slot is 0. -/
def undoes (pos : Bool) : Option MoveP → Bool
  | none => false
  | some m => if pos then m.change > 0 else m.change < 0

/-- KLFM_parallel.cpp:157-161: undo the move in slot `i`. -/
def undoOne (st : UndoState) (i : Nat) : Option MoveP → Res UndoState
  | none => .error .ub
  | some m => do
    let x ← st.H.vertexOf m.v
    let (H, C, L) ← st.H.moveLoc x.id st.C st.L
    let ms ← vset st.moves i none
    pure { H, C, L, moves := ms }

/-- KLFM_parallel.cpp:155-164 and 166-175: the first argument is `index + 1`, the second the number of moves
still to undo. Going below slot 0 is an access out of bounds. -/
def undoLoop (pos : Bool) : Nat → Nat → UndoState → Res UndoState
  | _, 0, st => pure st
  | 0, _ + 1, _ => .error .ub
  | i + 1, k + 1, st => do
    let m ← vget st.moves i
    if undoes pos m then do
      let st ← undoOne st i m
      undoLoop pos i k st
    else undoLoop pos i (k + 1) st

/-- KLFM_parallel.cpp:152-176: undo the rejected moves. -/
def undoMoves (rejected : Int) (st : UndoState) : Res UndoState :=
  if rejected > 0 then undoLoop true st.moves.length rejected.toNat st
  else undoLoop false st.moves.length (-rejected).toNat st

/-! ### Owners of nets -/

/-- KLFM_parallel.cpp:57-60: what a processor keeps about the nets it is responsible for. -/
structure OwnerData where
  costs : List Int
  procs : List (List Nat)
deriving DecidableEq, Repr

/-- KLFM_parallel.cpp:264-268: the puts of the costs. -/
def costPuts (p : Nat) (np : NetPart) (H : Hypergraph) : Res (List (Nat × (Nat × Int))) :=
  H.nets.mapM (fun n => send p (np.owner n.id) (np.loc n.id, n.cost))

/-- KLFM_parallel.cpp:264-268: the messages of `queue_procs`. -/
def procSends (p : Nat) (np : NetPart) (s : Nat) (H : Hypergraph) : Res (List (Nat × (Nat × Nat))) :=
  H.nets.mapM (fun n => send p (np.owner n.id) (n.id, s))

/-- KLFM_parallel.cpp:252-273 `init_cost_my_nets`. -/
def initCostMyNets (dc : Delivery (Nat × Int)) (dp : Delivery (Nat × Nat)) (np : NetPart)
    (Hs : List Hypergraph) : Res (List OwnerData) := do
  let p := Hs.length
  let puts ← Hs.mapM (costPuts p np)
  let outs ← (Hs.zipIdx).mapM (fun x => procSends p np x.2 x.1)
  (List.range p).mapM (fun t => do
    let costs ← (inbox dc puts t).foldlM (fun a (m : Nat × Int) => vset a m.1 m.2)
      (List.replicate (np.count t) 0)
    let procs ← (inbox dp outs t).foldlM (fun (a : List (List Nat)) (m : Nat × Nat) => do
      let l ← vget a (np.loc m.1)
      vset a (np.loc m.1) (l ++ [m.2])) (List.replicate (np.count t) [])
    pure { costs, procs })

/-- KLFM_parallel.cpp:290-295: the puts of `init_previous_C`. The two puts of a net (counts of part 0 and 1)
are one message here; they go to different addresses. -/
def countPuts (p : Nat) (np : NetPart) (H : Hypergraph) (C : List Cnt) :
    Res (List (Nat × (Nat × Cnt))) :=
  (C.zipIdx).mapM (fun x => do
    let n ← vget H.nets x.2
    send p (np.owner n.id) (np.loc n.id, x.1))

/-- KLFM_parallel.cpp:298-303: `previous_C` says the net is cut. -/
def Cnt.cut (c : Cnt) : Bool := !(c.c0 = 0 ∨ c.c1 = 0)

/-- KLFM_parallel.cpp:298-304: cost of the cut nets among the owned ones. -/
def ownedCut (owned : List Cnt) (costs : List Int) : Int :=
  (List.zip owned costs).foldl (fun s x => if x.1.cut then s + x.2 else s) 0

/-- KLFM_parallel.cpp:279-305 `init_previous_C`: the owned counts and the cutsize of the owned nets. -/
def initPreviousC (d : Delivery (Nat × Cnt)) (np : NetPart) (Hs : List (Hypergraph × List Cnt))
    (own : List OwnerData) : Res (List (List Cnt × Int)) := do
  let p := Hs.length
  let puts ← Hs.mapM (fun x => countPuts p np x.1 x.2)
  (List.range p).mapM (fun t => do
    let o ← vget own t
    let owned ← (inbox d puts t).foldlM (fun a (m : Nat × Cnt) => vset a m.1 m.2)
      (List.replicate (np.count t) ⟨0, 0⟩)
    pure (owned, ownedCut owned o.costs))

/-! ### Updating the counts -/

/-- The variables of one processor that `update_C` changes. -/
structure UState where
  gs : GainStructure
  prev0 : List Int
  owned : List Cnt
  cutMine : Int

/-- KLFM_parallel.cpp:494-507: one message (net, count of part 0) at the owner. `old` is `previous_C`. -/
def ownerStep (np : NetPart) (costs : List Int) (old : List Cnt) (st : List Cnt × Int)
    (m : Nat × Int) : Res (List Cnt × Int) := do
  let o ← vget old (np.loc m.1)
  let change := m.2 - o.c0
  if change ≠ 0 then do
    let n ← vget st.1 (np.loc m.1)
    let k ← vget costs (np.loc m.1)
    let cut1 := if n.c0 = 0 ∨ n.c1 = 0 then st.2 + k else st.2
    let n1 : Cnt := ⟨n.c0 + change, n.c1 - change⟩
    let a ← vset st.1 (np.loc m.1) n1
    pure (a, if n1.c0 = 0 ∨ n1.c1 = 0 then cut1 - k else cut1)
  else pure st

/-- KLFM_parallel.cpp:509-517: the owner tells the processors of a net its new count, if it changed. (After
the loop `previous_C` is `C_new`: the entries not written are equal.) -/
def ownerReplies (p : Nat) (np : NetPart) (t : Nat) (procs : List (List Nat)) (old new : List Cnt) :
    Res (List (Nat × (Nat × Int))) := do
  let ls ← (List.range (np.count t)).mapM (fun i => do
    let o ← vget old i
    let n ← vget new i
    if o.c0 ≠ n.c0 then do
      let ps ← vget procs i
      ps.mapM (fun r => send p r (np.glob i t, n.c0))
    else pure [])
  pure ls.flatten

/-- KLFM_parallel.cpp:521-523: the processors of a net store its new count. -/
def receivePrev (H : Hypergraph) (prev0 : List Int) (msgs : List (Nat × Int)) : Res (List Int) :=
  msgs.foldlM (fun (a : List Int) (m : Nat × Int) => do
    let j ← H.localIdNet m.1
    vset a j m.2) prev0

/-- KLFM_parallel.cpp:320-331, 337-348: `add_gain` to the first or last pin of the net if it has the part. -/
def addGainSide (s : GainStructure) (n : Net) (part value : Int) : Res GainStructure := do
  let u ← GainStructure.endVertex n part
  let x ← s.H.vertexOf u
  runIf (x.part = part) (s.addGain u value) s

/-- KLFM_parallel.cpp:310-349 `update_gains`; `a` are the counts the gains are based on, `b` the new ones. -/
def updateGains (s : GainStructure) (n : Net) (a b : Cnt) : Res GainStructure := do
  let s ← runIf ((b.c0 = 0 ∧ a.c0 > 0) ∨ (b.c1 = 0 ∧ a.c1 > 0))
    (n.vertices.foldlM (fun s u => s.addGain u (-1 * n.cost)) s) s
  let s ← runIf (b.c0 = 1 ∧ a.c0 > 1) (addGainSide s n 0 n.cost) s
  let s ← runIf (b.c1 = 1 ∧ a.c1 > 1) (addGainSide s n 1 n.cost) s
  let s ← runIf ((b.c0 > 0 ∧ a.c0 = 0) ∨ (b.c1 > 0 ∧ a.c1 = 0))
    (n.vertices.foldlM (fun s u => s.addGain u n.cost) s) s
  let s ← runIf (b.c0 > 1 ∧ a.c0 = 1) (addGainSide s n 0 (-1 * n.cost)) s
  runIf (b.c1 > 1 ∧ a.c1 = 1) (addGainSide s n 1 (-1 * n.cost)) s

/-- KLFM_parallel.cpp:526-533: one net. -/
def refreshStep (prev0 : List Int) (s : GainStructure) (i : Nat) : Res GainStructure := do
  let c0 ← vget prev0 i
  let c ← vget s.C i
  let n ← vget s.H.nets i
  runIf (c0 ≠ c.c0) (updateGains s n c ⟨c0, (n.globalSize : Int) - c0⟩) s

/-- KLFM_parallel.cpp:525-534: update the gains of all nets whose counts changed elsewhere. -/
def refreshGains (s : GainStructure) (prev0 : List Int) : Res GainStructure :=
  (List.range s.H.nets.length).foldlM (refreshStep prev0) s

/-- KLFM_parallel.cpp:535-538: the counts of the nets become the new ones. -/
def setCounts (H : Hypergraph) (prev0 : List Int) : Res (List Cnt) :=
  (H.nets.zipIdx).mapM (fun x => do
    let c ← vget prev0 x.2
    pure ⟨c, (x.1.globalSize : Int) - c⟩)

/-- KLFM_parallel.cpp:520-538: what a processor does with the replies. -/
def updateLocal (updateG : Bool) (u : UState) (owned : List Cnt) (cut : Int)
    (msgs : List (Nat × Int)) : Res UState := do
  let prev0 ← receivePrev u.gs.H u.prev0 msgs
  let gs ← runIf (updateG = true) (refreshGains u.gs prev0) u.gs
  let C ← setCounts gs.H prev0
  pure { gs := { gs with C }, prev0, owned, cutMine := cut }

/-- KLFM_parallel.cpp:474-540 `update_C`. `outs` are the messages sent to `update_nets` before the call. -/
def updateC (dUp dDown : Delivery (Nat × Int)) (np : NetPart) (updateG : Bool)
    (own : List OwnerData) (us : List UState) (outs : List (List (Nat × (Nat × Int)))) :
    Res (List UState) := do
  let p := us.length
  let owned ← (List.range p).mapM (fun t => do
    let o ← vget own t
    let u ← vget us t
    (inbox dUp outs t).foldlM (ownerStep np o.costs u.owned) (u.owned, u.cutMine))
  let replies ← (List.range p).mapM (fun t => do
    let o ← vget own t
    let u ← vget us t
    let a ← vget owned t
    ownerReplies p np t o.procs u.owned a.1)
  (List.range p).mapM (fun t => do
    let u ← vget us t
    let a ← vget owned t
    updateLocal updateG u a.1 a.2 (inbox dDown replies t))

/-! ### A pass -/

/-- The arrival orders of a pass, and the outcome of `std::sort` as a function of its input. -/
structure PassEnv where
  dInit : Delivery (Nat × Cnt)
  dMoves : Nat → Delivery QMove
  dUp : Nat → Delivery (Nat × Int)
  dDown : Nat → Delivery (Nat × Int)
  dLastUp : Delivery (Nat × Int)
  dLastDown : Delivery (Nat × Int)
  srt : List QMove → List QMove

/-- KLFM_parallel.cpp:92-121: the variables of one processor during `KLFM_pass_par`. -/
structure ProcState where
  u : UState
  L : List Cnt
  w : W2
  best : Int
  noImp : List Nat
  done : Bool
  rng : Rng

/-- KLFM_parallel.cpp:179-185: the messages about changed counts. -/
def changeSends (p : Nat) (np : NetPart) (H : Hypergraph) (C : List Cnt) (prev0 : List Int) :
    Res (List (Nat × (Nat × Int))) := do
  let ls ← (H.nets.zipIdx).mapM (fun x => do
    let o ← vget prev0 x.2
    let c ← vget C x.2
    if o ≠ c.c0 then do
      let m ← send p (np.owner x.1.id) (x.1.id, c.c0)
      pure [m]
    else pure [])
  pure ls.flatten

/-- What is left of a processor's proposals after the rejections of a round. -/
structure MidState where
  u : UState
  L : List Cnt
  w : W2
  rng : Rng
  moves : List (Option MoveP)
  sends : List (Nat × (Nat × Int))

/-- KLFM_parallel.cpp:147-185, for processor `t`. -/
def rejectPhase (p K t : Nat) (np : NetPart) (max0 max1 : Int) (q : ProcState) (top : TopState)
    (queue : List QMove) : Res MidState := do
  let (rejs, w) ← rejectUnbalanced p max0 max1 queue q.w
  let rejected ← vget rejs t
  let slots := top.moves.map some ++ List.replicate (K - top.moves.length) none
  let st ← undoMoves rejected { H := top.gs.H, C := top.gs.C, L := top.L, moves := slots }
  let sends ← changeSends p np st.H st.C q.u.prev0
  pure { u := { q.u with gs := { top.gs with H := st.H, C := st.C } }, L := st.L, w,
         rng := top.rng, moves := st.moves, sends }

/-- KLFM_parallel.cpp:192-215: bookkeeping of processor `t` after the new cutsize is known. -/
def accountMoves (q : ProcState) (m : MidState) (u : UState) (cut : Int) : Res ProcState := do
  let found := m.moves.filterMap (fun o => o.map (·.v))
  let (d, gs) ← u.gs.done
  pure { u := { u with gs }, L := m.L, w := m.w, rng := m.rng,
         best := if cut > q.best then q.best else cut,
         noImp := if cut > q.best then q.noImp ++ found else [],
         done := q.done || d || found.isEmpty }

/-- KLFM_parallel.cpp:125-218: one iteration of the while loop of `KLFM_pass_par`. -/
def parRound (fuel K r : Nat) (pe : PassEnv) (np : NetPart) (max0 max1 : Int)
    (own : List OwnerData) (qs : List ProcState) : Res (List ProcState) := do
  let p := qs.length
  let tops ← (List.range p).mapM (fun t => do
    let q ← vget qs t
    topLoop max0 max1 K fuel { gs := q.u.gs, L := q.L, moves := [], w := q.w, rng := q.rng })
  let outs := tops.zipIdx.map (fun x => moveSends p x.2 x.1.moves)
  let mids ← (List.range p).mapM (fun t => do
    let q ← vget qs t
    let top ← vget tops t
    rejectPhase p K t np max0 max1 q top (pe.srt (inbox (pe.dMoves r) outs t)))
  let us ← updateC (pe.dUp r) (pe.dDown r) np true own (mids.map (·.u)) (mids.map (·.sends))
  let cut := (us.map (·.cutMine)).foldl (· + ·) 0
  (List.range p).mapM (fun t => do
    let q ← vget qs t
    let m ← vget mids t
    let u ← vget us t
    accountMoves q m u cut)

/-- KLFM_parallel.cpp:123-219: the while loop; `r` is the number of the round. -/
def parRounds (fuel K : Nat) (pe : PassEnv) (np : NetPart) (max0 max1 : Int)
    (own : List OwnerData) : Nat → Nat → List ProcState → Res (List ProcState)
  | 0, _, _ => .error .fuel
  | f + 1, r, qs => do
    let qs ← parRound fuel K r pe np max0 max1 own qs
    if qs.all (·.done) then pure qs else parRounds fuel K pe np max0 max1 own f (r + 1) qs

/-- KLFM_parallel.cpp:221-235: the state of the reversal to the best point. -/
structure BackState where
  H : Hypergraph
  C : List Cnt
  L : List Cnt
  wc : Int
  changed : List Nat

/-- KLFM_parallel.cpp:224-235: one vertex. -/
def backStep (st : BackState) (v : Nat) : Res BackState := do
  let x ← st.H.vertexOf v
  let (H, C, L) ← st.H.moveLoc v st.C st.L
  pure { H, C, L, wc := if x.part = 0 then st.wc - x.weight else st.wc + x.weight,
         changed := x.nets.foldl setInsert st.changed }

/-- KLFM_parallel.cpp:237-240: the messages about the nets of the vertices moved back. -/
def backSends (p : Nat) (np : NetPart) (st : BackState) : Res (List (Nat × (Nat × Int))) :=
  st.changed.mapM (fun e => do
    let j ← st.H.localIdNet e
    let c ← vget st.C j
    send p (np.owner e) (e, c.c0))

/-- What `KLFM_pass_par` returns and leaves behind on one processor. -/
structure ParResult where
  cut : Int
  H : Hypergraph
  C : List Cnt
  L : List Cnt
  w : W2
  rng : Rng

/-- KLFM_parallel.cpp:95-121: the variables before the first round. -/
def parStart (d : Delivery (Nat × Cnt)) (np : NetPart) (own : List OwnerData)
    (ps : List ParResult) : Res (List ProcState) := do
  let p := ps.length
  let gss ← ps.mapM (fun q => GainStructure.create q.H q.C)
  let prevs ← initPreviousC d np (ps.map (fun q => (q.H, q.C))) own
  (List.range p).mapM (fun t => do
    let q ← vget ps t
    let gs ← vget gss t
    let o ← vget prevs t
    pure { u := { gs, prev0 := q.C.map (·.c0), owned := o.1, cutMine := o.2 }, L := q.L, w := q.w,
           best := q.cut, noImp := [], done := false, rng := q.rng })

/-- KLFM_parallel.cpp:221-249: move back to the best point. -/
def parFinish (pe : PassEnv) (np : NetPart) (own : List OwnerData) (qs : List ProcState) :
    Res (List ParResult) := do
  let p := qs.length
  let backs ← qs.mapM (fun q =>
    q.noImp.foldlM backStep { H := q.u.gs.H, C := q.u.gs.C, L := q.L, wc := 0, changed := [] })
  let outs ← backs.mapM (backSends p np)
  let us ← updateC pe.dLastUp pe.dLastDown np false own
    ((List.zip qs backs).map (fun x => { x.1.u with gs := { x.1.u.gs with H := x.2.H, C := x.2.C } }))
    outs
  let change := (backs.map (·.wc)).foldl (· + ·) 0
  (List.range p).mapM (fun t => do
    let q ← vget qs t
    let b ← vget backs t
    let u ← vget us t
    pure { cut := q.best, H := u.gs.H, C := u.gs.C, L := b.L,
           w := ⟨q.w.w0 + change, q.w.w1 - change⟩, rng := q.rng })

/-- KLFM_parallel.cpp:80-250 `KLFM_pass_par`; `rounds` and `fuel` bound the while loops. In the arguments,
`cut` is the starting cutsize. -/
def KLFMPassPar (rounds fuel K : Nat) (pe : PassEnv) (np : NetPart) (max0 max1 : Int)
    (own : List OwnerData) (ps : List ParResult) : Res (List ParResult) := do
  let qs ← parStart pe.dInit np own ps
  let qs ← parRounds fuel K pe np max0 max1 own rounds 0 qs
  parFinish pe np own qs

/-- KLFM_parallel.cpp:63-73: the loop over the passes. Each processor decides for itself whether to go on;
if they do not agree the program hangs, which is `.abort` here. -/
def parPasses (rounds fuel K : Nat) (pes : Nat → PassEnv) (np : NetPart) (max0 max1 : Int)
    (own : List OwnerData) : Nat → Nat → List ParResult → Res (List ParResult)
  | 0, _, ps => pure ps
  | k + 1, i, ps => do
    let qs ← KLFMPassPar rounds fuel K (pes i) np max0 max1 own ps
    let better := (List.zip ps qs).map (fun x => decide (x.2.cut < x.1.cut))
    if better.all (· = true) then parPasses rounds fuel K pes np max0 max1 own k (i + 1) qs
    else if better.all (· = false) then
      pure ((List.zip ps qs).map (fun x => { x.2 with cut := x.1.cut }))
    else .error .abort

/-- All arrival orders of `KLFM_par`. -/
structure ParEnv where
  np : NetPart
  so : List Int → List Int
  dCut : Delivery LabelMsg
  dCost : Delivery (Nat × Int)
  dProc : Delivery (Nat × Nat)
  pass : Nat → PassEnv

/-- KLFM_parallel.cpp:41-45: the starting cutsize; `none` is `LONG_MAX`. -/
def startCutPar (e : ParEnv) (Hs : List Hypergraph) (metric : Metric) :
    Option Int → Res (List Int)
  | none => cutsizePar e.so e.dCut e.np Hs metric
  | some c => pure (Hs.map (fun _ => c))

/-- The arguments of `KLFM_par` on one processor. -/
structure ParArgs where
  H : Hypergraph
  C : List Cnt
  w : W2
  rng : Rng

/-- KLFM_parallel.cpp:22-75 `KLFM_par`. -/
def KLFMPar (rounds fuel : Nat) (e : ParEnv) (args : List ParArgs) (max0 max1 : Int)
    (opts : Options) (cut : Option Int) : Res (List ParResult) := do
  let cuts ← startCutPar e (args.map (·.H)) opts.metric cut
  let ps ← (List.range args.length).mapM (fun t => do
    let a ← vget args t
    let c ← vget cuts t
    let L ← initCounts a.H
    let H ← a.H.sortVerticesOnPart L
    pure { cut := c, H, C := a.C, L, w := a.w, rng := a.rng })
  let own ← initCostMyNets e.dCost e.dProc e.np (ps.map (·.H))
  parPasses rounds fuel opts.klfmParSendMoves e.pass e.np max0 max1 own opts.klfmMaxPasses 0 ps

end PMondriaan

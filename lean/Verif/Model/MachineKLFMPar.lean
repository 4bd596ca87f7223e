import Verif.Model.KLFMPar
import Verif.Model.MachineKLFM
import Verif.Model.MachineMain

/-
The refinement on several processors (KLFM_parallel.cpp) in 64-bit arithmetic, as Model/MachineKLFM.lean: a sum or
difference of weights, costs or gains that does not fit is undefined behaviour. The counts of pins, the numbers of rejected
moves and the positions in lists are at most the number of pins or vertices and are not checked.
-/

namespace PMondriaan

namespace GainStructure

/-- gain_buckets.cpp:205-248: the work for one net with global counts `C` and local counts `L`. -/
def moveNetLoc64 (fromP toP : Int) (st : GainStructure × List Cnt) (e : Nat) :
    Res (GainStructure × List Cnt) := do
  let (s, L) := st
  let j ← s.H.localIdNet e
  let n ← s.H.netOf e
  let t ← cGet s.C j toP
  let s ← runIf (t = 0) (s.addGainAll64 e n.cost) s
  let tl ← cGet L j toP
  let s ← runIf (t = 1 ∧ tl = 1) (do
    let c ← long (-1 * n.cost)
    s.addGainEnd64 e toP c) s
  let C1 ← cAdd s.C j toP 1
  let C2 ← cAdd C1 j fromP (-1)
  let L1 ← cAdd L j toP 1
  let L2 ← cAdd L1 j fromP (-1)
  let s := { s with C := C2 }
  let f ← cGet s.C j fromP
  let s ← runIf (f = 0) (do
    let c ← long (-1 * n.cost)
    s.addGainAll64 e c) s
  let fl ← cGet L2 j fromP
  let s ← runIf (f = 1 ∧ fl = 1) (s.addGainEnd64 e fromP n.cost) s
  pure (s, L2)

/-- gain_buckets.cpp:195-249 `move(v, C_loc)`. -/
def moveLoc64 (s : GainStructure) (v : Nat) (L : List Cnt) : Res (GainStructure × List Cnt) := do
  let x ← s.H.vertexOf v
  let s ← s.moveAndLock64 v L
  x.nets.foldlM (moveNetLoc64 x.part (other x.part)) (s, L)

end GainStructure

/-! ### Finding moves -/

/-- KLFM_parallel.cpp:366-367: the room left in the parts. -/
def extra64 (max0 max1 : Int) (w : W2) : Res W2 := do
  let e0 ← long (max0 - w.w0)
  let e1 ← long (max1 - w.w1)
  pure ⟨e0, e1⟩

/-- KLFM_parallel.cpp:378-396: move the vertex if it fits, otherwise take it out of its bucket. -/
def topMove64 (e : W2) (st : TopState) (part : Int) : Option Nat → Option Int → Res TopState
  | some v, some g => do
    let x ← st.gs.H.vertexOf v
    let extra ← e.get (other part)
    let room ← long (extra - x.weight)
    if room ≥ 0 then do
      let neg ← long (-1 * x.weight)
      let w ← st.w.add64 part neg
      let w ← w.add64 (other part) x.weight
      let (gs, L) ← st.gs.moveLoc64 v st.L
      pure { st with
        gs, L, w,
        moves := st.moves ++ [⟨v, g, if part = 0 then neg else x.weight⟩] }
    else do
      let gs ← st.gs.remove64 v
      pure { st with gs }
  | _, _ => .error .abort

/-- KLFM_parallel.cpp:366-396: the body of the while loop of `find_top_moves`. -/
def topBody64 (max0 max1 : Int) (st : TopState) : Res (Bool × TopState) := do
  let e ← extra64 max0 max1 st.w
  let (part, gs, rng) ← st.gs.partNext64 e.w0 e.w1 st.rng
  let (v, gs, rng) ← gs.next64 part rng
  let (g, gs) ← gs.gainNext64 part
  if gainNeg g then pure (false, { st with gs, rng })
  else do
    let st ← topMove64 e { st with gs, rng } part v g
    pure (true, st)

/-- KLFM_parallel.cpp:354-398 `find_top_moves`. -/
def topLoop64 (max0 max1 : Int) (K : Nat) : Nat → TopState → Res TopState
  | 0, _ => .error .fuel
  | f + 1, st => do
    let (d, gs) ← st.gs.done64
    if !d ∧ st.moves.length < K then do
      let (go, st) ← topBody64 max0 max1 { st with gs }
      if go then topLoop64 max0 max1 K f st else pure st
    else pure { st with gs }

/-! ### Rejecting moves -/

/-- KLFM_parallel.cpp:442-443, 460-461: the weights without a rejected move. -/
def reject64 (w : W2) (change : Int) : Res W2 := do
  let a ← long (w.w0 - change)
  let b ← long (w.w1 + change)
  pure ⟨a, b⟩

/-- KLFM_parallel.cpp:437-448: one iteration of the first loop. -/
def rejectPosStep64 (max1 : Int) (st : RejState) (m : QMove) : Res RejState :=
  if m.change > 0 then do
    let f ← vget st.fin m.proc
    if f then pure st
    else do
      let s ← long (st.w.w1 + m.change)
      if s ≤ max1 then do
        let r ← vget st.rejected m.proc
        let rs ← vset st.rejected m.proc (r + 1)
        let w ← reject64 st.w m.change
        pure { st with rejected := rs, w }
      else do
        let fs ← vset st.fin m.proc true
        pure { st with fin := fs }
  else pure st

/-- KLFM_parallel.cpp:433-449: the first loop; returns what is left in the queue. -/
def rejectPos64 (max0 max1 : Int) : List QMove → RejState → Res (List QMove × RejState)
  | [], st => pure ([], st)
  | m :: q, st =>
    if st.w.w0 > max0 then do
      let st ← rejectPosStep64 max1 st m
      rejectPos64 max0 max1 q st
    else pure (m :: q, st)

/-- KLFM_parallel.cpp:455-466: one iteration of the second loop. -/
def rejectNegStep64 (max0 : Int) (st : RejState) (m : QMove) : Res RejState :=
  if m.change < 0 then do
    let f ← vget st.fin m.proc
    if f then pure st
    else do
      let s ← long (st.w.w0 - m.change)
      if s ≤ max0 then do
        let r ← vget st.rejected m.proc
        let rs ← vset st.rejected m.proc (r - 1)
        let w ← reject64 st.w m.change
        pure { st with rejected := rs, w }
      else do
        let fs ← vset st.fin m.proc true
        pure { st with fin := fs }
  else pure st

/-- KLFM_parallel.cpp:451-467: the second loop. -/
def rejectNeg64 (max0 max1 : Int) : List QMove → RejState → Res RejState
  | [], st => pure st
  | m :: q, st =>
    if st.w.w1 > max1 then do
      let st ← rejectNegStep64 max0 st m
      rejectNeg64 max0 max1 q st
    else pure st

/-- KLFM_parallel.cpp:405-469 `reject_unbalanced_moves` after the sort. -/
def rejectUnbalanced64 (p : Nat) (max0 max1 : Int) (q : List QMove) (w : W2) :
    Res (List Int × W2) := do
  let balance ← q.foldlM (fun s m => long (s + m.change)) 0
  let w0 ← long (w.w0 + balance)
  let w1 ← long (w.w1 - balance)
  let (q1, st1) ← rejectPos64 max0 max1 q
    { rejected := List.replicate p 0, fin := List.replicate p false, w := ⟨w0, w1⟩ }
  let st2 ← rejectNeg64 max0 max1 q1 st1
  pure (st2.rejected, st2.w)

/-- KLFM_parallel.cpp:147-185, for processor `t`. -/
def rejectPhase64 (p K t : Nat) (np : NetPart) (max0 max1 : Int) (q : ProcState) (top : TopState)
    (queue : List QMove) : Res MidState := do
  let (rejs, w) ← rejectUnbalanced64 p max0 max1 queue q.w
  let rejected ← vget rejs t
  let slots := top.moves.map some ++ List.replicate (K - top.moves.length) none
  let st ← undoMoves rejected { H := top.gs.H, C := top.gs.C, L := top.L, moves := slots }
  let sends ← changeSends p np st.H st.C q.u.prev0
  pure { u := { q.u with gs := { top.gs with H := st.H, C := st.C } }, L := st.L, w,
         rng := top.rng, moves := st.moves, sends }

/-! ### Owners of nets -/

/-- KLFM_parallel.cpp:298-304: cost of the cut nets among the owned ones. -/
def ownedCut64 (owned : List Cnt) (costs : List Int) : Res Int :=
  (List.zip owned costs).foldlM (fun s x => if x.1.cut then long (s + x.2) else pure s) 0

/-- KLFM_parallel.cpp:279-305 `init_previous_C`. -/
def initPreviousC64 (d : Delivery (Nat × Cnt)) (np : NetPart) (Hs : List (Hypergraph × List Cnt))
    (own : List OwnerData) : Res (List (List Cnt × Int)) := do
  let p := Hs.length
  let puts ← Hs.mapM (fun x => countPuts p np x.1 x.2)
  (List.range p).mapM (fun t => do
    let o ← vget own t
    let owned ← (inbox d puts t).foldlM (fun a (m : Nat × Cnt) => vset a m.1 m.2)
      (List.replicate (np.count t) ⟨0, 0⟩)
    let cut ← ownedCut64 owned o.costs
    pure (owned, cut))

/-- KLFM_parallel.cpp:494-507: one message (net, count of part 0) at the owner. -/
def ownerStep64 (np : NetPart) (costs : List Int) (old : List Cnt) (st : List Cnt × Int)
    (m : Nat × Int) : Res (List Cnt × Int) := do
  let o ← vget old (np.loc m.1)
  let change := m.2 - o.c0
  if change ≠ 0 then do
    let n ← vget st.1 (np.loc m.1)
    let k ← vget costs (np.loc m.1)
    let cut1 ← runIf (n.c0 = 0 ∨ n.c1 = 0) (long (st.2 + k)) st.2
    let n1 : Cnt := ⟨n.c0 + change, n.c1 - change⟩
    let a ← vset st.1 (np.loc m.1) n1
    let cut2 ← runIf (n1.c0 = 0 ∨ n1.c1 = 0) (long (cut1 - k)) cut1
    pure (a, cut2)
  else pure st

/-- KLFM_parallel.cpp:320-331, 337-348: `add_gain` to the first or last pin of the net if it has the part. -/
def addGainSide64 (s : GainStructure) (n : Net) (part value : Int) : Res GainStructure := do
  let u ← GainStructure.endVertex n part
  let x ← s.H.vertexOf u
  runIf (x.part = part) (s.addGain64 u value) s

/-- KLFM_parallel.cpp:310-349 `update_gains`. -/
def updateGains64 (s : GainStructure) (n : Net) (a b : Cnt) : Res GainStructure := do
  let s ← runIf ((b.c0 = 0 ∧ a.c0 > 0) ∨ (b.c1 = 0 ∧ a.c1 > 0)) (do
    let c ← long (-1 * n.cost)
    n.vertices.foldlM (fun s u => s.addGain64 u c) s) s
  let s ← runIf (b.c0 = 1 ∧ a.c0 > 1) (addGainSide64 s n 0 n.cost) s
  let s ← runIf (b.c1 = 1 ∧ a.c1 > 1) (addGainSide64 s n 1 n.cost) s
  let s ← runIf ((b.c0 > 0 ∧ a.c0 = 0) ∨ (b.c1 > 0 ∧ a.c1 = 0))
    (n.vertices.foldlM (fun s u => s.addGain64 u n.cost) s) s
  let s ← runIf (b.c0 > 1 ∧ a.c0 = 1) (do
    let c ← long (-1 * n.cost)
    addGainSide64 s n 0 c) s
  runIf (b.c1 > 1 ∧ a.c1 = 1) (do
    let c ← long (-1 * n.cost)
    addGainSide64 s n 1 c) s

/-- KLFM_parallel.cpp:526-533: one net. -/
def refreshStep64 (prev0 : List Int) (s : GainStructure) (i : Nat) : Res GainStructure := do
  let c0 ← vget prev0 i
  let c ← vget s.C i
  let n ← vget s.H.nets i
  runIf (c0 ≠ c.c0) (updateGains64 s n c ⟨c0, (n.globalSize : Int) - c0⟩) s

/-- KLFM_parallel.cpp:525-534: update the gains of all nets whose counts changed elsewhere. -/
def refreshGains64 (s : GainStructure) (prev0 : List Int) : Res GainStructure :=
  (List.range s.H.nets.length).foldlM (refreshStep64 prev0) s

/-- KLFM_parallel.cpp:520-538: what a processor does with the replies. -/
def updateLocal64 (updateG : Bool) (u : UState) (owned : List Cnt) (cut : Int)
    (msgs : List (Nat × Int)) : Res UState := do
  let prev0 ← receivePrev u.gs.H u.prev0 msgs
  let gs ← runIf (updateG = true) (refreshGains64 u.gs prev0) u.gs
  let C ← setCounts gs.H prev0
  pure { gs := { gs with C }, prev0, owned, cutMine := cut }

/-- KLFM_parallel.cpp:474-540 `update_C`. -/
def updateC64 (dUp dDown : Delivery (Nat × Int)) (np : NetPart) (updateG : Bool)
    (own : List OwnerData) (us : List UState) (outs : List (List (Nat × (Nat × Int)))) :
    Res (List UState) := do
  let p := us.length
  let owned ← (List.range p).mapM (fun t => do
    let o ← vget own t
    let u ← vget us t
    (inbox dUp outs t).foldlM (ownerStep64 np o.costs u.owned) (u.owned, u.cutMine))
  let replies ← (List.range p).mapM (fun t => do
    let o ← vget own t
    let u ← vget us t
    let a ← vget owned t
    ownerReplies p np t o.procs u.owned a.1)
  (List.range p).mapM (fun t => do
    let u ← vget us t
    let a ← vget owned t
    updateLocal64 updateG u a.1 a.2 (inbox dDown replies t))

/-! ### A pass -/

/-- KLFM_parallel.cpp:192-215: bookkeeping of processor `t` after the new cutsize is known. -/
def accountMoves64 (q : ProcState) (m : MidState) (u : UState) (cut : Int) : Res ProcState := do
  let found := m.moves.filterMap (fun o => o.map (·.v))
  let (d, gs) ← u.gs.done64
  pure { u := { u with gs }, L := m.L, w := m.w, rng := m.rng,
         best := if cut > q.best then q.best else cut,
         noImp := if cut > q.best then q.noImp ++ found else [],
         done := q.done || d || found.isEmpty }

/-- KLFM_parallel.cpp:125-218: one iteration of the while loop of `KLFM_pass_par`. -/
def parRound64 (fuel K r : Nat) (pe : PassEnv) (np : NetPart) (max0 max1 : Int)
    (own : List OwnerData) (qs : List ProcState) : Res (List ProcState) := do
  let p := qs.length
  let tops ← (List.range p).mapM (fun t => do
    let q ← vget qs t
    topLoop64 max0 max1 K fuel { gs := q.u.gs, L := q.L, moves := [], w := q.w, rng := q.rng })
  let outs := tops.zipIdx.map (fun x => moveSends p x.2 x.1.moves)
  let mids ← (List.range p).mapM (fun t => do
    let q ← vget qs t
    let top ← vget tops t
    rejectPhase64 p K t np max0 max1 q top (pe.srt (inbox (pe.dMoves r) outs t)))
  let us ← updateC64 (pe.dUp r) (pe.dDown r) np true own (mids.map (·.u)) (mids.map (·.sends))
  let cut ← (us.map (·.cutMine)).foldlM (fun t x => long (t + x)) 0
  (List.range p).mapM (fun t => do
    let q ← vget qs t
    let m ← vget mids t
    let u ← vget us t
    accountMoves64 q m u cut)

/-- KLFM_parallel.cpp:123-219: the while loop. -/
def parRounds64 (fuel K : Nat) (pe : PassEnv) (np : NetPart) (max0 max1 : Int)
    (own : List OwnerData) : Nat → Nat → List ProcState → Res (List ProcState)
  | 0, _, _ => .error .fuel
  | f + 1, r, qs => do
    let qs ← parRound64 fuel K r pe np max0 max1 own qs
    if qs.all (·.done) then pure qs else parRounds64 fuel K pe np max0 max1 own f (r + 1) qs

/-- KLFM_parallel.cpp:224-235: one vertex. -/
def backStep64 (st : BackState) (v : Nat) : Res BackState := do
  let x ← st.H.vertexOf v
  let wc ← if x.part = 0 then long (st.wc - x.weight) else long (st.wc + x.weight)
  let (H, C, L) ← st.H.moveLoc v st.C st.L
  pure { H, C, L, wc, changed := x.nets.foldl setInsert st.changed }

/-- KLFM_parallel.cpp:95-121: the variables before the first round. -/
def parStart64 (d : Delivery (Nat × Cnt)) (np : NetPart) (own : List OwnerData)
    (ps : List ParResult) : Res (List ProcState) := do
  let p := ps.length
  let gss ← ps.mapM (fun q => GainStructure.create64 q.H q.C)
  let prevs ← initPreviousC64 d np (ps.map (fun q => (q.H, q.C))) own
  (List.range p).mapM (fun t => do
    let q ← vget ps t
    let gs ← vget gss t
    let o ← vget prevs t
    pure { u := { gs, prev0 := q.C.map (·.c0), owned := o.1, cutMine := o.2 }, L := q.L, w := q.w,
           best := q.cut, noImp := [], done := false, rng := q.rng })

/-- KLFM_parallel.cpp:221-249: move back to the best point. -/
def parFinish64 (pe : PassEnv) (np : NetPart) (own : List OwnerData) (qs : List ProcState) :
    Res (List ParResult) := do
  let p := qs.length
  let backs ← qs.mapM (fun q =>
    q.noImp.foldlM backStep64 { H := q.u.gs.H, C := q.u.gs.C, L := q.L, wc := 0, changed := [] })
  let outs ← backs.mapM (backSends p np)
  let us ← updateC64 pe.dLastUp pe.dLastDown np false own
    ((List.zip qs backs).map (fun x => { x.1.u with gs := { x.1.u.gs with H := x.2.H, C := x.2.C } }))
    outs
  let change ← (backs.map (·.wc)).foldlM (fun t x => long (t + x)) 0
  (List.range p).mapM (fun t => do
    let q ← vget qs t
    let b ← vget backs t
    let u ← vget us t
    let w0 ← long (q.w.w0 + change)
    let w1 ← long (q.w.w1 - change)
    pure { cut := q.best, H := u.gs.H, C := u.gs.C, L := b.L, w := ⟨w0, w1⟩, rng := q.rng })

/-- KLFM_parallel.cpp:80-250 `KLFM_pass_par`. -/
def KLFMPassPar64 (rounds fuel K : Nat) (pe : PassEnv) (np : NetPart) (max0 max1 : Int)
    (own : List OwnerData) (ps : List ParResult) : Res (List ParResult) := do
  let qs ← parStart64 pe.dInit np own ps
  let qs ← parRounds64 fuel K pe np max0 max1 own rounds 0 qs
  parFinish64 pe np own qs

/-- KLFM_parallel.cpp:63-73: the loop over the passes. -/
def parPasses64 (rounds fuel K : Nat) (pes : Nat → PassEnv) (np : NetPart) (max0 max1 : Int)
    (own : List OwnerData) : Nat → Nat → List ParResult → Res (List ParResult)
  | 0, _, ps => pure ps
  | k + 1, i, ps => do
    let qs ← KLFMPassPar64 rounds fuel K (pes i) np max0 max1 own ps
    let better := (List.zip ps qs).map (fun x => decide (x.2.cut < x.1.cut))
    if better.all (· = true) then parPasses64 rounds fuel K pes np max0 max1 own k (i + 1) qs
    else if better.all (· = false) then
      pure ((List.zip ps qs).map (fun x => { x.2 with cut := x.1.cut }))
    else .error .abort

/-- KLFM_parallel.cpp:41-45: the starting cutsize. -/
def startCutPar64 (e : ParEnv) (Hs : List Hypergraph) (metric : Metric) :
    Option Int → Res (List Int)
  | none => cutsizePar64 e.so e.dCut e.np Hs metric
  | some c => pure (Hs.map (fun _ => c))

/-- KLFM_parallel.cpp:22-75 `KLFM_par`. -/
def KLFMPar64 (rounds fuel : Nat) (e : ParEnv) (args : List ParArgs) (max0 max1 : Int)
    (opts : Options) (cut : Option Int) : Res (List ParResult) := do
  let cuts ← startCutPar64 e (args.map (·.H)) opts.metric cut
  let ps ← (List.range args.length).mapM (fun t => do
    let a ← vget args t
    let c ← vget cuts t
    let L ← initCounts a.H
    let H ← a.H.sortVerticesOnPart L
    pure { cut := c, H, C := a.C, L, w := a.w, rng := a.rng })
  let own ← initCostMyNets e.dCost e.dProc e.np (ps.map (·.H))
  parPasses64 rounds fuel opts.klfmParSendMoves e.pass e.np max0 max1 own opts.klfmMaxPasses 0 ps

end PMondriaan

import Verif.Model.RecBisectPar

/-
Model of `recursive_bisect` (src/recursive_bisection.cpp:26-199) on several processors, with the cut-net metric.

The groups are independent of each other except for `remove_cut_nets` (lines 378-443): it sends to all processors of
the full world and synchronizes the full world from within a group. A group is therefore a program that stops at
every synchronization of the full world, and the programs of two groups are run side by side. When one group
has ended and another one waits for a synchronization, the processors have lost step: `add_cut_nets` or the last
`world.sync()` of the first meet `remove_cut_nets` of the others, and the model stops.
-/

namespace PMondriaan

/-- The program of a group: it has ended, or it waits for the full world to synchronize in `remove_cut_nets`
(line 434). `sends` has, for each processor of the group, the ids it sends to everybody; `next` continues with the
ids that each processor of the group receives. -/
inductive CutProg (α : Type) where
  | ret (r : Res α) : CutProg α
  | sync (sends : List (List Nat)) (next : List (List Nat) → CutProg α) : CutProg α

/-- One program after the other. -/
def CutProg.andThen {α β : Type} : CutProg α → (α → CutProg β) → CutProg β
  | .ret (.ok a), f => f a
  | .ret (.error e), _ => .ret (.error e)
  | .sync sends next, f => .sync sends (fun ins => (next ins).andThen f)

/-- The programs of two groups side by side. When several groups fail, the model reports the failure of the
first. When one has ended and the other one waits, the processors have lost step. -/
def CutProg.both {α β : Type} : CutProg α → CutProg β → CutProg (α × β)
  | .ret (.ok a), .ret (.ok b) => .ret (.ok (a, b))
  | .ret (.error e), _ => .ret (.error e)
  | .ret (.ok _), .ret (.error e) => .ret (.error e)
  | .ret (.ok _), .sync _ _ => .ret (.error .abort)
  | .sync _ _, .ret (.error e) => .ret (.error e)
  | .sync _ _, .ret (.ok _) => .ret (.error .abort)
  | .sync s n, .sync s' n' =>
    .sync (s ++ s') (fun ins => (n (ins.take s.length)).both (n' (ins.drop s.length)))

/-- The program of the full world: at each synchronization the ids are delivered to all processors
(lines 389-391, 421-423 and 428-430), in an order that may be different each time. -/
def CutProg.runWorld {α : Type} (d : Nat → Delivery Nat) : Nat → CutProg α → Res α
  | _, .ret r => r
  | i, .sync sends next =>
    (next ((List.range sends.length).map (fun t =>
      inbox (d i) (sends.map (toAll sends.length)) t))).runWorld d (i + 1)

/-- What is undetermined in addition to `ParRecEnv`: the partitioning of the nets over a number of processors, the
delivery orders of the labels (line 401), of the ids of cut nets (line 382) and of the pins in `add_cut_nets`
(line 452). -/
structure CutEnv where
  np : Nat → NetPart
  dLab : List Bool → Delivery (Nat × Int)
  dIds : Nat → Delivery Nat
  dPins : Delivery (Nat × Nat × Int)

/-- recursive_bisection.cpp:382-432: the ids that the processors of a group send to everybody. The group consists of
the processors with ranks `base, base + 1, …` in the full world. Note that `total_cut` has the size of the block of
nets of the processor with the rank in the *world* (line 415), although the nets are divided over the processors of
the group. -/
def groupReports (C : CutEnv) (path : List Bool) (base : Nat) : List Hypergraph → Res (List (List Nat))
  | [H] => do
    let ids ← reportedNets H
    pure [ids]
  | Hs => do
    let outs ← Hs.mapM (fun H => sendLabels (C.np Hs.length) Hs.length H)
    (List.range Hs.length).mapM (fun t => do
      let r ← (inbox (C.dLab path) outs t).foldlM (collectLabel (C.np Hs.length))
        (List.replicate ((C.np Hs.length).count (base + t)) (-2), [])
      pure r.2)

/-- recursive_bisection.cpp:378-443 `remove_cut_nets` by a group. The state of a processor is its hypergraph and
`cut_nets`. -/
def removeSync (C : CutEnv) (path : List Bool) (base : Nat) (xs : List (Hypergraph × List Net)) :
    CutProg (List (Hypergraph × List Net)) :=
  match groupReports C path base (xs.map (·.1)) with
  | .error e => .ret (.error e)
  | .ok sends => .sync sends (fun ins => .ret ((xs.zip ins).mapM (fun x => x.2.foldlM setAside x.1)))

/-- recursive_bisection.cpp:185-187, after an iteration of the sequential loop: cut nets are set aside when jobs
are left. -/
def aloneRemove (C : CutEnv) (path : List Bool) (base : Nat) (s : RecState) (cut : List Net) :
    CutProg (RecState × List Net) :=
  if s.jobs.isEmpty then .ret (.ok (s, cut))
  else (removeSync C path base [(s.H, cut)]).andThen (fun ys =>
    match ys with
    | [y] => .ret (.ok ({ s with H := y.1 }, y.2))
    | _ => .ret (.error .abort))

/-- recursive_bisection.cpp:150-189, the two nested loops on a processor that is alone, from the test of the inner
one. `P` is an environment without the cut-net metric: its iterations leave the nets in place (`splitStep`); `cut` is
`cut_nets`. -/
def aloneLoop (P : RecEnv) (C : CutEnv) (path : List Bool) (base : Nat) (maxweight : Int) :
    Nat → WorkItem → RecState → List Net → CutProg (RecState × List Net)
  | 0, _, _, _ => .ret (.error .fuel)
  | f + 1, cur, s, cut =>
    if cur.high - cur.low > 0 then
      match splitStep P maxweight cur s with
      | .error e => .ret (.error e)
      | .ok (cur', s') => (aloneRemove C path base s' cut).andThen (fun y =>
          aloneLoop P C path base maxweight f cur' y.1 y.2)
    else match s.jobs with
      | [] => .ret (.ok (s, cut))
      | j :: js => aloneLoop P C path base maxweight f j { s with jobs := js } cut

/-- recursive_bisection.cpp:191-194: the last removal, by the processors that have done few splits. -/
def lastRemove (C : CutEnv) (path : List Bool) (base k splits : Nat) (xs : List (Hypergraph × List Net)) :
    CutProg (List (Hypergraph × List Net)) :=
  if splits * 2 < k then removeSync C path base xs else .ret (.ok xs)

/-- recursive_bisection.cpp:150-194 on a processor that is alone, which has done `splits` splits before. -/
def aloneCut (P : ParRecEnv) (C : CutEnv) (maxweight : Int) (k : Nat) (path : List Bool) (base : Nat)
    (labels : Interval) (weight : Int) (splits : Nat) (x : RecProc) (cut : List Net) :
    CutProg (List (Hypergraph × List Net)) :=
  (aloneLoop (P.recEnv path) C path base maxweight (2 * labels.count)
    { start := 0, fin := x.fin, low := labels.low, high := labels.high, weight := weight }
    { H := x.H, rng := x.rng, jobs := [], cut := [], splits := 0, calls := [] } cut).andThen (fun y =>
      lastRemove C path base k (splits + y.1.splits) [(y.1.H, y.2)])

/-- The state of the processors after the removal, put back. -/
def withRest (rs : List RState) (ys : List (Hypergraph × List Net)) : List RState :=
  (rs.zip ys).map (fun x => { x.1 with H := x.2.1 })

/-- recursive_bisection.cpp:104-141: a group that goes on after the bisection sets nets aside and redistributes. -/
def cutRedist (P : ParRecEnv) (C : CutEnv) (eta : ℚ) (path : List Bool) (base : Nat) (labels : Interval)
    (split : ParSplit) (rs : List RState) (cuts : List (List Net)) : CutProg (List (RecProc × List Net)) :=
  (removeSync C path base ((rs.map (·.H)).zip cuts)).andThen (fun ys =>
    .ret (do
      let zs ← redistribute (P.ord path) (P.dVert path) (P.dCost path) split.plow labels.low labels.high
        (redistArgs P.rnd eta split.w0 split.w1 split.plow (withRest rs ys))
      pure ((afterRedist (withRest rs ys) zs).zip (ys.map (·.2)))))

/-- The two sides of a group; a side without processors does nothing. -/
def bothSides {α : Type} (plow p : Nat) (low high : CutProg (List α)) : CutProg (List α) :=
  if plow = 0 then high
  else if plow = p then low
  else (low.both high).andThen (fun ab => .ret (.ok (ab.1 ++ ab.2)))

/-- recursive_bisection.cpp:64-194, a group of processors with the cut-net metric. `splits` is the number of splits
the processors of the group have done. -/
def recCut (P : ParRecEnv) (C : CutEnv) (eta : ℚ) (maxweight : Int) (k : Nat) :
    Nat → List Bool → Nat → Interval → Int → Nat → List (RecProc × List Net) →
      CutProg (List (Hypergraph × List Net))
  | 0, _, _, _, _, _, _ => .ret (.error .fuel)
  | _ + 1, _, _, _, _, _, [] => .ret (.ok [])
  | _ + 1, path, base, labels, weight, splits, [x] =>
    aloneCut P C maxweight k path base labels weight splits x.1 x.2
  | f + 1, path, base, labels, weight, splits, x :: y :: l =>
    if labels.length > 0 then
      match groupHead P maxweight path labels weight ((x :: y :: l).map (·.1)) with
      | .error e => .ret (.error e)
      | .ok (split, rs, go) =>
        if go then
          (cutRedist P C eta path base labels split rs ((x :: y :: l).map (·.2))).andThen (fun zs =>
            bothSides split.plow zs.length
              (recCut P C eta maxweight k f (path ++ [true]) base (lowLabels labels) split.w0 (splits + 1)
                (zs.take split.plow))
              (recCut P C eta maxweight k f (path ++ [false]) (base + split.plow) (highLabels labels) split.w1
                (splits + 1) (zs.drop split.plow)))
        else lastRemove C path base k (splits + 1) ((rs.map (·.H)).zip ((x :: y :: l).map (·.2)))
    else lastRemove C path base k splits ((x :: y :: l).map (fun z => (z.1.H, z.2)))

/-- recursive_bisection.cpp:26-199 `recursive_bisect` with the cut-net metric. -/
def recursiveBisectCut (P : ParRecEnv) (C : CutEnv) (k : Nat) (epsilon eta : ℚ) (Hs : List Hypergraph)
    (rngs : List Rng) : Res (List Hypergraph) := do
  let W ← agreed (globalWeight Hs)
  let ys ← (recCut P C eta (maxWeight P.rnd epsilon W k) k (k + 1) [] 0 ⟨0, (k : Int) - 1⟩ W 0
    ((Hs.zip rngs).map (fun x =>
      (({ H := x.1, fin := x.1.vertices.length, rng := x.2 } : RecProc), ([] : List Net))))).runWorld C.dIds 0
  addCutNets C.dPins ys

end PMondriaan

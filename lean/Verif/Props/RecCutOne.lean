import Verif.Props.RecCutPar
import Verif.Props.RecBisectPar

/-
C77 on one processor: the model of the recursion with the cut-net metric on several processors is there that of C38
and C40.
-/

namespace PMondriaan

open Spec

/-- When all deliveries are alike, it does not matter which synchronization it is. -/
theorem runWorld_index {α : Type} (d : Delivery Nat) (p : CutProg α) :
    ∀ i j, p.runWorld (fun _ => d) i = p.runWorld (fun _ => d) j := by
  induction p with
  | ret r => intro i j; rfl
  | sync sends next ih =>
    intro i j
    show (next _).runWorld _ (i + 1) = (next _).runWorld _ (j + 1)
    exact ih _ _ _

theorem runWorld_andThen {α β : Type} (d : Delivery Nat) (p : CutProg α) (f : α → CutProg β) :
    ∀ i j, (p.andThen f).runWorld (fun _ => d) i =
      p.runWorld (fun _ => d) i >>= fun a => (f a).runWorld (fun _ => d) j := by
  induction p with
  | ret r =>
    intro i j
    cases r with
    | error e => rfl
    | ok a => exact runWorld_index d (f a) i j
  | sync sends next ih =>
    intro i j
    exact ih _ (i + 1) j

theorem removeSync_one (C : CutEnv) (path : List Bool) (base : Nat) (d : Delivery Nat) (H : Hypergraph) (cut : List Net)
    (i : Nat) : (removeSync C path base [(H, cut)]).runWorld (fun _ => d) i = removeCutNetsAlone d [(H, cut)] := by
  unfold removeSync removeCutNetsAlone
  simp only [List.map_cons, List.map_nil, groupReports]
  cases h : reportedNets H with
  | error e => simp [error_bind, CutProg.runWorld, h]
  | ok ids => simp [ok_bind, CutProg.runWorld, h]

theorem mapM_zipIdx_single {α β : Type} {f : α × Nat → Res β} {a : α} {ys : List β}
    (h : [a].zipIdx.mapM f = .ok ys) : ∃ y, ys = [y] := by
  rw [List.zipIdx_cons, List.zipIdx_nil, List.mapM_cons, List.mapM_nil, bind_eq_ok] at h
  obtain ⟨y, -, h⟩ := h
  exact ⟨y, (Except.ok.inj h).symm⟩

theorem removeCutNetsAlone_single {d : Delivery Nat} {x : Hypergraph × List Net} {ys : List (Hypergraph × List Net)}
    (h : removeCutNetsAlone d [x] = .ok ys) : ∃ y, ys = [y] := by
  unfold removeCutNetsAlone at h
  rw [bind_eq_ok] at h
  obtain ⟨outs, -, h⟩ := h
  exact mapM_zipIdx_single h

theorem addCutNets_single {d : Delivery (Nat × Nat × Int)} {x : Hypergraph × List Net} {Hs : List Hypergraph}
    (h : addCutNets d [x] = .ok Hs) : ∃ H, Hs = [H] := by
  unfold addCutNets at h
  exact mapM_zipIdx_single h

/-- The end of the recursion. -/
theorem addCutNets_one (d : Delivery (Nat × Nat × Int)) (x : Hypergraph × List Net) (s : RecState) :
    addCutNets d [x] = Except.map (fun t : RecState => [t.H])
      (addCutNets d [x] >>= fun Hs => vget Hs 0 >>= fun H' => pure { s with H := H', cut := x.2 }) := by
  cases h : addCutNets d [x] with
  | error e => rfl
  | ok Hs =>
    obtain ⟨H, rfl⟩ := addCutNets_single h
    rfl

/-- The sequential environment of a processor that is alone, with the cut-net metric. -/
def ParRecEnv.cutEnv (P : ParRecEnv) (path : List Bool) (d : Delivery Nat) (d2 : Delivery (Nat × Nat × Int)) : RecEnv :=
  { P.recEnv path with cutMetric := true, d1 := d, d2 := d2 }

/-- An iteration with the cut-net metric is one without, and then nets are set aside. -/
theorem splitStep_cut (P : ParRecEnv) (path : List Bool) (d : Delivery Nat) (d2 : Delivery (Nat × Nat × Int)) (M : Int)
    (cur : WorkItem) (s : RecState) (cut : List Net) :
    splitStep (P.cutEnv path d d2) M cur { s with cut := cut } =
      splitStep (P.recEnv path) M cur s >>= fun x =>
        maybeRemove (P.cutEnv path d d2) (!x.2.jobs.isEmpty) x.2.H cut >>= fun y =>
          pure (x.1, { x.2 with H := y.1, cut := y.2 }) := by
  unfold splitStep
  dsimp only
  rw [show (P.cutEnv path d d2).rnd = (P.recEnv path).rnd from rfl,
    show (P.cutEnv path d d2).bis = (P.recEnv path).bis from rfl]
  cases computeMax (P.recEnv path).rnd (cur.high - cur.low + 1).toNat ((cur.high - cur.low + 1).toNat / 2)
      ((cur.high - cur.low + 1).toNat - (cur.high - cur.low + 1).toNat / 2) cur.weight M with
  | error e => rfl
  | ok m =>
    simp only [ok_bind]
    cases bisectRange (P.recEnv path).bis s.H m.1 m.2 cur.start cur.fin ⟨cur.low, cur.high⟩ s.rng with
    | error e => rfl
    | ok r =>
      simp only [ok_bind]
      cases pushHigh cur ⟨cur.low + ↑((cur.high - cur.low + 1).toNat / 2), cur.high⟩ r.w1 r.H s.jobs with
      | error e => rfl
      | ok z =>
        simp only [ok_bind]
        have e1 : ∀ b, maybeRemove (P.recEnv path) b z.1 s.cut = .ok (z.1, s.cut) := fun b => rfl
        rw [e1]
        simp only [ok_bind]
        rfl

theorem splitStep_cutNets {P : ParRecEnv} {path : List Bool} {M : Int} {cur : WorkItem} {s : RecState} {x : WorkItem × RecState}
    (h : splitStep (P.recEnv path) M cur s = .ok x) : x.2.cut = s.cut := by
  unfold splitStep at h
  simp only [bind_eq_ok] at h
  obtain ⟨m, -, r, -, z, -, y, h3, h4⟩ := h
  have h3 : y = (z.1, s.cut) := (Except.ok.inj h3).symm
  subst h3
  rw [← Except.ok.inj h4]

theorem aloneRemove_one (P : ParRecEnv) (C : CutEnv) (path : List Bool) (base : Nat) (d : Delivery Nat)
    (d2 : Delivery (Nat × Nat × Int)) (s : RecState) (cut : List Net) (i : Nat) :
    (aloneRemove C path base s cut).runWorld (fun _ => d) i =
      maybeRemove (P.cutEnv path d d2) (!s.jobs.isEmpty) s.H cut >>= fun y => pure ({ s with H := y.1 }, y.2) := by
  unfold aloneRemove maybeRemove
  rw [show (P.cutEnv path d d2).cutMetric = true from rfl, show (P.cutEnv path d d2).d1 = d from rfl]
  by_cases hj : s.jobs.isEmpty = true
  · simp [hj, CutProg.runWorld, pure, Except.pure, bind, Except.bind]
  · have hj' : s.jobs.isEmpty = false := by simpa using hj
    simp only [hj', Bool.false_eq_true, if_false, Bool.not_false, Bool.and_self, if_true]
    rw [runWorld_andThen d _ _ i i, removeSync_one]
    cases h : removeCutNetsAlone d [(s.H, cut)] with
    | error e => rfl
    | ok ys =>
      obtain ⟨y, rfl⟩ := removeCutNetsAlone_single h
      rfl

/-- The loops of a processor that is alone. -/
theorem aloneLoop_one (P : ParRecEnv) (C : CutEnv) (path : List Bool) (base : Nat) (d : Delivery Nat)
    (d2 : Delivery (Nat × Nat × Int)) (M : Int) : ∀ (f : Nat) (cur : WorkItem) (s : RecState) (cut : List Net) (i : Nat),
    (aloneLoop (P.recEnv path) C path base M f cur s cut).runWorld (fun _ => d) i =
      (recLoop (P.cutEnv path d d2) M f cur { s with cut := cut }).map (fun t => ({ t with cut := s.cut }, t.cut)) := by
  intro f
  induction f with
  | zero => intro cur s cut i; rfl
  | succ f ih =>
    intro cur s cut i
    unfold aloneLoop recLoop
    by_cases hlh : cur.high - cur.low > 0
    · rw [if_pos hlh, if_pos hlh, splitStep_cut]
      cases h : splitStep (P.recEnv path) M cur s with
      | error e => rfl
      | ok x =>
        simp only [ok_bind]
        rw [runWorld_andThen d _ _ i i, aloneRemove_one P C path base d d2]
        cases maybeRemove (P.cutEnv path d d2) (!x.2.jobs.isEmpty) x.2.H cut with
        | error e => rfl
        | ok y =>
          simp only [ok_bind, pure, Except.pure]
          show (aloneLoop (P.recEnv path) C path base M f x.1 { x.2 with H := y.1 } y.2).runWorld (fun _ => d) i = _
          rw [ih]
          rw [splitStep_cutNets h]
    · rw [if_neg hlh, if_neg hlh]
      obtain ⟨H, rng, jobs, cut0, sp, calls⟩ := s
      cases jobs with
      | nil => rfl
      | cons j js => exact ih j ⟨H, rng, js, cut0, sp, calls⟩ cut i

/-- C77: on one processor the model of the recursion with the cut-net metric is that of C38 and C40. -/
theorem C77_one_processor (P : ParRecEnv) (C : CutEnv) (d : Delivery Nat) (hd : C.dIds = fun _ => d) {k : Nat} (hk : 1 ≤ k)
    (epsilon eta : ℚ) (H : Hypergraph) (rng : Rng) :
    recursiveBisectCut P C k epsilon eta [H] [rng] =
      (recursiveBisect (P.cutEnv [] d C.dPins) H k epsilon rng).map (fun s => [s.H]) := by
  have hag : agreed (globalWeight [H]) = .ok H.totalWeight := by
    simp [globalWeight, bulkSum, agreed]
  have hc : (⟨0, (k : Int) - 1⟩ : Interval).count = k := by
    unfold Interval.count Interval.length
    dsimp only
    omega
  unfold recursiveBisectCut
  rw [hag, ok_bind, hd]
  simp only [List.zip_cons_cons, List.zip_nil_right, List.map_cons, List.map_nil, recCut, aloneCut, hc]
  rw [runWorld_andThen d _ _ 0 0, aloneLoop_one P C [] 0 d C.dPins]
  unfold recursiveBisect
  dsimp only
  rw [show (P.cutEnv [] d C.dPins).rnd = P.rnd from rfl]
  cases recLoop (P.cutEnv [] d C.dPins) (maxWeight P.rnd epsilon H.totalWeight k) (2 * k)
      { start := 0, fin := (H.vertices.length : Int), low := 0, high := (k : Int) - 1, weight := H.totalWeight }
      { H := H, rng := rng, jobs := [], cut := [], splits := 0, calls := [] } with
  | error e => rfl
  | ok s =>
    simp only [Except.map, ok_bind]
    unfold restoreCut lastRemove maybeRemove
    rw [show (P.cutEnv [] d C.dPins).cutMetric = true from rfl, show (P.cutEnv [] d C.dPins).d1 = d from rfl,
      show (P.cutEnv [] d C.dPins).d2 = C.dPins from rfl]
    simp only [if_true, Nat.zero_add, Bool.true_and, decide_eq_true_eq]
    by_cases h2 : s.splits * 2 < k
    · rw [if_pos h2, if_pos h2, removeSync_one]
      cases h3 : removeCutNetsAlone d [(s.H, s.cut)] with
      | error e => rfl
      | ok ys =>
        obtain ⟨y, rfl⟩ := removeCutNetsAlone_single h3
        exact addCutNets_one C.dPins y s
    · rw [if_neg h2, if_neg h2]
      exact addCutNets_one C.dPins (s.H, s.cut) s

end PMondriaan

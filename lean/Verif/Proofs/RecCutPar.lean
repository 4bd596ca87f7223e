import Verif.Proofs.CutKept

/-
The recursion on several processors with the cut-net metric.
-/

namespace PMondriaan

open Spec

theorem fit_dist {N T : Nat} {H : Hypergraph} (h : Fit N T H) : Distributed N [H] := by
  refine ⟨?_, ?_, ?_, ?_⟩
  · intro K hK; rw [List.mem_singleton] at hK; rw [hK]; exact h.wf
  · simpa using h.wf.vids
  · intro K hK; rw [List.mem_singleton] at hK; rw [hK]; exact h.ids
  · intro K hK K' hK' n hn n' hn' hid
    rw [List.mem_singleton] at hK hK'
    rw [hK] at hn
    rw [hK'] at hn'
    rw [List.inj_on_of_nodup_map h.wf.nids hn hn' hid]

theorem RecInv.rebase {P : RecEnv} {N f k : Nat} {H0 H' : Hypergraph} {cur : WorkItem} {s : RecState}
    (hc : P.cutMetric = false) (hI : RecInv P N f k H0 cur s) (hfit : Fit N f H')
    (hcore : H'.vertices.map coreKey = s.H.vertices.map coreKey) : RecInv P N f k H' cur { s with H := H' } := by
  have hcut := (hI.lambda hc).1
  refine ⟨hfit, ?_, .refl _, ?_, fun _ => ⟨hcut, rfl⟩, ?_, hI.labels, ?_, rfl⟩
  · intro h; rw [hc] at h; cases h
  · dsimp only; rw [hcut, List.append_nil]
  · intro i v hv
    have h1 : (H'.vertices.map coreKey)[i]? = some (coreKey v) := by
      rw [List.getElem?_map]; dsimp only at hv; rw [hv]; rfl
    rw [hcore, List.getElem?_map] at h1
    obtain ⟨u, hu, h2⟩ := Option.map_eq_some_iff.1 h1
    have h3 : u.part = v.part := by
      unfold coreKey at h2
      injection h2 with _ h2
      injection h2
    rw [← h3]
    exact hI.labelled i u hu
  · intro j hj hw hlh
    have := congrArg List.length hcore
    rw [List.length_map, List.length_map] at this
    dsimp only
    rw [this]
    exact hI.ranges j hj hw hlh

theorem aloneRemove_ends {N T : Nat} (C : CutEnv) (path : List Bool) (base : Nat) {s : RecState} {cut : List Net}
    (hf : Fit N T s.H) {S : Prop} {E : Err → Prop} (hE : E .ub) {G : List Nat} (hI : CutInv G [(s.H, cut)]) :
    (aloneRemove C path base s cut).Ends S (fun G' y => y.1 = { s with H := y.1.H } ∧ Fit N T y.1.H ∧
      y.1.H.vertices.map coreKey = s.H.vertices.map coreKey ∧ CutKept N [(s.H, cut)] [(y.1.H, y.2)] ∧
      CutInv G' [(y.1.H, y.2)]) E (if s.jobs.isEmpty then 0 else 1) G := by
  have hD : Distributed N ([(s.H, cut)].map (·.1)) := fit_dist hf
  unfold aloneRemove
  split
  · exact ⟨fun _ => rfl, rfl, hf, rfl, .refl hD, hI⟩
  · refine CutProg.Ends.andThen (m := 0) ?_ (removeSync_ends C path base (xs := [(s.H, cut)]) (by
      intro x hx; rw [List.mem_singleton] at hx; rw [hx]; exact hf.wf) hE G)
    rintro G' ys ⟨ids, rfl, h1, h2⟩
    have h3 := aside_inv hD hI h1 h2
    have h4 := aside_kept hD h1
    cases h1 with
    | cons h5 h6 =>
      cases h6
      exact ⟨fun _ => rfl, rfl, setAside_fit h5 hf, h5.verts, h4, h3⟩

/-- The number of splits that remain. -/
def splitsLeft (cur : WorkItem) (jobs : List WorkItem) : Nat :=
  (cur.high - cur.low).toNat + (jobs.map (fun j => (j.high - j.low).toNat)).sum

theorem aloneLoop_ends {P : RecEnv} {N T k : Nat} (hbis : BisectsWell P.bis N T) (hd : Fair P.d1)
    (hc : P.cutMetric = false) (C : CutEnv) (path : List Bool) (base : Nat) (M : Int) {S : Prop} {E : Err → Prop}
    (hE : E .ub) : ∀ (fuel : Nat) (cur : WorkItem) (s : RecState) (cut : List Net) (G : List Nat),
    RecInv P N T k s.H cur s → CutInv G [(s.H, cut)] → work cur s.jobs < fuel → (∀ j ∈ s.jobs, j.low < j.high) →
    (aloneLoop P C path base M fuel cur s cut).Ends S
      (fun G' y => CutDone N k [(s.H, cut)] G' [(y.1.H, y.2)] ∧ y.1.splits = s.splits + splitsLeft cur s.jobs) E
      (splitsLeft cur s.jobs - 1) G := by
  intro fuel
  induction fuel with
  | zero => intro cur s cut G _ _ h; omega
  | succ fuel ih =>
    intro cur s cut G hI hC hfu hpj
    unfold aloneLoop
    by_cases hlh : cur.low < cur.high
    · rw [if_pos (by omega)]
      rcases splitStep_spec hbis hd M hI.fit hI.nonempty hlh
        (fun hw => hI.ranges cur (List.mem_cons_self ..) hw hlh) with ⟨-, h⟩ |
        ⟨-, cur', s', h, S', E', H1, H2, w0, w1, a1, a2, a3, a4, a5⟩
      · rw [h]; exact hE
      · have hcount : splitsLeft cur' s'.jobs + 1 = splitsLeft cur s.jobs ∧ (∀ j ∈ s'.jobs, j.low < j.high) ∧
            (s'.jobs = [] → splitsLeft cur' s'.jobs = 0) := by
          have c1 := a5.cur_low
          have c2 := a5.cur_high
          unfold splitsLeft
          rw [c1, c2]
          rcases a5.reorder with ⟨r1, r2, -⟩ | ⟨r1, r2, -⟩
          · rw [r2]
            refine ⟨?_, ?_, by intro h; cases h⟩
            · rw [List.map_cons, List.sum_cons]
              dsimp only
              omega
            · intro j hj
              rcases List.mem_cons.1 hj with rfl | hj
              · dsimp only; omega
              · exact hpj j hj
          · rw [r2]
            refine ⟨by omega, hpj, fun h => ?_⟩
            rw [h, List.map_nil, List.sum_nil]
            omega
        obtain ⟨hc1, hc2, hc3⟩ := hcount
        have hsp := a5.splits
        obtain ⟨hI', hw'⟩ := hI.step hlh a1 a2 a3 a4 a5
        rw [h]
        dsimp only
        have hK : Kept N [s.H] [s'.H] := kept_local (fit_dist hI.fit)
          (.cons ⟨hI'.fit.wf, (hI'.lambda hc).2, hI'.verts, hI'.sizes⟩ .nil)
        have hK2 : CutKept N [(s.H, cut)] [(s'.H, cut)] :=
          kept_cutKept (cuts := [cut]) (fit_dist hI.fit) hK rfl
        have hC2 : CutInv G [(s'.H, cut)] := kept_inv (cuts := [cut]) (fit_dist hI.fit) hK rfl hC
        refine (CutProg.Ends.andThen (m := splitsLeft cur' s'.jobs - 1) ?_
          (aloneRemove_ends C path base hI'.fit hE hC2)).change ?_
        swap
        · intro _
          cases hj : s'.jobs with
          | nil => have := hc3 hj; rw [hj] at this hc1; simp only [List.isEmpty_nil, if_true]; omega
          | cons j js =>
            have := hc2 j (by rw [hj]; simp)
            have : 0 < splitsLeft cur' (j :: js) := by
              unfold splitsLeft
              rw [List.map_cons, List.sum_cons]
              omega
            rw [hj] at hc1
            simp only [List.isEmpty_cons, Bool.false_eq_true, if_false]
            omega
        rintro G' ⟨t, cut'⟩ ⟨b1, b2, b3, b4, b5⟩
        have hR := hI'.rebase hc b2 b3
        dsimp only at b1 b5
        rw [← b1] at hR
        have hj : t.jobs = s'.jobs := by rw [b1]
        have hs : t.splits = s'.splits := by rw [b1]
        rw [← hj] at hc1 hc2 hw' ⊢
        refine (ih cur' t cut' G' hR b5 (by omega) hc2).mono ?_
        intro G'' y hy
        exact ⟨hy.1.before (hK2.trans b4), by rw [hy.2, hs, hsp]; omega⟩
    · rw [if_neg (by omega)]
      cases hj : s.jobs with
      | nil =>
        have hz : splitsLeft cur [] = 0 := by unfold splitsLeft; simp; omega
        rw [hz]
        refine ⟨fun _ => rfl, ⟨.refl (fit_dist hI.fit), hC, ?_⟩, rfl⟩
        intro y hy v hv
        rw [List.mem_singleton] at hy
        rw [hy] at hv
        obtain ⟨i, hi⟩ := List.mem_iff_getElem?.1 hv
        rcases hI.labelled i v hi with h | h
        · exact h
        · exact absurd h.1 hlh
      | cons j js =>
        obtain ⟨hI', hw'⟩ := hI.pop hlh hj
        have hz : splitsLeft cur (j :: js) = splitsLeft j js := by
          unfold splitsLeft
          rw [List.map_cons, List.sum_cons]
          omega
        rw [hz]
        exact ih j { s with jobs := js } cut G hI' hC (by simp only; omega)
          (fun i hi => hpj i (by rw [hj]; exact List.mem_cons_of_mem _ hi))

/-- The synchronizations of a processor that is alone with `c` labels and has done `s` splits before. -/
def cutSteps (k c s : Nat) : Nat := c - 2 + if (s + (c - 1)) * 2 < k then 1 else 0

theorem aloneCut_ends {P : ParRecEnv} {N T k : Nat} {Bad : Err → Prop} (hP : ParRecEnvOk P N T Bad)
    (hN : N < 2147483648) (C : CutEnv) (M : Int) (path : List Bool) (base : Nat) {labels : Interval} (weight : Int)
    (splits : Nat) {x : RecProc} {cut : List Net} (hI : GroupInv N T k labels [x]) {S : Prop} {E : Err → Prop}
    (hE : E .ub) {G : List Nat} (hC : CutInv G [(x.H, cut)]) :
    (aloneCut P C M k path base labels weight splits x cut).Ends S (CutDone N k [(x.H, cut)]) E
      (cutSteps k labels.count splits) G := by
  unfold aloneCut
  have hc := count_eq hI.le
  have hle := hI.le
  have hleft : splitsLeft { start := 0, fin := x.fin, low := labels.low, high := labels.high, weight := weight } [] =
      labels.count - 1 := by
    unfold splitsLeft
    rw [List.map_nil, List.sum_nil]
    dsimp only
    omega
  have h1 := aloneLoop_ends (S := S) (hP.alone path) (fun _ _ => .refl _) rfl C path base M hE (2 * labels.count)
    { start := 0, fin := x.fin, low := labels.low, high := labels.high, weight := weight }
    { H := x.H, rng := x.rng, jobs := [], cut := [], splits := 0, calls := [] } cut
    G (alone_recInv (P := P) hN path weight hI) hC (by
      unfold work
      simp only [List.map_nil, List.sum_nil]
      omega) (by intro j hj; cases hj)
  refine (CutProg.Ends.andThen (m := if (splits + (labels.count - 1)) * 2 < k then 1 else 0) ?_ h1).change ?_
  · rintro G' y ⟨hy, hs⟩
    have e : splits + y.1.splits = splits + (labels.count - 1) := by
      rw [hs]; dsimp only; rw [hleft]; omega
    rw [← e]
    refine (lastRemove_done C path base _ hy.kept.dist hE hy.inv hy.parts).mono ?_
    intro G'' zs hz
    exact hz.before hy.kept
  · intro _
    unfold cutSteps
    dsimp only
    rw [hleft]
    omega

/-! ### Groups that go on -/

theorem partWeight_core {H H' : Hypergraph} (h : H'.vertices.map coreKey = H.vertices.map coreKey) (q : Int) :
    partWeight H' q = partWeight H q := by
  have key : ∀ vs : List Vertex, ((vs.filter (fun v => v.part = q)).map (·.weight)) =
      ((vs.map coreKey).filter (fun c => c.2.2 = q)).map (fun c => c.2.1) := by
    intro vs
    induction vs with
    | nil => rfl
    | cons v vs ih =>
      rw [List.map_cons, List.filter_cons, List.filter_cons]
      by_cases hv : v.part = q
      · rw [if_pos (by simpa using hv), if_pos (by unfold coreKey; simpa using hv), List.map_cons, List.map_cons, ih]
        rfl
      · rw [if_neg (by simpa using hv), if_neg (by unfold coreKey; simpa using hv), ih]
  unfold partWeight
  rw [key, key, h]

theorem core_mem {A B : List Vertex} (h : A.map coreKey = B.map coreKey) {v : Vertex} (hv : v ∈ A) :
    ∃ u ∈ B, u.id = v.id ∧ u.weight = v.weight ∧ u.part = v.part := by
  have : coreKey v ∈ B.map coreKey := by rw [← h]; exact List.mem_map_of_mem hv
  obtain ⟨u, hu, e⟩ := List.mem_map.1 this
  unfold coreKey at e
  injection e with e1 e2
  injection e2 with e2 e3
  exact ⟨u, hu, e1, e2, e3⟩

theorem withRest_facts {ids : List Nat} : ∀ (rs : List RState) (cuts : List (List Net))
    (ys : List (Hypergraph × List Net)), cuts.length = rs.length →
    List.Forall₂ (fun x y => SetAside ids x.1 x.2 y) ((rs.map (·.H)).zip cuts) ys →
    List.Forall₂ (fun (r r' : RState) => r'.w0 = r.w0 ∧ r'.w1 = r.w1 ∧
      r'.H.vertices.map coreKey = r.H.vertices.map coreKey) rs (withRest rs ys) ∧
    (withRest rs ys).map (·.H) = ys.map (·.1) := by
  intro rs
  induction rs with
  | nil =>
    intro cuts ys _ h
    cases h
    exact ⟨.nil, rfl⟩
  | cons r rs ih =>
    intro cuts ys hl h
    cases cuts with
    | nil => simp at hl
    | cons c cuts =>
      rw [List.map_cons, List.zip_cons_cons] at h
      cases h with
      | @cons _ y _ ys h1 h2 =>
        obtain ⟨a, b⟩ := ih cuts ys (by simpa using hl) h2
        refine ⟨.cons ⟨rfl, rfl, h1.verts⟩ a, ?_⟩
        show y.1 :: (withRest rs ys).map (·.H) = _
        rw [b]
        rfl

/-- Setting nets aside leaves the arguments of the redistribution valid. -/
theorem redistInput_aside {N : Nat} {low high : Int} {rnd : ℚ → ℚ} {eta : ℚ} {w0 w1 : Int} {plow : Nat}
    {rs rs' : List RState} (h : RedistInput N low high (redistArgs rnd eta w0 w1 plow rs))
    (hF : List.Forall₂ (fun (r r' : RState) => r'.w0 = r.w0 ∧ r'.w1 = r.w1 ∧
      r'.H.vertices.map coreKey = r.H.vertices.map coreKey) rs rs')
    (hD : Distributed N (rs'.map (·.H))) : RedistInput N low high (redistArgs rnd eta w0 w1 plow rs') := by
  have key : ∀ a' ∈ redistArgs rnd eta w0 w1 plow rs', ∃ a ∈ redistArgs rnd eta w0 w1 plow rs,
      a'.w0 = a.w0 ∧ a'.w1 = a.w1 ∧ a'.maxLocal = a.maxLocal ∧
      a'.H.vertices.map coreKey = a.H.vertices.map coreKey := by
    intro a' ha'
    obtain ⟨t, ht⟩ := List.mem_iff_getElem?.1 ha'
    obtain ⟨r', hr', rfl⟩ := redistArgs_get ht
    have htl : t < rs'.length := (List.getElem?_eq_some_iff.1 hr').1
    have hle := hF.length_eq
    have htr : t < rs.length := by omega
    have hta : t < (redistArgs rnd eta w0 w1 plow rs).length := by rw [redistArgs_length]; exact htr
    have hg := List.getElem?_eq_getElem hta
    obtain ⟨r, hr, ha⟩ := redistArgs_get hg
    have h1 := (List.forall₂_iff_get.1 hF).2 t htr htl
    simp only [List.get_eq_getElem] at h1
    rw [(List.getElem?_eq_some_iff.1 hr').2, (List.getElem?_eq_some_iff.1 hr).2] at h1
    refine ⟨_, List.getElem_mem hta, ?_⟩
    rw [ha]
    refine ⟨h1.1, h1.2.1, ?_, h1.2.2⟩
    dsimp only
    rw [hle]
  refine ⟨by rw [redistArgs_H]; exact hD, ?_, h.labels, ?_, ?_, ?_⟩
  · intro a' ha' v hv
    obtain ⟨a, ha, -, -, -, hc⟩ := key a' ha'
    obtain ⟨u, hu, -, e, -⟩ := core_mem hc hv
    rw [← e]
    exact h.weights a ha u hu
  · intro a' ha'
    obtain ⟨a, ha, e, -, -, hc⟩ := key a' ha'
    rw [e, partWeight_core hc, h.w0 a ha]
  · intro a' ha'
    obtain ⟨a, ha, -, e, -, hc⟩ := key a' ha'
    rw [e, partWeight_core hc, h.w1 a ha]
  · intro a' ha'
    obtain ⟨a, ha, -, -, e, -⟩ := key a' ha'
    rw [e]
    exact h.max a ha

/-- The hypergraph and `cut_nets` of each processor. -/
def bare (xs : List (RecProc × List Net)) : List (Hypergraph × List Net) := xs.map (fun x => (x.1.H, x.2))

theorem bare_zip (xs : List (RecProc × List Net)) : bare xs = ((xs.map (·.1)).map (·.H)).zip (xs.map (·.2)) := by
  induction xs with
  | nil => rfl
  | cons x xs ih =>
    show (x.1.H, x.2) :: bare xs = _
    rw [ih]
    rfl

theorem cutRedist_ends {P : ParRecEnv} {N T k : Nat} {Bad : Err → Prop} (hP : ParRecEnvOk P N T Bad) (C : CutEnv)
    {eta : ℚ} (path : List Bool) (base : Nat) {labels : Interval} {xs : List (RecProc × List Net)}
    (hI : GroupInv N T k labels (xs.map (·.1))) (h3 : 3 ≤ labels.count) {sp : ParSplit} {rs : List RState}
    (hS : SplitFactsPar P eta path N labels (xs.map (·.1)) sp rs) {S : Prop} {E : Err → Prop} (hE : E .ub)
    {G : List Nat} (hC : CutInv G (bare xs)) :
    (cutRedist P C eta path base labels sp rs (xs.map (·.2))).Ends S (fun G' zs => CutKept N (bare xs) (bare zs) ∧
      CutInv G' (bare zs) ∧ GroupInv N T k (lowLabels labels) ((zs.take sp.plow).map (·.1)) ∧
      GroupInv N T k (highLabels labels) ((zs.drop sp.plow).map (·.1)) ∧ zs.length = xs.length) E 1 G := by
  have hK1 := hS.bis.kept N hI.dist
  have hlen : rs.length = xs.length := by
    have := hS.bis.relabels.length_eq
    rw [List.length_map] at this
    exact this.symm
  rw [bare_zip] at hC
  have hK2 := kept_cutKept (cuts := xs.map (·.2)) hI.dist hK1 (by simp)
  have hC2 := kept_inv (cuts := xs.map (·.2)) hI.dist hK1 (by simp) hC
  unfold cutRedist
  refine CutProg.Ends.andThen (m := 0) ?_
    (removeSync_ends C path base (fun x hx => hK2.dist.wf _ (List.mem_map_of_mem hx)) hE G)
  rintro G' ys ⟨ids, rfl, hF, hne⟩
  have hK3 := aside_kept hK2.dist hF
  have hC3 := aside_inv hK2.dist hC2 hF hne
  obtain ⟨hW, hH⟩ := withRest_facts rs _ ys (by simp [hlen]) hF
  obtain ⟨rs', hrs'⟩ : ∃ rs', rs' = withRest rs ys := ⟨_, rfl⟩
  rw [← hrs'] at hW hH ⊢
  have hin := redistInput_aside hS.input hW (by rw [hH]; exact hK3.dist)
  obtain ⟨zs, hz, -⟩ := C46_redistribute hin (hP.ord path) (hP.dVert path) (hP.dCost path) sp.plow
  have hA := afterRedist_facts hP hin hz
  rw [hz]
  obtain ⟨ws, hws⟩ : ∃ ws, ws = afterRedist rs' zs := ⟨_, rfl⟩
  show CutProg.Ends S _ E (CutProg.ret (Except.ok ((afterRedist rs' zs).zip (ys.map (·.2))))) 0 (G ++ ids)
  rw [← hws] at hA ⊢
  have hlw : ws.length = ys.length := by
    rw [hA.length, ← List.length_map (f := fun r : RState => r.H), hH, List.length_map]
  have hly : ys.length = xs.length := by
    rw [hK3.length, hK2.length]; simp
  have e1 : (ws.zip (ys.map (·.2))).map (·.1) = ws := List.map_fst_zip (by simp [hlw])
  have e2 : (ws.zip (ys.map (·.2))).map (·.2) = ys.map (·.2) := List.map_snd_zip (by simp [hlw])
  have e3 : ys = (ys.map (·.1)).zip (ys.map (·.2)) := by
    rw [List.zip_map']
    simp
  have hK4 : CutKept N ys (bare (ws.zip (ys.map (·.2)))) := by
    rw [bare_zip, e1, e2]
    conv_lhs => rw [e3]
    have := hA.redist.kept
    rw [hH] at this
    exact kept_cutKept hK3.dist this (by simp)
  have hC4 : CutInv (G ++ ids) (bare (ws.zip (ys.map (·.2)))) := by
    rw [bare_zip, e1, e2]
    have := hA.redist.kept
    rw [hH] at this
    refine kept_inv hK3.dist this (by simp) ?_
    rw [← e3]
    exact hC3
  have hK : CutKept N (bare xs) (bare (ws.zip (ys.map (·.2)))) := by
    rw [bare_zip xs]
    exact (hK2.trans hK3).trans hK4
  have hv := hK.verts
  have hb : ∀ l : List (RecProc × List Net), (bare l).map (·.1) = (l.map (·.1)).map (·.H) := by
    intro l; unfold bare; rw [List.map_map, List.map_map]; rfl
  rw [hb, hb, e1] at hv
  obtain ⟨g0, g1⟩ := hI.halves h3 hS.three hA (by rw [hlw, hly, List.length_map]) hv
  refine ⟨fun _ => rfl, hK, hC4, ?_, ?_, ?_⟩
  · rw [List.map_take, e1]; exact g0
  · rw [List.map_drop, e1]; exact g1
  · rw [List.length_zip, List.length_map, hlw, hly, Nat.min_self]

/-- The groups that occur when there are at most eight parts: the number of labels and of splits. -/
def Reached (k c s : Nat) : Prop :=
  s = 0 ∧ c = k ∨ s = 1 ∧ (c = k / 2 ∨ c = k - k / 2) ∨ s = 2 ∧ c = 2

theorem recCut_ends {P : ParRecEnv} {N T k : Nat} {Bad : Err → Prop} (hP : ParRecEnvOk P N T Bad)
    (hN : N < 2147483648) (C : CutEnv) {eta : ℚ} (heta : 0 ≤ eta) (M : Int) {S : Prop} {E : Err → Prop}
    (hE : E .ub) (hB : ∀ e, Bad e → E e) (hA : ¬ S → E .abort) (hS8 : S → k ≤ 8) : ∀ (fuel : Nat) (path : List Bool) (base : Nat)
    (labels : Interval) (weight : Int) (splits : Nat) (xs : List (RecProc × List Net)) (G : List Nat),
    GroupInv N T k labels (xs.map (·.1)) → CutInv G (bare xs) → labels.count ≤ fuel → labels.count ≤ k →
    xs ≠ [] → (S → Reached k labels.count splits) →
    ∃ n, (splits ≠ 0 → S → n = cutSteps k labels.count splits) ∧
      (recCut P C eta M k fuel path base labels weight splits xs).Ends S (CutDone N k (bare xs)) E n G := by
  intro fuel
  induction fuel with
  | zero =>
    intro path base labels weight splits xs G hI _ hf _ _ _
    have := count_eq hI.le
    have := hI.le
    omega
  | succ f ih =>
    intro path base labels weight splits xs G hI hC hf hk hne hs
    match xs, hI, hC with
    | [], _, _ => exact absurd rfl hne
    | [x], hI, hC => exact ⟨_, fun _ _ => rfl, aloneCut_ends hP hN C M path base weight splits hI hE hC⟩
    | x :: y :: l, hI, hC =>
      have hlh : labels.low < labels.high := by
        rcases hI.proper with h | h
        · cases h
        · exact h
      obtain ⟨xs, hxs⟩ : ∃ xs, xs = x :: y :: l := ⟨_, rfl⟩
      have hu : recCut P C eta M k (f + 1) path base labels weight splits (x :: y :: l) =
          (match groupHead P M path labels weight (xs.map (·.1)) with
          | .error e => .ret (.error e)
          | .ok (split, rs, go) =>
            if go then
              (cutRedist P C eta path base labels split rs (xs.map (·.2))).andThen (fun zs =>
                bothSides split.plow zs.length
                  (recCut P C eta M k f (path ++ [true]) base (lowLabels labels) split.w0 (splits + 1)
                    (zs.take split.plow))
                  (recCut P C eta M k f (path ++ [false]) (base + split.plow) (highLabels labels) split.w1
                    (splits + 1) (zs.drop split.plow)))
            else lastRemove C path base k (splits + 1) ((rs.map (·.H)).zip (xs.map (·.2)))) := by
        rw [hxs]
        conv_lhs => unfold recCut
        rw [if_pos (show labels.length > 0 by unfold Interval.length; omega)]
        rfl
      rw [hu]
      rw [← hxs] at hI hC ⊢
      clear hne
      have h2 : 2 ≤ (xs.map (·.1)).length := by rw [hxs]; simp
      clear hu hxs x y l
      rcases groupHead_spec hP heta M path weight hI h2 hlh with ⟨sp, rs, hS, -, -, h⟩ | ⟨e, h, he⟩
      swap
      · rw [h]
        refine ⟨_, fun _ _ => rfl, ?_⟩
        rcases he with rfl | he
        · exact hE
        · exact hB e he
      rw [h]
      dsimp only
      have hcc := count_eq hI.le
      have l0 := lowLabels_length hI.le
      have l1 := highLabels_length hI.le
      by_cases h3 : 3 ≤ labels.count
      · rw [if_pos (by simpa using h3)]
        have hple := hS.plow_le
        have h0 : ∀ zs : List (RecProc × List Net), zs.length = xs.length → 0 < zs.length := by
          intro zs h
          rw [List.length_map] at h2
          omega
        have c0 : (lowLabels labels).count = labels.count / 2 := by
          show ((lowLabels labels).length + 1).toNat = _
          omega
        have c1 : (highLabels labels).count = labels.count - labels.count / 2 := by
          show ((highLabels labels).length + 1).toNat = _
          omega
        have hr0 : sp.plow ≠ 0 → S → Reached k (lowLabels labels).count (splits + 1) := by
          intro hp h
          have h8 := hS8 h
          have h3' : labels.count ≠ 3 := fun h => hp (hS.three h)
          rw [c0]
          rcases hs h with ⟨r1, r2⟩ | ⟨r1, r2⟩ | ⟨r1, r2⟩
          · exact Or.inr (Or.inl ⟨by omega, by omega⟩)
          · exact Or.inr (Or.inr ⟨by omega, by omega⟩)
          · omega
        have hr1 : S → Reached k (highLabels labels).count (splits + 1) := by
          intro h
          have h8 := hS8 h
          rw [c1]
          rcases hs h with ⟨r1, r2⟩ | ⟨r1, r2⟩ | ⟨r1, r2⟩
          · exact Or.inr (Or.inl ⟨by omega, by omega⟩)
          · exact Or.inr (Or.inr ⟨by omega, by omega⟩)
          · omega
        -- both sides take the same number of steps
        have hsame : S → sp.plow ≠ 0 →
            cutSteps k (lowLabels labels).count (splits + 1) = cutSteps k (highLabels labels).count (splits + 1) := by
          intro h hp
          have h8 := hS8 h
          have h3' : labels.count ≠ 3 := fun h => hp (hS.three h)
          rw [c0, c1]
          unfold cutSteps
          rcases hs h with ⟨r1, r2⟩ | ⟨r1, r2⟩ | ⟨r1, r2⟩ <;> split_ifs <;> omega
        refine ⟨1 + cutSteps k (highLabels labels).count (splits + 1), ?_, ?_⟩
        · intro hs0 h
          have h8 := hS8 h
          rw [c1]
          unfold cutSteps
          rcases hs h with ⟨r1, r2⟩ | ⟨r1, r2⟩ | ⟨r1, r2⟩ <;> split_ifs <;> omega
        refine CutProg.Ends.andThen ?_ (cutRedist_ends hP C path base hI h3 hS hE hC)
        rintro G' zs ⟨hK, hC', g0, g1, hzl⟩
        have h0 := h0 zs hzl
        have b0 : ∀ z ∈ bare (zs.take sp.plow), z ∈ bare zs := by
          unfold bare
          rw [List.map_take]
          exact fun z hz => List.mem_of_mem_take hz
        have b1 : ∀ z ∈ bare (zs.drop sp.plow), z ∈ bare zs := by
          unfold bare
          rw [List.map_drop]
          exact fun z hz => List.mem_of_mem_drop hz
        have i0 : sp.plow ≠ 0 → _ := fun hp => ih (path ++ [true]) base _ sp.w0 (splits + 1) _ G' g0 (hC'.sub b0)
          (by omega) (by omega) (by
            intro h
            have := congrArg List.length h
            rw [List.length_take, List.length_nil] at this
            omega) (hr0 hp)
        have i1 : sp.plow ≠ zs.length → _ := fun hp => ih (path ++ [false]) (base + sp.plow) _ sp.w1 (splits + 1) _ G'
          g1 (hC'.sub b1) (by omega) (by omega) (by
            intro h
            have := congrArg List.length h
            rw [List.length_drop, List.length_nil] at this
            rw [List.length_map] at hple
            omega) hr1
        unfold bothSides
        split
        · rename_i hp
          obtain ⟨n, hn, i1⟩ := i1 (by omega)
          refine (i1.change (fun h => hn (by omega) h)).mono ?_
          intro G'' ys hy
          rw [hp, List.drop_zero] at hy
          exact hy.before hK
        · rename_i hp0
          obtain ⟨n, hn, i0⟩ := i0 hp0
          have i0 := i0.change (fun h => (hn (by omega) h).trans (hsame h hp0))
          split
          · rename_i hp
            refine i0.mono ?_
            intro G'' ys hy
            rw [hp, List.take_length] at hy
            exact hy.before hK
          · rename_i hp1
            obtain ⟨n', hn', i1⟩ := i1 hp1
            have i1 := i1.change (fun h => hn' (by omega) h)
            have hsplit : bare zs = bare (zs.take sp.plow) ++ bare (zs.drop sp.plow) := by
              unfold bare
              rw [← List.map_append, List.take_append_drop]
            refine CutProg.Ends.andThen (m := 0) ?_ (CutProg.Ends.both hA i0 i1)
            rintro G'' ⟨a, b⟩ ⟨h5, h6⟩
            have hD := hK.dist
            rw [hsplit] at hD
            have := h5.append hD h6
            rw [← hsplit] at this
            exact ⟨fun _ => rfl, this.before hK⟩
      · rw [if_neg (by simpa using h3)]
        have hK1 := hS.bis.kept N hI.dist
        rw [bare_zip] at hC ⊢
        have hK2 := kept_cutKept (cuts := xs.map (·.2)) hI.dist hK1 (by simp)
        have hC2 := kept_inv (cuts := xs.map (·.2)) hI.dist hK1 (by simp) hC
        refine ⟨_, ?_, (lastRemove_done C path base (splits + 1) hK2.dist hE hC2 ?_).mono ?_⟩
        · intro _ _
          unfold cutSteps
          have : labels.count = 2 := by omega
          rw [this, Nat.sub_self, Nat.zero_add]
        · intro z hz v hv
          obtain ⟨r, hr, e⟩ := List.mem_map.1 (List.of_mem_zip hz).1
          rw [← e] at hv
          obtain ⟨x, hx, h7⟩ := forall2_mem_right hS.bis.rest hr
          obtain ⟨i, hi⟩ := List.mem_iff_getElem?.1 hv
          have := hI.low
          have := hI.high
          rcases h7 i v hi with h8 | h8 <;> omega
        · intro G' ys hy
          exact hy.before hK2

end PMondriaan

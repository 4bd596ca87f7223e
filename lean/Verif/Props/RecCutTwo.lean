import Verif.Props.MainCut
import Verif.Props.MainBalancePar

/-
Two parts on several processors with the cut-net metric: no nets are set aside.
-/

namespace PMondriaan

open Spec

/-- Nothing is added when nothing was set aside. -/
theorem addCutNets_nothing {d : Delivery (Nat × Nat × Int)} (hd : Fair d) (Hs : List Hypergraph) (l : List (List Net))
    (hl : ∀ x ∈ l, x = []) (hlen : l.length = Hs.length) : addCutNets d (Hs.zip l) = .ok Hs := by
  unfold addCutNets
  dsimp only
  have e1 : (Hs.zip l).map (fun x => x.2.foldl (addCutStep (Hs.zip l).length) (x.1, [])) =
      Hs.map (fun H => (H, ([] : List (Nat × Nat × Nat × Int)))) := by
    have : ∀ x ∈ Hs.zip l, x.2.foldl (addCutStep (Hs.zip l).length) (x.1, []) = (x.1, []) := by
      intro x hx
      rw [hl x.2 (List.of_mem_zip hx).2]
      rfl
    rw [List.map_congr_left this]
    have h2 : Hs.map (fun H => (H, ([] : List (Nat × Nat × Nat × Int)))) =
        ((Hs.zip l).map (·.1)).map (fun H => (H, [])) := by
      rw [List.map_fst_zip (by omega)]
    rw [h2, List.map_map]
    rfl
  rw [e1]
  have e2 : ((Hs.map (fun H => (H, ([] : List (Nat × Nat × Nat × Int))))).map (·.2)).flatten = [] := by
    rw [List.map_map]
    simp
  have e3 : ∀ t, inbox d ((Hs.map (fun H => (H, ([] : List (Nat × Nat × Nat × Int))))).map (·.2)) t = [] := by
    intro t
    unfold inbox
    rw [e2]
    exact (hd t []).eq_nil
  rw [mapM_zipIdx_map (g := fun y => y.1) _ (by
    intro i a ha
    dsimp only
    rw [e3]
    rfl)]
  rw [List.map_map]
  congr 1
  exact List.map_id Hs

/-- After a bisection into two parts nobody goes on. -/
theorem groupHead_two {P : ParRecEnv} {M weight : Int} {path : List Bool} {xs : List RecProc} {sp : ParSplit}
    {rs : List RState} {go : Bool}
    (h : groupHead P M path ⟨0, ((2 : Nat) : Int) - 1⟩ weight xs = .ok (sp, rs, go)) : go = false := by
  unfold groupHead at h
  dsimp only at h
  obtain ⟨x, -, h⟩ := bind_eq_ok.1 h
  obtain ⟨m, rs'⟩ := x
  dsimp only at h
  obtain ⟨plow, -, h⟩ := bind_eq_ok.1 h
  obtain ⟨go', hg, h⟩ := bind_eq_ok.1 h
  simp only [pure, Except.pure, Except.ok.injEq, Prod.mk.injEq] at h
  obtain ⟨-, -, rfl⟩ := h
  cases hl : (List.range xs.length).map (fun s =>
      decide ((newLabels ⟨0, ((2 : Nat) : Int) - 1⟩ plow s).length > 0)) with
  | nil => rw [hl] at hg; cases hg
  | cons b l =>
    have hb : b ∈ (List.range xs.length).map (fun s =>
        decide ((newLabels ⟨0, ((2 : Nat) : Int) - 1⟩ plow s).length > 0)) := by rw [hl]; exact List.mem_cons_self ..
    rw [hl] at hg
    simp only [agreed] at hg
    split at hg
    · obtain rfl := Except.ok.inj hg
      obtain ⟨s, -, rfl⟩ := List.mem_map.1 hb
      apply decide_eq_false
      unfold newLabels
      split <;> decide
    · cases hg

/-- With two parts the cut-net metric makes no difference to the recursion on several processors. -/
theorem recursiveBisectCut_two (P : ParRecEnv) {C : CutEnv} (hpins : Fair C.dPins) (epsilon eta : ℚ) {Hs : List Hypergraph}
    (h2 : 2 ≤ Hs.length) {rngs : List Rng} (hr : rngs.length = Hs.length)
    (hlen : ∀ r, recursiveBisectPar P 2 epsilon eta Hs rngs = .ok r → r.Hs.length = Hs.length) :
    recursiveBisectCut P C 2 epsilon eta Hs rngs = (recursiveBisectPar P 2 epsilon eta Hs rngs).map (·.Hs) := by
  unfold recursiveBisectCut
  unfold recursiveBisectPar at hlen ⊢
  cases hag : agreed (globalWeight Hs) with
  | error e => rfl
  | ok W =>
    rw [hag] at hlen
    simp only [ok_bind] at hlen ⊢
    obtain ⟨xs, hxs⟩ : ∃ xs, xs = (Hs.zip rngs).map (fun x => (⟨x.1, x.1.vertices.length, x.2⟩ : RecProc)) := ⟨_, rfl⟩
    have e1 : (Hs.zip rngs).map (fun x => ((⟨x.1, x.1.vertices.length, x.2⟩ : RecProc), ([] : List Net))) =
        xs.map (fun x => (x, [])) := by
      rw [hxs, List.map_map]; rfl
    have hl : xs.length = Hs.length := by rw [hxs, List.length_map, List.length_zip, hr, Nat.min_self]
    rw [e1]
    rw [← hxs] at hlen ⊢
    rcases xs with _ | ⟨x, _ | ⟨y, l⟩⟩
    · simp at hl; omega
    · simp at hl; omega
    rw [List.map_cons, List.map_cons]
    unfold recCut
    unfold recPar at hlen ⊢
    rw [if_pos (by decide)] at hlen ⊢
    rw [if_pos (by decide)]
    have e2 : ((x, ([] : List Net)) :: (y, []) :: l.map (fun x => (x, []))).map (·.1) = x :: y :: l := by
      simp [List.map_map, Function.comp_def]
    rw [e2]
    unfold groupSplit at hlen ⊢
    cases hh : groupHead P (maxWeight P.rnd epsilon W 2) [] ⟨0, ((2 : Nat) : Int) - 1⟩ W (x :: y :: l) with
    | error e => rfl
    | ok z =>
      obtain ⟨sp, rs, go⟩ := z
      obtain rfl := groupHead_two hh
      rw [hh] at hlen
      have h3 : (rs.map (·.H)).length = Hs.length := hlen ⟨rs.map (·.H), [sp], []⟩ rfl
      have h4 : lastRemove C [] 0 2 (0 + 1) ((rs.map (fun r : RState => r.H)).zip
          (((x, ([] : List Net)) :: (y, []) :: l.map (fun x => (x, []))).map (·.2))) =
          CutProg.ret (.ok ((rs.map (fun r : RState => r.H)).zip
            (((x, ([] : List Net)) :: (y, []) :: l.map (fun x => (x, []))).map (·.2)))) := if_neg (by decide)
      simp only [ok_bind, Bool.false_eq_true, if_false]
      rw [h4]
      unfold CutProg.runWorld
      rw [ok_bind]
      refine (addCutNets_nothing hpins _ _ ?_ ?_).trans rfl
      · intro n hn
        obtain ⟨z, hz, rfl⟩ := List.mem_map.1 hn
        simp only [List.mem_cons, List.mem_map] at hz
        rcases hz with rfl | rfl | ⟨w, -, rfl⟩ <;> rfl
      · rw [h3, ← hl]
        simp

theorem Spec.Kept.returned {N : Nat} {Hs Hs' : List Hypergraph} (h : Kept N Hs Hs') : NetsReturned Hs Hs' := by
  have hw := h.dist.wf
  refine ⟨h.length, h.verts, h.pins, ?_, h.nets, fun H hH => (hw H hH).vmap, fun H hH => (hw H hH).nmap,
    fun H hH => (hw H hH).nids, ?_, ?_, h.sizes⟩
  · intro H hH n hn
    rw [← h.costs, unionCost_eq h.dist hH hn]
  · intro H hH n hn
    refine ⟨(hw H hH).npins n hn, ?_⟩
    intro u hu
    obtain ⟨v, hv, rfl, -⟩ := (hw H hH).inc_vtx n hn u hu
    exact List.mem_map.2 ⟨v, hv, rfl⟩
  · intro H hH v hv e he
    exact (hw H hH).inc_net v hv e he

/-- C77 for two parts on at least two processors: the result is that of the lambda metric, and the only failures are
those of the bisection. -/
theorem C77_two {P : ParRecEnv} {C : CutEnv} {N T : Nat} {Bad : Err → Prop} (hP : ParRecEnvOk P N T Bad)
    (hpins : Fair C.dPins) {Hs : List Hypergraph} (h2 : 2 ≤ Hs.length) (hD : Distributed N Hs)
    (hv : Hs.flatMap (·.vertices) ≠ []) (hpos : ∀ H ∈ Hs, ∀ v ∈ H.vertices, 0 < v.weight)
    (hT : (Hs.flatMap (·.vertices)).length < T) (hW : ((Hs.flatMap (·.vertices)).map (·.weight)).sum < 2 ^ 53)
    (hp : Hs.length ≤ 2 ^ 50) (epsilon eta : ℚ) {rngs : List Rng} (hr : rngs.length = Hs.length) :
    (∃ r, recursiveBisectPar P 2 epsilon eta Hs rngs = .ok r ∧ recursiveBisectCut P C 2 epsilon eta Hs rngs = .ok r.Hs ∧
      Kept N Hs r.Hs ∧ ∀ H ∈ r.Hs, ∀ v ∈ H.vertices, v.part = 0 ∨ v.part = 1) ∨
    ∃ e, recursiveBisectCut P C 2 epsilon eta Hs rngs = .error e ∧ Bad e := by
  rcases C61_two hP h2 hD hv hpos hT hW hp epsilon eta hr with ⟨r, r1, r2, r3⟩ | ⟨e, r1, r2⟩
  · left
    refine ⟨r, r1, ?_, r2, r3⟩
    rw [recursiveBisectCut_two P hpins epsilon eta h2 hr, r1]
    · rfl
    · intro r' h'
      rw [r1] at h'
      obtain rfl := Except.ok.inj h'
      exact r2.length
  · right
    refine ⟨e, ?_, r2⟩
    rw [recursiveBisectCut_two P hpins epsilon eta h2 hr, r1]
    · rfl
    · intro r' h'
      rw [r1] at h'
      cases h'

/-- Three processors and two parts: the same parts with both metrics. -/
example : (recursiveBisectCut exampleRecEnv (exampleCutEnv 4) 2 (1 / 4) 0 exampleThree
      [fun n => n, fun n => n, fun n => n + 1]).toOption.map (fun Hs => Hs.map (fun H => H.vertices.map (fun v => (v.id, v.part)))) =
    (recursiveBisectPar exampleRecEnv 2 (1 / 4) 0 exampleThree
      [fun n => n, fun n => n, fun n => n + 1]).toOption.map (fun r => r.Hs.map (fun H => H.vertices.map (fun v => (v.id, v.part)))) ∧
    ((recursiveBisectCut exampleRecEnv (exampleCutEnv 4) 2 (1 / 4) 0 exampleThree
      [fun n => n, fun n => n, fun n => n + 1]).toOption.map (fun Hs => Hs.map (fun H => partWeight H 0))).isSome := by
  decide +kernel

/-- C79 for two parts on at least two processors: the only failures are those of the bisection. -/
theorem C79_two {M : MainEnv} {C : CutEnv} {p E V T : Nat} {Bad : Err → Prop} (hM : MainEnvOk M p)
    (hP : ParRecEnvOk M.recEnv E T Bad) (hpins : Fair C.dPins) (h2 : 2 ≤ p) (hp : p ≤ 2 ^ 50) (hV : 1 ≤ V)
    (hT : V < T) {es : List (Nat × Nat)} {text : List Char} (hf : GoodFile text E V es) {mode : String}
    {wt : List Nat → Int} (hm : ModeMeans mode wt) (hw : ∀ v < V, 0 < wt (columnOf es v))
    (hW : matrixWeight V es wt < 2 ^ 53) (epsilon eta : ℚ) :
    (∃ o, mainComputeCut M C p 2 epsilon eta (some text) mode = .ok (some o) ∧ ReportsCut p 2 E V es wt o) ∨
    ∃ e, mainComputeCut M C p 2 epsilon eta (some text) mode = .error e ∧ Bad e := by
  obtain ⟨Rs, a1, a2, a3⟩ := goodFile_read hM hf hm
  obtain ⟨Cs, c1, c2, c3⟩ := copies_ok a3
  have hlC : Cs.length = p := by omega
  have hWC := holdMatrix_weight c3
  have hlen := holdMatrix_length c3
  have hpos := holdMatrix_pos c3 hw
  have hne : Cs.flatMap (·.vertices) ≠ [] := by intro h; rw [h] at hlen; simp at hlen; omega
  rcases C77_two (C := C) hP hpins (by omega) c3.dist hne hpos (by omega) (by rw [hWC]; exact hW) (by omega) epsilon eta
    (rngs := M.rngs) (by rw [hM.rngs, hlC]) with ⟨r, -, r1, r2, r3⟩ | ⟨e, r1, r2⟩
  · left
    obtain ⟨o, o1, -, o2⟩ := compute_of_runCut hM hP.rounds (by omega) (le_refl 2) hV hw a1 c1 hlC c3 r1 r2.returned (by
      intro K hK v hv
      have := r3 K hK v hv
      omega)
    exact ⟨o, o1, o2⟩
  · right
    refine ⟨e, ?_, r2⟩
    unfold mainComputeCut
    rw [a1, ok_bind]
    dsimp only
    rw [c1, ok_bind, r1]
    rfl

/-- C89 with the cut-net metric. -/
theorem C89_cut {M : MainEnv} {C : CutEnv} {opts : Options} {p E V T : Nat} (hb : opts.bisectionRandom = true) (h2 : 2 ≤ p)
    (hp : p ≤ 2 ^ 50) (hE : E < 2147483648) (hc : RunsCode M.recEnv opts p E T) (hM : MainEnvOk M p)
    (hpins : Fair C.dPins) (hV : 1 ≤ V) (hT : V < T)
    {es : List (Nat × Nat)} {text : List Char} (hf : GoodFile text E V es) {mode : String} {wt : List Nat → Int}
    (hm : ModeMeans mode wt) {om : Int} (hw : ∀ v < V, 0 < wt (columnOf es v) ∧ wt (columnOf es v) ≤ om)
    {epsilon : ℚ} (heps : 0 ≤ epsilon) {eta : ℚ} (heta : 0 ≤ eta) {W B : Int} (hW : W = matrixWeight V es wt)
    (hB : B = maxWeight nearest53 epsilon W 2) (hWB : W ≤ 2 * B) (hsize : 2 * B + W < 2 ^ 47)
    (hload : ∀ r < p, blockWeight (M.parts V).owner V es wt r + om ≤ 2 * ((B - 1) / p) + 1) :
    ∃ o, mainComputeCut M C p 2 epsilon eta (some text) mode = .ok (some o) ∧ ReportsCut p 2 E V es wt o ∧
      ∃ lab : Nat → Int, HoldLabels V lab o.Hs ∧ ∀ q : Int, 0 ≤ q → q < 2 → columnsWeight V es wt lab q ≤ B := by
  obtain ⟨Rs, Cs, r, a1, c1, hlC, c3, r1, r2, r3, r4⟩ :=
    random_two_run hb h2 hp hE hc hM hV hT hf hm hw heps heta hW hB hWB hsize hload
  have r1' : recursiveBisectCut M.recEnv C 2 epsilon eta Cs M.rngs = .ok r.Hs := by
    rw [recursiveBisectCut_two M.recEnv hpins epsilon eta (by omega) (by rw [hM.rngs, hlC]), r1]
    · rfl
    · intro r' h'
      rw [r1] at h'
      obtain rfl := Except.ok.inj h'
      exact r2.length
  obtain ⟨o, o1, o2, o3⟩ := compute_of_runCut hM (hc.ok hE).rounds (by omega) (le_refl 2) hV (fun v hv => (hw v hv).1) a1 c1
    hlC c3 r1' r2.returned (by
      intro K hK v hv
      have := r3 K hK v hv
      omega)
  refine ⟨o, o1, o3, labelsOf E r.Hs, ?_, r4⟩
  rw [o2]
  exact holdLabels (Spec.Kept.holdMatrix c3 r2)

/-- Six columns on two processors, two parts, cut-net metric, ε = 7/10: for all random streams no part has more than
five columns. -/
example (rngs : Rng × Rng) :
    ∃ o, mainComputeCut (mainRandom rngs) (exampleCutEnv 3) 2 2 (7 / 10) 0 (some sixText.toList) "one" = .ok (some o) ∧
    ReportsCut 2 2 3 6 [(1, 1), (1, 6), (3, 2)] (fun _ => 1) o ∧
    ∃ lab : Nat → Int, HoldLabels 6 lab o.Hs ∧ ∀ q : Int, 0 ≤ q → q < 2 →
      columnsWeight 6 [(1, 1), (1, 6), (3, 2)] (fun _ => 1) lab q ≤ 5 :=
  C89_cut (opts := randomOpts) (T := 10) (om := 1) (W := 6) (B := 5) rfl (le_refl 2) (by decide) (by decide)
    (plainRecEnv_runs randomOpts 3 10 (by decide)) (mainRandom_ok rngs) (revDelivery_fair _) (by decide) (by decide)
    ⟨by decide, by decide, by unfold EntriesIn; decide, by decide, 3, _, rfl, by decide, Or.inl ⟨sixText_mtx, rfl⟩⟩
    (Or.inl ⟨rfl, rfl⟩) (fun _ _ => by decide) (by norm_num) (by norm_num) (by decide) (by decide +kernel) (by decide)
    (by decide) (by show ∀ r < 2, blockWeight (blockPart 2 6).owner 6 _ _ r + 1 ≤ _; decide)

end PMondriaan

import Verif.Proofs.MachineMain
import Verif.Props.MachineRec
import Verif.Props.MainBalance

/-
C108: the distributed cut size and load balance, and the main program on one processor, in 64-bit signed numbers.
-/

namespace PMondriaan

open Spec

/-- C108: when the cut size of the whole hypergraph fits in 64 bits, `cutsize` on any number of processors does not
overflow on the way and returns it on all of them. -/
theorem C108_cutsize {N : Nat} {Hs : List Hypergraph} (hD : Distributed N Hs) {np : NetPart}
    (hv : np.Valid Hs.length N) {d : Delivery LabelMsg} (hd : Fair d) {so : List Int → List Int}
    (hso : ∀ l, (so l).Perm l) (hc : ∀ H ∈ Hs, CostsNonneg H) (metric : Metric)
    (hb : cutValue metric (unionH N Hs) < 2 ^ 63) :
    cutsizePar64 so d np Hs metric = .ok (Hs.map (fun _ => cutValue metric (unionH N Hs))) := by
  rw [cutsizePar64_eq hD hv hd hso hc metric hb, cutsizePar_ok hD hv hd hso metric]

/-- C108: when the total weight times the number of parts fits in 64 bits, `load_balance` on any number of processors
does not overflow. -/
theorem C108_load_balance (rnd : ℚ → ℚ) {Hs : List Hypergraph} (hw : ∀ H ∈ Hs, WeightsNonneg H) {k : Nat} (hk : 1 ≤ k)
    (hp : ∀ H ∈ Hs, ∀ v ∈ H.vertices, 0 ≤ v.part ∧ v.part < k)
    (hT : (Hs.map (fun H => (H.vertices.map (·.weight)).sum)).sum * k < 2 ^ 63) :
    loadBalancePar64 rnd Hs k = loadBalancePar rnd Hs k :=
  loadBalancePar64_eq rnd hw hk hp hT

/-- A row has at most as many labels as there are columns. -/
theorem rowsCut_le_area {E V : Nat} {es : List (Nat × Nat)} (h : EntriesIn E V es) (lab : Nat → Int) :
    rowsCut E es lab ≤ (E * V : Nat) := by
  have h1 : ∀ e, ((((rowOf es e).map lab).dedup.length - 1 : Nat) : Int) ≤ V := by
    intro e
    have : (((rowOf es e).map lab).dedup).Subperm ((List.range V).map lab) := by
      apply List.subperm_of_subset (List.nodup_dedup _)
      intro y hy
      rw [List.mem_dedup] at hy
      obtain ⟨u, hu, rfl⟩ := List.mem_map.1 hy
      obtain ⟨x, hx, rfl⟩ := List.mem_map.1 hu
      have := h x (List.mem_of_mem_filter hx)
      exact List.mem_map.2 ⟨_, List.mem_range.2 (by omega), rfl⟩
    have := this.length_le
    rw [List.length_map, List.length_range] at this
    omega
  unfold rowsCut
  have h2 := List.sum_le_card_nsmul ((List.range E).map (fun e => ((((rowOf es e).map lab).dedup.length - 1 : Nat) : Int))) (V : Int) (by
    intro x hx
    obtain ⟨e, -, rfl⟩ := List.mem_map.1 hx
    exact h1 e)
  rw [List.length_map, List.length_range, nsmul_eq_mul] at h2
  push_cast
  exact h2

/-- The columns are at most as many as their weight. -/
theorem columns_le_weight {V : Nat} {es : List (Nat × Nat)} {wt : List Nat → Int} (h : ∀ v < V, 0 < wt (columnOf es v)) :
    (V : Int) ≤ matrixWeight V es wt := by
  unfold matrixWeight
  have h2 := List.card_nsmul_le_sum ((List.range V).map (fun v => wt (columnOf es v))) (1 : Int) (by
    intro x hx
    obtain ⟨v, hv, rfl⟩ := List.mem_map.1 hx
    have := h v (List.mem_range.1 hv)
    omega)
  rw [List.length_map, List.length_range, nsmul_eq_mul, mul_one] at h2
  exact h2

/-- The main program on one processor, for any bisection that agrees in 64 bits up to the limit `L`. -/
theorem main_agrees {M : MainEnv} (hM : MainEnvOk M 1) (hr : RoundsWithin (1 / 2 ^ 53) M.recEnv.rnd) {L : Int}
    (hL : L ≤ 100000000000000) {E V T k : Nat} (hE : E < 2147483648) (hT : V < T) (hk : 2 ≤ k) {B : Bisector}
    (hbis : BisectsWell (M.recEnv.alone []) E T) (hB : AgreeSmall L B (M.recEnv.alone []) E T)
    {es : List (Nat × Nat)} {text : List Char} (hf : GoodFile text E V es) {mode : String} {wt : List Nat → Int}
    (hm : ModeMeans mode wt) (hw : ∀ v < V, 0 < wt (columnOf es v)) {epsilon : ℚ} (heps : 0 ≤ epsilon) (eta : ℚ)
    (hsmall : (1 + epsilon) * matrixWeight V es wt ≤ L - 1) (hk64 : matrixWeight V es wt * k < 2 ^ 63)
    (hc64 : E * V < 2 ^ 63) :
    mainCompute64 M B k epsilon (some text) mode = mainCompute M 1 k epsilon eta (some text) mode := by
  obtain ⟨Rs, a1, a2, a3⟩ := goodFile_read hM hf hm
  obtain ⟨Cs, c1, c2, c3⟩ := copies_ok a3
  obtain ⟨H, hH⟩ : ∃ H, Cs = [H] := List.length_eq_one_iff.1 (by omega)
  obtain ⟨g, hg⟩ : ∃ g, M.rngs = [g] := List.length_eq_one_iff.1 hM.rngs
  subst hH
  have hfit := holdMatrix_fit c3 hE hT hw
  have hWH : (H.vertices.map (·.weight)).sum = matrixWeight V es wt := by
    rw [← holdMatrix_weight c3]
    simp
  have hd1 : Fair (M.recEnv.recEnv []).d1 := fun _ _ => .refl _
  have hd2 : Fair (M.recEnv.recEnv []).d2 := fun _ _ => .refl _
  have e1 : recursiveBisect64 { M.recEnv.recEnv [] with bis := B } H k epsilon g =
      recursiveBisect (M.recEnv.recEnv []) H k epsilon g :=
    recursion_agrees (P := M.recEnv.recEnv []) hL hr hbis hB hd1 hk hfit (fun h => nomatch h) heps
      (by rw [hWH]; exact hsmall) g
  have v1 : vget [H] 0 = .ok H := rfl
  have v2 : vget [g] 0 = .ok g := rfl
  unfold mainCompute64 mainCompute
  rw [a1, ok_bind, ok_bind]
  simp only
  rw [c1, ok_bind, ok_bind, hg, v1, v2, ok_bind, ok_bind, e1, C61_one_processor _ (by omega)]
  rcases C38_partial (P := M.recEnv.recEnv []) hbis hd1 hd2 hk hfit (fun h => nomatch h) epsilon g with
    h | ⟨s, h, hs, hs'⟩
  · rw [h]; rfl
  · rw [h]
    simp only [Except.map, ok_bind]
    obtain ⟨s4, s5⟩ := hs' rfl
    have r2 : Kept E [H] [s.H] := kept_local c3.dist (.cons ⟨s4, s5, hs.verts, hs.sizes⟩ .nil)
    have hF := Spec.Kept.holdMatrix c3 r2
    have hpos := holdMatrix_pos hF hw
    have hWs : (s.H.vertices.map (·.weight)).sum = matrixWeight V es wt := by
      rw [← holdMatrix_weight hF]
      simp
    have v3 : vget [s.H] 0 = .ok s.H := rfl
    rw [loadBalancePar64_eq M.recEnv.rnd (fun K hK v hv => le_of_lt (hpos K hK v hv)) (by omega) (by
        intro K hK v hv
        simp only [List.mem_singleton] at hK
        subst hK
        exact hs.parts v hv) (by simpa [hWs] using hk64), v3]
    have hN : s.H.globalNumberNets = E := hF.number s.H (by simp)
    rw [cutsizePar64_eq hF.dist (by rw [hN]; exact hM.parts E) hM.dCut hM.setOrder (by
        intro K hK n hn
        rw [hF.costs K hK n hn]
        decide) .lambdaMinusOne (by
        have := rowsCut_le_area hf.2.2.1 (labelsOf E [s.H])
        rw [holdMatrix_cut hF]
        omega)]
    rfl

/-- C108: the main program on one processor, lambda metric, random or multilevel bisection and all options. When
`(1 + ε)` times the weight of the matrix is below `3·10^9`, and `k` as well, nothing overflows: in 64 bits the program
reads the same, computes the same parts and reports the same values as with unlimited numbers. -/
theorem C108_main {M : MainEnv} (hM : MainEnvOk M 1) (hr : RoundsWithin (1 / 2 ^ 53) M.recEnv.rnd) {F : Type} {E1 : Env F}
    {E V k : Nat} (hE1 : E1.Ok E) {opts : Options}
    (halone : M.recEnv.alone [] = fun H m0 m1 s e l rng => bisectOne E1 H opts m0 m1 s e l rng)
    (hE : E < 2147483648) (hT : V < E1.fuel) (hk : 2 ≤ k) (hk2 : k ≤ 3000000000)
    {es : List (Nat × Nat)} {text : List Char} (hf : GoodFile text E V es) {mode : String} {wt : List Nat → Int}
    (hm : ModeMeans mode wt) (hw : ∀ v < V, 0 < wt (columnOf es v)) {epsilon : ℚ} (heps : 0 ≤ epsilon) (eta : ℚ)
    (hsmall : (1 + epsilon) * matrixWeight V es wt ≤ 2999999999) :
    mainCompute64 M (fun H m0 m1 s e l rng => bisectOne64 E1 H opts m0 m1 s e l rng) k epsilon (some text) mode =
      mainCompute M 1 k epsilon eta (some text) mode := by
  have hV := columns_le_weight hw
  have hW : matrixWeight V es wt ≤ 2999999999 := by
    have h0 : (0 : ℚ) ≤ (matrixWeight V es wt : ℚ) := by
      have : (0 : Int) ≤ matrixWeight V es wt := by omega
      exact_mod_cast this
    have h1 : (matrixWeight V es wt : ℚ) ≤ 2999999999 := by nlinarith [mul_nonneg heps h0]
    exact_mod_cast h1
  have hk64 : matrixWeight V es wt * (k : Int) < 2 ^ 63 := by
    have h1 : matrixWeight V es wt * (k : Int) ≤ 2999999999 * 3000000000 :=
      mul_le_mul hW (by omega) (by omega) (by decide)
    omega
  have hc64 : E * V < 2 ^ 63 := by
    have h1 : E * V ≤ 2147483648 * 2999999999 := Nat.mul_le_mul (by omega) (by omega)
    omega
  refine main_agrees hM hr (L := 3000000000) (by decide) hE hT hk (by rw [halone]; exact bisectOne_well hE1 opts) ?_ hf hm hw
    heps eta (le_trans hsmall (by norm_num)) hk64 hc64
  intro H' hf' hT' s e h1 h2 labels hl max0 max1 b0 b1 rng'
  rw [halone]
  exact C104_bisect hE1 hf'.wf hf'.ids hf'.nets hf'.pos hf'.size h1 h2 labels hl opts b0 b1 hT' rng'

theorem rowsSplit_le_rows (E : Nat) (es : List (Nat × Nat)) (lab : Nat → Int) : rowsSplit E es lab ≤ E := by
  unfold rowsSplit
  refine le_trans List.countP_le_length ?_
  rw [List.length_range]

/-- C108 with the cut-net metric. The net ids that the processor sends itself arrive in an order that depends on what is
sent, but not on when. -/
theorem C108_cut {M : MainEnv} {C : CutEnv} {d : Delivery Nat} {opts : Options} (hM : MainEnvOk M 1)
    {E V T k : Nat} {Bad : Err → Prop} (hP : ParRecEnvOk M.recEnv E T Bad) (hC : C.dIds = fun _ => d) (hd : Fair d)
    (hpins : Fair C.dPins) {F : Type} {E1 : Env F} (hE1 : E1.Ok E) (hfuel : E1.fuel = T)
    (halone : M.recEnv.alone [] = fun H m0 m1 s e l rng => bisectOne E1 H opts m0 m1 s e l rng)
    (hE : E < 2147483648) (hT : V < T) (hk : 2 ≤ k) (hk2 : k ≤ 3000000000)
    {es : List (Nat × Nat)} {text : List Char} (hf : GoodFile text E V es) {mode : String} {wt : List Nat → Int}
    (hm : ModeMeans mode wt) (hw : ∀ v < V, 0 < wt (columnOf es v)) {epsilon : ℚ} (heps : 0 ≤ epsilon) {eta : ℚ}
    (heta : 0 ≤ eta) (hsmall : (1 + epsilon) * matrixWeight V es wt ≤ 2999999999) :
    mainComputeCut64 M d C.dPins (fun H m0 m1 s e l rng => bisectOne64 E1 H opts m0 m1 s e l rng) k epsilon
        (some text) mode =
      mainComputeCut M C 1 k epsilon eta (some text) mode := by
  have hV := columns_le_weight hw
  have hW : matrixWeight V es wt ≤ 2999999999 := by
    have h0 : (0 : ℚ) ≤ (matrixWeight V es wt : ℚ) := by
      have : (0 : Int) ≤ matrixWeight V es wt := by omega
      exact_mod_cast this
    have h1 : (matrixWeight V es wt : ℚ) ≤ 2999999999 := by nlinarith [mul_nonneg heps h0]
    exact_mod_cast h1
  have hk64 : matrixWeight V es wt * (k : Int) < 2 ^ 63 := by
    have h1 : matrixWeight V es wt * (k : Int) ≤ 2999999999 * 3000000000 :=
      mul_le_mul hW (by omega) (by omega) (by decide)
    omega
  obtain ⟨Rs, a1, a2, a3, a4⟩ := goodFile_read_nets hM hf hm
  obtain ⟨Cs, c1, c2, c3⟩ := copies_ok a3
  have c4 := copies_nonempty a3.dist.wf a4 c1
  obtain ⟨H, hH⟩ : ∃ H, Cs = [H] := List.length_eq_one_iff.1 (by omega)
  obtain ⟨g, hg⟩ : ∃ g, M.rngs = [g] := List.length_eq_one_iff.1 hM.rngs
  subst hH
  have hfit := holdMatrix_fit c3 hE hT hw
  have hWH : (H.vertices.map (·.weight)).sum = matrixWeight V es wt := by
    rw [← holdMatrix_weight c3]
    simp
  have e1 : recursiveBisect64 { M.recEnv.recEnv [] with
        bis := (fun H m0 m1 s e l rng => bisectOne64 E1 H opts m0 m1 s e l rng), cutMetric := true, d1 := d, d2 := C.dPins }
        H k epsilon g = recursiveBisect (M.recEnv.cutEnv [] d C.dPins) H k epsilon g :=
    C107_recursion (P := M.recEnv.cutEnv [] d C.dPins) hE1 opts halone hP.rounds hd hk (by rw [hfuel]; exact hfit)
      (fun _ => c4 H (by simp)) heps (by rw [hWH]; exact hsmall) g
  have v1 : vget [H] 0 = .ok H := rfl
  have v2 : vget [g] 0 = .ok g := rfl
  have hrun := C77_one_processor M.recEnv C d hC (by omega : 1 ≤ k) epsilon eta H g
  have hout := C77_partial hP (C := C) (by rw [hC]; exact fun _ => hd) hpins hE hk (by simp) c3.dist
    (holdMatrix_pos c3 hw) (by rw [holdMatrix_length c3]; exact hT)
    (by rw [holdMatrix_weight c3]; omega) (by simp) epsilon
    heta (rngs := [g]) rfl
  unfold mainComputeCut64 mainComputeCut
  rw [a1, ok_bind, ok_bind]
  simp only
  rw [c1, ok_bind, ok_bind, hg, v1, v2, ok_bind, ok_bind, e1, hrun]
  rw [hrun] at hout
  cases h : recursiveBisect (M.recEnv.cutEnv [] d C.dPins) H k epsilon g with
  | error e => rfl
  | ok s =>
    rw [h] at hout
    rcases hout with ⟨r, t1, t2, t3⟩ | ⟨e, t1, -⟩
    swap
    · cases t1
    simp only [Except.map] at t1
    obtain rfl := Except.ok.inj t1
    simp only [Except.map, ok_bind]
    have hF := holdMatrix_returned c3 t2
    have hpos := holdMatrix_pos hF hw
    have hWs : (s.H.vertices.map (·.weight)).sum = matrixWeight V es wt := by
      rw [← holdMatrix_weight hF]
      simp [relist, Function.comp_def]
      rfl
    have v3 : vget [s.H] 0 = .ok s.H := rfl
    rw [loadBalancePar64_eq M.recEnv.rnd (by
        intro K hK v hv
        simp only [List.mem_singleton] at hK
        subst hK
        have := hpos (relist s.H) (by simp) _ (List.mem_map.2 ⟨v, hv, rfl⟩)
        exact le_of_lt this) (by omega) t3 (by simpa [hWs] using hk64), v3]
    have hN : s.H.globalNumberNets = E := hF.number (relist s.H) (by simp)
    have hcut := C10_distributed_cutsize hF.dist (np := M.parts E) (hM.parts E) hM.dCut hM.setOrder .cutNet
    rw [relist_cutsizePar, holdMatrix_cutNet hF] at hcut
    have hle := rowsSplit_le_rows E es (labelsOf E ([s.H].map relist))
    rw [hN, cutsizePar64_of_ok (c := (rowsSplit E es (labelsOf E ([s.H].map relist)) : Int)) hM.dCut (by
        intro K hK n hn
        simp only [List.mem_singleton] at hK
        subst hK
        rw [hF.costs (relist s.H) (by simp) n hn]
        decide) (by rw [hcut]; rfl) (by omega)]
    simp only [ok_bind, hN]

/-- C108 applies to the 3 by 6 matrix, four parts and every random stream. -/
example (rng : Rng) (eta : ℚ) :
    mainCompute64 (mainOne rng) (fun H m0 m1 s e l rng => bisectOne64 { exampleEnv 3 with fuel := 10 } H
        { exampleOpts with sampleSize := exampleOpts.sampleSize / 1 } m0 m1 s e l rng) 4 (7 / 10) (some sixText.toList) "one" =
      mainCompute (mainOne rng) 1 4 (7 / 10) eta (some sixText.toList) "one" :=
  C108_main (V := 6) (E := 3) (es := [(1, 1), (1, 6), (3, 2)]) (wt := fun _ => 1) (mainOne_ok rng) nearest53_rounds
    (E1 := { exampleEnv 3 with fuel := 10 }) ⟨fun _ l => .refl l, fun l => .refl l, fun l => .refl l, fun l => .refl l,
      fun _ l => .refl l, fun _ l => .refl l, blockPart_valid 1 3 (by decide)⟩ rfl (by decide) (by decide) (by decide) (by decide)
    ⟨by decide, by decide, by unfold EntriesIn; decide, by decide, 3, _, rfl, by decide, Or.inl ⟨sixText_mtx, rfl⟩⟩
    (Or.inl ⟨rfl, rfl⟩) (fun _ _ => by decide) (by norm_num) eta (by
      rw [show matrixWeight 6 [(1, 1), (1, 6), (3, 2)] (fun _ => 1) = 6 by decide]
      norm_num)

/-- C108 with the cut-net metric applies to the same matrix. -/
example (rng : Rng) {eta : ℚ} (heta : 0 ≤ eta) :
    mainComputeCut64 (mainOne rng) (revDelivery _) (exampleCutEnv 3).dPins (fun H m0 m1 s e l rng =>
        bisectOne64 { exampleEnv 3 with fuel := 10 } H { exampleOpts with sampleSize := exampleOpts.sampleSize / 1 }
          m0 m1 s e l rng) 4 (7 / 10) (some sixText.toList) "one" =
      mainComputeCut (mainOne rng) (exampleCutEnv 3) 1 4 (7 / 10) eta (some sixText.toList) "one" :=
  C108_cut (V := 6) (E := 3) (T := 10) (es := [(1, 1), (1, 6), (3, 2)]) (wt := fun _ => 1) (mainOne_ok rng)
    ((plainRecEnv_runs (p := 1) exampleOpts 3 10 (by decide)).ok (by decide)) rfl (revDelivery_fair _) (exampleCutEnv_ok 3).2
    (E1 := { exampleEnv 3 with fuel := 10 }) ⟨fun _ l => .refl l, fun l => .refl l, fun l => .refl l, fun l => .refl l,
      fun _ l => .refl l, fun _ l => .refl l, blockPart_valid 1 3 (by decide)⟩ rfl rfl (by decide) (by decide) (by decide)
    (by decide)
    ⟨by decide, by decide, by unfold EntriesIn; decide, by decide, 3, _, rfl, by decide, Or.inl ⟨sixText_mtx, rfl⟩⟩
    (Or.inl ⟨rfl, rfl⟩) (fun _ _ => by decide) (by norm_num) heta (by
      rw [show matrixWeight 6 [(1, 1), (1, 6), (3, 2)] (fun _ => 1) = 6 by decide]
      norm_num)

/-- One processor and random bisection. -/
def mainOneRandom (rng : Rng) : MainEnv :=
  { mainOne rng with recEnv := plainRecEnv { exampleOpts with bisectionRandom := true } 1 3 10 }

/-- One vertex of weight `x` in part 0. -/
def heavyOne (id : Nat) (x : Int) : Hypergraph :=
  Hypergraph.create 2 0 [{ id := id, nets := [], weight := x, part := 0 }] []

/-- Two vertices in different parts, and two nets of cost `x` with both. -/
def costlyPair (x : Int) : Hypergraph :=
  Hypergraph.create 2 2 [{ id := 0, nets := [0, 1], weight := 1, part := 0 }, { id := 1, nets := [0, 1], weight := 1, part := 1 }]
    [{ id := 0, vertices := [0, 1], cost := x }, { id := 1, vertices := [0, 1], cost := x }]

/-- C108 needs its conditions. Two processors with a weight of `5·10^18` each: both fit in 64 bits, their sum does not.
One processor with a weight of `5·10^18` and two parts: the product does not. Two cut nets of cost `5·10^18`: with the
cut-net metric the sum is undefined, with the connectivity metric it is computed with unsigned numbers and the cut size
that is returned is negative. -/
theorem C108_overflow :
    (loadBalancePar64 nearest53 [heavyOne 0 5000000000000000000, heavyOne 1 5000000000000000000] 1 = .error .ub ∧
      loadBalancePar nearest53 [heavyOne 0 5000000000000000000, heavyOne 1 5000000000000000000] 1 =
        .ok [(some 0, false), (some 0, false)]) ∧
    (loadBalancePar64 nearest53 [heavyOne 0 5000000000000000000] 2 = .error .ub ∧
      loadBalancePar nearest53 [heavyOne 0 5000000000000000000] 2 = .ok [(some 1, false)]) ∧
    cutsizePar64 id (fun _ x => x) (blockPart 1 2) [costlyPair 5000000000000000000] .cutNet = .error .ub ∧
    (cutsizePar64 id (fun _ x => x) (blockPart 1 2) [costlyPair 5000000000000000000] .lambdaMinusOne).toOption =
      some [-8446744073709551616] ∧
    cutValue .lambdaMinusOne (costlyPair 5000000000000000000) = 10000000000000000000 :=
  ⟨⟨eq_of_failsWith (by decide +kernel), by decide +kernel⟩, ⟨eq_of_failsWith (by decide +kernel), by decide +kernel⟩,
    eq_of_failsWith (by decide +kernel), by decide +kernel, by decide +kernel⟩

/-- C108 for the whole program: with an imbalance of `10^19` the bound `maxweight` for the six columns does not fit, the
run is undefined in 64 bits and ends normally with unlimited numbers. -/
theorem C108_main_overflow :
    mainCompute64 (mainOneRandom id) bisectRandom64 2 10000000000000000000 (some sixText.toList) "one" = .error .ub ∧
      ((mainCompute (mainOneRandom id) 1 2 10000000000000000000 0 (some sixText.toList) "one").toOption.bind id).isSome :=
  ⟨eq_of_failsWith (by decide +kernel), by decide +kernel⟩

/-- Six columns, two parts, in 64 bits: one row is split, the parts have the same weight. -/
example : ((mainCompute64 (mainOneRandom id) bisectRandom64 2 (7 / 10) (some sixText.toList) "one").toOption.bind id).map
    (fun o => (o.cut, o.balance, o.run.Hs.map (fun H => H.vertices.map (·.part)))) =
    some ([1], [(some 0, false)], [[0, 1, 0, 1, 0, 1]]) := by decide +kernel

/-- With the cut-net metric. -/
example : ((mainComputeCut64 (mainOneRandom id) (fun _ x => x) (fun _ x => x) bisectRandom64 3 (7 / 10)
    (some sixText.toList) "one").toOption.bind id).map
    (fun o => (o.cut, o.Hs.map (fun H => H.vertices.map (·.part)))) = some ([1], [[0, 0, 0, 1, 2, 1]]) := by decide +kernel

theorem costlyPair_dist (x : Int) : Distributed 2 [costlyPair x] where
  wf := by
    intro H hH
    simp only [List.mem_singleton] at hH
    subst hH
    exact WF_create (by simp) (by simp) (by simp) (by simp) (by simp) (by simp)
  disjoint := by simp [costlyPair, Hypergraph.create]
  ids := by
    intro H hH
    simp only [List.mem_singleton] at hH
    subst hH
    simp [costlyPair, Hypergraph.create]
  costs := by
    intro H hH H' hH'
    simp only [List.mem_singleton] at hH hH'
    subst hH hH'
    simp [costlyPair, Hypergraph.create]

/-- C108 for two nets of cost `4·10^18`. -/
example : cutsizePar64 id (fun _ x => x) (blockPart 1 2) [costlyPair 4000000000000000000] .lambdaMinusOne =
    .ok [8000000000000000000] := by
  have hv : cutValue .lambdaMinusOne (unionH 2 [costlyPair 4000000000000000000]) = 8000000000000000000 := by decide +kernel
  rw [C108_cutsize (N := 2) (so := id) (costlyPair_dist _) (blockPart_valid 1 2 (by decide)) (fun _ _ => .refl _)
    (fun l => .refl l) ?_ _ (by rw [hv]; decide), hv]
  · rfl
  · intro H hH
    simp only [List.mem_singleton] at hH
    subst hH
    intro n hn
    simp only [costlyPair, Hypergraph.create, List.mem_cons, List.not_mem_nil, or_false] at hn
    rcases hn with rfl | rfl <;> decide

/-- C108 for two processors with a weight of `2·10^18` each and two parts. -/
example : loadBalancePar64 nearest53 [heavyOne 0 2000000000000000000, heavyOne 1 2000000000000000000] 2 =
    loadBalancePar nearest53 [heavyOne 0 2000000000000000000, heavyOne 1 2000000000000000000] 2 :=
  C108_load_balance nearest53 (by unfold WeightsNonneg; decide) (by decide) (by decide) (by decide)

end PMondriaan

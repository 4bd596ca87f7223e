import Verif.Model.MachineMainPar
import Verif.Props.MachineRecPar
import Verif.Props.MachineMain

/-
C112: the main program on several processors in 64-bit signed numbers, connectivity metric.
-/

namespace PMondriaan

open Spec

/-- The main program on `p` processors, for bisections that agree in 64 bits up to the limit `L`. -/
theorem main_par_agrees {M : MainEnv} {p : Nat} (hM : MainEnvOk M p) (hp1 : 1 ≤ p) (hp : p ≤ 2 ^ 50) {E V T k : Nat}
    {Bad : Err → Prop} (hP : ParRecEnvOk M.recEnv E T Bad) (hE : E < 2147483648) (hT : V < T) (hk : 2 ≤ k)
    {B : List Bool → ParBisector} {Al : List Bool → Bisector} {L X : Int} {epsilon eta : ℚ}
    (hS : Small M.recEnv B Al E T p L X eta)
    {es : List (Nat × Nat)} {text : List Char} (hf : GoodFile text E V es) {mode : String} {wt : List Nat → Int}
    (hm : ModeMeans mode wt) (hw : ∀ v < V, 0 < wt (columnOf es v)) (heps : 0 ≤ epsilon)
    (hsmall : (1 + epsilon) * matrixWeight V es wt ≤ L - 1) (hk64 : matrixWeight V es wt * k < 2 ^ 63)
    (hc64 : E * V < 2 ^ 63) {o : MainOut} (h : mainCompute M p k epsilon eta (some text) mode = .ok (some o)) :
    mainReportPar64 { M with recEnv := { M.recEnv with bis := B, alone := Al } } p k epsilon eta (some text) mode =
      (mainWeights o.run.Hs k).map (fun ws => some (o, ws)) := by
  obtain ⟨Rs, a1, a2, a3⟩ := goodFile_read hM hf hm
  obtain ⟨Cs, c1, c2, c3⟩ := copies_ok a3
  have hlC : Cs.length = p := by omega
  have hne : Cs ≠ [] := by rintro rfl; simp at hlC; omega
  have hWC := holdMatrix_weight c3
  have hlen := holdMatrix_length c3
  have hpos := holdMatrix_pos c3 hw
  have hV := columns_le_weight hw
  have hW53 : matrixWeight V es wt < 2 ^ 53 := by
    have h0 : (0 : ℚ) ≤ (matrixWeight V es wt : ℚ) := by
      have : (0 : Int) ≤ matrixWeight V es wt := by omega
      exact_mod_cast this
    have h1 : (matrixWeight V es wt : ℚ) ≤ L := by nlinarith [mul_nonneg heps h0]
    have h2 : matrixWeight V es wt ≤ L := by exact_mod_cast h1
    have := hS.size
    omega
  unfold mainCompute at h
  rw [a1, ok_bind] at h
  simp only at h
  rw [c1, ok_bind] at h
  obtain ⟨g, hg, h⟩ := bind_eq_ok.1 h
  have hg64 := recursion_par_agrees hP hE hk hne c3.dist hpos (by omega) (by omega) (by rw [hlC]; exact hS) heps
    (by rw [hWC]; exact hsmall) (by rw [hlC]; exact hM.rngs) hg
  rcases C61_partial hP hE hk hne c3.dist hpos (by omega) (by omega) (by omega) epsilon hS.etas
    (rngs := M.rngs) (by rw [hlC]; exact hM.rngs) with ⟨r, r1, r2, r3⟩ | ⟨e, r1, -⟩
  swap
  · rw [hg] at r1; cases r1
  obtain rfl : g = r := Except.ok.inj (hg.symm.trans r1)
  have hF := Spec.Kept.holdMatrix c3 r2
  have hposF := holdMatrix_pos hF hw
  have hWF : (g.Hs.map (fun H => (H.vertices.map (·.weight)).sum)).sum = matrixWeight V es wt := by
    rw [← holdMatrix_weight hF]
    simp [List.flatMap, Function.comp_def, List.map_flatten, List.sum_flatten]
  obtain ⟨bal, hb, h⟩ := bind_eq_ok.1 h
  obtain ⟨H0, hH0, h⟩ := bind_eq_ok.1 h
  obtain ⟨cut, hcut, h⟩ := bind_eq_ok.1 h
  injection h with h
  injection h with h
  subst h
  have hH0m : H0 ∈ g.Hs := by
    have := vget_eq_ok.1 hH0
    exact List.mem_of_getElem? this
  have hN : H0.globalNumberNets = E := hF.number H0 hH0m
  have hlF : g.Hs.length = p := by
    have := r2.1
    omega
  have hnn : ∀ H ∈ g.Hs, WeightsNonneg H := fun K hK v hv => le_of_lt (hposF K hK v hv)
  have e2 := loadBalancePar64_eq M.recEnv.rnd hnn (k := k) (by omega) r3 (by rw [hWF]; exact hk64)
  have e3 := cutsizePar64_eq (np := M.parts H0.globalNumberNets) (d := M.dCut) (so := M.setOrder) hF.dist
    (by rw [hN, hlF]; exact hM.parts E) hM.dCut hM.setOrder (by
        intro K hK n hn
        rw [hF.costs K hK n hn]
        decide) .lambdaMinusOne (by
        have := rowsCut_le_area hf.2.2.1 (labelsOf E g.Hs)
        rw [holdMatrix_cut hF]
        omega)
  have hW0 : 0 ≤ matrixWeight V es wt := by omega
  have e4 := globalWeightParts64_eq hnn (k := k) (by rw [hWF]; omega) r3
  have e5 : mainComputePar64 { M with recEnv := { M.recEnv with bis := B, alone := Al } } p k epsilon eta (some text) mode =
      .ok (some ⟨g, bal, cut⟩) := by
    unfold mainComputePar64
    dsimp only
    rw [a1, ok_bind]
    simp only
    rw [c1, ok_bind, hg64, ok_bind, e2, hb, ok_bind, hH0, ok_bind, e3, hcut, ok_bind]
    rfl
  unfold mainReportPar64
  rw [e5, ok_bind]
  simp only
  rw [e4]
  unfold mainWeights
  cases globalWeightParts g.Hs k <;> rfl

/-- C112: the main program on `p` processors, connectivity metric, random or multilevel bisection and all options. When
`(1 + ε)` times the weight of the matrix is below `3·10^9`, and `k` as well, `eta` is at most 9, there are at most a million
processors, at most `2^60` divided by the number of rows, and at most 100 passes of the refinement, a run that reports a result
with unlimited numbers reports the same result in 64 bits: the same labels, load balance and cut size, and the same weights of
the parts. -/
theorem C112_main {M : MainEnv} {p : Nat} (hM : MainEnvOk M p) (hp1 : 1 ≤ p) (hp : p ≤ 1000000) {F : Type}
    {EP : List Bool → Nat → ParBisectEnv F} {E1 : List Bool → Env F} {E V T k : Nat}
    (hEP : ∀ path q, 2 ≤ q → ParBisectEnvOk (EP path q) q E T) (hE1 : ∀ path, (E1 path).Ok E)
    (hfuel : ∀ path, (E1 path).fuel = T) {opts : Options} (ho : opts.samplingLp = true → 1 ≤ opts.sampleSize / p)
    (hpass : opts.klfmMaxPasses ≤ 100) (hrnd : M.recEnv.rnd = nearest53) (hbis : M.recEnv.bis = codeBis EP opts p)
    (halone : M.recEnv.alone = fun path H m0 m1 s e l rng =>
      bisectOne (E1 path) H { opts with sampleSize := opts.sampleSize / p } m0 m1 s e l rng)
    (hord : ∀ path l, (M.recEnv.ord path l).Perm l) (hdv : ∀ path, Fair (M.recEnv.dVert path))
    (hdc : ∀ path, Fair (M.recEnv.dCost path)) (hE : E < 2147483648) (hpE : p * E ≤ 2 ^ 60) (hV : 1 ≤ V) (hT : V < T)
    (hk : 2 ≤ k) (hk2 : k ≤ 3000000000) {es : List (Nat × Nat)} {text : List Char} (hf : GoodFile text E V es)
    {mode : String} {wt : List Nat → Int} (hm : ModeMeans mode wt) (hw : ∀ v < V, 0 < wt (columnOf es v))
    {epsilon eta : ℚ} (heps : 0 ≤ epsilon) (heta : 0 ≤ eta) (heta9 : eta ≤ 9)
    (hsmall : (1 + epsilon) * matrixWeight V es wt ≤ 2999999999) {o : MainOut}
    (h : mainCompute M p k epsilon eta (some text) mode = .ok (some o)) :
    Reports p k E V es wt o ∧ ∃ ws, mainWeights o.run.Hs k = .ok ws ∧
      mainReportPar64 { M with recEnv := { M.recEnv with
          bis := codeBis64 EP opts p
          alone := fun path H m0 m1 s e l rng =>
            bisectOne64 (E1 path) H { opts with sampleSize := opts.sampleSize / p } m0 m1 s e l rng } }
        p k epsilon eta (some text) mode = .ok (some (o, ws)) := by
  have hP : ParRecEnvOk M.recEnv E T (CodeFails opts) := by
    refine ⟨?_, ?_, hord, hdv, hdc, ?_, ?_⟩
    · rw [hbis]; exact codeBis_well hEP hE ho
    · intro path
      rw [halone, ← hfuel path]
      exact bisectOne_well (hE1 path) _
    · rw [hrnd]; exact nearest53_keepsInts
    · rw [hrnd]; exact nearest53_rounds
  have hVW := columns_le_weight hw
  have hW : matrixWeight V es wt ≤ 2999999999 := by
    have h0 : (0 : ℚ) ≤ (matrixWeight V es wt : ℚ) := by
      have : (0 : Int) ≤ matrixWeight V es wt := by omega
      exact_mod_cast this
    have h1 : (matrixWeight V es wt : ℚ) ≤ 2999999999 := by nlinarith [mul_nonneg heps h0]
    exact_mod_cast h1
  have hk64 : matrixWeight V es wt * (k : Int) < 2 ^ 63 := by
    have h1 : matrixWeight V es wt * (k : Int) ≤ 2999999999 * 3000000000 :=
      mul_le_mul hW (by omega) (by omega) (by decide)
    omega
  have hc64 : E * V < 2 ^ 63 := by
    have h1 : E * V ≤ 2147483648 * 2999999999 := Nat.mul_le_mul (by omega) (by omega)
    omega
  have hrep : Reports p k E V es wt o := by
    rcases C70_partial hM hP hp1 (by omega) hk hE hV hT hf hm hw (by omega) epsilon heta with ⟨o', h1, h2⟩ | ⟨e, h1, -⟩
    · rw [h] at h1
      injection h1 with h1
      injection h1 with h1
      rw [h1]; exact h2
    · rw [h] at h1; cases h1
  obtain ⟨lab, -, hws⟩ := C70_weights hrep
  refine ⟨hrep, _, hws, ?_⟩
  rw [main_par_agrees hM hp1 (by omega) hP hE hT hk (codeSmall hEP hE1 hfuel hE ho hpass hbis halone hp hpE heta heta9) hf hm
    hw heps (le_trans hsmall (by norm_num)) hk64 hc64 h, hws]
  rfl

/-- C112, random bisection into two parts: without a condition on the run. The program always ends with a report, in 64 bits,
for `(1 + ε)` times the weight below `10^14` and at most ten thousand processors. -/
theorem C112_random_two {M : MainEnv} {p : Nat} (hM : MainEnvOk M p) (hp1 : 1 ≤ p) (hp : p ≤ 10000) {F : Type}
    {EP : List Bool → Nat → ParBisectEnv F} {E V T p0 : Nat} {opts : Options} (hb : opts.bisectionRandom = true)
    (hrnd : M.recEnv.rnd = nearest53) (hbis : M.recEnv.bis = codeBis EP opts p0)
    (halone : M.recEnv.alone = fun _ => bisectRandom)
    (hord : ∀ path l, (M.recEnv.ord path l).Perm l) (hdv : ∀ path, Fair (M.recEnv.dVert path))
    (hdc : ∀ path, Fair (M.recEnv.dCost path)) (hE : E < 2147483648) (hV : 1 ≤ V) (hT : V < T) (hEV : E * V < 2 ^ 63)
    {es : List (Nat × Nat)} {text : List Char} (hf : GoodFile text E V es)
    {mode : String} {wt : List Nat → Int} (hm : ModeMeans mode wt) (hw : ∀ v < V, 0 < wt (columnOf es v))
    {epsilon eta : ℚ} (heps : 0 ≤ epsilon) (heta : 0 ≤ eta) (heta1 : eta ≤ 1)
    (hsmall : (1 + epsilon) * matrixWeight V es wt ≤ 99999999999999) :
    ∃ o ws, mainReportPar64 { M with recEnv := { M.recEnv with
          bis := codeBis64 EP opts p0
          alone := fun _ => bisectRandom64 } }
        p 2 epsilon eta (some text) mode = .ok (some (o, ws)) ∧ Reports p 2 E V es wt o ∧ mainWeights o.run.Hs 2 = .ok ws := by
  have hP : ParRecEnvOk M.recEnv E T (fun _ => False) := by
    refine ⟨?_, ?_, hord, hdv, hdc, ?_, ?_⟩
    · rw [hbis]; exact codeBis_random_well EP E T p0 hb
    · intro path
      rw [halone]
      intro H' _ s e h1 h2 labels hl max0 max1 rng'
      exact C35_bisect_random h1 h2 labels hl max0 max1 rng'
    · rw [hrnd]; exact nearest53_keepsInts
    · rw [hrnd]; exact nearest53_rounds
  have hVW := columns_le_weight hw
  have hW : matrixWeight V es wt ≤ 99999999999999 := by
    have h0 : (0 : ℚ) ≤ (matrixWeight V es wt : ℚ) := by
      have : (0 : Int) ≤ matrixWeight V es wt := by omega
      exact_mod_cast this
    have h1 : (matrixWeight V es wt : ℚ) ≤ 99999999999999 := by nlinarith [mul_nonneg heps h0]
    exact_mod_cast h1
  rcases C70_two hM hP hp1 (by omega) hE hV hT hf hm hw (by omega) epsilon eta with ⟨o, h, hrep⟩ | ⟨e, -, h⟩
  swap
  · exact h.elim
  obtain ⟨lab, -, hws⟩ := C70_weights hrep
  refine ⟨o, _, ?_, hrep, hws⟩
  rw [main_par_agrees hM hp1 (by omega) hP hE hT (le_refl 2) (randomSmall hb hbis halone hp heta heta1) hf hm
    hw heps (le_trans hsmall (by norm_num)) (by push_cast; omega) hEV h, hws]
  rfl

/-- C112: when the file cannot be read, the 64-bit program ends as with unlimited numbers, with the same message or failure, for
any bisections and numbers. -/
theorem C112_unread (M : MainEnv) (B : List Bool → ParBisector) (Al : List Bool → Bisector) (p k : Nat) (epsilon eta : ℚ)
    (file : Option (List Char)) (mode : String)
    (h : ∀ Hs, readFilePar M.order M.dFree M.dSize M.parts p file mode ≠ .ok (some Hs)) :
    mainReportPar64 { M with recEnv := { M.recEnv with bis := B, alone := Al } } p k epsilon eta file mode =
      (mainCompute M p k epsilon eta file mode).map (fun _ => none) ∧
    mainComputePar64 { M with recEnv := { M.recEnv with bis := B, alone := Al } } p k epsilon eta file mode =
      mainCompute M p k epsilon eta file mode := by
  unfold mainReportPar64 mainComputePar64 mainCompute
  dsimp only
  cases hr : readFilePar M.order M.dFree M.dSize M.parts p file mode with
  | error e => exact ⟨rfl, rfl⟩
  | ok r =>
    cases r with
    | none => exact ⟨rfl, rfl⟩
    | some Hs => exact absurd hr (h Hs)

/-- C112: on one processor the 64-bit model is that of C108, failures included. -/
theorem C112_one_processor {M : MainEnv} (hM : MainEnvOk M 1) {k : Nat} (hk : 1 ≤ k) (epsilon eta : ℚ) {E V : Nat}
    {es : List (Nat × Nat)} {text : List Char} (hf : GoodFile text E V es) {mode : String} {wt : List Nat → Int}
    (hm : ModeMeans mode wt) :
    mainComputePar64 M 1 k epsilon eta (some text) mode = mainCompute64 M (M.recEnv.alone []) k epsilon (some text) mode := by
  obtain ⟨Rs, a1, a2, a3⟩ := goodFile_read hM hf hm
  obtain ⟨Cs, c1, c2, c3⟩ := copies_ok a3
  obtain ⟨H, hH⟩ : ∃ H, Cs = [H] := List.length_eq_one_iff.1 (by omega)
  obtain ⟨g, hg⟩ : ∃ g, M.rngs = [g] := List.length_eq_one_iff.1 hM.rngs
  subst hH
  have v1 : vget [H] 0 = .ok H := rfl
  have v2 : vget [g] 0 = .ok g := rfl
  unfold mainComputePar64 mainCompute64
  rw [a1, ok_bind, ok_bind]
  simp only
  rw [c1, ok_bind, ok_bind, hg, v1, v2, ok_bind, ok_bind, C111_one_processor _ hk]
  have e : ({ M.recEnv.recEnv [] with bis := M.recEnv.alone [] } : RecEnv) = M.recEnv.recEnv [] := rfl
  rw [e]
  cases recursiveBisect64 (M.recEnv.recEnv []) H k epsilon g with
  | error e => rfl
  | ok s => rfl

/-- `exampleMain` with 64-bit random bisection. -/
def exampleMain64 : MainEnv := { exampleMain with recEnv := exampleRecEnv64 }

/-- Two processors, multilevel bisection. -/
def multiMain : MainEnv :=
  { exampleMain with
    recEnv := { multiRecEnv with
      bis := codeBis (fun _ q => plainParEnv q 3 10) multiOpts 2
      alone := fun _ H m0 m1 s e l rng =>
        bisectOne { exampleEnv 3 with fuel := 10 } H { multiOpts with sampleSize := multiOpts.sampleSize / 2 } m0 m1 s e l rng } }

/-- `multiMain` with 64-bit bisections. -/
def multiMain64 : MainEnv :=
  { exampleMain with
    recEnv := { multiRecEnv with
      bis := codeBis64 (fun _ q => plainParEnv q 3 10) multiOpts 2
      alone := fun _ H m0 m1 s e l rng =>
        bisectOne64 { exampleEnv 3 with fuel := 10 } H { multiOpts with sampleSize := multiOpts.sampleSize / 2 } m0 m1 s e l rng } }

theorem multiMain_ok : MainEnvOk multiMain 2 :=
  ⟨exampleMain_ok.order, exampleMain_ok.dFree, exampleMain_ok.dSize, exampleMain_ok.parts, exampleMain_ok.rngs,
    exampleMain_ok.setOrder, exampleMain_ok.dCut⟩

/-- C112 applies to the file of C67 with multilevel bisection and any number of parts up to `3·10^9`. -/
example {k : Nat} (hk : 2 ≤ k) (hk2 : k ≤ 3000000000) {o : MainOut}
    (h : mainCompute multiMain 2 k 1 (1 / 2) (some exampleText.toList) "one" = .ok (some o)) :
    Reports 2 k 3 4 [(1, 1), (3, 2), (1, 4), (3, 1)] (fun _ => 1) o ∧ ∃ ws, mainWeights o.run.Hs k = .ok ws ∧
      mainReportPar64 multiMain64 2 k 1 (1 / 2) (some exampleText.toList) "one" = .ok (some (o, ws)) :=
  C112_main (F := Nat) (EP := fun _ q => plainParEnv q 3 10) (E1 := fun _ => { exampleEnv 3 with fuel := 10 }) (T := 10)
    (opts := multiOpts) (M := multiMain) multiMain_ok (by decide) (by decide) (fun _ q hq => plainParEnv_ok q 3 10 (by omega))
    (fun _ => ⟨fun _ l => .refl l, fun l => .refl l, fun l => .refl l, fun l => .refl l,
      fun _ l => .refl l, fun _ l => .refl l, blockPart_valid 1 3 (by decide)⟩) (fun _ => rfl) (by decide) (by decide) rfl rfl rfl
    exampleRecEnv_ok.ord exampleRecEnv_ok.dVert exampleRecEnv_ok.dCost (by decide) (by decide) (by decide) (by decide) hk hk2
    ⟨by decide, by decide, by unfold EntriesIn; decide, by decide, 4, [(1, 1), (3, 2), (1, 4), (3, 1)], rfl, by decide,
      Or.inl ⟨exampleText_mtx, rfl⟩⟩ (Or.inl ⟨rfl, rfl⟩) (fun _ _ => by decide) (by norm_num) (by norm_num) (by norm_num)
    (by rw [show matrixWeight 4 [(1, 1), (3, 2), (1, 4), (3, 1)] (fun _ => 1) = 4 by decide]; norm_num) h

/-- Three parts, multilevel: the labels, the load balance, the cut size and the weights of the parts. -/
example : ((mainReportPar64 multiMain64 2 3 1 (1 / 2) (some exampleText.toList) "one").toOption.bind id).map
      (fun x => x.1.run.Hs.map (fun H => H.vertices.map (fun v => (v.id, v.part)))) = some [[(0, 2), (1, 2)], [(3, 1), (2, 0)]] ∧
    ((mainReportPar64 multiMain64 2 3 1 (1 / 2) (some exampleText.toList) "one").toOption.bind id).map (fun x => x.1.balance) = some [(some (1 / 2), false), (some (1 / 2), false)] ∧
    ((mainReportPar64 multiMain64 2 3 1 (1 / 2) (some exampleText.toList) "one").toOption.bind id).map (fun x => (x.1.cut, x.2)) = some ([1, 1], [[1, 1, 2], [1, 1, 2]]) :=
  ⟨by decide +kernel, by decide +kernel, by decide +kernel⟩

/-- C112 for random bisection into two parts applies to the same file. -/
example : ∃ o ws, mainReportPar64 exampleMain64 2 2 (1 / 4) 0 (some exampleText.toList) "one" = .ok (some (o, ws)) ∧
    Reports 2 2 3 4 [(1, 1), (3, 2), (1, 4), (3, 1)] (fun _ => 1) o ∧ mainWeights o.run.Hs 2 = .ok ws :=
  C112_random_two (F := Nat) (EP := fun _ _ => exampleParEnv) (T := 10) (p0 := 1)
    (opts := { exampleOpts with bisectionRandom := true }) (M := exampleMain) exampleMain_ok (by decide) (by decide) rfl rfl rfl
    rfl exampleRecEnv_ok.ord exampleRecEnv_ok.dVert exampleRecEnv_ok.dCost (by decide) (by decide) (by decide) (by decide)
    ⟨by decide, by decide, by unfold EntriesIn; decide, by decide, 4, [(1, 1), (3, 2), (1, 4), (3, 1)], rfl, by decide,
      Or.inl ⟨exampleText_mtx, rfl⟩⟩ (Or.inl ⟨rfl, rfl⟩) (fun _ _ => by decide) (by norm_num) (by norm_num) (by norm_num)
    (by rw [show matrixWeight 4 [(1, 1), (3, 2), (1, 4), (3, 1)] (fun _ => 1) = 4 by decide]; norm_num)

example : ((mainReportPar64 exampleMain64 2 2 (1 / 4) 0 (some exampleText.toList) "one").toOption.bind id).map
      (fun x => x.1.run.Hs.map (fun H => H.vertices.map (fun v => (v.id, v.part)))) = some [[(0, 0), (1, 1)], [(2, 1), (3, 0)]] ∧
    ((mainReportPar64 exampleMain64 2 2 (1 / 4) 0 (some exampleText.toList) "one").toOption.bind id).map (fun x => x.1.balance) = some [(some 0, false), (some 0, false)] ∧
    ((mainReportPar64 exampleMain64 2 2 (1 / 4) 0 (some exampleText.toList) "one").toOption.bind id).map (fun x => (x.1.cut, x.2)) = some ([1, 1], [[2, 2], [2, 2]]) :=
  ⟨by decide +kernel, by decide +kernel, by decide +kernel⟩

/-- C112 needs its conditions. With an imbalance of `10^19` the bound `maxweight` for the four columns does not fit, with an
`eta` of `10^19` the largest weight of a processor does not fit; with unlimited numbers both runs end normally. -/
theorem C112_overflow :
    (mainComputePar64 exampleMain64 2 3 10000000000000000000 0 (some exampleText.toList) "one" = .error .ub ∧
      ((mainCompute exampleMain 2 3 10000000000000000000 0 (some exampleText.toList) "one").toOption.bind id).isSome) ∧
    (mainComputePar64 exampleMain64 2 3 0 10000000000000000000 (some exampleText.toList) "one" = .error .ub ∧
      ((mainCompute exampleMain 2 3 0 10000000000000000000 (some exampleText.toList) "one").toOption.bind id).isSome) :=
  ⟨⟨eq_of_failsWith (by decide +kernel), by decide +kernel⟩, eq_of_failsWith (by decide +kernel), by decide +kernel⟩

/-- A file that cannot be opened, on any number of processors. -/
example (p k : Nat) (epsilon eta : ℚ) : mainReportPar64 exampleMain64 p k epsilon eta none "one" = .ok none :=
  (C112_unread exampleMain _ _ p k epsilon eta none "one" (fun _ h => by cases h)).1

end PMondriaan

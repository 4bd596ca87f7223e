import Verif.Proofs.MachineCutPar
import Verif.Props.MachineMainPar
import Verif.Props.RecCutOne
import Verif.Props.RecCutTwo

/-
C113: recursive bisection and the main program on several processors in 64-bit signed numbers, cut-net metric.
-/

namespace PMondriaan

open Spec

/-- The recursion with the cut-net metric in 64 bits, for bisections that agree in 64 bits up to the limit `L`. -/
theorem recursion_cut_agrees {P : ParRecEnv} {C : CutEnv} {N T k : Nat} {Bad : Err → Prop} (hP : ParRecEnvOk P N T Bad)
    (hids : ∀ i, Fair (C.dIds i)) (hN : N < 2147483648) (hk : 2 ≤ k) {Hs : List Hypergraph} (hne : Hs ≠ [])
    (hD : Distributed N Hs) (hpos : ∀ H ∈ Hs, ∀ v ∈ H.vertices, 0 < v.weight)
    (hT : (Hs.flatMap (·.vertices)).length < T) (hp : Hs.length ≤ 2 ^ 50) {B : List Bool → ParBisector}
    {Al : List Bool → Bisector} {L X : Int} {epsilon eta : ℚ} (hS : Small P B Al N T Hs.length L X eta) (heps : 0 ≤ epsilon)
    (hsmall : (1 + epsilon) * ((Hs.flatMap (·.vertices)).map (·.weight)).sum ≤ L - 1) {rngs : List Rng}
    (hr : rngs.length = Hs.length) {r : List Hypergraph} (h : recursiveBisectCut P C k epsilon eta Hs rngs = .ok r) :
    recursiveBisectCut64 { P with bis := B, alone := Al } C k epsilon eta Hs rngs = .ok r := by
  have hW0 := weightOn_nonneg hpos
  have hsmall' : (1 + epsilon) * (weightOn Hs : ℚ) ≤ L - 1 := hsmall
  have hWL : weightOn Hs ≤ L := by
    have h0 : (0 : ℚ) ≤ (weightOn Hs : ℚ) := by exact_mod_cast hW0
    have h1 : (weightOn Hs : ℚ) ≤ L := by nlinarith
    exact_mod_cast h1
  have hLL := hS.size
  obtain ⟨e, hI⟩ := start_inv hk hD hpos hT (show weightOn Hs < 2 ^ 53 by omega) hp hr
  have hag : agreed (globalWeight Hs) = .ok (weightOn Hs) := by
    apply agreed_ok
    · unfold globalWeight bulkSum
      simpa using hne
    · intro b hb
      unfold globalWeight bulkSum at hb
      obtain ⟨-, -, rfl⟩ := List.mem_map.1 hb
      exact totalWeights_eq Hs
  obtain ⟨h1, h2, h3⟩ := maxWeight64_eq hLL hP.rounds heps hW0 (k := k) (by omega) hsmall'
  obtain ⟨xs, hxs⟩ : ∃ xs, xs = (Hs.zip rngs).map (fun x =>
    ((⟨x.1, x.1.vertices.length, x.2⟩ : RecProc), ([] : List Net))) := ⟨_, rfl⟩
  have e1 : xs.map (·.1) = (Hs.zip rngs).map (fun x => (⟨x.1, x.1.vertices.length, x.2⟩ : RecProc)) := by
    rw [hxs, List.map_map]; rfl
  rw [← e1] at hI e
  have hC : CutInv [] (bare xs) := by
    have hb : ∀ x ∈ bare xs, x.2 = [] := by
      intro x hx
      unfold bare at hx
      rw [hxs, List.map_map] at hx
      obtain ⟨y, -, rfl⟩ := List.mem_map.1 hx
      rfl
    refine ⟨?_, ?_, ?_, ?_⟩ <;> intro x hx <;> simp [hb x hx]
  have hlx : xs.length = Hs.length := by rw [hxs]; simp [hr]
  unfold recursiveBisectCut at h
  unfold recursiveBisectCut64
  rw [hag, ok_bind, ← hxs] at h
  rw [globalWeight64_eq hpos (by omega), ok_bind, hag, ok_bind]
  dsimp only
  rw [h1, ok_bind, ← hxs]
  obtain ⟨ys, hy, h⟩ := bind_eq_ok.1 h
  rw [(recCut64_follows hP hN hS h2 h3 C (k + 1) [] 0 ⟨0, (k : Int) - 1⟩ (weightOn Hs) 0 xs [] hI hC (by omega) hW0 hWL
    (by rw [e]; exact hWL)).runWorld hids 0 hy, ok_bind]
  exact h

/-- C113, cut-net metric, multilevel or random bisection: if `(1 + epsilon)` times the total weight is below `3 * 10^9`, `eta` is at most 9 and there are at most
a million processors, at most `2^60 / N` processors for `N` nets and at most 100 passes of the refinement, a run of the
recursion that has a result on integers has the same result in 64-bit arithmetic, for any draws, any order of the messages
and any number of parts. -/
theorem C113_recursion_cut64 {F : Type} {E : List Bool → Nat → ParBisectEnv F} {E1 : List Bool → Env F} {N T : Nat}
    (hE : ∀ path p, 2 ≤ p → ParBisectEnvOk (E path p) p N T) (hE1 : ∀ path, (E1 path).Ok N)
    (hf : ∀ path, (E1 path).fuel = T) (hN : N < 2147483648) {opts : Options} {Hs : List Hypergraph}
    (ho : opts.samplingLp = true → 1 ≤ opts.sampleSize / Hs.length) (hpass : opts.klfmMaxPasses ≤ 100)
    {P : ParRecEnv} (hrnd : P.rnd = nearest53) (hbis : P.bis = codeBis E opts Hs.length)
    (halone : P.alone = fun path H m0 m1 s e l rng =>
      bisectOne (E1 path) H { opts with sampleSize := opts.sampleSize / Hs.length } m0 m1 s e l rng)
    (hord : ∀ path l, (P.ord path l).Perm l) (hdv : ∀ path, Fair (P.dVert path)) (hdc : ∀ path, Fair (P.dCost path))
    {C : CutEnv} (hids : ∀ i, Fair (C.dIds i)) {k : Nat} (hk : 2 ≤ k) (hne : Hs ≠ []) (hD : Distributed N Hs)
    (hpos : ∀ H ∈ Hs, ∀ v ∈ H.vertices, 0 < v.weight) (hT : (Hs.flatMap (·.vertices)).length < T)
    (hp : Hs.length ≤ 1000000) (hpN : Hs.length * N ≤ 2 ^ 60) {epsilon eta : ℚ} (heps : 0 ≤ epsilon)
    (hsmall : (1 + epsilon) * ((Hs.flatMap (·.vertices)).map (·.weight)).sum ≤ 2999999999)
    (heta : 0 ≤ eta) (heta9 : eta ≤ 9) {rngs : List Rng} (hr : rngs.length = Hs.length) {r : List Hypergraph}
    (h : recursiveBisectCut P C k epsilon eta Hs rngs = .ok r) :
    recursiveBisectCut64 { P with
      bis := codeBis64 E opts Hs.length
      alone := fun path H m0 m1 s e l rng =>
        bisectOne64 (E1 path) H { opts with sampleSize := opts.sampleSize / Hs.length } m0 m1 s e l rng }
      C k epsilon eta Hs rngs = .ok r := by
  have hP : ParRecEnvOk P N T
      (fun e => opts.bisectionRandom = false ∧ (e = .ub ∨ opts.samplingLp = false ∧ e = .abort)) := by
    refine ⟨?_, ?_, hord, hdv, hdc, ?_, ?_⟩
    · rw [hbis]; exact codeBis_well hE hN ho
    · intro path
      rw [halone, ← hf path]
      exact bisectOne_well (hE1 path) _
    · rw [hrnd]; exact nearest53_keepsInts
    · rw [hrnd]; exact nearest53_rounds
  exact recursion_cut_agrees hP hids hN hk hne hD hpos hT (by omega)
    (codeSmall hE hE1 hf hN ho hpass hbis halone hp hpN heta heta9) heps (le_trans hsmall (by norm_num)) hr h

/-- C113, cut-net metric, random bisection: `10^14` is enough room, with at most ten thousand processors. -/
theorem C113_random_cut64 {F : Type} {E : List Bool → Nat → ParBisectEnv F} {N T : Nat} (hN : N < 2147483648) {opts : Options}
    (hb : opts.bisectionRandom = true) {P : ParRecEnv} (hrnd : P.rnd = nearest53) {Hs : List Hypergraph} {p0 : Nat}
    (hbis : P.bis = codeBis E opts p0) (halone : P.alone = fun _ => bisectRandom)
    (hord : ∀ path l, (P.ord path l).Perm l) (hdv : ∀ path, Fair (P.dVert path)) (hdc : ∀ path, Fair (P.dCost path))
    {C : CutEnv} (hids : ∀ i, Fair (C.dIds i)) {k : Nat} (hk : 2 ≤ k) (hne : Hs ≠ []) (hD : Distributed N Hs)
    (hpos : ∀ H ∈ Hs, ∀ v ∈ H.vertices, 0 < v.weight) (hT : (Hs.flatMap (·.vertices)).length < T)
    (hp : Hs.length ≤ 10000) {epsilon eta : ℚ} (heps : 0 ≤ epsilon)
    (hsmall : (1 + epsilon) * ((Hs.flatMap (·.vertices)).map (·.weight)).sum ≤ 99999999999999)
    (heta : 0 ≤ eta) (heta1 : eta ≤ 1) {rngs : List Rng} (hr : rngs.length = Hs.length) {r : List Hypergraph}
    (h : recursiveBisectCut P C k epsilon eta Hs rngs = .ok r) :
    recursiveBisectCut64 { P with bis := codeBis64 E opts p0, alone := fun _ => bisectRandom64 } C k epsilon eta Hs rngs = .ok r := by
  have hP : ParRecEnvOk P N T (fun _ => False) := by
    refine ⟨?_, ?_, hord, hdv, hdc, ?_, ?_⟩
    · rw [hbis]; exact codeBis_random_well E N T p0 hb
    · intro path
      rw [halone]
      intro H' _ s e h1 h2 labels hl max0 max1 rng'
      exact C35_bisect_random h1 h2 labels hl max0 max1 rng'
    · rw [hrnd]; exact nearest53_keepsInts
    · rw [hrnd]; exact nearest53_rounds
  exact recursion_cut_agrees hP hids hN hk hne hD hpos hT (by omega) (randomSmall hb hbis halone hp heta heta1) heps
    (le_trans hsmall (by norm_num)) hr h

/-- The main program with the cut-net metric on `p` processors, for bisections that agree in 64 bits up to the limit `L`. -/
theorem main_cut_agrees {M : MainEnv} {C : CutEnv} {p : Nat} (hM : MainEnvOk M p) (hids : ∀ i, Fair (C.dIds i))
    (hpins : Fair C.dPins) (hp1 : 1 ≤ p) (hp : p ≤ 2 ^ 50) {E V T k : Nat}
    {Bad : Err → Prop} (hP : ParRecEnvOk M.recEnv E T Bad) (hE : E < 2147483648) (hV1 : 1 ≤ V) (hT : V < T) (hk : 2 ≤ k)
    {B : List Bool → ParBisector} {Al : List Bool → Bisector} {L X : Int} {epsilon eta : ℚ}
    (hS : Small M.recEnv B Al E T p L X eta)
    {es : List (Nat × Nat)} {text : List Char} (hf : GoodFile text E V es) {mode : String} {wt : List Nat → Int}
    (hm : ModeMeans mode wt) (hw : ∀ v < V, 0 < wt (columnOf es v)) (heps : 0 ≤ epsilon)
    (hsmall : (1 + epsilon) * matrixWeight V es wt ≤ L - 1) (hk64 : matrixWeight V es wt * k < 2 ^ 63)
    {o : MainCutOut} (h : mainComputeCut M C p k epsilon eta (some text) mode = .ok (some o)) :
    ReportsCut p k E V es wt o ∧ ∃ ws, mainWeights o.Hs k = .ok ws ∧
    mainReportCutPar64 { M with recEnv := { M.recEnv with bis := B, alone := Al } } C p k epsilon eta (some text) mode =
      .ok (some (o, ws)) := by
  obtain ⟨Rs, a1, a2, a3⟩ := goodFile_read hM hf hm
  obtain ⟨Cs, c1, c2, c3⟩ := copies_ok a3
  have hlC : Cs.length = p := by omega
  have hne : Cs ≠ [] := by rintro rfl; simp at hlC; omega
  have hWC := holdMatrix_weight c3
  have hlen := holdMatrix_length c3
  have hpos := holdMatrix_pos c3 hw
  have hV := columns_le_weight hw
  have hW53 : matrixWeight V es wt < 2 ^ 53 := by
    have h0 : (0 : ℚ) ≤ (matrixWeight V es wt : ℚ) := by
      have : (0 : Int) ≤ matrixWeight V es wt := by omega
      exact_mod_cast this
    have h1 : (matrixWeight V es wt : ℚ) ≤ L := by nlinarith [mul_nonneg heps h0]
    have h2 : matrixWeight V es wt ≤ L := by exact_mod_cast h1
    have := hS.size
    omega
  have hrep : ReportsCut p k E V es wt o := by
    rcases C79_partial hM hP hids hpins hp1 hp hk hE hV1 hT hf hm hw hW53 epsilon hS.etas with ⟨o', h1, h2⟩ | ⟨e, h1, -⟩
    · rw [h] at h1
      injection h1 with h1
      injection h1 with h1
      rw [h1]; exact h2
    · rw [h] at h1; cases h1
  obtain ⟨lab, -, hws⟩ := C79_weights hrep
  refine ⟨hrep, _, hws, ?_⟩
  unfold mainComputeCut at h
  rw [a1, ok_bind] at h
  simp only at h
  rw [c1, ok_bind] at h
  obtain ⟨g, hg, h⟩ := bind_eq_ok.1 h
  have hg64 := recursion_cut_agrees hP hids hE hk hne c3.dist hpos (by omega) (by omega) (by rw [hlC]; exact hS) heps
    (by rw [hWC]; exact hsmall) (by rw [hlC]; exact hM.rngs) hg
  rcases C77_partial hP hids hpins hE hk hne c3.dist hpos (by omega) (by omega) (by omega) epsilon hS.etas
    (rngs := M.rngs) (by rw [hlC]; exact hM.rngs) with ⟨r, r1, r2, r3⟩ | ⟨e, r1, -⟩
  swap
  · rw [hg] at r1; cases r1
  obtain rfl : g = r := Except.ok.inj (hg.symm.trans r1)
  have hF := holdMatrix_returned c3 r2
  have hposF := holdMatrix_pos hF hw
  have hWF : (g.map (fun H => (H.vertices.map (·.weight)).sum)).sum = matrixWeight V es wt := by
    have hv := holdMatrix_weight hF
    rw [← hv]
    simp [relist, List.flatMap, Function.comp_def, List.map_flatten, List.sum_flatten]
    rfl
  obtain ⟨bal, hb, h⟩ := bind_eq_ok.1 h
  obtain ⟨H0, hH0, h⟩ := bind_eq_ok.1 h
  obtain ⟨cut, hcut, h⟩ := bind_eq_ok.1 h
  injection h with h
  injection h with h
  subst h
  have hlF : g.length = p := by
    have := r2.length
    omega
  have hH0m : H0 ∈ g := List.mem_of_getElem? (vget_eq_ok.1 hH0)
  have hN : H0.globalNumberNets = E := hF.number (relist H0) (List.mem_map_of_mem hH0m)
  have hnn : ∀ K ∈ g, WeightsNonneg K := by
    intro K hK v hv
    have := hposF (relist K) (List.mem_map_of_mem hK) _ (List.mem_map.2 ⟨v, hv, rfl⟩)
    exact le_of_lt this
  have e4 := globalWeightParts64_eq hnn (k := k) (by rw [hWF]; omega) r3
  have e2 := loadBalancePar64_eq M.recEnv.rnd (Hs := g) hnn (k := k) (by omega) r3 (by rw [hWF]; exact hk64)
  have hc := C10_distributed_cutsize hF.dist (np := M.parts E) (by rw [List.length_map, hlF]; exact hM.parts E) hM.dCut
    hM.setOrder .cutNet
  rw [relist_cutsizePar, holdMatrix_cutNet hF] at hc
  have hle := rowsSplit_le_rows E es (labelsOf E (g.map relist))
  have e3 := cutsizePar64_of_ok (c := (rowsSplit E es (labelsOf E (g.map relist)) : Int)) (Hs := g) (np := M.parts E)
    (so := M.setOrder) (metric := .cutNet) hM.dCut (by
      intro K hK n hn
      rw [hF.costs (relist K) (List.mem_map_of_mem hK) n hn]
      decide) (by rw [hc, List.map_map]; rfl) (by omega)
  have e5 : mainComputeCutPar64 { M with recEnv := { M.recEnv with bis := B, alone := Al } } C p k epsilon eta (some text) mode =
      .ok (some ⟨g, bal, cut⟩) := by
    unfold mainComputeCutPar64
    dsimp only
    rw [a1, ok_bind]
    simp only
    rw [c1, ok_bind, hg64, ok_bind, e2, hb, ok_bind, hH0, ok_bind, hN, e3, ← hN, hcut, ok_bind]
    rfl
  dsimp only at hws
  unfold mainReportCutPar64
  rw [e5, ok_bind]
  simp only
  rw [e4]
  unfold mainWeights at hws
  rw [hws]
  rfl

/-- C113: the main program on `p` processors with the cut-net metric, random or multilevel bisection and all options. Under the
conditions of C112 a run that reports a result with unlimited numbers reports the same result in 64 bits: the same labels, load
balance and cut size, and the same weights of the parts. -/
theorem C113_main {M : MainEnv} {C : CutEnv} {p : Nat} (hM : MainEnvOk M p) (hids : ∀ i, Fair (C.dIds i))
    (hpins : Fair C.dPins) (hp1 : 1 ≤ p) (hp : p ≤ 1000000) {F : Type}
    {EP : List Bool → Nat → ParBisectEnv F} {E1 : List Bool → Env F} {E V T k : Nat}
    (hEP : ∀ path q, 2 ≤ q → ParBisectEnvOk (EP path q) q E T) (hE1 : ∀ path, (E1 path).Ok E)
    (hfuel : ∀ path, (E1 path).fuel = T) {opts : Options} (ho : opts.samplingLp = true → 1 ≤ opts.sampleSize / p)
    (hpass : opts.klfmMaxPasses ≤ 100) (hrnd : M.recEnv.rnd = nearest53) (hbis : M.recEnv.bis = codeBis EP opts p)
    (halone : M.recEnv.alone = fun path H m0 m1 s e l rng =>
      bisectOne (E1 path) H { opts with sampleSize := opts.sampleSize / p } m0 m1 s e l rng)
    (hord : ∀ path l, (M.recEnv.ord path l).Perm l) (hdv : ∀ path, Fair (M.recEnv.dVert path))
    (hdc : ∀ path, Fair (M.recEnv.dCost path)) (hE : E < 2147483648) (hpE : p * E ≤ 2 ^ 60) (hV : 1 ≤ V) (hT : V < T)
    (hk : 2 ≤ k) (hk2 : k ≤ 3000000000) {es : List (Nat × Nat)} {text : List Char} (hf : GoodFile text E V es)
    {mode : String} {wt : List Nat → Int} (hm : ModeMeans mode wt) (hw : ∀ v < V, 0 < wt (columnOf es v))
    {epsilon eta : ℚ} (heps : 0 ≤ epsilon) (heta : 0 ≤ eta) (heta9 : eta ≤ 9)
    (hsmall : (1 + epsilon) * matrixWeight V es wt ≤ 2999999999) {o : MainCutOut}
    (h : mainComputeCut M C p k epsilon eta (some text) mode = .ok (some o)) :
    ReportsCut p k E V es wt o ∧ ∃ ws, mainWeights o.Hs k = .ok ws ∧
      mainReportCutPar64 { M with recEnv := { M.recEnv with
          bis := codeBis64 EP opts p
          alone := fun path H m0 m1 s e l rng =>
            bisectOne64 (E1 path) H { opts with sampleSize := opts.sampleSize / p } m0 m1 s e l rng } }
        C p k epsilon eta (some text) mode = .ok (some (o, ws)) := by
  have hP : ParRecEnvOk M.recEnv E T (CodeFails opts) := by
    refine ⟨?_, ?_, hord, hdv, hdc, ?_, ?_⟩
    · rw [hbis]; exact codeBis_well hEP hE ho
    · intro path
      rw [halone, ← hfuel path]
      exact bisectOne_well (hE1 path) _
    · rw [hrnd]; exact nearest53_keepsInts
    · rw [hrnd]; exact nearest53_rounds
  have hVW := columns_le_weight hw
  have hW : matrixWeight V es wt ≤ 2999999999 := by
    have h0 : (0 : ℚ) ≤ (matrixWeight V es wt : ℚ) := by
      have : (0 : Int) ≤ matrixWeight V es wt := by omega
      exact_mod_cast this
    have h1 : (matrixWeight V es wt : ℚ) ≤ 2999999999 := by nlinarith [mul_nonneg heps h0]
    exact_mod_cast h1
  have hk64 : matrixWeight V es wt * (k : Int) < 2 ^ 63 := by
    have h1 : matrixWeight V es wt * (k : Int) ≤ 2999999999 * 3000000000 :=
      mul_le_mul hW (by omega) (by omega) (by decide)
    omega
  exact main_cut_agrees hM hids hpins hp1 (by omega) hP hE hV hT hk
    (codeSmall hEP hE1 hfuel hE ho hpass hbis halone hp hpE heta heta9) hf hm hw heps (le_trans hsmall (by norm_num)) hk64 h

/-- C113, random bisection into two parts on two processors or more: without a condition on the run. The program always comes to its report, in 64 bits,
for `(1 + ε)` times the weight below `10^14` and at most ten thousand processors. -/
theorem C113_random_two {M : MainEnv} {C : CutEnv} {p : Nat} (hM : MainEnvOk M p) (hids : ∀ i, Fair (C.dIds i))
    (hpins : Fair C.dPins) (hp2 : 2 ≤ p) (hp : p ≤ 10000) {F : Type}
    {EP : List Bool → Nat → ParBisectEnv F} {E V T p0 : Nat} {opts : Options} (hb : opts.bisectionRandom = true)
    (hrnd : M.recEnv.rnd = nearest53) (hbis : M.recEnv.bis = codeBis EP opts p0)
    (halone : M.recEnv.alone = fun _ => bisectRandom)
    (hord : ∀ path l, (M.recEnv.ord path l).Perm l) (hdv : ∀ path, Fair (M.recEnv.dVert path))
    (hdc : ∀ path, Fair (M.recEnv.dCost path)) (hE : E < 2147483648) (hV : 1 ≤ V) (hT : V < T)
    {es : List (Nat × Nat)} {text : List Char} (hf : GoodFile text E V es)
    {mode : String} {wt : List Nat → Int} (hm : ModeMeans mode wt) (hw : ∀ v < V, 0 < wt (columnOf es v))
    {epsilon eta : ℚ} (heps : 0 ≤ epsilon) (heta : 0 ≤ eta) (heta1 : eta ≤ 1)
    (hsmall : (1 + epsilon) * matrixWeight V es wt ≤ 99999999999999) :
    ∃ o ws, mainReportCutPar64 { M with recEnv := { M.recEnv with
          bis := codeBis64 EP opts p0
          alone := fun _ => bisectRandom64 } }
        C p 2 epsilon eta (some text) mode = .ok (some (o, ws)) ∧ ReportsCut p 2 E V es wt o ∧ mainWeights o.Hs 2 = .ok ws := by
  have hP : ParRecEnvOk M.recEnv E T (fun _ => False) := by
    refine ⟨?_, ?_, hord, hdv, hdc, ?_, ?_⟩
    · rw [hbis]; exact codeBis_random_well EP E T p0 hb
    · intro path
      rw [halone]
      intro H' _ s e h1 h2 labels hl max0 max1 rng'
      exact C35_bisect_random h1 h2 labels hl max0 max1 rng'
    · rw [hrnd]; exact nearest53_keepsInts
    · rw [hrnd]; exact nearest53_rounds
  have hVW := columns_le_weight hw
  have hW : matrixWeight V es wt ≤ 99999999999999 := by
    have h0 : (0 : ℚ) ≤ (matrixWeight V es wt : ℚ) := by
      have : (0 : Int) ≤ matrixWeight V es wt := by omega
      exact_mod_cast this
    have h1 : (matrixWeight V es wt : ℚ) ≤ 99999999999999 := by nlinarith [mul_nonneg heps h0]
    exact_mod_cast h1
  rcases C79_two (C := C) hM hP hpins hp2 (by omega) hV hT hf hm hw (by omega) epsilon eta with ⟨o, h, hrep⟩ | ⟨e, -, h⟩
  swap
  · exact h.elim
  obtain ⟨-, ws, hws, h64⟩ := main_cut_agrees hM hids hpins (by omega) (by omega) hP hE hV hT (le_refl 2)
    (randomSmall hb hbis halone hp heta heta1) hf hm hw heps (le_trans hsmall (by norm_num)) (by push_cast; omega) h
  exact ⟨o, ws, h64, hrep, hws⟩

/-- C113: when the file cannot be read, the 64-bit program ends as with unlimited numbers, with the same message or failure, for
any bisections and numbers. -/
theorem C113_unread (M : MainEnv) (C : CutEnv) (B : List Bool → ParBisector) (Al : List Bool → Bisector) (p k : Nat)
    (epsilon eta : ℚ) (file : Option (List Char)) (mode : String)
    (h : ∀ Hs, readFilePar M.order M.dFree M.dSize M.parts p file mode ≠ .ok (some Hs)) :
    mainReportCutPar64 { M with recEnv := { M.recEnv with bis := B, alone := Al } } C p k epsilon eta file mode =
      (mainComputeCut M C p k epsilon eta file mode).map (fun _ => none) ∧
    mainComputeCutPar64 { M with recEnv := { M.recEnv with bis := B, alone := Al } } C p k epsilon eta file mode =
      mainComputeCut M C p k epsilon eta file mode := by
  unfold mainReportCutPar64 mainComputeCutPar64 mainComputeCut
  dsimp only
  cases hr : readFilePar M.order M.dFree M.dSize M.parts p file mode with
  | error e => exact ⟨rfl, rfl⟩
  | ok r =>
    cases r with
    | none => exact ⟨rfl, rfl⟩
    | some Hs => exact absurd hr (h Hs)

/-- An iteration with the cut-net metric is one without, and then nets are set aside. -/
theorem splitStep64_cut (P : ParRecEnv) (path : List Bool) (d : Delivery Nat) (d2 : Delivery (Nat × Nat × Int)) (M : Int)
    (cur : WorkItem) (s : RecState) (cut : List Net) :
    splitStep64 (P.cutEnv path d d2) M cur { s with cut := cut } =
      splitStep64 (P.recEnv path) M cur s >>= fun x =>
        maybeRemove (P.cutEnv path d d2) (!x.2.jobs.isEmpty) x.2.H cut >>= fun y =>
          pure (x.1, { x.2 with H := y.1, cut := y.2 }) := by
  unfold splitStep64
  dsimp only
  rw [show (P.cutEnv path d d2).rnd = (P.recEnv path).rnd from rfl,
    show (P.cutEnv path d d2).bis = (P.recEnv path).bis from rfl]
  cases computeMax64 (P.recEnv path).rnd (cur.high - cur.low + 1).toNat ((cur.high - cur.low + 1).toNat / 2)
      ((cur.high - cur.low + 1).toNat - (cur.high - cur.low + 1).toNat / 2) cur.weight M with
  | error e => rfl
  | ok m =>
    simp only [ok_bind]
    cases bisectRange (P.recEnv path).bis s.H m.1 m.2 cur.start cur.fin ⟨cur.low, cur.high⟩ s.rng with
    | error e => rfl
    | ok r =>
      simp only [ok_bind]
      cases pushHigh cur ⟨cur.low + ↑((cur.high - cur.low + 1).toNat / 2), cur.high⟩ r.w1 r.H s.jobs with
      | error e => rfl
      | ok z =>
        simp only [ok_bind]
        have e1 : ∀ b, maybeRemove (P.recEnv path) b z.1 s.cut = .ok (z.1, s.cut) := fun b => rfl
        rw [e1]
        simp only [ok_bind]
        rfl

theorem splitStep64_cutNets {P : ParRecEnv} {path : List Bool} {M : Int} {cur : WorkItem} {s : RecState} {x : WorkItem × RecState}
    (h : splitStep64 (P.recEnv path) M cur s = .ok x) : x.2.cut = s.cut := by
  unfold splitStep64 at h
  simp only [bind_eq_ok] at h
  obtain ⟨m, -, r, -, z, -, y, h3, h4⟩ := h
  have h3 : y = (z.1, s.cut) := (Except.ok.inj h3).symm
  subst h3
  rw [← Except.ok.inj h4]

/-- The loops of a processor that is alone. -/
theorem aloneLoop64_one (P : ParRecEnv) (C : CutEnv) (path : List Bool) (base : Nat) (d : Delivery Nat)
    (d2 : Delivery (Nat × Nat × Int)) (M : Int) : ∀ (f : Nat) (cur : WorkItem) (s : RecState) (cut : List Net) (i : Nat),
    (aloneLoop64 (P.recEnv path) C path base M f cur s cut).runWorld (fun _ => d) i =
      (recLoop64 (P.cutEnv path d d2) M f cur { s with cut := cut }).map (fun t => ({ t with cut := s.cut }, t.cut)) := by
  intro f
  induction f with
  | zero => intro cur s cut i; rfl
  | succ f ih =>
    intro cur s cut i
    unfold aloneLoop64 recLoop64
    by_cases hlh : cur.high - cur.low > 0
    · rw [if_pos hlh, if_pos hlh, splitStep64_cut]
      cases h : splitStep64 (P.recEnv path) M cur s with
      | error e => rfl
      | ok x =>
        simp only [ok_bind]
        rw [runWorld_andThen d _ _ i i, aloneRemove_one P C path base d d2]
        cases maybeRemove (P.cutEnv path d d2) (!x.2.jobs.isEmpty) x.2.H cut with
        | error e => rfl
        | ok y =>
          simp only [ok_bind, pure, Except.pure]
          show (aloneLoop64 (P.recEnv path) C path base M f x.1 { x.2 with H := y.1 } y.2).runWorld (fun _ => d) i = _
          rw [ih]
          rw [splitStep64_cutNets h]
    · rw [if_neg hlh, if_neg hlh]
      obtain ⟨H, rng, jobs, cut0, sp, calls⟩ := s
      cases jobs with
      | nil => rfl
      | cons j js => exact ih j ⟨H, rng, js, cut0, sp, calls⟩ cut i

/-- C113: on one processor the 64-bit model is that of C107 with the cut-net metric, failures included. -/
theorem C113_one_processor (P : ParRecEnv) (C : CutEnv) (d : Delivery Nat) (hd : C.dIds = fun _ => d) {k : Nat} (hk : 1 ≤ k)
    (epsilon eta : ℚ) (H : Hypergraph) (rng : Rng) :
    recursiveBisectCut64 P C k epsilon eta [H] [rng] =
      (recursiveBisect64 (P.cutEnv [] d C.dPins) H k epsilon rng).map (fun s => [s.H]) := by
  have hc : (⟨0, (k : Int) - 1⟩ : Interval).count = k := by
    unfold Interval.count Interval.length
    dsimp only
    omega
  unfold recursiveBisectCut64 recursiveBisect64 globalWeight64 bulkSum64
  simp only [List.mapM_cons, List.mapM_nil]
  cases hW : totalWeight64 H with
  | error e => rfl
  | ok W =>
    have hl : long (0 + W) = .ok W := by rw [Int.zero_add]; exact totalWeight64_long hW
    simp only [ok_bind, pure_eq_ok, List.foldlM_cons, List.foldlM_nil, hl, List.map_cons, List.map_nil]
    have hag : agreed [W] = .ok W := by simp [agreed]
    rw [hag, ok_bind]
    rw [show (P.cutEnv [] d C.dPins).rnd = P.rnd from rfl]
    cases maxWeight64 P.rnd epsilon W k with
    | error e => rfl
    | ok M =>
      rw [hd]
      simp only [ok_bind, List.zip_cons_cons, List.zip_nil_right, List.map_cons, List.map_nil, recCut64, aloneCut64, hc]
      rw [runWorld_andThen d _ _ 0 0, aloneLoop64_one P C [] 0 d C.dPins]
      cases recLoop64 (P.cutEnv [] d C.dPins) M (2 * k)
          { start := 0, fin := (H.vertices.length : Int), low := 0, high := (k : Int) - 1, weight := W }
          { H := H, rng := rng, jobs := [], cut := [], splits := 0, calls := [] } with
      | error e => rfl
      | ok s =>
        simp only [Except.map, ok_bind]
        unfold restoreCut lastRemove maybeRemove
        rw [show (P.cutEnv [] d C.dPins).cutMetric = true from rfl, show (P.cutEnv [] d C.dPins).d1 = d from rfl,
          show (P.cutEnv [] d C.dPins).d2 = C.dPins from rfl]
        simp only [if_true, Nat.zero_add, Bool.true_and, decide_eq_true_eq]
        by_cases h2 : s.splits * 2 < k
        · rw [if_pos h2, if_pos h2, removeSync_one]
          cases h3 : removeCutNetsAlone d [(s.H, s.cut)] with
          | error e => rfl
          | ok ys =>
            obtain ⟨y, rfl⟩ := removeCutNetsAlone_single h3
            exact addCutNets_one C.dPins y s
        · rw [if_neg h2, if_neg h2]
          exact addCutNets_one C.dPins (s.H, s.cut) s

/-- C113: on one processor the 64-bit main program is that of C108 with the cut-net metric, failures included. -/
theorem C113_main_one_processor {M : MainEnv} (hM : MainEnvOk M 1) {C : CutEnv} {d : Delivery Nat} (hd : C.dIds = fun _ => d)
    {k : Nat} (hk : 1 ≤ k) (epsilon eta : ℚ) {E V : Nat}
    {es : List (Nat × Nat)} {text : List Char} (hf : GoodFile text E V es) {mode : String} {wt : List Nat → Int}
    (hm : ModeMeans mode wt) :
    mainComputeCutPar64 M C 1 k epsilon eta (some text) mode =
      mainComputeCut64 M d C.dPins (M.recEnv.alone []) k epsilon (some text) mode := by
  obtain ⟨Rs, a1, a2, a3⟩ := goodFile_read hM hf hm
  obtain ⟨Cs, c1, c2, c3⟩ := copies_ok a3
  obtain ⟨H, hH⟩ : ∃ H, Cs = [H] := List.length_eq_one_iff.1 (by omega)
  obtain ⟨g, hg⟩ : ∃ g, M.rngs = [g] := List.length_eq_one_iff.1 hM.rngs
  subst hH
  have v1 : vget [H] 0 = .ok H := rfl
  have v2 : vget [g] 0 = .ok g := rfl
  unfold mainComputeCutPar64 mainComputeCut64
  rw [a1, ok_bind, ok_bind]
  simp only
  rw [c1, ok_bind, ok_bind, hg, v1, v2, ok_bind, ok_bind, C113_one_processor _ C d hd hk]
  have e : ({ M.recEnv.recEnv [] with bis := M.recEnv.alone [], cutMetric := true, d1 := d, d2 := C.dPins } : RecEnv) =
    M.recEnv.cutEnv [] d C.dPins := rfl
  rw [e]
  cases recursiveBisect64 (M.recEnv.cutEnv [] d C.dPins) H k epsilon g with
  | error e => rfl
  | ok s => rfl

/-- The total weight and `maxweight` in 64 bits. -/
theorem total_and_max64 {rnd : ℚ → ℚ} (hr : RoundsWithin (1 / 2 ^ 53) rnd) {Hs : List Hypergraph} (hne : Hs ≠ [])
    (hpos : ∀ H ∈ Hs, ∀ v ∈ H.vertices, 0 < v.weight) {epsilon : ℚ} (heps : 0 ≤ epsilon)
    (hsmall : (1 + epsilon) * ((Hs.flatMap (·.vertices)).map (·.weight)).sum ≤ 99999999999999) {k : Nat} (hk : 1 ≤ k) :
    globalWeight64 Hs = .ok (globalWeight Hs) ∧ agreed (globalWeight Hs) = .ok (weightOn Hs) ∧
      maxWeight64 rnd epsilon (weightOn Hs) k = .ok (maxWeight rnd epsilon (weightOn Hs) k) := by
  have hW0 := weightOn_nonneg hpos
  have hsmall' : (1 + epsilon) * (weightOn Hs : ℚ) ≤ ((100000000000000 : Int) : ℚ) - 1 := le_trans hsmall (by norm_num)
  have hWL : weightOn Hs ≤ 100000000000000 := by
    have h0 : (0 : ℚ) ≤ (weightOn Hs : ℚ) := by exact_mod_cast hW0
    have h1 : (weightOn Hs : ℚ) ≤ ((100000000000000 : Int) : ℚ) := by nlinarith
    exact_mod_cast h1
  refine ⟨globalWeight64_eq hpos (by omega), ?_, (maxWeight64_eq (le_refl _) hr heps hW0 (k := k) (by omega) hsmall').1⟩
  apply agreed_ok
  · unfold globalWeight bulkSum
    simpa using hne
  · intro b hb
    unfold globalWeight bulkSum at hb
    obtain ⟨-, -, rfl⟩ := List.mem_map.1 hb
    exact totalWeights_eq Hs

/-- C113 for one part: nothing is bisected, with the lambda metric the hypergraphs stay as they are, and with the cut-net
metric the outcome in 64 bits is that of unlimited numbers, failures included. -/
theorem C113_one_part {P : ParRecEnv} (hr : RoundsWithin (1 / 2 ^ 53) P.rnd) (B : List Bool → ParBisector)
    (Al : List Bool → Bisector) (C : CutEnv) {Hs : List Hypergraph} (hne : Hs ≠ [])
    (hpos : ∀ H ∈ Hs, ∀ v ∈ H.vertices, 0 < v.weight) {epsilon : ℚ} (heps : 0 ≤ epsilon) (eta : ℚ)
    (hsmall : (1 + epsilon) * ((Hs.flatMap (·.vertices)).map (·.weight)).sum ≤ 99999999999999) {rngs : List Rng}
    (hrng : rngs.length = Hs.length) :
    recursiveBisectPar64 { P with bis := B, alone := Al } 1 epsilon eta Hs rngs = .ok ⟨Hs, [], []⟩ ∧
    recursiveBisectCut64 { P with bis := B, alone := Al } C 1 epsilon eta Hs rngs =
      recursiveBisectCut P C 1 epsilon eta Hs rngs := by
  obtain ⟨h1, h2, h3⟩ := total_and_max64 hr hne hpos heps hsmall (k := 1) (le_refl _)
  unfold recursiveBisectPar64 recursiveBisectCut64 recursiveBisectCut
  dsimp only
  rw [h1]
  simp only [ok_bind]
  rw [h2]
  simp only [ok_bind]
  rw [h3]
  simp only [ok_bind]
  match Hs, rngs, hrng, hne with
  | [H], [g], _, _ => exact ⟨rfl, rfl⟩
  | H :: H' :: Hs, g :: g' :: rngs, hl, _ =>
    refine ⟨?_, rfl⟩
    have : ((Hs.zip rngs).map (fun x => ({ H := x.1, fin := x.1.vertices.length, rng := x.2 } : RecProc))).map (·.H) = Hs := by
      rw [List.map_map]
      exact List.map_fst_zip (by simp at hl; omega)
    show Except.ok (GroupResult.mk (H :: H' :: ((Hs.zip rngs).map (fun x =>
      ({ H := x.1, fin := x.1.vertices.length, rng := x.2 } : RecProc))).map (·.H)) [] []) = _
    rw [this]

/-! ### Examples -/

/-- One part on three processors: with the cut-net metric the nets are set aside and added again at the end. -/
example : (recursiveBisectCut64 exampleRecEnv64 (exampleCutEnv 4) 1 (1 / 4) 0 exampleThree
      [fun n => n, fun n => n, fun n => n + 1]).toOption.map (fun Hs => Hs.map (fun H => H.nets.map (fun n => (n.id, n.vertices)))) =
    some [[(2, [2]), (1, [0, 2]), (0, [0, 1])], [(2, [3, 5]), (3, [4, 5]), (0, [3])], [(3, [6])]] := by decide +kernel

/-- C113 applies to five parts on three processors (the example of C77). -/
example {r : List Hypergraph}
    (h : recursiveBisectCut exampleRecEnv (exampleCutEnv 4) 5 (1 / 4) 0 exampleThree
      [fun n => n, fun n => n, fun n => n + 1] = .ok r) :
    recursiveBisectCut64 exampleRecEnv64 (exampleCutEnv 4) 5 (1 / 4) 0 exampleThree
      [fun n => n, fun n => n, fun n => n + 1] = .ok r :=
  C113_random_cut64 (F := Nat) (E := fun _ _ => exampleParEnv) (N := 4) (T := 10)
    (opts := { exampleOpts with bisectionRandom := true }) (p0 := 1) (P := exampleRecEnv) (by decide) rfl rfl rfl rfl
    exampleRecEnv_ok.ord exampleRecEnv_ok.dVert exampleRecEnv_ok.dCost (exampleCutEnv_ok 4).1 (by decide) (by decide)
    exampleThree_dist (by decide)
    (by decide) (by decide) (by norm_num) (by norm_num [exampleThree, Hypergraph.create]) (le_refl _) (by norm_num) rfl h

set_option synthInstance.maxSize 1000 in
example : (recursiveBisectCut64 exampleRecEnv64 (exampleCutEnv 4) 5 (1 / 4) 0 exampleThree
      [fun n => n, fun n => n, fun n => n + 1]).toOption.map (fun Hs => Hs.map (fun H =>
        (H.vertices.map (fun v => (v.id, v.nets, v.part)), H.nets.map (fun n => (n.id, n.vertices, n.cost))))) =
    some [([(1, [], 1), (7, [], 0), (3, [0, 2], 1)], [(2, [3], 1), (1, [], 1), (0, [1, 3], 2)]),
      ([(4, [], 4), (6, [3], 3), (0, [0, 1], 2), (5, [], 2)],
        [(2, [5], 1), (3, [4, 5, 6], 3), (0, [0], 2), (1, [0], 1)]),
      ([(2, [1, 2], 3)], [(3, [], 3), (1, [2], 1), (2, [2], 1)])] := by decide +kernel

/-- C113 applies to the multilevel bisection of the example into any number of parts. -/
example {k : Nat} (hk : 2 ≤ k) {rngs : List Rng} (hr : rngs.length = 3) {r : List Hypergraph}
    (h : recursiveBisectCut multiRecEnv (exampleCutEnv 4) k 1 (1 / 2) exampleThree rngs = .ok r) :
    recursiveBisectCut64 multiRecEnv64 (exampleCutEnv 4) k 1 (1 / 2) exampleThree rngs = .ok r :=
  C113_recursion_cut64 (F := Nat) (E := fun _ q => plainParEnv q 4 10) (E1 := fun _ => { exampleEnv 4 with fuel := 10 })
    (N := 4) (T := 10) (opts := multiOpts) (P := multiRecEnv) (fun _ q hq => plainParEnv_ok q 4 10 (by omega))
    (fun _ => ⟨fun _ l => .refl l, fun l => .refl l, fun l => .refl l, fun l => .refl l,
      fun _ l => .refl l, fun _ l => .refl l, blockPart_valid 1 4 (by decide)⟩) (fun _ => rfl) (by decide)
    (Hs := exampleThree) (by decide) (by decide) rfl rfl rfl exampleRecEnv_ok.ord exampleRecEnv_ok.dVert exampleRecEnv_ok.dCost
    (exampleCutEnv_ok 4).1 hk (by decide) exampleThree_dist (by decide) (by decide) (by decide) (by decide) (by norm_num)
    (by norm_num [exampleThree, Hypergraph.create]) (by norm_num) (by norm_num) hr h

example : (recursiveBisectCut64 multiRecEnv64 (exampleCutEnv 4) 4 1 (1 / 2) exampleThree
      [fun n => n, fun n => n, fun n => n + 1]).toOption.map (fun Hs => Hs.map (fun H =>
        H.vertices.map (fun v => (v.id, v.nets, v.part)))) =
    some [[(0, [], 1), (1, [], 1), (2, [], 0)], [(3, [], 1)], [(6, [], 3), (7, [], 2), (5, [3, 2], 2), (4, [3], 2)]] := by
  decide +kernel

/-- The main program: C113 applies to the file of C67 with multilevel bisection and any number of parts up to `3·10^9`. -/
example {k : Nat} (hk : 2 ≤ k) (hk2 : k ≤ 3000000000) {o : MainCutOut}
    (h : mainComputeCut multiMain (exampleCutEnv 3) 2 k 1 (1 / 2) (some exampleText.toList) "one" = .ok (some o)) :
    ReportsCut 2 k 3 4 [(1, 1), (3, 2), (1, 4), (3, 1)] (fun _ => 1) o ∧ ∃ ws, mainWeights o.Hs k = .ok ws ∧
      mainReportCutPar64 multiMain64 (exampleCutEnv 3) 2 k 1 (1 / 2) (some exampleText.toList) "one" = .ok (some (o, ws)) :=
  C113_main (F := Nat) (EP := fun _ q => plainParEnv q 3 10) (E1 := fun _ => { exampleEnv 3 with fuel := 10 }) (T := 10)
    (opts := multiOpts) (M := multiMain) multiMain_ok (exampleCutEnv_ok 3).1 (exampleCutEnv_ok 3).2 (by decide) (by decide)
    (fun _ q hq => plainParEnv_ok q 3 10 (by omega))
    (fun _ => ⟨fun _ l => .refl l, fun l => .refl l, fun l => .refl l, fun l => .refl l,
      fun _ l => .refl l, fun _ l => .refl l, blockPart_valid 1 3 (by decide)⟩) (fun _ => rfl) (by decide) (by decide) rfl rfl rfl
    exampleRecEnv_ok.ord exampleRecEnv_ok.dVert exampleRecEnv_ok.dCost (by decide) (by decide) (by decide) (by decide) hk hk2
    ⟨by decide, by decide, by unfold EntriesIn; decide, by decide, 4, [(1, 1), (3, 2), (1, 4), (3, 1)], rfl, by decide,
      Or.inl ⟨exampleText_mtx, rfl⟩⟩ (Or.inl ⟨rfl, rfl⟩) (fun _ _ => by decide) (by norm_num) (by norm_num) (by norm_num)
    (by rw [show matrixWeight 4 [(1, 1), (3, 2), (1, 4), (3, 1)] (fun _ => 1) = 4 by decide]; norm_num) h

/-- Three parts, multilevel. -/
example : ((mainComputeCutPar64 multiMain64 (exampleCutEnv 3) 2 3 1 (1 / 2) (some exampleText.toList) "one").toOption.bind id).map
      (fun o => o.Hs.map (fun H => H.vertices.map (fun v => (v.id, v.part)))) = some [[(0, 1), (1, 1)], [(3, 2), (2, 0)]] ∧
    ((mainComputeCutPar64 multiMain64 (exampleCutEnv 3) 2 3 1 (1 / 2) (some exampleText.toList) "one").toOption.bind id).map
      (fun o => (o.balance, o.cut)) = some ([(some (1 / 2), false), (some (1 / 2), false)], [1, 1]) :=
  ⟨by decide +kernel, by decide +kernel⟩

/-- The weights of the parts of this run. -/
example : ((mainReportCutPar64 multiMain64 (exampleCutEnv 3) 2 3 1 (1 / 2) (some exampleText.toList) "one").toOption.bind id).map
    (fun x => x.2) = some [[1, 2, 1], [1, 2, 1]] := by decide +kernel

/-- A file that cannot be opened, on any number of processors. -/
example (p k : Nat) (epsilon eta : ℚ) :
    mainReportCutPar64 exampleMain64 (exampleCutEnv 3) p k epsilon eta none "one" = .ok none :=
  (C113_unread exampleMain _ _ _ p k epsilon eta none "one" (fun _ h => by cases h)).1

/-- C113 for random bisection into two parts applies to the same file. -/
example : ∃ o ws,
    mainReportCutPar64 exampleMain64 (exampleCutEnv 3) 2 2 (1 / 4) 0 (some exampleText.toList) "one" = .ok (some (o, ws)) ∧
    ReportsCut 2 2 3 4 [(1, 1), (3, 2), (1, 4), (3, 1)] (fun _ => 1) o ∧ mainWeights o.Hs 2 = .ok ws :=
  C113_random_two (F := Nat) (EP := fun _ _ => exampleParEnv) (T := 10) (p0 := 1)
    (opts := { exampleOpts with bisectionRandom := true }) (M := exampleMain) exampleMain_ok (exampleCutEnv_ok 3).1
    (exampleCutEnv_ok 3).2 (by decide) (by decide) rfl rfl rfl
    rfl exampleRecEnv_ok.ord exampleRecEnv_ok.dVert exampleRecEnv_ok.dCost (by decide) (by decide) (by decide)
    ⟨by decide, by decide, by unfold EntriesIn; decide, by decide, 4, [(1, 1), (3, 2), (1, 4), (3, 1)], rfl, by decide,
      Or.inl ⟨exampleText_mtx, rfl⟩⟩ (Or.inl ⟨rfl, rfl⟩) (fun _ _ => by decide) (by norm_num) (by norm_num) (by norm_num)
    (by rw [show matrixWeight 4 [(1, 1), (3, 2), (1, 4), (3, 1)] (fun _ => 1) = 4 by decide]; norm_num)

example : ((mainComputeCutPar64 exampleMain64 (exampleCutEnv 3) 2 2 (1 / 4) 0 (some exampleText.toList) "one").toOption.bind id).map
      (fun o => o.Hs.map (fun H => H.vertices.map (fun v => (v.id, v.part)))) = some [[(0, 0), (1, 1)], [(2, 1), (3, 0)]] ∧
    ((mainComputeCutPar64 exampleMain64 (exampleCutEnv 3) 2 2 (1 / 4) 0 (some exampleText.toList) "one").toOption.bind id).map
      (fun o => (o.balance, o.cut)) = some ([(some 0, false), (some 0, false)], [1, 1]) :=
  ⟨by decide +kernel, by decide +kernel⟩

/-- C113 needs its conditions. With weights of `2^60` the total does not fit, with weights of `10^18` and `epsilon = 1/4`
the product of `maxweight` and the number of parts does not fit, with weights of `9 * 10^17` and `eta = 5` the maximum local
weight does not fit, while the same weights with `eta = 1` are no problem. With unlimited numbers all four runs succeed. In the
main program an imbalance or an `eta` of `10^19` is enough. -/
theorem C113_overflow :
    (∀ x ∈ [((5 : Nat), (1 / 4 : ℚ), (0 : ℚ), (1152921504606846976 : Int)), (5, 1 / 4, 0, 1000000000000000000),
        (5, 0, 5, 900000000000000000)],
      recursiveBisectCut64 exampleRecEnv64 (exampleCutEnv 4) x.1 x.2.1 x.2.2.1 (threeOf x.2.2.2)
        [fun n => n, fun n => n, fun n => n + 1] = .error .ub ∧
      (recursiveBisectCut exampleRecEnv (exampleCutEnv 4) x.1 x.2.1 x.2.2.1 (threeOf x.2.2.2)
        [fun n => n, fun n => n, fun n => n + 1]).toOption.isSome) ∧
    (recursiveBisectCut64 exampleRecEnv64 (exampleCutEnv 4) 5 0 1 (threeOf 900000000000000000)
      [fun n => n, fun n => n, fun n => n + 1]).toOption.isSome ∧
    ∀ x ∈ [((10000000000000000000 : ℚ), (0 : ℚ)), (0, 10000000000000000000)],
      mainComputeCutPar64 exampleMain64 (exampleCutEnv 3) 2 3 x.1 x.2 (some exampleText.toList) "one" = .error .ub ∧
      ((mainComputeCut exampleMain (exampleCutEnv 3) 2 3 x.1 x.2 (some exampleText.toList) "one").toOption.bind id).isSome := by
  refine ⟨?_, by decide +kernel, ?_⟩
  · intro x hx
    simp only [List.mem_cons, List.not_mem_nil, or_false] at hx
    rcases hx with rfl | rfl | rfl
    · exact ⟨eq_of_failsWith (by decide +kernel), by decide +kernel⟩
    · exact ⟨eq_of_failsWith (by decide +kernel), by decide +kernel⟩
    · exact ⟨eq_of_failsWith (by decide +kernel), by decide +kernel⟩
  · intro x hx
    simp only [List.mem_cons, List.not_mem_nil, or_false] at hx
    rcases hx with rfl | rfl
    · exact ⟨eq_of_failsWith (by decide +kernel), by decide +kernel⟩
    · exact ⟨eq_of_failsWith (by decide +kernel), by decide +kernel⟩

end PMondriaan

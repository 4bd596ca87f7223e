import Verif.Props.MainBalance
import Verif.Props.BalancePar

/-
Property C89: the main program on several processors with random bisection into two parts.
-/

namespace PMondriaan

open Spec

/-- The weight of the columns that the block partitioning gives to processor `r`. -/
def blockWeight (owner : Nat → Nat) (V : Nat) (es : List (Nat × Nat)) (wt : List Nat → Int) (r : Nat) : Int :=
  (((List.range V).filter (fun v => owner v = r)).map (fun v => wt (columnOf es v))).sum

/-- What a processor holds after reading weighs as much as its block of columns. -/
theorem partition_blockWeight {E V p : Nat} {es : List (Nat × Nat)} {wt : List Nat → Int} {owner : Nat → Nat}
    {H : Hypergraph} {Rs : List Hypergraph} (hM : IsMatrix E V es wt H) (hP : PartitionOf E owner p H Rs) :
    ∀ R ∈ Rs, ∃ r < p, (R.vertices.map (·.weight)).sum = blockWeight owner V es wt r := by
  intro R hR
  obtain ⟨r, hr, hL⟩ := forall2_mem_right hP.2.2.1 hR
  refine ⟨r, List.mem_range.1 hr, ?_⟩
  have hwt : R.vertices.map (·.weight) = (R.vertices.map (·.id)).map (fun u => wt (columnOf es u)) := by
    rw [List.map_map]
    apply List.map_congr_left
    intro v hv
    obtain ⟨u, hu, e1, e2, -⟩ := hL.vertices v hv
    rw [Function.comp_apply, ← e2, (hM.columns u hu).2.1, e1]
  have hids := hL.vids
  rw [hM.vids] at hids
  rw [hwt, (hids.map (fun u => wt (columnOf es u))).sum_eq]
  rfl

theorem copies_weight {Rs Cs : List Hypergraph} (hwf : ∀ R ∈ Rs, WF R)
    (hc : Rs.mapM (fun H => H.copy) = .ok Cs) : ∀ C ∈ Cs, ∃ R ∈ Rs, C.vertices = R.vertices := by
  obtain ⟨Cs', h1, h2⟩ := mapM_forall2 (f := fun H : Hypergraph => H.copy)
    (R := fun H C => C.vertices = H.vertices) Rs (by
    intro H hH
    obtain ⟨C, c1, -, c3, -⟩ := copy_ok (hwf H hH)
    exact ⟨C, c1, c3⟩)
  rw [hc] at h1
  obtain rfl := Except.ok.inj h1
  intro C hC
  obtain ⟨R, hR, h⟩ := forall2_mem_right h2 hC
  exact ⟨R, hR, h⟩

/-- Reading, copying and the recursion for C89. -/
theorem random_two_run {M : MainEnv} {opts : Options} {p E V T : Nat} (hb : opts.bisectionRandom = true) (h2 : 2 ≤ p)
    (hp : p ≤ 2 ^ 50) (hE : E < 2147483648) (hc : RunsCode M.recEnv opts p E T) (hM : MainEnvOk M p) (hV : 1 ≤ V) (hT : V < T)
    {es : List (Nat × Nat)} {text : List Char} (hf : GoodFile text E V es) {mode : String} {wt : List Nat → Int}
    (hm : ModeMeans mode wt) {om : Int} (hw : ∀ v < V, 0 < wt (columnOf es v) ∧ wt (columnOf es v) ≤ om)
    {epsilon : ℚ} (heps : 0 ≤ epsilon) {eta : ℚ} (heta : 0 ≤ eta) {W B : Int} (hW : W = matrixWeight V es wt)
    (hB : B = maxWeight nearest53 epsilon W 2) (hWB : W ≤ 2 * B) (hsize : 2 * B + W < 2 ^ 47)
    (hload : ∀ r < p, blockWeight (M.parts V).owner V es wt r + om ≤ 2 * ((B - 1) / p) + 1) :
    ∃ Rs Cs r, readFilePar M.order M.dFree M.dSize M.parts p (some text) mode = .ok (some Rs) ∧
      Rs.mapM (fun H => H.copy) = .ok Cs ∧ Cs.length = p ∧ HoldMatrix E V es wt Cs ∧
      recursiveBisectPar M.recEnv 2 epsilon eta Cs M.rngs = .ok r ∧ Kept E Cs r.Hs ∧
      (∀ H ∈ r.Hs, ∀ v ∈ H.vertices, v.part = 0 ∨ v.part = 1) ∧
      ∀ q : Int, 0 ≤ q → q < 2 → columnsWeight V es wt (labelsOf E r.Hs) q ≤ B := by
  obtain ⟨H0, Rs, a1, b2, a3⟩ := goodFile_partition hM hf hm
  have hR := holdMatrix_read b2 a3
  obtain ⟨Cs, c1, c2, c3⟩ := copies_ok hR
  have hlC : Cs.length = p := by rw [c2]; exact a3.1
  have hw0 : ∀ v < V, 0 < wt (columnOf es v) := fun v hv => (hw v hv).1
  have hlen := holdMatrix_length c3
  have hne : Cs.flatMap (·.vertices) ≠ [] := by intro h; rw [h] at hlen; simp at hlen; omega
  have hpos := holdMatrix_pos c3 hw0
  have hom := holdMatrix_bounded c3 (fun v hv => (hw v hv).2)
  have hWC := holdMatrix_weight c3
  have hfails : CodeFails opts = fun _ => False := by
    funext e
    unfold CodeFails
    rw [hb]
    simp
  have hP := hc.ok hE
  rw [hfails] at hP
  obtain ⟨F, E0, E1, -, -, -, h4, -⟩ := hc.code
  obtain ⟨r, r1, r2, r3, r4⟩ := C85_two (om := om) hb h4 hP hE (by omega) c3.dist hne
    (fun H hH v hv => ⟨hpos H hH v hv, hom H hH v hv⟩) (by omega) (by omega) heps heta
    (rngs := M.rngs) (by rw [hM.rngs, hlC]) (W := W) (M := B) (by rw [hW]; exact hWC.symm) (by rw [hc.rnd]; exact hB)
    (by omega) (by omega) (by
      intro C hC
      obtain ⟨R, hRm, hv⟩ := copies_weight hR.dist.wf c1 C hC
      obtain ⟨r, hr, hs⟩ := partition_blockWeight b2 a3 R hRm
      rw [hv, hs, hlC]
      exact hload r hr)
  refine ⟨Rs, Cs, r, a1, c1, hlC, c3, r1, r2, r3, ?_⟩
  have hF := Spec.Kept.holdMatrix c3 r2
  intro q hq0 hqk
  rw [← holdMatrix_partWeight hF, partWeight_union]
  exact r4 q hq0 hqk

/-- C89: random bisection into two parts on `p` processors, with the lambda metric. `B` is the bound `maxweight`, no
column weighs more than `om`. When the columns of every block and one more fit in two `p`-ths of `B - 1`, then for every
file and all random streams the program gets to the end of the computation, reports the true values, and both
parts weigh at most `B`. -/
theorem C89_two {M : MainEnv} {opts : Options} {p E V T : Nat} (hb : opts.bisectionRandom = true) (h2 : 2 ≤ p)
    (hp : p ≤ 2 ^ 50) (hE : E < 2147483648) (hc : RunsCode M.recEnv opts p E T) (hM : MainEnvOk M p) (hV : 1 ≤ V) (hT : V < T)
    {es : List (Nat × Nat)} {text : List Char} (hf : GoodFile text E V es) {mode : String} {wt : List Nat → Int}
    (hm : ModeMeans mode wt) {om : Int} (hw : ∀ v < V, 0 < wt (columnOf es v) ∧ wt (columnOf es v) ≤ om)
    {epsilon : ℚ} (heps : 0 ≤ epsilon) {eta : ℚ} (heta : 0 ≤ eta) {W B : Int} (hW : W = matrixWeight V es wt)
    (hB : B = maxWeight nearest53 epsilon W 2) (hWB : W ≤ 2 * B) (hsize : 2 * B + W < 2 ^ 47)
    (hload : ∀ r < p, blockWeight (M.parts V).owner V es wt r + om ≤ 2 * ((B - 1) / p) + 1) :
    ∃ o, mainCompute M p 2 epsilon eta (some text) mode = .ok (some o) ∧ Reports p 2 E V es wt o ∧
      ∃ lab : Nat → Int, HoldLabels V lab o.run.Hs ∧ ∀ q : Int, 0 ≤ q → q < 2 → columnsWeight V es wt lab q ≤ B := by
  obtain ⟨Rs, Cs, r, a1, c1, hlC, c3, r1, r2, r3, r4⟩ :=
    random_two_run hb h2 hp hE hc hM hV hT hf hm hw heps heta hW hB hWB hsize hload
  obtain ⟨o, o1, o2, o3⟩ := compute_of_run hM (hc.ok hE).rounds rfl (by omega) (by decide) hV (fun v hv => (hw v hv).1) a1 c1
    hlC c3 r1 r2 (by
      intro K hK v hv
      have := r3 K hK v hv
      omega)
  refine ⟨o, o1, o3, labelsOf E r.Hs, ?_, r4⟩
  rw [o2]
  exact holdLabels (Spec.Kept.holdMatrix c3 r2)

/-- C89, the load balance that the program prints: the same on all processors, at most `ε`, up to rounding. -/
theorem C89_printed {M : MainEnv} {opts : Options} {p E V T : Nat} (hb : opts.bisectionRandom = true) (h2 : 2 ≤ p)
    (hp : p ≤ 2 ^ 50) (hE : E < 2147483648) (hc : RunsCode M.recEnv opts p E T) (hM : MainEnvOk M p) (hV : 1 ≤ V) (hT : V < T)
    {es : List (Nat × Nat)} {text : List Char} (hf : GoodFile text E V es) {mode : String} {wt : List Nat → Int}
    (hm : ModeMeans mode wt) {om : Int} (hw : ∀ v < V, 0 < wt (columnOf es v) ∧ wt (columnOf es v) ≤ om)
    {epsilon : ℚ} (heps : 0 ≤ epsilon) {eta : ℚ} (heta : 0 ≤ eta) {W B : Int} (hW : W = matrixWeight V es wt)
    (hB : B = maxWeight nearest53 epsilon W 2) (hWB : W ≤ 2 * B) (hsize : 2 * B + W < 2 ^ 47)
    (hload : ∀ r < p, blockWeight (M.parts V).owner V es wt r + om ≤ 2 * ((B - 1) / p) + 1) :
    ∃ o e, mainCompute M p 2 epsilon eta (some text) mode = .ok (some o) ∧ o.balance = List.replicate p (some e, false) ∧
      e ≤ epsilon + 16 / 2 ^ 53 * (1 + epsilon) := by
  obtain ⟨o, o1, o2, lab, o3, o4⟩ := C89_two hb h2 hp hE hc hM hV hT hf hm hw heps heta hW hB hWB hsize hload
  have hW0 := matrixWeight_pos hV (fun v hv => (hw v hv).1) hW
  have hBq := (maxWeight_le nearest53_rounds heps hW0.le (by decide : 0 < 2)).2
  rw [← hB] at hBq
  obtain ⟨lab', -, -, h3, -, -, e, h6, h7⟩ := o2
  refine ⟨o, e, o1, h6, reports_epsilon (k := 2) (by decide) h3 h7 heps hW hW0 (le_trans hBq (le_of_eq (by push_cast; ring))) o3 ?_⟩
  intro q h0 h1
  exact o4 q h0 (by simpa using h1)

/-- The blocks that bulk makes have at most `(V - 1) / p + 1` columns. -/
theorem blockPart_length (p V r : Nat) :
    ((List.range V).filter (fun v => (blockPart p V).owner v = r)).length ≤ (V - 1) / p + 1 := by
  show ((List.range V).filter (fun v => v / ((V - 1) / p + 1) = r)).length ≤ (V - 1) / p + 1
  generalize hb : (V - 1) / p + 1 = b
  have hb0 : 0 < b := by rw [← hb]; exact Nat.succ_pos _
  have hnd : ((List.range V).filter (fun v => decide (v / b = r))).Nodup := List.nodup_range.filter _
  have h1 : ((List.range V).filter (fun v => decide (v / b = r))).Subperm (List.range' (r * b) b) := by
    apply List.subperm_of_subset hnd
    intro v hv
    have hv := (List.mem_filter.1 hv).2
    have hv : v / b = r := by simpa using hv
    rw [List.mem_range'_1]
    have e := Nat.div_add_mod v b
    have l := Nat.mod_lt v hb0
    rw [hv, Nat.mul_comm] at e
    omega
  have := h1.length_le
  rwa [List.length_range'] at this

/-- C89 with weights one, and the blocks that bulk makes: both parts have at most `B` columns when `2 B` is at least
the number of columns and two for each processor, plus one. -/
theorem C89_unit {M : MainEnv} {opts : Options} {p E V T : Nat} (hb : opts.bisectionRandom = true) (h2 : 2 ≤ p)
    (hp : p ≤ 2 ^ 50) (hE : E < 2147483648) (hc : RunsCode M.recEnv opts p E T) (hM : MainEnvOk M p)
    (hparts : M.parts V = blockPart p V) (hV : 1 ≤ V) (hT : V < T)
    {es : List (Nat × Nat)} {text : List Char} (hf : GoodFile text E V es)
    {epsilon : ℚ} (heps : 0 ≤ epsilon) {eta : ℚ} (heta : 0 ≤ eta) {B : Int}
    (hB : B = maxWeight nearest53 epsilon V 2) (hsize : 2 * B + V < 2 ^ 47) (hroom : (V : Int) + 2 * p + 1 ≤ 2 * B) :
    ∃ o, mainCompute M p 2 epsilon eta (some text) "one" = .ok (some o) ∧ Reports p 2 E V es (fun _ => 1) o ∧
      ∃ lab : Nat → Int, HoldLabels V lab o.run.Hs ∧ ∀ q : Int, 0 ≤ q → q < 2 →
        (((List.range V).filter (fun v => lab v = q)).length : Int) ≤ B := by
  have hW : (V : Int) = matrixWeight V es (fun _ => 1) := by
    unfold matrixWeight
    simp
  obtain ⟨o, o1, o2, lab, o3, o4⟩ := C89_two (om := 1) hb h2 hp hE hc hM hV hT hf (Or.inl ⟨rfl, rfl⟩)
    (fun _ _ => by decide) heps heta hW hB (by omega) hsize (by
      intro r hr
      have h1 : blockWeight (M.parts V).owner V es (fun _ => 1) r =
          (((List.range V).filter (fun v => (blockPart p V).owner v = r)).length : Int) := by
        unfold blockWeight
        rw [hparts]
        simp
      rw [h1]
      have h3 := blockPart_length p V r
      have h4 : ((((List.range V).filter (fun v => (blockPart p V).owner v = r)).length : Nat) : Int) ≤
          (((V - 1) / p + 1 : Nat) : Int) := by exact_mod_cast h3
      refine le_trans (add_le_add_left h4 _) ?_
      obtain ⟨q, hq⟩ : ∃ q, q = (V - 1) / p := ⟨_, rfl⟩
      have hqp : q * p ≤ V - 1 := by rw [hq]; exact Nat.div_mul_le_self _ _
      rw [← hq]
      have h5 : (((q + 2) / 2 : Nat) : Int) ≤ (B - 1) / p := by
        rw [Int.le_ediv_iff_mul_le (by omega)]
        have h6 : (q + 2) / 2 * 2 ≤ q + 2 := Nat.div_mul_le_self _ _
        have h7 : (q + 2) / 2 * 2 * p ≤ (q + 2) * p := Nat.mul_le_mul_right p h6
        have h8 : (q + 2) * p = q * p + 2 * p := by ring
        have h9 : (q + 2) / 2 * 2 * p = 2 * ((q + 2) / 2 * p) := by ring
        have h10 : (((q + 2) / 2 : Nat) : Int) * (p : Int) = (((q + 2) / 2 * p : Nat) : Int) := by push_cast; ring
        rw [h10]
        omega
      omega)
  refine ⟨o, o1, o2, lab, o3, ?_⟩
  intro q h0 h1
  have := o4 q h0 h1
  unfold columnsWeight at this
  simpa using this

/-- Random bisection. -/
def randomOpts : Options := { exampleOpts with bisectionRandom := true }

/-- Two processors, random bisection. -/
def mainRandom (rngs : Rng × Rng) : MainEnv where
  order := List.reverse
  dFree := revDelivery _
  dSize := revDelivery _
  parts := blockPart 2
  recEnv := plainRecEnv randomOpts 2 3 10
  rngs := [rngs.1, rngs.2]
  setOrder := List.reverse
  dCut := revDelivery _

theorem mainRandom_ok (rngs : Rng × Rng) : MainEnvOk (mainRandom rngs) 2 where
  order := fun l => l.reverse_perm
  dFree := revDelivery_fair _
  dSize := revDelivery_fair _
  parts := fun n => blockPart_valid 2 n (by decide)
  rngs := rfl
  setOrder := fun l => l.reverse_perm
  dCut := revDelivery_fair _

/-- Six columns on two processors, two parts, ε = 7/10: for all random streams no part has more than five columns. -/
example (rngs : Rng × Rng) : ∃ o, mainCompute (mainRandom rngs) 2 2 (7 / 10) 0 (some sixText.toList) "one" = .ok (some o) ∧
    Reports 2 2 3 6 [(1, 1), (1, 6), (3, 2)] (fun _ => 1) o ∧
    ∃ lab : Nat → Int, HoldLabels 6 lab o.run.Hs ∧ ∀ q : Int, 0 ≤ q → q < 2 →
      columnsWeight 6 [(1, 1), (1, 6), (3, 2)] (fun _ => 1) lab q ≤ 5 :=
  C89_two (opts := randomOpts) (T := 10) (om := 1) (W := 6) (B := 5) rfl (le_refl 2) (by decide) (by decide)
    (plainRecEnv_runs randomOpts 3 10 (by decide)) (mainRandom_ok rngs) (by decide) (by decide)
    ⟨by decide, by decide, by unfold EntriesIn; decide, by decide, 3, _, rfl, by decide, Or.inl ⟨sixText_mtx, rfl⟩⟩
    (Or.inl ⟨rfl, rfl⟩) (fun _ _ => by decide) (by norm_num) (by norm_num) (by decide) (by decide +kernel) (by decide)
    (by decide) (by show ∀ r < 2, blockWeight (blockPart 2 6).owner 6 _ _ r + 1 ≤ _; decide)

end PMondriaan

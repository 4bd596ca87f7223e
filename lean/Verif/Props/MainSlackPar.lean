import Verif.Props.MainBalancePar
import Verif.Props.RecSlackPar

/-
Property C93: the main program on several processors with random bisection into any number of parts.
-/

namespace PMondriaan

open Spec

/-- The processors that work alone use the same bisection function. -/
theorem RunsCode.balances {P : ParRecEnv} {opts : Options} {p N T : Nat} (h : RunsCode P opts p N T)
    (hb : opts.bisectionRandom = true) (om : Int) :
    (∀ path, ParBalances (P.bis path) om) ∧ ∀ path, Balances (P.alone path) N T om om := by
  obtain ⟨F, E, E1, -, -, -, h4, h5⟩ := h.code
  constructor
  · rw [h4]; exact codeBis_random_balances E p hb om
  · rw [h5]
    intro path
    have : (fun H m0 m1 s e l rng => bisectOne (E1 path) H { opts with sampleSize := opts.sampleSize / p } m0 m1 s e l
        rng) = bisectRandom := by
      funext H m0 m1 s e l rng
      unfold bisectOne
      rw [if_pos hb]
    show Balances (fun H m0 m1 s e l rng => bisectOne (E1 path) H { opts with sampleSize := opts.sampleSize / p } m0 m1
      s e l rng) N T om om
    rw [this]
    exact bisectRandom_balances N T om

/-- Reading, copying and the recursion for C93. -/
theorem random_run {M : MainEnv} {opts : Options} {p k E V T L : Nat} (hb : opts.bisectionRandom = true) (h2 : 2 ≤ p)
    (hp : p ≤ 2 ^ 50) (hk : 2 ≤ k) (hE : E < 2147483648) (hc : RunsCode M.recEnv opts p E T) (hM : MainEnvOk M p)
    (hV : 1 ≤ V) (hT : V < T)
    {es : List (Nat × Nat)} {text : List Char} (hf : GoodFile text E V es) {mode : String} {wt : List Nat → Int}
    (hm : ModeMeans mode wt) {om : Int} (hw : ∀ v < V, 0 < wt (columnOf es v) ∧ wt (columnOf es v) ≤ om)
    {epsilon : ℚ} (heps : 0 ≤ epsilon) {eta : ℚ} (heta : 0 ≤ eta) (heta1 : eta ≤ 1) {W B R : Int}
    (hW : W = matrixWeight V es wt)
    (hB : B = maxWeight nearest53 epsilon W k) (hL : L = Nat.clog 2 k) (hsize : k * B * L ^ 3 ≤ 2 ^ 46)
    (hR : 2 * eta * B + 2 * p + (p : ℚ) ^ 2 * om ≤ R)
    (hroom : k * (R + 1) * max 1 (2 * ((L : Int) - 1)) ≤ 2 * (k * B - W))
    (htight : (k * B - W) * (L * (L + 1)) ≤ 2 * k * (B - 1))
    (hload : ∀ r < p, 2 * p * (blockWeight (M.parts V).owner V es wt r + om) ≤ 2 * W + k * R) :
    ∃ Rs Cs r, readFilePar M.order M.dFree M.dSize M.parts p (some text) mode = .ok (some Rs) ∧
      Rs.mapM (fun H => H.copy) = .ok Cs ∧ Cs.length = p ∧ HoldMatrix E V es wt Cs ∧
      recursiveBisectPar M.recEnv k epsilon eta Cs M.rngs = .ok r ∧ Kept E Cs r.Hs ∧
      (∀ H ∈ r.Hs, ∀ v ∈ H.vertices, 0 ≤ v.part ∧ v.part < k) ∧
      ∀ q : Int, 0 ≤ q → q < k → columnsWeight V es wt (labelsOf E r.Hs) q ≤ B := by
  obtain ⟨H0, Rs, a1, b2, a3⟩ := goodFile_partition hM hf hm
  have hRd := holdMatrix_read b2 a3
  obtain ⟨Cs, c1, c2, c3⟩ := copies_ok hRd
  have hlC : Cs.length = p := by rw [c2]; exact a3.1
  have hw0 : ∀ v < V, 0 < wt (columnOf es v) := fun v hv => (hw v hv).1
  have hlen := holdMatrix_length c3
  have hpos := holdMatrix_pos c3 hw0
  have hom := holdMatrix_bounded c3 (fun v hv => (hw v hv).2)
  have hWC := holdMatrix_weight c3
  have hfails : CodeFails opts = fun _ => False := by
    funext e
    unfold CodeFails
    rw [hb]
    simp
  have hP := hc.ok hE
  rw [hfails] at hP
  obtain ⟨q1, q2⟩ := hc.balances hb om
  have hom1 : 1 ≤ om := by
    have := hw 0 (by omega)
    omega
  obtain ⟨r, r1, r2, r3, r4, -⟩ := C92_rounds (om := om) hP hE q1 q2 hk (by omega) c3.dist
    (fun H hH v hv => ⟨hpos H hH v hv, hom H hH v hv⟩) hom1 (by omega) (by omega) heps heta heta1
    (rngs := M.rngs) (by rw [hM.rngs, hlC]) (W := W) (M := B) (by rw [hW]; exact hWC.symm) (by rw [hc.rnd]; exact hB)
    hL hsize (by rw [hlC]; exact hR) hroom htight (by
      intro C hC
      obtain ⟨R, hRm, hv⟩ := copies_weight hRd.dist.wf c1 C hC
      obtain ⟨r, hr, hs⟩ := partition_blockWeight b2 a3 R hRm
      rw [hv, hs, hlC]
      exact hload r hr)
  refine ⟨Rs, Cs, r, a1, c1, hlC, c3, r1, r2, r3, ?_⟩
  have hF := Spec.Kept.holdMatrix c3 r2
  intro q hq0 hqk
  rw [← holdMatrix_partWeight hF, partWeight_union]
  exact r4 q hq0 hqk

/-- C93: random bisection into `k` parts on `p ≥ 2` processors, with the lambda metric. `L` is the logarithm of `k`,
rounded up, `B` the bound `maxweight`, no column weighs more than `om`, and `R` is at least `2 η B + 2 p + p² om`. When the
slack `k B - W` is at least `k (R + 1) max(1, 2 (L - 1)) / 2` and not too large, and no block of columns is much heavier than
an equal share, then for every file and all random streams the program gets to the end of the computation, reports the
true values, and every part weighs at most `B`. -/
theorem C93_main {M : MainEnv} {opts : Options} {p k E V T L : Nat} (hb : opts.bisectionRandom = true) (h2 : 2 ≤ p)
    (hp : p ≤ 2 ^ 50) (hk : 2 ≤ k) (hE : E < 2147483648) (hc : RunsCode M.recEnv opts p E T) (hM : MainEnvOk M p)
    (hV : 1 ≤ V) (hT : V < T)
    {es : List (Nat × Nat)} {text : List Char} (hf : GoodFile text E V es) {mode : String} {wt : List Nat → Int}
    (hm : ModeMeans mode wt) {om : Int} (hw : ∀ v < V, 0 < wt (columnOf es v) ∧ wt (columnOf es v) ≤ om)
    {epsilon : ℚ} (heps : 0 ≤ epsilon) {eta : ℚ} (heta : 0 ≤ eta) (heta1 : eta ≤ 1) {W B R : Int}
    (hW : W = matrixWeight V es wt)
    (hB : B = maxWeight nearest53 epsilon W k) (hL : L = Nat.clog 2 k) (hsize : k * B * L ^ 3 ≤ 2 ^ 46)
    (hR : 2 * eta * B + 2 * p + (p : ℚ) ^ 2 * om ≤ R)
    (hroom : k * (R + 1) * max 1 (2 * ((L : Int) - 1)) ≤ 2 * (k * B - W))
    (htight : (k * B - W) * (L * (L + 1)) ≤ 2 * k * (B - 1))
    (hload : ∀ r < p, 2 * p * (blockWeight (M.parts V).owner V es wt r + om) ≤ 2 * W + k * R) :
    ∃ o, mainCompute M p k epsilon eta (some text) mode = .ok (some o) ∧ Reports p k E V es wt o ∧
      ∃ lab : Nat → Int, HoldLabels V lab o.run.Hs ∧ ∀ q : Int, 0 ≤ q → q < k → columnsWeight V es wt lab q ≤ B := by
  obtain ⟨Rs, Cs, r, a1, c1, hlC, c3, r1, r2, r3, r4⟩ :=
    random_run hb h2 hp hk hE hc hM hV hT hf hm hw heps heta heta1 hW hB hL hsize hR hroom htight hload
  obtain ⟨o, o1, o2, o3⟩ := compute_of_run hM (hc.ok hE).rounds rfl (by omega) (by omega) hV (fun v hv => (hw v hv).1) a1 c1
    hlC c3 r1 r2 r3
  refine ⟨o, o1, o3, labelsOf E r.Hs, ?_, r4⟩
  rw [o2]
  exact holdLabels (Spec.Kept.holdMatrix c3 r2)

/-- C93, the load balance that the program prints: the same on all processors, at most `ε`, up to rounding. -/
theorem C93_printed {M : MainEnv} {opts : Options} {p k E V T L : Nat} (hb : opts.bisectionRandom = true) (h2 : 2 ≤ p)
    (hp : p ≤ 2 ^ 50) (hk : 2 ≤ k) (hE : E < 2147483648) (hc : RunsCode M.recEnv opts p E T) (hM : MainEnvOk M p)
    (hV : 1 ≤ V) (hT : V < T)
    {es : List (Nat × Nat)} {text : List Char} (hf : GoodFile text E V es) {mode : String} {wt : List Nat → Int}
    (hm : ModeMeans mode wt) {om : Int} (hw : ∀ v < V, 0 < wt (columnOf es v) ∧ wt (columnOf es v) ≤ om)
    {epsilon : ℚ} (heps : 0 ≤ epsilon) {eta : ℚ} (heta : 0 ≤ eta) (heta1 : eta ≤ 1) {W B R : Int}
    (hW : W = matrixWeight V es wt)
    (hB : B = maxWeight nearest53 epsilon W k) (hL : L = Nat.clog 2 k) (hsize : k * B * L ^ 3 ≤ 2 ^ 46)
    (hR : 2 * eta * B + 2 * p + (p : ℚ) ^ 2 * om ≤ R)
    (hroom : k * (R + 1) * max 1 (2 * ((L : Int) - 1)) ≤ 2 * (k * B - W))
    (htight : (k * B - W) * (L * (L + 1)) ≤ 2 * k * (B - 1))
    (hload : ∀ r < p, 2 * p * (blockWeight (M.parts V).owner V es wt r + om) ≤ 2 * W + k * R) :
    ∃ o e, mainCompute M p k epsilon eta (some text) mode = .ok (some o) ∧ o.balance = List.replicate p (some e, false) ∧
      e ≤ epsilon + 16 / 2 ^ 53 * (1 + epsilon) := by
  obtain ⟨o, o1, o2, lab, o3, o4⟩ := C93_main hb h2 hp hk hE hc hM hV hT hf hm hw heps heta heta1 hW hB hL hsize hR hroom
    htight hload
  have hW0 := matrixWeight_pos hV (fun v hv => (hw v hv).1) hW
  have hBq := (maxWeight_le nearest53_rounds heps hW0.le (by omega : 0 < k)).2
  rw [← hB] at hBq
  obtain ⟨lab', -, -, h3, -, -, e, h6, h7⟩ := o2
  exact ⟨o, e, o1, h6, reports_epsilon (by omega) h3 h7 heps hW hW0 (le_trans hBq (le_of_eq (by ring))) o3 o4⟩

/-- C93 with weights one, and the blocks that bulk makes: then no condition on the loads is needed. -/
theorem C93_unit {M : MainEnv} {opts : Options} {p k E V T L : Nat} (hb : opts.bisectionRandom = true) (h2 : 2 ≤ p)
    (hp : p ≤ 2 ^ 50) (hk : 2 ≤ k) (hE : E < 2147483648) (hc : RunsCode M.recEnv opts p E T) (hM : MainEnvOk M p)
    (hparts : M.parts V = blockPart p V) (hV : 1 ≤ V) (hT : V < T)
    {es : List (Nat × Nat)} {text : List Char} (hf : GoodFile text E V es)
    {epsilon : ℚ} (heps : 0 ≤ epsilon) {eta : ℚ} (heta : 0 ≤ eta) (heta1 : eta ≤ 1) {B R : Int}
    (hB : B = maxWeight nearest53 epsilon V k) (hL : L = Nat.clog 2 k) (hsize : k * B * L ^ 3 ≤ 2 ^ 46)
    (hR : 2 * eta * B + 2 * p + (p : ℚ) ^ 2 ≤ R)
    (hroom : k * (R + 1) * max 1 (2 * ((L : Int) - 1)) ≤ 2 * (k * B - V))
    (htight : (k * B - V) * (L * (L + 1)) ≤ 2 * k * (B - 1)) :
    ∃ o, mainCompute M p k epsilon eta (some text) "one" = .ok (some o) ∧ Reports p k E V es (fun _ => 1) o ∧
      ∃ lab : Nat → Int, HoldLabels V lab o.run.Hs ∧ ∀ q : Int, 0 ≤ q → q < k →
        (((List.range V).filter (fun v => lab v = q)).length : Int) ≤ B := by
  have hW : (V : Int) = matrixWeight V es (fun _ => 1) := by
    unfold matrixWeight
    simp
  have hB0 : 0 ≤ B := by
    rw [hB]
    exact (maxWeight_le nearest53_rounds heps (by omega) (by omega : 0 < k)).1
  obtain ⟨o, o1, o2, lab, o3, o4⟩ := C93_main (om := 1) hb h2 hp hk hE hc hM hV hT hf (Or.inl ⟨rfl, rfl⟩)
    (fun _ _ => by decide) heps heta heta1 hW hB hL hsize (by push_cast; linarith) hroom htight (by
      intro r hr
      have h1 : blockWeight (M.parts V).owner V es (fun _ => 1) r =
          (((List.range V).filter (fun v => (blockPart p V).owner v = r)).length : Int) := by
        unfold blockWeight
        rw [hparts]
        simp
      rw [h1]
      have h3 := blockPart_length p V r
      have h4 : p * ((List.range V).filter (fun v => (blockPart p V).owner v = r)).length ≤ p * ((V - 1) / p + 1) :=
        Nat.mul_le_mul_left p h3
      have h5 : p * ((V - 1) / p) ≤ V - 1 := Nat.mul_div_le _ _
      have h6 : p * ((V - 1) / p + 1) = p * ((V - 1) / p) + p := by ring
      have h7 : p * ((List.range V).filter (fun v => (blockPart p V).owner v = r)).length ≤ V + p := by omega
      have h8 : (p : Int) * (((List.range V).filter (fun v => (blockPart p V).owner v = r)).length : Int) ≤ V + p := by
        exact_mod_cast h7
      have h9 : (2 * p : Int) ≤ R := by
        have h10 : ((2 * p : Int) : ℚ) ≤ (R : ℚ) := by
          refine le_trans ?_ hR
          have : (0 : ℚ) ≤ B := by exact_mod_cast hB0
          have : 0 ≤ 2 * eta * (B : ℚ) := by positivity
          have : (0 : ℚ) ≤ (p : ℚ) ^ 2 := by positivity
          push_cast
          linarith
        exact_mod_cast h10
      have h11 : 2 * R ≤ k * R := mul_le_mul_of_nonneg_right (by exact_mod_cast hk) (by omega)
      have h12 : 2 * (p : Int) * ((((List.range V).filter (fun v => (blockPart p V).owner v = r)).length : Int) + 1) =
        2 * ((p : Int) * (((List.range V).filter (fun v => (blockPart p V).owner v = r)).length : Int)) + 2 * p := by ring
      omega)
  refine ⟨o, o1, o2, lab, o3, ?_⟩
  intro q h0 h1
  have := o4 q h0 h1
  unfold columnsWeight at this
  simpa using this

/-- A file of a 3 by 200 matrix. -/
def wideText : String := "%%MatrixMarket matrix coordinate real general\n3 200 3\n1 1 1\n1 6 1\n3 2 1"

theorem wideText_mtx : MtxText wideText.toList "general".toList 3 200 3 [(1, 1), (1, 6), (3, 2)] := by
  refine ⟨"%%MatrixMarket matrix coordinate real general".toList, [],
    "3 200 3".toList, ["1 1 1".toList, "1 6 1".toList], "3 2 1".toList, ?_, ?_, ?_, ?_, ?_⟩
  · refine ⟨by unfold Word; decide, [], "%%MatrixMarket".toList, [' '], "matrix".toList, [' '], "coordinate".toList, [' '],
      "real".toList, [' '], [], by unfold Blank; decide, by unfold Word; decide, by unfold Blank; decide, by decide,
      by unfold Word; decide, by unfold Blank; decide, by decide, by unfold Word; decide, by unfold Blank; decide, by decide,
      by unfold Word; decide, by unfold Blank; decide, by decide, by decide, ?_, by decide⟩
    rintro c r h; cases h
  · intro c hc; cases hc
  · refine ⟨by decide, by decide, by decide, [], ['3'], [' '], ['2', '0', '0'], [' '], ['3'], [], by unfold Blank; decide,
      .one (i := 3) (by decide), by unfold Blank; decide, by decide, .snoc (i := 0) (.snoc (i := 0) (.one (i := 2) (by decide)) (by decide)) (by decide), by unfold Blank; decide,
      by decide, .one (i := 3) (by decide), ⟨by decide, ?_⟩, by decide⟩
    rintro c r h; cases h
  · refine .cons ?_ (.cons ?_ (.cons ?_ .nil))
    · refine ⟨by decide, by decide, [], ['1'], [' '], ['1'], " 1".toList, by unfold Blank; decide,
        .one (i := 1) (by decide), by unfold Blank; decide, by decide, .one (i := 1) (by decide), ⟨by decide, ?_⟩, by decide⟩
      rintro c r h; cases h; decide
    · refine ⟨by decide, by decide, [], ['1'], [' '], ['6'], " 1".toList, by unfold Blank; decide,
        .one (i := 1) (by decide), by unfold Blank; decide, by decide, .one (i := 6) (by decide), ⟨by decide, ?_⟩, by decide⟩
      rintro c r h; cases h; decide
    · refine ⟨by decide, by decide, [], ['3'], [' '], ['2'], " 1".toList, by unfold Blank; decide,
        .one (i := 3) (by decide), by unfold Blank; decide, by decide, .one (i := 2) (by decide), ⟨by decide, ?_⟩, by decide⟩
      rintro c r h; cases h; decide
  · decide +kernel

/-- Two processors, random bisection, up to 200 columns. -/
def mainWide (rngs : Rng × Rng) : MainEnv := { mainRandom rngs with recEnv := plainRecEnv randomOpts 2 3 201 }

theorem mainWide_ok (rngs : Rng × Rng) : MainEnvOk (mainWide rngs) 2 where
  order := fun l => l.reverse_perm
  dFree := revDelivery_fair _
  dSize := revDelivery_fair _
  parts := fun n => blockPart_valid 2 n (by decide)
  rngs := rfl
  setOrder := fun l => l.reverse_perm
  dCut := revDelivery_fair _

/-- 200 columns on two processors, four parts, ε = 0.49 and η = 0.1, the default: for all random streams no part has more
than 74 columns. -/
example (rngs : Rng × Rng) : ∃ o, mainCompute (mainWide rngs) 2 4 (49 / 100) (1 / 10) (some wideText.toList) "one" =
      .ok (some o) ∧ Reports 2 4 3 200 [(1, 1), (1, 6), (3, 2)] (fun _ => 1) o ∧
    ∃ lab : Nat → Int, HoldLabels 200 lab o.run.Hs ∧ ∀ q : Int, 0 ≤ q → q < (4 : Nat) →
      (((List.range 200).filter (fun v => lab v = q)).length : Int) ≤ 74 :=
  C93_unit (opts := randomOpts) (T := 201) (L := 2) (R := 23) rfl (le_refl 2) (by decide) (by decide) (by decide)
    (plainRecEnv_runs randomOpts 3 201 (by decide)) (mainWide_ok rngs) rfl (by decide) (by decide)
    ⟨by decide, by decide, by unfold EntriesIn; decide, by decide, 3, _, rfl, by decide, Or.inl ⟨wideText_mtx, rfl⟩⟩
    (by norm_num) (by norm_num) (by norm_num) (by decide +kernel) (by decide) (by decide) (by norm_num) (by decide)
    (by decide)

end PMondriaan

import Verif.Props.Main
import Verif.Props.MlBalance
import Verif.Props.MainCut
import Verif.Props.RecCutOne

/-
Property C86: the main program on one processor, with enough slack.
-/

namespace PMondriaan

open Spec

/-- The weights in memory are those of the columns. -/
theorem holdMatrix_bounded {E V : Nat} {es : List (Nat × Nat)} {wt : List Nat → Int} {Hs : List Hypergraph}
    (h : HoldMatrix E V es wt Hs) {om : Int} (hw : ∀ v < V, wt (columnOf es v) ≤ om) :
    ∀ H ∈ Hs, ∀ v ∈ H.vertices, v.weight ≤ om := by
  intro H hH v hv
  have h1 : (v.id, v.weight) ∈ (Hs.flatMap (·.vertices)).map (fun v => (v.id, v.weight)) :=
    List.mem_map.2 ⟨v, List.mem_flatMap.2 ⟨H, hH, hv⟩, rfl⟩
  rw [h.verts.mem_iff] at h1
  obtain ⟨u, hu, he⟩ := List.mem_map.1 h1
  simp only [Prod.mk.injEq] at he
  rw [← he.2]
  exact hw u (List.mem_range.1 hu)

/-- What one processor holds is small enough for the bisection functions. -/
theorem holdMatrix_fit {E V T : Nat} {es : List (Nat × Nat)} {wt : List Nat → Int} {H : Hypergraph}
    (h : HoldMatrix E V es wt [H]) (hE : E < 2147483648) (hT : V < T) (hw : ∀ v < V, 0 < wt (columnOf es v)) :
    Fit E T H := by
  have hwf := h.dist.wf H (by simp)
  have hids := h.dist.ids H (by simp)
  have hlen := holdMatrix_length h
  refine ⟨hwf, hids, ?_, holdMatrix_pos h hw H (by simp), ?_⟩
  · have h1 : (H.nets.map (·.id)).Subperm (List.range E) := by
      apply List.subperm_of_subset hwf.nids
      intro e he
      obtain ⟨n, hn, rfl⟩ := List.mem_map.1 he
      exact List.mem_range.2 (hids n hn)
    have := h1.length_le
    rw [List.length_map, List.length_range] at this
    omega
  · simp only [List.flatMap_cons, List.flatMap_nil, List.append_nil] at hlen
    omega

/-- C86: on one processor, with the lambda metric, random or multilevel bisection and all options. `L` is the logarithm
of `k`, rounded up, `B` the bound `maxweight`, no column weighs more than `om`. When the slack `k B - W` leaves room
for one more column in each of the `L` levels, and is not too large, then for every file and every random stream
the program gets to the end of the computation, reports the true values, and every part weighs at most `B`. -/
theorem C86_one {M : MainEnv} {opts : Options} {k E V T L : Nat} (hE : E < 2147483648)
    (hc : RunsCode M.recEnv opts 1 E T) (hM : MainEnvOk M 1) (hk : 2 ≤ k) (hV : 1 ≤ V) (hT : V < T)
    {es : List (Nat × Nat)} {text : List Char} (hf : GoodFile text E V es) {mode : String} {wt : List Nat → Int}
    (hm : ModeMeans mode wt) {om : Int} (hw : ∀ v < V, 0 < wt (columnOf es v) ∧ wt (columnOf es v) ≤ om)
    {epsilon : ℚ} (heps : 0 ≤ epsilon) (eta : ℚ) {W B : Int} (hW : W = matrixWeight V es wt)
    (hB : B = maxWeight nearest53 epsilon W k) (hL : L = Nat.clog 2 k) (hsize : k * B * L ^ 3 ≤ 2 ^ 46)
    (hroom : k * (om + 1) * L ≤ k * B - W) (htight : (k * B - W) * (L * (L + 1)) ≤ 2 * k * (B - 1)) :
    ∃ o, mainCompute M 1 k epsilon eta (some text) mode = .ok (some o) ∧ Reports 1 k E V es wt o ∧
      ∃ lab : Nat → Int, HoldLabels V lab o.run.Hs ∧ ∀ q : Int, 0 ≤ q → q < k → columnsWeight V es wt lab q ≤ B := by
  obtain ⟨Rs, a1, a2, a3⟩ := goodFile_read hM hf hm
  obtain ⟨Cs, c1, c2, c3⟩ := copies_ok a3
  obtain ⟨H, hH⟩ : ∃ H, Cs = [H] := List.length_eq_one_iff.1 (by omega)
  obtain ⟨g, hg⟩ : ∃ g, M.rngs = [g] := List.length_eq_one_iff.1 hM.rngs
  subst hH
  have hw0 : ∀ v < V, 0 < wt (columnOf es v) := fun v hv => (hw v hv).1
  have hfit := holdMatrix_fit c3 hE hT hw0
  have hom : 0 ≤ om := by
    have := hw 0 (by omega)
    omega
  have hWH : H.totalWeight = W := by
    rw [hW, ← holdMatrix_weight c3, totalWeight_eq]
    simp
  obtain ⟨F, E0, E1, -, h2, h3, -, h5⟩ := hc.code
  have hd1 : Fair (M.recEnv.recEnv []).d1 := fun _ _ => .refl _
  have hd2 : Fair (M.recEnv.recEnv []).d2 := fun _ _ => .refl _
  have hbis : (M.recEnv.recEnv []).bis = fun H m0 m1 s e l rng =>
      bisectOne (E1 []) H { opts with sampleSize := opts.sampleSize / 1 } m0 m1 s e l rng := by
    show M.recEnv.alone [] = _
    rw [h5]
  have hrnd : (M.recEnv.recEnv []).rnd = nearest53 := hc.rnd
  obtain ⟨s, s1, s2, s3⟩ := C83_double (h2 []) hbis hd1 hd2 hk (by rw [h3]; exact hfit)
    (holdMatrix_bounded c3 (fun v hv => (hw v hv).2) H (by simp)) hom (fun h => nomatch h) heps g
    (by rw [hrnd]; exact nearest53_rounds) hL (by rw [hrnd, hWH]; exact hB) hsize (by rw [hWH]; exact hroom)
    (by rw [hWH]; exact htight)
  have s4 : WF s.H ∧ s.H.nets = H.nets := by
    rcases C38_partial (P := M.recEnv.recEnv []) ((hc.ok hE).alone []) hd1 hd2 hk hfit (fun h => nomatch h) epsilon g with
      h | ⟨s', t1, -, t2⟩
    · rw [s1] at h; cases h
    · rw [s1] at t1
      obtain rfl := Except.ok.inj t1
      exact t2 rfl
  have r1 : recursiveBisectPar M.recEnv k epsilon eta [H] M.rngs = .ok ⟨[s.H], [], s.calls⟩ := by
    rw [hg, C61_one_processor _ (by omega), s1]
    rfl
  have r2 : Kept E [H] [s.H] := kept_local c3.dist (.cons ⟨s4.1, s4.2, s2.verts, s2.sizes⟩ .nil)
  obtain ⟨o, o1, o2, o3⟩ := compute_of_run hM (by rw [hc.rnd]; exact nearest53_rounds) rfl (le_refl 1) (by omega) hV hw0 a1
    c1 rfl c3 r1 r2 (by
      intro K hK v hv
      simp only [List.mem_singleton] at hK
      subst hK
      exact s2.parts v hv)
  refine ⟨o, o1, o3, ?_⟩
  have hF := Spec.Kept.holdMatrix c3 r2
  rw [o2]
  refine ⟨labelsOf E [s.H], holdLabels hF, ?_⟩
  intro q hq0 hqk
  rw [← holdMatrix_partWeight hF, partWeight_union]
  simpa using s3 q hq0 hqk

theorem copies_nonempty {Rs Cs : List Hypergraph} (hwf : ∀ R ∈ Rs, WF R) (h : ∀ R ∈ Rs, ∀ n ∈ R.nets, n.vertices ≠ [])
    (hc : Rs.mapM (fun H => H.copy) = .ok Cs) : ∀ C ∈ Cs, ∀ n ∈ C.nets, n.vertices ≠ [] := by
  obtain ⟨Cs', h1, h2⟩ := mapM_forall2 (f := fun H : Hypergraph => H.copy)
    (R := fun H C => (∀ n ∈ H.nets, n.vertices ≠ []) ∧ List.Forall₂ (fun n n' : Net => n'.vertices.Perm n.vertices)
      H.nets C.nets) Rs (by
    intro H hH
    obtain ⟨C, c1, -, -, -, -, -, -, c6⟩ := copy_ok (hwf H hH)
    exact ⟨C, c1, h H hH, c6.imp fun _ _ h => h.2.2.2⟩)
  rw [hc] at h1
  obtain rfl := Except.ok.inj h1
  intro C hC n hn he
  obtain ⟨R, -, hR, hx⟩ := forall2_mem_right h2 hC
  obtain ⟨m, hm, hp⟩ := forall2_mem_right hx hn
  rw [he] at hp
  exact hR m hm hp.nil_eq.symm

/-- C86 with the cut-net metric: the same conditions. The net ids that a processor sends itself arrive in an
order that depends on what is sent, but not on when. -/
theorem C86_cut {M : MainEnv} {C : CutEnv} {d : Delivery Nat} {opts : Options} {k E V T L : Nat} (hE : E < 2147483648)
    (hc : RunsCode M.recEnv opts 1 E T) (hM : MainEnvOk M 1) (hC : C.dIds = fun _ => d) (hd : Fair d) (hpins : Fair C.dPins)
    (hk : 2 ≤ k) (hV : 1 ≤ V) (hT : V < T)
    {es : List (Nat × Nat)} {text : List Char} (hf : GoodFile text E V es) {mode : String} {wt : List Nat → Int}
    (hm : ModeMeans mode wt) {om : Int} (hw : ∀ v < V, 0 < wt (columnOf es v) ∧ wt (columnOf es v) ≤ om)
    {epsilon : ℚ} (heps : 0 ≤ epsilon) {eta : ℚ} (heta : 0 ≤ eta) {W B : Int} (hW : W = matrixWeight V es wt)
    (hW53 : W < 2 ^ 53)
    (hB : B = maxWeight nearest53 epsilon W k) (hL : L = Nat.clog 2 k) (hsize : k * B * L ^ 3 ≤ 2 ^ 46)
    (hroom : k * (om + 1) * L ≤ k * B - W) (htight : (k * B - W) * (L * (L + 1)) ≤ 2 * k * (B - 1)) :
    ∃ o, mainComputeCut M C 1 k epsilon eta (some text) mode = .ok (some o) ∧ ReportsCut 1 k E V es wt o ∧
      ∃ lab : Nat → Int, HoldLabels V lab o.Hs ∧ ∀ q : Int, 0 ≤ q → q < k → columnsWeight V es wt lab q ≤ B := by
  obtain ⟨Rs, a1, a2, a3, a4⟩ := goodFile_read_nets hM hf hm
  obtain ⟨Cs, c1, c2, c3⟩ := copies_ok a3
  have c4 := copies_nonempty a3.dist.wf a4 c1
  obtain ⟨H, hH⟩ : ∃ H, Cs = [H] := List.length_eq_one_iff.1 (by omega)
  obtain ⟨g, hg⟩ : ∃ g, M.rngs = [g] := List.length_eq_one_iff.1 hM.rngs
  subst hH
  have hw0 : ∀ v < V, 0 < wt (columnOf es v) := fun v hv => (hw v hv).1
  have hfit := holdMatrix_fit c3 hE hT hw0
  have hom : 0 ≤ om := by
    have := hw 0 (by omega)
    omega
  have hWC := holdMatrix_weight c3
  have hWH : H.totalWeight = W := by
    rw [hW, ← hWC, totalWeight_eq]
    simp
  obtain ⟨F, E0, E1, -, h2, h3, -, h5⟩ := hc.code
  have hbis : (M.recEnv.cutEnv [] d C.dPins).bis = fun H m0 m1 s e l rng =>
      bisectOne (E1 []) H { opts with sampleSize := opts.sampleSize / 1 } m0 m1 s e l rng := by
    show M.recEnv.alone [] = _
    rw [h5]
  have hrnd : (M.recEnv.cutEnv [] d C.dPins).rnd = nearest53 := hc.rnd
  obtain ⟨s, s1, s2, s3⟩ := C83_double (P := M.recEnv.cutEnv [] d C.dPins) (h2 []) hbis hd hpins hk
    (by rw [h3]; exact hfit)
    (holdMatrix_bounded c3 (fun v hv => (hw v hv).2) H (by simp)) hom (fun _ => c4 H (by simp)) heps g
    (by rw [hrnd]; exact nearest53_rounds) hL (by rw [hrnd, hWH]; exact hB) hsize (by rw [hWH]; exact hroom)
    (by rw [hWH]; exact htight)
  have r1 : recursiveBisectCut M.recEnv C k epsilon eta [H] M.rngs = .ok [s.H] := by
    rw [hg, C77_one_processor _ _ d hC (by omega), s1]
    rfl
  rcases C77_partial (hc.ok hE) (C := C) (by rw [hC]; exact fun _ => hd) hpins hE hk (by simp) c3.dist
    (holdMatrix_pos c3 hw0) (by rw [holdMatrix_length c3]; exact hT) (by rw [hWC, ← hW]; exact hW53) (by simp) epsilon
    heta (rngs := M.rngs) (by rw [hM.rngs]; rfl) with ⟨r, t1, t2, t3⟩ | ⟨e, t1, -⟩
  swap
  · rw [r1] at t1; cases t1
  rw [r1] at t1
  obtain rfl := Except.ok.inj t1
  obtain ⟨o, o1, o2, o3⟩ := compute_of_runCut hM (by rw [hc.rnd]; exact nearest53_rounds) (le_refl 1) hk hV hw0 a1 c1 rfl c3
    r1 t2 t3
  refine ⟨o, o1, o3, ?_⟩
  have hF := holdMatrix_returned c3 t2
  rw [o2]
  refine ⟨labelsOf E ([s.H].map relist), relist_holdLabels (holdLabels hF), ?_⟩
  intro q hq0 hqk
  rw [← holdMatrix_partWeight hF, partWeight_union]
  have h6 : Spec.partWeight (relist s.H) q = Spec.partWeight s.H q := by
    unfold Spec.partWeight relist
    simp only [List.filter_map, List.map_map, Function.comp_def]
    rfl
  simpa [h6] using s3 q hq0 hqk

theorem holdLabels_unique {V : Nat} {lab lab' : Nat → Int} {Hs : List Hypergraph} (h : HoldLabels V lab Hs)
    (h' : HoldLabels V lab' Hs) {v : Nat} (hv : v < V) : lab v = lab' v := by
  have h1 : (v, lab v) ∈ (List.range V).map (fun v => (v, lab v)) := List.mem_map.2 ⟨v, List.mem_range.2 hv, rfl⟩
  unfold HoldLabels at h h'
  rw [← h.mem_iff, h'.mem_iff] at h1
  obtain ⟨u, -, he⟩ := List.mem_map.1 h1
  simp only [Prod.mk.injEq] at he
  rw [← he.2, he.1]

theorem columnsWeight_congr {V : Nat} {es : List (Nat × Nat)} {wt : List Nat → Int} {lab lab' : Nat → Int}
    (h : ∀ v < V, lab v = lab' v) (q : Int) : columnsWeight V es wt lab q = columnsWeight V es wt lab' q := by
  unfold columnsWeight
  congr 2
  apply List.filter_congr
  intro v hv
  rw [h v (List.mem_range.1 hv)]

/-- A true report of a balanced partitioning: the load balance printed is at most `ε`, up to rounding. -/
theorem reports_epsilon {k V : Nat} {es : List (Nat × Nat)} {wt : List Nat → Int} {Hs : List Hypergraph} {e : ℚ}
    {lab' : Nat → Int} (hk : 1 ≤ k) (h3 : HoldLabels V lab' Hs)
    (h : TrueImbalance (1 / 2 ^ 53) k (fun q => columnsWeight V es wt lab' q) (matrixWeight V es wt) e)
    {epsilon : ℚ} (heps : 0 ≤ epsilon) {W B : Int} (hW : W = matrixWeight V es wt)
    (hW0 : 0 < W) (hB : (B : ℚ) ≤ (1 + 8 / 2 ^ 53) * ((1 + epsilon) * W / k)) {lab : Nat → Int}
    (hl : HoldLabels V lab Hs)
    (hb : ∀ q : Int, 0 ≤ q → q < k → columnsWeight V es wt lab q ≤ B) :
    e ≤ epsilon + 16 / 2 ^ 53 * (1 + epsilon) := by
  obtain ⟨q, hq, -, h8⟩ := h
  dsimp only at h8
  rw [← columnsWeight_congr (lab := lab) (lab' := lab') (fun v hv => holdLabels_unique hl h3 hv)] at h8
  have hwB : ((columnsWeight V es wt lab q : Int) : ℚ) ≤ B := by
    exact_mod_cast hb q (by omega) (by exact_mod_cast hq)
  rw [← hW] at h8
  have hWq : (0 : ℚ) < W := by exact_mod_cast hW0
  have hkq : (0 : ℚ) < k := by exact_mod_cast hk
  have hx : ((columnsWeight V es wt lab q : Int) : ℚ) * k / W ≤ (1 + 8 / 2 ^ 53) * (1 + epsilon) := by
    rw [div_le_iff₀ hWq]
    calc ((columnsWeight V es wt lab q : Int) : ℚ) * k ≤ ((1 + 8 / 2 ^ 53) * ((1 + epsilon) * W / k)) * k := by
          gcongr
          linarith
      _ = (1 + 8 / 2 ^ 53) * (1 + epsilon) * W := by field_simp
  have h9 := (abs_le.1 h8).2
  have h10 : (1 / 2 ^ 53 : ℚ) * (6 * (((columnsWeight V es wt lab q : Int) : ℚ) * k / W) + 1) ≤
      1 / 2 ^ 53 * (6 * ((1 + 8 / 2 ^ 53) * (1 + epsilon)) + 1) := by gcongr
  have h11 : (1 / 2 ^ 53 : ℚ) * (6 * ((1 + 8 / 2 ^ 53) * (1 + epsilon)) + 1) ≤ 8 / 2 ^ 53 * (1 + epsilon) := by
    nlinarith
  nlinarith

theorem matrixWeight_pos {V : Nat} {es : List (Nat × Nat)} {wt : List Nat → Int} (hV : 1 ≤ V)
    (hw : ∀ v < V, 0 < wt (columnOf es v)) {W : Int} (hW : W = matrixWeight V es wt) : 0 < W := by
  rw [hW]
  unfold matrixWeight
  apply List.sum_pos
  · intro x hx
    obtain ⟨v, hv, rfl⟩ := List.mem_map.1 hx
    exact hw v (List.mem_range.1 hv)
  · intro h
    rw [List.map_eq_nil_iff, List.range_eq_nil] at h
    omega

/-- C86, the load balance that the program prints: at most `ε`, up to rounding. -/
theorem C86_printed {M : MainEnv} {opts : Options} {k E V T L : Nat} (hE : E < 2147483648)
    (hc : RunsCode M.recEnv opts 1 E T) (hM : MainEnvOk M 1) (hk : 2 ≤ k) (hV : 1 ≤ V) (hT : V < T)
    {es : List (Nat × Nat)} {text : List Char} (hf : GoodFile text E V es) {mode : String} {wt : List Nat → Int}
    (hm : ModeMeans mode wt) {om : Int} (hw : ∀ v < V, 0 < wt (columnOf es v) ∧ wt (columnOf es v) ≤ om)
    {epsilon : ℚ} (heps : 0 ≤ epsilon) (eta : ℚ) {W B : Int} (hW : W = matrixWeight V es wt)
    (hB : B = maxWeight nearest53 epsilon W k) (hL : L = Nat.clog 2 k) (hsize : k * B * L ^ 3 ≤ 2 ^ 46)
    (hroom : k * (om + 1) * L ≤ k * B - W) (htight : (k * B - W) * (L * (L + 1)) ≤ 2 * k * (B - 1)) :
    ∃ o e, mainCompute M 1 k epsilon eta (some text) mode = .ok (some o) ∧ o.balance = [(some e, false)] ∧
      e ≤ epsilon + 16 / 2 ^ 53 * (1 + epsilon) := by
  obtain ⟨o, o1, o2, lab, o3, o4⟩ := C86_one hE hc hM hk hV hT hf hm hw heps eta hW hB hL hsize hroom htight
  have hW0 := matrixWeight_pos hV (fun v hv => (hw v hv).1) hW
  have hBq := (maxWeight_le nearest53_rounds heps hW0.le (by omega : 0 < k)).2
  rw [← hB] at hBq
  obtain ⟨lab', -, -, h3, -, -, e, h6, h7⟩ := o2
  exact ⟨o, e, o1, h6, reports_epsilon (by omega) h3 h7 heps hW hW0 (le_trans hBq (le_of_eq (by ring))) o3 o4⟩

/-- The same with the cut-net metric. -/
theorem C86_cut_printed {M : MainEnv} {C : CutEnv} {d : Delivery Nat} {opts : Options} {k E V T L : Nat}
    (hE : E < 2147483648)
    (hc : RunsCode M.recEnv opts 1 E T) (hM : MainEnvOk M 1) (hC : C.dIds = fun _ => d) (hd : Fair d) (hpins : Fair C.dPins)
    (hk : 2 ≤ k) (hV : 1 ≤ V) (hT : V < T)
    {es : List (Nat × Nat)} {text : List Char} (hf : GoodFile text E V es) {mode : String} {wt : List Nat → Int}
    (hm : ModeMeans mode wt) {om : Int} (hw : ∀ v < V, 0 < wt (columnOf es v) ∧ wt (columnOf es v) ≤ om)
    {epsilon : ℚ} (heps : 0 ≤ epsilon) {eta : ℚ} (heta : 0 ≤ eta) {W B : Int} (hW : W = matrixWeight V es wt)
    (hW53 : W < 2 ^ 53)
    (hB : B = maxWeight nearest53 epsilon W k) (hL : L = Nat.clog 2 k) (hsize : k * B * L ^ 3 ≤ 2 ^ 46)
    (hroom : k * (om + 1) * L ≤ k * B - W) (htight : (k * B - W) * (L * (L + 1)) ≤ 2 * k * (B - 1)) :
    ∃ o e, mainComputeCut M C 1 k epsilon eta (some text) mode = .ok (some o) ∧ o.balance = [(some e, false)] ∧
      e ≤ epsilon + 16 / 2 ^ 53 * (1 + epsilon) := by
  obtain ⟨o, o1, o2, lab, o3, o4⟩ :=
    C86_cut hE hc hM hC hd hpins hk hV hT hf hm hw heps heta hW hW53 hB hL hsize hroom htight
  have hW0 := matrixWeight_pos hV (fun v hv => (hw v hv).1) hW
  have hBq := (maxWeight_le nearest53_rounds heps hW0.le (by omega : 0 < k)).2
  rw [← hB] at hBq
  obtain ⟨lab', -, -, h3, -, -, -, e, h6, h7⟩ := o2
  exact ⟨o, e, o1, h6, reports_epsilon (by omega) h3 h7 heps hW hW0 (le_trans hBq (le_of_eq (by ring))) o3 o4⟩

/-- An environment of the bisection for every number `q` of processors: messages arrive in reverse, nothing else is
rearranged. -/
def plainParEnv (q N T : Nat) : ParBisectEnv Nat where
  coarse := fun _ => { exampleCoarseEnv with
    accRandom := fun d left size => decide (d % 11 * size ≤ left * 10), np := blockPart q N }
  uncoarse := fun _ => { exampleUncoarse with refine := { parEnv N with np := blockPart q N }, rounds := T, fuel := T }
  seq := fun _ => { exampleEnv N with fuel := T }
  dVert := revDelivery _
  dCost := revDelivery _
  dLabel := revDelivery _
  dCut := revDelivery _
  ratio := fun a b => decide (a < 20 * (a - b))
  orderNets := id
  d1 := revDelivery _
  d2 := revDelivery _
  np := blockPart q N
  srt := sortDesc

theorem plainParEnv_ok (q N T : Nat) (hq : 0 < q) : ParBisectEnvOk (plainParEnv q N T) q N T where
  coarse := fun _ => ⟨fun _ _ => .refl _, fun _ => .refl _, fun _ _ => .refl _, fun _ l => l.reverse_perm,
    revDelivery_fair _, revDelivery_fair _, revDelivery_fair _, revDelivery_fair _,
    revDelivery_fair _, revDelivery_fair _, blockPart_valid q N hq⟩
  accRandom := by
    intro _ d s hs
    apply decide_eq_true
    have : d % 11 ≤ 10 := by omega
    rw [Nat.mul_comm s 10]
    exact Nat.mul_le_mul_right s this
  uncoarse := fun _ => ⟨sortDesc_perm, revDelivery_fair _, revDelivery_fair _,
    ⟨(parEnv_fair N).so, (parEnv_fair N).cut, (parEnv_fair N).cost, (parEnv_fair N).proc, (parEnv_fair N).pass⟩,
    blockPart_valid q N hq⟩
  fuel := fun _ => Nat.le_refl T
  rounds := fun _ => Nat.le_refl T
  seq := fun _ => ⟨fun _ l => .refl l, fun l => .refl l, fun l => .refl l, fun l => .refl l,
    fun _ l => .refl l, fun _ l => .refl l, blockPart_valid 1 N (by decide)⟩
  seqFuel := fun _ => Nat.le_refl T
  dVert := revDelivery_fair _
  dCost := revDelivery_fair _
  dLabel := revDelivery_fair _
  dCut := revDelivery_fair _
  orderNets := fun l => .refl l
  d1 := revDelivery_fair _
  d2 := revDelivery_fair _
  np := blockPart_valid q N hq
  srt := sortDesc_perm

/-- An environment of the program with the options `opts` on `p` processors. -/
def plainRecEnv (opts : Options) (p N T : Nat) : ParRecEnv where
  rnd := nearest53
  bis := codeBis (fun _ q => plainParEnv q N T) opts p
  alone := fun _ H m0 m1 s e l rng =>
    bisectOne { exampleEnv N with fuel := T } H { opts with sampleSize := opts.sampleSize / p } m0 m1 s e l rng
  ord := fun _ l => l.reverse
  dVert := fun _ => revDelivery _
  dCost := fun _ => revDelivery _

/-- The assumption of C70 and C79 on the environment can be met, for all options. -/
theorem plainRecEnv_runs (opts : Options) {p : Nat} (N T : Nat) (h : opts.samplingLp = true → 1 ≤ opts.sampleSize / p) :
    RunsCode (plainRecEnv opts p N T) opts p N T where
  rnd := rfl
  sample := h
  code := ⟨Nat, fun _ q => plainParEnv q N T, fun _ => { exampleEnv N with fuel := T },
    fun _ q hq => plainParEnv_ok q N T (by omega),
    fun _ => ⟨fun _ l => .refl l, fun l => .refl l, fun l => .refl l, fun l => .refl l,
      fun _ l => .refl l, fun _ l => .refl l, blockPart_valid 1 N (by decide)⟩, fun _ => rfl, rfl, rfl⟩
  ord := fun _ l => l.reverse_perm
  dVert := fun _ => revDelivery_fair _
  dCost := fun _ => revDelivery_fair _

/-- One processor, multilevel bisection. -/
def mainOne (rng : Rng) : MainEnv where
  order := List.reverse
  dFree := revDelivery _
  dSize := revDelivery _
  parts := blockPart 1
  recEnv := plainRecEnv exampleOpts 1 3 10
  rngs := [rng]
  setOrder := List.reverse
  dCut := revDelivery _

theorem mainOne_ok (rng : Rng) : MainEnvOk (mainOne rng) 1 where
  order := fun l => l.reverse_perm
  dFree := revDelivery_fair _
  dSize := revDelivery_fair _
  parts := fun n => blockPart_valid 1 n (by decide)
  rngs := rfl
  setOrder := fun l => l.reverse_perm
  dCut := revDelivery_fair _

/-- A file of a 3 by 6 matrix. -/
def sixText : String := "%%MatrixMarket matrix coordinate real general\n3 6 3\n1 1 1\n1 6 1\n3 2 1"

theorem sixText_mtx : MtxText sixText.toList "general".toList 3 6 3 [(1, 1), (1, 6), (3, 2)] := by
  refine ⟨"%%MatrixMarket matrix coordinate real general".toList, [],
    "3 6 3".toList, ["1 1 1".toList, "1 6 1".toList], "3 2 1".toList, ?_, ?_, ?_, ?_, ?_⟩
  · refine ⟨by unfold Word; decide, [], "%%MatrixMarket".toList, [' '], "matrix".toList, [' '], "coordinate".toList, [' '],
      "real".toList, [' '], [], by unfold Blank; decide, by unfold Word; decide, by unfold Blank; decide, by decide,
      by unfold Word; decide, by unfold Blank; decide, by decide, by unfold Word; decide, by unfold Blank; decide, by decide,
      by unfold Word; decide, by unfold Blank; decide, by decide, by decide, ?_, by decide⟩
    rintro c r h; cases h
  · intro c hc; cases hc
  · refine ⟨by decide, by decide, by decide, [], ['3'], [' '], ['6'], [' '], ['3'], [], by unfold Blank; decide,
      .one (i := 3) (by decide), by unfold Blank; decide, by decide, .one (i := 6) (by decide), by unfold Blank; decide,
      by decide, .one (i := 3) (by decide), ⟨by decide, ?_⟩, by decide⟩
    rintro c r h; cases h
  · refine .cons ?_ (.cons ?_ (.cons ?_ .nil))
    · refine ⟨by decide, by decide, [], ['1'], [' '], ['1'], " 1".toList, by unfold Blank; decide,
        .one (i := 1) (by decide), by unfold Blank; decide, by decide, .one (i := 1) (by decide), ⟨by decide, ?_⟩, by decide⟩
      rintro c r h; cases h; decide
    · refine ⟨by decide, by decide, [], ['1'], [' '], ['6'], " 1".toList, by unfold Blank; decide,
        .one (i := 1) (by decide), by unfold Blank; decide, by decide, .one (i := 6) (by decide), ⟨by decide, ?_⟩, by decide⟩
      rintro c r h; cases h; decide
    · refine ⟨by decide, by decide, [], ['3'], [' '], ['2'], " 1".toList, by unfold Blank; decide,
        .one (i := 3) (by decide), by unfold Blank; decide, by decide, .one (i := 2) (by decide), ⟨by decide, ?_⟩, by decide⟩
      rintro c r h; cases h; decide
  · decide +kernel

/-- Six columns, two parts, ε = 7/10: for every random stream no part has more than five columns. -/
example (rng : Rng) : ∃ o, mainCompute (mainOne rng) 1 2 (7 / 10) 0 (some sixText.toList) "one" = .ok (some o) ∧
    Reports 1 2 3 6 [(1, 1), (1, 6), (3, 2)] (fun _ => 1) o ∧
    ∃ lab : Nat → Int, HoldLabels 6 lab o.run.Hs ∧ ∀ q : Int, 0 ≤ q → q < (2 : Nat) →
      columnsWeight 6 [(1, 1), (1, 6), (3, 2)] (fun _ => 1) lab q ≤ 5 :=
  C86_one (opts := exampleOpts) (T := 10) (L := 1) (om := 1) (W := 6) (B := 5) (by decide) (plainRecEnv_runs exampleOpts 3 10 (by decide))
    (mainOne_ok rng) (by decide) (by decide) (by decide)
    ⟨by decide, by decide, by unfold EntriesIn; decide, by decide, 3, _, rfl, by decide, Or.inl ⟨sixText_mtx, rfl⟩⟩
    (Or.inl ⟨rfl, rfl⟩) (fun _ _ => by decide) (by norm_num) 0 (by decide) (by decide +kernel) (by decide)
    (by decide) (by decide) (by decide)

/-- The same with the cut-net metric. -/
example (rng : Rng) : ∃ o, mainComputeCut (mainOne rng) (exampleCutEnv 3) 1 2 (7 / 10) 0 (some sixText.toList) "one" =
      .ok (some o) ∧
    ReportsCut 1 2 3 6 [(1, 1), (1, 6), (3, 2)] (fun _ => 1) o ∧
    ∃ lab : Nat → Int, HoldLabels 6 lab o.Hs ∧ ∀ q : Int, 0 ≤ q → q < (2 : Nat) →
      columnsWeight 6 [(1, 1), (1, 6), (3, 2)] (fun _ => 1) lab q ≤ 5 :=
  C86_cut (opts := exampleOpts) (T := 10) (L := 1) (om := 1) (W := 6) (B := 5) (d := revDelivery _) (by decide)
    (plainRecEnv_runs exampleOpts 3 10 (by decide))
    (mainOne_ok rng) rfl (revDelivery_fair _) (revDelivery_fair _) (by decide) (by decide) (by decide)
    ⟨by decide, by decide, by unfold EntriesIn; decide, by decide, 3, _, rfl, by decide, Or.inl ⟨sixText_mtx, rfl⟩⟩
    (Or.inl ⟨rfl, rfl⟩) (fun _ _ => by decide) (by norm_num) (le_refl 0) (by decide) (by decide) (by decide +kernel)
    (by decide) (by decide) (by decide) (by decide)

end PMondriaan

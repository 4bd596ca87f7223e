import Verif.Proofs.Main
import Verif.Props.Text
import Verif.Props.Writer
import Verif.Props.RecBalancePar

/-
C70: the whole program, in terms of the matrix in the file.
-/

namespace PMondriaan

open Spec

/-- What is assumed of the environment of a run on `p` processors, apart from the recursion. -/
structure MainEnvOk (M : MainEnv) (p : Nat) : Prop where
  order : ∀ l, (M.order l).Perm l
  dFree : Fair M.dFree
  dSize : Fair M.dSize
  parts : ∀ n, (M.parts n).Valid p n
  rngs : M.rngs.length = p
  setOrder : ∀ l, (M.setOrder l).Perm l
  dCut : Fair M.dCut

/-- What the program has to report about the `E` by `V` matrix with entries `es`: there is a labelling of the columns
with `0, …, k - 1`, the processors hold every column with its label exactly once, and on all of them the cut size is the
communication volume of this labelling and the load balance its imbalance (up to rounding). -/
def Reports (p k E V : Nat) (es : List (Nat × Nat)) (wt : List Nat → Int) (o : MainOut) : Prop :=
  ∃ lab : Nat → Int, (∀ v < V, 0 ≤ lab v ∧ lab v < k) ∧ o.run.Hs.length = p ∧ HoldLabels V lab o.run.Hs ∧
    HoldMatrix E V es wt o.run.Hs ∧ o.cut = List.replicate p (rowsCut E es lab) ∧
    ∃ e, o.balance = List.replicate p (some e, false) ∧
      TrueImbalance (1 / 2 ^ 53) k (fun q => columnsWeight V es wt lab q) (matrixWeight V es wt) e

/-- The weights that are reported at the end are those of the labels. -/
theorem C70_weights {p k E V : Nat} {es : List (Nat × Nat)} {wt : List Nat → Int} {o : MainOut}
    (h : Reports p k E V es wt o) :
    ∃ lab : Nat → Int, HoldLabels V lab o.run.Hs ∧
      mainWeights o.run.Hs k = .ok (List.replicate p ((List.range k).map (fun (q : Nat) => columnsWeight V es wt lab q))) := by
  obtain ⟨lab, h1, h2, h3, h4, -⟩ := h
  have hl := holdLabels h4
  refine ⟨labelsOf E o.run.Hs, hl, ?_⟩
  obtain ⟨t, t1, t2, -⟩ := C08_global_weight_parts E k o.run.Hs (by
    intro H hH v hv
    have h5 : (v.id, v.part) ∈ (o.run.Hs.flatMap (·.vertices)).map (fun v => (v.id, v.part)) :=
      List.mem_map.2 ⟨v, List.mem_flatMap.2 ⟨H, hH, hv⟩, rfl⟩
    rw [List.Perm.mem_iff h3] at h5
    obtain ⟨u, hu, he⟩ := List.mem_map.1 h5
    simp only [Prod.mk.injEq] at he
    rw [← he.2]
    exact h1 u (List.mem_range.1 hu))
  unfold mainWeights
  rw [t1, t2, List.map_const', h2]
  congr 2
  apply List.map_congr_left
  intro q _
  exact holdMatrix_partWeight h4 q

/-- The run after a recursion that has ended normally. -/
theorem compute_of_weight {M : MainEnv} {p k E V : Nat} (hM : MainEnvOk M p) {u : ℚ} (hrnd : RoundsWithin u M.recEnv.rnd)
    (hu : u = 1 / 2 ^ 53) (hp1 : 1 ≤ p) (hk : 1 ≤ k) {es : List (Nat × Nat)}
    {wt : List Nat → Int} (hw : 0 < matrixWeight V es wt) {epsilon eta : ℚ} {file : Option (List Char)}
    {mode : String} {Rs Cs : List Hypergraph}
    (hR : readFilePar M.order M.dFree M.dSize M.parts p file mode = .ok (some Rs))
    (c1 : Rs.mapM (fun H => H.copy) = .ok Cs) (hlC : Cs.length = p) (c3 : HoldMatrix E V es wt Cs) {r : GroupResult}
    (r1 : recursiveBisectPar M.recEnv k epsilon eta Cs M.rngs = .ok r) (r2 : Kept E Cs r.Hs)
    (r3 : ∀ H ∈ r.Hs, ∀ v ∈ H.vertices, 0 ≤ v.part ∧ v.part < k) :
    ∃ o, mainCompute M p k epsilon eta file mode = .ok (some o) ∧ o.run = r ∧ Reports p k E V es wt o := by
  subst hu
  have hF := Spec.Kept.holdMatrix c3 r2
  have hlr : r.Hs.length = p := by rw [r2.length, hlC]
  have hWpos : 0 < ((unionH E r.Hs).vertices.map (·.weight)).sum := by
    change 0 < ((r.Hs.flatMap (·.vertices)).map (·.weight)).sum
    rw [holdMatrix_weight hF]
    exact hw
  obtain ⟨e, b1, -, b3⟩ := C64_distributed hrnd E r.Hs hk r3 hWpos
  obtain ⟨H0, l, hHl⟩ : ∃ H0 l, r.Hs = H0 :: l := by
    cases h : r.Hs with
    | nil => rw [h] at hlr; simp at hlr; omega
    | cons a l => exact ⟨a, l, rfl⟩
  have hg : vget r.Hs 0 = .ok H0 := by rw [hHl]; rfl
  have hnum : H0.globalNumberNets = E := hF.number H0 (by rw [hHl]; exact List.mem_cons_self ..)
  have hcut := C10_distributed_cutsize hF.dist (np := M.parts E) (by rw [hlr]; exact hM.parts E) hM.dCut hM.setOrder
    .lambdaMinusOne
  refine ⟨⟨r, r.Hs.map (fun _ => (some e, false)), r.Hs.map (fun _ => cutValue .lambdaMinusOne (unionH E r.Hs))⟩,
    ?_, rfl, labelsOf E r.Hs, ?_, hlr, holdLabels hF, hF, ?_, e, ?_, ?_⟩
  · unfold mainCompute
    rw [hR, ok_bind]
    dsimp only
    rw [c1, ok_bind, r1, ok_bind, b1, ok_bind, hg, ok_bind, hnum, hcut, ok_bind]
    rfl
  · intro v hv
    obtain ⟨H, hHm, u, hu, -, h2⟩ := HoldLabels.mem (holdLabels hF) hv
    rw [← h2]
    exact r3 H hHm u hu
  · dsimp only
    rw [List.map_const', hlr, holdMatrix_cut hF]
  · dsimp only
    rw [List.map_const', hlr]
  · have e1 : ((unionH E r.Hs).vertices.map (·.weight)).sum = matrixWeight V es wt := holdMatrix_weight hF
    have e2 : (fun q : Nat => partWeight (unionH E r.Hs) q) = fun q : Nat => columnsWeight V es wt (labelsOf E r.Hs) q := by
      funext q
      exact holdMatrix_partWeight hF q
    rw [e1, e2] at b3
    exact b3

theorem compute_of_run {M : MainEnv} {p k E V : Nat} (hM : MainEnvOk M p) {u : ℚ} (hrnd : RoundsWithin u M.recEnv.rnd)
    (hu : u = 1 / 2 ^ 53) (hp1 : 1 ≤ p) (hk : 1 ≤ k) (hV : 1 ≤ V) {es : List (Nat × Nat)}
    {wt : List Nat → Int} (hw : ∀ v < V, 0 < wt (columnOf es v)) {epsilon eta : ℚ} {file : Option (List Char)}
    {mode : String} {Rs Cs : List Hypergraph}
    (hR : readFilePar M.order M.dFree M.dSize M.parts p file mode = .ok (some Rs))
    (c1 : Rs.mapM (fun H => H.copy) = .ok Cs) (hlC : Cs.length = p) (c3 : HoldMatrix E V es wt Cs) {r : GroupResult}
    (r1 : recursiveBisectPar M.recEnv k epsilon eta Cs M.rngs = .ok r) (r2 : Kept E Cs r.Hs)
    (r3 : ∀ H ∈ r.Hs, ∀ v ∈ H.vertices, 0 ≤ v.part ∧ v.part < k) :
    ∃ o, mainCompute M p k epsilon eta file mode = .ok (some o) ∧ o.run = r ∧ Reports p k E V es wt o := by
  refine compute_of_weight hM hrnd hu hp1 hk ?_ hR c1 hlC c3 r1 r2 r3
  apply List.sum_pos
  · intro x hx
    obtain ⟨v, hv, rfl⟩ := List.mem_map.1 hx
    exact hw v (List.mem_range.1 hv)
  · intro h
    rw [List.map_eq_nil_iff, List.range_eq_nil] at h
    omega

/-- The run after reading. -/
theorem compute_ok {M : MainEnv} {p k E V T : Nat} {Bad : Err → Prop} (hM : MainEnvOk M p)
    (hP : ParRecEnvOk M.recEnv E T Bad) (hp1 : 1 ≤ p) (hp : p ≤ 2 ^ 50) (hk : 2 ≤ k) (hE : E < 2147483648) (hV : 1 ≤ V)
    (hT : V < T) {es : List (Nat × Nat)}
    {wt : List Nat → Int} (hw : ∀ v < V, 0 < wt (columnOf es v)) (hW : matrixWeight V es wt < 2 ^ 53)
    (epsilon : ℚ) {eta : ℚ} (heta : 0 ≤ eta) {file : Option (List Char)} {mode : String} {Rs : List Hypergraph}
    (hR : readFilePar M.order M.dFree M.dSize M.parts p file mode = .ok (some Rs)) (hl : Rs.length = p)
    (hH : HoldMatrix E V es wt Rs) :
    (∃ o, mainCompute M p k epsilon eta file mode = .ok (some o) ∧ Reports p k E V es wt o) ∨
    ∃ e, mainCompute M p k epsilon eta file mode = .error e ∧ (e = .ub ∨ Bad e) := by
  obtain ⟨Cs, c1, c2, c3⟩ := copies_ok hH
  have hlC : Cs.length = p := by omega
  have hne : Cs ≠ [] := by rintro rfl; simp at hlC; omega
  have hWC := holdMatrix_weight c3
  rcases C61_partial hP hE hk hne c3.dist (holdMatrix_pos c3 hw) (by rw [holdMatrix_length c3]; exact hT)
    (by rw [hWC]; exact hW) (by omega) epsilon heta (rngs := M.rngs) (by rw [hM.rngs, hlC]) with
    ⟨r, r1, r2, r3⟩ | ⟨e, r1, r2⟩
  · left
    obtain ⟨o, o1, -, o2⟩ := compute_of_run hM hP.rounds rfl hp1 (by omega) hV hw hR c1 hlC c3 r1 r2 r3
    exact ⟨o, o1, o2⟩
  · right
    refine ⟨e, ?_, r2⟩
    unfold mainCompute
    rw [hR, ok_bind]
    dsimp only
    rw [c1, ok_bind, r1]
    rfl

/-- `text` is a file of an `E` by `V` matrix with entries `es`, in either of the two formats, that the program reads: the
sizes are in range, the number of lines is as announced, no entry is listed twice. -/
def GoodFile (text : List Char) (E V : Nat) (es : List (Nat × Nat)) : Prop :=
  E ≤ maxSize ∧ V ≤ maxSize ∧ EntriesIn E V es ∧ es.Nodup ∧ ∃ L ls, L = ls.length ∧ L < 2 ^ 32 ∧
    ((MtxText text "general".toList E V L ls ∧ es = ls) ∨
      (MtxText text "symmetric".toList E V L ls ∧ E = V ∧ es = mirror ls))

theorem entriesIn_of_mirror {E V : Nat} {ls : List (Nat × Nat)} (h : EntriesIn E V (mirror ls)) : EntriesIn E V ls := by
  intro x hx
  apply h x
  unfold mirror
  refine List.mem_flatMap.2 ⟨x, hx, ?_⟩
  split <;> simp

/-- What is read is a partition of the hypergraph of the matrix into blocks of columns. -/
theorem goodFile_partition {M : MainEnv} {p : Nat} (hM : MainEnvOk M p) {text : List Char}
    {E V : Nat} {es : List (Nat × Nat)} (h : GoodFile text E V es) {mode : String} {wt : List Nat → Int}
    (hm : ModeMeans mode wt) :
    ∃ H Rs, readFilePar M.order M.dFree M.dSize M.parts p (some text) mode = .ok (some Rs) ∧ IsMatrix E V es wt H ∧
      PartitionOf E (M.parts V).owner p H Rs := by
  obtain ⟨hE, hV, hin, hn, L, ls, hL, hL32, ⟨h1, rfl⟩ | ⟨h1, rfl, rfl⟩⟩ := h
  · obtain ⟨H, Rs, a1, a2, a3⟩ := C67_read_distributed (fun _ => .refl _) hM.order hM.dFree hM.dSize hM.parts h1 hE hV hL
      hL32 hin hn hm (order := id)
    obtain ⟨H', b1, b2, -⟩ := C67_read_general (fun _ => .refl _) h1 hE hV hin hm (order := id)
    rw [a1] at b1
    injection b1 with b1
    injection b1 with b1
    subst b1
    exact ⟨H, Rs, a2, b2, a3⟩
  · obtain ⟨H, Rs, a1, a2, a3⟩ := C67_read_distributed_symmetric (fun _ => .refl _) hM.order hM.dFree hM.dSize hM.parts h1
      hE hV hL hL32 hin hn hm (order := id)
    obtain ⟨H', b1, b2, -⟩ := C67_read_symmetric (fun _ => .refl _) h1 hE (entriesIn_of_mirror hin) hm (order := id)
    rw [a1] at b1
    injection b1 with b1
    injection b1 with b1
    subst b1
    exact ⟨H, Rs, a2, b2, a3⟩

theorem goodFile_read_nets {M : MainEnv} {p : Nat} (hM : MainEnvOk M p) {text : List Char}
    {E V : Nat} {es : List (Nat × Nat)} (h : GoodFile text E V es) {mode : String} {wt : List Nat → Int}
    (hm : ModeMeans mode wt) :
    ∃ Rs, readFilePar M.order M.dFree M.dSize M.parts p (some text) mode = .ok (some Rs) ∧ Rs.length = p ∧
      HoldMatrix E V es wt Rs ∧ ∀ R ∈ Rs, ∀ n ∈ R.nets, n.vertices ≠ [] := by
  obtain ⟨H, Rs, a2, b2, a3⟩ := goodFile_partition hM h hm
  exact ⟨Rs, a2, a3.1, holdMatrix_read b2 a3, read_nonempty a3⟩

theorem goodFile_read {M : MainEnv} {p : Nat} (hM : MainEnvOk M p) {text : List Char}
    {E V : Nat} {es : List (Nat × Nat)} (h : GoodFile text E V es) {mode : String} {wt : List Nat → Int}
    (hm : ModeMeans mode wt) :
    ∃ Rs, readFilePar M.order M.dFree M.dSize M.parts p (some text) mode = .ok (some Rs) ∧ Rs.length = p ∧
      HoldMatrix E V es wt Rs := by
  obtain ⟨Rs, h1, h2, h3, -⟩ := goodFile_read_nets hM h hm
  exact ⟨Rs, h1, h2, h3⟩

/-- C70, partial: for every file of a matrix with columns of positive weight, every number of processors and parts,
and all choices that are not determined (orders of sets and messages, random numbers), when the program gets to
the end of the partitioning, what it reports about the matrix is true. What is missing: the partitioning can fail as in
C61, the file with the result is not written (`C70_false`), the cut-net metric (C79), weights of `2^53` or more. -/
theorem C70_partial {M : MainEnv} {p k E V T : Nat} {Bad : Err → Prop} (hM : MainEnvOk M p)
    (hP : ParRecEnvOk M.recEnv E T Bad) (hp1 : 1 ≤ p) (hp : p ≤ 2 ^ 50) (hk : 2 ≤ k) (hE : E < 2147483648) (hV : 1 ≤ V) (hT : V < T) {es : List (Nat × Nat)}
    {text : List Char} (hf : GoodFile text E V es) {mode : String} {wt : List Nat → Int} (hm : ModeMeans mode wt)
    (hw : ∀ v < V, 0 < wt (columnOf es v)) (hW : matrixWeight V es wt < 2 ^ 53) (epsilon : ℚ) {eta : ℚ}
    (heta : 0 ≤ eta) :
    (∃ o, mainCompute M p k epsilon eta (some text) mode = .ok (some o) ∧ Reports p k E V es wt o) ∨
    ∃ e, mainCompute M p k epsilon eta (some text) mode = .error e ∧ (e = .ub ∨ Bad e) := by
  obtain ⟨Rs, a1, a2, a3⟩ := goodFile_read hM hf hm
  exact compute_ok hM hP hp1 hp hk hE hV hT hw hW epsilon heta a1 a2 a3

/-- C70 with C62: when all recorded bisections stayed within the bounds handed to them, no part weighs more than
`(1 + ε) W / k`, up to rounding. -/
theorem C70_balance {M : MainEnv} {p k E V T : Nat} {Bad : Err → Prop} (hM : MainEnvOk M p)
    (hP : ParRecEnvOk M.recEnv E T Bad) (hp1 : 1 ≤ p) (hp : p ≤ 2 ^ 50) (hk : 2 ≤ k) (hE : E < 2147483648)
    (hT : V < T) {es : List (Nat × Nat)} {text : List Char} (hf : GoodFile text E V es) {mode : String}
    {wt : List Nat → Int} (hm : ModeMeans mode wt) (hw : ∀ v < V, 0 < wt (columnOf es v)) {epsilon : ℚ}
    (heps : 0 ≤ epsilon) {eta : ℚ} (heta : 0 ≤ eta) {W : Int} (hWe : W = matrixWeight V es wt)
    (hWM : W ≤ maxWeight M.recEnv.rnd epsilon W k * k)
    (hsmall : ((maxWeight M.recEnv.rnd epsilon W k * k : Int) : ℚ) + W < 2 ^ 47) {o : MainOut}
    (h : mainCompute M p k epsilon eta (some text) mode = .ok (some o))
    (hs : ∀ c ∈ o.run.splits, ParSplit.Respects c) (hc : ∀ c ∈ o.run.calls, BisectCall.Respects c) :
    ∃ lab : Nat → Int, HoldLabels V lab o.run.Hs ∧ ∀ q : Int, 0 ≤ q → q < k →
      ((columnsWeight V es wt lab q : Int) : ℚ) ≤ (1 + 8 / 2 ^ 53) * ((1 + epsilon) * W / k) := by
  obtain ⟨Rs, a1, a2, a3⟩ := goodFile_read hM hf hm
  obtain ⟨Cs, c1, c2, c3⟩ := copies_ok a3
  have hlC : Cs.length = p := by omega
  have hne : Cs ≠ [] := by rintro rfl; simp at hlC; omega
  have hWC := holdMatrix_weight c3
  have hWM' : W < 2 ^ 53 := by
    have h1 : (0 : ℚ) ≤ ((maxWeight M.recEnv.rnd epsilon W k * k : Int) : ℚ) := by
      have hW0 : 0 ≤ W := by
        rw [hWe]
        unfold matrixWeight
        apply List.sum_nonneg
        intro x hx
        obtain ⟨v, hv, rfl⟩ := List.mem_map.1 hx
        exact (hw v (List.mem_range.1 hv)).le
      have : (0 : Int) ≤ maxWeight M.recEnv.rnd epsilon W k * k := le_trans hW0 hWM
      exact_mod_cast this
    have h2 : (W : ℚ) < 2 ^ 53 := by
      have : (2 : ℚ) ^ 47 < 2 ^ 53 := by norm_num
      linarith
    exact_mod_cast h2
  unfold mainCompute at h
  rw [a1, ok_bind] at h
  dsimp only at h
  rw [c1, ok_bind] at h
  obtain ⟨g, g1, h⟩ := bind_eq_ok.1 h
  obtain ⟨b, -, h⟩ := bind_eq_ok.1 h
  obtain ⟨H, -, h⟩ := bind_eq_ok.1 h
  obtain ⟨cut, -, h⟩ := bind_eq_ok.1 h
  injection h with h
  injection h with h
  subst h
  dsimp only at hs hc ⊢
  rcases C61_partial hP hE hk hne c3.dist (holdMatrix_pos c3 hw) (by rw [holdMatrix_length c3]; exact hT)
    (by rw [hWC, ← hWe]; exact hWM') (by omega) epsilon heta (rngs := M.rngs) (by rw [hM.rngs, hlC]) with
    ⟨r, r1, r2, r3⟩ | ⟨e, r1, -⟩
  · rw [g1] at r1
    injection r1 with r1
    subst r1
    have hF := Spec.Kept.holdMatrix c3 r2
    refine ⟨labelsOf E g.Hs, holdLabels hF, ?_⟩
    intro q hq0 hqk
    have := (C62_balance hP hE hk hne c3.dist (holdMatrix_pos c3 hw) (by rw [holdMatrix_length c3]; exact hT)
      (by omega) heps heta (rngs := M.rngs) (by rw [hM.rngs, hlC]) (hWe.trans hWC.symm) hWM hsmall g1 hs hc q hq0 hqk).2
    rw [← holdMatrix_partWeight hF, partWeight_union]
    exact this
  · rw [g1] at r1; cases r1

/-- C70 for two parts: the exception of C61 does not occur, the partitioning can only fail when the bisection does.
With random bisection (`Bad` never holds, `codeBis_random_well`) it never fails. -/
theorem C70_two {M : MainEnv} {p E V T : Nat} {Bad : Err → Prop} (hM : MainEnvOk M p)
    (hP : ParRecEnvOk M.recEnv E T Bad) (hp1 : 1 ≤ p) (hp : p ≤ 2 ^ 50) (hE : E < 2147483648) (hV : 1 ≤ V)
    (hT : V < T) {es : List (Nat × Nat)} {text : List Char} (hf : GoodFile text E V es) {mode : String}
    {wt : List Nat → Int} (hm : ModeMeans mode wt) (hw : ∀ v < V, 0 < wt (columnOf es v))
    (hW : matrixWeight V es wt < 2 ^ 53) (epsilon eta : ℚ) :
    (∃ o, mainCompute M p 2 epsilon eta (some text) mode = .ok (some o) ∧ Reports p 2 E V es wt o) ∨
    ∃ e, mainCompute M p 2 epsilon eta (some text) mode = .error e ∧ Bad e := by
  obtain ⟨Rs, a1, a2, a3⟩ := goodFile_read hM hf hm
  obtain ⟨Cs, c1, c2, c3⟩ := copies_ok a3
  have hlC : Cs.length = p := by omega
  have hWC := holdMatrix_weight c3
  have hlen := holdMatrix_length c3
  have hpos := holdMatrix_pos c3 hw
  have hne : Cs.flatMap (·.vertices) ≠ [] := by intro h; rw [h] at hlen; simp at hlen; omega
  have key : (∃ r, recursiveBisectPar M.recEnv 2 epsilon eta Cs M.rngs = .ok r ∧ Kept E Cs r.Hs ∧
      ∀ H ∈ r.Hs, ∀ v ∈ H.vertices, v.part = 0 ∨ v.part = 1) ∨
      ∃ e, recursiveBisectPar M.recEnv 2 epsilon eta Cs M.rngs = .error e ∧ Bad e := by
    by_cases h2 : 2 ≤ p
    · exact C61_two hP (by omega) c3.dist hne hpos (by omega) (by rw [hWC]; exact hW) (by omega) epsilon eta
        (by rw [hM.rngs, hlC])
    · left
      obtain ⟨H, hH⟩ : ∃ H, Cs = [H] := List.length_eq_one_iff.1 (by omega)
      obtain ⟨g, hg⟩ : ∃ g, M.rngs = [g] := List.length_eq_one_iff.1 (by rw [hM.rngs]; omega)
      have hwf := c3.dist.wf H (by simp [hH])
      have hids := c3.dist.ids H (by simp [hH])
      have hfit : Fit E T H := by
        refine ⟨hwf, hids, ?_, hpos H (by simp [hH]), ?_⟩
        · have h1 : (H.nets.map (·.id)).Subperm (List.range E) := by
            apply List.subperm_of_subset hwf.nids
            intro e he
            obtain ⟨n, hn, rfl⟩ := List.mem_map.1 he
            exact List.mem_range.2 (hids n hn)
          have := h1.length_le
          rw [List.length_map, List.length_range] at this
          omega
        · rw [hH] at hlen
          simp only [List.flatMap_cons, List.flatMap_nil, List.append_nil] at hlen
          omega
      have hnv : H.vertices ≠ [] := by
        rw [hH] at hne
        simpa using hne
      have hd1 : Fair (M.recEnv.recEnv []).d1 := fun _ _ => .refl _
      have hd2 : Fair (M.recEnv.recEnv []).d2 := fun _ _ => .refl _
      obtain ⟨s', s0, -⟩ := C38_two (P := M.recEnv.recEnv []) (hP.alone []) hd1 hd2 hfit hnv (fun h => nomatch h) epsilon g
      obtain ⟨s, s1, s2, s3⟩ : ∃ s, recursiveBisect (M.recEnv.recEnv []) H 2 epsilon g = .ok s ∧ Partitioned 2 H s.H ∧
          WF s.H ∧ s.H.nets = H.nets := by
        rcases C38_partial (P := M.recEnv.recEnv []) (hP.alone []) hd1 hd2 (le_refl 2) hfit (fun h => nomatch h) epsilon g with
          h | ⟨s, s1, s2, s3⟩
        · rw [s0] at h; cases h
        · exact ⟨s, s1, s2, s3 rfl⟩
      refine ⟨⟨[s.H], [], s.calls⟩, ?_, ?_, ?_⟩
      · rw [hH, hg, C61_one_processor _ (by decide), s1]
        rfl
      · rw [hH]
        exact kept_local (by rw [← hH]; exact c3.dist) (.cons ⟨s3.1, s3.2, s2.verts, s2.sizes⟩ .nil)
      · intro K hK v hv
        simp only [List.mem_singleton] at hK
        subst hK
        have := s2.parts v hv
        omega
  rcases key with ⟨r, r1, r2, r3⟩ | ⟨e, r1, r2⟩
  · left
    obtain ⟨o, o1, -, o2⟩ := compute_of_run hM hP.rounds rfl hp1 (by decide) hV hw a1 c1 hlC c3 r1 r2 (by
      intro H hH v hv
      have := r3 H hH v hv
      omega)
    exact ⟨o, o1, o2⟩
  · right
    refine ⟨e, ?_, r2⟩
    unfold mainCompute
    rw [show readFilePar M.order M.dFree M.dSize M.parts p (some text) mode = .ok (some Rs) from a1, ok_bind]
    dsimp only
    rw [c1, ok_bind, r1]
    rfl

/-- C70 does not hold: for every such file the program does not come to a normal end, because writing the result
is an access out of bounds (C41). -/
theorem C70_false {M : MainEnv} {p k E V T : Nat} {Bad : Err → Prop} (hM : MainEnvOk M p)
    (hP : ParRecEnvOk M.recEnv E T Bad) (hp1 : 1 ≤ p) (hp : p ≤ 2 ^ 50) (hk : 2 ≤ k) (hE : E < 2147483648) (hV : 1 ≤ V) (hT : V < T) {es : List (Nat × Nat)}
    {text : List Char} (hf : GoodFile text E V es) {mode : String} {wt : List Nat → Int} (hm : ModeMeans mode wt)
    (hw : ∀ v < V, 0 < wt (columnOf es v)) (hW : matrixWeight V es wt < 2 ^ 53) (epsilon : ℚ) {eta : ℚ}
    (heta : 0 ≤ eta) :
    ∃ e, mainRun M p k epsilon eta (some text) mode = .error e ∧ (e = .ub ∨ Bad e) := by
  rcases C70_partial hM hP hp1 hp hk hE hV hT hf hm hw hW epsilon heta with ⟨o, h1, lab, h2, h3, h4, -⟩ | ⟨e, h1, h2⟩
  · refine ⟨.ub, ?_, Or.inl rfl⟩
    unfold mainRun
    rw [h1, ok_bind]
    dsimp only
    rw [C42_false (by omega) (by rintro h; rw [h] at h3; simp at h3; omega) ?_]
    · rfl
    · intro H hH v hv
      have h5 : (v.id, v.part) ∈ (o.run.Hs.flatMap (·.vertices)).map (fun v => (v.id, v.part)) :=
        List.mem_map.2 ⟨v, List.mem_flatMap.2 ⟨H, hH, hv⟩, rfl⟩
      rw [List.Perm.mem_iff h4] at h5
      obtain ⟨u, hu, he⟩ := List.mem_map.1 h5
      simp only [Prod.mk.injEq] at he
      rw [← he.2]
      exact h2 u (List.mem_range.1 hu)
  · refine ⟨e, ?_, h2⟩
    unfold mainRun
    rw [h1]
    rfl

/-- The environment of the recursion is the code of `bisect` with the options `opts` on `p` processors. -/
structure RunsCode (P : ParRecEnv) (opts : Options) (p N T : Nat) : Prop where
  rnd : P.rnd = nearest53
  sample : opts.samplingLp = true → 1 ≤ opts.sampleSize / p
  code : ∃ (F : Type) (E : List Bool → Nat → ParBisectEnv F) (E1 : List Bool → Env F),
    (∀ path q, 2 ≤ q → ParBisectEnvOk (E path q) q N T) ∧ (∀ path, (E1 path).Ok N) ∧ (∀ path, (E1 path).fuel = T) ∧
    P.bis = codeBis E opts p ∧
    P.alone = fun path H m0 m1 s e l rng =>
      bisectOne (E1 path) H { opts with sampleSize := opts.sampleSize / p } m0 m1 s e l rng
  ord : ∀ path l, (P.ord path l).Perm l
  dVert : ∀ path, Fair (P.dVert path)
  dCost : ∀ path, Fair (P.dCost path)

/-- The ways in which the partitioning can fail. -/
def CodeFails (opts : Options) (e : Err) : Prop :=
  opts.bisectionRandom = false ∧ (e = .ub ∨ opts.samplingLp = false ∧ e = .abort)

theorem RunsCode.ok {P : ParRecEnv} {opts : Options} {p N T : Nat} (h : RunsCode P opts p N T) (hN : N < 2147483648) :
    ParRecEnvOk P N T (CodeFails opts) := by
  obtain ⟨F, E, E1, h1, h2, h3, h4, h5⟩ := h.code
  refine ⟨?_, ?_, h.ord, h.dVert, h.dCost, ?_, ?_⟩
  · rw [h4]; exact codeBis_well h1 hN h.sample
  · intro path
    rw [h5, ← h3 path]
    exact bisectOne_well (h2 path) _
  · rw [h.rnd]; exact nearest53_keepsInts
  · rw [h.rnd]; exact nearest53_rounds

/-- C70, partial, for the code: with multilevel or random bisection, sampling at random or by label propagation,
double-precision arithmetic. With random bisection the only way to fail is the conversion of C38. -/
theorem C70_code_partial {M : MainEnv} {opts : Options} {p k E V T : Nat} (hE : E < 2147483648)
    (hc : RunsCode M.recEnv opts p E T)
    (hM : MainEnvOk M p) (hp1 : 1 ≤ p)
    (hp : p ≤ 2 ^ 50) (hk : 2 ≤ k) (hV : 1 ≤ V) (hT : V < T) {es : List (Nat × Nat)}
    {text : List Char} (hf : GoodFile text E V es) {mode : String} {wt : List Nat → Int} (hm : ModeMeans mode wt)
    (hw : ∀ v < V, 0 < wt (columnOf es v)) (hW : matrixWeight V es wt < 2 ^ 53) (epsilon : ℚ) {eta : ℚ}
    (heta : 0 ≤ eta) :
    (∃ o, mainCompute M p k epsilon eta (some text) mode = .ok (some o) ∧ Reports p k E V es wt o) ∨
    mainCompute M p k epsilon eta (some text) mode = .error .ub ∨
    (opts.bisectionRandom = false ∧ opts.samplingLp = false ∧
      mainCompute M p k epsilon eta (some text) mode = .error .abort) := by
  rcases C70_partial hM (hc.ok hE) hp1 hp hk hE hV hT hf hm hw hW epsilon heta with h | ⟨e, h1, h2 | ⟨h2, h3 | ⟨h3, h4⟩⟩⟩
  · exact Or.inl h
  · exact Or.inr (Or.inl (by rw [h1, h2]))
  · exact Or.inr (Or.inl (by rw [h1, h3]))
  · exact Or.inr (Or.inr ⟨h2, h3, by rw [h1, h4]⟩)

/-- Two processors, random bisection, messages in reverse order. -/
def exampleMain : MainEnv where
  order := List.reverse
  dFree := revDelivery _
  dSize := revDelivery _
  parts := blockPart 2
  recEnv := exampleRecEnv
  rngs := [fun n => n, fun n => n + 1]
  setOrder := List.reverse
  dCut := revDelivery _

theorem exampleMain_ok : MainEnvOk exampleMain 2 where
  order := fun l => l.reverse_perm
  dFree := revDelivery_fair _
  dSize := revDelivery_fair _
  parts := fun n => blockPart_valid 2 n (by decide)
  rngs := rfl
  setOrder := fun l => l.reverse_perm
  dCut := revDelivery_fair _

/-- The example file of C67, three parts: columns 0 and 3 get label 2, column 1 label 0 and column 2 label 1; the third row
has two labels. The heaviest part has weight 2, half more than the average of 4/3. -/
example : ((mainCompute exampleMain 2 3 (1 / 4) 0 (some exampleText.toList) "one").toOption.bind id).map
      (fun o => o.run.Hs.map (fun H => H.vertices.map (fun v => (v.id, v.part)))) = some [[(0, 2), (1, 0)], [(2, 1), (3, 2)]] ∧
    ((mainCompute exampleMain 2 3 (1 / 4) 0 (some exampleText.toList) "one").toOption.bind id).map
      (fun o => o.balance) = some [(some (1 / 2), false), (some (1 / 2), false)] ∧
    ((mainCompute exampleMain 2 3 (1 / 4) 0 (some exampleText.toList) "one").toOption.bind id).map
      (fun o => o.cut) = some [1, 1] ∧
    ((mainCompute exampleMain 2 3 (1 / 4) 0 (some exampleText.toList) "one").toOption.bind id).bind
      (fun o => (mainWeights o.run.Hs 3).toOption) = some [[1, 1, 2], [1, 1, 2]] :=
  ⟨by decide +kernel, by decide +kernel, by decide +kernel, by decide +kernel⟩

/-- All assumptions of C70 hold for it. -/
example : ∃ e, mainRun exampleMain 2 3 (1 / 4) 0 (some exampleText.toList) "one" = .error e ∧ (e = .ub ∨ False) :=
  C70_false exampleMain_ok (T := 10) (Bad := fun _ => False) (V := 4) (E := 3) (wt := fun _ => 1)
    ⟨codeBis_random_well (fun _ _ => exampleParEnv) 3 10 (opts := { exampleOpts with bisectionRandom := true }) 1 rfl,
      fun _ => randomEnv_well nearest53 false 3 10, fun _ l => l.reverse_perm, fun _ => revDelivery_fair _,
      fun _ => revDelivery_fair _, nearest53_keepsInts, nearest53_rounds⟩ (by decide) (by decide) (by decide) (by decide)
    (by decide) (by decide)
    ⟨by decide, by decide, by unfold EntriesIn; decide, by decide, 4, [(1, 1), (3, 2), (1, 4), (3, 1)], rfl, by decide,
      Or.inl ⟨exampleText_mtx, rfl⟩⟩ (Or.inl ⟨rfl, rfl⟩) (fun _ _ => by decide) (by decide) _ (le_refl _)

/-- With two parts and random bisection the run reaches the end of the computation and reports the true values. -/
example : ∃ o, mainCompute exampleMain 2 2 (1 / 4) 0 (some exampleText.toList) "one" = .ok (some o) ∧
    Reports 2 2 3 4 [(1, 1), (3, 2), (1, 4), (3, 1)] (fun _ => 1) o := by
  rcases C70_two exampleMain_ok (T := 10) (Bad := fun _ => False) (V := 4) (E := 3) (wt := fun _ => 1)
    (es := [(1, 1), (3, 2), (1, 4), (3, 1)]) (text := exampleText.toList) (mode := "one")
    ⟨codeBis_random_well (fun _ _ => exampleParEnv) 3 10 (opts := { exampleOpts with bisectionRandom := true }) 1 rfl,
      fun _ => randomEnv_well nearest53 false 3 10, fun _ l => l.reverse_perm, fun _ => revDelivery_fair _,
      fun _ => revDelivery_fair _, nearest53_keepsInts, nearest53_rounds⟩ (by decide) (by decide) (by decide)
    (by decide) (by decide)
    ⟨by decide, by decide, by unfold EntriesIn; decide, by decide, 4, [(1, 1), (3, 2), (1, 4), (3, 1)], rfl, by decide,
      Or.inl ⟨exampleText_mtx, rfl⟩⟩ (Or.inl ⟨rfl, rfl⟩) (fun _ _ => by decide) (by decide) (1 / 4) 0 with h | ⟨_, _, h⟩
  · exact h
  · exact h.elim

end PMondriaan

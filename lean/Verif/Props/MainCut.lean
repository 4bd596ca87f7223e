import Verif.Proofs.MainCut
import Verif.Props.Main
import Verif.Props.RecCutPar

/-
C79: the whole program with the cut-net metric, in terms of the matrix in the file.
-/

namespace PMondriaan

open Spec

/-- What the program has to report with the cut-net metric: there is a labelling of the columns with `0, …, k - 1`, the
processors hold every column with its label and its weight exactly once and the pins of every row, and on all of them the
cut size is the number of rows with more than one label and the load balance is the imbalance (up to rounding). -/
def ReportsCut (p k E V : Nat) (es : List (Nat × Nat)) (wt : List Nat → Int) (o : MainCutOut) : Prop :=
  ∃ lab : Nat → Int, (∀ v < V, 0 ≤ lab v ∧ lab v < k) ∧ o.Hs.length = p ∧ HoldLabels V lab o.Hs ∧
    ((o.Hs.flatMap (·.vertices)).map (fun v => (v.id, v.weight))).Perm
      ((List.range V).map (fun v => (v, wt (columnOf es v)))) ∧
    (∀ e < E, (unionPins o.Hs e).Perm (rowOf es e)) ∧
    o.cut = List.replicate p (rowsSplit E es lab : Int) ∧
    ∃ e, o.balance = List.replicate p (some e, false) ∧
      TrueImbalance (1 / 2 ^ 53) k (fun q => columnsWeight V es wt lab q) (matrixWeight V es wt) e

theorem relist_holdLabels {V : Nat} {lab : Nat → Int} {Hs : List Hypergraph} (h : HoldLabels V lab (Hs.map relist)) :
    HoldLabels V lab Hs := by
  unfold HoldLabels at h ⊢
  rw [relist_flatMap _ (fun _ _ => rfl)] at h
  exact h

/-- The weights of the parts that are reported at the end. -/
theorem C79_weights {p k E V : Nat} {es : List (Nat × Nat)} {wt : List Nat → Int} {o : MainCutOut}
    (h : ReportsCut p k E V es wt o) :
    ∃ lab : Nat → Int, HoldLabels V lab o.Hs ∧ mainWeights o.Hs k =
      .ok (List.replicate p ((List.range k).map (fun (q : Nat) => columnsWeight V es wt lab q))) := by
  obtain ⟨lab, h1, h2, h3, h4, -⟩ := h
  refine ⟨lab, h3, ?_⟩
  have hlab : ∀ v ∈ o.Hs.flatMap (·.vertices), v.id < V ∧ v.part = lab v.id := by
    intro v hv
    have h5 : (v.id, v.part) ∈ (o.Hs.flatMap (·.vertices)).map (fun v => (v.id, v.part)) := List.mem_map_of_mem hv
    rw [List.Perm.mem_iff h3] at h5
    obtain ⟨u, hu, he⟩ := List.mem_map.1 h5
    simp only [Prod.mk.injEq] at he
    rw [← he.2, he.1]
    exact ⟨by rw [← he.1]; exact List.mem_range.1 hu, rfl⟩
  obtain ⟨t, t1, t2, -⟩ := C08_global_weight_parts E k o.Hs (by
    intro H hH v hv
    obtain ⟨h6, h7⟩ := hlab v (List.mem_flatMap.2 ⟨H, hH, hv⟩)
    rw [h7]
    exact h1 _ h6)
  unfold mainWeights
  rw [t1, t2, List.map_const', h2]
  congr 2
  apply List.map_congr_left
  intro q _
  unfold partWeight columnsWeight
  have e1 : (unionH E o.Hs).vertices = o.Hs.flatMap (·.vertices) := rfl
  rw [e1]
  have e2 : ((o.Hs.flatMap (·.vertices)).filter (fun v => v.part = (q : Int))).map (·.weight) =
      (((o.Hs.flatMap (·.vertices)).map (fun v => (v.id, v.weight))).filter (fun x => lab x.1 = (q : Int))).map
        Prod.snd := by
    rw [List.filter_map, List.map_map]
    have : (o.Hs.flatMap (·.vertices)).filter (fun v => v.part = (q : Int)) =
        (o.Hs.flatMap (·.vertices)).filter ((fun x : Nat × Int => decide (lab x.1 = (q : Int))) ∘
          (fun v : Vertex => (v.id, v.weight))) := by
      apply List.filter_congr
      intro v hv
      simp only [Function.comp_apply, (hlab v hv).2]
    rw [this]
    rfl
  rw [e2, ((h4.filter _).map Prod.snd).sum_eq, List.filter_map, List.map_map]
  rfl

/-- The program after the recursion with the cut-net metric. -/
theorem compute_of_runCut {M : MainEnv} {C : CutEnv} {p k E V : Nat} (hM : MainEnvOk M p)
    (hround : RoundsWithin (1 / 2 ^ 53) M.recEnv.rnd) (hp1 : 1 ≤ p) (hk : 2 ≤ k) (hV : 1 ≤ V) {es : List (Nat × Nat)}
    {file : Option (List Char)} {mode : String} {wt : List Nat → Int} (hw : ∀ v < V, 0 < wt (columnOf es v))
    {epsilon eta : ℚ} {Rs Cs r : List Hypergraph}
    (hR : readFilePar M.order M.dFree M.dSize M.parts p file mode = .ok (some Rs))
    (c1 : Rs.mapM (fun H => H.copy) = .ok Cs) (hlC : Cs.length = p) (c3 : HoldMatrix E V es wt Cs)
    (r1 : recursiveBisectCut M.recEnv C k epsilon eta Cs M.rngs = .ok r) (r2 : NetsReturned Cs r)
    (r3 : ∀ H ∈ r, ∀ v ∈ H.vertices, 0 ≤ v.part ∧ v.part < k) :
    ∃ o, mainComputeCut M C p k epsilon eta file mode = .ok (some o) ∧ o.Hs = r ∧ ReportsCut p k E V es wt o := by
  have hF := holdMatrix_returned c3 r2
  have hlr : r.length = p := by rw [r2.length, hlC]
  have hlr' : (r.map relist).length = p := by rw [List.length_map, hlr]
  have r3' : ∀ H ∈ r.map relist, ∀ v ∈ H.vertices, 0 ≤ v.part ∧ v.part < k := by
    intro H hH v hv
    obtain ⟨K, hK, rfl⟩ := List.mem_map.1 hH
    obtain ⟨x, hx, rfl⟩ := List.mem_map.1 hv
    exact r3 K hK x hx
  have hWpos : 0 < ((unionH E (r.map relist)).vertices.map (·.weight)).sum := by
    change 0 < (((r.map relist).flatMap (·.vertices)).map (·.weight)).sum
    have h1 := holdMatrix_length hF
    have h2 := holdMatrix_pos hF hw
    have hne' : ((r.map relist).flatMap (·.vertices)).map (·.weight) ≠ [] := by
      intro h
      rw [List.map_eq_nil_iff] at h
      rw [h] at h1
      simp at h1
      omega
    apply List.sum_pos _ _ hne'
    intro x hx
    obtain ⟨v, hv, rfl⟩ := List.mem_map.1 hx
    obtain ⟨H, hHm, hv⟩ := List.mem_flatMap.1 hv
    exact h2 H hHm v hv
  obtain ⟨e, b1, -, b3⟩ := C64_distributed hround E (r.map relist) (by omega : 1 ≤ k) r3' hWpos
  obtain ⟨H0, l, hHl⟩ : ∃ H0 l, r = H0 :: l := by
    cases h : r with
    | nil => rw [h] at hlr; simp at hlr; omega
    | cons a l => exact ⟨a, l, rfl⟩
  have hg : vget r 0 = .ok H0 := by rw [hHl]; rfl
  have hnum : H0.globalNumberNets = E := hF.number (relist H0) (by rw [hHl]; exact List.mem_cons_self ..)
  have hcut := C10_distributed_cutsize hF.dist (np := M.parts E) (by rw [hlr']; exact hM.parts E) hM.dCut hM.setOrder
    .cutNet
  rw [relist_cutsizePar, List.map_const', hlr', holdMatrix_cutNet hF] at hcut
  rw [relist_loadBalancePar, List.map_const', hlr'] at b1
  have hL := holdLabels hF
  refine ⟨⟨r, List.replicate p (some e, false), List.replicate p (rowsSplit E es (labelsOf E (r.map relist)) : Int)⟩,
    ?_, rfl, labelsOf E (r.map relist), ?_, hlr, relist_holdLabels hL, ?_, ?_, rfl, e, rfl, ?_⟩
  · unfold mainComputeCut
    rw [hR, ok_bind]
    dsimp only
    rw [c1, ok_bind, r1, ok_bind, b1, ok_bind, hg, ok_bind, hnum, hcut, ok_bind]
    rfl
  · intro v hv
    obtain ⟨H, hHm, u, hu, -, h2⟩ := HoldLabels.mem hL hv
    rw [← h2]
    exact r3' H hHm u hu
  · have := hF.verts
    rw [relist_flatMap _ (fun _ _ => rfl)] at this
    exact this
  · intro e' he'
    have := hF.pins e' he'
    rw [relist_pins] at this
    exact this
  · have e1 : ((unionH E (r.map relist)).vertices.map (·.weight)).sum = matrixWeight V es wt := holdMatrix_weight hF
    have e2 : (fun q : Nat => partWeight (unionH E (r.map relist)) q) =
        fun q : Nat => columnsWeight V es wt (labelsOf E (r.map relist)) q := by
      funext q
      exact holdMatrix_partWeight hF q
    rw [e1, e2] at b3
    exact b3

/-- C79, partial: for every file of a matrix with columns of positive weight, every number of processors and parts, and
all choices that are not determined, when the recursion with the cut-net metric comes to its end, the cut size reported
is the number of rows with more than one label. What is missing: the recursion can fail as in C77, the file with the
result is not written (`C79_false`), weights of `2^53` or more. -/
theorem C79_partial {M : MainEnv} {C : CutEnv} {p k E V T : Nat} {Bad : Err → Prop} (hM : MainEnvOk M p)
    (hP : ParRecEnvOk M.recEnv E T Bad) (hids : ∀ i, Fair (C.dIds i)) (hpins : Fair C.dPins) (hp1 : 1 ≤ p)
    (hp : p ≤ 2 ^ 50) (hk : 2 ≤ k) (hE : E < 2147483648) (hV : 1 ≤ V) (hT : V < T) {es : List (Nat × Nat)}
    {text : List Char} (hf : GoodFile text E V es) {mode : String} {wt : List Nat → Int} (hm : ModeMeans mode wt)
    (hw : ∀ v < V, 0 < wt (columnOf es v)) (hW : matrixWeight V es wt < 2 ^ 53) (epsilon : ℚ) {eta : ℚ}
    (heta : 0 ≤ eta) :
    (∃ o, mainComputeCut M C p k epsilon eta (some text) mode = .ok (some o) ∧ ReportsCut p k E V es wt o) ∨
    ∃ e, mainComputeCut M C p k epsilon eta (some text) mode = .error e ∧
      (e = .ub ∨ Bad e ∨ (e = .abort ∧ 8 < k ∧ 2 ≤ p)) := by
  obtain ⟨Rs, hR, a2, a3⟩ := goodFile_read hM hf hm
  obtain ⟨Cs, c1, c2, c3⟩ := copies_ok a3
  have hlC : Cs.length = p := by omega
  have hne : Cs ≠ [] := by rintro rfl; simp at hlC; omega
  have hWC := holdMatrix_weight c3
  rcases C77_partial hP hids hpins hE hk hne c3.dist (holdMatrix_pos c3 hw)
    (by rw [holdMatrix_length c3]; exact hT) (by rw [hWC]; exact hW) (by omega) epsilon heta (rngs := M.rngs)
    (by rw [hM.rngs, hlC]) with ⟨r, r1, r2, r3⟩ | ⟨e, r1, r2⟩
  · left
    obtain ⟨o, o1, -, o2⟩ := compute_of_runCut hM hP.rounds hp1 hk hV hw hR c1 hlC c3 r1 r2 r3
    exact ⟨o, o1, o2⟩
  · right
    refine ⟨e, ?_, by rw [hlC] at r2; exact r2⟩
    unfold mainComputeCut
    rw [hR, ok_bind]
    dsimp only
    rw [c1, ok_bind, r1]
    rfl

/-- C79, partial, for the code: with multilevel or random bisection, sampling at random or by label propagation,
double-precision arithmetic, at most eight parts. -/
theorem C79_code_partial {M : MainEnv} {C : CutEnv} {opts : Options} {p k E V T : Nat} (hE : E < 2147483648)
    (hc : RunsCode M.recEnv opts p E T) (hM : MainEnvOk M p) (hids : ∀ i, Fair (C.dIds i)) (hpins : Fair C.dPins)
    (hp1 : 1 ≤ p) (hp : p ≤ 2 ^ 50) (hk : 2 ≤ k) (hk8 : k ≤ 8) (hV : 1 ≤ V) (hT : V < T) {es : List (Nat × Nat)}
    {text : List Char} (hf : GoodFile text E V es) {mode : String} {wt : List Nat → Int} (hm : ModeMeans mode wt)
    (hw : ∀ v < V, 0 < wt (columnOf es v)) (hW : matrixWeight V es wt < 2 ^ 53) (epsilon : ℚ) {eta : ℚ}
    (heta : 0 ≤ eta) :
    (∃ o, mainComputeCut M C p k epsilon eta (some text) mode = .ok (some o) ∧ ReportsCut p k E V es wt o) ∨
    mainComputeCut M C p k epsilon eta (some text) mode = .error .ub ∨
    (opts.bisectionRandom = false ∧ opts.samplingLp = false ∧
      mainComputeCut M C p k epsilon eta (some text) mode = .error .abort) := by
  rcases C79_partial hM (hc.ok hE) hids hpins hp1 hp hk hE hV hT hf hm hw hW epsilon heta with
    h | ⟨e, h1, h2 | ⟨h2, h3 | ⟨h3, h4⟩⟩ | ⟨-, h2, -⟩⟩
  · exact Or.inl h
  · exact Or.inr (Or.inl (by rw [h1, h2]))
  · exact Or.inr (Or.inl (by rw [h1, h3]))
  · exact Or.inr (Or.inr ⟨h2, h3, by rw [h1, h4]⟩)
  · omega

/-- C79 does not hold: the program does not come to a normal end, because writing the result is an access out of bounds
(C41). -/
theorem C79_false {M : MainEnv} {C : CutEnv} {p k E V T : Nat} {Bad : Err → Prop} (hM : MainEnvOk M p)
    (hP : ParRecEnvOk M.recEnv E T Bad) (hids : ∀ i, Fair (C.dIds i)) (hpins : Fair C.dPins) (hp1 : 1 ≤ p)
    (hp : p ≤ 2 ^ 50) (hk : 2 ≤ k) (hE : E < 2147483648) (hV : 1 ≤ V) (hT : V < T) {es : List (Nat × Nat)}
    {text : List Char} (hf : GoodFile text E V es) {mode : String} {wt : List Nat → Int} (hm : ModeMeans mode wt)
    (hw : ∀ v < V, 0 < wt (columnOf es v)) (hW : matrixWeight V es wt < 2 ^ 53) (epsilon : ℚ) {eta : ℚ}
    (heta : 0 ≤ eta) :
    ∃ e, mainRunCut M C p k epsilon eta (some text) mode = .error e ∧
      (e = .ub ∨ Bad e ∨ (e = .abort ∧ 8 < k ∧ 2 ≤ p)) := by
  rcases C79_partial hM hP hids hpins hp1 hp hk hE hV hT hf hm hw hW epsilon heta with
    ⟨o, h1, lab, h2, h3, h4, -⟩ | ⟨e, h1, h2⟩
  · refine ⟨.ub, ?_, Or.inl rfl⟩
    unfold mainRunCut
    rw [h1, ok_bind]
    dsimp only
    rw [C42_false (by omega) (by rintro h; rw [h] at h3; simp at h3; omega) ?_]
    · rfl
    · intro H hH v hv
      have h5 : (v.id, v.part) ∈ (o.Hs.flatMap (·.vertices)).map (fun v => (v.id, v.part)) :=
        List.mem_map.2 ⟨v, List.mem_flatMap.2 ⟨H, hH, hv⟩, rfl⟩
      rw [List.Perm.mem_iff h4] at h5
      obtain ⟨u, hu, he⟩ := List.mem_map.1 h5
      simp only [Prod.mk.injEq] at he
      rw [← he.2]
      exact h2 u (List.mem_range.1 hu)
  · refine ⟨e, ?_, h2⟩
    unfold mainRunCut
    rw [h1]
    rfl

/-! ### Examples -/

theorem exampleMain_recEnv : ParRecEnvOk exampleMain.recEnv 3 10 (fun _ => False) :=
  ⟨codeBis_random_well (fun _ _ => exampleParEnv) 3 10 (opts := { exampleOpts with bisectionRandom := true }) 1 rfl,
    fun _ => randomEnv_well nearest53 false 3 10, fun _ l => l.reverse_perm, fun _ => revDelivery_fair _,
    fun _ => revDelivery_fair _, nearest53_keepsInts, nearest53_rounds⟩

theorem exampleText_good : GoodFile exampleText.toList 3 4 [(1, 1), (3, 2), (1, 4), (3, 1)] :=
  ⟨by decide, by decide, by unfold EntriesIn; decide, by decide, 4, [(1, 1), (3, 2), (1, 4), (3, 1)], rfl, by decide,
    Or.inl ⟨exampleText_mtx, rfl⟩⟩

set_option synthInstance.maxSize 1000 in
/-- The example file of C67, three parts: the first row has one label, the third row two; the second row is empty. -/
example : ((mainComputeCut exampleMain (exampleCutEnv 3) 2 3 (1 / 4) 0 (some exampleText.toList) "one").toOption.bind
      id).map (fun o => (o.Hs.map (fun H => H.vertices.map (fun v => (v.id, v.part))), o.balance, o.cut)) =
    some ([[(0, 2), (1, 0)], [(2, 1), (3, 2)]], [(some (1 / 2), false), (some (1 / 2), false)], [1, 1]) := by
  decide +kernel

/-- All assumptions of C79 hold for it, so it reports the number of split rows. -/
example : ∃ o, mainComputeCut exampleMain (exampleCutEnv 3) 2 3 (1 / 4) 0 (some exampleText.toList) "one" =
      .ok (some o) ∧ ReportsCut 2 3 3 4 [(1, 1), (3, 2), (1, 4), (3, 1)] (fun _ => 1) o := by
  rcases C79_partial (C := exampleCutEnv 3) exampleMain_ok exampleMain_recEnv (exampleCutEnv_ok 3).1
    (exampleCutEnv_ok 3).2 (by decide) (by decide) (by decide : 2 ≤ 3) (by decide) (by decide) (by decide)
    exampleText_good (mode := "one") (wt := fun _ => 1) (Or.inl ⟨rfl, rfl⟩) (fun _ _ => by decide) (by decide) (1 / 4)
    (le_refl 0) with h | ⟨e, h, h1 | h1 | h1⟩
  · exact h
  · have : (mainComputeCut exampleMain (exampleCutEnv 3) 2 3 (1 / 4) 0 (some exampleText.toList) "one").toOption.isSome :=
      by decide +kernel
    rw [h] at this
    cases this
  · exact h1.elim
  · omega

end PMondriaan

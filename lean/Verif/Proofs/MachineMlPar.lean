import Verif.Proofs.MachineCoarsenPar
import Verif.Props.MachineKLFMPar
import Verif.Props.MlPar
import Verif.Props.MachineMl
import Verif.Props.Machine

/-
The multilevel bisection on several processors in 64-bit arithmetic gives what the one without bounds gives, as long
as weights and bounds are moderate.
-/

namespace PMondriaan

open Spec Contraction

/-- Moderate sizes: `p` processors, net ids below `N`, `passes` the largest number of passes of the refinement, `W` a bound
on the weight of all vertices on all processors. -/
structure Spec.WorldModerate (p N passes : Nat) (W max0 max1 : Int) : Prop where
  bounds : ModerateBounds max0 max1
  weights : (3 * (passes : Int) + 1) * W ≤ 2 ^ 60
  w0 : W * max0 < 2 ^ 63
  w1 : W * max1 < 2 ^ 63
  nets : (p : Int) * N ≤ 2 ^ 60

section

variable {F : Type} {N T p passes : Nat} {Hs : List Hypergraph} {W max0 max1 : Int}

theorem Spec.WorldModerate.total (h : WorldModerate p N passes W max0 max1) (hW : 0 ≤ W) : W ≤ 2 ^ 60 := by
  have h1 := h.weights
  have h2 : 0 ≤ (passes : Int) * W := Int.mul_nonneg (by omega) hW
  have h3 : (3 * (passes : Int) + 1) * W = 3 * (passes * W) + W := by ring
  omega

theorem level_nonneg (hL : ParLevel N T Hs) : ∀ H ∈ Hs, WeightsNonneg H := fun H hH v hv => le_of_lt (hL.pos H hH v hv)

theorem level_total_nonneg (hL : ParLevel N T Hs) : 0 ≤ (Hs.map allWeight).sum := by
  apply sum_map_nonneg
  intro H hH
  exact sum_map_nonneg _ _ (level_nonneg hL H hH)

theorem level_costs (hL : ParLevel N T Hs) : (Hs.map (fun H => (H.nets.map (·.cost)).sum)).sum ≤ (Hs.length : Int) * N := by
  have h1 : ∀ H ∈ Hs, (H.nets.map (·.cost)).sum ≤ (N : Int) := by
    intro H hH
    have hnl : H.nets.length ≤ N := by
      rw [← List.length_map (f := (·.id)), ← List.length_range (n := N)]
      apply List.Subperm.length_le
      apply List.subperm_of_subset (hL.dist.wf H hH).nids
      intro i hi
      obtain ⟨n, hm, rfl⟩ := List.mem_map.1 hi
      exact List.mem_range.2 (hL.dist.ids H hH n hm)
    have : H.nets.map (·.cost) = List.replicate H.nets.length 1 := by
      rw [List.eq_replicate_iff]
      refine ⟨by simp, ?_⟩
      intro c hc
      obtain ⟨n, hn, rfl⟩ := List.mem_map.1 hc
      exact hL.costs H hH n hn
    rw [this, List.sum_replicate_int]
    omega
  clear hL
  induction Hs with
  | nil => simp
  | cons H Hs ih =>
    have h2 := h1 H (by simp)
    have h3 := ih (fun K hK => h1 K (by simp [hK]))
    rw [List.map_cons, List.sum_cons, List.length_cons]
    have : ((Hs.length + 1 : Nat) : Int) * N = Hs.length * N + N := by push_cast; ring
    rw [this]
    omega

/-- A product with a smaller nonnegative weight is no larger. -/
theorem mul_mono_lt {a b m B : Int} (h : a ≤ b) (hm : 0 ≤ m) (hb : b * m < B) : a * m < B :=
  lt_of_le_of_lt (Int.mul_le_mul_of_nonneg_right h hm) hb

/-! ### One step of the uncoarsening -/

theorem uncoarsenStepPar64_sim {E : UncoarseEnv} (hE : UncoarseEnvOk E Hs.length N) {maxC : Nat} {S : List (List Nat)}
    {R : List CProc} {Gs : List Hypergraph} (hL : ParLevel N T Hs)
    (hB : BisectedCoarse N maxC Hs S R Gs) (opts : Options)
    (hm : WorldModerate Hs.length N opts.klfmMaxPasses W max0 max1) (hW : (Hs.map allWeight).sum ≤ W)
    {c : Int} {rngs : List Rng} {ps : List ParResult}
    (h : uncoarsenStepPar E opts max0 max1 (some c) ((R.map (·.1)).zip Gs) Hs rngs = .ok ps) :
    uncoarsenStepPar64 E opts max0 max1 (some c) ((R.map (·.1)).zip Gs) Hs rngs = .ok ps := by
  have hT : TrueSizes Hs := ⟨hL.sizes, fun H hH n hn => by rw [hL.costs H hH n hn]; omega⟩
  have n0 := hm.bounds.n0
  have n1 := hm.bounds.n1
  have l0 := hm.bounds.l0
  have l1 := hm.bounds.l1
  have hW0 : 0 ≤ W := le_trans (level_total_nonneg hL) hW
  have hW60 := hm.total hW0
  have hm0 : totalFree ((R.map (·.1)).zip Gs) ≠ 0 → max0 + max1 ≠ 0 := by
    intro h1 h2
    unfold uncoarsenStepPar at h
    rw [C30_zero_bounds hB.freeReady h1 max0 max1 h2, error_bind] at h
    cases h
  obtain ⟨as, Hs', a1, a2, a3, u, a4⟩ := C56_uncoarsen_par hE.srt hE.dPart hB hm0 (rngAt rngs)
  -- the free vertices
  have hU : WeightsNonneg (unionH N Hs) := by
    intro v hv
    obtain ⟨H, hH, hv⟩ := List.mem_flatMap.1 hv
    exact level_nonneg hL H hH v hv
  obtain ⟨hf0, hv0⟩ := free_nonneg hU hB.coarse.contraction
  have hRG := hB.same.length_eq
  have hfree : ∀ s ∈ (R.map (·.1)).zip Gs, ∀ f ∈ s.1.free, 0 ≤ f.2 := by
    intro s hs f hf
    exact hf0 f (List.mem_flatMap.2 ⟨s.1, (List.of_mem_zip hs).1, hf⟩)
  have hwn : ∀ s ∈ (R.map (·.1)).zip Gs, WeightsNonneg s.2 := by
    intro s hs
    obtain ⟨k, hk, hsame⟩ := forall2_mem_right hB.same (List.of_mem_zip hs).2
    refine hsame.weightsNonneg ?_
    intro v hv
    exact hv0 v (List.mem_flatMap.2 ⟨k.2, List.mem_map.2 ⟨k, hk, rfl⟩, hv⟩)
  have hww : worldWeight ((R.map (·.1)).zip Gs) = (Hs.map allWeight).sum := by
    rw [← CoarsenedPar_weight hL.dist hB.coarse]
    unfold worldWeight totalFree
    have e1 : ((R.map (·.1)).zip Gs).map (fun s => (s.2.vertices.map (·.weight)).sum) =
        (((R.map (·.1)).zip Gs).map (·.2)).map allWeight := by rw [List.map_map]; rfl
    have e2 : ((R.map (·.1)).zip Gs).map (fun s => (s.1.free.map (·.2)).sum) =
        (((R.map (·.1)).zip Gs).map (·.1)).map (fun C => (C.free.map (·.2)).sum) := by rw [List.map_map]; rfl
    rw [e1, e2, List.map_snd_zip (by rw [List.length_map]; omega), List.map_fst_zip (by rw [List.length_map]; omega),
      List.map_map]
    congr 2
    exact forall2_map_eq hB.same (fun a b hab => by unfold allWeight; rw [hab.weights])
  have ha64 := assignFreePar64_eq hE.srt hB.freeReady hfree hwn n0 n1 hm.bounds.prod (by omega)
    (by rw [hww]; omega) (by rw [hww]; exact mul_mono_lt hW n0 hm.w0) (by rw [hww]; exact mul_mono_lt hW n1 hm.w1)
    (rngAt rngs)
  have hlen : Hs'.length = Hs.length := u.same.length_eq.symm
  have hpins : ∀ e, (unionPins Hs' e).length = (unionPins Hs e).length := by
    intro e
    unfold unionPins
    have hs := u.same
    clear u a1 a2 a3 a4 hE hB hT hlen ha64 hww hwn hfree hRG hv0 hf0 hU hm0 h hW60 hW0 hW hm hL
    induction hs with
    | nil => rfl
    | cons hx _ ih =>
      rw [List.flatMap_cons, List.flatMap_cons, List.length_append, List.length_append, ih,
        (filter_pins_agree (agree_of_same hx) e).length_eq]
  have hsz : ∀ H' ∈ Hs', ∀ n ∈ H'.nets, n.globalSize = (unionPins Hs' n.id).length := by
    intro H' hH' n hn
    obtain ⟨H, hH, hs⟩ := forall2_mem_right u.same hH'
    obtain ⟨n0, hn0, h1, -, h3, -⟩ := forall2_mem_right hs.nets hn
    rw [hpins, h1, h3]
    exact hT.sizes H hH n0 hn0
  have hcounts := initCountsPar_ok u.dist (np := E.refine.np) (by rw [hlen]; exact hE.np) hE.dCount u.bip hsz
  obtain ⟨cs, hcs⟩ : ∃ cs, cs = Hs'.map (fun H => H.nets.map (fun n =>
      (⟨pinCount (partOf (unionH N Hs')) (unionNet Hs' n.id) 0,
        pinCount (partOf (unionH N Hs')) (unionNet Hs' n.id) 1⟩ : Cnt))) := ⟨_, rfl⟩
  rw [← hcs] at hcounts
  obtain ⟨args, hargs⟩ : ∃ args, args = refineArgs Hs' cs as := ⟨_, rfl⟩
  have hargsH : args.map (·.H) = Hs' := by
    rw [hargs]
    unfold refineArgs
    rw [List.map_map]
    have : ((fun a : ParArgs => a.H) ∘ fun x : (Hypergraph × List Cnt) × Contraction.AState =>
        ({ H := x.1.1, C := x.1.2, w := ⟨x.2.w0, x.2.w1⟩, rng := x.2.rng } : ParArgs)) =
        (fun x => x.1.1) := rfl
    rw [this]
    have h2 : ((Hs'.zip cs).zip as).map (fun x => x.1.1) =
        (((Hs'.zip cs).zip as).map (·.1)).map (·.1) := by rw [List.map_map]; rfl
    have hcl : cs.length = Hs'.length := by rw [hcs]; simp
    rw [h2, List.map_fst_zip (by rw [List.length_zip]; omega), List.map_fst_zip (by omega)]
  have hal : args.length = Hs.length := by
    have := congrArg List.length hargsH
    rw [List.length_map] at this
    omega
  have hmem : ∀ x ∈ args, x.H ∈ Hs' ∧ (∃ y ∈ as, x.w = ⟨y.w0, y.w1⟩) ∧
      x.C = x.H.nets.map (fun n => (⟨pinCount (partOf (unionH N Hs')) (unionNet Hs' n.id) 0,
       pinCount (partOf (unionH N Hs')) (unionNet Hs' n.id) 1⟩ : Cnt)) := by
    intro x hx
    rw [hargs] at hx
    obtain ⟨z, hz, rfl⟩ := List.mem_map.1 hx
    have h1 := List.of_mem_zip hz
    have h2 := List.of_mem_zip h1.1
    refine ⟨h2.1, ⟨z.2, h1.2, rfl⟩, ?_⟩
    have h3 := h1.1
    rw [hcs] at h3
    obtain ⟨i, hi⟩ := List.getElem?_of_mem h3
    obtain ⟨i1, i2⟩ := List.getElem?_zip_eq_some.1 hi
    rw [List.getElem?_map, i1] at i2
    simp only [Option.map_some, Option.some.injEq] at i2
    exact i2.symm
  have hin : ParInput N E.refine.np args := by
    refine ⟨?_, ?_, ?_, ?_, ?_, ?_, ?_⟩
    · rw [hargsH]; exact u.dist
    · rw [hal]; exact hE.np
    · rw [hargsH]
      intro x hx
      exact hsz _ (hmem x hx).1
    · intro x hx
      obtain ⟨H, hH, hs⟩ := forall2_mem_right u.same (hmem x hx).1
      exact hs.costsNonneg (hT.costs H hH)
    · intro x hx
      exact u.bip _ (hmem x hx).1
    · intro x hx
      rw [hargsH]
      exact (hmem x hx).2.2
    · intro x hx
      rw [hargsH]
      obtain ⟨y, hy, he⟩ := (hmem x hx).2.1
      rw [he, (a4 y hy).1, (a4 y hy).2]
  have hwt : (args.map (fun a => (a.H.vertices.map (·.weight)).sum)).sum = (Hs.map allWeight).sum := by
    have e1 : args.map (fun a => (a.H.vertices.map (·.weight)).sum) = (args.map (·.H)).map allWeight := by
      rw [List.map_map]; rfl
    rw [e1, hargsH]
    congr 1
    exact forall2_map_eq u.same (fun a b hab => by unfold allWeight; rw [hab.weights])
  have hct : (args.map (fun a => (a.H.nets.map (·.cost)).sum)).sum = (Hs.map (fun H => (H.nets.map (·.cost)).sum)).sum := by
    have e1 : args.map (fun a => (a.H.nets.map (·.cost)).sum) =
        (args.map (·.H)).map (fun H => (H.nets.map (·.cost)).sum) := by rw [List.map_map]; rfl
    rw [e1, hargsH]
    congr 1
    exact forall2_map_eq u.same (fun a b hab => by
      congr 1
      exact forall2_map_eq hab.nets (fun m n hmn => hmn.2.1))
  have hmod : ParModerate args max0 max1 opts.klfmMaxPasses := by
    refine ⟨?_, ?_, ?_, by omega, by omega⟩
    · intro x hx
      obtain ⟨H, hH, hs⟩ := forall2_mem_right u.same (hmem x hx).1
      exact hs.weightsNonneg (level_nonneg hL H hH)
    · rw [hct]
      exact le_trans (level_costs hL) hm.nets
    · rw [hwt]
      exact le_trans (Int.mul_le_mul_of_nonneg_left hW (by omega)) hm.weights
  have hz : (((R.map (·.1)).zip Gs).map (·.1)) = R.map (·.1) :=
    List.map_fst_zip (by rw [List.length_map, hRG])
  unfold uncoarsenStepPar at h
  unfold uncoarsenStepPar64
  rw [a1, ok_bind, hz, a2, ok_bind, hcounts, ok_bind, ← hargs] at h
  rw [ha64, a1, ok_bind, hz, a2, ok_bind, hcounts, ok_bind, ← hargs]
  exact C109_refine_par64 hE.refine hin hmod (by intro h; cases h) h

/-! ### The coarsest level -/

/-- `cut_size` in 64 bits is `cut_size`. -/
theorem cutSize64_eq {G : Hypergraph} (hw : WeightsNonneg G) (hT : (G.vertices.map (·.weight)).sum < 2 ^ 63)
    {c : Int} (h0 : 0 ≤ c) (hc : c < longMax) (max0 max1 : Int) :
    cutSize64 max0 max1 G (some c) = .ok (cutSize max0 max1 G (some c)) := by
  unfold cutSize64 longMark cutSize
  unfold longMax at hc
  dsimp only
  rw [if_pos (by omega)]
  simp only [ok_bind, pure_eq_ok, weightPart64_eq hw hT, weightPart_eq]
  by_cases h : partWeight G 0 > max0
  · rw [if_pos h, if_pos (Or.inl h)]
  · rw [if_neg h]
    by_cases h1 : partWeight G 1 > max1
    · rw [if_pos h1, if_pos (Or.inr h1)]
    · rw [if_neg h1, if_neg (by tauto)]

theorem cutSize64_ok {G : Hypergraph} (hw : WeightsNonneg G) (hT : (G.vertices.map (·.weight)).sum < 2 ^ 63)
    {c : Int} (h0 : 0 ≤ c) (hc : c < longMax) (max0 max1 : Int) : ∃ x, cutSize64 max0 max1 G (some c) = .ok x :=
  ⟨_, cutSize64_eq hw hT h0 hc max0 max1⟩

theorem initialPar64_eq {E : ParBisectEnv F} (hE : ParBisectEnvOk E p N T)
    (hL : ParLevel N T Hs) (hN : N < 2147483648) (opts : Options)
    (hm : WorldModerate p N passes W max0 max1) (hW : (Hs.map allWeight).sum ≤ W) (n : Nat) (rngs : List Rng) :
    initialPar64 E opts max0 max1 n Hs rngs = initialPar E opts max0 max1 n Hs rngs := by
  have hW60 := hm.total (le_trans (level_total_nonneg hL) hW)
  obtain ⟨Gs, g1, g2⟩ := C57_replicate_partial hL.dist hE.dVert hE.dCost
  have hwt : ∀ H G, Replica Hs H G → (G.vertices.map (·.weight)).sum = (Hs.map allWeight).sum := by
    intro H G hG
    have := (hG.vertices.map (fun y => y.2.1)).sum_eq
    rw [List.map_map, List.map_map] at this
    rw [← unionH_weight N Hs]
    exact this
  have hrun : ∀ x ∈ Gs.zipIdx, ∃ r, (fun x : Hypergraph × Nat => mlLevel (E.seq x.2) x.2 opts max0 max1 n x.1
      (rngAt rngs x.2)) x = .ok r ∧ mlLevel64 (E.seq x.2) x.2 opts max0 max1 n x.1 (rngAt rngs x.2) = .ok r ∧
      ∃ k, cutSize64 max0 max1 r.1 r.2.1 = .ok k := by
    intro x hx
    have hx1 : x.1 ∈ Gs := by
      have := List.mem_map_of_mem (f := Prod.fst) hx
      rwa [List.zipIdx_map_fst] at this
    obtain ⟨H, hH, hG⟩ := forall2_mem_right g2 hx1
    have hready := replica_ready hL hN (hE.seqFuel x.2) hG
    obtain ⟨R, r, h1, h2⟩ := mlLevel_ok (hE.seq x.2) x.2 opts max0 max1 n x.1 (rngAt rngs x.2) hready
    have hwx := hwt H x.1 hG
    refine ⟨_, h1, ?_, ?_⟩
    · rw [mlLevel64_eq (hE.seq x.2) x.2 opts hm.bounds n x.1 (rngAt rngs x.2) hready (by rw [hwx]; omega)]
      exact h1
    · refine cutSize64_ok ?_ ?_ ?_ (cut_lt_longMax hready h2.same) max0 max1
      · exact h2.same.weightsNonneg (fun v hv => le_of_lt (hready.pos v hv))
      · dsimp only
        rw [h2.same.total, hwx]
        omega
      · apply sum_map_nonneg
        intro m hmn
        have h3 := h2.same.nets.subset (List.mem_map.2 ⟨m, hmn, rfl⟩)
        obtain ⟨n', hn', he⟩ := List.mem_map.1 h3
        have he2 : n'.cost = m.cost := congrArg Prod.snd he
        have := hready.costs n' hn'
        split <;> omega
  obtain ⟨Rs, r1, r2⟩ := mapM_choose hrun
  have r64 : Gs.zipIdx.mapM (fun x => mlLevel64 (E.seq x.2) x.2 opts max0 max1 n x.1 (rngAt rngs x.2)) = .ok Rs := by
    refine mapM_sim r1 ?_
    intro a ha b _ hab
    obtain ⟨r, k1, k2, -⟩ := hrun a ha
    have : r = b := Except.ok.inj (k1.symm.trans hab)
    rw [← this]
    exact k2
  obtain ⟨cs, hcs, -⟩ := mapM_choose (l := Rs) (f := fun r => cutSize64 max0 max1 r.1 r.2.1) (P := fun _ _ => True) (by
    intro r hr
    obtain ⟨x, -, -, k, hk⟩ := forall2_mem_right r2 hr
    exact ⟨k, hk, trivial⟩)
  unfold initialPar64 initialPar
  rw [g1, ok_bind, ok_bind, r1, r64, ok_bind, ok_bind, hcs, ok_bind]

/-! ### All levels -/

theorem mlPar64_sim {E : ParBisectEnv F} (hE : ParBisectEnvOk E p N T) (hN : N < 2147483648)
    (opts : Options) (ho : opts.samplingLp = true → 1 ≤ opts.sampleSize)
    (hm : WorldModerate p N opts.klfmMaxPasses W max0 max1) :
    ∀ (n level : Nat) (gos : List Bool) (Hs : List Hypergraph) (rngs : List Rng), Hs.length = p →
      ParLevel N T Hs → gos.length = p → (∃ g, ∀ b ∈ gos, b = g) → rngs.length = p → (Hs.map allWeight).sum ≤ W →
      ∀ L, mlPar E opts max0 max1 n level gos Hs rngs = .ok L → mlPar64 E opts max0 max1 n level gos Hs rngs = .ok L := by
  intro n
  induction n with
  | zero =>
    intro level gos Hs rngs hp hL hg hgo hr hW L h
    unfold mlPar at h
    unfold mlPar64
    obtain ⟨g, hgo⟩ := hgo
    obtain ⟨go, h1, -⟩ := goesOn_agreed hL opts 0 (hg.trans hp.symm) hgo
    rw [h1, ok_bind] at h ⊢
    rw [initialPar64_eq hE hL hN opts hm hW, h]
  | succ n ih =>
    intro level gos Hs rngs hp hL hg hgo hr hW L h
    unfold mlPar at h
    unfold mlPar64
    obtain ⟨g, hgo⟩ := hgo
    obtain ⟨go, h1, -⟩ := goesOn_agreed hL opts (n + 1) (hg.trans hp.symm) hgo
    rw [h1, ok_bind] at h ⊢
    cases go with
    | false =>
      rw [if_neg (by simp)] at h ⊢
      rw [initialPar64_eq hE hL hN opts hm hW, h]
    | true =>
      rw [if_pos rfl] at h ⊢
      have hW60 := hm.total (le_trans (level_total_nonneg hL) hW)
      rw [coarsenPar64_eq (hE.coarse level) (hE.accRandom level) opts ho hp hL.dist hr (level_nonneg hL) (by omega)]
      rcases coarsenPar_cases (hE.coarse level) (hE.accRandom level) opts ho hp hL.dist hr with
        ⟨S, R, rngs', c1, c2, hR⟩ | ⟨a1, a2⟩
      swap
      · rw [a2, error_bind] at h
        cases h
      simp only [c1, ok_bind] at h ⊢
      have hRl : R.length = Hs.length := hR.len
      have hL' := parLevel_coarse hL hR
      have hWR : ((R.map (·.2)).map allWeight).sum ≤ W := by
        have hU : WeightsNonneg (unionH N Hs) := by
          intro v hv
          obtain ⟨H, hH, hv⟩ := List.mem_flatMap.1 hv
          exact level_nonneg hL H hH v hv
        obtain ⟨hf0, -⟩ := free_nonneg hU hR.contraction
        have hfree : 0 ≤ totalFree R := by
          unfold totalFree
          apply sum_map_nonneg
          intro c hc
          apply sum_map_nonneg
          intro f hf
          exact hf0 f (List.mem_flatMap.2 ⟨c.1, List.mem_map.2 ⟨c, hc, rfl⟩, hf⟩)
        have htot := CoarsenedPar_weight hL.dist hR
        rw [List.map_map]
        have : (allWeight ∘ fun c : CProc => c.2) = fun c => allWeight c.2 := rfl
        rw [this]
        omega
      cases hrec : mlPar E opts max0 max1 n (level + 1) ((Hs.zip R).map (fun x => E.ratio x.1.globalSize x.2.2.globalSize))
          (R.map (·.2)) rngs' with
      | error x => rw [hrec, error_bind] at h; cases h
      | ok L1 =>
        have hgl : ((Hs.zip R).map (fun x => E.ratio x.1.globalSize x.2.2.globalSize)).length = p := by
          rw [List.length_map, List.length_zip]; omega
        have hgg : ∃ g, ∀ b ∈ (Hs.zip R).map (fun x => E.ratio x.1.globalSize x.2.2.globalSize), b = g := by
          refine ⟨E.ratio (allSize Hs) (allSize (R.map (·.2))), ?_⟩
          intro b hb
          obtain ⟨x, hx, rfl⟩ := List.mem_map.1 hb
          obtain ⟨h2, h3⟩ := List.of_mem_zip hx
          rw [hL.size _ h2, hL'.size _ (List.mem_map.2 ⟨_, h3, rfl⟩)]
          rfl
        have hlen : (R.map (·.2)).length = p := by rw [List.length_map, hRl, hp]
        have h64 := ih (level + 1) _ (R.map (·.2)) rngs' hlen hL' hgl hgg c2 hWR L1 hrec
        rcases mlPar_ok hE hN opts ho max0 max1 n (level + 1) _ (R.map (·.2)) rngs' hlen hL' hgl hgg c2 with
          ⟨L2, l1, l2⟩ | ⟨-, l1⟩ | ⟨-, l1⟩
        · have he : L2 = L1 := Except.ok.inj (l1.symm.trans hrec)
          subst he
          rw [hrec, ok_bind] at h
          rw [h64, ok_bind]
          have hLl : L2.length = Hs.length := by
            have := l2.same.length_eq
            rw [List.length_map, List.length_map] at this
            omega
          have hag : agreed (L2.map (fun q => q.2.1)) =
              .ok (some (cutValue .cutNet (unionH N (L2.map (·.1))))) := by
            apply agreed_ok
            · intro h
              have h1 := congrArg List.length h
              rw [List.length_map, hLl] at h1
              exact hL.nonempty (List.length_eq_zero_iff.1 h1)
            · intro b hb
              obtain ⟨q, hq, rfl⟩ := List.mem_map.1 hb
              exact l2.cut q hq
          simp only [hag, ok_bind] at h ⊢
          have hB : BisectedCoarse N opts.maxClustersize Hs S R (L2.map (·.1)) := by
            refine ⟨hL.nonempty, hL.dist, hR, ?_, l2.dist, ?_, hL.pos⟩
            · have := l2.same
              rwa [List.forall₂_map_left_iff] at this
            · intro G hG
              obtain ⟨q, hq, rfl⟩ := List.mem_map.1 hG
              exact l2.bip q hq
          rw [bind_eq_ok] at h
          obtain ⟨ps, hps, h⟩ := h
          rw [uncoarsenStepPar64_sim (hp ▸ hE.uncoarse level) hL hB opts (hp ▸ hm) hW hps, ok_bind]
          exact h
        · rw [l1] at hrec; cases hrec
        · rw [l1] at hrec; cases hrec

end

end PMondriaan

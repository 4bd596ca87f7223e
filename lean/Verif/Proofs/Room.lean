import Verif.Props.Levels
import Verif.Props.RecBisect

/-
Bounds that leave room for the heaviest vertex: the refinement restores the balance from any start.
-/

namespace PMondriaan

open Spec

theorem pw_total {H : Hypergraph} {P : Nat → Int} (h : Parts01 H P) : pw H P 0 + pw H P 1 = allWeight H := by
  unfold pw allWeight
  unfold Parts01 at h
  generalize H.vertices = l at h
  induction l with
  | nil => rfl
  | cons v l ih =>
    have h1 := ih (fun x hx => h x (List.mem_cons_of_mem _ hx))
    rw [List.map_cons, List.map_cons, List.map_cons, List.sum_cons, List.sum_cons, List.sum_cons]
    rcases h v (List.mem_cons_self ..) with h2 | h2 <;> simp [h2] at h1 ⊢ <;> omega

theorem exists_of_pw_pos {H : Hypergraph} {P : Nat → Int} {p : Int} (h : 0 < pw H P p) :
    ∃ y ∈ H.vertices, P y.id = p := by
  by_contra hc
  have : pw H P p = 0 := by
    unfold pw
    apply List.sum_eq_zero
    intro x hx
    obtain ⟨v, hv, rfl⟩ := List.mem_map.1 hx
    exact if_neg (fun h => hc ⟨v, hv, h⟩)
  omega

/-- If the bounds leave room for the heaviest vertex, `KLFM` ends within the bounds from every start. -/
theorem KLFM_room {H : Hypergraph} (w : WF H) (hc : CostsNonneg H) (hwn : WeightsNonneg H)
    (hb : Bipartitioned H) {C : List Cnt} (hC : CountsExact H C) {fuel : Nat}
    (hf : H.vertices.length < fuel) {max0 max1 : Int} (h0 : 0 ≤ max0) (h1 : 0 ≤ max1)
    (hroom : ∀ v ∈ H.vertices, allWeight H + v.weight ≤ max0 + max1 + 1) (opts : Options) (rng : Rng) :
    ∃ r, KLFM fuel H C ⟨partWeight H 0, partWeight H 1⟩ max0 max1 opts rng none = .ok r ∧
      Balanced r.H max0 max1 := by
  obtain ⟨r, P1, P', L', h, hR, -, hnw, h01, hsame, hheavy, -⟩ := KLFM_conc (δ := 0) w hc hwn
    (parts01_self w hb) (pinsPerm_self w) hf max0 max1 opts rng none rfl
  rw [conc_self w, ← counts_self w hC] at h
  refine ⟨r, by rw [partWeight_pw 0 w, partWeight_pw 1 w]; exact h, ?_⟩
  have hP1 : pw H P1 0 ≤ max0 ∧ pw H P1 1 ≤ max1 := by
    by_cases hbal : pw H (partOf H) 0 > max0 ∨ pw H (partOf H) 1 > max1
    swap
    · rw [hsame hbal]; omega
    obtain ⟨-, a2, a3, -⟩ := hheavy hbal
    have ht := pw_total h01
    unfold heavyPart pw2 at a2 a3
    by_cases hw1 : pw H (partOf H) 1 > max1
    · simp only [if_pos hw1, other, lim] at a2 a3
      norm_num at a2 a3
      have hb1 : pw H P1 1 ≤ max1 := by
        rcases a3 with a3 | a3
        · exact a3
        · by_contra hlt
          obtain ⟨y, hy, hyp⟩ := exists_of_pw_pos (H := H) (P := P1) (p := 1) (by omega)
          have := a3 y hy hyp
          have := hroom y hy
          omega
      refine ⟨?_, hb1⟩
      rcases a2 with a2 | a2
      · exact a2
      · rw [a2] at hb1; omega
    · have hw0 : pw H (partOf H) 0 > max0 := by omega
      simp only [if_neg hw1, other, lim] at a2 a3
      norm_num at a2 a3
      have hb0 : pw H P1 0 ≤ max0 := by
        rcases a3 with a3 | a3
        · exact a3
        · by_contra hlt
          obtain ⟨y, hy, hyp⟩ := exists_of_pw_pos (H := H) (P := P1) (p := 0) (by omega)
          have := a3 y hy hyp
          have := hroom y hy
          omega
      refine ⟨hb0, ?_⟩
      rcases a2 with a2 | a2
      · exact a2
      · rw [a2] at hb0; omega
  unfold NotWorse at hnw
  unfold Balanced
  rw [hR.hH, partWeight_conc, partWeight_conc]
  omega

/-- The initial partitioning stays within bounds that leave room for the heaviest vertex. -/
theorem initialPartitioning_room {shuf : Shuffle} (hsh : ∀ r l, (shuf r l).1.Perm l)
    {H : Hypergraph} (w : WF H) (hc : CostsNonneg H) (hwn : WeightsNonneg H) {fuel : Nat}
    (hf : H.vertices.length < fuel) (opts : Options) {max0 max1 : Int} (h0 : 0 ≤ max0) (h1 : 0 ≤ max1)
    (hroom : ∀ v ∈ H.vertices, allWeight H + v.weight ≤ max0 + max1 + 1) (rng : Rng)
    {K : Hypergraph} {c : Option Int} {rng' : Rng}
    (h : initialPartitioning fuel shuf H max0 max1 opts rng = .ok (K, c, rng')) : Balanced K max0 max1 := by
  obtain ⟨H', c', rng1, rs, i1, -, -, -, -, i6, i7, -, i9, -, -⟩ :=
    C23_initial_partitioning hsh w hc hwn hf opts max0 max1 rng
  rw [h] at i1
  have e := Except.ok.inj i1
  simp only [Prod.mk.injEq] at e
  rw [e.1]
  cases rs with
  | nil => simp at i6
  | cons r rs =>
    refine i9 ⟨r, List.mem_cons_self .., ?_⟩
    have i8 : ipRound fuel shuf opts max0 max1 H rng = .ok r := i7.1
    obtain ⟨s, b1, b2⟩ := C21_room hsh w hwn opts.lpMaxIterations h0 h1 hroom rng
    obtain ⟨s0, s', -, h2, -, h4, -⟩ := lpBisect_ok hsh w opts.lpMaxIterations max0 max1 rng
    rw [b1] at h2
    obtain rfl := Except.ok.inj h2
    have hsame := withLabels_same w h4.len
    obtain ⟨r', g1, g2, g3⟩ := C18_balance_KLFM (withLabels_wf w h4.len) (hsame.costsNonneg hc) (hsame.weightsNonneg hwn)
      (withLabels_bip h4.labels) (h4.counts ▸ withLabels_counts w h4.len) (fuel := fuel)
      (by rw [hsame.vlen]; exact hf) max0 max1 opts s.rng b2
    unfold ipRound at i8
    rw [b1, ok_bind, setPartsFrom_ok h4.len, ok_bind, weightPart_eq, weightPart_eq, g1] at i8
    rw [← Except.ok.inj i8]
    exact g3

theorem room_same {H H' : Hypergraph} (h : SameUpToParts H H') {max0 max1 : Int}
    (hroom : ∀ v ∈ H.vertices, allWeight H + v.weight ≤ max0 + max1 + 1) :
    ∀ v ∈ H'.vertices, allWeight H' + v.weight ≤ max0 + max1 + 1 := by
  have h2 := congrArg (List.map (·.2.2)) h.vertices
  rw [List.map_map, List.map_map] at h2
  have h2 : H.vertices.map (·.weight) = H'.vertices.map (·.weight) := h2.symm
  have e : allWeight H' = allWeight H := by unfold allWeight; rw [h2]
  intro v hv
  have : v.weight ∈ H.vertices.map (·.weight) := by rw [h2]; exact List.mem_map.2 ⟨v, hv, rfl⟩
  obtain ⟨u, hu, he⟩ := List.mem_map.1 this
  rw [e, ← he]
  exact hroom u hu

/-- Uncoarsening ends within bounds that leave room for the heaviest vertex of the finer hypergraph, whatever the coarse
bisection was. -/
theorem uncoarsenSeq_room {srt : List (Nat × Int) → List (Nat × Int)} (hsrt : ∀ l, (srt l).Perm l)
    {H HC HC' : Hypergraph} {C : Contraction} {maxC : Nat} (w : WF H) (hcost : CostsNonneg H)
    (hwn : WeightsNonneg H) (hs : StarClustering H C maxC) (hc : IsContraction H C HC)
    (hfree : C.globalFree = (C.free.map (·.2)).sum) (hpl : FreePlaced C)
    (hsame : SameContent HC HC') (wc : WF HC') (hb : Bipartitioned HC') {fuel : Nat}
    (hf : H.vertices.length < fuel) (opts : Options) {max0 max1 : Int} (h0 : 0 ≤ max0) (h1 : 0 ≤ max1)
    (hroom : ∀ v ∈ H.vertices, allWeight H + v.weight ≤ max0 + max1 + 1) (rng : Rng) {r : PassResult}
    (hr : uncoarsenSeq fuel srt HC' H C opts max0 max1 rng = .ok r) : Balanced r.H max0 max1 := by
  obtain ⟨a, a1, a2, a3, a4, a5, a6, -, a8, a9⟩ :=
    placed_ok hsrt w hs hc hfree hpl hsame wc hb max0 max1 rng
  obtain ⟨H1, u1, u2, u3, u4, u5, u6⟩ := C27_uncoarsen w a2 hs a4 a5
  have hids : ∀ s ∈ C.samples, IsVertex a.H s := by
    intro s h
    have h1 := a4.map (·.1)
    rw [List.map_map] at h1
    apply h1.symm.subset
    unfold clusterWeights
    rw [List.map_map]
    exact List.mem_map.2 ⟨s, h, rfl⟩
  have hb1 : Bipartitioned H1 := projected_bip w u2 hs u3 u4 a2 a3 hids
  obtain ⟨C1, i1, i2⟩ := initCounts_ok u2 hb1
  have hw0 : a.w0 = partWeight H1 0 := by rw [a8, u6]
  have hw1 : a.w1 = partWeight H1 1 := by rw [a9, u6]
  have hlen : H1.vertices.length < fuel := by rw [u3.vlen]; exact hf
  obtain ⟨r', r1, r2⟩ := KLFM_room u2 (u3.costsNonneg hcost) (u3.weightsNonneg hwn) hb1 i2 hlen h0 h1
    (room_same u3 hroom) opts a.rng
  unfold uncoarsenSeq at hr
  simp only [a1, ok_bind, u1, i1, hw0, hw1] at hr
  rw [hr] at r1
  rw [Except.ok.inj r1]
  exact r2

/-- Every level ends within bounds that leave room for its heaviest vertex. -/
theorem mlLevel_room {F : Type} {E : Env F} {N : Nat} (hE : E.Ok N) (rank : Nat) (opts : Options) {max0 max1 : Int}
    (h0 : 0 ≤ max0) (h1 : 0 ≤ max1) (n : Nat) (H : Hypergraph) (rng : Rng) (hR : LevelReady E.fuel H)
    (hroom : ∀ v ∈ H.vertices, allWeight H + v.weight ≤ max0 + max1 + 1) {R : Hypergraph} {c : Option Int} {rng' : Rng}
    (h : mlLevel E rank opts max0 max1 n H rng = .ok (R, c, rng')) : Balanced R max0 max1 := by
  have base : initialPartitioning E.fuel E.shuf H max0 max1 opts rng = .ok (R, c, rng') → Balanced R max0 max1 :=
    initialPartitioning_room hE.shuf hR.wf hR.costs (fun v hv => le_of_lt (hR.pos v hv)) hR.fuel opts h0 h1 hroom rng
  cases n with
  | zero => exact base h
  | succ n =>
    unfold mlLevel at h
    by_cases hg : H.globalSize > opts.coarseningNrvertices
    swap
    · rw [if_neg hg] at h
      exact base h
    rw [if_pos hg] at h
    obtain ⟨H1, s1, w1, s2, -, s4, -⟩ := C31_partial hR.wf hR.costs hR.total
    obtain ⟨c1, c2⟩ := simplify_costs hR.wf hR.costs hR.total s1
    have hlen1 : H1.vertices.length < E.fuel := by
      rw [s4.length_eq.symm]; exact hR.fuel
    have hpos1 : ∀ v ∈ H1.vertices, 0 < v.weight := by
      intro v hv
      obtain ⟨u, hu, h⟩ := forall2_mem_right s4 hv
      rw [h.2.1]
      exact hR.pos u hu
    have ht1 : (H1.nets.map (·.cost)).sum < 2147483648 := by rw [c2]; exact hR.total
    obtain ⟨HC, C, rng1, k1, wc, hs, hI, -, -, -, hgc, -, hfree, hd⟩ :=
      C26_coarsen E.scores hE.shuf hE.order rank w1 opts rng
    have hpl := freePlaced_of_pos w1 hs hI hpos1
    obtain ⟨HC', rng2, l1, l2⟩ := mlLevel_ok hE rank opts max0 max1 n HC rng1
      (coarse_ready w1 c1 ht1 hpos1 hlen1 hs hI wc hd)
    obtain ⟨r, u1, u2, u3, u4, u5, -⟩ := C27_uncoarsen_seq hE.srt w1 c1
      (fun v hv => le_of_lt (hpos1 v hv)) hs hI hfree hpl l2.same l2.wf l2.bip hlen1 opts max0 max1 rng2
    have hw4 : H1.vertices.map (·.weight) = H.vertices.map (·.weight) := forall2_map_eq s4 (fun a b hab => hab.2.1)
    have hroom1 : ∀ v ∈ H1.vertices, allWeight H1 + v.weight ≤ max0 + max1 + 1 := by
      intro v hv
      obtain ⟨u, hu, h⟩ := forall2_mem_right s4 hv
      have e : allWeight H1 = allWeight H := by unfold allWeight; rw [hw4]
      rw [h.2.1, e]
      exact hroom u hu
    have hbal := uncoarsenSeq_room hE.srt w1 c1 (fun v hv => le_of_lt (hpos1 v hv)) hs hI hfree hpl l2.same l2.wf l2.bip
      hlen1 opts h0 h1 hroom1 rng2 u1
    obtain ⟨R', t1, t2, t3, t4, t5, t6, -⟩ := C32_partial hR.wf hR.dups hR.costs hR.total s1 u4 u3
    simp only [s1, k1, l1, u1, t1, ok_bind, pure_eq_ok] at h
    have e := Except.ok.inj h
    simp only [Prod.mk.injEq] at e
    rw [← e.1]
    refine balanced_of_lists ?_ t6 hbal
    have h1 := congrArg (List.map (·.2)) t5
    have h2 := congrArg (List.map (·.2.2)) u3.vertices
    rw [List.map_map, List.map_map] at h1 h2
    exact (h1.trans hw4.symm).trans h2.symm

/-- As `greedy_over`, by one sharper. -/
theorem greedy_room {W0 W1 m0 m1 : Int} {l : List Vertex} (h : GreedyPlaced W0 W1 m0 m1 l)
    (h0 : W0 ≤ m0) (h1 : W1 ≤ m1) (hnn : ∀ v ∈ l, 0 ≤ v.weight)
    (hroom : ∀ v ∈ l, W0 + W1 + (l.map (·.weight)).sum + v.weight ≤ m0 + m1 + 1) :
    W0 + placedWeight l 0 ≤ m0 ∧ W1 + placedWeight l 1 ≤ m1 := by
  suffices G : ∀ (post pre : List Vertex), l = pre ++ post →
      W0 + placedWeight pre 0 ≤ m0 → W1 + placedWeight pre 1 ≤ m1 →
      placedWeight pre 0 + placedWeight pre 1 = (pre.map (·.weight)).sum →
      W0 + placedWeight l 0 ≤ m0 ∧ W1 + placedWeight l 1 ≤ m1 by
    exact G l [] rfl (by simpa [placedWeight] using h0) (by simpa [placedWeight] using h1)
      (by simp [placedWeight])
  intro post
  induction post with
  | nil => intro pre hl a b _; rw [List.append_nil] at hl; subst hl; exact ⟨a, b⟩
  | cons v post ih =>
    intro pre hl a b hs
    obtain ⟨hp, ho, hq, -⟩ := h pre v post hl
    have hpost : 0 ≤ (post.map (·.weight)).sum :=
      sum_map_nonneg _ _ (fun x hx => hnn x (by rw [hl]; simp [hx]))
    have hsum : (l.map (·.weight)).sum = (pre.map (·.weight)).sum + (v.weight + (post.map (·.weight)).sum) := by
      rw [hl, List.map_append, List.sum_append, List.map_cons, List.sum_cons]
    have hr := hroom v (by rw [hl]; simp)
    refine ih (pre ++ [v]) (by rw [hl]; simp) ?_ ?_ ?_
    · rw [placedWeight_append]
      by_cases hp0 : v.part = 0
      · rw [if_pos hp0]
        by_contra hov
        have := ho hp0 (by omega)
        omega
      · rw [if_neg hp0]; omega
    · rw [placedWeight_append]
      by_cases hp1 : v.part = 1
      · rw [if_pos hp1]
        have := hq hp1
        omega
      · rw [if_neg hp1]; omega
    · rw [placedWeight_append, placedWeight_append, List.map_append, List.sum_append]
      rcases hp with h0 | h0 <;> simp [h0] <;> omega

end PMondriaan

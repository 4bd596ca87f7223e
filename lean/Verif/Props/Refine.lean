import Verif.Proofs.Bridge
import Verif.Spec.Search

/-
Properties C13 – C20: sorted pin lists, moves, gain buckets, gains, KLFM refinement.
-/

namespace PMondriaan

open Spec

theorem exampleS_wf : WF exampleS :=
  WF_create (by decide) (by decide) (by decide) (by decide) (by decide) (by decide)
theorem exampleS_bip : Bipartitioned exampleS := by unfold Bipartitioned; decide
theorem exampleS_sorted : SortedOnPart exampleS := by unfold SortedOnPart; decide
theorem exampleS_counts : CountsExact exampleS exampleC := by unfold CountsExact; decide
theorem exampleS_costs : CostsNonneg exampleS := by unfold CostsNonneg; decide
theorem exampleS_weights : WeightsNonneg exampleS := by unfold WeightsNonneg; decide

/-! ### C13 -/

/-- C13: `sort_vertices_on_part`, given the exact counts, succeeds (no out-of-range access),
only permutes the pins inside each net and leaves every net sorted on part. -/
theorem C13_sort_vertices_on_part {H : Hypergraph} (w : WF H) (hb : Bipartitioned H) {C : List Cnt}
    (hC : CountsExact H C) :
    ∃ H', H.sortVerticesOnPart C = .ok H' ∧ SortedOnPart H' ∧ SameUpToParts H H' ∧
      H'.vertices = H.vertices := by
  obtain ⟨L', h, hL', hS'⟩ := sortVerticesOnPart_conc w (parts01_self w hb) (pinsPerm_self w)
  rw [conc_self w, ← counts_self w hC] at h
  refine ⟨_, h, sorted_conc w (parts01_self w hb) hL' hS', conc_sameUpToParts _ _ hL', ?_⟩
  have := congrArg Hypergraph.vertices (conc_self w)
  simpa [conc] using this

example : ∃ H C, WF H ∧ Bipartitioned H ∧ CountsExact H C ∧ ¬ SortedOnPart H :=
  ⟨exampleH, exampleC, exampleH_wf, by unfold Bipartitioned; decide, by unfold CountsExact; decide,
    by unfold SortedOnPart; decide⟩

/-! ### C14 -/

/-- C14: `move(id, C)` succeeds, changes the part of exactly that vertex to the other side, keeps
the nets sorted and the counts exact, and changes nothing else but the order of pins. -/
theorem C14_move {H : Hypergraph} (w : WF H) (hb : Bipartitioned H) (hs : SortedOnPart H)
    {C : List Cnt} (hC : CountsExact H C) {v : Nat} (hv : IsVertex H v) :
    ∃ H' C', H.move v C = .ok (H', C') ∧ WF H' ∧ Bipartitioned H' ∧ SortedOnPart H' ∧
      CountsExact H' C' ∧ SameUpToParts H H' ∧
      ∀ u, IsVertex H u → partOf H' u = flipped (partOf H) v u := by
  obtain ⟨x, hx, hxv⟩ := List.mem_map.1 hv
  have hxv : x.id = v := hxv
  subst hxv
  have h01 := parts01_self w hb
  obtain ⟨L', h, hL', hS'⟩ := move_conc w h01 (pinsPerm_self w) (allSplit_self w hb hs) hx
  rw [conc_self w, ← counts_self w hC] at h
  have hf01 := flip_01 h01 x.id (h01 x hx)
  refine ⟨_, _, h, conc_wf w _ _ hL', bipartitioned_conc hf01, sorted_conc w hf01 hL' hS',
    countsExact_conc w _ _ hL', conc_sameUpToParts _ _ hL', ?_⟩
  intro u hu
  obtain ⟨y, hy, hyu⟩ := List.mem_map.1 hu
  have hyu : y.id = u := hyu
  subst hyu
  rw [conc_partOf _ _ hy]
  unfold flip upd flipped
  by_cases h : y.id = x.id
  · rw [h]; simp only [if_true]
    rcases h01 x hx with h' | h' <;> simp [h']
  · simp [h]

/-- C14, twice: moving the same vertex again restores every part and the counts. -/
theorem C14_move_twice {H : Hypergraph} (w : WF H) (hb : Bipartitioned H) (hs : SortedOnPart H)
    {C : List Cnt} (hC : CountsExact H C) {v : Nat} (hv : IsVertex H v) :
    ∃ H' C' H'', H.move v C = .ok (H', C') ∧ H'.move v C' = .ok (H'', C) ∧
      SameUpToParts H H'' ∧ H''.vertices = H.vertices := by
  obtain ⟨x, hx, hxv⟩ := List.mem_map.1 hv
  have hxv : x.id = v := hxv
  subst hxv
  have h01 := parts01_self w hb
  obtain ⟨L', h, hL', hS'⟩ := move_conc w h01 (pinsPerm_self w) (allSplit_self w hb hs) hx
  have hf01 := flip_01 h01 x.id (h01 x hx)
  obtain ⟨L2, h2, hL2, -⟩ := move_conc w hf01 hL' hS' hx
  rw [conc_self w, ← counts_self w hC] at h
  rw [flip_flip (h01 x hx)] at h2
  refine ⟨_, _, _, h, ?_, conc_sameUpToParts (partOf H) L2 hL2, ?_⟩
  · rw [h2, counts_self w hC]
    congr 2
    apply cOf_congr
    intro n hn
    unfold exactF
    rw [((hL2 n hn).trans (pinsPerm_self w n hn).symm).countP_eq,
      ((hL2 n hn).trans (pinsPerm_self w n hn).symm).countP_eq]
  · have := congrArg Hypergraph.vertices (conc_self w)
    simpa [conc] using this

/-- C14 for histories: any sequence of moves succeeds and keeps counts and order exact. -/
theorem C14_moves {H : Hypergraph} (w : WF H) (hb : Bipartitioned H) (hs : SortedOnPart H)
    {C : List Cnt} (hC : CountsExact H C) (vs : List Nat) (hv : ∀ v ∈ vs, IsVertex H v) :
    ∃ H' C', vs.foldlM (fun (st : Hypergraph × List Cnt) v => st.1.move v st.2) (H, C) =
        .ok (H', C') ∧ WF H' ∧ Bipartitioned H' ∧ SortedOnPart H' ∧ CountsExact H' C' ∧
      SameUpToParts H H' ∧
      ∀ u, IsVertex H u → partOf H' u = (vs.foldl flipped (partOf H)) u := by
  have h01 := parts01_self w hb
  suffices hsuff : ∀ (vs : List Nat) (P : Nat → Int) (L : Nat → List Nat), Parts01 H P →
      PinsPerm H L → AllSplit H P L → (∀ v ∈ vs, IsVertex H v) →
      ∃ P' L', vs.foldlM (fun (st : Hypergraph × List Cnt) v => st.1.move v st.2)
          (conc H P L, cOf H (exactF P L)) = .ok (conc H P' L', cOf H (exactF P' L')) ∧
        Parts01 H P' ∧ PinsPerm H L' ∧ AllSplit H P' L' ∧
        ∀ x ∈ H.vertices, ∀ Q : Nat → Int, (∀ y ∈ H.vertices, Q y.id = P y.id) →
          P' x.id = (vs.foldl flipped Q) x.id by
    obtain ⟨P', L', h, h1, h2, h3, h4⟩ := hsuff vs _ _ h01 (pinsPerm_self w)
      (allSplit_self w hb hs) hv
    rw [conc_self w, ← counts_self w hC] at h
    refine ⟨_, _, h, conc_wf w _ _ h2, bipartitioned_conc h1, sorted_conc w h1 h2 h3,
      countsExact_conc w _ _ h2, conc_sameUpToParts _ _ h2, ?_⟩
    intro u hu
    obtain ⟨y, hy, hyu⟩ := List.mem_map.1 hu
    have hyu : y.id = u := hyu
    subst hyu
    rw [conc_partOf _ _ hy]
    exact h4 y hy (partOf H) (fun _ _ => rfl)
  intro vs
  induction vs with
  | nil =>
    intro P L h1 h2 h3 _
    exact ⟨P, L, rfl, h1, h2, h3, fun x hx Q hQ => (hQ x hx).symm⟩
  | cons v vs ih =>
    intro P L h1 h2 h3 h4
    obtain ⟨x, hx, hxv⟩ := List.mem_map.1 (h4 v (by simp))
    have hxv : x.id = v := hxv
    subst hxv
    obtain ⟨L1, hm, hL1, hS1⟩ := move_conc w h1 h2 h3 hx
    obtain ⟨P', L', h5, h6, h7, h8, h9⟩ := ih _ _ (flip_01 h1 x.id (h1 x hx)) hL1 hS1
      (fun v hv => h4 v (by simp [hv]))
    refine ⟨P', L', ?_, h6, h7, h8, ?_⟩
    · rw [List.foldlM_cons, hm]; exact h5
    · intro y hy Q hQ
      rw [List.foldl_cons]
      apply h9 y hy
      intro z hz
      unfold flipped flip upd
      by_cases hzx : z.id = x.id
      · rw [hzx, hQ x hx]; simp only [if_true]
        rcases h1 x hx with h' | h' <;> simp [h']
      · simp [hzx, hQ z hz]

example : WF exampleS ∧ Bipartitioned exampleS ∧ SortedOnPart exampleS ∧
    CountsExact exampleS exampleC ∧ ∀ v ∈ [1, 3, 7, 1], IsVertex exampleS v :=
  ⟨exampleS_wf, exampleS_bip, exampleS_sorted, exampleS_counts, by unfold IsVertex; decide⟩

/-! ### C15 -/

theorem runBOps_ok {M : Nat} (ops : List BOp) (hr : ∀ o ∈ ops, o.inRange M) :
    ∀ (b : Buckets) (pre : List BOp), BInv M b (Present pre) → BMax M b (Present pre) →
    ∃ b', ops.foldlM runBOp b = .ok b' ∧ BInv M b' (Present (ops.reverse ++ pre)) ∧
      BMax M b' (Present (ops.reverse ++ pre)) := by
  induction ops with
  | nil => intro b pre h1 h2; exact ⟨b, rfl, h1, h2⟩
  | cons o ops ih =>
    intro b pre h1 h2
    have hr' := fun o ho => hr o (List.mem_cons_of_mem _ ho)
    have ho := hr o (by simp)
    have : ∃ b1, runBOp b o = .ok b1 ∧ BInv M b1 (Present (o :: pre)) ∧
        BMax M b1 (Present (o :: pre)) := by
      cases o with
      | insert id g =>
        obtain ⟨b1, h3, h4, h5, -⟩ := insert_ok h1 id ho
        exact ⟨b1, h3, h4, h5 h2⟩
      | remove id g =>
        obtain ⟨f, b1, h3, -, h4, h5⟩ := remove_ok h1 id ho
        exact ⟨b1, by simp [runBOp, h3], h4, h5 h2⟩
      | next r =>
        obtain ⟨x, b1, r', h3, h4, h5, -⟩ := bnext_ok h1 h2 r
        exact ⟨b1, by simp [runBOp, h3], h4, h5⟩
      | gainNext =>
        obtain ⟨x, b1, h3, h4, h5, -⟩ := bgainNext_ok h1 h2
        exact ⟨b1, by simp [runBOp, h3], h4, h5⟩
    obtain ⟨b1, h3, h4, h5⟩ := this
    obtain ⟨b', h6, h7, h8⟩ := ih hr' b1 (o :: pre) h4 h5
    refine ⟨b', ?_, ?_, ?_⟩
    · rw [List.foldlM_cons, h3]; exact h6
    · simpa using h7
    · simpa using h8

theorem fillBOps_ok {M : Nat} (ops : List BOp) (hr : ∀ o ∈ ops, o.inRange M)
    (hi : ∀ o ∈ ops, o.isInsert) :
    ∀ (b : Buckets) (pre : List BOp), BInv M b (Present pre) → b.maxIndex = 2 * M + 1 →
    ∃ b', ops.foldlM runBOp b = .ok b' ∧ BInv M b' (Present (ops.reverse ++ pre)) ∧
      b'.maxIndex = 2 * M + 1 := by
  induction ops with
  | nil => intro b pre h1 h2; exact ⟨b, rfl, h1, h2⟩
  | cons o ops ih =>
    intro b pre h1 h2
    have ho := hr o (by simp)
    have hoi := hi o (by simp)
    cases o with
    | insert id g =>
      obtain ⟨b1, h3, h4, -, h5⟩ := insert_ok h1 id ho
      obtain ⟨b', h6, h7, h8⟩ := ih (fun o ho => hr o (List.mem_cons_of_mem _ ho))
        (fun o ho => hi o (List.mem_cons_of_mem _ ho)) b1 (.insert id g :: pre) h4 (h5 h2)
      refine ⟨b', ?_, by simpa using h7, h8⟩
      rw [List.foldlM_cons]
      simp only [runBOp, h3, ok_bind]
      exact h6
    | remove id g => exact absurd hoi (by simp [BOp.isInsert])
    | next r => exact absurd hoi (by simp [BOp.isInsert])
    | gainNext => exact absurd hoi (by simp [BOp.isInsert])

/-- C15: construct, fill, `set_max_present` with an index at least that of every present gain
(as `gain_structure::init_` does), then run any history of inserts, removes and queries with
in-range gains. Everything succeeds, and `next` / `gain_next` then deliver an element of largest
gain and that gain, or "nothing" exactly when nothing is present. -/
theorem C15_buckets (M : Nat) (fill ops : List BOp) (hfill : ∀ o ∈ fill, o.isInsert)
    (hr : ∀ o ∈ fill ++ ops, o.inRange M) (gmax : Int) (hg : -(M : Int) ≤ gmax ∧ gmax ≤ M)
    (hmax : ∀ u g, Present fill.reverse u g → g ≤ gmax) :
    ∃ b0 b, fill.foldlM runBOp (Buckets.create (2 * M + 1)) = .ok b0 ∧
      ops.foldlM runBOp (b0.setMaxPresent (b0.gainToIndex gmax)) = .ok b ∧
      (∀ r, ∃ o b' r', b.next r = .ok (o, b', r') ∧
        match o with
        | none => ∀ u g, ¬ Present (ops.reverse ++ fill.reverse) u g
        | some u => ∃ g, Present (ops.reverse ++ fill.reverse) u g ∧
            ∀ u' g', Present (ops.reverse ++ fill.reverse) u' g' → g' ≤ g) ∧
      (∃ o b', b.gainNext = .ok (o, b') ∧
        match o with
        | none => ∀ u g, ¬ Present (ops.reverse ++ fill.reverse) u g
        | some g => (∃ u, Present (ops.reverse ++ fill.reverse) u g) ∧
            ∀ u' g', Present (ops.reverse ++ fill.reverse) u' g' → g' ≤ g) := by
  obtain ⟨h1, h2, -⟩ := bcreate_inv M (Present []) (by simp [Present])
  obtain ⟨b0, hb0, hi0, -⟩ := fillBOps_ok fill (fun o ho => hr o (by simp [ho])) hfill _ _ h1 h2
  simp only [List.append_nil] at hi0
  have hi1 : BInv M (b0.setMaxPresent (b0.gainToIndex gmax)) (Present fill.reverse) :=
    ⟨hi0.len, hi0.nd, hi0.mem, hi0.rng, hi0.min_lo, hi0.min_hi, hi0.low⟩
  have hm1 : BMax M (b0.setMaxPresent (b0.gainToIndex gmax)) (Present fill.reverse) := by
    rw [hi0.gainToIndex]
    refine ⟨?_, ?_, ?_⟩
    · simp only [Buckets.setMaxPresent]; omega
    · simp only [Buckets.setMaxPresent]; omega
    · intro u g h
      have := hmax u g h
      simp only [Buckets.setMaxPresent]; omega
  obtain ⟨b, hb, hi2, hm2⟩ := runBOps_ok ops (fun o ho => hr o (by simp [ho])) _ _ hi1 hm1
  refine ⟨b0, b, hb0, hb, ?_, ?_⟩
  · intro r
    obtain ⟨o, b', r', hn, -, -, ho⟩ := bnext_ok hi2 hm2 r
    exact ⟨o, b', r', hn, ho⟩
  · obtain ⟨o, b', hn, -, -, ho⟩ := bgainNext_ok hi2 hm2
    exact ⟨o, b', hn, ho⟩

example : ∃ (fill ops : List BOp), (∀ o ∈ fill, o.isInsert) ∧ (∀ o ∈ fill ++ ops, o.inRange 3) ∧
    (∀ u g, Present fill.reverse u g → g ≤ 2) ∧ Present (ops.reverse ++ fill.reverse) 4 (-1) ∧
    ¬ Present (ops.reverse ++ fill.reverse) 7 2 := by
  refine ⟨[.insert 7 2, .insert 4 (-1)], [.remove 7 2, .next (fun _ => 0)], ?_, ?_, ?_, ?_, ?_⟩
  · simp [BOp.isInsert]
  · simp [BOp.inRange]
  · intro u g h
    simp only [List.reverse_cons, List.reverse_nil, List.nil_append, List.cons_append, Present,
      false_or] at h
    omega
  · simp [Present]
  · simp [Present]

/-- C15, the trap: a bucket object on which `set_max_present` was never called reads past its
vector of buckets at the first query, for every size and every filling. -/
theorem C15_fresh_query_out_of_bounds (M : Nat) (fill : List BOp) (hfill : ∀ o ∈ fill, o.isInsert)
    (hr : ∀ o ∈ fill, o.inRange M) :
    ∃ b, fill.foldlM runBOp (Buckets.create (2 * M + 1)) = .ok b ∧
      (∀ r, b.next r = .error .ub) ∧ b.gainNext = .error .ub := by
  obtain ⟨h1, h2, -⟩ := bcreate_inv M (Present []) (by simp [Present])
  obtain ⟨b, hb, hi, hm⟩ := fillBOps_ok fill hr hfill _ _ h1 h2
  have hfind : b.findNextIndex = .error .ub := by
    unfold Buckets.findNextIndex
    rw [if_neg (by omega), if_neg (by omega), hm]
    have : ((2 * (M : Int) + 1 + 1).toNat) = (2 * M + 1) + 1 := by omega
    simp only [this, Buckets.descend]
    rw [if_pos (by
      rw [hi.gainToIndex]
      have := hi.min_hi
      push_cast
      omega)]
    have hnone : b.buckets[2 * M + 1]? = none := by
      rw [List.getElem?_eq_none_iff, hi.len]
    simp [vget, hnone]
  refine ⟨b, hb, ?_, ?_⟩
  · intro r; unfold Buckets.next; rw [hfind]; rfl
  · unfold Buckets.gainNext; rw [hfind]; rfl

/-! ### C16 -/

/-- Invariant behind C16. -/
theorem reach_inv {H : Hypergraph} (w : WF H) (hc : CostsNonneg H) (hb : Bipartitioned H)
    (hs : SortedOnPart H) {C : List Cnt} (hC : CountsExact H C) {s : GainStructure} {l : List Nat}
    (hr : Reach H C s l) :
    ∃ M P L G, MaxCost H M ∧ SInv H M P L G s ∧
      ∀ v ∈ H.vertices, (G v.id = none ↔ v.id ∈ l) := by
  induction hr with
  | init h =>
    obtain ⟨M, s, G, hs', hM, hI, hG⟩ := create_ok (L := pinsOf H) w hc (parts01_self w hb)
      (exactF (partOf H) (pinsOf H))
    rw [conc_self w, ← counts_self w hC, h] at hs'
    cases hs'
    refine ⟨M, _, _, G, hM, ⟨hI, ?_, parts01_self w hb, pinsPerm_self w, allSplit_self w hb hs⟩, ?_⟩
    · intro x hx g hg
      rw [hG x hx] at hg
      exact (Option.some.inj hg).symm
    · intro v hv; simp [hG v hv]
  | move _ hv hnl hm ih =>
    obtain ⟨M, P, L, G, hM, hS, hl⟩ := ih
    obtain ⟨x, hx, hxv⟩ := List.mem_map.1 hv
    subst hxv
    obtain ⟨g, hg⟩ := Option.ne_none_iff_exists'.1 (fun h => hnl ((hl x hx).1 h))
    obtain ⟨L', s', G', hm', hS', hnone⟩ := hS.move w hc hM hx hg
    rw [hm] at hm'
    cases hm'
    refine ⟨M, _, L', G', hM, hS', ?_⟩
    intro v hv'
    rw [hnone v.id, hl v hv', List.mem_cons]
  | remove _ hv hnl hm ih =>
    obtain ⟨M, P, L, G, hM, hS, hl⟩ := ih
    obtain ⟨x, hx, hxv⟩ := List.mem_map.1 hv
    subst hxv
    obtain ⟨g, hg⟩ := Option.ne_none_iff_exists'.1 (fun h => hnl ((hl x hx).1 h))
    obtain ⟨s', hm', hS'⟩ := hS.remove w hx hg
    rw [hm] at hm'
    cases hm'
    refine ⟨M, _, _, _, hM, hS', ?_⟩
    intro v hv'
    rw [upd_none_iff v.id, hl v hv', List.mem_cons]
  | next _ hp hn ih =>
    obtain ⟨M, P, L, G, hM, hS, hl⟩ := ih
    obtain ⟨o, s', r', hn', hI, -⟩ := gnext_ok hS.inv hp _
    rw [hn] at hn'
    cases hn'
    exact ⟨M, P, L, G, hM, ⟨hI, hS.ok, hS.h01, hS.hL, hS.hS⟩, hl⟩
  | gainNext _ hp hn ih =>
    obtain ⟨M, P, L, G, hM, hS, hl⟩ := ih
    obtain ⟨o, s', hn', hI, -⟩ := ggainNext_ok hS.inv hp
    rw [hn] at hn'
    cases hn'
    exact ⟨M, P, L, G, hM, ⟨hI, hS.ok, hS.h01, hS.hL, hS.hS⟩, hl⟩
  | done _ hn ih =>
    obtain ⟨M, P, L, G, hM, hS, hl⟩ := ih
    obtain ⟨o, s', hn', hI, -⟩ := gdone_ok hS.inv
    rw [hn] at hn'
    cases hn'
    exact ⟨M, P, L, G, hM, ⟨hI, hS.ok, hS.h01, hS.hL, hS.hS⟩, hl⟩
  | bucketDone _ hp hn ih =>
    obtain ⟨M, P, L, G, hM, hS, hl⟩ := ih
    obtain ⟨o, s', hn', hI, -⟩ := gbucketDone_ok hS.inv hp
    rw [hn] at hn'
    cases hn'
    exact ⟨M, P, L, G, hM, ⟨hI, hS.ok, hS.h01, hS.hL, hS.hS⟩, hl⟩

theorem trueGain_conc {H : Hypergraph} (w : WF H) {P : Nat → Int} {L : Nat → List Nat}
    (h01 : Parts01 H P) (hL : PinsPerm H L) {x : Vertex} (hx : x ∈ H.vertices) :
    gainSum H (exactF P L) P x = trueGain (conc H P L) x.id := by
  rw [gainSum_cut w h01 hL hx]
  unfold trueGain
  rw [cutNet_conc hL, cutNet_conc hL]
  congr 1
  · exact cutNet_congr (fun n hn u hu => (partOf_conc_pin w hn hu).symm)
  · apply cutNet_congr
    intro n hn u hu
    rw [flip_eq_flipped w hn h01 x.id hu]
    unfold flipped
    rw [partOf_conc_pin w hn hu]

/-- C16: in every state the refinement can reach (any starting bisection, any history of moves,
removals and queries), the stored gain of each vertex that was not moved or removed is the true
decrease of the cut, the mark "locked" is on exactly the others, and `next` / `gain_next` deliver
an unlocked vertex of the part with the largest true gain, and that gain. -/
theorem C16_gains_exact {H : Hypergraph} (w : WF H) (hc : CostsNonneg H) (hb : Bipartitioned H)
    (hs : SortedOnPart H) {C : List Cnt} (hC : CountsExact H C) {s : GainStructure} {l : List Nat}
    (hr : Reach H C s l) :
    (∀ (i : Nat) (v : Vertex), H.vertices[i]? = some v →
      s.gains[i]? = some (if v.id ∈ l then none else some (trueGain s.H v.id))) ∧
    (∀ p, p = 0 ∨ p = 1 → ∀ r, ∃ o s' r', s.next p r = .ok (o, s', r') ∧
      match o with
      | none => ∀ v, IsVertex H v → v ∉ l → partOf s.H v ≠ p
      | some u => IsVertex H u ∧ u ∉ l ∧ partOf s.H u = p ∧
          ∀ v, IsVertex H v → v ∉ l → partOf s.H v = p → trueGain s.H v ≤ trueGain s.H u) ∧
    (∀ p, p = 0 ∨ p = 1 → ∃ o s', s.gainNext p = .ok (o, s') ∧
      match o with
      | none => ∀ v, IsVertex H v → v ∉ l → partOf s.H v ≠ p
      | some g => (∃ u, IsVertex H u ∧ u ∉ l ∧ partOf s.H u = p ∧ g = trueGain s.H u) ∧
          ∀ v, IsVertex H v → v ∉ l → partOf s.H v = p → trueGain s.H v ≤ g) := by
  obtain ⟨M, P, L, G, hM, hS, hl⟩ := reach_inv w hc hb hs hC hr
  have hval : ∀ x ∈ H.vertices, x.id ∉ l → G x.id = some (trueGain s.H x.id) := by
    intro x hx hnl
    obtain ⟨g, hg⟩ := Option.ne_none_iff_exists'.1 (fun h => hnl ((hl x hx).1 h))
    rw [hg, hS.ok x hx g hg, trueGain_conc w hS.h01 hS.hL hx, hS.inv.hH]
  have hpart : ∀ x ∈ H.vertices, partOf s.H x.id = P x.id := by
    intro x hx; rw [hS.inv.hH]; exact conc_partOf _ _ hx
  -- membership in a bucket, in words
  have hin : ∀ p u g, InBucket H P G p u g ↔
      (IsVertex H u ∧ u ∉ l ∧ partOf s.H u = p ∧ g = trueGain s.H u) := by
    intro p u g
    unfold InBucket
    constructor
    · rintro ⟨h1, h2, h3⟩
      obtain ⟨x, hx, hxu⟩ := List.mem_map.1 h1
      subst hxu
      have hnl : x.id ∉ l := by
        intro hm; rw [(hl x hx).2 hm] at h3; cases h3
      refine ⟨h1, hnl, by rw [hpart x hx]; exact h2, ?_⟩
      rw [hval x hx hnl] at h3
      exact (Option.some.inj h3).symm
    · rintro ⟨h1, h2, h3, h4⟩
      obtain ⟨x, hx, hxu⟩ := List.mem_map.1 h1
      subst hxu
      exact ⟨h1, by rw [← hpart x hx]; exact h3, by rw [h4]; exact hval x hx h2⟩
  refine ⟨?_, ?_, ?_⟩
  · intro i v hi
    have hv := List.mem_of_getElem? hi
    rw [hS.inv.hg, gOf_get hi]
    congr 1
    split
    · rename_i hm; exact (hl v hv).2 hm
    · rename_i hm; exact hval v hv hm
  · intro p hp r
    obtain ⟨o, s', r', hn, -, ho⟩ := gnext_ok hS.inv hp r
    refine ⟨o, s', r', hn, ?_⟩
    cases o with
    | none =>
      simp only at ho ⊢
      intro v hv hnl hpv
      exact ho v _ ((hin p v _).2 ⟨hv, hnl, hpv, rfl⟩)
    | some u =>
      simp only at ho ⊢
      obtain ⟨g, hg, hmax⟩ := ho
      obtain ⟨h1, h2, h3, h4⟩ := (hin p u g).1 hg
      refine ⟨h1, h2, h3, ?_⟩
      intro v hv hnl hpv
      have := hmax v _ ((hin p v _).2 ⟨hv, hnl, hpv, rfl⟩)
      omega
  · intro p hp
    obtain ⟨o, s', hn, -, ho⟩ := ggainNext_ok hS.inv hp
    refine ⟨o, s', hn, ?_⟩
    cases o with
    | none =>
      simp only at ho ⊢
      intro v hv hnl hpv
      exact ho v _ ((hin p v _).2 ⟨hv, hnl, hpv, rfl⟩)
    | some g =>
      simp only at ho ⊢
      obtain ⟨⟨u, hu⟩, hmax⟩ := ho
      refine ⟨⟨u, (hin p u g).1 hu⟩, ?_⟩
      intro v hv hnl hpv
      exact hmax v _ ((hin p v _).2 ⟨hv, hnl, hpv, rfl⟩)

/-- C16, progress: the structure can be built, and in every reachable state moving or removing any
vertex that is not locked succeeds. So `Reach` covers every history. -/
theorem C16_progress {H : Hypergraph} (w : WF H) (hc : CostsNonneg H) (hb : Bipartitioned H)
    (hs : SortedOnPart H) {C : List Cnt} (hC : CountsExact H C) :
    (∃ s, GainStructure.create H C = .ok s) ∧
    ∀ s l, Reach H C s l → ∀ v, IsVertex H v → v ∉ l →
      (∃ s', s.move v = .ok s') ∧ (∃ s', s.remove v = .ok s') := by
  constructor
  · obtain ⟨M, s, G, hs', -⟩ := create_ok (L := pinsOf H) w hc (parts01_self w hb)
      (exactF (partOf H) (pinsOf H))
    rw [conc_self w, ← counts_self w hC] at hs'
    exact ⟨s, hs'⟩
  · intro s l hr v hv hnl
    obtain ⟨M, P, L, G, hM, hS, hl⟩ := reach_inv w hc hb hs hC hr
    obtain ⟨x, hx, hxv⟩ := List.mem_map.1 hv
    subst hxv
    obtain ⟨g, hg⟩ := Option.ne_none_iff_exists'.1 (fun h => hnl ((hl x hx).1 h))
    obtain ⟨L', s', G', hm', -⟩ := hS.move w hc hM hx hg
    obtain ⟨s'', hm'', -⟩ := hS.remove w hx hg
    exact ⟨⟨s', hm'⟩, ⟨s'', hm''⟩⟩

example : ∃ s, Reach exampleS exampleC s [3, 1] := by
  have hp := C16_progress exampleS_wf exampleS_costs exampleS_bip exampleS_sorted exampleS_counts
  obtain ⟨s0, h0⟩ := hp.1
  have hv1 : IsVertex exampleS 1 := by unfold IsVertex; decide
  have hv3 : IsVertex exampleS 3 := by unfold IsVertex; decide
  have r0 := Reach.init h0
  obtain ⟨s1, h1⟩ := (hp.2 s0 [] r0 1 hv1 (by decide)).1
  have r1 := Reach.move r0 hv1 (by decide) h1
  obtain ⟨s2, h2⟩ := (hp.2 s1 [1] r1 3 hv3 (by decide)).2
  exact ⟨s2, Reach.remove r1 hv3 (by decide) h2⟩

/-! ### C17 – C20 -/

/-- C17 and C18 for one pass. Started with the exact cut value, counts and weights on a hypergraph
whose nets are sorted on part, `KLFM_pass` succeeds for every random stream and every hash order;
it returns the cut of the partition it leaves behind, at most the starting cut; the counts and
weights are exact; only parts and pin order change; and no part ends heavier than both its limit
and its starting weight. -/
theorem C17_KLFM_pass {H : Hypergraph} (w : WF H) (hc : CostsNonneg H) (hb : Bipartitioned H)
    (hs : SortedOnPart H) {C : List Cnt} (hC : CountsExact H C) {fuel : Nat}
    (hf : H.vertices.length < fuel) (max0 max1 : Int) (maxNoGain : Nat) (rng : Rng) :
    ∃ r, KLFMPass fuel H C (cutValue .cutNet H) ⟨partWeight H 0, partWeight H 1⟩ max0 max1
        maxNoGain rng = .ok r ∧
      r.cut = cutValue .cutNet r.H ∧ r.cut ≤ cutValue .cutNet H ∧
      CountsExact r.H r.C ∧ r.w = ⟨partWeight r.H 0, partWeight r.H 1⟩ ∧
      SameUpToParts H r.H ∧ WF r.H ∧ Bipartitioned r.H ∧ SortedOnPart r.H ∧
      (WeightsNonneg H → partWeight r.H 0 ≤ max max0 (partWeight H 0) ∧
        partWeight r.H 1 ≤ max max1 (partWeight H 1)) := by
  obtain ⟨r, P', L', h, hR, hle, hnw, -⟩ := KLFMPass_ok (δ := 0) w hc (parts01_self w hb)
    (pinsPerm_self w) (allSplit_self w hb hs) hf (cut := cutNet (partOf H) H.nets) (by omega)
    max0 max1 maxNoGain rng
  rw [conc_self w, ← counts_self w hC] at h
  have hg := hR.good w
  have hcut := hR.cut w
  refine ⟨r, ?_, by omega, ?_, hg.counts, hg.weights, hg.same, hg.wf, hg.bip, hg.sorted, ?_⟩
  · rw [partWeight_pw 0 w, partWeight_pw 1 w]; exact h
  · rw [hR.hcut]; show _ ≤ cutNet (partOf H) H.nets; omega
  · intro hwn
    have := hnw hwn
    unfold NotWorse at this
    rw [hR.hH, partWeight_conc, partWeight_conc, partWeight_pw 0 w, partWeight_pw 1 w]
    constructor
    · rcases this.1 with h | h
      · exact le_trans h (le_max_left _ _)
      · exact le_trans h (le_max_right _ _)
    · rcases this.2 with h | h
      · exact le_trans h (le_max_left _ _)
      · exact le_trans h (le_max_right _ _)

/-- C17 and C18 for `KLFM`: started from an unsorted, exactly counted bisection within its bounds,
without a known cut (`none`) or with the exact one, `KLFM` returns the exact cut of what it leaves
behind, not larger than the starting cut, with exact counts and weights, and both parts within
their bounds. -/
theorem C17_KLFM {H : Hypergraph} (w : WF H) (hc : CostsNonneg H) (hwn : WeightsNonneg H)
    (hb : Bipartitioned H) {C : List Cnt} (hC : CountsExact H C) {fuel : Nat}
    (hf : H.vertices.length < fuel) (max0 max1 : Int) (opts : Options) (rng : Rng)
    (cut : Option Int) (hcut : ∀ c, cut = some c → c = cutValue .cutNet H)
    (hbal : partWeight H 0 ≤ max0 ∧ partWeight H 1 ≤ max1) :
    ∃ r, KLFM fuel H C ⟨partWeight H 0, partWeight H 1⟩ max0 max1 opts rng cut = .ok r ∧
      r.cut = cutValue .cutNet r.H ∧ r.cut ≤ cutValue .cutNet H ∧
      CountsExact r.H r.C ∧ r.w = ⟨partWeight r.H 0, partWeight r.H 1⟩ ∧
      SameUpToParts H r.H ∧ WF r.H ∧ Bipartitioned r.H ∧
      partWeight r.H 0 ≤ max0 ∧ partWeight r.H 1 ≤ max1 := by
  obtain ⟨r, P1, P', L', h, hR, hle, hnw, -, hP1, -⟩ := KLFM_conc (δ := 0) w hc hwn (parts01_self w hb)
    (pinsPerm_self w) hf max0 max1 opts rng cut (by
      cases cut with
      | none => rfl
      | some c => simp only; rw [hcut c rfl]; show cutNet (partOf H) H.nets = _; omega)
  rw [conc_self w, ← counts_self w hC] at h
  have hp0 := partWeight_pw (H := H) 0 w
  have hp1 := partWeight_pw (H := H) 1 w
  have hP1' := hP1 (by omega)
  subst hP1'
  have hg := hR.good w
  have hcut := hR.cut w
  have e0 : partWeight r.H 0 = pw H P' 0 := by rw [hR.hH, partWeight_conc]
  have e1 : partWeight r.H 1 = pw H P' 1 := by rw [hR.hH, partWeight_conc]
  unfold NotWorse at hnw
  refine ⟨r, ?_, by omega, ?_, hg.counts, hg.weights, hg.same, hg.wf, hg.bip, by omega, by omega⟩
  · rw [hp0, hp1]; exact h
  · rw [hR.hcut]; show _ ≤ cutNet (partOf H) H.nets; omega

/-- C17 for `KLFM` started with any (also overweight) bisection and any claimed starting cut `c`:
the returned value differs from the true cut by exactly the error of the claim, and counts, weights
and structure are exact. -/
theorem C17_KLFM_any_start {H : Hypergraph} (w : WF H) (hc : CostsNonneg H) (hwn : WeightsNonneg H)
    (hb : Bipartitioned H) {C : List Cnt} (hC : CountsExact H C) {fuel : Nat}
    (hf : H.vertices.length < fuel) (max0 max1 : Int) (opts : Options) (rng : Rng) (c : Int) :
    ∃ r, KLFM fuel H C ⟨partWeight H 0, partWeight H 1⟩ max0 max1 opts rng (some c) = .ok r ∧
      r.cut - cutValue .cutNet r.H = c - cutValue .cutNet H ∧
      CountsExact r.H r.C ∧ r.w = ⟨partWeight r.H 0, partWeight r.H 1⟩ ∧
      SameUpToParts H r.H ∧ WF r.H ∧ Bipartitioned r.H := by
  obtain ⟨r, P1, P', L', h, hR, -⟩ := KLFM_conc (δ := c - cutNet (partOf H) H.nets) w hc hwn
    (parts01_self w hb) (pinsPerm_self w) hf max0 max1 opts rng (some c) (by simp only; omega)
  rw [conc_self w, ← counts_self w hC] at h
  have hg := hR.good w
  have hcut := hR.cut w
  refine ⟨r, ?_, ?_, hg.counts, hg.weights, hg.same, hg.wf, hg.bip⟩
  · rw [partWeight_pw 0 w, partWeight_pw 1 w]; exact h
  · show _ = c - cutNet (partOf H) H.nets; omega

example : ∃ H C, WF H ∧ CostsNonneg H ∧ WeightsNonneg H ∧ Bipartitioned H ∧ SortedOnPart H ∧
    CountsExact H C ∧ cutValue .cutNet H = 8 ∧ partWeight H 0 ≤ 8 ∧ partWeight H 1 ≤ 5 :=
  ⟨exampleS, exampleC, exampleS_wf, exampleS_costs, exampleS_weights, exampleS_bip,
    exampleS_sorted, exampleS_counts, by decide, by decide, by decide⟩

/-- C18: a refinement that starts within the bounds ends within the bounds, with tracked weights
equal to the real ones (single pass). -/
theorem C18_balance_pass {H : Hypergraph} (w : WF H) (hc : CostsNonneg H) (hwn : WeightsNonneg H)
    (hb : Bipartitioned H) (hs : SortedOnPart H) {C : List Cnt} (hC : CountsExact H C) {fuel : Nat}
    (hf : H.vertices.length < fuel) (max0 max1 : Int) (maxNoGain : Nat) (rng : Rng)
    (hbal : partWeight H 0 ≤ max0 ∧ partWeight H 1 ≤ max1) :
    ∃ r, KLFMPass fuel H C (cutValue .cutNet H) ⟨partWeight H 0, partWeight H 1⟩ max0 max1
        maxNoGain rng = .ok r ∧ r.w = ⟨partWeight r.H 0, partWeight r.H 1⟩ ∧
      partWeight r.H 0 ≤ max0 ∧ partWeight r.H 1 ≤ max1 := by
  obtain ⟨r, h, -, -, -, hw, -, -, -, -, hn⟩ := C17_KLFM_pass w hc hb hs hC hf max0 max1 maxNoGain rng
  have := hn hwn
  refine ⟨r, h, hw, ?_, ?_⟩
  · exact le_trans this.1 (max_le (le_refl _) hbal.1)
  · exact le_trans this.2 (max_le (le_refl _) hbal.2)

/-- C18 for `KLFM`. -/
theorem C18_balance_KLFM {H : Hypergraph} (w : WF H) (hc : CostsNonneg H) (hwn : WeightsNonneg H)
    (hb : Bipartitioned H) {C : List Cnt} (hC : CountsExact H C) {fuel : Nat}
    (hf : H.vertices.length < fuel) (max0 max1 : Int) (opts : Options) (rng : Rng)
    (hbal : partWeight H 0 ≤ max0 ∧ partWeight H 1 ≤ max1) :
    ∃ r, KLFM fuel H C ⟨partWeight H 0, partWeight H 1⟩ max0 max1 opts rng none = .ok r ∧
      r.w = ⟨partWeight r.H 0, partWeight r.H 1⟩ ∧
      partWeight r.H 0 ≤ max0 ∧ partWeight r.H 1 ≤ max1 := by
  obtain ⟨r, h, -, -, -, hw, -, -, -, h0, h1⟩ := C17_KLFM w hc hwn hb hC hf max0 max1 opts rng none
    (by intro c hc; cases hc) hbal
  exact ⟨r, h, hw, h0, h1⟩

/-- C19: `make_balanced` on a bisection with exactly one overweight part `p`: it returns the exact
cut, counts and weights; part `p` does not get heavier; the other part stays within its bound; and
on return part `p` is within its bound or none of its vertices fits into the other part. -/
theorem C19_make_balanced {H : Hypergraph} (w : WF H) (hc : CostsNonneg H) (hwn : WeightsNonneg H)
    (hb : Bipartitioned H) (hs : SortedOnPart H) {C : List Cnt} (hC : CountsExact H C) {fuel : Nat}
    (hf : H.vertices.length < fuel) (max0 max1 : Int) (rng : Rng) (p mp mo : Int)
    (hp : (p = 0 ∧ mp = max0 ∧ mo = max1) ∨ (p = 1 ∧ mp = max1 ∧ mo = max0))
    (hover : mp < partWeight H p) (hother : partWeight H (1 - p) ≤ mo) :
    ∃ r, makeBalanced fuel H C (cutValue .cutNet H) ⟨partWeight H 0, partWeight H 1⟩ max0 max1 rng
        = .ok r ∧
      r.cut = cutValue .cutNet r.H ∧ CountsExact r.H r.C ∧
      r.w = ⟨partWeight r.H 0, partWeight r.H 1⟩ ∧
      SameUpToParts H r.H ∧ WF r.H ∧ Bipartitioned r.H ∧ SortedOnPart r.H ∧
      partWeight r.H p ≤ partWeight H p ∧ partWeight r.H (1 - p) ≤ mo ∧
      (partWeight r.H p ≤ mp ∨
        ∀ v ∈ r.H.vertices, v.part = p → mo < partWeight r.H (1 - p) + v.weight) := by
  obtain ⟨r, P', L', h, hR, h1, h2, h3, -⟩ := makeBalanced_ok (δ := 0) w hc hwn (parts01_self w hb)
    (pinsPerm_self w) (allSplit_self w hb hs) hf (cut := cutNet (partOf H) H.nets) (by omega)
    max0 max1 rng
  rw [conc_self w, ← counts_self w hC] at h
  have hg := hR.good w
  have hcut := hR.cut w
  have hp0 := partWeight_pw (H := H) 0 w
  have hp1 := partWeight_pw (H := H) 1 w
  have e : ∀ q, partWeight r.H q = pw H P' q := by intro q; rw [hR.hH, partWeight_conc]
  have hheavy : heavyPart (pw2 H (partOf H)) max1 = p := by
    unfold heavyPart pw2
    rcases hp with ⟨rfl, rfl, rfl⟩ | ⟨rfl, rfl, rfl⟩
    · simp only [sub_zero] at hother
      rw [hp1] at hother
      rw [if_neg]; simp only; omega
    · rw [hp1] at hover
      rw [if_pos]; simp only; omega
  have hoth : other p = 1 - p := by
    rcases hp with ⟨rfl, -, -⟩ | ⟨rfl, -, -⟩ <;> rfl
  have hlimp : lim max0 max1 p = mp := by
    rcases hp with ⟨rfl, rfl, -⟩ | ⟨rfl, rfl, -⟩ <;> rfl
  have hlimo : lim max0 max1 (1 - p) = mo := by
    rcases hp with ⟨rfl, -, rfl⟩ | ⟨rfl, -, rfl⟩ <;> rfl
  rw [hheavy, hoth, hlimp, hlimo] at h3
  rw [hheavy, hoth, hlimo] at h2
  rw [hheavy] at h1
  refine ⟨r, ?_, by omega, hg.counts, hg.weights, hg.same, hg.wf, hg.bip, hg.sorted, ?_, ?_, ?_⟩
  · rw [hp0, hp1]; exact h
  · rw [e, partWeight_pw p w]; exact h1
  · rw [e]
    rcases h2 with h2 | h2
    · exact h2
    · rw [h2, ← partWeight_pw (1 - p) w]; exact hother
  · rw [e, e]
    rcases h3 with h3 | h3
    · exact Or.inl h3
    · right
      intro v hv hvp
      rw [hR.hH] at hv
      simp only [conc, List.mem_map] at hv
      obtain ⟨x, hx, rfl⟩ := hv
      exact h3 x hx hvp

example : ∃ H C, WF H ∧ CostsNonneg H ∧ WeightsNonneg H ∧ Bipartitioned H ∧ SortedOnPart H ∧
    CountsExact H C ∧ (4 : Int) < partWeight H 0 ∧ partWeight H (1 - 0) ≤ 8 :=
  ⟨exampleS, exampleC, exampleS_wf, exampleS_costs, exampleS_weights, exampleS_bip,
    exampleS_sorted, exampleS_counts, by decide, by decide⟩

/-- C20: one pass makes at most as many iterations as there are vertices: with any larger bound on
the number of iterations the loop ends by itself, with the same result. -/
theorem C20_pass_terminates {H : Hypergraph} (w : WF H) (hc : CostsNonneg H) (hb : Bipartitioned H)
    (hs : SortedOnPart H) {C : List Cnt} (hC : CountsExact H C) (max0 max1 : Int)
    (maxNoGain : Nat) (rng : Rng) :
    ∃ r, ∀ fuel, H.vertices.length < fuel →
      KLFMPass fuel H C (cutValue .cutNet H) ⟨partWeight H 0, partWeight H 1⟩ max0 max1
        maxNoGain rng = .ok r := by
  obtain ⟨r, h, -⟩ := C17_KLFM_pass w hc hb hs hC (Nat.lt_succ_self _) max0 max1 maxNoGain rng
  exact ⟨r, fun fuel hf => KLFMPass_mono h hf⟩

/-- C20: `KLFM` (balancing loop and all passes) terminates: each inner loop within as many
iterations as there are vertices, and at most `KLFM_max_passes` passes (the structural bound of
`klfmLoop`). -/
theorem C20_KLFM_terminates {H : Hypergraph} (w : WF H) (hc : CostsNonneg H)
    (hwn : WeightsNonneg H) (hb : Bipartitioned H) {C : List Cnt} (hC : CountsExact H C)
    (max0 max1 : Int) (opts : Options) (rng : Rng) :
    ∃ r, ∀ fuel, H.vertices.length < fuel →
      KLFM fuel H C ⟨partWeight H 0, partWeight H 1⟩ max0 max1 opts rng none = .ok r := by
  obtain ⟨r, P1, P', L', h, -⟩ := KLFM_conc (δ := 0) w hc hwn (parts01_self w hb)
    (pinsPerm_self w) (Nat.lt_succ_self _) max0 max1 opts rng none rfl
  rw [conc_self w, ← counts_self w hC] at h
  refine ⟨r, fun fuel hf => KLFM_mono (f := H.vertices.length.succ) ?_ hf⟩
  rw [partWeight_pw 0 w, partWeight_pw 1 w]; exact h

end PMondriaan

import Verif.Proofs.MachineGain

/-
The refinement on one processor in 64-bit arithmetic.
-/

namespace PMondriaan

open Spec

/-- Weights, costs, bounds and the difference between the given and the true cut fit. -/
structure Fit64 (H : Hypergraph) (δ max0 max1 : Int) : Prop where
  wf : WF H
  hc : CostsNonneg H
  hw : WeightsNonneg H
  costs : (H.nets.map (·.cost)).sum ≤ 2 ^ 60
  weights : (H.vertices.map (·.weight)).sum ≤ 2 ^ 60
  m0 : -2 ^ 60 ≤ max0 ∧ max0 ≤ 2 ^ 60
  m1 : -2 ^ 60 ≤ max1 ∧ max1 ≤ 2 ^ 60
  d : -2 ^ 60 ≤ δ ∧ δ ≤ 2 ^ 60

theorem cutNet_fit {H : Hypergraph} (hc : CostsNonneg H) (P : Nat → Int) :
    0 ≤ cutNet P H.nets ∧ cutNet P H.nets ≤ (H.nets.map (·.cost)).sum := by
  have key : ∀ l : List Net, (∀ n ∈ l, 0 ≤ n.cost) → 0 ≤ cutNet P l ∧ cutNet P l ≤ (l.map (·.cost)).sum := by
    intro l
    induction l with
    | nil => intro _; simp [cutNet]
    | cons n l ih =>
      intro h
      have h0 := h n (List.mem_cons_self ..)
      have h1 := ih (fun n hn => h n (List.mem_cons_of_mem _ hn))
      rw [List.map_cons, List.sum_cons]
      unfold cutNet at h1 ⊢
      rw [List.map_cons, List.sum_cons]
      split <;> omega
  exact key H.nets hc

theorem pw_fit {H : Hypergraph} (hw : WeightsNonneg H) (P : Nat → Int) (p : Int) :
    0 ≤ pw H P p ∧ pw H P p ≤ (H.vertices.map (·.weight)).sum := by
  unfold pw
  have key : ∀ l : List Vertex, (∀ v ∈ l, 0 ≤ v.weight) →
      0 ≤ (l.map (fun v => if P v.id = p then v.weight else 0)).sum ∧
        (l.map (fun v => if P v.id = p then v.weight else 0)).sum ≤ (l.map (·.weight)).sum := by
    intro l
    induction l with
    | nil => intro _; simp
    | cons n l ih =>
      intro h
      have h0 := h n (List.mem_cons_self ..)
      have h1 := ih (fun n hn => h n (List.mem_cons_of_mem _ hn))
      rw [List.map_cons, List.sum_cons, List.map_cons, List.sum_cons]
      split <;> omega
  exact key H.vertices hw

theorem vertexOf_mem' {H : Hypergraph} {u : Nat} {y : Vertex} (h : H.vertexOf u = .ok y) : y ∈ H.vertices := by
  unfold Hypergraph.vertexOf at h
  rw [bind_eq_ok] at h
  obtain ⟨i, -, h⟩ := h
  unfold Hypergraph.vertexAt at h
  split at h
  · cases h
    rename_i h1
    exact List.mem_of_getElem? h1
  · cases h

theorem netOf_mem' {H : Hypergraph} {e : Nat} {n : Net} (h : H.netOf e = .ok n) : n ∈ H.nets := by
  unfold Hypergraph.netOf at h
  split at h
  · cases h
  · split at h
    · cases h
      rename_i h1
      exact List.mem_of_getElem? h1
    · cases h

/-- The cost of the net that `net(e)` returns. -/
def costAt (H : Hypergraph) (e : Nat) : Int :=
  match H.netOf e with
  | .ok n => n.cost
  | .error _ => 0

theorem conc_netOf_cost {H : Hypergraph} (P : Nat → Int) (L : Nat → List Nat) {e : Nat} {n : Net}
    (h : (conc H P L).netOf e = .ok n) : n.cost = costAt H e := by
  unfold costAt
  unfold Hypergraph.netOf at h ⊢
  rw [conc_nmap] at h
  cases hm : H.nmap e with
  | none => rw [hm] at h; cases h
  | some i =>
    rw [hm] at h
    dsimp only at h ⊢
    have hg : (conc H P L).nets[i]? = (H.nets[i]?).map (fun n => { n with vertices := L n.id }) := by
      simp [conc]
    rw [hg] at h
    cases hn : H.nets[i]? with
    | none => rw [hn] at h; cases h
    | some m =>
      rw [hn] at h
      dsimp only [Option.map] at h
      cases h
      rfl

theorem costAt_nonneg {H : Hypergraph} (hc : CostsNonneg H) (e : Nat) : 0 ≤ costAt H e := by
  unfold costAt
  split
  · rename_i n h
    exact hc n (netOf_mem' h)
  · exact Int.le_refl 0

theorem costAt_le {H : Hypergraph} (hc : CostsNonneg H) (e : Nat) : costAt H e ≤ (H.nets.map (·.cost)).sum := by
  have hpos : ∀ x ∈ H.nets.map (·.cost), 0 ≤ x := by
    intro x hx
    obtain ⟨n, hn, rfl⟩ := List.mem_map.1 hx
    exact hc n hn
  unfold costAt
  split
  · rename_i n h
    exact entry_le_sum hpos (List.mem_map_of_mem (netOf_mem' h))
  · exact sum_nonneg' hpos

theorem conc_costs {H : Hypergraph} {δ max0 max1 : Int} (F : Fit64 H δ max0 max1) (P : Nat → Int) (L : Nat → List Nat) :
    CostsFit (conc H P L) := by
  intro e n h
  rw [conc_netOf_cost P L h]
  have h1 := costAt_nonneg F.hc e
  have h2 := costAt_le F.hc e
  have h3 := F.costs
  exact ⟨h1, by omega⟩

theorem conc_weights {H : Hypergraph} {δ max0 max1 : Int} (F : Fit64 H δ max0 max1) (P : Nat → Int) (L : Nat → List Nat) :
    WeightsFit (conc H P L) := by
  intro u y h
  have hy := vertexOf_mem' h
  unfold conc at hy
  obtain ⟨v, hv, rfl⟩ := List.mem_map.1 hy
  dsimp only
  have h1 := F.hw v hv
  have h2 : v.weight ≤ (H.vertices.map (·.weight)).sum := entry_le_sum (by
    intro x hx
    obtain ⟨n, hn, rfl⟩ := List.mem_map.1 hx
    exact F.hw n hn) (List.mem_map_of_mem hv)
  have h3 := F.weights
  exact ⟨h1, by omega⟩

theorem costAt_mem {H : Hypergraph} (w : WF H) {n : Net} (hn : n ∈ H.nets) : costAt H n.id = n.cost := by
  obtain ⟨j, hj, hget⟩ := List.mem_iff_getElem.1 hn
  have h := w.netOf_of_get (j := j) (n := n) (by rw [List.getElem?_eq_getElem hj, hget])
  unfold costAt
  rw [h]

theorem conc_bound {H : Hypergraph} {δ max0 max1 : Int} (F : Fit64 H δ max0 max1) (P : Nat → Int) (L : Nat → List Nat) :
    CostBound (conc H P L) (costAt H) := by
  refine ⟨fun e n h => conc_netOf_cost P L h, costAt_nonneg F.hc, ?_⟩
  intro v hv
  unfold conc at hv
  obtain ⟨x, hx, rfl⟩ := List.mem_map.1 hv
  show (x.nets.map (costAt H)).sum ≤ _
  rw [((nets_perm F.wf hx).map (costAt H)).sum_eq, List.map_map]
  have h1 : ∀ l : List Net, (∀ n ∈ l, n ∈ H.nets) →
      ((l.filter (fun n => n.id ∈ x.nets)).map (costAt H ∘ (·.id))).sum ≤ (l.map (·.cost)).sum := by
    intro l
    induction l with
    | nil => intro _; simp
    | cons n l ih =>
      intro h
      have h0 := h n (List.mem_cons_self ..)
      have h1 := ih (fun n hn => h n (List.mem_cons_of_mem _ hn))
      have h2 := F.hc n h0
      rw [List.filter_cons, List.map_cons, List.sum_cons]
      split
      · rw [List.map_cons, List.sum_cons]
        have h3 : (costAt H ∘ (·.id)) n = n.cost := costAt_mem F.wf h0
        omega
      · omega
  have h2 := h1 H.nets (fun _ h => h)
  have h3 := F.costs
  omega

theorem add64_ok {w w' : W2} {p d : Int} (h : w.add p d = .ok w') (h0 : -2 ^ 62 ≤ w'.w0 ∧ w'.w0 ≤ 2 ^ 62)
    (h1 : -2 ^ 62 ≤ w'.w1 ∧ w'.w1 ≤ 2 ^ 62) : w.add64 p d = .ok w' := by
  unfold W2.add at h
  unfold W2.add64 W2.get
  split at h
  · rename_i hp
    cases h
    dsimp only at h0 h1
    rw [if_pos hp]
    simp only [ok_bind]
    rw [long_ok (by omega) (by omega)]
    simp only [ok_bind]
    rw [if_pos hp]
    rfl
  · rename_i hp
    split at h
    · rename_i hp'
      cases h
      dsimp only at h0 h1
      rw [if_neg hp, if_pos hp']
      simp only [ok_bind]
      rw [long_ok (by omega) (by omega)]
      simp only [ok_bind]
      rw [if_neg hp]
      rfl
    · cases h

/-- The weights before, between and after the two additions of a move. -/
theorem pw2_move64 {H : Hypergraph} {δ max0 max1 : Int} (F : Fit64 H δ max0 max1) {P : Nat → Int} {x : Vertex}
    (h01 : P x.id = 0 ∨ P x.id = 1) {w1 : W2}
    (h1 : (pw2 H P).add (P x.id) (-x.weight) = .ok w1)
    (h2 : w1.add (other (P x.id)) x.weight = .ok (pw2 H (flip P x.id))) :
    (pw2 H P).add64 (P x.id) (-x.weight) = .ok w1 ∧
      w1.add64 (other (P x.id)) x.weight = .ok (pw2 H (flip P x.id)) := by
  have a0 := pw_fit F.hw P 0
  have a1 := pw_fit F.hw P 1
  have b0 := pw_fit F.hw (flip P x.id) 0
  have b1 := pw_fit F.hw (flip P x.id) 1
  have hT := F.weights
  refine ⟨add64_ok h1 ?_ ?_, add64_ok h2 ⟨?_, ?_⟩ ⟨?_, ?_⟩⟩
  · rcases h01 with h | h
    · rw [h] at h1 h2
      cases h1
      have := congrArg W2.w0 (Except.ok.inj h2)
      dsimp only [other_zero, pw2] at this ⊢
      omega
    · rw [h] at h1 h2
      cases h1
      dsimp only [pw2]
      omega
  · rcases h01 with h | h
    · rw [h] at h1 h2
      cases h1
      dsimp only [pw2]
      omega
    · rw [h] at h1 h2
      cases h1
      have := congrArg W2.w1 (Except.ok.inj h2)
      dsimp only [other_one, pw2] at this ⊢
      omega
  · show _ ≤ pw H (flip P x.id) 0; omega
  · show pw H (flip P x.id) 0 ≤ _; omega
  · show _ ≤ pw H (flip P x.id) 1; omega
  · show pw H (flip P x.id) 1 ≤ _; omega

theorem smove_sim {H : Hypergraph} {δ max0 max1 : Int} (F : Fit64 H δ max0 max1) {M : Nat} {P : Nat → Int}
    {L : Nat → List Nat} {G : Nat → Option Int} {s s' : GainStructure} (h : SInv H M P L G s) (hs : SmallG s)
    {x : Vertex} (hx : x ∈ H.vertices) {g : Int} (hG : G x.id = some g) (hm : s.move x.id = .ok s') :
    s.move64 x.id = .ok s' ∧ SmallG s' := by
  refine move_sim hs (fun s1 h1 => ?_) hm
  have hz : ZeroCounts H P L (exactF P L) := fun _ _ => rfl
  obtain ⟨L', s2, h2, -, h3⟩ := moveAndLock_ok F.wf h.inv h.h01 h.hL h.hS hz hx hG
  rw [← h.inv.hC, h1] at h2
  cases h2
  rw [h3.hH]
  exact conc_costs F _ _

/-- The weights of a bipartitioning and its cut fit. -/
theorem Fit64.range {H : Hypergraph} {δ max0 max1 : Int} (F : Fit64 H δ max0 max1) (P : Nat → Int) :
    (0 ≤ pw H P 0 ∧ pw H P 0 ≤ 2 ^ 60) ∧ (0 ≤ pw H P 1 ∧ pw H P 1 ≤ 2 ^ 60) ∧
      (0 ≤ cutNet P H.nets ∧ cutNet P H.nets ≤ 2 ^ 60) := by
  have a0 := pw_fit F.hw P 0
  have a1 := pw_fit F.hw P 1
  have a2 := cutNet_fit F.hc P
  have a3 := F.weights
  have a4 := F.costs
  omega

theorem Fit64.weight {H : Hypergraph} {δ max0 max1 : Int} (F : Fit64 H δ max0 max1) {x : Vertex} (hx : x ∈ H.vertices) :
    0 ≤ x.weight ∧ x.weight ≤ 2 ^ 60 := by
  have h1 := F.hw x hx
  have h2 : x.weight ≤ (H.vertices.map (·.weight)).sum := entry_le_sum (by
    intro y hy
    obtain ⟨n, hn, rfl⟩ := List.mem_map.1 hy
    exact F.hw n hn) (List.mem_map_of_mem hx)
  have h3 := F.weights
  omega

theorem passBody_sim {H : Hypergraph} {δ max0 max1 : Int} (F : Fit64 H δ max0 max1) {M : Nat} (hM : MaxCost H M)
    {P0 : Nat → Int} {limit : Nat} {vs : List (Nat → Int)} {l : List Nat}
    {P : Nat → Int} {L : Nat → List Nat}
    {G : Nat → Option Int} {st : PassState} (h : PInv H M P0 δ max0 max1 limit vs l P L G st)
    (hs : SmallG st.gs)
    (hne : ¬ ∀ p, p = 0 ∨ p = 1 → ∀ u g, ¬ InBucket H P G p u g) :
    ∃ st', passBody max0 max1 st = .ok st' ∧ passBody64 max0 max1 st = .ok st' ∧ SmallG st'.gs := by
  have w := F.wf
  obtain ⟨b0, b1, b2⟩ := F.range P
  obtain ⟨m0, m1, d⟩ : _ ∧ _ ∧ _ := ⟨F.m0, F.m1, F.d⟩
  have hw0 : st.w.w0 = pw H P 0 := by rw [h.hw]; rfl
  have hw1' : st.w.w1 = pw H P 1 := by rw [h.hw]; rfl
  unfold passBody passBody64
  simp only
  rw [long_ok (by omega) (by omega), long_ok (by omega) (by omega)]
  simp only [ok_bind]
  obtain ⟨p, s1, r1, h1, hp, hI1, hpne, -⟩ := gpartNext_ok h.s.inv w (max0 - st.w.w0)
    (max1 - st.w.w1) st.rng hne
  obtain ⟨h1', hs1, -⟩ := partNext_sim hs (by omega) (by omega) (by rw [h.s.inv.hH]; exact conc_weights F P L) h1
  rw [h1, h1']; simp only [ok_bind]
  have hS1 : SInv H M P L G s1 := ⟨hI1, h.s.ok, h.s.h01, h.s.hL, h.s.hS⟩
  obtain ⟨x, s2, r2, g, h2, hx, hpx, hGx, hg, htop, hS2, s3, h3, hS3⟩ := hS1.next w hp hpne r1
  obtain ⟨h2', hs2⟩ := next_sim hs1 h2
  rw [h2, h2']; simp only [ok_bind]
  rw [hS2.inv.hH, conc_vertexOf w P L hx]
  simp only [ok_bind]
  have hget : ({ w0 := max0 - st.w.w0, w1 := max1 - st.w.w1 } : W2).get (other p) =
      .ok (if other p = 0 then max0 - pw H P 0 else max1 - pw H P 1) := by
    rw [h.hw]
    rcases hp with rfl | rfl <;> rfl
  rw [hget]; simp only [ok_bind]
  have hxw := F.weight hx
  rw [long_ok (by split <;> omega) (by split <;> omega)]
  simp only [ok_bind]
  by_cases hroom : (if other p = 0 then max0 - pw H P 0 else max1 - pw H P 1) - x.weight ≥ 0
  · obtain ⟨h3', hs3⟩ := gainNext_sim hs2 h3
    rw [if_pos hroom, if_pos hroom, h3, h3']
    simp only [ok_bind]
    subst hpx
    obtain ⟨-, -, c2⟩ := F.range (flip P x.id)
    have hcut' : st.cut - g = cutNet (flip P x.id) H.nets + δ := by rw [h.hcut]; omega
    rw [long_ok (by omega) (by omega)]
    simp only [ok_bind]
    obtain ⟨w1, hw1, hw2⟩ := pw2_move w hx hp
    obtain ⟨hw1'', hw2''⟩ := pw2_move64 F hp hw1 hw2
    rw [h.hw, hw1, hw1'']; simp only [ok_bind]
    rw [hw2, hw2'']; simp only [ok_bind]
    obtain ⟨L', s4, G', h4, hS4, hnone⟩ := hS3.move w F.hc hM hx hGx
    obtain ⟨h4', hs4⟩ := smove_sim F hS3 hs3 hx hGx h4
    rw [h4, h4']; simp only [ok_bind]
    by_cases hcmp : st.cut - g > st.best
    · rw [if_pos hcmp]
      exact ⟨_, rfl, rfl, hs4⟩
    · rw [if_neg hcmp]
      exact ⟨_, rfl, rfl, hs4⟩
  · rw [if_neg hroom, if_neg hroom]
    obtain ⟨s4, h4, hS4⟩ := hS2.remove w hx hGx
    obtain ⟨h4', hs4⟩ := gremove_sim hs2 h4
    rw [h4, h4']; simp only [ok_bind]
    exact ⟨_, rfl, rfl, hs4⟩

theorem passLoop_sim {H : Hypergraph} {δ max0 max1 : Int} (F : Fit64 H δ max0 max1) {M : Nat} (hM : MaxCost H M)
    {P0 : Nat → Int} (maxNoGain : Nat) (fuel : Nat) :
    ∀ {vs : List (Nat → Int)} {l : List Nat} {P : Nat → Int} {L : Nat → List Nat}
      {G : Nat → Option Int} {st : PassState},
      PInv H M P0 δ max0 max1 maxNoGain vs l P L G st → SmallG st.gs →
    passLoop64 max0 max1 maxNoGain fuel st = passLoop max0 max1 maxNoGain fuel st := by
  induction fuel with
  | zero => intro vs l P L G st h hs; rfl
  | succ f ih =>
    intro vs l P L G st h hs
    unfold passLoop passLoop64
    obtain ⟨d, s1, h1, hI1, hd⟩ := gdone_ok h.s.inv
    obtain ⟨h1', hs1⟩ := done_sim hs h1
    rw [h1, h1']; simp only [ok_bind]
    have hP1 : PInv H M P0 δ max0 max1 maxNoGain vs l P L G { st with gs := s1 } :=
      ⟨⟨hI1, h.s.ok, h.s.h01, h.s.hL, h.s.hS⟩, h.hw, h.hcut, h.hno, h.hbest, h.hle, h.hbal, h.hbalb,
        h.hl, h.run⟩
    by_cases hcond : (!d) = true ∧ st.noImp.length < maxNoGain
    · have hdf : d = false := by simpa using hcond.1
      have hne : ¬ ∀ p, p = 0 ∨ p = 1 → ∀ u g, ¬ InBucket H P G p u g := by
        intro hall
        rw [hd.2 hall] at hdf; cases hdf
      obtain ⟨st2, vs2, l2, P2, L2, G2, h2, hP2, -⟩ := passBody_ok F.wf F.hc hM hP1 hcond.2 hne
      obtain ⟨st3, h3, h3', hs3⟩ := passBody_sim F hM hP1 hs1 hne
      rw [h2] at h3
      cases h3
      rw [if_pos hcond, if_pos hcond, h2, h3']; simp only [ok_bind]
      exact ih hP2 hs3
    · rw [if_neg hcond, if_neg hcond]

theorem rollback_sim {H : Hypergraph} {δ max0 max1 : Int} (F : Fit64 H δ max0 max1) (l : List Nat) :
    ∀ {P : Nat → Int} {L : Nat → List Nat}, Parts01 H P → PinsPerm H L → AllSplit H P L →
      (∀ u ∈ l, IsVertex H u) →
    l.foldlM rollbackStep64 (conc H P L, cOf H (exactF P L), pw2 H P) =
      l.foldlM rollbackStep (conc H P L, cOf H (exactF P L), pw2 H P) := by
  have w := F.wf
  induction l with
  | nil => intro P L h01 hL hS _; rfl
  | cons a l ih =>
    intro P L h01 hL hS hv
    obtain ⟨x, hx, hxa⟩ := List.mem_map.1 (hv a (by simp))
    have hxa : x.id = a := hxa
    subst hxa
    obtain ⟨L1, hm, hL1, hS1⟩ := move_conc w h01 hL hS hx
    obtain ⟨w1, hw1, hw2⟩ := pw2_move w hx (h01 x hx)
    obtain ⟨hw1', hw2'⟩ := pw2_move64 F (h01 x hx) hw1 hw2
    have hr := ih (flip_01 h01 _ (h01 x hx)) hL1 hS1 (fun u hu => hv u (by simp [hu]))
    rw [List.foldlM_cons, List.foldlM_cons]
    have h1 : rollbackStep (conc H P L, cOf H (exactF P L), pw2 H P) x.id =
        .ok (conc H (flip P x.id) L1, cOf H (exactF (flip P x.id) L1), pw2 H (flip P x.id)) := by
      unfold rollbackStep
      simp only
      rw [conc_vertexOf w P L hx]; simp only [ok_bind]
      rw [hw1]; simp only [ok_bind]
      rw [hw2]; simp only [ok_bind]
      rw [hm]; rfl
    have h2 : rollbackStep64 (conc H P L, cOf H (exactF P L), pw2 H P) x.id =
        .ok (conc H (flip P x.id) L1, cOf H (exactF (flip P x.id) L1), pw2 H (flip P x.id)) := by
      unfold rollbackStep64
      simp only
      rw [conc_vertexOf w P L hx]; simp only [ok_bind]
      rw [hw1']; simp only [ok_bind]
      rw [hw2']; simp only [ok_bind]
      rw [hm]; rfl
    rw [h1, h2]
    exact hr

theorem KLFMPass_sim {H : Hypergraph} {δ max0 max1 : Int} (F : Fit64 H δ max0 max1) {P : Nat → Int}
    {L : Nat → List Nat} (h01 : Parts01 H P) (hL : PinsPerm H L) (hS : AllSplit H P L)
    {fuel : Nat} (hf : H.vertices.length < fuel) {cut : Int} (hcut : cut = cutNet P H.nets + δ)
    (maxNoGain : Nat) (rng : Rng) :
    KLFMPass64 fuel (conc H P L) (cOf H (exactF P L)) cut (pw2 H P) max0 max1 maxNoGain rng =
      KLFMPass fuel (conc H P L) (cOf H (exactF P L)) cut (pw2 H P) max0 max1 maxNoGain rng := by
  have w := F.wf
  obtain ⟨M, s, G, hs, hM, hI, hG⟩ := create_ok (L := L) w F.hc h01 (exactF P L)
  obtain ⟨hs', hsm⟩ := create_sim (conc_bound F P L) hs
  have hnw : WeightsNonneg H → NotWorse H P P max0 max1 := fun _ => ⟨Or.inr (le_refl _), Or.inr (le_refl _)⟩
  have hP : PInv H M P δ max0 max1 maxNoGain [P] [] P L G
      { gs := s, w := pw2 H P, cut, best := cut, noImp := [], rng } := by
    refine ⟨⟨hI, ?_, h01, hL, hS⟩, rfl, hcut, by simp, hcut, by simp [hcut], hnw, hnw, ?_, PassRun.start⟩
    · intro x hx g hg
      rw [hG x hx] at hg
      exact (Option.some.inj hg).symm
    · intro x hx
      rw [hG x hx]
      simp
  obtain ⟨st, vs1, l1, P1, L1, G1, hst, hP1, -⟩ := passLoop_ok w F.hc hM maxNoGain fuel hP (by
    have := unlocked_le (H := H) G; omega)
  unfold KLFMPass KLFMPass64
  rw [hs, hs']; simp only [ok_bind]
  rw [passLoop_sim F hM maxNoGain fuel hP hsm, hst]; simp only [ok_bind]
  rw [hP1.s.inv.hH, hP1.s.inv.hC, hP1.hw, rollback_sim F st.noImp hP1.s.h01 hP1.s.hL hP1.s.hS hP1.hno]

theorem balanceLoop_sim {H : Hypergraph} {δ max0 max1 : Int} (F : Fit64 H δ max0 max1) {M : Nat} (hM : MaxCost H M)
    {part : Int} (hpart : part = 0 ∨ part = 1) (fuel : Nat) :
    ∀ {P : Nat → Int} {L : Nat → List Nat} {G : Nat → Option Int}
      {s : GainStructure} {cut : Int} {rng : Rng}, SInv H M P L G s → SmallG s → cut = cutNet P H.nets + δ →
    balanceLoop64 part ⟨max0, max1⟩ fuel (s, pw2 H P, cut, rng) =
      balanceLoop part ⟨max0, max1⟩ fuel (s, pw2 H P, cut, rng) := by
  have w := F.wf
  have hget : ∀ p, p = 0 ∨ p = 1 → ({ w0 := max0, w1 := max1 } : W2).get p = .ok (lim max0 max1 p) := by
    rintro p (rfl | rfl) <;> rfl
  induction fuel with
  | zero => intro P L G s cut rng _ _ _; rfl
  | succ f ih =>
    intro P L G s cut rng h hs hcut
    obtain ⟨b0, b1, b2⟩ := F.range P
    have hd := F.d
    unfold balanceLoop balanceLoop64
    rw [pw2_get hpart]; simp only [ok_bind]
    rw [hget _ hpart]; simp only [ok_bind]
    by_cases hover : pw H P part > lim max0 max1 part
    · rw [if_pos hover, if_pos hover]
      obtain ⟨d, s1, h1, hI1, hdd⟩ := gbucketDone_ok h.inv hpart
      obtain ⟨h1', hs1⟩ := bucketDone_sim hs h1
      rw [h1, h1']; simp only [ok_bind]
      cases d with
      | true => simp only [if_true]
      | false =>
        simp only [Bool.false_eq_true, if_false]
        have hne : ∃ u g, InBucket H P G part u g := by
          by_contra hcon
          have := hdd.2 (fun u g hu => hcon ⟨u, g, hu⟩)
          cases this
        have hS1 : SInv H M P L G s1 := ⟨hI1, h.ok, h.h01, h.hL, h.hS⟩
        obtain ⟨x, s2, r2, g, h2, hx, hpx, hGx, hg, htop, hS2, s3, h3, hS3⟩ := hS1.next w hpart hne rng
        obtain ⟨h2', hs2⟩ := next_sim hs1 h2
        rw [h2, h2']; simp only [ok_bind]
        rw [hS2.inv.hH, conc_vertexOf w P L hx]
        simp only [ok_bind]
        rw [pw2_get (other_01 hpart)]; simp only [ok_bind]
        rw [hget _ (other_01 hpart)]; simp only [ok_bind]
        have hxw := F.weight hx
        have hpo : 0 ≤ pw H P (other part) ∧ pw H P (other part) ≤ 2 ^ 60 := by
          rcases hpart with rfl | rfl
          · exact b1
          · exact b0
        rw [long_ok (by omega) (by omega)]; simp only [ok_bind]
        by_cases hroom : pw H P (other part) + x.weight ≤ lim max0 max1 (other part)
        · obtain ⟨h3', hs3⟩ := gainNext_sim hs2 h3
          rw [if_pos hroom, if_pos hroom, h3, h3']
          simp only [ok_bind]
          subst hpx
          obtain ⟨-, -, c2⟩ := F.range (flip P x.id)
          have hcut' : cut - g = cutNet (flip P x.id) H.nets + δ := by omega
          rw [long_ok (by omega) (by omega)]
          simp only [ok_bind]
          obtain ⟨w1, hw1, hw2⟩ := pw2_move w hx hpart
          obtain ⟨hw1', hw2'⟩ := pw2_move64 F hpart hw1 hw2
          rw [hw1, hw1']; simp only [ok_bind]
          rw [hw2, hw2']; simp only [ok_bind]
          obtain ⟨L', s4, G', h4, hS4, hnone⟩ := hS3.move w F.hc hM hx hGx
          obtain ⟨h4', hs4⟩ := smove_sim F hS3 hs3 hx hGx h4
          rw [h4, h4']; simp only [ok_bind]
          exact ih hS4 hs4 hcut'
        · rw [if_neg hroom, if_neg hroom]
          obtain ⟨s4, h4, hS4⟩ := hS2.remove w hx hGx
          obtain ⟨h4', hs4⟩ := gremove_sim hs2 h4
          rw [h4, h4']; simp only [ok_bind]
          exact ih hS4 hs4 hcut
    · rw [if_neg hover, if_neg hover]

theorem makeBalanced_sim {H : Hypergraph} {δ max0 max1 : Int} (F : Fit64 H δ max0 max1)
    {P : Nat → Int} {L : Nat → List Nat} (h01 : Parts01 H P) (hL : PinsPerm H L)
    (hS : AllSplit H P L) {fuel : Nat} {cut : Int}
    (hcut : cut = cutNet P H.nets + δ) (rng : Rng) :
    makeBalanced64 fuel (conc H P L) (cOf H (exactF P L)) cut (pw2 H P) max0 max1 rng =
      makeBalanced fuel (conc H P L) (cOf H (exactF P L)) cut (pw2 H P) max0 max1 rng := by
  obtain ⟨M, s, G, hs, hM, hI, hG⟩ := create_ok (L := L) F.wf F.hc h01 (exactF P L)
  obtain ⟨hs', hsm⟩ := create_sim (conc_bound F P L) hs
  have hS0 : SInv H M P L G s := by
    refine ⟨hI, ?_, h01, hL, hS⟩
    intro x hx g hg
    rw [hG x hx] at hg
    exact (Option.some.inj hg).symm
  have hq : (if (pw2 H P).w1 > max1 then (1 : Int) else 0) = 0 ∨ (if (pw2 H P).w1 > max1 then (1 : Int) else 0) = 1 := by
    split <;> simp
  unfold makeBalanced makeBalanced64
  rw [hs, hs']; simp only [ok_bind]
  rw [balanceLoop_sim F hM hq fuel hS0 hsm hcut]

theorem klfmLoop_sim {H : Hypergraph} {δ max0 max1 : Int} (F : Fit64 H δ max0 max1) {fuel : Nat}
    (hf : H.vertices.length < fuel) (maxNoGain : Nat) (k : Nat) :
    ∀ {P : Nat → Int} {L : Nat → List Nat} {p : PassResult}, RInv H P L δ p →
    klfmLoop64 fuel max0 max1 maxNoGain k p = klfmLoop fuel max0 max1 maxNoGain k p := by
  induction k with
  | zero => intro P L p h; rfl
  | succ k ih =>
    intro P L p h
    unfold klfmLoop klfmLoop64
    obtain ⟨r, P1, L1, h1, hR1, -⟩ := KLFMPass_ok F.wf F.hc h.h01 h.hL h.hS hf h.hcut max0 max1
      maxNoGain p.rng
    rw [h.hH, h.hC, h.hw, KLFMPass_sim F h.h01 h.hL h.hS hf h.hcut maxNoGain p.rng, h1]
    simp only [ok_bind]
    rw [ih hR1]

/-- The step of `cutsizeC`. -/
def cutCStepZ (H : Hypergraph) (cut : Int) (ci : Cnt × Nat) : Res Int :=
  if ci.1.c0 > 0 ∧ ci.1.c1 > 0 then do
    let n ← vget H.nets ci.2
    pure (cut + n.cost)
  else pure cut

theorem cutC_sim {H : Hypergraph} (hc : CostsNonneg H) (hT : (H.nets.map (·.cost)).sum ≤ 2 ^ 60) :
    ∀ (C : List Cnt) (k : Nat) (a : Int), 0 ≤ a → a ≤ ((H.nets.take k).map (·.cost)).sum →
    (C.zipIdx k).foldlM (cutCStep64 H) a = (C.zipIdx k).foldlM (cutCStepZ H) a := by
  have hmono : ∀ k, ((H.nets.take k).map (·.cost)).sum ≤ ((H.nets.take (k + 1)).map (·.cost)).sum := by
    intro k
    rw [List.take_add_one, List.map_append, List.sum_append]
    have h0 : 0 ≤ (List.map (·.cost) H.nets[k]?.toList).sum := by
      apply sum_nonneg'
      intro x hx
      obtain ⟨n, hn, rfl⟩ := List.mem_map.1 hx
      rw [Option.mem_toList] at hn
      exact hc n (List.mem_of_getElem? hn)
    omega
  have hall : ∀ k, ((H.nets.take k).map (·.cost)).sum ≤ (H.nets.map (·.cost)).sum := by
    intro k
    have h1 : (H.nets.map (·.cost)).sum = ((H.nets.take k).map (·.cost)).sum + ((H.nets.drop k).map (·.cost)).sum := by
      rw [← List.sum_append, ← List.map_append, List.take_append_drop]
    have h0 : 0 ≤ ((H.nets.drop k).map (·.cost)).sum := by
      apply sum_nonneg'
      intro x hx
      obtain ⟨n, hn, rfl⟩ := List.mem_map.1 hx
      exact hc n (List.mem_of_mem_drop hn)
    omega
  intro C
  induction C with
  | nil => intro k a _ _; rfl
  | cons c C ih =>
    intro k a h0 h1
    rw [List.zipIdx_cons, List.foldlM_cons, List.foldlM_cons]
    have hm := hmono k
    by_cases hcnt : c.c0 > 0 ∧ c.c1 > 0
    · cases hv : vget H.nets k with
      | error e =>
        unfold cutCStep64 cutCStepZ
        rw [if_pos hcnt, if_pos hcnt, hv]
        rfl
      | ok n =>
        have hn : H.nets[k]? = some n := by
          unfold vget at hv
          split at hv
          · cases hv; assumption
          · cases hv
        have h2 : ((H.nets.take (k + 1)).map (·.cost)).sum = ((H.nets.take k).map (·.cost)).sum + n.cost := by
          rw [List.take_add_one, hn, List.map_append, List.sum_append]
          simp
        have h3 := hall (k + 1)
        have h4 := hc n (List.mem_of_getElem? hn)
        have e1 : cutCStep64 H a (c, k) = .ok (a + n.cost) := by
          unfold cutCStep64
          rw [if_pos hcnt, hv, ok_bind, long_ok (by omega) (by omega)]
        have e2 : cutCStepZ H a (c, k) = .ok (a + n.cost) := by
          unfold cutCStepZ
          rw [if_pos hcnt, hv, ok_bind]
          rfl
        rw [e1, e2]
        exact ih (k + 1) (a + n.cost) (by omega) (by omega)
    · have e1 : cutCStep64 H a (c, k) = .ok a := by
        unfold cutCStep64
        rw [if_neg hcnt]
        rfl
      have e2 : cutCStepZ H a (c, k) = .ok a := by
        unfold cutCStepZ
        rw [if_neg hcnt]
        rfl
      rw [e1, e2]
      exact ih (k + 1) a h0 (by omega)

theorem cutsizeC_sim {H : Hypergraph} (hc : CostsNonneg H) (hT : (H.nets.map (·.cost)).sum ≤ 2 ^ 60) (C : List Cnt) :
    cutsizeC64 H C = cutsizeC H C :=
  cutC_sim hc hT C 0 0 (Int.le_refl 0) (by simp)

theorem KLFM_sim {H : Hypergraph} {δ max0 max1 : Int} (F : Fit64 H δ max0 max1)
    {P : Nat → Int} {L : Nat → List Nat}
    (h01 : Parts01 H P) (hL : PinsPerm H L) {fuel : Nat} (hf : H.vertices.length < fuel)
    (opts : Options) (rng : Rng) (cutSize : Option Int)
    (hδ : match cutSize with | none => δ = 0 | some c => c = cutNet P H.nets + δ) :
    KLFM64 fuel (conc H P L) (cOf H (exactF P L)) (pw2 H P) max0 max1 opts rng cutSize =
      KLFM fuel (conc H P L) (cOf H (exactF P L)) (pw2 H P) max0 max1 opts rng cutSize := by
  have w := F.wf
  have hcosts : ((conc H P L).nets.map (·.cost)) = H.nets.map (·.cost) := by
    simp [conc, Function.comp_def]
  have hstart64 : startCut64 (conc H P L) (cOf H (exactF P L)) cutSize = startCut (conc H P L) (cOf H (exactF P L)) cutSize := by
    cases cutSize with
    | none =>
      refine cutsizeC_sim ?_ (by rw [hcosts]; exact F.costs) _
      intro n hn
      have hn' : n.cost ∈ (conc H P L).nets.map (·.cost) := List.mem_map_of_mem hn
      rw [hcosts] at hn'
      obtain ⟨m, hm, he⟩ := List.mem_map.1 hn'
      have he : m.cost = n.cost := he
      rw [← he]
      exact F.hc m hm
    | some c => rfl
  have hstart : ∃ c, startCut (conc H P L) (cOf H (exactF P L)) cutSize = .ok c ∧
      c = cutNet P H.nets + δ := by
    cases cutSize with
    | none =>
      simp only at hδ
      refine ⟨cutF H (exactF P L), ?_, ?_⟩
      · unfold startCut
        apply cutsizeC_cOf
        simp [conc, Function.comp_def]
      · rw [cutF_exact P L hL (fun n hn u hu => h01.pin w hn hu), hδ]; omega
    | some c => exact ⟨c, rfl, hδ⟩
  obtain ⟨c, hstart, hcut⟩ := hstart
  unfold KLFM KLFM64
  rw [hstart64, hstart]; simp only [ok_bind]
  obtain ⟨L1, hsort, hL1, hS1⟩ := sortVerticesOnPart_conc w h01 hL
  have hexact : cOf H (exactF P L) = cOf H (exactF P L1) := by
    apply cOf_congr
    intro n hn
    unfold exactF
    rw [((hL n hn).trans (hL1 n hn).symm).countP_eq, ((hL n hn).trans (hL1 n hn).symm).countP_eq]
  rw [hsort]; simp only [ok_bind]
  rw [hexact, makeBalanced_sim F h01 hL1 hS1 hcut rng]
  by_cases hbal : pw H P 0 > max0 ∨ pw H P 1 > max1
  · obtain ⟨r1, P1, L2, h1, hR1, -⟩ := makeBalanced_ok w F.hc F.hw h01 hL1 hS1 hf hcut max0 max1 rng
    unfold runIf
    rw [if_pos (show (pw2 H P).w0 > max0 ∨ (pw2 H P).w1 > max1 from hbal), h1]
    simp only [ok_bind]
    exact klfmLoop_sim F hf _ _ hR1
  · have hR1 : RInv H P L1 δ { cut := c, H := conc H P L1, C := cOf H (exactF P L1), w := pw2 H P, rng } :=
      ⟨rfl, rfl, rfl, hcut, h01, hL1, hS1⟩
    unfold runIf
    rw [if_neg (show ¬ ((pw2 H P).w0 > max0 ∨ (pw2 H P).w1 > max1) from hbal)]
    exact klfmLoop_sim F hf _ _ hR1

end PMondriaan

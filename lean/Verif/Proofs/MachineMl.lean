import Verif.Model.MachineMl
import Verif.Proofs.MachineKLFM
import Verif.Proofs.Multilevel
import Verif.Proofs.MlPar
import Verif.Props.MachineKLFM
import Verif.Props.Multilevel

/-
64-bit arithmetic in the bisection on one processor: as long as nothing overflows, the functions of
Model/MachineMl.lean are those of the rest of the model.
-/

namespace PMondriaan

open Spec Contraction

/-! ### Random bisection -/

/-- The weight at position `i`. -/
def weightAt (W : List Int) (i : Nat) : Int := (W[i]?).getD 0

theorem setPartAt_weights {H H' : Hypergraph} {i : Nat} {p : Int} (h : H.setPartAt i p = .ok H') :
    H'.vertices.map (·.weight) = H.vertices.map (·.weight) := by
  unfold Hypergraph.setPartAt Hypergraph.vertexAt at h
  cases hv : H.vertices[i]? with
  | none => rw [hv] at h; simp only [error_bind] at h; cases h
  | some v =>
    rw [hv] at h
    simp only [ok_bind, pure_eq_ok] at h
    cases h
    unfold Hypergraph.setVertex
    dsimp only
    apply List.ext_getElem?
    intro j
    rw [List.getElem?_map, List.getElem?_map, List.getElem?_set]
    split
    · rename_i hij
      subst hij
      rw [hv]
      split
      · rfl
      · rename_i hl
        rw [List.getElem?_eq_none (by omega)] at hv
        cases hv
    · rfl

theorem randomLoop64_eq (max0 max1 : Int) (labels : Interval) {W : List Int} (hW : ∀ x ∈ W, 0 ≤ x) :
    ∀ (l : List Nat) (s : RState), s.H.vertices.map (·.weight) = W → 0 ≤ s.w0 → 0 ≤ s.w1 →
      s.w0 + (l.map (weightAt W)).sum < 2 ^ 63 → s.w1 + (l.map (weightAt W)).sum < 2 ^ 63 →
      l.foldlM (randomStep64 max0 max1 labels) s = l.foldlM (randomStep max0 max1 labels) s := by
  have hW0 : ∀ i, 0 ≤ weightAt W i := by
    intro i
    unfold weightAt
    cases h : W[i]? with
    | none => simp
    | some x => exact hW x (List.mem_of_getElem? h)
  intro l
  induction l with
  | nil => intro s _ _ _ _ _; rfl
  | cons i l ih =>
    intro s hs h0 h1 b0 b1
    rw [List.map_cons, List.sum_cons] at b0 b1
    have hl : 0 ≤ (l.map (weightAt W)).sum := sum_map_nonneg _ _ (fun x _ => hW0 x)
    have hi := hW0 i
    rw [List.foldlM_cons, List.foldlM_cons]
    unfold randomStep64 randomStep
    cases hv : s.H.vertexAt i with
    | error e => simp only [error_bind]
    | ok v =>
      simp only [ok_bind]
      have hw : weightAt W i = v.weight := by
        unfold Hypergraph.vertexAt at hv
        cases hg : s.H.vertices[i]? with
        | none => rw [hg] at hv; cases hv
        | some u =>
          rw [hg] at hv
          cases hv
          unfold weightAt
          rw [← hs, List.getElem?_map, hg]
          rfl
      rw [hw] at hi b0 b1
      have hd : s.rng.draw.1 % 2 = 0 ∨ s.rng.draw.1 % 2 = 1 := by omega
      have hf : long ((if ((s.rng.draw.1 % 2 : Nat) : Int) = 0 then s.w0 else s.w1) + v.weight) =
          .ok ((if ((s.rng.draw.1 % 2 : Nat) : Int) = 0 then s.w0 else s.w1) + v.weight) := by
        apply long_nat <;> split <;> omega
      rw [hf]
      simp only [ok_bind]
      obtain ⟨p, hp⟩ : ∃ p, p = randomPart max0 max1 s.w0 s.w1 v.weight s.rng.draw.1 := ⟨_, rfl⟩
      have hpp : (if (if ((s.rng.draw.1 % 2 : Nat) : Int) = 0 then s.w0 else s.w1) + v.weight >
          (if ((s.rng.draw.1 % 2 : Nat) : Int) = 0 then max0 else max1) then
          other ((s.rng.draw.1 % 2 : Nat) : Int) else ((s.rng.draw.1 % 2 : Nat) : Int)) = (p : Int) := by
        rw [hp]
        unfold randomPart other
        rcases hd with h | h <;> rw [h] <;> simp
      rw [hpp, ← hp]
      cases hset : s.H.setPartAt i (labels.label (p : Int)) with
      | error e => simp only [error_bind]
      | ok H' =>
        simp only [ok_bind]
        have hy : long ((if (p : Int) = 0 then s.w0 else s.w1) + v.weight) =
            .ok ((if (p : Int) = 0 then s.w0 else s.w1) + v.weight) := by
          apply long_nat <;> split <;> omega
        rw [hy]
        simp only [ok_bind, pure_eq_ok]
        have hst : (RState.mk H' (if (p : Int) = 0 then (if (p : Int) = 0 then s.w0 else s.w1) + v.weight else s.w0)
            (if (p : Int) = 0 then s.w1 else (if (p : Int) = 0 then s.w0 else s.w1) + v.weight) s.rng.draw.2) =
            RState.mk H' (if p = 0 then s.w0 + v.weight else s.w0) (if p = 0 then s.w1 else s.w1 + v.weight)
              s.rng.draw.2 := by
          by_cases hz : p = 0 <;> simp [hz]
        rw [hst]
        apply ih
        · rw [← hs]; exact setPartAt_weights hset
        all_goals
          dsimp only
          split <;> omega

/-! ### Label propagation -/

theorem room_fit {B : Int} {s : LPBState} (h0 : -B ≤ s.r0 ∧ s.r0 ≤ B) (h1 : -B ≤ s.r1 ∧ s.r1 ≤ B) (k : Int) :
    -B ≤ s.room k ∧ s.room k ≤ B := by
  unfold LPBState.room
  split
  · exact h0
  · exact h1

theorem lpbChoose64_eq {s : LPBState} (h0 : -2 ^ 61 ≤ s.r0 ∧ s.r0 ≤ 2 ^ 61) (h1 : -2 ^ 61 ≤ s.r1 ∧ s.r1 ≤ 2 ^ 61)
    (k : Int) {w : Int} (hw : 0 ≤ w ∧ w ≤ 2 ^ 61) (m : Int × List Nat) :
    lpbChoose64 s k w m = lpbChoose s k w m := by
  unfold lpbChoose64 lpbChoose
  split
  · rfl
  · split
    · rfl
    · cases hb : vget m.2 (s.rng.draw.1 % m.2.length) with
      | error e => simp only [error_bind]
      | ok b =>
        simp only [ok_bind]
        have hr := room_fit h0 h1 (b : Int)
        by_cases hbk : (b : Int) ≠ k
        · rw [if_pos hbk, long_ok (by omega) (by omega)]
          simp only [ok_bind]
          by_cases hx : s.room b - w ≥ 0
          · rw [if_pos hx, if_pos ⟨hbk, hx⟩]
          · rw [if_neg hx, if_neg (fun h => hx h.2)]
        · rw [if_neg hbk, if_neg (fun h => hbk h.1)]

theorem lpbSweepStep64_eq {H : Hypergraph} {s : LPBState} (h0 : -2 ^ 61 ≤ s.r0 ∧ s.r0 ≤ 2 ^ 61)
    (h1 : -2 ^ 61 ≤ s.r1 ∧ s.r1 ≤ 2 ^ 61) (hw : ∀ v ∈ H.vertices, 0 ≤ v.weight ∧ v.weight ≤ 2 ^ 61) (i : Nat) :
    lpbSweepStep64 H s i = lpbSweepStep H s i := by
  unfold lpbSweepStep64 lpbSweepStep
  cases hv : H.vertexAt i with
  | error e => simp only [error_bind]
  | ok v =>
    simp only [ok_bind]
    have hvm : v ∈ H.vertices := by
      unfold Hypergraph.vertexAt at hv
      cases hg : H.vertices[i]? with
      | none => rw [hg] at hv; cases hv
      | some u => rw [hg] at hv; cases hv; exact List.mem_of_getElem? hg
    have hwv := hw v hvm
    cases hk : vget s.L i with
    | error e => simp only [error_bind]
    | ok k =>
      simp only [ok_bind]
      cases hg : v.nets.foldlM (lpbGather H k) (s.C, 0, 0) with
      | error e => simp only [error_bind]
      | ok g =>
        simp only [ok_bind]
        rw [lpbChoose64_eq h0 h1 k hwv]
        cases hc : lpbChoose s k v.weight (argmaxLoop [g.2.1, g.2.2] 0 (-1) []) with
        | error e => simp only [error_bind]
        | ok c =>
          simp only [ok_bind]
          cases hC : v.nets.foldlM (lpbCount H c.1 1) g.1 with
          | error e => simp only [error_bind]
          | ok C =>
            simp only [ok_bind]
            split
            · unfold lpbMove64
              by_cases hz : k = 0
              · rw [if_pos hz, long_ok (by omega) (by omega), long_ok (by omega) (by omega)]
                simp only [ok_bind, pure_eq_ok, if_pos hz]
              · rw [if_neg hz, long_ok (by omega) (by omega), long_ok (by omega) (by omega)]
                simp only [ok_bind, pure_eq_ok, if_neg hz]
            · rfl

theorem labelWeight_nonneg {H : Hypergraph} (hw : WeightsNonneg H) (L : List Int) (k : Int) :
    0 ≤ labelWeight H L k := by
  unfold labelWeight
  apply sum_map_nonneg
  rintro ⟨v, x⟩ hx
  have := hw v (List.of_mem_zip hx).1
  dsimp only
  split <;> omega

theorem take_sum_le {H : Hypergraph} (hw : WeightsNonneg H) (k : Nat) :
    ((H.vertices.take k).map (·.weight)).sum ≤ (H.vertices.map (·.weight)).sum := by
  conv_rhs => rw [← List.take_append_drop k H.vertices, List.map_append, List.sum_append]
  have := sum_map_nonneg (H.vertices.drop k) (·.weight) (fun v hv => hw v (List.mem_of_mem_drop hv))
  omega

theorem LPBInv.rooms {H : Hypergraph} (hw : WeightsNonneg H) (hT : (H.vertices.map (·.weight)).sum ≤ 2 ^ 60)
    {max0 max1 : Int} (h0 : -2 ^ 60 ≤ max0 ∧ max0 ≤ 2 ^ 60) (h1 : -2 ^ 60 ≤ max1 ∧ max1 ≤ 2 ^ 60)
    {s : LPBState} (hI : LPBInv H max0 max1 s) :
    (-2 ^ 61 ≤ s.r0 ∧ s.r0 ≤ 2 ^ 61) ∧ (-2 ^ 61 ≤ s.r1 ∧ s.r1 ≤ 2 ^ 61) := by
  have a := labelWeight_nonneg hw s.L 0
  have b := labelWeight_nonneg hw s.L 1
  have c := labelWeight_total (H := H) hI.labels
  have d := take_sum_le hw s.L.length
  have e := hI.room0
  have f := hI.room1
  omega

theorem weight_le_total {H : Hypergraph} (hw : WeightsNonneg H) {v : Vertex} (hv : v ∈ H.vertices) :
    v.weight ≤ (H.vertices.map (·.weight)).sum :=
  entry_le_sum (by
    intro x hx
    obtain ⟨u, hu, rfl⟩ := List.mem_map.1 hx
    exact hw u hu) (List.mem_map.2 ⟨v, hv, rfl⟩)

theorem lpbSweeps64_eq {shuf : Shuffle} (hsh : ∀ r l, (shuf r l).1.Perm l) {H : Hypergraph} (w : WF H)
    (hw : WeightsNonneg H) (hT : (H.vertices.map (·.weight)).sum ≤ 2 ^ 60)
    {max0 max1 : Int} (h0 : -2 ^ 60 ≤ max0 ∧ max0 ≤ 2 ^ 60) (h1 : -2 ^ 60 ≤ max1 ∧ max1 ≤ 2 ^ 60) :
    ∀ (k : Nat) (s : LPBState) (idx : List Nat), LPBInv H max0 max1 s →
      idx.Perm (List.range H.vertices.length) → lpbSweeps64 shuf H k s idx = lpbSweeps shuf H k s idx := by
  have hwv : ∀ v ∈ H.vertices, 0 ≤ v.weight ∧ v.weight ≤ 2 ^ 61 := by
    intro v hv
    have := hw v hv
    have := weight_le_total hw hv
    omega
  have loop : ∀ (l : List Nat) (s : LPBState), (∀ i ∈ l, i < H.vertices.length) → LPBInv H max0 max1 s →
      l.foldlM (lpbSweepStep64 H) s = l.foldlM (lpbSweepStep H) s ∧
        ∃ s', l.foldlM (lpbSweepStep H) s = .ok s' ∧ LPBInv H max0 max1 s' := by
    intro l
    induction l with
    | nil => intro s _ hI; exact ⟨rfl, s, rfl, hI⟩
    | cons i l ih =>
      intro s hl hI
      obtain ⟨r0, r1⟩ := hI.rooms hw hT h0 h1
      obtain ⟨s1, a, b, -⟩ := lpbSweepStep_ok w hI (hl i (by simp))
      rw [List.foldlM_cons, List.foldlM_cons, lpbSweepStep64_eq r0 r1 hwv, a]
      simp only [ok_bind]
      exact ih s1 (fun j hj => hl j (by simp [hj])) b
  intro k
  induction k with
  | zero => intro s idx _ _; rfl
  | succ k ih =>
    intro s idx hI hidx
    unfold lpbSweeps64 lpbSweeps
    split
    · have hp := (hsh s.rng idx).trans hidx
      obtain ⟨e, s', e', hI'⟩ := loop (shuf s.rng idx).1 { s with rng := (shuf s.rng idx).2, change := false }
        (fun i hi => by simpa using hp.mem_iff.1 hi) ⟨hI.len, hI.labels, hI.counts, hI.room0, hI.room1⟩
      simp only [e, e', ok_bind]
      exact ih s' _ hI' hp
    · rfl

theorem lpbStartLoop64_eq {H : Hypergraph} (hw : WeightsNonneg H) : ∀ (l : List Nat) (s : LPBState),
    s.r0 ≤ 2 ^ 61 → s.r1 ≤ 2 ^ 61 → -2 ^ 61 ≤ s.r0 - (l.map (weightAt (H.vertices.map (·.weight)))).sum →
    -2 ^ 61 ≤ s.r1 - (l.map (weightAt (H.vertices.map (·.weight)))).sum →
    l.foldlM (lpbStartStep64 H) s = l.foldlM (lpbStartStep H) s := by
  have hW0 : ∀ i, 0 ≤ weightAt (H.vertices.map (·.weight)) i := by
    intro i
    unfold weightAt
    rw [List.getElem?_map]
    cases h : H.vertices[i]? with
    | none => simp
    | some x => exact hw x (List.mem_of_getElem? h)
  intro l
  induction l with
  | nil => intro s _ _ _ _; rfl
  | cons i l ih =>
    intro s h0 h1 b0 b1
    rw [List.map_cons, List.sum_cons] at b0 b1
    have hl : 0 ≤ (l.map (weightAt (H.vertices.map (·.weight)))).sum := sum_map_nonneg _ _ (fun x _ => hW0 x)
    have hi := hW0 i
    rw [List.foldlM_cons, List.foldlM_cons]
    unfold lpbStartStep64 lpbStartStep
    cases hv : H.vertexAt i with
    | error e => simp only [error_bind]
    | ok v =>
      simp only [ok_bind]
      have hwt : weightAt (H.vertices.map (·.weight)) i = v.weight := by
        unfold Hypergraph.vertexAt at hv
        cases hg : H.vertices[i]? with
        | none => rw [hg] at hv; cases hv
        | some u =>
          rw [hg] at hv
          cases hv
          unfold weightAt
          rw [List.getElem?_map, hg]
          rfl
      rw [hwt] at hi b0 b1
      have hr : ∀ k, long (s.room k - v.weight) = .ok (s.room k - v.weight) := by
        intro k
        unfold LPBState.room
        apply long_ok <;> split <;> omega
      simp only [hr, ok_bind]
      obtain ⟨k, hk⟩ : ∃ k, k = lpbPick s.r0 s.r1 v.weight s.rng.draw.1 := ⟨_, rfl⟩
      have hkk : (if s.room ((s.rng.draw.1 % 2 : Nat) : Int) - v.weight < 0 then
          other ((s.rng.draw.1 % 2 : Nat) : Int) else ((s.rng.draw.1 % 2 : Nat) : Int)) = k := by
        rw [hk]; rfl
      rw [hkk, ← hk]
      cases hL : vset s.L i k with
      | error e => simp only [error_bind]
      | ok L =>
        simp only [ok_bind]
        cases hC : v.nets.foldlM (lpbCount H k 1) s.C with
        | error e => simp only [error_bind]
        | ok C =>
          simp only [ok_bind, pure_eq_ok]
          have hst : (LPBState.mk L C (if k = 0 then s.room k - v.weight else s.r0)
              (if k = 0 then s.r1 else s.room k - v.weight) s.rng.draw.2 s.change) =
              LPBState.mk L C (if k = 0 then s.r0 - v.weight else s.r0) (if k = 0 then s.r1 else s.r1 - v.weight)
                s.rng.draw.2 s.change := by
            unfold LPBState.room
            by_cases hz : k = 0 <;> simp [hz]
          rw [hst]
          apply ih
          all_goals
            dsimp only
            split <;> omega

theorem range_weightAt (W : List Int) : (List.range W.length).map (weightAt W) = W := by
  apply List.ext_getElem?
  intro i
  rw [List.getElem?_map]
  by_cases h : i < W.length
  · rw [List.getElem?_range h]
    unfold weightAt
    simp [h]
  · rw [List.getElem?_eq_none (by simp; omega), List.getElem?_eq_none (by omega)]
    rfl

theorem lpBisect64_eq {shuf : Shuffle} (hsh : ∀ r l, (shuf r l).1.Perm l) {H : Hypergraph} (w : WF H)
    (hw : WeightsNonneg H) (hT : (H.vertices.map (·.weight)).sum ≤ 2 ^ 60)
    {max0 max1 : Int} (h0 : -2 ^ 60 ≤ max0 ∧ max0 ≤ 2 ^ 60) (h1 : -2 ^ 60 ≤ max1 ∧ max1 ≤ 2 ^ 60)
    (maxIter : Nat) (rng : Rng) :
    lpBisect64 shuf H (List.replicate H.nets.length ⟨0, 0⟩) maxIter max0 max1 rng =
      lpBisect shuf H (List.replicate H.nets.length ⟨0, 0⟩) maxIter max0 max1 rng := by
  have hs := range_weightAt (H.vertices.map (·.weight))
  rw [List.length_map] at hs
  have e : lpbStart64 H (List.replicate H.nets.length ⟨0, 0⟩) max0 max1 rng =
      lpbStart H (List.replicate H.nets.length ⟨0, 0⟩) max0 max1 rng := by
    unfold lpbStart64 lpbStart
    apply lpbStartLoop64_eq hw
    · dsimp only; omega
    · dsimp only; omega
    · dsimp only; rw [hs]; omega
    · dsimp only; rw [hs]; omega
  obtain ⟨s, h1', h2, -⟩ := lpbStart_ok w max0 max1 rng
  unfold lpBisect64 lpBisect
  rw [e, h1']
  simp only [ok_bind]
  exact lpbSweeps64_eq hsh w hw hT h0 h1 _ _ _ h2 (List.Perm.refl _)

/-! ### Initial partitioning -/

theorem weightPart64_eq {H : Hypergraph} (hw : WeightsNonneg H) (hT : (H.vertices.map (·.weight)).sum < 2 ^ 63)
    (p : Int) : weightPart64 H p = .ok (partWeight H p) := by
  rw [← weightPart_eq]
  unfold weightPart64 Hypergraph.weightPart
  suffices h : ∀ (vs : List Vertex) (t : Int), 0 ≤ t → (∀ v ∈ vs, 0 ≤ v.weight) →
      t + (vs.map (·.weight)).sum < 2 ^ 63 →
      vs.foldlM (fun t v => if v.part = p then long (t + v.weight) else pure t) t =
        .ok (vs.foldl (fun t v => if v.part = p then t + v.weight else t) t) from
    h _ 0 (le_refl _) hw (by omega)
  intro vs
  induction vs with
  | nil => intro t _ _ _; rfl
  | cons v vs ih =>
    intro t ht hv hb
    rw [List.map_cons, List.sum_cons] at hb
    have hv0 := hv v (by simp)
    have hs : 0 ≤ (vs.map (·.weight)).sum := sum_map_nonneg _ _ (fun u hu => hv u (by simp [hu]))
    rw [List.foldlM_cons, List.foldl_cons]
    split
    · rw [long_nat (by omega) (by omega), ok_bind]
      exact ih _ (by omega) (fun u hu => hv u (by simp [hu])) (by omega)
    · rw [pure_eq_ok, ok_bind]
      exact ih _ (by omega) (fun u hu => hv u (by simp [hu])) (by omega)

theorem Spec.SameUpToParts.costs {H H' : Hypergraph} (h : SameUpToParts H H') :
    H'.nets.map (·.cost) = H.nets.map (·.cost) :=
  forall2_map_eq h.nets (fun _ _ h => h.2.1)

/-- What the 64-bit arithmetic of the initial partitioning needs. -/
structure Moderate (H : Hypergraph) (max0 max1 : Int) : Prop where
  wf : WF H
  hc : CostsNonneg H
  hw : WeightsNonneg H
  costs : (H.nets.map (·.cost)).sum ≤ 2 ^ 60
  weights : (H.vertices.map (·.weight)).sum ≤ 2 ^ 60
  h0 : -2 ^ 60 ≤ max0 ∧ max0 ≤ 2 ^ 60
  h1 : -2 ^ 60 ≤ max1 ∧ max1 ≤ 2 ^ 60

theorem Moderate.same {H H' : Hypergraph} {max0 max1 : Int} (h : Moderate H max0 max1) (w' : WF H')
    (hs : SameUpToParts H H') : Moderate H' max0 max1 :=
  ⟨w', hs.costsNonneg h.hc, hs.weightsNonneg h.hw, by rw [hs.costs]; exact h.costs,
    by rw [hs.weights]; exact h.weights, h.h0, h.h1⟩

theorem ipRound64_eq {shuf : Shuffle} (hsh : ∀ r l, (shuf r l).1.Perm l) {H : Hypergraph} {max0 max1 : Int}
    (M : Moderate H max0 max1) {fuel : Nat} (hf : H.vertices.length < fuel) (opts : Options) (rng : Rng) :
    ipRound64 fuel shuf opts max0 max1 H rng = ipRound fuel shuf opts max0 max1 H rng := by
  obtain ⟨s0, s, -, h2, -, h4, -⟩ := lpBisect_ok hsh M.wf opts.lpMaxIterations max0 max1 rng
  have hsame := withLabels_same M.wf h4.len
  have M' := M.same (withLabels_wf M.wf h4.len) hsame
  have hT := M'.weights
  obtain ⟨r, g1, g2⟩ := C102_refine M'.wf M'.hc M'.hw (withLabels_bip h4.labels)
    (h4.counts ▸ withLabels_counts M.wf h4.len) (fuel := fuel) (by rw [hsame.vlen]; exact hf) opts s.rng none
    (by intro c hc; cases hc) M'.costs M'.weights M'.h0 M'.h1
  unfold ipRound64 ipRound
  rw [lpBisect64_eq hsh M.wf M.hw M.weights M.h0 M.h1, h2]
  simp only [ok_bind]
  rw [setPartsFrom_ok h4.len]
  simp only [ok_bind]
  rw [weightPart64_eq M'.hw (by omega), weightPart64_eq M'.hw (by omega), weightPart_eq, weightPart_eq]
  simp only [ok_bind]
  rw [g1, g2]

theorem bip_fit {H : Hypergraph} {max0 max1 : Int} (M : Moderate H max0 max1) (k : Int) :
    0 ≤ partWeight H k ∧ partWeight H k ≤ 2 ^ 60 := by
  refine ⟨partWeight_nonneg' M.hw k, ?_⟩
  have h := M.weights
  have : partWeight H k ≤ (H.vertices.map (·.weight)).sum := by
    unfold partWeight
    have hw := M.hw
    unfold WeightsNonneg at hw
    generalize H.vertices = vs at hw
    clear h
    induction vs with
    | nil => simp
    | cons v vs ih =>
      have h1 := ih (fun u hu => hw u (by simp [hu]))
      have h2 := hw v (by simp)
      rw [List.filter_cons]
      split
      · rw [List.map_cons, List.sum_cons, List.map_cons, List.sum_cons]; omega
      · rw [List.map_cons, List.sum_cons]; omega
  omega

theorem ipStep64_eq {shuf : Shuffle} (hsh : ∀ r l, (shuf r l).1.Perm l) {max0 max1 : Int} {s : IPState}
    (M : Moderate s.H max0 max1) {fuel : Nat} (hf : s.H.vertices.length < fuel) (opts : Options) (i : Nat) :
    ipStep64 fuel shuf opts max0 max1 s i = ipStep fuel shuf opts max0 max1 s i ∧
      ∃ s', ipStep fuel shuf opts max0 max1 s i = .ok s' ∧ Moderate s'.H max0 max1 ∧
        s'.H.vertices.length = s.H.vertices.length := by
  obtain ⟨r, h1, h2⟩ := ipRound_ok hsh M.wf M.hc M.hw hf opts max0 max1 s.rng
  have M' := M.same h2.wf h2.same
  have b0 := bip_fit M' 0
  have b1 := bip_fit M' 1
  have hT := M'.weights
  have m0 := M.h0
  have m1 := M.h1
  have hcut : 0 ≤ r.cut ∧ r.cut ≤ 2 ^ 60 := by
    rw [h2.cut]
    have h := cutNet_le_costs (partOf r.H) r.H.nets M'.hc
    have hc := M'.costs
    have hn := (cutNet_fit M'.hc (partOf r.H)).1
    unfold cutValue
    dsimp only
    omega
  unfold ipStep64 ipStep
  rw [ipRound64_eq hsh M hf, h1]
  simp only [ok_bind]
  rw [weightPart64_eq M'.hw (by omega), weightPart64_eq M'.hw (by omega), weightPart_eq, weightPart_eq]
  simp only [ok_bind]
  rw [long_ok (by omega) (by omega), long_ok (by omega) (by omega)]
  simp only [ok_bind]
  have e1 : longMark (max (partWeight r.H 0 - max0) (partWeight r.H 1 - max1)) =
      .ok (max (partWeight r.H 0 - max0) (partWeight r.H 1 - max1)) := by
    unfold longMark
    rw [if_pos (by omega)]
  have e2 : longMark r.cut = .ok r.cut := by
    unfold longMark
    rw [if_pos (by omega)]
  rw [e1, e2]
  simp only [ok_bind]
  refine ⟨by trivial, ?_⟩
  split
  · exact ⟨_, rfl, M', h2.same.vlen⟩
  · exact ⟨_, rfl, M', h2.same.vlen⟩

theorem initialPartitioning64_eq {shuf : Shuffle} (hsh : ∀ r l, (shuf r l).1.Perm l) {H : Hypergraph}
    {max0 max1 : Int} (M : Moderate H max0 max1) {fuel : Nat} (hf : H.vertices.length < fuel) (opts : Options)
    (rng : Rng) :
    initialPartitioning64 fuel shuf H max0 max1 opts rng = initialPartitioning fuel shuf H max0 max1 opts rng := by
  have loop : ∀ (l : List Nat) (s : IPState), Moderate s.H max0 max1 → s.H.vertices.length < fuel →
      l.foldlM (ipStep64 fuel shuf opts max0 max1) s = l.foldlM (ipStep fuel shuf opts max0 max1) s := by
    intro l
    induction l with
    | nil => intro s _ _; rfl
    | cons i l ih =>
      intro s M hf
      obtain ⟨e, s', e', M', hl⟩ := ipStep64_eq hsh M hf opts i
      rw [List.foldlM_cons, List.foldlM_cons, e, e']
      simp only [ok_bind]
      exact ih s' M' (by omega)
  unfold initialPartitioning64 initialPartitioning
  rw [loop _ _ M hf]

/-! ### Coarsening -/

theorem addPinOf_vertices {HC HC' : Hypergraph} {u e : Nat} (h : addPinOf HC u e = .ok HC') :
    HC'.vertices = HC.vertices := by
  unfold addPinOf Hypergraph.modifyNet at h
  split at h
  · cases h
  · split at h
    · cases h; rfl
    · cases h

theorem contractNets_keep : ∀ (es : List Nat) (s s' : Hypergraph × Vertex), es.foldlM contractNet s = .ok s' →
    s'.2.weight = s.2.weight ∧ s'.1.vertices = s.1.vertices := by
  intro es
  induction es with
  | nil => intro s s' h; cases h; exact ⟨rfl, rfl⟩
  | cons e es ih =>
    intro s s' h
    rw [List.foldlM_cons] at h
    cases hc : contractNet s e with
    | error x => rw [hc] at h; cases h
    | ok s1 =>
      rw [hc, ok_bind] at h
      obtain ⟨a, b⟩ := ih s1 s' h
      unfold contractNet at hc
      split at hc
      · cases hc; exact ⟨a, b⟩
      · cases hp : addPinOf s.1 s.2.id e with
        | error x => rw [hp] at hc; cases hc
        | ok HC =>
          rw [hp] at hc
          simp only [ok_bind, pure_eq_ok] at hc
          cases hc
          exact ⟨a, b.trans (addPinOf_vertices hp)⟩

theorem contractMatches64 {H : Hypergraph} (hw : WeightsNonneg H) (rank i : Nat) :
    ∀ (ms : List Nat) (s s' : Hypergraph × Contraction × Vertex),
      ms.foldlM (contractMatch H rank i) s = .ok s' → s.2.2.weight ≤ s'.2.2.weight ∧
        s'.1.vertices = s.1.vertices ∧
        (0 ≤ s.2.2.weight → s'.2.2.weight < 2 ^ 63 → ms.foldlM (contractMatch64 H rank i) s = .ok s') := by
  intro ms
  induction ms with
  | nil => intro s s' h; cases h; exact ⟨le_refl _, rfl, fun _ _ => rfl⟩
  | cons m ms ih =>
    intro s s' h
    rw [List.foldlM_cons] at h
    cases hc : contractMatch H rank i s m with
    | error x => rw [hc] at h; cases h
    | ok s1 =>
      rw [hc, ok_bind] at h
      obtain ⟨a, b, c⟩ := ih s1 s' h
      have hc0 := hc
      unfold contractMatch at hc
      cases hC : s.2.1.addMatch i m rank with
      | error x => rw [hC] at hc; cases hc
      | ok C =>
        rw [hC, ok_bind] at hc
        cases hu : H.vertexOf m with
        | error x => rw [hu] at hc; cases hc
        | ok u =>
          rw [hu, ok_bind] at hc
          have hu0 := hw u (vertexOf_mem' hu)
          cases hn : u.nets.foldlM contractNet (s.1, { s.2.2 with weight := s.2.2.weight + u.weight }) with
          | error x => rw [hn] at hc; cases hc
          | ok t =>
            rw [hn, ok_bind] at hc
            obtain ⟨k1, k2⟩ := contractNets_keep _ _ _ hn
            cases hc
            dsimp only at k1 k2 a b c
            refine ⟨by omega, b.trans k2, ?_⟩
            intro h0 hb
            rw [List.foldlM_cons]
            have : contractMatch64 H rank i s m = .ok (t.1, C, t.2) := by
              unfold contractMatch64
              rw [hC, ok_bind, hu, ok_bind, long_nat (by omega) (by omega), ok_bind, hn]
              rfl
            rw [this, ok_bind]
            exact c (by omega) hb

theorem addOwn_vertices (u : Nat) : ∀ (es : List Nat) (HC HC' : Hypergraph),
    es.foldlM (fun HC e => addPinOf HC u e) HC = .ok HC' → HC'.vertices = HC.vertices := by
  intro es
  induction es with
  | nil => intro HC HC' h; cases h; rfl
  | cons e es ih =>
    intro HC HC' h
    rw [List.foldlM_cons] at h
    cases hc : addPinOf HC u e with
    | error x => rw [hc] at h; cases h
    | ok K =>
      rw [hc, ok_bind] at h
      exact (ih K HC' h).trans (addPinOf_vertices hc)

theorem contractVertex64_eq {H : Hypergraph} (hw : WeightsNonneg H) (M : List (List Nat)) (rank : Nat)
    {s s' : Hypergraph × Contraction} {i : Nat} (h : contractVertex H M rank s i = .ok s')
    (h0 : ∀ v, s.1.vertices[i]? = some v → 0 ≤ v.weight) :
    (∀ j, j ≠ i → s'.1.vertices[j]? = s.1.vertices[j]?) ∧
      ((∀ v, s'.1.vertices[i]? = some v → v.weight < 2 ^ 63) → contractVertex64 H M rank s i = .ok s') := by
  unfold contractVertex at h
  cases hv : s.1.vertexAt i with
  | error x => rw [hv] at h; cases h
  | ok v =>
    rw [hv, ok_bind] at h
    have hg : s.1.vertices[i]? = some v := by
      unfold Hypergraph.vertexAt at hv
      cases hg : s.1.vertices[i]? with
      | none => rw [hg] at hv; cases hv
      | some u => rw [hg] at hv; cases hv; rfl
    cases hl : H.localId v.id with
    | error x => rw [hl] at h; cases h
    | ok l =>
      rw [hl, ok_bind] at h
      cases hp : v.nets.foldlM (fun HC e => addPinOf HC v.id e) s.1 with
      | error x => rw [hp] at h; cases h
      | ok HC =>
        rw [hp, ok_bind] at h
        cases hm : vget M l with
        | error x => rw [hm] at h; cases h
        | ok ms =>
          rw [hm, ok_bind] at h
          cases hf : ms.foldlM (contractMatch H rank i) (HC, s.2.addSample v.id, v) with
          | error x => rw [hf] at h; cases h
          | ok t =>
            rw [hf, ok_bind] at h
            obtain ⟨-, k2, k3⟩ := contractMatches64 hw rank i ms _ _ hf
            dsimp only at k2 k3
            cases h
            have hvs : t.1.vertices = s.1.vertices := k2.trans (addOwn_vertices _ _ _ _ hp)
            refine ⟨?_, ?_⟩
            · intro j hj
              unfold Hypergraph.setVertex
              dsimp only
              rw [List.getElem?_set_ne (Ne.symm hj), hvs]
            · intro hb
              have hi : i < t.1.vertices.length := by
                rw [hvs]; rw [List.getElem?_eq_some_iff] at hg; exact hg.1
              have := hb t.2.2 (by
                unfold Hypergraph.setVertex
                dsimp only
                rw [List.getElem?_set_self hi])
              unfold contractVertex64
              rw [hv, ok_bind, hl, ok_bind, hp, ok_bind, hm, ok_bind, k3 (h0 v hg) this]
              rfl

theorem contractLoop64 {H : Hypergraph} (hw : WeightsNonneg H) (M : List (List Nat)) (rank : Nat) :
    ∀ (l : List Nat) (s s' : Hypergraph × Contraction), l.Nodup →
      l.foldlM (contractVertex H M rank) s = .ok s' → (∀ j ∈ l, ∀ v, s.1.vertices[j]? = some v → 0 ≤ v.weight) →
      (∀ j, j ∉ l → s'.1.vertices[j]? = s.1.vertices[j]?) ∧
      ((∀ v ∈ s'.1.vertices, v.weight < 2 ^ 63) → l.foldlM (contractVertex64 H M rank) s = .ok s') := by
  intro l
  induction l with
  | nil => intro s s' _ h _; cases h; exact ⟨fun _ _ => rfl, fun _ => rfl⟩
  | cons i l ih =>
    intro s s' hnd h h0
    rw [List.nodup_cons] at hnd
    rw [List.foldlM_cons] at h
    cases hc : contractVertex H M rank s i with
    | error x => rw [hc] at h; cases h
    | ok s1 =>
      rw [hc, ok_bind] at h
      obtain ⟨k1, k2⟩ := contractVertex64_eq hw M rank hc (h0 i (by simp))
      obtain ⟨a, b⟩ := ih s1 s' hnd.2 h (by
        intro j hj v hv
        rw [k1 j (by rintro rfl; exact hnd.1 hj)] at hv
        exact h0 j (by simp [hj]) v hv)
      refine ⟨?_, ?_⟩
      · intro j hj
        rw [List.mem_cons, not_or] at hj
        rw [a j hj.2, k1 j hj.1]
      · intro hb
        rw [List.foldlM_cons, k2 (by
          intro v hv
          rw [← a i hnd.1] at hv
          exact hb v (List.mem_of_getElem? hv)), ok_bind]
        exact b hb

theorem collectFree64_eq : ∀ (vs : List Vertex) (s : List (Nat × Int) × Int), 0 ≤ s.2 →
    (∀ f ∈ (vs.foldl collectFree s).1, 0 ≤ f.2) → (vs.foldl collectFree s).2 < 2 ^ 63 →
    vs.foldlM collectFree64 s = .ok (vs.foldl collectFree s) := by
  have grow : ∀ (vs : List Vertex) (s : List (Nat × Int) × Int), s.1 ⊆ (vs.foldl collectFree s).1 := by
    intro vs
    induction vs with
    | nil => intro s x hx; exact hx
    | cons v vs ih =>
      intro s x hx
      rw [List.foldl_cons]
      apply ih
      unfold collectFree
      split
      · exact List.mem_append_left _ hx
      · exact hx
  have mono : ∀ (vs : List Vertex) (s : List (Nat × Int) × Int),
      (∀ f ∈ (vs.foldl collectFree s).1, 0 ≤ f.2) → s.2 ≤ (vs.foldl collectFree s).2 := by
    intro vs
    induction vs with
    | nil => intro s _; exact le_refl _
    | cons v vs ih =>
      intro s hs
      rw [List.foldl_cons] at hs ⊢
      have h := ih _ hs
      have hsub := grow vs (collectFree s v)
      unfold collectFree at h hsub hs ⊢
      split at h
      · rename_i hz
        rw [if_pos hz] at hsub hs ⊢
        have := hs (v.id, v.weight) (hsub (by simp))
        dsimp only at h this
        omega
      · rename_i hz
        rw [if_neg hz]
        exact h
  intro vs
  induction vs with
  | nil => intro s _ _ _; rfl
  | cons v vs ih =>
    intro s h0 hf hb
    rw [List.foldl_cons] at hf hb ⊢
    rw [List.foldlM_cons]
    have hm := mono vs _ hf
    have hsub := grow vs (collectFree s v)
    have ih' := ih (collectFree s v)
    unfold collectFree64
    unfold collectFree at hm hsub ih' hf hb ⊢
    by_cases hz : v.nets.length = 0
    · rw [if_pos hz] at hm hsub ih' hf hb ⊢
      have hv := hf (v.id, v.weight) (hsub (by simp))
      dsimp only at hv hm
      rw [if_pos hz, long_nat (by omega) (by omega)]
      simp only [ok_bind, pure_eq_ok]
      exact ih' (by dsimp only; omega) hf hb
    · rw [if_neg hz] at hm hsub ih' hf hb ⊢
      rw [if_neg hz, pure_eq_ok, ok_bind]
      exact ih' h0 hf hb

theorem mergeFree64_eq {C : Contraction} {H : Hypergraph} {r : Contraction × Hypergraph}
    (h : C.mergeFree H = .ok r) (hf : ∀ f ∈ r.1.free, 0 ≤ f.2) (hb : r.1.globalFree < 2 ^ 63) :
    C.mergeFree64 H = .ok r := by
  unfold Contraction.mergeFree Contraction.removeFreeVertices at h
  unfold Contraction.mergeFree64 Contraction.removeFreeVertices64
  cases hm : (H.vertices.foldl collectFree (C.free, 0)).1.foldlM
      (fun (H : Hypergraph) f => H.removeFreeVertex f.1) H with
  | error x =>
    simp only [hm, error_bind] at h
    cases h
  | ok H' =>
    simp only [hm, ok_bind, pure_eq_ok] at h
    cases h
    rw [collectFree64_eq _ _ (le_refl _) hf hb]
    simp only [ok_bind, hm, pure_eq_ok]

theorem clusterWeight_le {H : Hypergraph} (hw : WeightsNonneg H) (C : Contraction) (s : Nat) :
    clusterWeight H C s ≤ (H.vertices.map (·.weight)).sum := by
  unfold clusterWeight
  unfold WeightsNonneg at hw
  generalize H.vertices = vs at hw
  induction vs with
  | nil => simp
  | cons v vs ih =>
    have h1 := ih (fun u hu => hw u (by simp [hu]))
    have h2 := hw v (by simp)
    rw [List.filter_cons]
    split
    · rw [List.map_cons, List.sum_cons, List.map_cons, List.sum_cons]; omega
    · rw [List.map_cons, List.sum_cons]; omega

theorem free_nonneg {H HC : Hypergraph} {C : Contraction} (hw : WeightsNonneg H) (hI : IsContraction H C HC) :
    (∀ f ∈ C.free, 0 ≤ f.2) ∧ ∀ v ∈ HC.vertices, 0 ≤ v.weight := by
  have hpos : ∀ x ∈ clusterWeights H C, 0 ≤ x.2 := by
    intro x hx
    obtain ⟨s, -, rfl⟩ := List.mem_map.1 hx
    exact sum_map_nonneg _ _ (fun v hv => hw v (List.mem_filter.1 hv).1)
  refine ⟨fun f hf => hpos f (hI.vertices.subset (List.mem_append_right _ hf)), ?_⟩
  intro v hv
  exact hpos (v.id, v.weight) (hI.vertices.subset (List.mem_append_left _ (List.mem_map.2 ⟨v, hv, rfl⟩)))

theorem coarsenSeq64_eq {F : Type} (O : ScoreOps F) {shuf : Shuffle}
    (hsh : ∀ r l, (shuf r l).1.Perm l) {order : List Nat → List Nat} (hord : ∀ l, (order l).Perm l)
    (rank : Nat) {H : Hypergraph} (w : WF H) (hw : WeightsNonneg H) (hT : (H.vertices.map (·.weight)).sum < 2 ^ 63)
    (opts : Options) (rng : Rng) :
    coarsenSeq64 O shuf order rank H {} opts rng = coarsenSeq O shuf order rank H {} opts rng := by
  obtain ⟨HC, C, rng', e0, wc, hs, hI, htot, -, -, -, -, hfree, -⟩ := C26_coarsen O hsh hord rank w opts rng
  obtain ⟨s, e1, hM, -⟩ := matching_ok O w opts.maxClustersize (hsh rng (List.range H.vertices.length))
  obtain ⟨hf0, hv0⟩ := free_nonneg hw hI
  have hsum : 0 ≤ allWeight HC := by unfold allWeight; exact sum_map_nonneg _ _ hv0
  have hle : C.globalFree < 2 ^ 63 := by
    rw [hfree]
    unfold allWeight at htot hsum
    omega
  rw [e0]
  unfold coarsenSeq at e0
  unfold coarsenSeq64
  simp only [e1, ok_bind] at e0 ⊢
  suffices h : ∀ r, contractSeq order rank H {} s.matchesL s.newV = .ok r → r = (HC, C) →
      contractSeq64 order rank H {} s.matchesL s.newV = .ok r by
    cases hr : contractSeq order rank H {} s.matchesL s.newV with
    | error x => rw [hr] at e0; cases e0
    | ok r =>
      rw [hr] at e0
      simp only [ok_bind, pure_eq_ok] at e0
      have hrr : r = (HC, C) := by
        injection e0 with e
        injection e with e2 e3
        injection e3 with e4 e5
        exact Prod.ext e2 e4
      have hrng : (shuf rng (List.range H.vertices.length)).2 = rng' := by
        injection e0 with e
        injection e with e2 e3
        injection e3 with e4 e5
      rw [h r hr hrr, hrr, ← hrng]
      rfl
  intro r hr hrr
  unfold contractSeq at hr
  unfold contractSeq64
  dsimp only at hr ⊢
  obtain ⟨HC0, hHC0⟩ : ∃ K, K = Hypergraph.create s.newV.length H.globalNumberNets s.newV
    (H.nets.map (fun n => Net.mk' n.id [] n.cost)) := ⟨_, rfl⟩
  rw [← hHC0] at hr ⊢
  have hn0 : HC0.nets.map (·.id) = H.nets.map (·.id) := by
    rw [hHC0]; unfold Hypergraph.create; simp only; rw [List.map_map]; rfl
  have hvs0 : HC0.vertices = s.newV := by rw [hHC0]; rfl
  have hN0 : NetsOk HC0 := by
    refine ⟨by rw [hn0]; exact w.nids, ?_⟩
    intro e j
    have := buildMap_spec (show (HC0.nets.map (·.id)).Nodup by rw [hn0]; exact w.nids) e j
    rw [hHC0] at this ⊢
    exact this
  obtain ⟨L, k1, k2⟩ := contractLoop_ok w hM rank hN0 hn0 hvs0
  have k3 := (contractLoop64 hw s.matchesL rank (List.range s.newV.length) _ _ List.nodup_range k1 (by
    intro j _ v hv
    dsimp only at hv
    rw [hvs0] at hv
    obtain ⟨v0, hv0', rfl⟩ := hM.copies v (List.mem_of_getElem? hv)
    exact hw v0 hv0')).2 (by
      intro m hm
      dsimp only at hm
      obtain ⟨v, hv, hvm⟩ := forall2_mem_right k2 hm
      rw [(made_cluster w hM rank hv hvm).2.2.2.1]
      have := clusterWeight_le hw (recorded H s.matchesL s.newV rank) v.id
      omega)
  rw [k1] at hr
  rw [k3]
  simp only [ok_bind] at hr ⊢
  rw [bind_eq_ok] at hr
  obtain ⟨HC2, e2, hr⟩ := hr
  rw [bind_eq_ok] at hr
  obtain ⟨r3, e3, hr⟩ := hr
  rw [pure_eq_ok] at hr
  injection hr with hr
  rw [e2, ok_bind]
  have hC : r3.1 = C := by
    rw [← hr] at hrr
    injection hrr
  rw [mergeFree64_eq e3 (by rw [hC]; exact hf0) (by rw [hC]; exact hle)]
  rw [ok_bind, pure_eq_ok, ← hr]

/-! ### Uncoarsening and the levels -/

/-- The bounds on the parts are moderate: not negative, at most `2^60`, and their product fits. -/
structure ModerateBounds (max0 max1 : Int) : Prop where
  n0 : 0 ≤ max0
  n1 : 0 ≤ max1
  l0 : max0 ≤ 2 ^ 60
  l1 : max1 ≤ 2 ^ 60
  prod : max0 * max1 < 2 ^ 63

theorem Spec.SameContent.total {H H' : Hypergraph} (h : SameContent H H') :
    (H'.vertices.map (·.weight)).sum = (H.vertices.map (·.weight)).sum := by
  have := congrArg (List.map (·.2)) h.vertices
  rw [List.map_map, List.map_map] at this
  exact congrArg List.sum this

theorem Spec.SameContent.weightsNonneg {H H' : Hypergraph} (h : SameContent H H') (hw : WeightsNonneg H) :
    WeightsNonneg H' := by
  intro v hv
  have : (v.id, v.weight) ∈ H.vertices.map (fun v => (v.id, v.weight)) := by
    rw [← h.vertices]; exact List.mem_map.2 ⟨v, hv, rfl⟩
  obtain ⟨u, hu, he⟩ := List.mem_map.1 this
  have he : u.weight = v.weight := congrArg Prod.snd he
  rw [← he]
  exact hw u hu

theorem uncoarsenSeq64_eq {srt : List (Nat × Int) → List (Nat × Int)} (hsrt : ∀ l, (srt l).Perm l)
    {H HC HC' : Hypergraph} {C : Contraction} {maxC : Nat} (w : WF H) (hcost : CostsNonneg H)
    (hwn : WeightsNonneg H) (hs : StarClustering H C maxC) (hc : IsContraction H C HC)
    (hfree : C.globalFree = (C.free.map (·.2)).sum) (hpl : FreePlaced C)
    (hsame : SameContent HC HC') (wc : WF HC') (hb : Bipartitioned HC') {fuel : Nat}
    (hf : H.vertices.length < fuel) (opts : Options) {max0 max1 : Int} (hm : ModerateBounds max0 max1) (rng : Rng)
    (htot : allWeight HC + (C.free.map (·.2)).sum = allWeight H)
    (hcosts : (H.nets.map (·.cost)).sum ≤ 2 ^ 60) (hweights : (H.vertices.map (·.weight)).sum ≤ 2 ^ 60) :
    uncoarsenSeq64 fuel srt HC' H C opts max0 max1 rng = uncoarsenSeq fuel srt HC' H C opts max0 max1 rng := by
  obtain ⟨a, a1, a2, a3, a4, a5, a6, -, a8, a9⟩ :=
    placed_ok hsrt w hs hc hfree hpl hsame wc hb max0 max1 rng
  obtain ⟨H1, u1, u2, u3, u4, u5, u6⟩ := C27_uncoarsen w a2 hs a4 a5
  have hids : ∀ s ∈ C.samples, IsVertex a.H s := by
    intro s h
    have h1 := a4.map (·.1)
    rw [List.map_map] at h1
    apply h1.symm.subset
    unfold clusterWeights
    rw [List.map_map]
    exact List.mem_map.2 ⟨s, h, rfl⟩
  have hb1 : Bipartitioned H1 := projected_bip w u2 hs u3 u4 a2 a3 hids
  obtain ⟨C1, i1, i2⟩ := initCounts_ok u2 hb1
  have hw0 : a.w0 = partWeight H1 0 := by rw [a8, u6]
  have hw1 : a.w1 = partWeight H1 1 := by rw [a9, u6]
  have hlen : H1.vertices.length < fuel := by rw [u3.vlen]; exact hf
  obtain ⟨hf0, hv0⟩ := free_nonneg hwn hc
  have h64 := assignFree64_eq hsrt hm.n0 hm.n1 hm.prod hf0 hb (hsame.weightsNonneg hv0) (by
    rw [hsame.total]
    unfold allWeight at htot
    omega) rng
  have n0 := hm.n0
  have n1 := hm.n1
  obtain ⟨r, r1, r2⟩ := C102_refine u2 (u3.costsNonneg hcost) (u3.weightsNonneg hwn) hb1 i2 hlen
    opts a.rng none (by intro c hc; cases hc) (by rw [u3.costs]; exact hcosts) (by rw [u3.weights]; exact hweights)
    (max0 := max0) (max1 := max1) ⟨by omega, hm.l0⟩ ⟨by omega, hm.l1⟩
  unfold uncoarsenSeq64 uncoarsenSeq
  simp only [h64, a1, ok_bind, u1, i1, hw0, hw1, r1, r2]

theorem mlLevel64_eq {F : Type} {E : Env F} {N : Nat} (hE : E.Ok N) (rank : Nat) (opts : Options) {max0 max1 : Int}
    (hm : ModerateBounds max0 max1) (n : Nat) : ∀ (H : Hypergraph) (rng : Rng), LevelReady E.fuel H →
    (H.vertices.map (·.weight)).sum ≤ 2 ^ 60 →
    mlLevel64 E rank opts max0 max1 n H rng = mlLevel E rank opts max0 max1 n H rng := by
  have n0 := hm.n0
  have n1 := hm.n1
  have base : ∀ (H : Hypergraph) (rng : Rng), LevelReady E.fuel H → (H.vertices.map (·.weight)).sum ≤ 2 ^ 60 →
      initialPartitioning64 E.fuel E.shuf H max0 max1 opts rng = initialPartitioning E.fuel E.shuf H max0 max1 opts rng := by
    intro H rng hR hT
    have := hR.total
    exact initialPartitioning64_eq hE.shuf ⟨hR.wf, hR.costs, fun v hv => le_of_lt (hR.pos v hv), by omega, hT,
      ⟨by omega, hm.l0⟩, ⟨by omega, hm.l1⟩⟩ hR.fuel opts rng
  induction n with
  | zero => intro H rng hR hT; exact base H rng hR hT
  | succ n ih =>
    intro H rng hR hT
    unfold mlLevel64 mlLevel
    by_cases hg : H.globalSize > opts.coarseningNrvertices
    swap
    · rw [if_neg hg, if_neg hg]
      exact base H rng hR hT
    rw [if_pos hg, if_pos hg]
    obtain ⟨H1, s1, w1, s2, -, s4, -⟩ := C31_partial hR.wf hR.costs hR.total
    obtain ⟨c1, c2⟩ := simplify_costs hR.wf hR.costs hR.total s1
    have hlen1 : H1.vertices.length < E.fuel := by
      rw [s4.length_eq.symm]; exact hR.fuel
    have hpos1 : ∀ v ∈ H1.vertices, 0 < v.weight := by
      intro v hv
      obtain ⟨u, hu, h⟩ := forall2_mem_right s4 hv
      rw [h.2.1]
      exact hR.pos u hu
    have hw1 : WeightsNonneg H1 := fun v hv => le_of_lt (hpos1 v hv)
    have hT1 : (H1.vertices.map (·.weight)).sum ≤ 2 ^ 60 := by
      have : H1.vertices.map (·.weight) = H.vertices.map (·.weight) :=
        forall2_map_eq s4 (fun a b hab => hab.2.1)
      rw [this]
      exact hT
    have ht1 : (H1.nets.map (·.cost)).sum < 2147483648 := by rw [c2]; exact hR.total
    obtain ⟨HC, C, rng1, k1, wc, hs, hI, htot, -, -, -, -, hfree, hd⟩ :=
      C26_coarsen E.scores hE.shuf hE.order rank w1 opts rng
    have k64 := coarsenSeq64_eq E.scores hE.shuf hE.order rank w1 hw1 (by omega) opts rng
    have hpl := freePlaced_of_pos w1 hs hI hpos1
    have hready := coarse_ready w1 c1 ht1 hpos1 hlen1 hs hI wc hd
    obtain ⟨HC', rng2, l1, l2⟩ := mlLevel_ok hE rank opts max0 max1 n HC rng1 hready
    have hTC : (HC.vertices.map (·.weight)).sum ≤ 2 ^ 60 := by
      have h3 : 0 ≤ (C.free.map (·.2)).sum := sum_map_nonneg _ _ (free_nonneg hw1 hI).1
      unfold allWeight at htot
      omega
    have l64 := ih HC rng1 hready hTC
    have u64 := uncoarsenSeq64_eq hE.srt w1 c1 hw1 hs hI hfree hpl l2.same l2.wf l2.bip hlen1 opts hm rng2 htot
      (by omega) hT1
    simp only [s1, ok_bind, k64, k1, l64, l1, u64]

theorem slice_sum_le {H : Hypergraph} (hw : WeightsNonneg H) (s e : Nat) :
    ((slice H.vertices s e).map (·.weight)).sum ≤ (H.vertices.map (·.weight)).sum := by
  have hsub : (slice H.vertices s e).Sublist H.vertices :=
    (List.take_sublist _ _).trans (List.drop_sublist _ _)
  generalize slice H.vertices s e = l at hsub ⊢
  unfold WeightsNonneg at hw
  generalize H.vertices = vs at hsub hw ⊢
  induction hsub with
  | slnil => simp
  | cons a h ih =>
    have := ih (fun v hv => hw v (by simp [hv]))
    have := hw a (by simp)
    rw [List.map_cons, List.sum_cons]
    omega
  | cons_cons a h ih =>
    have := ih (fun v hv => hw v (by simp [hv]))
    rw [List.map_cons, List.sum_cons, List.map_cons, List.sum_cons]
    omega

theorem bisectMultilevel64_eq {F : Type} {E : Env F} {N : Nat} (hE : E.Ok N) {H : Hypergraph} (w : WF H)
    (hN : ∀ n ∈ H.nets, n.id < N) (hnets : H.nets.length < 2147483648)
    (hpos : ∀ v ∈ H.vertices, 0 < v.weight) (hf : H.vertices.length < E.fuel) {s e : Nat}
    (h1 : s ≤ e) (h2 : e ≤ H.vertices.length) (labels : Interval)
    (hl : labels.low ≠ labels.high) (opts : Options) {max0 max1 : Int} (hm : ModerateBounds max0 max1)
    (hT : ((slice H.vertices s e).map (·.weight)).sum ≤ 2 ^ 60) (rng : Rng) :
    bisectMultilevel64 E H opts max0 max1 s e labels rng = bisectMultilevel E H opts max0 max1 s e labels rng := by
  obtain ⟨R, H0, C0, H1, c1, k1, m1, hRR, hready, -, hrest⟩ :=
    bisectMultilevel_frame hE w hN hnets hpos hf h1 h2 labels hl opts max0 max1 rng
  obtain ⟨H2, rng2, l1, l2⟩ := mlLevel_ok hE 0 opts max0 max1 opts.coarseningMaxrounds H1 rng hready
  obtain ⟨H1', m1', -, m3, -⟩ := C28_merge hRR.wf (C := {}) rfl
  rw [m1] at m1'
  injection m1' with m1'
  injection m1' with hC0 hH1
  subst hH1
  have hpos0 : ∀ v ∈ H0.vertices, 0 ≤ v.weight := by
    intro v hv
    have : (v.id, v.weight) ∈ (slice H.vertices s e).map (fun v => (v.id, v.weight)) := by
      rw [← hRR.vertices]; exact List.mem_map.2 ⟨v, hv, rfl⟩
    obtain ⟨y, hy, he⟩ := List.mem_map.1 this
    have he : y.weight = v.weight := congrArg Prod.snd he
    rw [← he]
    exact le_of_lt (hpos y (((List.take_sublist _ _).trans (List.drop_sublist _ _)).subset hy))
  have hT0 : (H0.vertices.map (·.weight)).sum ≤ 2 ^ 60 := by
    have := congrArg (List.map (·.2)) hRR.vertices
    rw [List.map_map, List.map_map] at this
    have h3 : H0.vertices.map (·.weight) = (slice H.vertices s e).map (·.weight) := this
    rw [h3]
    exact hT
  have hfr : C0.free = freeOf H0 := by rw [hC0]; rfl
  have hgf : C0.globalFree = ((freeOf H0).map (·.2)).sum := by rw [hC0]; rfl
  have hf0 : ∀ f ∈ freeOf H0, 0 ≤ f.2 := by
    intro f hf
    obtain ⟨v, hv, rfl⟩ := List.mem_map.1 hf
    exact hpos0 v (List.mem_filter.1 hv).1
  have hfs : 0 ≤ ((freeOf H0).map (·.2)).sum := sum_map_nonneg _ _ hf0
  have hsum : (H1.vertices.map (·.weight)).sum + ((freeOf H0).map (·.2)).sum = (H0.vertices.map (·.weight)).sum := by
    rw [(m3.map (·.weight)).sum_eq]
    unfold freeOf
    rw [List.map_map]
    generalize H0.vertices = vs
    induction vs with
    | nil => rfl
    | cons v vs ih =>
      rw [List.filter_cons, List.filter_cons, List.map_cons, List.sum_cons, ← ih]
      by_cases hz : v.nets = []
      · simp [hz, Function.comp_def]; omega
      · simp [hz, Function.comp_def]; omega
  have hw1 : 0 ≤ (H1.vertices.map (·.weight)).sum :=
    sum_map_nonneg _ _ (fun v hv => le_of_lt (hready.pos v hv))
  have hT2 := l2.same.total
  have hw2 : WeightsNonneg H2 := l2.same.weightsNonneg (fun v hv => le_of_lt (hready.pos v hv))
  have m64 := mergeFree64_eq m1 (by dsimp only; rw [hfr]; exact hf0) (by dsimp only; rw [hgf]; omega)
  have l64 := mlLevel64_eq hE 0 opts hm opts.coarseningMaxrounds H1 rng hready (by omega)
  have a64 := assignFree64_eq hE.srt hm.n0 hm.n1 hm.prod (by rw [hfr]; exact hf0) l2.bip hw2 (by
    rw [hfr, hT2]; omega) rng2
  have hids2 : H2.vertices.map (·.id) = H1.vertices.map (·.id) := by
    have := congrArg (List.map (·.1)) l2.same.vertices
    rw [List.map_map, List.map_map] at this
    exact this
  have hfreend : (C0.free.map (·.1)).Nodup := by
    rw [hfr]
    unfold freeOf
    rw [List.map_map]
    exact hRR.wf.vids.sublist (List.filter_sublist.map _)
  have hfresh : ∀ f ∈ C0.free, ¬ IsVertex H2 f.1 := by
    intro f hf hv
    rw [hfr] at hf
    obtain ⟨a, ha, rfl⟩ := List.mem_map.1 hf
    unfold IsVertex at hv
    rw [hids2] at hv
    obtain ⟨b, hb, he⟩ := List.mem_map.1 hv
    have hb2 := List.mem_filter.1 (m3.subset hb)
    have ha2 := List.mem_filter.1 ha
    have : b = a := hRR.wf.vertex_inj hb2.1 ha2.1 he
    rw [this] at hb2
    simp at hb2 ha2
    exact hb2.2 ha2.2
  obtain ⟨a, l, a1, -, a3, a4, -⟩ := assignFree_ok hE.srt l2.wf l2.bip max0 max1 rng2 hfreend hfresh
  have hlw : (∀ v ∈ l, 0 ≤ v.weight) ∧ (l.map (·.weight)).sum ≤ ((freeOf H0).map (·.2)).sum := by
    have he := a4.1
    have hw : l.map (·.weight) = (l.map (fun v => (v.id, v.weight))).map (·.2) := by rw [List.map_map]; rfl
    split at he
    · rw [List.map_eq_nil_iff] at he
      subst he
      exact ⟨by simp, by simpa using hfs⟩
    · have hp : (l.map (fun v => (v.id, v.weight))).Perm (freeOf H0) := by
        rw [he, ← hfr]; exact hE.srt _
      refine ⟨?_, by rw [hw, (hp.map _).sum_eq]⟩
      intro v hv
      exact hf0 (v.id, v.weight) (hp.subset (List.mem_map.2 ⟨v, hv, rfl⟩))
  have hwa : WeightsNonneg a.H := by
    intro v hv
    rw [a3, List.mem_append] at hv
    rcases hv with h | h
    · exact hw2 v h
    · exact hlw.1 v h
  have hTa : (a.H.vertices.map (·.weight)).sum < 2 ^ 63 := by
    rw [a3, List.map_append, List.sum_append, hT2]
    have := hlw.2
    omega
  unfold bisectMultilevel64 bisectMultilevel
  simp only [c1, ok_bind, vget, List.getElem?_cons_zero, k1, m1, m64, l64, l1, a64, a1, pure_eq_ok,
    weightPart64_eq hwa hTa, weightPart_eq]

end PMondriaan

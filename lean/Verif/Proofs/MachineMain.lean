import Verif.Model.MachineMain
import Verif.Proofs.Machine
import Verif.Proofs.CutProg
import Verif.Props.Checks
import Verif.Props.Dist

/-
Lemmas for C108: the distributed cut size and load balance in 64 bits.
-/

namespace PMondriaan

open Spec

/-- Adding numbers that are not negative. -/
theorem sumLong_eq : ∀ (xs : List Int) (t : Int), 0 ≤ t → (∀ x ∈ xs, 0 ≤ x) → t + xs.sum < 2 ^ 63 →
    xs.foldlM (fun t x => long (t + x)) t = .ok (t + xs.sum) := by
  intro xs
  induction xs with
  | nil => intro t _ _ _; simp [pure, Except.pure]
  | cons x xs ih =>
    intro t ht hx hb
    rw [List.sum_cons] at hb ⊢
    have h0 := hx x (by simp)
    have h1 : 0 ≤ xs.sum := sum_nonneg' fun y hy => hx y (by simp [hy])
    rw [List.foldlM_cons, long_nat (by omega) (by omega), ok_bind,
      ih (t + x) (by omega) (fun y hy => hx y (by simp [hy])) (by omega), add_assoc]

theorem bulkSum64_eq {xs : List Int} (h : ∀ x ∈ xs, 0 ≤ x) (hb : xs.sum < 2 ^ 63) :
    bulkSum64 xs = .ok (bulkSum xs) := by
  unfold bulkSum64 bulkSum
  rw [sumLong_eq xs 0 (le_refl _) h (by omega), ok_bind, foldl_add_sum, zero_add]
  rfl

theorem slotCut_nonneg (metric : Metric) {x : List Int × Int} (h : 0 ≤ x.2) : 0 ≤ slotCut metric x.1 x.2 := by
  unfold slotCut
  cases metric with
  | cutNet => simp only; split <;> omega
  | lambdaMinusOne => exact mul_nonneg (by omega) h

theorem zip_costs {sets : List (List Int)} {costs : List Int} (h : ∀ c ∈ costs, 0 ≤ c) :
    ∀ x ∈ List.zip sets costs, 0 ≤ x.2 := by
  intro x hx
  exact h x.2 (List.of_mem_zip hx).2

theorem cutLocal_nonneg (metric : Metric) {sets : List (List Int)} {costs : List Int} (h : ∀ c ∈ costs, 0 ≤ c) :
    0 ≤ cutLocal metric sets costs := by
  rw [cutLocal_eq]
  apply sum_nonneg'
  intro y hy
  obtain ⟨x, hx, rfl⟩ := List.mem_map.1 hy
  exact slotCut_nonneg metric (zip_costs h x hx)

/-- One owner: when its sum fits, nothing overflows. -/
theorem cutLocal64_eq (metric : Metric) {sets : List (List Int)} {costs : List Int} (h : ∀ c ∈ costs, 0 ≤ c)
    (hb : cutLocal metric sets costs < 2 ^ 63) : cutLocal64 metric sets costs = .ok (cutLocal metric sets costs) := by
  rw [cutLocal_eq] at hb ⊢
  unfold cutLocal64
  have hz := zip_costs (sets := sets) h
  generalize List.zip sets costs = l at hb hz ⊢
  suffices H : ∀ (l : List (List Int × Int)) (r : Int), 0 ≤ r → (∀ x ∈ l, 0 ≤ x.2) →
      r + (l.map (fun x => slotCut metric x.1 x.2)).sum < 2 ^ 63 →
      l.foldlM (cutLocalStep64 metric) r = .ok (r + (l.map (fun x => slotCut metric x.1 x.2)).sum) by
    rw [H l 0 (le_refl _) hz (by omega), zero_add]
  intro l
  induction l with
  | nil => intro r _ _ _; simp [pure, Except.pure]
  | cons x l ih =>
    intro r hr hl hb
    rw [List.map_cons, List.sum_cons] at hb ⊢
    have h0 := slotCut_nonneg metric (hl x (by simp))
    have h1 : 0 ≤ (l.map (fun x => slotCut metric x.1 x.2)).sum := by
      apply sum_nonneg'
      intro y hy
      obtain ⟨z, hz, rfl⟩ := List.mem_map.1 hy
      exact slotCut_nonneg metric (hl z (by simp [hz]))
    have hstep : cutLocalStep64 metric r x = .ok (r + slotCut metric x.1 x.2) := by
      unfold cutLocalStep64
      by_cases hx : x.1.length > 1
      · rw [if_pos hx]
        cases metric with
        | cutNet =>
          have e : slotCut .cutNet x.1 x.2 = x.2 := by simp [slotCut, hx]
          simp only
          rw [e] at h0 hb ⊢
          exact long_nat (by omega) (by omega)
        | lambdaMinusOne =>
          have e : slotCut .lambdaMinusOne x.1 x.2 = ((x.1.length : Int) - 1) * x.2 := by
            simp only [slotCut]
            rw [Nat.cast_sub (by omega)]
            simp
          simp only
          rw [e] at h0 hb ⊢
          rw [wrap64_id (by omega) (by omega)]
          rfl
      · rw [if_neg hx]
        have e : slotCut metric x.1 x.2 = 0 := by
          cases metric with
          | cutNet => simp [slotCut, hx]
          | lambdaMinusOne =>
            have : x.1.length - 1 = 0 := by omega
            simp [slotCut, this]
        rw [e, add_zero]
        rfl
    rw [List.foldlM_cons, hstep, ok_bind, ih _ (by omega) (fun z hz => hl z (by simp [hz])) (by omega), add_assoc]

theorem mapM_ok_source {α β : Type} {f : α → Res β} : ∀ {l : List α} {r : List β}, l.mapM f = .ok r →
    ∀ b ∈ r, ∃ a ∈ l, f a = .ok b := by
  intro l
  induction l with
  | nil =>
    intro r h b hb
    injection h with h
    rw [← h] at hb
    cases hb
  | cons a l ih =>
    intro r h b hb
    rw [List.mapM_cons, bind_eq_ok] at h
    obtain ⟨c, h1, h2⟩ := h
    rw [bind_eq_ok] at h2
    obtain ⟨cs, h3, h4⟩ := h2
    injection h4 with h4
    rw [← h4] at hb
    rcases List.mem_cons.1 hb with rfl | hb
    · exact ⟨a, by simp, h1⟩
    · obtain ⟨x, hx, h5⟩ := ih h3 b hb
      exact ⟨x, by simp [hx], h5⟩

theorem mapM_ok_target {α β : Type} {f : α → Res β} : ∀ {l : List α} {r : List β}, l.mapM f = .ok r →
    ∀ a ∈ l, ∃ b ∈ r, f a = .ok b := by
  intro l
  induction l with
  | nil => intro r h a ha; cases ha
  | cons a l ih =>
    intro r h x hx
    rw [List.mapM_cons, bind_eq_ok] at h
    obtain ⟨c, h1, h2⟩ := h
    rw [bind_eq_ok] at h2
    obtain ⟨cs, h3, h4⟩ := h2
    injection h4 with h4
    rw [← h4]
    rcases List.mem_cons.1 hx with rfl | hx
    · exact ⟨c, by simp, h1⟩
    · obtain ⟨b, hb, h5⟩ := ih h3 x hx
      exact ⟨b, by simp [hb], h5⟩

/-- The costs of the messages are those of nets. -/
theorem cutSends_cost {so : List Int → List Int} {p : Nat} {np : NetPart} {H : Hypergraph}
    {out : List (Nat × LabelMsg)} (h : cutSends so p np H = .ok out) :
    ∀ x ∈ out, ∃ n ∈ H.nets, x.2.cost = n.cost := by
  intro x hx
  obtain ⟨n, hn, h1⟩ := mapM_ok_source h x hx
  rw [bind_eq_ok] at h1
  obtain ⟨s, -, h2⟩ := h1
  unfold send at h2
  split at h2
  · injection h2 with h2
    exact ⟨n, hn, by rw [← h2]⟩
  · cases h2

theorem cutReceive_costs {np : NetPart} : ∀ (ms : List LabelMsg) (st r : List (List Int) × List Int),
    (∀ m ∈ ms, 0 ≤ m.cost) → (∀ c ∈ st.2, 0 ≤ c) → ms.foldlM (cutReceive np) st = .ok r → ∀ c ∈ r.2, 0 ≤ c := by
  intro ms
  induction ms with
  | nil =>
    intro st r _ h1 h
    injection h with h
    rw [← h]; exact h1
  | cons m ms ih =>
    intro st r h0 h1 h
    rw [List.foldlM_cons, bind_eq_ok] at h
    obtain ⟨st', h2, h3⟩ := h
    refine ih st' r (fun m hm => h0 m (by simp [hm])) ?_ h3
    unfold cutReceive at h2
    rw [bind_eq_ok] at h2
    obtain ⟨costs, h4, h5⟩ := h2
    rw [bind_eq_ok] at h5
    obtain ⟨s, -, h6⟩ := h5
    rw [bind_eq_ok] at h6
    obtain ⟨sets, -, h7⟩ := h6
    injection h7 with h7
    rw [← h7]
    dsimp only
    unfold vset at h4
    split at h4
    · injection h4 with h4
      rw [← h4]
      intro c hc
      rcases List.mem_or_eq_of_mem_set hc with hc | rfl
      · exact h1 c hc
      · exact h0 m (by simp)
    · cases h4

/-- The distributed cut size in 64 bits: when it fits, nothing overflows on the way. -/
theorem cutsizePar64_of_ok {Hs : List Hypergraph} {np : NetPart} {d : Delivery LabelMsg} (hd : Fair d)
    {so : List Int → List Int} (hc : ∀ H ∈ Hs, CostsNonneg H) {metric : Metric} {c : Int}
    (hok : cutsizePar so d np Hs metric = .ok (Hs.map (fun _ => c))) (hb : c < 2 ^ 63) :
    cutsizePar64 so d np Hs metric = cutsizePar so d np Hs metric := by
  rw [hok]
  unfold cutsizePar at hok
  rw [bind_eq_ok] at hok
  obtain ⟨outs, h1, h2⟩ := hok
  rw [bind_eq_ok] at h2
  obtain ⟨rs, h3, h4⟩ := h2
  injection h4 with h4
  have hmsg : ∀ t, ∀ m ∈ inbox d outs t, 0 ≤ m.cost := by
    intro t m hm
    obtain ⟨o, ho, hx⟩ := (mem_inbox hd).1 hm
    obtain ⟨H, hH, h5⟩ := mapM_ok_source h1 o ho
    obtain ⟨n, hn, h6⟩ := cutSends_cost h5 _ hx
    rw [show m.cost = n.cost from h6]
    exact hc H hH n hn
  have hcosts : ∀ t r, (inbox d outs t).foldlM (cutReceive np)
      (List.replicate (np.count t) [], List.replicate (np.count t) 0) = .ok r → ∀ c ∈ r.2, 0 ≤ c := by
    intro t r h
    refine cutReceive_costs _ _ r (hmsg t) ?_ h
    intro c hc
    rw [List.eq_of_mem_replicate hc]
  have hrs : ∀ x ∈ rs, 0 ≤ x := by
    intro x hx
    obtain ⟨t, -, h5⟩ := mapM_ok_source h3 x hx
    rw [bind_eq_ok] at h5
    obtain ⟨r, h6, h7⟩ := h5
    injection h7 with h7
    rw [← h7]
    exact cutLocal_nonneg metric (hcosts t r h6)
  have hlen : rs.length = Hs.length := by
    rw [(mapM_ok_mem h3).2, List.length_range]
  have hsum : rs.sum < 2 ^ 63 := by
    cases hHs : Hs with
    | nil =>
      rw [hHs] at hlen
      rw [List.length_eq_zero_iff.1 hlen]
      decide
    | cons K Ks =>
      obtain ⟨x, xs, hx⟩ : ∃ x xs, rs = x :: xs := by
        cases rs with
        | nil => rw [hHs] at hlen; simp at hlen
        | cons x xs => exact ⟨x, xs, rfl⟩
      have h5 : (bulkSum rs)[0]? = (Hs.map (fun _ => c))[0]? := by rw [h4]
      unfold bulkSum at h5
      rw [foldl_add_sum] at h5
      rw [List.getElem?_map, List.getElem?_map, hx] at h5
      rw [hHs] at h5
      simp only [List.getElem?_cons_zero, Option.map_some, Option.some.injEq] at h5
      rw [← hx] at h5
      omega
  unfold cutsizePar64
  rw [h1, ok_bind]
  have h3' : (List.range Hs.length).mapM (fun t => cutOwner64 np metric t (inbox d outs t)) = .ok rs := by
    rw [← h3]
    apply mapM_congr_mem
    intro t ht
    obtain ⟨x, hx, h5⟩ := mapM_ok_target h3 t ht
    rw [h5]
    rw [bind_eq_ok] at h5
    obtain ⟨r, h6, h7⟩ := h5
    injection h7 with h7
    have hle := entry_le_sum hrs hx
    unfold cutOwner64
    rw [h6, ok_bind, cutLocal64_eq metric (hcosts t r h6) (by rw [h7]; omega), h7]
  rw [h3', ok_bind, bulkSum64_eq hrs hsum, h4]

theorem cutsizePar64_eq {N : Nat} {Hs : List Hypergraph} (hD : Distributed N Hs) {np : NetPart}
    (hv : np.Valid Hs.length N) {d : Delivery LabelMsg} (hd : Fair d) {so : List Int → List Int}
    (hso : ∀ l, (so l).Perm l) (hc : ∀ H ∈ Hs, CostsNonneg H) (metric : Metric)
    (hb : cutValue metric (unionH N Hs) < 2 ^ 63) :
    cutsizePar64 so d np Hs metric = cutsizePar so d np Hs metric :=
  cutsizePar64_of_ok hd hc (cutsizePar_ok hD hv hd hso metric) hb

/-- The distributed load balance in 64 bits. -/
theorem loadBalancePar64_eq (rnd : ℚ → ℚ) {Hs : List Hypergraph} (hw : ∀ H ∈ Hs, WeightsNonneg H) {k : Nat} (hk : 1 ≤ k)
    (hp : ∀ H ∈ Hs, ∀ v ∈ H.vertices, 0 ≤ v.part ∧ v.part < k)
    (hT : (Hs.map (fun H => (H.vertices.map (·.weight)).sum)).sum * k < 2 ^ 63) :
    loadBalancePar64 rnd Hs k = loadBalancePar rnd Hs k := by
  have hn : ∀ x ∈ Hs.map (fun H => (H.vertices.map (·.weight)).sum), 0 ≤ x := by
    intro x hx
    obtain ⟨H, hH, rfl⟩ := List.mem_map.1 hx
    apply sum_nonneg'
    intro y hy
    obtain ⟨v, hv, rfl⟩ := List.mem_map.1 hy
    exact hw H hH v hv
  obtain ⟨T, hTe⟩ : ∃ T, T = (Hs.map (fun H => (H.vertices.map (·.weight)).sum)).sum := ⟨_, rfl⟩
  have hT0 : 0 ≤ T := by rw [hTe]; exact sum_nonneg' hn
  rw [← hTe] at hT
  have hTk : T ≤ T * k := by
    have : T * 1 ≤ T * (k : Int) := mul_le_mul_of_nonneg_left (by omega) hT0
    omega
  have hW : globalWeight64 Hs = .ok (globalWeight Hs) := by
    unfold globalWeight64 globalWeight
    rw [mapM_ok (g := fun H => H.totalWeight) _ (by
      intro H hH
      have := entry_le_sum hn (List.mem_map.2 ⟨H, hH, rfl⟩)
      exact totalWeight64_eq (hw H hH) (by omega)), ok_bind]
    have e : Hs.map (·.totalWeight) = Hs.map (fun H => (H.vertices.map (·.weight)).sum) :=
      List.map_congr_left fun H _ => totalWeight_eq H
    rw [e]
    exact bulkSum64_eq hn (by omega)
  obtain ⟨t, t1, t2, t3⟩ := C08_global_weight_parts 0 k Hs hp
  unfold loadBalancePar64 loadBalancePar
  rw [globalWeightParts64_eq hw (by omega) hp, hW, t1, ok_bind, ok_bind, ok_bind]
  apply mapM_congr_mem
  intro x hx
  have hx1 : x.1 = t := by
    have := (List.of_mem_zip hx).1
    obtain ⟨H, -, h⟩ := List.mem_map.1 this
    exact h.symm
  have hun : ((unionH 0 Hs).vertices.map (·.weight)).sum = T := by
    rw [hTe]
    simp only [unionH, Hypergraph.create]
    rw [List.map_flatMap]
    clear * -
    induction Hs with
    | nil => rfl
    | cons H Hs ih => rw [List.flatMap_cons, List.sum_append, List.map_cons, List.sum_cons, ih]
  have htn : ∀ y ∈ t, 0 ≤ y := by
    intro y hy
    rw [t2] at hy
    obtain ⟨q, -, rfl⟩ := List.mem_map.1 hy
    refine partWeight_nonneg' ?_ _
    intro v hv
    simp only [unionH, Hypergraph.create] at hv
    obtain ⟨H, hH, hv⟩ := List.mem_flatMap.1 hv
    exact hw H hH v hv
  unfold balanceOne64
  rw [hx1, sumLong_eq t 0 (le_refl _) htn (by rw [t3, hun]; omega), ok_bind, foldl_add_sum, zero_add]
  cases hm : maxElement t with
  | error e => rfl
  | ok m =>
    have hmem : m ∈ t := by
      cases t with
      | nil => cases hm
      | cons y l =>
        injection hm with hm
        rw [← hm]
        exact (foldl_max l y).1
    have h1 := entry_le_sum htn hmem
    rw [t3, hun] at h1
    have h2 : m * (k : Int) ≤ T * k := mul_le_mul_of_nonneg_right h1 (by omega)
    rw [ok_bind, ok_bind, long_nat (mul_nonneg (htn m hmem) (by omega)) (by omega), ok_bind]

end PMondriaan

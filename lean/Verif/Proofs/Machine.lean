import Verif.Model.Machine
import Verif.Spec.Machine
import Verif.Proofs.Free
import Verif.Proofs.Cut
import Verif.Props.Container

/-
64-bit arithmetic: as long as nothing overflows, the functions of Model/Machine.lean are those of
the rest of the model.
-/

namespace PMondriaan

open Spec Contraction

theorem long_ok {x : Int} (h1 : -2 ^ 63 ≤ x) (h2 : x < 2 ^ 63) : long x = .ok x := by
  unfold long
  rw [if_pos ⟨h1, h2⟩]

theorem long_nat {x : Int} (h1 : 0 ≤ x) (h2 : x < 2 ^ 63) : long x = .ok x :=
  long_ok (by omega) h2

theorem long_ub {x : Int} (h : 2 ^ 63 ≤ x) : long x = .error .ub := by
  unfold long
  rw [if_neg (by omega)]

theorem wrap64_id {x : Int} (h1 : -2 ^ 63 ≤ x) (h2 : x < 2 ^ 63) : wrap64 x = x := by
  unfold wrap64
  rw [Int.emod_eq_of_lt (by omega) (by omega)]
  omega

theorem sum_nonneg' {l : List Int} (h : ∀ x ∈ l, 0 ≤ x) : 0 ≤ l.sum := by
  induction l with
  | nil => simp
  | cons a l ih =>
    rw [List.sum_cons]
    have := h a (by simp)
    have := ih (fun x hx => h x (by simp [hx]))
    omega

theorem entry_le_sum {l : List Int} (h : ∀ x ∈ l, 0 ≤ x) {x : Int} (hx : x ∈ l) : x ≤ l.sum := by
  induction l with
  | nil => cases hx
  | cons a l ih =>
    rw [List.sum_cons]
    have h0 := h a (by simp)
    have h1 : ∀ x ∈ l, 0 ≤ x := fun x hx => h x (by simp [hx])
    rcases List.mem_cons.1 hx with rfl | hx
    · have := sum_nonneg' h1; omega
    · have := ih h1 hx; omega

theorem sum_set_add {l : List Int} {i : Nat} {x : Int} (h : l[i]? = some x) (w : Int) :
    (l.set i (x + w)).sum = l.sum + w := by
  induction l generalizing i with
  | nil => cases h
  | cons a l ih =>
    cases i with
    | zero =>
      have : a = x := by simpa using h
      subst this
      rw [List.set_cons_zero, List.sum_cons, List.sum_cons]; omega
    | succ i =>
      rw [List.getElem?_cons_succ] at h
      rw [List.set_cons_succ, List.sum_cons, List.sum_cons, ih h]; omega

theorem totalWeight64_eq {H : Hypergraph} (hw : WeightsNonneg H)
    (hT : (H.vertices.map (·.weight)).sum < 2 ^ 63) : totalWeight64 H = .ok H.totalWeight := by
  unfold totalWeight64 Hypergraph.totalWeight
  suffices h : ∀ (vs : List Vertex) (t : Int), 0 ≤ t → (∀ v ∈ vs, 0 ≤ v.weight) →
      t + (vs.map (·.weight)).sum < 2 ^ 63 →
      vs.foldlM (fun t v => long (t + v.weight)) t = .ok (vs.foldl (fun t v => t + v.weight) t) from
    h _ 0 (le_refl _) hw (by omega)
  intro vs
  induction vs with
  | nil => intro t _ _ _; rfl
  | cons v vs ih =>
    intro t ht hv hb
    rw [List.map_cons, List.sum_cons] at hb
    have hv0 := hv v (by simp)
    have hs : 0 ≤ (vs.map (·.weight)).sum := sum_nonneg' (by
      intro x hx
      obtain ⟨u, hu, rfl⟩ := List.mem_map.1 hx
      exact hv u (by simp [hu]))
    rw [List.foldlM_cons, List.foldl_cons, long_nat (by omega) (by omega), ok_bind]
    exact ih _ (by omega) (fun u hu => hv u (by simp [hu])) (by omega)

theorem weightLoop64_eq : ∀ (vs : List Vertex) (t : List Int), (∀ x ∈ t, 0 ≤ x) →
    (∀ v ∈ vs, 0 ≤ v.weight) → t.sum + (vs.map (·.weight)).sum < 2 ^ 63 →
    vs.foldlM weightStep64 t = vs.foldlM (fun t v => do
      let x ← vgetI t v.part
      vsetI t v.part (x + v.weight)) t := by
  intro vs
  induction vs with
  | nil => intro t _ _ _; rfl
  | cons v vs ih =>
    intro t ht hv hb
    rw [List.map_cons, List.sum_cons] at hb
    have hv0 := hv v (by simp)
    have hs : 0 ≤ (vs.map (·.weight)).sum := sum_nonneg' (by
      intro x hx
      obtain ⟨u, hu, rfl⟩ := List.mem_map.1 hx
      exact hv u (by simp [hu]))
    rw [List.foldlM_cons, List.foldlM_cons]
    unfold weightStep64 vgetI vsetI vget
    by_cases hp : v.part < 0
    · simp only [if_pos hp, error_bind]
    · simp only [if_neg hp]
      cases hx : t[v.part.toNat]? with
      | none => simp only [error_bind]
      | some x =>
        have hm := List.mem_of_getElem? hx
        have h1 := ht x hm
        have h2 := entry_le_sum ht hm
        simp only [ok_bind]
        rw [long_nat (by omega) (by omega)]
        simp only [ok_bind]
        unfold vset
        have hlt : v.part.toNat < t.length := by
          by_contra hc
          rw [List.getElem?_eq_none (by omega)] at hx
          cases hx
        rw [if_pos hlt]
        simp only [ok_bind]
        refine ih _ ?_ (fun u hu => hv u (by simp [hu])) (by rw [sum_set_add hx]; omega)
        intro y hy
        rcases List.mem_or_eq_of_mem_set hy with h | h
        · exact ht y h
        · omega

theorem weightAllParts64_eq {H : Hypergraph} (hw : WeightsNonneg H)
    (hT : (H.vertices.map (·.weight)).sum < 2 ^ 63) (k : Nat) :
    weightAllParts64 H k = H.weightAllParts k := by
  unfold weightAllParts64 Hypergraph.weightAllParts
  apply weightLoop64_eq _ _ _ hw
  · rw [show (List.replicate k (0 : Int)).sum = 0 by simp]; omega
  · intro x hx
    rw [List.eq_of_mem_replicate hx]

theorem addEach64_eq {a b : List Int} (h : ∀ x ∈ List.zip a b, 0 ≤ x.1 + x.2 ∧ x.1 + x.2 < 2 ^ 63) :
    addEach64 a b = .ok (addEach a b) := by
  unfold addEach64 addEach
  rw [mapM_ok (g := fun x => x.1 + x.2) _ (fun x hx => long_nat (h x hx).1 (h x hx).2)]
  congr 1
  rw [List.zip, List.map_zipWith]

theorem addEach_nonneg {a b : List Int} (ha : ∀ x ∈ a, 0 ≤ x) (hb : ∀ x ∈ b, 0 ≤ x) :
    (∀ x ∈ addEach a b, 0 ≤ x) ∧ (addEach a b).sum ≤ a.sum + b.sum := by
  induction a generalizing b with
  | nil =>
    have := sum_nonneg' hb
    exact ⟨by simp [addEach], by simpa [addEach] using this⟩
  | cons x a ih =>
    cases b with
    | nil =>
      have := sum_nonneg' ha
      exact ⟨by simp [addEach], by simpa [addEach] using this⟩
    | cons y b =>
      obtain ⟨h1, h2⟩ := ih (b := b) (fun z hz => ha z (by simp [hz])) (fun z hz => hb z (by simp [hz]))
      have hx := ha x (by simp)
      have hy := hb y (by simp)
      constructor
      · intro z hz
        rcases List.mem_cons.1 (show z ∈ (x + y) :: addEach a b from hz) with rfl | hz
        · omega
        · exact h1 z hz
      · show (x + y + (addEach a b).sum) ≤ _
        rw [List.sum_cons, List.sum_cons]; omega

theorem foldAddEach64_eq : ∀ (ws : List (List Int)) (acc : List Int), (∀ x ∈ acc, 0 ≤ x) →
    (∀ w ∈ ws, ∀ x ∈ w, 0 ≤ x) → acc.sum + (ws.map (·.sum)).sum < 2 ^ 63 →
    ws.foldlM addEach64 acc = .ok (ws.foldl addEach acc) := by
  intro ws
  induction ws with
  | nil => intro acc _ _ _; rfl
  | cons w ws ih =>
    intro acc ha hw hb
    rw [List.map_cons, List.sum_cons] at hb
    have hw0 := hw w (by simp)
    have hs : 0 ≤ (ws.map (·.sum)).sum := sum_nonneg' (by
      intro x hx
      obtain ⟨u, hu, rfl⟩ := List.mem_map.1 hx
      exact sum_nonneg' (hw u (by simp [hu])))
    rw [List.foldlM_cons, List.foldl_cons, addEach64_eq, ok_bind]
    · obtain ⟨h1, h2⟩ := addEach_nonneg ha hw0
      exact ih _ h1 (fun u hu => hw u (by simp [hu])) (by omega)
    · intro x hx
      obtain ⟨hx1, hx2⟩ := List.of_mem_zip hx
      have := ha _ hx1
      have := hw0 _ hx2
      have := entry_le_sum ha hx1
      have := entry_le_sum hw0 hx2
      constructor <;> omega

theorem partWeight_nonneg' {H : Hypergraph} (hw : WeightsNonneg H) (p : Int) : 0 ≤ partWeight H p := by
  unfold partWeight
  apply sum_nonneg'
  intro x hx
  obtain ⟨v, hv, rfl⟩ := List.mem_map.1 hx
  exact hw v (List.mem_filter.1 hv).1

theorem globalWeightParts64_eq {Hs : List Hypergraph} (hw : ∀ H ∈ Hs, WeightsNonneg H)
    (hT : (Hs.map (fun H => (H.vertices.map (·.weight)).sum)).sum < 2 ^ 63) {k : Nat}
    (hp : ∀ H ∈ Hs, ∀ v ∈ H.vertices, 0 ≤ v.part ∧ v.part < k) :
    globalWeightParts64 Hs k = globalWeightParts Hs k := by
  have hn : ∀ x ∈ Hs.map (fun H => (H.vertices.map (·.weight)).sum), 0 ≤ x := by
    intro x hx
    obtain ⟨H, hH, rfl⟩ := List.mem_map.1 hx
    apply sum_nonneg'
    intro y hy
    obtain ⟨v, hv, rfl⟩ := List.mem_map.1 hy
    exact hw H hH v hv
  have h64 : ∀ H ∈ Hs, weightAllParts64 H k =
      .ok ((List.range k).map (fun (p : Nat) => partWeight H p)) := by
    intro H hH
    have h1 := entry_le_sum hn (List.mem_map.2 ⟨H, hH, rfl⟩)
    rw [weightAllParts64_eq (hw H hH) (by omega), weightAllParts_ok H k (hp H hH)]
  unfold globalWeightParts64 globalWeightParts
  rw [mapM_ok _ h64, mapM_ok _ (fun H hH => weightAllParts_ok H k (hp H hH))]
  simp only [ok_bind]
  rw [foldAddEach64_eq]
  · rfl
  · intro x hx
    rw [List.eq_of_mem_replicate hx]
  · intro w hwm x hx
    obtain ⟨H, hH, rfl⟩ := List.mem_map.1 hwm
    obtain ⟨q, -, rfl⟩ := List.mem_map.1 hx
    exact partWeight_nonneg' (hw H hH) _
  · rw [show (List.replicate k (0 : Int)).sum = 0 by simp, zero_add, List.map_map]
    refine lt_of_eq_of_lt ?_ hT
    congr 1
    apply List.map_congr_left
    intro H hH
    obtain ⟨t, h1, h2, h3⟩ := C08_weight_all_parts H k (hp H hH)
    rw [← totalWeight_eq, ← h3, h2]
    rfl

theorem maxElement_mem {l : List Int} {m : Int} (h : maxElement l = .ok m) : m ∈ l := by
  cases l with
  | nil => cases h
  | cons x l =>
    injection h with h
    subst h
    suffices H : ∀ (l : List Int) (x : Int), l.foldl max x ∈ x :: l from H l x
    intro l
    induction l with
    | nil => intro x; simp
    | cons y l ih =>
      intro x
      rw [List.foldl_cons]
      rcases List.mem_cons.1 (ih (max x y)) with h | h
      · rw [h]
        rcases max_choice x y with h | h <;> rw [h] <;> simp
      · simp [h]

theorem loadBalance64_eq (rnd : ℚ → ℚ) {H : Hypergraph} (hw : WeightsNonneg H) {k : Nat} (hk : 1 ≤ k)
    (hT : (H.vertices.map (·.weight)).sum * k < 2 ^ 63)
    (hp : ∀ v ∈ H.vertices, 0 ≤ v.part ∧ v.part < k) :
    loadBalance64 rnd H k = loadBalance rnd H k := by
  have h0 : 0 ≤ (H.vertices.map (·.weight)).sum := by
    apply sum_nonneg'
    intro y hy
    obtain ⟨v, hv, rfl⟩ := List.mem_map.1 hy
    exact hw v hv
  have hT1 : (H.vertices.map (·.weight)).sum < 2 ^ 63 := by
    have : (H.vertices.map (·.weight)).sum * 1 ≤ (H.vertices.map (·.weight)).sum * (k : Int) :=
      mul_le_mul_of_nonneg_left (by omega) h0
    omega
  obtain ⟨t, h1, h2, h3⟩ := C08_weight_all_parts H k hp
  unfold loadBalance64 loadBalance
  rw [weightAllParts64_eq hw hT1, h1]
  simp only [ok_bind]
  cases hm : maxElement t with
  | error e => rfl
  | ok m =>
    have hmem := maxElement_mem hm
    have hnn : ∀ x ∈ t, 0 ≤ x := by
      intro x hx
      rw [h2] at hx
      obtain ⟨q, -, rfl⟩ := List.mem_map.1 hx
      exact partWeight_nonneg' hw _
    have hle := entry_le_sum hnn hmem
    have hm0 := hnn m hmem
    rw [h3, totalWeight_eq] at hle
    have hmul : m * k ≤ (H.vertices.map (·.weight)).sum * k :=
      mul_le_mul_of_nonneg_right hle (by omega)
    simp only [ok_bind]
    rw [long_nat (mul_nonneg hm0 (by omega)) (by omega), totalWeight64_eq hw hT1]
    rfl

theorem setInsert_length (s : List Int) (x : Int) : (setInsert s x).length ≤ s.length + 1 := by
  unfold setInsert
  split <;> simp

theorem labelsNet_length {H : Hypergraph} {n : Net} {s : List Int} (h : labelsNet H n = .ok s) :
    s.length ≤ n.vertices.length := by
  unfold labelsNet at h
  suffices G : ∀ (vs : List Nat) (a s : List Int), vs.foldlM (fun s v => do
      let p ← H.partOfV v
      pure (setInsert s p)) a = (.ok s : Res (List Int)) → s.length ≤ a.length + vs.length by
    have := G _ _ _ h
    simpa using this
  intro vs
  induction vs with
  | nil =>
    intro a s h
    injection h with h
    subst h; simp
  | cons v vs ih =>
    intro a s h
    rw [List.foldlM_cons] at h
    obtain ⟨b, hb, h⟩ := bind_eq_ok.1 h
    obtain ⟨q, -, hq⟩ := bind_eq_ok.1 hb
    injection hq with hq
    have := ih _ _ h
    have h2 := setInsert_length a q
    rw [hq] at h2
    rw [List.length_cons]; omega

theorem cutsize64_eq {H : Hypergraph} (hc : CostsNonneg H) {metric : Metric}
    (hT : (H.nets.map (netLimit metric)).sum < 2 ^ 63) : cutsize64 H metric = cutsize H metric := by
  unfold cutsize64 cutsize
  suffices h : ∀ (ns : List Net) (r : Int), 0 ≤ r → (∀ n ∈ ns, 0 ≤ n.cost) →
      r + (ns.map (netLimit metric)).sum < 2 ^ 63 →
      ns.foldlM (cutStep64 H metric) r = ns.foldlM (cutStep H metric) r from
    h _ 0 (le_refl _) hc (by omega)
  intro ns
  induction ns with
  | nil => intro r _ _ _; rfl
  | cons n ns ih =>
    intro r hr hn hb
    rw [List.map_cons, List.sum_cons] at hb
    have hn0 := hn n (by simp)
    have hs : 0 ≤ (ns.map (netLimit metric)).sum := sum_nonneg' (by
      intro x hx
      obtain ⟨u, hu, rfl⟩ := List.mem_map.1 hx
      have := hn u (by simp [hu])
      unfold netLimit
      cases metric
      · exact this
      · exact mul_nonneg (by omega) this)
    have hnl : 0 ≤ netLimit metric n := by
      unfold netLimit
      cases metric
      · exact hn0
      · exact mul_nonneg (by omega) hn0
    have hrest := fun r' h1 h2 => ih r' h1 (fun u hu => hn u (by simp [hu])) h2
    rw [List.foldlM_cons, List.foldlM_cons]
    unfold cutStep64 cutStep
    cases hl : labelsNet H n with
    | error e => rfl
    | ok s =>
      have hlen := labelsNet_length hl
      simp only [ok_bind]
      by_cases h1 : s.length > 1
      · rw [if_pos h1, if_pos h1]
        cases metric with
        | cutNet =>
          have h4 : netLimit .cutNet n = n.cost := rfl
          simp only
          rw [long_nat (by omega) (by omega)]
          simp only [ok_bind, pure_eq_ok]
          exact hrest _ (by omega) (by omega)
        | lambdaMinusOne =>
          have h2 : 0 ≤ ((s.length : Int) - 1) * n.cost := mul_nonneg (by omega) hn0
          have h3 : ((s.length : Int) - 1) * n.cost ≤ n.vertices.length * n.cost :=
            mul_le_mul_of_nonneg_right (by omega) hn0
          have h4 : netLimit .lambdaMinusOne n = n.vertices.length * n.cost := rfl
          simp only
          rw [wrap64_id (by omega) (by omega)]
          simp only [ok_bind, pure_eq_ok]
          exact hrest _ (by omega) (by omega)
      · rw [if_neg h1, if_neg h1]
        simp only [ok_bind, pure_eq_ok]
        exact hrest _ hr (by omega)

/-! ### Free vertices -/

theorem choosePart64_eq {w0 w1 max0 max1 w : Int} (h0 : 0 ≤ w0) (h1 : 0 ≤ w1) (hw : 0 ≤ w)
    (m0 : 0 ≤ max0) (m1 : 0 ≤ max1) (hT : w0 + w1 + w < 2 ^ 63) (hm : max0 * max1 < 2 ^ 63) (rng : Rng) :
    choosePart64 w0 w1 max0 max1 w rng = .ok (choosePart w0 w1 max0 max1 w rng) := by
  unfold choosePart64 choosePart
  rw [long_nat (by omega) (by omega), long_nat (by omega) (by omega)]
  simp only [ok_bind]
  by_cases c1 : w0 + w > max0
  · by_cases c2 : w1 + w > max1
    · simp only [c1, c2, and_self, if_true]; rfl
    · simp only [c1, c2, and_false, if_true, if_false]; rfl
  · by_cases c2 : w1 + w > max1
    · simp only [c1, c2, and_true, if_true, if_false]; rfl
    · simp only [c1, c2, and_self, if_false]
      have e1 : w0 * max1 ≤ max0 * max1 := mul_le_mul_of_nonneg_right (by omega) m1
      have e2 : w1 * max0 ≤ max1 * max0 := mul_le_mul_of_nonneg_right (by omega) m0
      rw [mul_comm max1] at e2
      rw [long_nat (mul_nonneg h0 m1) (by omega), long_nat (mul_nonneg h1 m0) (by omega)]
      simp only [ok_bind]
      split_ifs <;> rfl

theorem assignLoop64_eq {max0 max1 : Int} (m0 : 0 ≤ max0) (m1 : 0 ≤ max1) (hm : max0 * max1 < 2 ^ 63) :
    ∀ (fs : List (Nat × Int)) (s : AState), 0 ≤ s.w0 → 0 ≤ s.w1 → (∀ f ∈ fs, 0 ≤ f.2) →
      s.w0 + s.w1 + (fs.map (·.2)).sum < 2 ^ 63 →
      fs.foldlM (assignStep64 max0 max1) s = fs.foldlM (assignStep max0 max1) s := by
  intro fs
  induction fs with
  | nil => intro s _ _ _ _; rfl
  | cons f fs ih =>
    intro s h0 h1 hf hb
    rw [List.map_cons, List.sum_cons] at hb
    have hf0 := hf f (by simp)
    have hs : 0 ≤ (fs.map (·.2)).sum := sum_nonneg' (by
      intro x hx
      obtain ⟨u, hu, rfl⟩ := List.mem_map.1 hx
      exact hf u (by simp [hu]))
    rw [List.foldlM_cons, List.foldlM_cons]
    unfold assignStep64 assignStep
    rw [choosePart64_eq h0 h1 hf0 m0 m1 (by omega) hm]
    simp only [ok_bind]
    rw [addFree_ok]
    simp only [ok_bind, pure_eq_ok]
    apply ih
    · dsimp only; split <;> omega
    · dsimp only; split <;> omega
    · exact fun u hu => hf u (by simp [hu])
    · dsimp only; split <;> omega

theorem assignGreedy64_eq {srt : List (Nat × Int) → List (Nat × Int)} (hsrt : ∀ l, (srt l).Perm l)
    {max0 max1 : Int} (m0 : 0 ≤ max0) (m1 : 0 ≤ max1) (hm : max0 * max1 < 2 ^ 63) {C : Contraction}
    (hf : ∀ f ∈ C.free, 0 ≤ f.2) {w0 w1 : Int} (h0 : 0 ≤ w0) (h1 : 0 ≤ w1)
    (hT : w0 + w1 + (C.free.map (·.2)).sum < 2 ^ 63) (H : Hypergraph) (rng : Rng) :
    assignGreedy64 srt C H w0 w1 max0 max1 rng = assignGreedy srt C H w0 w1 max0 max1 rng := by
  unfold assignGreedy64 assignGreedy
  apply assignLoop64_eq m0 m1 hm
  · exact h0
  · exact h1
  · exact fun f h => hf f ((hsrt _).mem_iff.1 h)
  · rw [((hsrt C.free).map (·.2)).sum_eq]; exact hT

theorem bip_parts {H : Hypergraph} (hb : Bipartitioned H) :
    ∀ v ∈ H.vertices, 0 ≤ v.part ∧ v.part < (2 : Nat) := by
  intro v hv
  rcases hb v hv with h | h <;> rw [h] <;> decide

theorem bip_sum {H : Hypergraph} (hb : Bipartitioned H) :
    (H.vertices.map (·.weight)).sum = partWeight H 0 + partWeight H 1 := by
  obtain ⟨t, h1, h2, h3⟩ := C08_weight_all_parts H 2 (bip_parts hb)
  rw [← totalWeight_eq, ← h3, h2]
  simp [List.range_succ]

theorem assignFree64_eq {srt : List (Nat × Int) → List (Nat × Int)} (hsrt : ∀ l, (srt l).Perm l)
    {max0 max1 : Int} (m0 : 0 ≤ max0) (m1 : 0 ≤ max1) (hm : max0 * max1 < 2 ^ 63) {C : Contraction}
    (hf : ∀ f ∈ C.free, 0 ≤ f.2) {H : Hypergraph} (hb : Bipartitioned H) (hw : WeightsNonneg H)
    (hT : (H.vertices.map (·.weight)).sum + (C.free.map (·.2)).sum < 2 ^ 63) (rng : Rng) :
    assignFree64 srt C H max0 max1 rng = assignFree srt C H max0 max1 rng := by
  have hs : 0 ≤ (C.free.map (·.2)).sum := sum_nonneg' (by
    intro x hx
    obtain ⟨u, hu, rfl⟩ := List.mem_map.1 hx
    exact hf u hu)
  unfold assignFree64 assignFree
  rw [weightAllParts64_eq hw (by omega), weightAllParts2 hb]
  have hv0 : vget [partWeight H 0, partWeight H 1] 0 = .ok (partWeight H 0) := rfl
  have hv1 : vget [partWeight H 0, partWeight H 1] 1 = .ok (partWeight H 1) := rfl
  simp only [ok_bind, hv0, hv1]
  rw [bip_sum hb] at hT
  rw [assignGreedy64_eq hsrt m0 m1 hm hf (partWeight_nonneg' hw 0) (partWeight_nonneg' hw 1) hT]

theorem splitLoop64_eq (target : Int) : ∀ (L : List Int) (a : Int) (t : Nat), 0 ≤ a → (∀ x ∈ L, 0 ≤ x) →
    a + L.sum < 2 ^ 63 → splitLoop64 target L a t = .ok (splitLoop target L a t) := by
  intro L
  induction L with
  | nil => intro a t _ _ _; rfl
  | cons x L ih =>
    intro a t ha hL hb
    rw [List.sum_cons] at hb
    have hx := hL x (by simp)
    have hL' : ∀ y ∈ L, 0 ≤ y := fun y hy => hL y (by simp [hy])
    have hs := sum_nonneg' hL'
    unfold splitLoop64 splitLoop
    rw [long_nat (by omega) (by omega)]
    simp only [ok_bind]
    split
    · exact ih _ _ (by omega) hL' (by omega)
    · rfl

theorem sumLoop64_eq : ∀ (L : List Int) (a : Int), 0 ≤ a → (∀ x ∈ L, 0 ≤ x) →
    a + L.sum < 2 ^ 63 → L.foldlM (fun a x => long (a + x)) a = .ok (a + L.sum) := by
  intro L
  induction L with
  | nil => intro a _ _ _; rw [List.sum_nil, add_zero]; rfl
  | cons x L ih =>
    intro a ha hL hb
    rw [List.sum_cons] at hb ⊢
    have hx := hL x (by simp)
    have hL' : ∀ y ∈ L, 0 ≤ y := fun y hy => hL y (by simp [hy])
    have hs := sum_nonneg' hL'
    rw [List.foldlM_cons, long_nat (by omega) (by omega), ok_bind, ih _ (by omega) hL' (by omega)]
    congr 1; omega

theorem target64_eq {w0 w1 max0 max1 free : Int} (h0 : 0 ≤ w0) (h1 : 0 ≤ w1) (hf : 0 ≤ free)
    (m0 : 0 ≤ max0) (m1 : 0 ≤ max1) (hm : max0 + max1 < 2 ^ 63)
    (t0 : (w0 + w1 + free) * max0 < 2 ^ 63) (t1 : (w0 + w1 + free) * max1 < 2 ^ 63) :
    target64 w0 w1 max0 max1 free = if max0 + max1 = 0 then .error .ub else
      .ok ((w1 * max0 - w0 * max1 + free * max0).tdiv (max0 + max1)) := by
  have e0 : 0 ≤ w0 * max0 := mul_nonneg h0 m0
  have e1 : 0 ≤ w1 * max0 := mul_nonneg h1 m0
  have e2 : 0 ≤ free * max0 := mul_nonneg hf m0
  have e3 : 0 ≤ w0 * max1 := mul_nonneg h0 m1
  have e4 : 0 ≤ w1 * max1 := mul_nonneg h1 m1
  have e5 : 0 ≤ free * max1 := mul_nonneg hf m1
  rw [add_mul, add_mul] at t0 t1
  unfold target64
  rw [long_nat e1 (by omega), long_nat e3 (by omega)]
  simp only [ok_bind]
  rw [long_ok (by omega) (by omega), long_nat e2 (by omega)]
  simp only [ok_bind]
  rw [long_ok (by omega) (by omega), long_nat (by omega) hm]
  simp only [ok_bind]
  by_cases hz : max0 + max1 = 0
  · rw [if_pos hz, if_pos hz]
  · rw [if_neg hz, if_neg hz]
    obtain ⟨n, hn⟩ : ∃ n, n = w1 * max0 - w0 * max1 + free * max0 := ⟨_, rfl⟩
    obtain ⟨m, hmm⟩ : ∃ m, m = max0 + max1 := ⟨_, rfl⟩
    rw [← hn, ← hmm]
    have hm0 : 0 ≤ m := by omega
    rcases Int.le_total 0 n with h | h
    · have a1 := Int.tdiv_nonneg h hm0
      have a2 := Int.tdiv_le_self m h
      exact long_ok (by omega) (by omega)
    · have h' : 0 ≤ -n := by omega
      have a1 := Int.tdiv_nonneg h' hm0
      have a2 := Int.tdiv_le_self m h'
      rw [Int.neg_tdiv] at a1 a2
      exact long_ok (by omega) (by omega)

theorem assignOne64_eq {srt : List (Nat × Int) → List (Nat × Int)} (hsrt : ∀ l, (srt l).Perm l)
    {max0 max1 : Int} (m0 : 0 ≤ max0) (m1 : 0 ≤ max1) (hm : max0 * max1 < 2 ^ 63) {w0 w1 : Int}
    (h0 : 0 ≤ w0) (h1 : 0 ≤ w1) {L : List Int} (hL : ∀ x ∈ L, 0 ≤ x) (hT : w0 + w1 + L.sum < 2 ^ 63)
    (k : Nat) {s : CProc} (hf : ∀ f ∈ s.1.free, 0 ≤ f.2) {r : Nat}
    (hl : L[r]? = some (s.1.free.map (·.2)).sum) (rng : Rng) :
    assignOne64 srt max0 max1 w0 w1 L (L.take k).sum k s rng r =
      assignOne srt max0 max1 w0 w1 L (L.take k).sum k s rng r := by
  have hsplit : (L.take k).sum + (L.drop k).sum = L.sum := by
    rw [← List.sum_append, List.take_append_drop]
  have n1 : 0 ≤ (L.take k).sum := sum_nonneg' (fun x hx => hL x (List.mem_of_mem_take hx))
  have n2 : 0 ≤ (L.drop k).sum := sum_nonneg' (fun x hx => hL x (List.mem_of_mem_drop hx))
  unfold assignOne64 assignOne
  rw [long_nat (by omega) (by omega)]
  simp only [ok_bind]
  by_cases c1 : r < k
  · rw [if_pos c1, if_pos c1]
  · by_cases c2 : r > k
    · rw [if_neg c1, if_neg c1, if_pos c2, if_pos c2]
    · rw [if_neg c1, if_neg c1, if_neg c2, if_neg c2]
      have hr : r = k := by omega
      subst hr
      obtain ⟨hlt, hg⟩ := List.getElem?_eq_some_iff.1 hl
      have hd : (L.drop r).sum = (s.1.free.map (·.2)).sum + (L.drop (r + 1)).sum := by
        rw [List.drop_eq_getElem_cons hlt, List.sum_cons, hg]
      have n3 : ∀ x ∈ L.drop (r + 1), 0 ≤ x := fun x hx => hL x (List.mem_of_mem_drop hx)
      have n4 := sum_nonneg' n3
      have n5 : 0 ≤ (s.1.free.map (·.2)).sum := by rw [← hg]; exact hL _ (List.getElem_mem hlt)
      rw [sumLoop64_eq _ _ h1 n3 (by omega)]
      simp only [ok_bind]
      have hfold : (L.drop (r + 1)).foldl (· + ·) 0 = (L.drop (r + 1)).sum := by
        have := foldl_add_eq_sum (fun x : Int => x) (L.drop (r + 1)) 0
        simpa using this
      rw [hfold]
      exact assignGreedy64_eq hsrt m0 m1 hm hf (by omega) (by omega) (by omega) _ _

theorem mapM_congr_mem {α β : Type} {f g : α → Res β} (l : List α) (h : ∀ a ∈ l, f a = g a) :
    l.mapM f = l.mapM g := by
  induction l with
  | nil => rfl
  | cons a l ih =>
    rw [List.mapM_cons, List.mapM_cons, h a (by simp), ih (fun b hb => h b (by simp [hb]))]

theorem assignFreePar64_eq {srt : List (Nat × Int) → List (Nat × Int)} (hsrt : ∀ l, (srt l).Perm l)
    {S : List CProc} (hS : FreeReady S) (hf : ∀ s ∈ S, ∀ f ∈ s.1.free, 0 ≤ f.2)
    (hw : ∀ s ∈ S, WeightsNonneg s.2) {max0 max1 : Int} (m0 : 0 ≤ max0) (m1 : 0 ≤ max1)
    (hm : max0 * max1 < 2 ^ 63) (hm' : max0 + max1 < 2 ^ 63) (hT : worldWeight S < 2 ^ 63)
    (t0 : worldWeight S * max0 < 2 ^ 63) (t1 : worldWeight S * max1 < 2 ^ 63) (rngs : Nat → Rng) :
    assignFreePar64 srt S max0 max1 rngs = assignFreePar srt S max0 max1 rngs := by
  have hfs : ∀ s ∈ S, 0 ≤ (s.1.free.map (·.2)).sum := by
    intro s hs
    apply sum_nonneg'
    intro x hx
    obtain ⟨f, hfm, rfl⟩ := List.mem_map.1 hx
    exact hf s hs f hfm
  have hfree : 0 ≤ totalFree S := by
    apply sum_nonneg'
    intro x hx
    obtain ⟨s, hs, rfl⟩ := List.mem_map.1 hx
    exact hfs s hs
  have hb2 : ∀ H ∈ S.map (fun s : CProc => s.2), ∀ v ∈ H.vertices, 0 ≤ v.part ∧ v.part < ((2 : Nat) : Int) := by
    intro H hH
    obtain ⟨s, hs, rfl⟩ := List.mem_map.1 hH
    exact bip_parts (hS.bip s hs)
  have hsum : (S.map (fun s => (s.2.vertices.map (·.weight)).sum)).sum =
      (S.map (fun s => partWeight s.2 0)).sum + (S.map (fun s => partWeight s.2 1)).sum := by
    have : S.map (fun s => (s.2.vertices.map (·.weight)).sum) =
        S.map (fun s => partWeight s.2 0 + partWeight s.2 1) :=
      List.map_congr_left (fun s hs => bip_sum (hS.bip s hs))
    rw [this, List.sum_map_add]
  unfold assignFreePar64 assignFreePar
  rw [globalWeightParts64_eq (by
      intro H hH
      obtain ⟨s, hs, rfl⟩ := List.mem_map.1 hH
      exact hw s hs) (by
      unfold worldWeight at hT
      rw [List.map_map]
      show (S.map (fun s => (s.2.vertices.map (·.weight)).sum)).sum < 2 ^ 63
      omega) hb2, globalWeightParts2' S hS.bip]
  obtain ⟨A, hA⟩ : ∃ A, A = (S.map (fun s => partWeight s.2 0)).sum := ⟨_, rfl⟩
  obtain ⟨B, hB⟩ : ∃ B, B = (S.map (fun s => partWeight s.2 1)).sum := ⟨_, rfl⟩
  rw [← hA, ← hB] at hsum ⊢
  have hA0 : 0 ≤ A := by
    rw [hA]
    apply sum_nonneg'
    intro x hx
    obtain ⟨s, hs, rfl⟩ := List.mem_map.1 hx
    exact partWeight_nonneg' (hw s hs) 0
  have hB0 : 0 ≤ B := by
    rw [hB]
    apply sum_nonneg'
    intro x hx
    obtain ⟨s, hs, rfl⟩ := List.mem_map.1 hx
    exact partWeight_nonneg' (hw s hs) 1
  unfold worldWeight at hT t0 t1
  rw [hsum] at hT t0 t1
  obtain ⟨s0, S', hS0⟩ := List.exists_cons_of_ne_nil hS.nonempty
  simp only [ok_bind]
  rw [vget_ok (a := [A, B]) (by rw [hS0]; rfl)]
  have hv0 : vget [A, B] 0 = .ok A := rfl
  have hv1 : vget [A, B] 1 = .ok B := rfl
  simp only [ok_bind, hv0, hv1]
  split
  · rfl
  split
  · rfl
  rw [vget_ok (a := s0) (by rw [hS0]; rfl)]
  simp only [ok_bind]
  rw [hS.globalFree s0 (by rw [hS0]; simp), target64_eq hA0 hB0 hfree m0 m1 hm' t0 t1]
  by_cases hz : max0 + max1 = 0
  · rw [if_pos hz, if_pos hz]; rfl
  rw [if_neg hz, if_neg hz]
  simp only [ok_bind]
  obtain ⟨L, hL⟩ : ∃ L, L = S.map (fun s => s.1.localFree) := ⟨_, rfl⟩
  have hLf : L = S.map (fun s => (s.1.free.map (·.2)).sum) := by
    rw [hL]
    exact List.map_congr_left (fun s hs => hS.localFree s hs)
  have hLs : L.sum = totalFree S := by rw [hLf]; rfl
  have hLn : ∀ x ∈ L, 0 ≤ x := by
    intro x hx
    rw [hLf] at hx
    obtain ⟨s, hs, rfl⟩ := List.mem_map.1 hx
    exact hfs s hs
  rw [← hL, splitLoop64_eq _ L 0 0 (le_refl _) hLn (by omega)]
  obtain ⟨k, hk, hsp⟩ := splitLoop_spec
    ((B * max0 - A * max1 + totalFree S * max0).tdiv (max0 + max1)) L 0 0
  rw [hsp]
  simp only [ok_bind, zero_add]
  rw [mapM_congr_mem (g := fun x => assignOne srt max0 max1 A B L (L.take k).sum k x.1 (rngs x.2) x.2)]
  · rfl
  intro x hx
  have hx' := List.mem_zipIdx_iff_getElem?.1 hx
  have hxs := List.mem_of_getElem? hx'
  exact assignOne64_eq hsrt m0 m1 hm hA0 hB0 hLn (by omega) k (hf x.1 hxs)
    (by rw [hLf, List.getElem?_map, hx']; rfl) _

end PMondriaan

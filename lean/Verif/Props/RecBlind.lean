import Verif.Props.RecSum

/-
Property C88: with the cut-net metric the cut size of the result is the sum of the cuts of the bisections. It is for two
parts; for more parts only the first bisection sees the nets.
-/

namespace PMondriaan

open Spec

/-- Nets with one pin cost nothing. -/
theorem rangeCost_short {H : Hypergraph} (w : WF H) (h : ∀ n ∈ H.nets, n.vertices.length ≤ 1) (s e : Nat) :
    rangeCost H s e = 0 := by
  unfold rangeCost
  apply List.sum_eq_zero
  intro x hx
  obtain ⟨n, hn, rfl⟩ := List.mem_map.1 hx
  rw [if_neg]
  rintro ⟨u, hu, v, hv, a, b, c⟩
  have hl := h n hn
  have e1 : u.id = v.id := by
    match hnv : n.vertices with
    | [] => rw [hnv] at a; cases a
    | [y] => rw [hnv] at a b; rw [List.mem_singleton.1 a, List.mem_singleton.1 b]
    | _ :: _ :: _ => rw [hnv] at hl; simp at hl
  have hu' : u ∈ H.vertices := by obtain ⟨i, -, -, hi⟩ := mem_slice.1 hu; exact List.mem_of_getElem? hi
  have hv' : v ∈ H.vertices := by obtain ⟨i, -, -, hi⟩ := mem_slice.1 hv; exact List.mem_of_getElem? hi
  apply c
  rw [← w.partOf_eq hu', ← w.partOf_eq hv', e1]

/-- Setting the nets with several pins aside leaves those with at most one. -/
theorem setAside_short {H : Hypergraph} {cut : List Net} {x : Hypergraph × List Net}
    (h : SetAside (manyPins H) H cut x) : ∀ n ∈ x.1.nets, n.vertices.length ≤ 1 := by
  intro n hn
  have hm := List.mem_filter.1 (h.nets.mem_iff.1 hn)
  by_contra hl
  have h2 := hm.2
  simp only [decide_eq_true_eq] at h2
  exact h2 (mem_manyPins.2 ⟨n, hm.1, rfl, by omega⟩)

theorem SplitFacts.short {P : RecEnv} {M : Int} {cur cur' : WorkItem} {s s' : RecState} {S E : Nat}
    {H1 H2 : Hypergraph} {w0 w1 : Int} (h : SplitFacts P M cur s cur' s' S E H1 H2 w0 w1)
    (hs : ∀ n ∈ s.H.nets, n.vertices.length ≤ 1) : ∀ n ∈ s'.H.nets, n.vertices.length ≤ 1 := by
  rcases h.aside with ⟨-, a⟩ | ⟨a, -⟩
  · exact setAside_short a
  · rw [a, h.nets2]; exact hs

/-- The number of bisections that a work list stands for. -/
theorem SplitFacts.count {P : RecEnv} {M : Int} {cur cur' : WorkItem} {s s' : RecState} {S E : Nat}
    {H1 H2 : Hypergraph} {w0 w1 : Int} (h : SplitFacts P M cur s cur' s' S E H1 H2 w0 w1) (hlh : cur.low < cur.high) :
    (cur.high - cur.low).toNat + (s.jobs.map (fun j => (j.high - j.low).toNat)).sum =
      (cur'.high - cur'.low).toNat + (s'.jobs.map (fun j => (j.high - j.low).toNat)).sum + 1 := by
  have hlow := h.cur_low
  have hhigh := h.cur_high
  rcases h.reorder with ⟨a, b, -⟩ | ⟨a, b, -⟩
  · rw [b, List.map_cons, List.sum_cons]
    dsimp only
    omega
  · rw [b]; omega

/-- The loops from a state without nets of several pins. -/
theorem recLoop_blind {P : RecEnv} {N f k : Nat} {H0 : Hypergraph} (hbis : BisectsWell P.bis N f)
    (hd : Fair P.d1) (M : Int) : ∀ (fuel : Nat) (cur : WorkItem) (s : RecState),
    RecInv P N f k H0 cur s → (∀ n ∈ s.H.nets, n.vertices.length ≤ 1) → ∀ s', recLoop P M fuel cur s = .ok s' →
    Bisections P M cur s (List.replicate
      ((cur.high - cur.low).toNat + (s.jobs.map (fun j => (j.high - j.low).toNat)).sum) 0) s' := by
  intro fuel
  induction fuel with
  | zero => intro cur s _ _ s' h; cases h
  | succ fuel ih =>
    intro cur s hI hS s' h
    unfold recLoop at h
    by_cases hlh : cur.low < cur.high
    · rw [if_pos (by omega)] at h
      rcases splitStep_spec hbis hd M hI.fit hI.nonempty hlh
        (fun hw => hI.ranges cur (List.mem_cons_self ..) hw hlh) with ⟨-, h1⟩ |
        ⟨hw, cur', s1, h1, S, E, H1, H2, w0, w1, a1, a2, a3, a4, a5⟩
      · rw [h1] at h; cases h
      · obtain ⟨hI', -⟩ := hI.step hlh a1 a2 a3 a4 a5
        rw [h1, ok_bind] at h
        have c := ih cur' s1 hI' (a5.short hS) s' h
        have c' := Bisections.split hlh a1 a2 rfl rfl a5.ran h1 c
        have hn1 : H1.nets = s.H.nets := by rw [a5.relabels.rest]
        dsimp only at c'
        rw [rangeCost_short (relabels_fit a5.relabels hI.fit).wf (by rw [hn1]; exact hS) S E] at c'
        rw [a5.count hlh, List.replicate_succ]
        exact c'
    · rw [if_neg (by omega)] at h
      cases hj : s.jobs with
      | nil =>
        rw [hj] at h
        obtain rfl := Except.ok.inj h
        have e : (cur.high - cur.low).toNat + (([] : List WorkItem).map (fun j => (j.high - j.low).toNat)).sum = 0 := by
          rw [List.map_nil, List.sum_nil]; omega
        rw [e]
        exact .done hlh hj
      | cons j js =>
        rw [hj] at h
        have c := ih j _ (hI.pop hlh hj).1 hS s' h
        have e : (cur.high - cur.low).toNat + ((j :: js).map (fun j => (j.high - j.low).toNat)).sum =
            (j.high - j.low).toNat + (js.map (fun j => (j.high - j.low).toNat)).sum := by
          rw [List.map_cons, List.sum_cons]; omega
        rw [e]
        exact .next hlh hj c

/-- A run is the first split, the rest of the loops, and the end. -/
theorem recursiveBisect_cases {P : RecEnv} {N f k : Nat} (hbis : BisectsWell P.bis N f) (hd1 : Fair P.d1)
    (hk : 2 ≤ k) {H : Hypergraph} (hf : Fit N f H) (hne : P.cutMetric = true → ∀ n ∈ H.nets, n.vertices ≠ [])
    {epsilon : ℚ} {rng : Rng} {s : RecState} (h : recursiveBisect P H k epsilon rng = .ok s) :
    ∃ (cur' : WorkItem) (s1 s2 : RecState) (H1 H2 : Hypergraph) (w0 w1 : Int) (fuel : Nat),
      splitStep P (maxWeight P.rnd epsilon H.totalWeight k) (firstItem H k) (firstState H rng) = .ok (cur', s1) ∧
      RecInv P N f k H cur' s1 ∧
      SplitFacts P (maxWeight P.rnd epsilon H.totalWeight k) (firstItem H k) (firstState H rng) cur' s1 0
        H.vertices.length H1 H2 w0 w1 ∧
      recLoop P (maxWeight P.rnd epsilon H.totalWeight k) fuel cur' s1 = .ok s2 ∧ restoreCut P k s2 = .ok s := by
  obtain ⟨hI, -⟩ := recInv_first (P := P) hk hf hne rng
  unfold recursiveBisect at h
  dsimp only at h
  rw [bind_eq_ok] at h
  obtain ⟨s2, h1, h2⟩ := h
  have h1' : recLoop P (maxWeight P.rnd epsilon H.totalWeight k) (2 * k) (firstItem H k) (firstState H rng) = .ok s2 := h1
  obtain ⟨fuel, hfu⟩ : ∃ fuel, 2 * k = fuel + 1 := ⟨2 * k - 1, by omega⟩
  rw [hfu] at h1'
  unfold recLoop at h1'
  have hlh : (firstItem H k).low < (firstItem H k).high := by simp only [firstItem]; omega
  rw [if_pos (by omega)] at h1'
  rcases splitStep_spec hbis hd1 (maxWeight P.rnd epsilon H.totalWeight k) hI.fit hI.nonempty hlh
    (fun hw => hI.ranges _ (List.mem_cons_self ..) hw hlh) with ⟨-, h3⟩ |
    ⟨hw, cur', s1, h3, S, E, H1, H2, w0, w1, a1, a2, a3, a4, a5⟩
  · rw [h3] at h1'; cases h1'
  · obtain ⟨hI', -⟩ := hI.step hlh a1 a2 a3 a4 a5
    rw [h3, ok_bind] at h1'
    simp only [firstItem] at a1 a2
    obtain rfl : S = 0 := by omega
    obtain rfl : E = H.vertices.length := by omega
    exact ⟨cur', s1, s2, H1, H2, w0, w1, fuel, h3, hI', a5, h1', h2⟩

/-- What happens with the cut-net metric and three or more parts, on one processor: after the first bisection all nets
with several pins are set aside, cut or not, so each of the other `k - 2` bisections costs 0, whatever it does. -/
theorem C88_blind {P : RecEnv} {N f k : Nat} (hbis : BisectsWell P.bis N f) (hd1 : Fair P.d1) (hc : P.cutMetric = true)
    (hk : 3 ≤ k) {H : Hypergraph} (hf : Fit N f H) (hne : ∀ n ∈ H.nets, n.vertices ≠ []) {epsilon : ℚ} {rng : Rng}
    {s : RecState} (h : recursiveBisect P H k epsilon rng = .ok s) :
    ∃ c s2, Bisections P (maxWeight P.rnd epsilon H.totalWeight k)
        { start := 0, fin := H.vertices.length, low := 0, high := (k : Int) - 1, weight := H.totalWeight }
        { H := H, rng := rng, jobs := [], cut := [], splits := 0, calls := [] } (c :: List.replicate (k - 2) 0) s2 ∧
      restoreCut P k s2 = .ok s := by
  obtain ⟨cur', s1, s2, H1, H2, w0, w1, fuel, h1, h2, h3, h4, h5⟩ :=
    recursiveBisect_cases hbis hd1 (by omega) hf (fun _ => hne) h
  have hlh : (firstItem H k).low < (firstItem H k).high := by simp only [firstItem]; omega
  have hjobs : s1.jobs ≠ [] := by
    rcases h3.reorder with ⟨-, b, -⟩ | ⟨a, -, -⟩
    · rw [b]; simp
    · simp only [firstItem] at a; omega
  have hs := setAside_short (h3.removed hc hjobs)
  have c := recLoop_blind hbis hd1 _ fuel cur' s1 h2 hs s2 h4
  have hcount := h3.count hlh
  have e : (cur'.high - cur'.low).toNat + (s1.jobs.map (fun j => (j.high - j.low).toNat)).sum = k - 2 := by
    simp only [firstItem, firstState, List.map_nil, List.sum_nil] at hcount
    omega
  rw [e] at c
  exact ⟨_, s2, Bisections.split hlh rfl rfl rfl rfl h3.ran h1 c, h5⟩

/-- The cost of a bisection of all vertices is the cut-net value. -/
theorem cutNet_range {H : Hypergraph} (w : WF H) : cutNet (partOf H) H.nets = rangeCost H 0 H.vertices.length := by
  unfold cutNet rangeCost
  congr 1
  apply List.map_congr_left
  intro n hn
  have hs : slice H.vertices 0 H.vertices.length = H.vertices := by simp [slice]
  have hiff : IsCut (partOf H) n ↔ CutIn H 0 H.vertices.length n.vertices := by
    unfold IsCut CutIn
    rw [hs]
    constructor
    · rintro ⟨u, hu, x, hx, hux⟩
      obtain ⟨a, ha, rfl, -⟩ := w.inc_vtx n hn u hu
      obtain ⟨b, hb, rfl, -⟩ := w.inc_vtx n hn x hx
      rw [w.partOf_eq ha, w.partOf_eq hb] at hux
      exact ⟨a, ha, b, hb, hu, hx, hux⟩
    · rintro ⟨a, ha, b, hb, hu, hx, hux⟩
      refine ⟨a.id, hu, b.id, hx, ?_⟩
      rw [w.partOf_eq ha, w.partOf_eq hb]
      exact hux
  by_cases hb : IsCut (partOf H) n
  · rw [if_pos hb, if_pos (hiff.1 hb)]
  · rw [if_neg hb, if_neg (fun h => hb (hiff.2 h))]

/-- C88 for two parts: the run makes one bisection and the cut-net value of the result is its cost. What is missing: for
three or more parts the value can be larger than the sum (`C88_false`), since only the first bisection sees the nets
(`C88_blind`). -/
theorem C88_partial {P : RecEnv} {N f : Nat} (hbis : BisectsWell P.bis N f) (hd1 : Fair P.d1) (hd2 : Fair P.d2)
    (hc : P.cutMetric = true) {H : Hypergraph} (hf : Fit N f H) (hne : ∀ n ∈ H.nets, n.vertices ≠ []) {epsilon : ℚ} {rng : Rng}
    {s : RecState} (h : recursiveBisect P H 2 epsilon rng = .ok s) :
    ∃ c s2, Bisections P (maxWeight P.rnd epsilon H.totalWeight 2)
        { start := 0, fin := H.vertices.length, low := 0, high := 1, weight := H.totalWeight }
        { H := H, rng := rng, jobs := [], cut := [], splits := 0, calls := [] } [c] s2 ∧
      restoreCut P 2 s2 = .ok s ∧ cutValue .cutNet s.H = c := by
  obtain ⟨cur', s1, s2, H1, H2, w0, w1, fuel, h1, h2, h3, h4, h5⟩ :=
    recursiveBisect_cases hbis hd1 (le_refl 2) hf (fun _ => hne) h
  have hlh : (firstItem H 2).low < (firstItem H 2).high := by simp only [firstItem]; omega
  have hlow := h3.cur_low
  have hhigh := h3.cur_high
  simp only [firstItem] at hlow hhigh
  have hnl : ¬ cur'.low < cur'.high := by omega
  have hjobs : s1.jobs = [] ∧ H2 = H1 := by
    rcases h3.reorder with ⟨a, -, -⟩ | ⟨-, b, b2⟩
    · simp only [firstItem] at a; omega
    · exact ⟨b, b2⟩
  have hs2 : s2 = s1 := by
    cases fuel with
    | zero => cases h4
    | succ fuel =>
      unfold recLoop at h4
      rw [if_neg (by omega), hjobs.1] at h4
      exact (Except.ok.inj h4).symm
  subst hs2
  refine ⟨_, s2, Bisections.split hlh rfl rfl rfl rfl h3.ran h1 (.done hnl hjobs.1), h5, ?_⟩
  obtain ⟨k1, k2⟩ := h3.kept hjobs.1
  rw [hjobs.2] at k1
  have k2 : s2.cut = [] := k2
  have hsp : s2.splits = 1 := h3.splits
  unfold restoreCut at h5
  rw [if_pos hc] at h5
  unfold maybeRemove at h5
  rw [if_neg (by simp [hsp])] at h5
  change (addCutNets P.d2 [(s2.H, s2.cut)] >>= _) = _ at h5
  rw [addCutNets_local hd2 (xs := [(s2.H, s2.cut)])
    (by intro y hy n hn; rw [List.mem_singleton.1 hy, k2] at hn; cases hn), ok_bind, k2] at h5
  obtain rfl := Except.ok.inj h5
  show cutNet (partOf s2.H) s2.H.nets = rangeCost H1 0 H.vertices.length
  have hw1 : WF H1 := (relabels_fit h3.relabels hf).wf
  have hl : H1.vertices.length = H.vertices.length := h3.relabels.length
  rw [k1, cutNet_range hw1, hl]

/-- Two nets that the first bisection does not cut. -/
def exampleApart : Hypergraph :=
  Hypergraph.create 4 2 [{ id := 0, nets := [0], weight := 1, part := -1 }, { id := 1, nets := [0], weight := 1, part := -1 },
    { id := 2, nets := [1], weight := 1, part := -1 }, { id := 3, nets := [1], weight := 1, part := -1 }]
    [{ id := 0, vertices := [0, 1], cost := 2, globalSize := 2 }, { id := 1, vertices := [2, 3], cost := 5, globalSize := 2 }]

theorem exampleApart_fit : Fit 2 10 exampleApart :=
  ⟨WF_create (by decide) (by decide) (by decide) (by decide) (by decide) (by decide),
    by decide, by decide, by decide, by decide⟩

/-- C88 is false for four parts: the first bisection `{0, 1} | {2, 3}` cuts nothing, the other two cut both nets, and the
costs of the bisections are 0, 0, 0, since both nets have been set aside. The cut-net value is 7. -/
theorem C88_false : ∃ s s2, recursiveBisect (randomEnv id true) exampleApart 4 0 (fun _ => 0) = .ok s ∧
    Bisections (randomEnv id true) (maxWeight id 0 exampleApart.totalWeight 4)
      { start := 0, fin := 4, low := 0, high := 3, weight := exampleApart.totalWeight }
      { H := exampleApart, rng := fun _ => 0, jobs := [], cut := [], splits := 0, calls := [] } [0, 0, 0] s2 ∧
    restoreCut (randomEnv id true) 4 s2 = .ok s ∧ cutValue .cutNet s.H = 7 := by
  have hv : (recursiveBisect (randomEnv id true) exampleApart 4 0 (fun _ => 0)).toOption.map
    (fun s => cutValue .cutNet s.H) = some 7 := by decide +kernel
  cases h : recursiveBisect (randomEnv id true) exampleApart 4 0 (fun _ => 0) with
  | error e => rw [h] at hv; cases hv
  | ok s =>
    rw [h] at hv
    obtain ⟨c, s2, c1, c2⟩ := C88_blind (randomEnv_well id true 2 10) (fun _ l => List.Perm.refl l) rfl (by decide)
      exampleApart_fit (by decide) h
    have hc : c = 0 := by
      cases c1 with
      | next h1 _ _ => exact absurd (by decide) h1
      | split h1 hS hE h2 h3 h4 h5 h6 =>
        rename_i S E m0 m1 r
        obtain rfl : S = 0 := by
          have : (0 : Int) = S := hS
          omega
        obtain rfl : E = 4 := by
          have : ((4 : Nat) : Int) = E := hE
          omega
        have hr : (bisectRandom exampleApart (boundFor id 4 2 exampleApart.totalWeight
          (maxWeight id 0 exampleApart.totalWeight 4)) (boundFor id 4 2 exampleApart.totalWeight
          (maxWeight id 0 exampleApart.totalWeight 4)) 0 4 ⟨0, 3⟩ (fun _ => 0)).toOption.map
          (fun r => rangeCost r.H 0 4) = some 0 := by decide +kernel
        subst h2 h3
        have h4' : bisectRandom exampleApart (boundFor id 4 2 exampleApart.totalWeight
          (maxWeight id 0 exampleApart.totalWeight 4)) (boundFor id 4 2 exampleApart.totalWeight
          (maxWeight id 0 exampleApart.totalWeight 4)) 0 4 ⟨0, 3⟩ (fun _ => 0) = .ok r := h4
        rw [h4'] at hr
        exact Option.some.inj hr
    subst hc
    exact ⟨s, s2, rfl, c1, c2, Option.some.inj hv⟩

/-- Two parts: the bisection `{1, 2} | {7, 3}` costs 2 + 1 + 5, and so does the result. -/
example : (recursiveBisect (randomEnv id true) exampleH 2 (1 / 2) (fun n => n / 2)).toOption.map
    (fun s => (cutValue .cutNet s.H, s.H.vertices.map (fun v => (v.id, v.part)))) =
    some (8, [(1, 0), (2, 0), (7, 1), (3, 1)]) := by decide +kernel

end PMondriaan

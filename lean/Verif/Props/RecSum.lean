import Verif.Proofs.RecSum
import Verif.Props.RecBisect
import Verif.Props.Container

/-
Property C87: the cut size of the result is the sum of the cuts of the bisections.
-/

namespace PMondriaan

open Spec

/-- A whole hypergraph, or all vertices of a processor that is alone, as one range. -/
theorem sumInv_whole {H : Hypergraph} (w : WF H) {cur : WorkItem} {s : RecState} (hlh : cur.low < cur.high)
    (h0 : cur.start = 0) (h1 : cur.fin = H.vertices.length) (hH : s.H = H) (hj : s.jobs = []) :
    SumInv cur s (fun _ => 0) := by
  subst hH
  have hno : ∀ j, j ∉ s.jobs := by rw [hj]; simp
  refine ⟨fun j hj' => absurd hj' (hno j), ?_, fun _ j hj' => absurd hj' (hno j),
    by rw [hj]; exact List.Pairwise.nil, ?_⟩
  · intro _ i v hv hi
    exfalso
    apply hi
    have := (List.getElem?_eq_some_iff.1 hv).1
    unfold InItem
    omega
  · intro n hn
    rw [if_pos hlh]
    have e : connectivity (joined s.H cur.start.toNat cur.fin.toNat cur.low) n = connectivity (fun _ => 0) n := by
      apply connectivity_congr
      have hj : ∀ u ∈ n.vertices, joined s.H cur.start.toNat cur.fin.toNat cur.low u = cur.low := by
        intro u hu
        obtain ⟨v, hv, rfl, -⟩ := w.inc_vtx n hn u hu
        obtain ⟨i, hi⟩ := List.mem_iff_getElem?.1 hv
        have hl := (List.getElem?_eq_some_iff.1 hi).1
        unfold joined
        rw [if_pos ((mem_slice_iff w hi).2 (by omega))]
      intro u hu x hx
      rw [hj u hu, hj x hx]
      simp
    rw [e]
    have : connectivity (fun _ => 0) n ≤ 1 := by
      unfold connectivity
      have hnd := List.nodup_dedup (n.vertices.map (fun _ : Nat => (0 : Int)))
      by_contra hc
      have h2 : (n.vertices.map (fun _ : Nat => (0 : Int))).dedup.length ≤ ([0] : List Int).length :=
        (List.subperm_of_subset hnd (by
          intro y hy
          obtain ⟨u, -, rfl⟩ := List.mem_map.1 (List.mem_dedup.1 hy)
          exact List.mem_singleton.2 rfl)).length_le
      simp only [List.length_singleton] at h2
      omega
    omega

/-- C87, net by net: recursive bisection on one processor with the lambda metric, with every bisection function that labels
the range it is given. A run that ends normally has made `k - 1` bisections, and the number of parts of a net in the
result, minus one, is the number of bisections that cut it, counting only vertices in the range of the bisection. -/
theorem C87_nets {P : RecEnv} {N f k : Nat} (hbis : BisectsWell P.bis N f) (hd1 : Fair P.d1) (hc : P.cutMetric = false)
    (hk : 2 ≤ k) {H : Hypergraph} (hf : Fit N f H) {epsilon : ℚ} {rng : Rng} {s : RecState}
    (h : recursiveBisect P H k epsilon rng = .ok s) :
    ∃ bs, BisectionSteps P (maxWeight P.rnd epsilon H.totalWeight k)
        { start := 0, fin := H.vertices.length, low := 0, high := (k : Int) - 1, weight := H.totalWeight }
        { H := H, rng := rng, jobs := [], cut := [], splits := 0, calls := [] } bs s ∧
      bs.length = k - 1 ∧ s.H.nets = H.nets ∧ (∀ b ∈ bs, b.H.nets = H.nets) ∧
      ∀ n ∈ H.nets, connectivity (partOf s.H) n - 1 = bs.countP (fun b => CutIn b.H b.s b.e n.vertices) := by
  obtain ⟨hI, -⟩ := recInv_first (P := P) hk hf (fun h => by rw [hc] at h; cases h) rng
  have h' : recLoop P (maxWeight P.rnd epsilon H.totalWeight k) (2 * k) (firstItem H k) (firstState H rng) = .ok s := by
    unfold recursiveBisect at h
    dsimp only at h
    rw [bind_eq_ok] at h
    obtain ⟨s1, h1, h2⟩ := h
    unfold restoreCut at h2
    rw [if_neg (by simp [hc])] at h2
    obtain rfl := Except.ok.inj h2
    exact h1
  have hlh : (firstItem H k).low < (firstItem H k).high := by simp only [firstItem]; omega
  obtain ⟨bs, c1, c2, c3, c4, c5⟩ := recLoop_sum hbis hd1 hc _ _ _ _ (fun _ => 0) hI
    (sumInv_whole hf.wf hlh rfl rfl rfl rfl) s h'
  refine ⟨bs, c1, ?_, c2, c3, ?_⟩
  · rw [c5]
    simp only [firstItem, firstState, List.map_nil, List.sum_nil]
    omega
  · intro n hn
    rw [c4 n hn]
    omega

/-- C87: recursive bisection on one processor with the lambda metric, with every bisection function that labels the range
it is given. A run that ends normally has made `k - 1` bisections, and the λ - 1 value of the result is the sum of their
costs: each is the total cost of the nets with vertices on both sides, counting only vertices in the range. -/
theorem C87_sum {P : RecEnv} {N f k : Nat} (hbis : BisectsWell P.bis N f) (hd1 : Fair P.d1) (hc : P.cutMetric = false)
    (hk : 2 ≤ k) {H : Hypergraph} (hf : Fit N f H) {epsilon : ℚ} {rng : Rng} {s : RecState}
    (h : recursiveBisect P H k epsilon rng = .ok s) :
    ∃ cs, Bisections P (maxWeight P.rnd epsilon H.totalWeight k)
        { start := 0, fin := H.vertices.length, low := 0, high := (k : Int) - 1, weight := H.totalWeight }
        { H := H, rng := rng, jobs := [], cut := [], splits := 0, calls := [] } cs s ∧
      cs.length = k - 1 ∧ cutValue .lambdaMinusOne s.H = cs.sum := by
  obtain ⟨bs, c1, c2, c3, c4, c5⟩ := C87_nets hbis hd1 hc hk hf h
  refine ⟨_, c1.costs, by rw [List.length_map, c2], ?_⟩
  rw [← costs_swap H.nets bs c4]
  show lambdaMinusOne (partOf s.H) s.H.nets = _
  unfold lambdaMinusOne
  rw [c3]
  congr 1
  apply List.map_congr_left
  intro n hn
  rw [c5 n hn]

/-- What `cutsize` returns for the result. -/
theorem C87_cutsize {P : RecEnv} {N f k : Nat} (hbis : BisectsWell P.bis N f) (hd1 : Fair P.d1) (hd2 : Fair P.d2)
    (hc : P.cutMetric = false) (hk : 2 ≤ k) {H : Hypergraph} (hf : Fit N f H) {epsilon : ℚ} {rng : Rng} {s : RecState}
    (h : recursiveBisect P H k epsilon rng = .ok s) :
    ∃ cs, Bisections P (maxWeight P.rnd epsilon H.totalWeight k)
        { start := 0, fin := H.vertices.length, low := 0, high := (k : Int) - 1, weight := H.totalWeight }
        { H := H, rng := rng, jobs := [], cut := [], splits := 0, calls := [] } cs s ∧
      cs.length = k - 1 ∧ cutsize s.H .lambdaMinusOne = .ok cs.sum := by
  obtain ⟨cs, c1, c2, c3⟩ := C87_sum hbis hd1 hc hk hf h
  refine ⟨cs, c1, c2, ?_⟩
  rcases C38_partial hbis hd1 hd2 hk hf (fun h => by rw [hc] at h; cases h) epsilon rng with h1 | ⟨s', h1, -, h2⟩
  · rw [h] at h1; cases h1
  · rw [h] at h1
    obtain rfl := Except.ok.inj h1
    rw [C09_cutsize (h2 hc).1, c3]

/-- With costs one the cost of a bisection is the number of nets it cuts. -/
theorem rangeCost_one {H : Hypergraph} (h : ∀ n ∈ H.nets, n.cost = 1) (s e : Nat) :
    rangeCost H s e = (H.nets.filter (fun n => CutIn H s e n.vertices)).length := by
  unfold rangeCost
  generalize H.nets = ns at h
  induction ns with
  | nil => rfl
  | cons n t ih =>
    rw [List.map_cons, List.sum_cons, ih fun m hm => h m (List.mem_cons_of_mem _ hm), List.filter_cons]
    by_cases hc : CutIn H s e n.vertices
    · rw [if_pos hc, if_pos (by simpa using hc), h n (List.mem_cons_self ..), List.length_cons]
      push_cast
      ring
    · rw [if_neg hc, if_neg (by simpa using hc)]
      omega

/-- Four parts: every net of the example has three pins in three parts. The bisection `{1, 2} | {7, 3}` costs 2 + 1 + 5, then
`{1} | {2}` costs 2 and `{7} | {3}` costs 1 + 5. -/
example : (recursiveBisect (randomEnv id false) exampleH 4 (1 / 2) (fun n => n / 2)).toOption.map
    (fun s => (cutValue .lambdaMinusOne s.H, s.H.vertices.map (fun v => (v.id, v.part)),
      s.H.nets.map (fun n => (n.vertices, n.cost)))) =
    some (16, [(1, 0), (2, 1), (7, 3), (3, 2)], [([1, 2, 3], 2), ([1, 7, 3], 1), ([2, 7, 3], 5)]) := by decide +kernel

/-- The bisections of this run. -/
example : ∃ s cs, recursiveBisect (randomEnv id false) exampleH 4 (1 / 2) (fun n => n / 2) = .ok s ∧
    Bisections (randomEnv id false) (maxWeight id (1 / 2) exampleH.totalWeight 4)
      { start := 0, fin := 4, low := 0, high := 3, weight := exampleH.totalWeight }
      { H := exampleH, rng := fun n => n / 2, jobs := [], cut := [], splits := 0, calls := [] } cs s ∧
    cs.length = 3 ∧ cs.sum = 16 := by
  have hv : (recursiveBisect (randomEnv id false) exampleH 4 (1 / 2) (fun n => n / 2)).toOption.map
    (fun s => cutValue .lambdaMinusOne s.H) = some 16 := by decide +kernel
  cases h : recursiveBisect (randomEnv id false) exampleH 4 (1 / 2) (fun n => n / 2) with
  | error e => rw [h] at hv; cases hv
  | ok s =>
    obtain ⟨cs, c1, c2, c3⟩ := C87_sum (randomEnv_well id false 6 10) (fun _ l => List.Perm.refl l) rfl (by decide)
      exampleH_fit h
    rw [h] at hv
    exact ⟨s, cs, rfl, c1, c2, c3 ▸ Option.some.inj hv⟩

end PMondriaan

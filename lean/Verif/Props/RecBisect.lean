import Verif.Proofs.RecBalance
import Verif.Proofs.Nearest
import Verif.Props.CutNets
import Verif.Props.Multilevel

/-
Properties C37 and C38: the recursion on one processor.
-/

namespace PMondriaan

open Spec

/-- The bisection function selected by the options meets the requirement of the recursion, for
random and for multilevel bisection. -/
theorem bisectOne_well {F : Type} {E : Env F} {N : Nat} (hE : E.Ok N) (opts : Options) :
    BisectsWell (fun H m0 m1 s e l rng => bisectOne E H opts m0 m1 s e l rng) N E.fuel := by
  intro H hf s e h1 h2 labels hl max0 max1 rng
  simp only [bisectOne]
  by_cases hb : opts.bisectionRandom = true
  · rw [if_pos hb]
    exact C35_bisect_random h1 h2 labels hl max0 max1 rng
  · rw [if_neg hb]
    exact C50_partial hE hf.wf hf.ids hf.nets hf.pos hf.size h1 h2 labels hl opts max0 max1 rng

/-! ### The beginning and the end -/

/-- The first work item. -/
def firstItem (H : Hypergraph) (k : Nat) : WorkItem :=
  { start := 0, fin := H.vertices.length, low := 0, high := (k : Int) - 1, weight := H.totalWeight }

/-- The first state. -/
def firstState (H : Hypergraph) (rng : Rng) : RecState :=
  { H := H, rng := rng, jobs := [], cut := [], splits := 0, calls := [] }

theorem recInv_first {P : RecEnv} {N f k : Nat} (hk : 2 ≤ k) {H : Hypergraph} (hf : Fit N f H)
    (hne : P.cutMetric = true → ∀ n ∈ H.nets, n.vertices ≠ []) (rng : Rng) :
    RecInv P N f k H (firstItem H k) (firstState H rng) ∧
      work (firstItem H k) (firstState H rng).jobs < 2 * k := by
  refine ⟨⟨hf, hne, List.Perm.refl _, ?_, fun _ => ⟨rfl, rfl⟩, ?_, ?_, ?_, rfl⟩, ?_⟩
  · simp [firstState]
  · intro i v hv
    right
    have hi := (List.getElem?_eq_some_iff.1 hv).1
    simp only [firstItem, firstState] at hi ⊢
    omega
  · intro j hj
    simp only [firstState, List.mem_singleton] at hj
    rw [hj]; simp only [firstItem]; omega
  · intro j hj _ _
    simp only [firstState, List.mem_singleton] at hj
    rw [hj]; simp only [firstItem, firstState]; omega
  · simp only [work, firstItem, firstState, List.map_nil, List.sum_nil]
    omega

theorem balInv_first {N f k : Nat} {H : Hypergraph} (hf : Fit N f H) (hk : 2 ≤ k) (M : Int)
    (rng : Rng) : BalInv 0 ((k : Int) - 1) M (H.vertices.map (·.weight)).sum (firstItem H k) (firstState H rng) := by
  refine ⟨?_, ?_, ?_, ?_⟩
  · intro j hj _ i v hv _ _
    simp only [firstState, List.mem_singleton] at hj hv
    have hi := (List.getElem?_eq_some_iff.1 hv).1
    rw [hj]
    simp only [firstItem]
    omega
  · simp [firstState]
  · intro p h0 h1
    right
    refine ⟨_, List.mem_cons_self .., ?_⟩
    simp only [firstItem]; omega
  · intro j hj
    simp only [firstState, List.mem_singleton] at hj
    rw [hj]
    simp only [firstItem, totalWeight_eq]
    refine ⟨List.sum_nonneg ?_, le_refl _⟩
    intro x hx
    obtain ⟨v, hv, rfl⟩ := List.mem_map.1 hx
    exact (hf.pos v hv).le

theorem sameCore_refl (l : List Vertex) : List.Forall₂ SameCore l l := by
  rw [List.forall₂_same]; intro v _; exact ⟨rfl, rfl, rfl⟩

/-- The end of the recursion succeeds; it changes no id, weight or part, and all nets are back. -/
theorem restoreCut_ok {P : RecEnv} {N f k : Nat} {H0 : Hypergraph} (hd1 : Fair P.d1)
    (hd2 : Fair P.d2) (w0 : WF H0) (hne0 : P.cutMetric = true → ∀ n ∈ H0.nets, n.vertices ≠ [])
    {s : RecState} (h : RecDone P N f k H0 s) :
    ∃ s', restoreCut P k s = .ok s' ∧ List.Forall₂ SameCore s.H.vertices s'.H.vertices ∧
      (s'.H.nets.map netKey).Perm (H0.nets.map netKey) ∧ s'.calls = s.calls ∧
      (P.cutMetric = false → s' = s) ∧ sizes s'.H = sizes H0 := by
  unfold restoreCut
  by_cases hc : P.cutMetric = true
  · rw [if_pos hc]
    obtain ⟨x, x1, x2⟩ := maybeRemove_ok hd1 (decide (s.splits * 2 < k)) h.fit.wf s.cut h.nonempty
    have hsz : sizes x.1 = sizes H0 := by
      rw [← h.sizes]
      rcases x2 with ⟨-, a⟩ | a
      · unfold Spec.sizes
        rw [a.globalSize, a.globalNumberNets, a.nrNz]
      · rw [a]
    have hx : WF x.1 ∧ List.Forall₂ SameCore s.H.vertices x.1.vertices ∧
        ((x.1.nets ++ x.2).map netKey).Perm (H0.nets.map netKey) := by
      rcases x2 with ⟨-, a⟩ | a
      · exact ⟨a.wf, a.vertices.imp fun v v' hv => ⟨hv.1, hv.2.1, hv.2.2.1⟩,
          a.keeps.trans h.nets⟩
      · rw [a]; exact ⟨h.fit.wf, sameCore_refl _, h.nets⟩
    obtain ⟨xw, xc, xn⟩ := hx
    have hids : (x.1.vertices.map (·.id)).Perm (H0.vertices.map (·.id)) := by
      have e1 : x.1.vertices.map (·.id) = s.H.vertices.map (·.id) :=
        forall2_map_eq xc fun _ _ hab => hab.1
      rw [e1]
      have := h.verts.map (·.1)
      simpa [List.map_map, Function.comp_def] using this
    have hpins : ∀ n ∈ x.2, n.vertices ≠ [] ∧ ∀ u ∈ n.vertices, x.1.isLocal u = true := by
      intro n hn
      have h1 : netKey n ∈ (x.1.nets ++ x.2).map netKey :=
        List.mem_map_of_mem (List.mem_append_right _ hn)
      rw [xn.mem_iff] at h1
      obtain ⟨m, hm, hmn⟩ := List.mem_map.1 h1
      have hv : m.vertices = n.vertices := congrArg (fun t => t.2.1) hmn
      rw [← hv]
      refine ⟨hne0 hc m hm, fun u hu => (isLocal_iff xw u).2 ?_⟩
      exact hids.mem_iff.2 (pins_isVertex w0 hm u hu)
    have hadd := addCutNets_local hd2 (xs := [(x.1, x.2)])
      (by intro y hy; rw [List.mem_singleton] at hy; rw [hy]; exact hpins)
    have hnd : ((x.1.nets ++ x.2).map (·.id)).Nodup := by
      have h1 := xn.map (·.1)
      rw [List.map_map, List.map_map] at h1
      exact h1.nodup_iff.2 w0.nids
    obtain ⟨g1, -, g3, -, g5, g6, g7, -⟩ := addedBack_ok x.2 xw.nmap hnd
    refine ⟨{ s with H := addedBack x.1 x.2, cut := x.2 }, ?_, ?_, ?_, rfl, ?_, ?_⟩
    · rw [x1, ok_bind]
      simp only
      rw [hadd, ok_bind]
      rfl
    · rw [show ({ s with H := addedBack x.1 x.2, cut := x.2 } : RecState).H = addedBack x.1 x.2 from rfl,
        g1]
      exact xc
    · have e : (addedBack x.1 x.2).nets.map netKey = (x.1.nets ++ x.2).map netKey := by
        rw [g3, List.map_append, List.map_append, List.map_map]
        rfl
      simp only
      rw [e]; exact xn
    · intro h1; rw [hc] at h1; cases h1
    · rw [← hsz]
      unfold Spec.sizes
      dsimp only
      rw [g5, g6, g7]
  · rw [if_neg hc]
    have hc' : P.cutMetric = false := by simpa using hc
    obtain ⟨l1, l2⟩ := h.lambda hc'
    exact ⟨s, rfl, sameCore_refl _, by rw [l2], rfl, fun _ => rfl, h.sizes⟩

/-! ### C38 -/

/-- The result of the recursion: every part is in `[0, k)`; no vertex, id or weight is lost; every
net is there with its pins and cost. -/
structure Partitioned (k : Nat) (H0 H : Hypergraph) : Prop where
  parts : ∀ v ∈ H.vertices, 0 ≤ v.part ∧ v.part < k
  verts : (H.vertices.map (fun v => (v.id, v.weight))).Perm
    (H0.vertices.map (fun v => (v.id, v.weight)))
  nets : (H.nets.map (fun n => (n.id, n.vertices, n.cost))).Perm
    (H0.nets.map (fun n => (n.id, n.vertices, n.cost)))
  sizes : sizes H = sizes H0

/-- C38: for every `k ≥ 2`, hypergraph, random stream and metric, the recursion on one processor
either ends with every vertex in a part in `[0, k)` and nothing lost, or converts a value that is not
a number to `long` (when the vertices of a range that is still to be split weigh nothing). No assert
fails and the loops end. With the lambda metric the hypergraph is consistent and its nets are
unchanged. What is missing: the conversion does happen (`C38_false`), and `k = 1` assigns nothing
(`C38_one`). -/
theorem C38_partial {P : RecEnv} {N f k : Nat} (hbis : BisectsWell P.bis N f) (hd1 : Fair P.d1)
    (hd2 : Fair P.d2) (hk : 2 ≤ k) {H : Hypergraph} (hf : Fit N f H)
    (hne : P.cutMetric = true → ∀ n ∈ H.nets, n.vertices ≠ []) (epsilon : ℚ) (rng : Rng) :
    recursiveBisect P H k epsilon rng = .error .ub ∨
      ∃ s, recursiveBisect P H k epsilon rng = .ok s ∧ Partitioned k H s.H ∧
        (P.cutMetric = false → WF s.H ∧ s.H.nets = H.nets) := by
  obtain ⟨hI, hw⟩ := recInv_first (P := P) hk hf hne rng
  rcases recLoop_outcome hbis hd1 (maxWeight P.rnd epsilon H.totalWeight k) (2 * k) _ _ hI hw with
    h | ⟨s1, h, hD⟩
  · left
    unfold recursiveBisect
    simp only [firstItem, firstState] at h
    simp only [h]
    rfl
  · right
    obtain ⟨s', r1, r2, r3, -, r5, r6⟩ := restoreCut_ok hd1 hd2 hf.wf hne hD
    refine ⟨s', ?_, ⟨?_, ?_, r3, r6⟩, ?_⟩
    · unfold recursiveBisect
      simp only [firstItem, firstState] at h
      simp only [h, ok_bind]
      exact r1
    · intro v' hv'
      obtain ⟨v, hv, -, -, hp⟩ := forall2_right r2 hv'
      rw [hp]; exact hD.labelled v hv
    · have e : s'.H.vertices.map (fun v => (v.id, v.weight)) =
          s1.H.vertices.map (fun v => (v.id, v.weight)) :=
        forall2_map_eq r2 fun a b hab => by rw [hab.1, hab.2.1]
      rw [e]; exact hD.verts
    · intro hc
      rw [r5 hc]
      exact ⟨hD.fit.wf, (hD.lambda hc).2⟩

/-- If an invariant excludes jobs of weight zero, the loops end normally. -/
theorem recLoop_total {P : RecEnv} {N f k : Nat} {H0 : Hypergraph} (hbis : BisectsWell P.bis N f)
    (hd : Fair P.d1) (M : Int) (J : WorkItem → RecState → Prop)
    (hnz : ∀ cur s, J cur s → cur.low < cur.high → cur.weight ≠ 0)
    (hstep : ∀ cur s cur' s' S E H1 H2 w0 w1, J cur s → RecInv P N f k H0 cur s →
      cur.low < cur.high → cur.start = (S : Nat) → cur.fin = (E : Nat) → S ≤ E →
      E ≤ s.H.vertices.length → SplitFacts P M cur s cur' s' S E H1 H2 w0 w1 → J cur' s')
    (hpop : ∀ cur s j js, J cur s → ¬ cur.low < cur.high → s.jobs = j :: js →
      J j { s with jobs := js }) : ∀ (fuel : Nat) (cur : WorkItem) (s : RecState),
    J cur s → RecInv P N f k H0 cur s → work cur s.jobs < fuel →
    ∃ s', recLoop P M fuel cur s = .ok s' ∧ ∃ cur1, J cur1 s' ∧ ¬ cur1.low < cur1.high := by
  intro fuel
  induction fuel with
  | zero => intro cur s _ _ h; omega
  | succ fuel ih =>
    intro cur s hJ hI hfu
    unfold recLoop
    by_cases hlh : cur.low < cur.high
    · rw [if_pos (by omega)]
      rcases splitStep_spec hbis hd M hI.fit hI.nonempty hlh
        (fun hw => hI.ranges cur (List.mem_cons_self ..) hw hlh) with ⟨h0, -⟩ |
        ⟨-, cur', s', h, S, E, H1, H2, w0, w1, a1, a2, a3, a4, a5⟩
      · exact absurd h0 (hnz cur s hJ hlh)
      · obtain ⟨hI', hw'⟩ := hI.step hlh a1 a2 a3 a4 a5
        rw [h, ok_bind]
        exact ih cur' s' (hstep _ _ _ _ _ _ _ _ _ _ hJ hI hlh a1 a2 a3 a4 a5) hI' (by omega)
    · rw [if_neg (by omega)]
      cases hj : s.jobs with
      | nil => exact ⟨s, rfl, cur, hJ, hlh⟩
      | cons j js =>
        obtain ⟨hI', hw'⟩ := hI.pop hlh hj
        exact ih j _ (hpop cur s j js hJ hlh hj) hI' (by simp only; omega)

theorem wt_pos_of_count {l : List Vertex} (h : ∀ v ∈ l, 0 < v.weight) {p : Int}
    (hc : 1 ≤ l.countP (fun v => v.part = p)) : wt l p ≠ 0 := by
  have h1 : 0 < l.countP (fun v => decide (v.part = p)) := hc
  rw [List.countP_pos_iff] at h1
  obtain ⟨v, hv, hp⟩ := h1
  have hp : v.part = p := by simpa using hp
  have h2 : v.weight ≤ wt l p := by
    unfold wt
    apply List.single_le_sum
    · intro x hx
      obtain ⟨u, hu, rfl⟩ := List.mem_map.1 hx
      exact (h u (List.mem_filter.1 hu).1).le
    · exact List.mem_map.2 ⟨v, List.mem_filter.2 ⟨hv, by simpa using hp⟩, rfl⟩
  have := h v hv
  omega

/-- Each job with several labels has at least as many vertices as labels, and a weight. -/
def Filled (cur : WorkItem) (s : RecState) : Prop :=
  ∀ j ∈ cur :: s.jobs, j.low < j.high → j.weight ≠ 0 ∧ j.high - j.low + 1 ≤ j.fin - j.start

theorem filled_step {P : RecEnv} {N f k : Nat} {H0 : Hypergraph} {M : Int} (hfill : Fills P.bis N f)
    {cur cur' : WorkItem} {s s' : RecState} {S E : Nat} {H1 H2 : Hypergraph} {w0 w1 : Int}
    (hJ : Filled cur s) (hI : RecInv P N f k H0 cur s) (hlh : cur.low < cur.high)
    (hS : cur.start = (S : Nat)) (hE : cur.fin = (E : Nat)) (hSE : S ≤ E)
    (hEl : E ≤ s.H.vertices.length)
    (h : SplitFacts P M cur s cur' s' S E H1 H2 w0 w1) : Filled cur' s' := by
  obtain ⟨-, hlen⟩ := hJ cur (List.mem_cons_self ..) hlh
  obtain ⟨c0, c1⟩ := hfill s.H hI.fit S E hSE hEl ⟨cur.low, cur.high⟩ hlh (by simp only; omega) _ _ _ _
    h.ran
  simp only at c0 c1
  have f1 := relabels_fit h.relabels hI.fit
  have hposs : ∀ v ∈ slice H1.vertices S E, 0 < v.weight := fun v hv => f1.pos v (by
    obtain ⟨i, -, -, hi⟩ := mem_slice.1 hv
    exact List.mem_iff_getElem?.2 ⟨i, hi⟩)
  have hlow := h.cur_low
  have hhigh := h.cur_high
  have hw0 : w0 ≠ 0 := by
    rw [h.w0_eq, rangeWeight_eq_wt]
    exact wt_pos_of_count hposs (by omega)
  have hw1 : w1 ≠ 0 := by
    rw [h.w1_eq, rangeWeight_eq_wt]
    exact wt_pos_of_count hposs (by omega)
  -- the numbers of vertices on the two sides
  have hcount : ∀ m : Nat, SplitAt S m E cur.low cur.high H1 H2 →
      (slice H1.vertices S E).countP (fun v => v.part = cur.low) = m - S ∧
      (slice H1.vertices S E).countP (fun v => v.part = cur.high) = E - m := by
    intro m a
    have hl2 : H2.vertices.length = s.H.vertices.length := by
      rw [h.perm2.length_eq, h.relabels.length]
    have hsp : slice H2.vertices S E = slice H2.vertices S m ++ slice H2.vertices m E := by
      unfold slice
      have := a.start_le
      have := a.le_end
      rw [show E - S = (m - S) + (E - m) by omega, List.take_add, List.drop_drop,
        show S + (m - S) = m by omega]
    have hm1 := a.start_le
    have hm2 := a.le_end
    have hlens : (slice H2.vertices S m).length = m - S ∧ (slice H2.vertices m E).length = E - m :=
      ⟨slice_length _ (by omega), slice_length _ (by omega)⟩
    have e1 : ∀ q : Int, (slice H1.vertices S E).countP (fun v => v.part = q) =
        (slice H2.vertices S m).countP (fun v => v.part = q) +
          (slice H2.vertices m E).countP (fun v => v.part = q) := by
      intro q
      rw [← a.perm.countP_eq, hsp, List.countP_append]
    have z1 : (slice H2.vertices S m).countP (fun v => v.part = cur.low) = m - S := by
      rw [← hlens.1, List.countP_eq_length]
      intro v hv; simpa using a.lows v hv
    have z2 : (slice H2.vertices m E).countP (fun v => v.part = cur.low) = 0 := by
      rw [List.countP_eq_zero]
      intro v hv; have := a.highs v hv; simp; omega
    have z3 : (slice H2.vertices S m).countP (fun v => v.part = cur.high) = 0 := by
      rw [List.countP_eq_zero]
      intro v hv; have := a.lows v hv; simp; omega
    have z4 : (slice H2.vertices m E).countP (fun v => v.part = cur.high) = E - m := by
      rw [← hlens.2, List.countP_eq_length]
      intro v hv; simpa using a.highs v hv
    rw [e1, e1, z1, z2, z3, z4]
    omega
  intro j hj hj2
  rcases List.mem_cons.1 hj with hj | hj
  · rw [hj] at hj2 ⊢
    refine ⟨by rw [h.cur_weight]; exact hw0, ?_⟩
    rcases h.reorder with ⟨-, -, ⟨m, b, a⟩ | ⟨-, -, d⟩⟩ | ⟨a, -, -⟩
    · obtain ⟨n1, n2⟩ := hcount m a
      have := a.start_le
      rw [n1] at c0
      rw [h.cur_start, b]
      omega
    · exact absurd d hw1
    · exfalso; omega
  · rcases h.reorder with ⟨a, b, c⟩ | ⟨a, b, -⟩
    · rw [b] at hj
      rcases List.mem_cons.1 hj with hj | hj
      · rw [hj] at hj2 ⊢
        simp only at hj2 ⊢
        refine ⟨hw1, ?_⟩
        rcases c with ⟨m, c2, c3⟩ | ⟨-, -, d⟩
        · obtain ⟨n1, n2⟩ := hcount m c3
          have := c3.le_end
          rw [n2] at c1
          rw [c2, hE]
          omega
        · exact absurd d hw1
      · exact hJ j (List.mem_cons_of_mem _ hj) hj2
    · rw [b] at hj
      exact hJ j (List.mem_cons_of_mem _ hj) hj2

/-- From the loops to the whole recursion. -/
theorem recursiveBisect_of_loop {P : RecEnv} {N f k : Nat} (hbis : BisectsWell P.bis N f)
    (hd1 : Fair P.d1) (hd2 : Fair P.d2) (hk : 2 ≤ k) {H : Hypergraph} (hf : Fit N f H)
    (hne : P.cutMetric = true → ∀ n ∈ H.nets, n.vertices ≠ []) (epsilon : ℚ) (rng : Rng)
    {s1 : RecState} (h : recLoop P (maxWeight P.rnd epsilon H.totalWeight k) (2 * k) (firstItem H k)
      (firstState H rng) = .ok s1) :
    ∃ s, recursiveBisect P H k epsilon rng = .ok s ∧ Partitioned k H s.H := by
  rcases C38_partial hbis hd1 hd2 hk hf hne epsilon rng with h1 | ⟨s, h1, h2, -⟩
  · exfalso
    obtain ⟨hI, hw⟩ := recInv_first (P := P) hk hf hne rng
    rcases recLoop_outcome hbis hd1 (maxWeight P.rnd epsilon H.totalWeight k) (2 * k) _ _ hI hw with
      h2 | ⟨s2, h2, hD⟩
    · rw [h] at h2; cases h2
    · obtain ⟨s', r1, -⟩ := restoreCut_ok hd1 hd2 hf.wf hne hD
      unfold recursiveBisect at h1
      simp only [firstItem, firstState] at h2
      simp only [h2, ok_bind] at h1
      rw [r1] at h1; cases h1
  · exact ⟨s, h1, h2⟩

/-- C38 without the exception: if the bisection leaves enough vertices for the labels of both sides
and there are at least `k` vertices, every vertex gets a part. -/
theorem C38_total {P : RecEnv} {N f k : Nat} (hbis : BisectsWell P.bis N f)
    (hfill : Fills P.bis N f) (hd1 : Fair P.d1) (hd2 : Fair P.d2) (hk : 2 ≤ k) {H : Hypergraph}
    (hf : Fit N f H) (hkn : k ≤ H.vertices.length)
    (hne : P.cutMetric = true → ∀ n ∈ H.nets, n.vertices ≠ []) (epsilon : ℚ) (rng : Rng) :
    ∃ s, recursiveBisect P H k epsilon rng = .ok s ∧ Partitioned k H s.H := by
  obtain ⟨hI, hw⟩ := recInv_first (P := P) hk hf hne rng
  obtain ⟨s1, h1, -⟩ := recLoop_total hbis hd1 (maxWeight P.rnd epsilon H.totalWeight k) Filled
    (fun cur s hJ hlh => (hJ cur (List.mem_cons_self ..) hlh).1)
    (fun cur s cur' s' S E H1 H2 w0 w1 hJ hI' hlh a1 a2 a3 a4 a5 =>
      filled_step hfill hJ hI' hlh a1 a2 a3 a4 a5)
    (fun cur s j js hJ hlh hj j' hj' => hJ j' (by rw [hj]; exact List.mem_cons_of_mem _ hj'))
    (2 * k) (firstItem H k) (firstState H rng)
    (by
      intro j hj _
      simp only [firstState, List.mem_singleton] at hj
      rw [hj]
      simp only [firstItem]
      refine ⟨?_, by omega⟩
      rw [totalWeight_eq]
      have hl : H.vertices ≠ [] := by
        intro h0; rw [h0] at hkn; simp at hkn; omega
      obtain ⟨v, l, hvl⟩ := List.exists_cons_of_ne_nil hl
      have h2 : v.weight ≤ (H.vertices.map (·.weight)).sum := by
        apply List.single_le_sum
        · intro x hx
          obtain ⟨u, hu, rfl⟩ := List.mem_map.1 hx
          exact (hf.pos u hu).le
        · exact List.mem_map.2 ⟨v, by rw [hvl]; exact List.mem_cons_self .., rfl⟩
      have := hf.pos v (by rw [hvl]; exact List.mem_cons_self ..)
      omega) hI hw
  exact recursiveBisect_of_loop hbis hd1 hd2 hk hf hne epsilon rng h1

/-- C38 for two parts: there is no exception, whatever the bisection does. -/
theorem C38_two {P : RecEnv} {N f : Nat} (hbis : BisectsWell P.bis N f) (hd1 : Fair P.d1)
    (hd2 : Fair P.d2) {H : Hypergraph} (hf : Fit N f H) (hnv : H.vertices ≠ [])
    (hne : P.cutMetric = true → ∀ n ∈ H.nets, n.vertices ≠ []) (epsilon : ℚ) (rng : Rng) :
    ∃ s, recursiveBisect P H 2 epsilon rng = .ok s ∧ Partitioned 2 H s.H := by
  obtain ⟨hI, hw⟩ := recInv_first (P := P) (k := 2) (le_refl 2) hf hne rng
  obtain ⟨s1, h1, -⟩ := recLoop_total hbis hd1 (maxWeight P.rnd epsilon H.totalWeight 2)
    (fun cur s => s.jobs = [] ∧ (cur.low < cur.high → cur.weight ≠ 0 ∧ cur.high = cur.low + 1))
    (fun cur s hJ hlh => (hJ.2 hlh).1)
    (fun cur s cur' s' S E H1 H2 w0 w1 hJ hI' hlh a1 a2 a3 a4 a5 => by
      have h1 := (hJ.2 hlh).2
      have h2 := a5.cur_low
      have h3 := a5.cur_high
      rcases a5.reorder with ⟨a, -, -⟩ | ⟨a, b, -⟩
      · exfalso; omega
      · exact ⟨b.trans hJ.1, fun h => by exfalso; omega⟩)
    (fun cur s j js hJ hlh hj => by rw [hJ.1] at hj; cases hj)
    (2 * 2) (firstItem H 2) (firstState H rng)
    ⟨rfl, fun _ => ⟨by
      simp only [firstItem]
      rw [totalWeight_eq]
      obtain ⟨v, l, hvl⟩ := List.exists_cons_of_ne_nil hnv
      have h2 : v.weight ≤ (H.vertices.map (·.weight)).sum := by
        apply List.single_le_sum
        · intro x hx
          obtain ⟨u, hu, rfl⟩ := List.mem_map.1 hx
          exact (hf.pos u hu).le
        · exact List.mem_map.2 ⟨v, by rw [hvl]; exact List.mem_cons_self .., rfl⟩
      have := hf.pos v (by rw [hvl]; exact List.mem_cons_self ..)
      omega, by simp [firstItem]⟩⟩ hI hw
  exact recursiveBisect_of_loop hbis hd1 hd2 (le_refl 2) hf hne epsilon rng h1

/-- For one part nothing is assigned: the parts are what they were. -/
theorem C38_one {P : RecEnv} (hc : P.cutMetric = false) (H : Hypergraph) (epsilon : ℚ) (rng : Rng) :
    recursiveBisect P H 1 epsilon rng = .ok (firstState H rng) := by
  unfold recursiveBisect recLoop
  simp [restoreCut, hc, firstState]

/-- With one vertex and at least four parts the undefined conversion always happens: one of the two
sides is empty and both are to be split. -/
theorem C38_false {P : RecEnv} {N f k : Nat} (hbis : BisectsWell P.bis N f) (hd1 : Fair P.d1)
    (hk : 4 ≤ k) {H : Hypergraph} (hf : Fit N f H)
    (hone : H.vertices.length = 1) (hne : P.cutMetric = true → ∀ n ∈ H.nets, n.vertices ≠ [])
    (epsilon : ℚ) (rng : Rng) : recursiveBisect P H k epsilon rng = .error .ub := by
  obtain ⟨hI, hw⟩ := recInv_first (P := P) (k := k) (by omega) hf hne rng
  set M := maxWeight P.rnd epsilon H.totalWeight k with hM
  rcases recLoop_outcome hbis hd1 M (2 * k) _ _ hI hw with h | ⟨s1, h, -⟩
  · unfold recursiveBisect
    simp only [firstItem, firstState, hM] at h
    simp only [h]
    rfl
  · exfalso
    obtain ⟨f', hf'⟩ : ∃ f', 2 * k = f' + 1 := ⟨2 * k - 1, by omega⟩
    rw [hf'] at h
    unfold recLoop at h
    have hlh : (firstItem H k).low < (firstItem H k).high := by simp only [firstItem]; omega
    rw [if_pos (by omega)] at h
    rcases splitStep_spec hbis hd1 M hI.fit hI.nonempty hlh
      (fun hw => hI.ranges _ (List.mem_cons_self ..) hw hlh) with ⟨-, h1⟩ |
      ⟨-, cur', s', h1, S, E, H1, H2, w0, w1, a1, a2, a3, a4, a5⟩
    · rw [h1] at h; cases h
    · rw [h1, ok_bind] at h
      refine recLoop_zero hbis hd1 M f' cur' s' (hI.step hlh a1 a2 a3 a4 a5).1 ?_ s1 h
      have hlow := a5.cur_low
      have hhigh := a5.cur_high
      simp only [firstItem] at hlow hhigh
      -- one vertex has one label
      have hlen : (slice H1.vertices S E).length ≤ 1 := by
        rw [slice_length _ (by rw [a5.relabels.length]; exact a4)]
        simp only [firstState] at a4
        omega
      have hz : w0 = 0 ∨ w1 = 0 := by
        rw [a5.w0_eq, a5.w1_eq, rangeWeight_eq_wt, rangeWeight_eq_wt]
        rcases hsl : slice H1.vertices S E with _ | ⟨v, l⟩
        · left; rfl
        · rw [hsl] at hlen
          have hl : l = [] := by
            rw [← List.length_eq_zero_iff]; rw [List.length_cons] at hlen; omega
          rw [hl]
          by_cases hp : v.part = (firstItem H k).low
          · right
            refine wt_none fun u hu => ?_
            rw [List.mem_singleton.1 hu, hp]
            omega
          · left
            refine wt_none fun u hu => ?_
            rw [List.mem_singleton.1 hu]; exact hp
      rcases hz with hz | hz
      · refine ⟨cur', List.mem_cons_self .., by omega, ?_⟩
        rw [a5.cur_weight]; exact hz
      · rcases a5.reorder with ⟨a, b, -⟩ | ⟨a, -, -⟩
        · refine ⟨_, List.mem_cons_of_mem _ (by rw [b]; exact List.mem_cons_self ..), ?_, hz⟩
          simp only [firstItem]; omega
        · exfalso; simp only [firstItem] at a; omega

/-- The environment of the examples: random bisection, messages in order. -/
def randomEnv (rnd : ℚ → ℚ) (cutMetric : Bool) : RecEnv :=
  ⟨rnd, bisectRandom, cutMetric, fun _ l => l, fun _ l => l⟩

theorem randomEnv_well (rnd : ℚ → ℚ) (c : Bool) (N f : Nat) : BisectsWell (randomEnv rnd c).bis N f :=
  fun _ _ _ _ h1 h2 labels hl max0 max1 rng => C35_bisect_random h1 h2 labels hl max0 max1 rng

theorem exampleH_fit : Fit 6 10 exampleH :=
  ⟨WF_create (by decide) (by decide) (by decide) (by decide) (by decide) (by decide),
    by decide, by decide, by decide, by decide⟩

/-- A hypergraph with a single vertex. -/
def exampleLone : Hypergraph :=
  Hypergraph.create 1 1 [{ id := 0, nets := [0], weight := 3, part := -1 }]
    [{ id := 0, vertices := [0], cost := 1, globalSize := 1 }]

/-- The premises of `C38_false` hold for it. -/
example : recursiveBisect (randomEnv id true) exampleLone 4 (1 / 2) (fun n => n) = .error .ub :=
  C38_false (N := 1) (f := 2) (randomEnv_well _ _ _ _) (fun _ l => List.Perm.refl l) (by decide)
    ⟨WF_create (by decide) (by decide) (by decide) (by decide) (by decide) (by decide),
      by decide, by decide, by decide, by decide⟩ (by decide) (fun _ => by decide) _ _

/-- Four parts with the cut-net metric: parts, order of the vertices and nets at the end. -/
example : (recursiveBisect (randomEnv id true) exampleH 4 (1 / 2) (fun n => n / 2)).toOption.map
    (fun s => (s.H.vertices.map (fun v => (v.id, v.weight, v.part)), s.H.nets.map (·.id))) =
    some ([(1, 2, 0), (2, 3, 1), (7, 1, 3), (3, 4, 2)], [5, 2, 0]) := by decide +kernel

/-- A bisection that cuts the range in the middle. -/
def halfBisect : Bisector := fun H _ _ s e labels rng =>
  let H' := { H with vertices := H.vertices.mapIdx (fun i v =>
    if i < s ∨ e ≤ i then v
    else if i < s + (e - s) / 2 then { v with part := labels.low }
    else { v with part := labels.high }) }
  .ok { H := H', w0 := rangeWeight H' s e labels.low, w1 := rangeWeight H' s e labels.high, rng := rng }

theorem halfBisect_well (N f : Nat) : BisectsWell halfBisect N f := by
  intro H _ s e h1 h2 labels hl max0 max1 rng
  refine ⟨_, rfl, ⟨rfl, by simp, ?_, ?_⟩, rfl, rfl⟩
  · intro i hi
    simp only [List.getElem?_mapIdx, if_pos hi]
    exact Option.map_id'
  · intro i v i1 i2 hv
    simp only [List.getElem?_mapIdx, hv, if_neg (show ¬ (i < s ∨ e ≤ i) by omega), Option.map_some]
    by_cases hi : i < s + (e - s) / 2
    · exact ⟨_, Or.inl rfl, by rw [if_pos hi]⟩
    · exact ⟨_, Or.inr rfl, by rw [if_neg hi]⟩

theorem halfBisect_fills (N f : Nat) : Fills halfBisect N f := by
  intro H _ s e h1 h2 labels hl hk max0 max1 rng r hr
  cases hr
  simp only
  set vs := H.vertices.mapIdx (fun i v =>
    if i < s ∨ e ≤ i then v
    else if i < s + (e - s) / 2 then { v with part := labels.low }
    else { v with part := labels.high }) with hvs
  have hlen : vs.length = H.vertices.length := by rw [hvs]; simp
  have hsp : slice vs s e = slice vs s (s + (e - s) / 2) ++ slice vs (s + (e - s) / 2) e := by
    generalize hm : s + (e - s) / 2 = m
    have hm1 : s ≤ m := by omega
    have hm2 : m ≤ e := by omega
    unfold slice
    rw [show e - s = (m - s) + (e - m) by omega, List.take_add, List.drop_drop,
      show s + (m - s) = m by omega]
  have hget : ∀ (i : Nat) (v : Vertex), vs[i]? = some v → s ≤ i → i < e →
      v.part = if i < s + (e - s) / 2 then labels.low else labels.high := by
    intro i v hv i1 i2
    rw [hvs, List.getElem?_mapIdx] at hv
    rw [List.getElem?_eq_getElem (by omega : i < H.vertices.length), Option.map_some,
      if_neg (show ¬ (i < s ∨ e ≤ i) by omega)] at hv
    split at hv
    · rw [← Option.some.inj hv]; simp [*]
    · rw [← Option.some.inj hv]; simp [*]
  constructor
  · rw [hsp, List.countP_append]
    refine le_trans ?_ (Nat.le_add_right _ _)
    rw [List.countP_eq_length.2, slice_length _ (by omega)]
    · omega
    · intro v hv
      obtain ⟨i, i1, i2, i3⟩ := mem_slice.1 hv
      have := hget i v i3 (by omega) (by omega)
      rw [if_pos (by omega)] at this
      simpa using this
  · rw [hsp, List.countP_append]
    refine le_trans ?_ (Nat.le_add_left _ _)
    rw [List.countP_eq_length.2, slice_length _ (by omega)]
    · omega
    · intro v hv
      obtain ⟨i, i1, i2, i3⟩ := mem_slice.1 hv
      have := hget i v i3 (by omega) (by omega)
      rw [if_neg (by omega)] at this
      simpa using this

/-- `C38_total` is not vacuous. -/
example : ∃ s, recursiveBisect ⟨id, halfBisect, true, fun _ l => l, fun _ l => l⟩ exampleH 4 (1 / 2)
    (fun n => n) = .ok s ∧ Partitioned 4 exampleH s.H :=
  C38_total (N := 6) (f := 10) (halfBisect_well _ _) (halfBisect_fills _ _)
    (fun _ l => List.Perm.refl l) (fun _ l => List.Perm.refl l) (by decide) exampleH_fit (by decide)
    (fun _ => by decide) _ _

/-- The multilevel bisection can be used in the theorems. -/
example (opts : Options) : ∃ s, recursiveBisect
    ⟨id, fun H m0 m1 s e l rng => bisectOne (exampleEnv 6) H opts m0 m1 s e l rng, true,
      fun _ l => l, fun _ l => l⟩ exampleH 2 (1 / 2) (fun n => n) = .ok s ∧
    Partitioned 2 exampleH s.H :=
  C38_two (bisectOne_well exampleEnv_ok opts) (fun _ l => List.Perm.refl l)
    (fun _ l => List.Perm.refl l) exampleH_fit (by decide) (fun _ => by decide) _ _

/-! ### C37 -/

/-- C37: if the recursion ends and every bisection stayed within the bounds handed to it, every part
weighs at most `maxweight`, and `maxweight` is at most `(1 + 8u) (1 + ε) W / k`, where `u` bounds
the relative error of one floating-point operation. -/
theorem C37_rounded {P : RecEnv} {N f k : Nat} (hbis : BisectsWell P.bis N f) (hd1 : Fair P.d1)
    (hd2 : Fair P.d2) (hk : 2 ≤ k) {H : Hypergraph} (hf : Fit N f H)
    (hne : P.cutMetric = true → ∀ n ∈ H.nets, n.vertices ≠ []) {epsilon : ℚ} (heps : 0 ≤ epsilon)
    (rng : Rng) {u : ℚ} (hr : RoundsWithin u P.rnd)
    (hu : 40 * u * ((maxWeight P.rnd epsilon H.totalWeight k : ℚ) + H.totalWeight) < 1)
    {s : RecState} (h : recursiveBisect P H k epsilon rng = .ok s)
    (hresp : ∀ c ∈ s.calls, BisectCall.Respects c) (p : Int) (hp0 : 0 ≤ p) (hpk : p < k) :
    Spec.partWeight s.H p ≤ maxWeight P.rnd epsilon H.totalWeight k ∧
      (Spec.partWeight s.H p : ℚ) ≤ (1 + 8 * u) * ((1 + epsilon) * H.totalWeight / k) := by
  have hW0 : 0 ≤ H.totalWeight := by
    rw [totalWeight_eq]
    refine List.sum_nonneg ?_
    intro x hx
    obtain ⟨v, hv, rfl⟩ := List.mem_map.1 hx
    exact (hf.pos v hv).le
  obtain ⟨m1, m2⟩ := maxWeight_le hr heps hW0 (by omega : 0 < k)
  obtain ⟨hI, hw⟩ := recInv_first (P := P) hk hf hne rng
  have hle : Spec.partWeight s.H p ≤ maxWeight P.rnd epsilon H.totalWeight k := by
    rcases recLoop_outcome hbis hd1 (maxWeight P.rnd epsilon H.totalWeight k) (2 * k) _ _ hI hw with
      h1 | ⟨s1, h1, hD⟩
    · exfalso
      unfold recursiveBisect at h
      simp only [firstItem, firstState] at h1
      simp only [h1] at h
      cases h
    · obtain ⟨s', r1, r2, r3, r4, r5⟩ := restoreCut_ok hd1 hd2 hf.wf hne hD
      have hs : s = s' := by
        unfold recursiveBisect at h
        have h1' := h1
        simp only [firstItem, firstState] at h1'
        simp only [h1', ok_bind] at h
        rw [r1] at h
        exact (Except.ok.inj h).symm
      rw [hs] at hresp ⊢
      rw [partWeight_eq_wt, wt_core r2, ← partWeight_eq_wt]
      rw [totalWeight_eq] at hu
      rw [← totalWeight_eq] at hu
      exact recLoop_bounds hbis hd1 hr m1 hu (totalWeight_eq H).symm.le (2 * k) _ _ hI
        (by rw [totalWeight_eq]; exact balInv_first hf hk _ rng) s1 h1
        (by rw [← r4]; exact hresp) p hp0 (by omega)
  refine ⟨hle, le_trans ?_ m2⟩
  exact_mod_cast hle

/-- C37 in exact arithmetic: every part weighs at most `(1 + ε) W / k`. -/
theorem C37_exact {P : RecEnv} {N f k : Nat} (hbis : BisectsWell P.bis N f) (hd1 : Fair P.d1)
    (hd2 : Fair P.d2) (hk : 2 ≤ k) {H : Hypergraph} (hf : Fit N f H)
    (hne : P.cutMetric = true → ∀ n ∈ H.nets, n.vertices ≠ []) {epsilon : ℚ} (heps : 0 ≤ epsilon)
    (rng : Rng) (hr : P.rnd = id) {s : RecState} (h : recursiveBisect P H k epsilon rng = .ok s)
    (hresp : ∀ c ∈ s.calls, BisectCall.Respects c) (p : Int) (hp0 : 0 ≤ p) (hpk : p < k) :
    (Spec.partWeight s.H p : ℚ) ≤ (1 + epsilon) * H.totalWeight / k := by
  have := (C37_rounded hbis hd1 hd2 hk hf hne heps rng (u := 0) (by rw [hr]; exact exact_rounding)
    (by norm_num) h hresp p hp0 hpk).2
  simpa using this

/-- C37 for `double` arithmetic with 53 bits and weights below 2^47. -/
theorem C37_partial {P : RecEnv} {N f k : Nat} (hbis : BisectsWell P.bis N f) (hd1 : Fair P.d1)
    (hd2 : Fair P.d2) (hk : 2 ≤ k) {H : Hypergraph} (hf : Fit N f H)
    (hne : P.cutMetric = true → ∀ n ∈ H.nets, n.vertices ≠ []) {epsilon : ℚ} (heps : 0 ≤ epsilon)
    (rng : Rng) (hr : RoundsWithin (1 / 2 ^ 53) P.rnd)
    (hsize : maxWeight P.rnd epsilon H.totalWeight k + H.totalWeight < 2 ^ 47)
    {s : RecState} (h : recursiveBisect P H k epsilon rng = .ok s)
    (hresp : ∀ c ∈ s.calls, BisectCall.Respects c) (p : Int) (hp0 : 0 ≤ p) (hpk : p < k) :
    Spec.partWeight s.H p ≤ maxWeight P.rnd epsilon H.totalWeight k ∧
      (Spec.partWeight s.H p : ℚ) ≤ (1 + 1 / 2 ^ 50) * ((1 + epsilon) * H.totalWeight / k) := by
  have h1 : ((maxWeight P.rnd epsilon H.totalWeight k + H.totalWeight : Int) : ℚ) < 2 ^ 47 := by
    exact_mod_cast hsize
  push_cast at h1
  have h2 := C37_rounded hbis hd1 hd2 hk hf hne heps rng hr (by
    calc 40 * (1 / 2 ^ 53 : ℚ) * ((maxWeight P.rnd epsilon H.totalWeight k : ℚ) + H.totalWeight)
        < 40 * (1 / 2 ^ 53 : ℚ) * 2 ^ 47 := by
          refine mul_lt_mul_of_pos_left h1 (by norm_num)
      _ < 1 := by norm_num) h hresp p hp0 hpk
  refine ⟨h2.1, ?_⟩
  have h3 := h2.2
  norm_num at h3 ⊢
  exact h3

/-- Three parts: all bisections respect their bounds and so do the parts. -/
example : (recursiveBisect (randomEnv id false) exampleH 3 (1 / 2) (fun n => n)).toOption.map
    (fun s => (s.calls.map (fun c => (c.max0, c.max1, c.w0, c.w1)),
      s.calls.all (fun c => decide (BisectCall.Respects c)),
      [0, 1, 2].map (fun p => Spec.partWeight s.H p))) =
    some ([(5, 8, 3, 7), (5, 5, 3, 4)], true, [3, 3, 4]) := by decide +kernel

/-- The largest `double` below the `double` nearest to 0.2. -/
def epsBelow : ℚ := nearest53 (1 / 5) - 1 / 2 ^ 55

set_option maxRecDepth 4000 in
/-- C37 is false to the letter in `double` arithmetic: for this `double` ε all bisections respect
their bounds, and the heaviest part exceeds `(1 + ε) W / k` (by less than one unit of weight). -/
theorem C37_false : ∃ s, recursiveBisect (randomEnv nearest53 false) exampleH 2 epsBelow
      (fun n => if n = 0 ∨ n = 3 then 0 else 1) = .ok s ∧
    nearest53 epsBelow = epsBelow ∧ (∀ c ∈ s.calls, BisectCall.Respects c) ∧
    (1 + epsBelow) * exampleH.totalWeight / 2 < Spec.partWeight s.H 0 := by
  have h : (recursiveBisect (randomEnv nearest53 false) exampleH 2 epsBelow
      (fun n => if n = 0 ∨ n = 3 then 0 else 1)).toOption.map (fun s =>
        (s.calls.all (fun c => decide (BisectCall.Respects c)), Spec.partWeight s.H 0)) =
      some (true, 6) := by decide +kernel
  cases hr : recursiveBisect (randomEnv nearest53 false) exampleH 2 epsBelow
      (fun n => if n = 0 ∨ n = 3 then 0 else 1) with
  | error e => rw [hr] at h; cases h
  | ok s =>
    rw [hr] at h
    simp only [Except.toOption, Option.map_some, Option.some.injEq, Prod.mk.injEq, List.all_eq_true,
      decide_eq_true_eq] at h
    refine ⟨s, rfl, by decide +kernel, h.1, ?_⟩
    rw [h.2]
    decide +kernel

end PMondriaan

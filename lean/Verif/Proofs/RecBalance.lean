import Verif.Proofs.RecBisect

/-
The weights of the parts during the sequential recursion.
-/

namespace PMondriaan

open Spec

/-! ### Weights of lists of vertices -/

/-- Weight of the vertices of a list with label `p`. -/
def wt (l : List Vertex) (p : Int) : Int := ((l.filter (fun v => v.part = p)).map (·.weight)).sum

theorem partWeight_eq_wt (H : Hypergraph) (p : Int) : partWeight H p = wt H.vertices p := rfl

theorem rangeWeight_eq_wt (H : Hypergraph) (s e : Nat) (p : Int) :
    rangeWeight H s e p = wt (slice H.vertices s e) p := rfl

theorem wt_append (a b : List Vertex) (p : Int) : wt (a ++ b) p = wt a p + wt b p := by
  simp [wt]

theorem wt_perm {a b : List Vertex} (h : a.Perm b) (p : Int) : wt a p = wt b p :=
  ((h.filter _).map _).sum_eq

theorem wt_core {a b : List Vertex} (h : List.Forall₂ SameCore a b) (p : Int) : wt b p = wt a p := by
  induction h with
  | nil => rfl
  | @cons v v' _ _ h0 _ ih =>
    unfold wt at ih ⊢
    by_cases hp : v.part = p
    · simp [h0.2.2, hp, h0.2.1, ih]
    · simp [h0.2.2, hp, ih]

theorem wt_nonneg {a : List Vertex} (h : ∀ v ∈ a, 0 < v.weight) (p : Int) : 0 ≤ wt a p := by
  unfold wt
  apply List.sum_nonneg
  intro x hx
  obtain ⟨v, hv, rfl⟩ := List.mem_map.1 hx
  exact (h v (List.mem_filter.1 hv).1).le

theorem wt_none {a : List Vertex} {p : Int} (h : ∀ v ∈ a, v.part ≠ p) : wt a p = 0 := by
  unfold wt
  rw [List.filter_eq_nil_iff.2 (by intro v hv; simpa using h v hv)]
  rfl

theorem wt_le_total {a : List Vertex} (h : ∀ v ∈ a, 0 < v.weight) (p : Int) :
    wt a p ≤ (a.map (·.weight)).sum := by
  induction a with
  | nil => exact le_refl _
  | cons v a ih =>
    have h1 := ih (fun u hu => h u (List.mem_cons_of_mem _ hu))
    have h2 := h v (List.mem_cons_self ..)
    rw [← List.singleton_append, wt_append, List.map_append, List.sum_append]
    refine add_le_add ?_ h1
    unfold wt
    by_cases hp : v.part = p
    · simp [hp]
    · simp [hp]; omega

theorem wt_split (vs : List Vertex) {s e : Nat} (h : s ≤ e) (p : Int) :
    wt vs p = wt (vs.take s) p + wt (slice vs s e) p + wt (vs.drop e) p := by
  conv_lhs => rw [split_slice vs h]
  rw [wt_append, wt_append, add_assoc]

theorem take_eq_of_outside {s e : Nat} {A B : List Vertex}
    (h : ∀ i, i < s ∨ e ≤ i → A[i]? = B[i]?) : A.take s = B.take s := by
  apply List.ext_getElem?
  intro i
  rw [List.getElem?_take, List.getElem?_take]
  split
  · exact h i (Or.inl (by assumption))
  · rfl

theorem drop_eq_of_outside {s e : Nat} {A B : List Vertex}
    (h : ∀ i, i < s ∨ e ≤ i → A[i]? = B[i]?) : A.drop e = B.drop e := by
  apply List.ext_getElem?
  intro i
  rw [List.getElem?_drop, List.getElem?_drop]
  exact h _ (Or.inr (by omega))

section
variable {P : RecEnv} {M : Int} {cur cur' : WorkItem} {s s' : RecState} {S E : Nat}
  {H1 H2 : Hypergraph} {w0 w1 : Int}

/-- The weight of a part after a split: what was outside the range, and what the bisection put
inside. -/
theorem SplitFacts.partWeight (h : SplitFacts P M cur s cur' s' S E H1 H2 w0 w1) (hSE : S ≤ E)
    (p : Int) : partWeight s'.H p = wt (s.H.vertices.take S) p + rangeWeight H1 S E p +
      wt (s.H.vertices.drop E) p := by
  rw [partWeight_eq_wt, wt_core h.core, wt_perm h.perm2, wt_split H1.vertices hSE,
    take_eq_of_outside h.relabels.outside, drop_eq_of_outside h.relabels.outside]
  rfl

/-- Parts outside the two labels of the split do not become heavier. -/
theorem SplitFacts.other (h : SplitFacts P M cur s cur' s' S E H1 H2 w0 w1) {N f : Nat}
    (hf : Fit N f s.H) (hSE : S ≤ E) (hE : E ≤ s.H.vertices.length) {p : Int} (h1 : p ≠ cur.low)
    (h2 : p ≠ cur.high) : Spec.partWeight s'.H p ≤ Spec.partWeight s.H p := by
  rw [h.partWeight hSE, partWeight_eq_wt, wt_split s.H.vertices hSE p, rangeWeight_eq_wt,
    wt_none (a := slice H1.vertices S E)]
  · have := wt_nonneg (a := slice s.H.vertices S E) (fun v hv => hf.pos v (by
      obtain ⟨i, -, -, hi⟩ := mem_slice.1 hv
      exact List.mem_iff_getElem?.2 ⟨i, hi⟩)) p
    omega
  · intro v hv
    rcases h.labels1 hE v hv with h3 | h3 <;> rw [h3] <;> omega

/-- If label `p` occurs only in the range, its weight afterwards is what the bisection put there. -/
theorem SplitFacts.inner (h : SplitFacts P M cur s cur' s' S E H1 H2 w0 w1) (hSE : S ≤ E)
    {p : Int} (hp : ∀ (i : Nat) (v : Vertex), s.H.vertices[i]? = some v → v.part = p →
      S ≤ i ∧ i < E) : Spec.partWeight s'.H p = rangeWeight H1 S E p := by
  rw [h.partWeight hSE, wt_none (a := s.H.vertices.take S), wt_none (a := s.H.vertices.drop E)]
  · ring
  · intro v hv hvp
    obtain ⟨i, hi⟩ := List.mem_iff_getElem?.1 hv
    rw [List.getElem?_drop] at hi
    have := hp _ v hi hvp
    omega
  · intro v hv hvp
    obtain ⟨i, hi⟩ := List.mem_iff_getElem?.1 hv
    rw [List.getElem?_take] at hi
    split at hi
    · have := hp _ v hi hvp
      omega
    · cases hi

end

/-! ### The invariant on the weights -/

/-- The label intervals of two jobs with more than one label each do not meet. -/
def ApartLabels (a b : WorkItem) : Prop :=
  a.low < a.high → b.low < b.high → a.high < b.low ∨ b.high < a.low

/-- The invariant: labels still to be split occur only inside the range of their job, and every
part that is not to be split any more respects the bound. -/
structure BalInv (lo hi M W : Int) (cur : WorkItem) (s : RecState) : Prop where
  inside : ∀ j ∈ cur :: s.jobs, j.low < j.high → ∀ (i : Nat) (v : Vertex),
    s.H.vertices[i]? = some v → j.low ≤ v.part → v.part ≤ j.high → j.start ≤ i ∧ i < j.fin
  apart : (cur :: s.jobs).Pairwise ApartLabels
  bound : ∀ p : Int, lo ≤ p → p ≤ hi → Spec.partWeight s.H p ≤ M ∨
    ∃ j ∈ cur :: s.jobs, j.low < j.high ∧ j.low ≤ p ∧ p ≤ j.high
  weights : ∀ j ∈ cur :: s.jobs, 0 ≤ j.weight ∧ j.weight ≤ W

theorem BalInv.step {P : RecEnv} {N f k : Nat} {H0 : Hypergraph} {lo hi M W : Int} {u : ℚ}
    {cur cur' : WorkItem} {s s' : RecState} {S E : Nat} {H1 H2 : Hypergraph} {w0 w1 : Int}
    (hr : RoundsWithin u P.rnd) (hM : 0 ≤ M) (hu : 40 * u * ((M : ℚ) + W) < 1)
    (hW : (H0.vertices.map (·.weight)).sum ≤ W)
    (hI : RecInv P N f k H0 cur s) (hB : BalInv lo hi M W cur s) (hlh : cur.low < cur.high)
    (hw : cur.weight ≠ 0) (hS : cur.start = S) (hE : cur.fin = E) (hSE : S ≤ E)
    (hEl : E ≤ s.H.vertices.length)
    (h : SplitFacts P M cur s cur' s' S E H1 H2 w0 w1)
    (hresp : ∀ c ∈ s'.calls, BisectCall.Respects c) :
    BalInv lo hi M W cur' s' ∨ ∃ j ∈ cur' :: s'.jobs, j.low < j.high ∧ j.weight = 0 := by
  set K := (cur.high - cur.low + 1).toNat with hK
  by_cases hz : ∃ j ∈ cur' :: s'.jobs, j.low < j.high ∧ j.weight = 0
  · exact Or.inr hz
  left
  push Not at hz
  have hlow := h.cur_low
  have hhigh := h.cur_high
  rw [← hK] at hhigh
  have hcur := hB.weights cur (List.mem_cons_self ..)
  have hapart := List.pairwise_cons.1 hB.apart
  have hin := hB.inside cur (List.mem_cons_self ..) hlh
  rw [hS, hE] at hin
  have hu0 : 0 ≤ u := hr.nonneg
  have hsmall : 40 * u * ((M : ℚ) + cur.weight) < 1 := by
    have h1 : ((cur.weight : Int) : ℚ) ≤ (W : ℚ) := by exact_mod_cast hcur.2
    have h2 : 40 * u * ((M : ℚ) + cur.weight) ≤ 40 * u * ((M : ℚ) + W) :=
      mul_le_mul_of_nonneg_left (by linarith) (by linarith)
    linarith
  obtain ⟨g0, g1⟩ := hresp _ (by rw [h.calls]; exact List.mem_append_right _ (List.mem_singleton.2 rfl))
  simp only [← hK] at g0 g1
  -- the vertices of the new state by position
  have hpos : ∀ (i : Nat) (v' : Vertex), s'.H.vertices[i]? = some v' →
      (S ≤ i ∧ i < E ∧ (v'.part = cur.low ∨ v'.part = cur.high)) ∨
      ((i < S ∨ E ≤ i) ∧ (v'.part < cur.low ∨ cur.high < v'.part) ∧
        ∃ v, s.H.vertices[i]? = some v ∧ v.part = v'.part) := by
    intro i v' hv'
    obtain ⟨v, hv, -, -, hp⟩ := h.get hv'
    by_cases hi : S ≤ i ∧ i < E
    · left
      refine ⟨hi.1, hi.2, ?_⟩
      rw [hp]; exact h.inside2 hEl hi.1 hi.2 hv
    · right
      have hi' : i < S ∨ E ≤ i := by omega
      rw [h.outside2 hi'] at hv
      refine ⟨hi', ?_, v, hv, hp.symm⟩
      by_contra hc
      have := hin i v hv (by omega) (by omega)
      omega
  refine ⟨?_, ?_, ?_, ?_⟩
  · -- inside
    intro j hj hj2 i v' hv' hv1 hv2
    have hnz := hz j hj hj2
    have hcases : j = cur' ∨ (K - K / 2 > 1 ∧ j.start = cur'.fin ∧ j.fin = cur.fin ∧
        j.low = cur.low + ((K / 2 : Nat) : Int) ∧ j.high = cur.high ∧ j.weight = w1) ∨ j ∈ s.jobs := by
      rcases List.mem_cons.1 hj with hj | hj
      · exact Or.inl hj
      · rcases h.reorder with ⟨a, b, -⟩ | ⟨-, b, -⟩
        · rw [b] at hj
          rcases List.mem_cons.1 hj with hj | hj
          · right; left
            rw [hj]; exact ⟨a, rfl, rfl, rfl, rfl, rfl⟩
          · exact Or.inr (Or.inr hj)
        · rw [b] at hj; exact Or.inr (Or.inr hj)
    rcases hcases with hj | ⟨a0, a1, a2, a3, a4, a5⟩ | hj
    · -- the low side
      rw [hj] at hj2 hv1 hv2 hnz ⊢
      rcases hpos i v' hv' with ⟨p1, p2, p3⟩ | ⟨-, p2, -⟩
      · have hvl : v'.part = cur.low := by
          rcases p3 with p3 | p3
          · exact p3
          · exfalso; omega
        rw [h.cur_start]
        rcases h.reorder with ⟨-, -, ⟨m, b, a⟩ | ⟨b, c, d⟩⟩ | ⟨a, -, -⟩
        · refine ⟨by omega, ?_⟩
          by_contra hc
          obtain ⟨v, hv, -, -, hp⟩ := h.get hv'
          have := a.highs v (mem_slice.2 ⟨i, by omega, p2, hv⟩)
          omega
        · exfalso
          -- the job of the high side has weight zero
          rcases h.reorder with ⟨a', b', -⟩ | ⟨a', -, -⟩
          · refine hz _ (List.mem_cons_of_mem _ (by rw [b']; exact List.mem_cons_self ..)) ?_ d
            simp only; omega
          · have : K ≥ 2 := by omega
            omega
        · exfalso; omega
      · exfalso; omega
    · -- the high side
      rcases hpos i v' hv' with ⟨p1, p2, p3⟩ | ⟨-, p2, -⟩
      · have hvl : v'.part = cur.high := by
          rcases p3 with p3 | p3
          · exfalso; omega
          · exact p3
        rcases h.reorder with ⟨-, -, ⟨m, b, a⟩ | ⟨b, c, d⟩⟩ | ⟨a, -, -⟩
        · refine ⟨?_, by omega⟩
          by_contra hc
          obtain ⟨v, hv, -, -, hp⟩ := h.get hv'
          have := a.lows v (mem_slice.2 ⟨i, p1, by omega, hv⟩)
          omega
        · exact absurd (a5.trans d) hnz
        · exfalso; omega
      · exfalso; omega
    · -- another job
      have hap := hapart.1 j hj hlh hj2
      rcases hpos i v' hv' with ⟨p1, p2, p3⟩ | ⟨-, -, v, hv, hp⟩
      · exfalso; omega
      · exact hB.inside j (List.mem_cons_of_mem _ hj) hj2 i v hv (by omega) (by omega)
  · -- apart
    have hcj : ∀ j ∈ s.jobs, ApartLabels cur' j := by
      intro j hj h1 h2
      have := hapart.1 j hj hlh h2
      omega
    rcases h.reorder with ⟨a, b, -⟩ | ⟨a, b, -⟩
    · rw [b, List.pairwise_cons, List.pairwise_cons]
      refine ⟨?_, ?_, hapart.2⟩
      · intro j hj
        rcases List.mem_cons.1 hj with hj | hj
        · rw [hj]; intro _ _; left; simp only; omega
        · exact hcj j hj
      · intro j hj _ h2
        have := hapart.1 j hj hlh h2
        simp only; omega
    · rw [b, List.pairwise_cons]
      exact ⟨hcj, hapart.2⟩
  · -- bound
    intro p hp0 hpk
    by_cases hpc : cur.low ≤ p ∧ p ≤ cur.high
    · by_cases hpl : p ≤ cur'.high
      · by_cases hkl : K / 2 = 1
        · left
          have hpl' : p = cur.low := by omega
          rw [h.inner hSE (fun i v hv hvp => by have := hin i v hv (by omega) (by omega); omega), hpl', ← h.w0_eq]
          refine le_trans g0 ?_
          rw [hkl]
          exact boundFor_leaf hr (by omega) (by omega) hM hsmall
        · right
          exact ⟨cur', List.mem_cons_self .., by omega, by omega, hpl⟩
      · rcases h.reorder with ⟨a, b, -⟩ | ⟨a, b, -⟩
        · right
          refine ⟨_, List.mem_cons_of_mem _ (by rw [b]; exact List.mem_cons_self ..), ?_, ?_, ?_⟩
          · simp only; omega
          · simp only; omega
          · simp only; omega
        · left
          have hpl' : p = cur.high := by omega
          rw [h.inner hSE (fun i v hv hvp => by have := hin i v hv (by omega) (by omega); omega), hpl', ← h.w1_eq]
          refine le_trans g1 ?_
          rw [a]
          exact boundFor_leaf hr (by omega) (by omega) hM hsmall
    · rcases hB.bound p hp0 hpk with h1 | ⟨j, hj, j1, j2, j3⟩
      · left
        refine le_trans (h.other hI.fit hSE hEl ?_ ?_) h1 <;> omega
      · right
        rcases List.mem_cons.1 hj with hj | hj
        · rw [hj] at j2 j3; exact absurd ⟨j2, j3⟩ hpc
        · refine ⟨j, List.mem_cons_of_mem _ ?_, j1, j2, j3⟩
          rcases h.reorder with ⟨-, b, -⟩ | ⟨-, b, -⟩
          · rw [b]; exact List.mem_cons_of_mem _ hj
          · rw [b]; exact hj
  · -- weights
    have f1 := relabels_fit h.relabels hI.fit
    have htot : (H1.vertices.map (·.weight)).sum ≤ W := by
      refine le_trans (le_of_eq ?_) hW
      have e2 : H1.vertices.map (·.weight) = s.H.vertices.map (·.weight) :=
        forall2_map_eq (relabels_forall2 h.relabels) fun a b hab => hab.2.2
      rw [e2]
      have e3 := (hI.verts.map (·.2)).sum_eq
      simpa [List.map_map, Function.comp_def] using e3
    have hrw : ∀ p, 0 ≤ rangeWeight H1 S E p ∧ rangeWeight H1 S E p ≤ W := by
      intro p
      rw [rangeWeight_eq_wt]
      have t1 := wt_nonneg (a := slice H1.vertices S E) (fun v hv => f1.pos v (by
        obtain ⟨i, -, -, hi⟩ := mem_slice.1 hv
        exact List.mem_iff_getElem?.2 ⟨i, hi⟩)) p
      have t2 := wt_nonneg (a := H1.vertices.take S) (fun v hv => f1.pos v (List.mem_of_mem_take hv)) p
      have t3 := wt_nonneg (a := H1.vertices.drop E) (fun v hv => f1.pos v (List.mem_of_mem_drop hv)) p
      have t4 := wt_split H1.vertices hSE p
      have t5 := wt_le_total (a := H1.vertices) f1.pos p
      omega
    intro j hj
    rcases List.mem_cons.1 hj with hj | hj
    · rw [hj, h.cur_weight, h.w0_eq]; exact hrw _
    · rcases h.reorder with ⟨-, b, -⟩ | ⟨-, b, -⟩
      · rw [b] at hj
        rcases List.mem_cons.1 hj with hj | hj
        · rw [hj]; simp only; rw [h.w1_eq]; exact hrw _
        · exact hB.weights j (List.mem_cons_of_mem _ hj)
      · rw [b] at hj
        exact hB.weights j (List.mem_cons_of_mem _ hj)

/-- A job of weight zero that is still to be split prevents a normal end. -/
theorem recLoop_zero {P : RecEnv} {N f k : Nat} {H0 : Hypergraph} (hbis : BisectsWell P.bis N f)
    (hd : Fair P.d1) (M : Int) : ∀ (fuel : Nat) (cur : WorkItem) (s : RecState),
    RecInv P N f k H0 cur s → (∃ j ∈ cur :: s.jobs, j.low < j.high ∧ j.weight = 0) →
    ∀ s', recLoop P M fuel cur s ≠ .ok s' := by
  intro fuel
  induction fuel with
  | zero => intro cur s _ _ s' h; cases h
  | succ fuel ih =>
    intro cur s hI hz s' h
    unfold recLoop at h
    by_cases hlh : cur.low < cur.high
    · rw [if_pos (by omega)] at h
      rcases splitStep_spec hbis hd M hI.fit hI.nonempty hlh
        (fun hw => hI.ranges cur (List.mem_cons_self ..) hw hlh) with ⟨-, h1⟩ |
        ⟨hne, cur', s1, h1, S, E, H1, H2, w0, w1, a1, a2, a3, a4, a5⟩
      · rw [h1] at h; cases h
      · rw [h1, ok_bind] at h
        refine ih cur' s1 (hI.step hlh a1 a2 a3 a4 a5).1 ?_ s' h
        obtain ⟨j, hj, j1, j2⟩ := hz
        rcases List.mem_cons.1 hj with hj | hj
        · rw [hj] at j2; exact absurd j2 hne
        · refine ⟨j, List.mem_cons_of_mem _ ?_, j1, j2⟩
          rcases a5.reorder with ⟨-, b, -⟩ | ⟨-, b, -⟩
          · rw [b]; exact List.mem_cons_of_mem _ hj
          · rw [b]; exact hj
    · rw [if_neg (by omega)] at h
      obtain ⟨j, hj, j1, j2⟩ := hz
      cases hjs : s.jobs with
      | nil =>
        rw [hjs] at hj
        rw [List.mem_singleton] at hj
        rw [hj] at j1; exact hlh j1
      | cons j0 js =>
        rw [hjs] at h hj
        refine ih j0 _ (hI.pop hlh hjs).1 ?_ s' h
        rcases List.mem_cons.1 hj with hj | hj
        · rw [hj] at j1; exact absurd j1 hlh
        · exact ⟨j, hj, j1, j2⟩

/-- The recorded calls only grow. -/
theorem recLoop_calls {P : RecEnv} {N f k : Nat} {H0 : Hypergraph} (hbis : BisectsWell P.bis N f)
    (hd : Fair P.d1) (M : Int) : ∀ (fuel : Nat) (cur : WorkItem) (s : RecState),
    RecInv P N f k H0 cur s → ∀ s', recLoop P M fuel cur s = .ok s' →
    ∀ c ∈ s.calls, c ∈ s'.calls := by
  intro fuel
  induction fuel with
  | zero => intro cur s _ s' h; cases h
  | succ fuel ih =>
    intro cur s hI s' h c hc
    unfold recLoop at h
    by_cases hlh : cur.low < cur.high
    · rw [if_pos (by omega)] at h
      rcases splitStep_spec hbis hd M hI.fit hI.nonempty hlh
        (fun hw => hI.ranges cur (List.mem_cons_self ..) hw hlh) with ⟨-, h1⟩ |
        ⟨hne, cur', s1, h1, S, E, H1, H2, w0, w1, a1, a2, a3, a4, a5⟩
      · rw [h1] at h; cases h
      · rw [h1, ok_bind] at h
        exact ih cur' s1 (hI.step hlh a1 a2 a3 a4 a5).1 s' h c
          (by rw [a5.calls]; exact List.mem_append_left _ hc)
    · rw [if_neg (by omega)] at h
      cases hjs : s.jobs with
      | nil => rw [hjs] at h; cases h; exact hc
      | cons j0 js => rw [hjs] at h; exact ih j0 _ (hI.pop hlh hjs).1 s' h c hc

/-- If the loops end normally and every bisection stayed within its bounds, every part is within
the bound. -/
theorem recLoop_bounds {P : RecEnv} {N f k : Nat} {H0 : Hypergraph} (hbis : BisectsWell P.bis N f)
    (hd : Fair P.d1) {lo hi M W : Int} {u : ℚ} (hr : RoundsWithin u P.rnd) (hM : 0 ≤ M)
    (hu : 40 * u * ((M : ℚ) + W) < 1) (hW : (H0.vertices.map (·.weight)).sum ≤ W) :
    ∀ (fuel : Nat) (cur : WorkItem) (s : RecState), RecInv P N f k H0 cur s → BalInv lo hi M W cur s →
    ∀ s', recLoop P M fuel cur s = .ok s' → (∀ c ∈ s'.calls, BisectCall.Respects c) →
    ∀ p : Int, lo ≤ p → p ≤ hi → Spec.partWeight s'.H p ≤ M := by
  intro fuel
  induction fuel with
  | zero => intro cur s _ _ s' h; cases h
  | succ fuel ih =>
    intro cur s hI hB s' h hc
    unfold recLoop at h
    by_cases hlh : cur.low < cur.high
    · rw [if_pos (by omega)] at h
      rcases splitStep_spec hbis hd M hI.fit hI.nonempty hlh
        (fun hw => hI.ranges cur (List.mem_cons_self ..) hw hlh) with ⟨-, h1⟩ |
        ⟨hne, cur', s1, h1, S, E, H1, H2, w0, w1, a1, a2, a3, a4, a5⟩
      · rw [h1] at h; cases h
      · rw [h1, ok_bind] at h
        have hI' := (hI.step hlh a1 a2 a3 a4 a5).1
        rcases BalInv.step hr hM hu hW hI hB hlh hne a1 a2 a3 a4 a5
          (fun c hc1 => hc c (recLoop_calls hbis hd M fuel cur' s1 hI' s' h c hc1)) with hB' | hz
        · exact ih cur' s1 hI' hB' s' h hc
        · exact absurd h (recLoop_zero hbis hd M fuel cur' s1 hI' hz s')
    · rw [if_neg (by omega)] at h
      cases hjs : s.jobs with
      | nil =>
        rw [hjs] at h; cases h
        intro p hp0 hpk
        rcases hB.bound p hp0 hpk with h1 | ⟨j, hj, j1, -⟩
        · exact h1
        · rw [hjs, List.mem_singleton] at hj
          rw [hj] at j1; exact absurd j1 hlh
      | cons j0 js =>
        rw [hjs] at h
        refine ih j0 _ (hI.pop hlh hjs).1 ⟨?_, ?_, ?_, ?_⟩ s' h hc
        · intro j hj
          exact hB.inside j (by rw [hjs]; exact List.mem_cons_of_mem _ hj)
        · have := hB.apart
          rw [hjs] at this
          exact (List.pairwise_cons.1 this).2
        · intro p hp0 hpk
          rcases hB.bound p hp0 hpk with h1 | ⟨j, hj, j1, j2⟩
          · exact Or.inl h1
          · right
            rw [hjs] at hj
            rcases List.mem_cons.1 hj with hj | hj
            · rw [hj] at j1; exact absurd j1 hlh
            · exact ⟨j, hj, j1, j2⟩
        · intro j hj
          exact hB.weights j (by rw [hjs]; exact List.mem_cons_of_mem _ hj)

end PMondriaan

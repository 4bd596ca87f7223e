import Verif.Proofs.Recursive
import Verif.Spec.Recursive

/-
Properties of random bisection (C35) and of reordering (C36).
-/

namespace PMondriaan

open Spec

theorem split_slice (vs : List Vertex) {s e : Nat} (h1 : s ≤ e) :
    vs = vs.take s ++ (slice vs s e ++ vs.drop e) := by
  unfold slice
  conv_lhs => rw [← List.take_append_drop s vs]
  congr 1
  conv_lhs => rw [← List.take_append_drop (e - s) (vs.drop s)]
  rw [List.drop_drop, Nat.add_sub_of_le h1]

theorem slice_length (vs : List Vertex) {s e : Nat} (h2 : e ≤ vs.length) :
    (slice vs s e).length = e - s := by
  unfold slice
  rw [List.length_take, List.length_drop]
  omega

theorem slice_mid {A D B : List Vertex} {s e : Nat} (hA : A.length = s) (hD : D.length = e - s) :
    slice (A ++ (D ++ B)) s e = D := by
  unfold slice
  subst hA
  rw [List.drop_left, ← hD, List.take_left]

theorem mem_slice {vs : List Vertex} {s e : Nat} {v : Vertex} :
    v ∈ slice vs s e ↔ ∃ i, s ≤ i ∧ i < e ∧ vs[i]? = some v := by
  unfold slice
  rw [List.mem_iff_getElem?]
  simp only [List.getElem?_take, List.getElem?_drop]
  constructor
  · rintro ⟨i, h⟩
    split at h
    · exact ⟨s + i, by omega, by omega, h⟩
    · cases h
  · rintro ⟨i, h1, h2, h3⟩
    refine ⟨i - s, ?_⟩
    rw [if_pos (by omega), Nat.add_sub_of_le h1]
    exact h3

/-! ### C35 -/

/-- C35: random bisection labels exactly the vertices in the range, with the low or the high
label, returns the true weights of the two labels, and never goes out of bounds. -/
theorem C35_bisect_random {H : Hypergraph} {s e : Nat} (h1 : s ≤ e) (h2 : e ≤ H.vertices.length)
    (labels : Interval) (hl : labels.low ≠ labels.high) (max0 max1 : Int) (rng : Rng) :
    ∃ r, bisectRandom H max0 max1 s e labels rng = .ok r ∧
      Relabels s e labels.low labels.high H r.H ∧
      r.w0 = rangeWeight r.H s e labels.low ∧ r.w1 = rangeWeight r.H s e labels.high := by
  have hA : (H.vertices.take s).length = s := by rw [List.length_take]; omega
  have hR : (slice H.vertices s e).length = e - s := slice_length _ h2
  obtain ⟨r, D, g1, g2, g3, g4, g5, -⟩ := randomLoop_ok labels hl max0 max1 (H.vertices.drop e)
    (slice H.vertices s e) (H.vertices.take s) { H := H, w0 := 0, w1 := 0, rng := rng }
    (split_slice _ h1)
  rw [hA, hR] at g1
  have hD : D.length = e - s := by rw [← g3.length_eq, hR]
  have hv : r.H.vertices = H.vertices.take s ++ (D ++ H.vertices.drop e) := by rw [g2]
  have hsl : slice r.H.vertices s e = D := by rw [hv]; exact slice_mid hA hD
  refine ⟨r, g1, ⟨?_, ?_, ?_, ?_⟩, ?_, ?_⟩
  · rw [hv]; exact g2
  · rw [hv, List.length_append, List.length_append, hA, hD, List.length_drop]; omega
  · intro i hi
    rw [hv]
    conv_rhs => rw [split_slice H.vertices h1]
    rcases hi with hi | hi
    · rw [List.getElem?_append_left (by omega), List.getElem?_append_left (by omega)]
    · rw [List.getElem?_append_right (by omega), List.getElem?_append_right (by omega),
        List.getElem?_append_right (by omega), List.getElem?_append_right (by omega), hD, hR]
  · intro i v hi1 hi2 hget
    have hget' : (slice H.vertices s e)[i - s]? = some v := by
      unfold slice
      rw [List.getElem?_take, if_pos (by omega), List.getElem?_drop, Nat.add_sub_of_le hi1]
      exact hget
    have hlt : i - s < D.length := by omega
    have hlt' : i - s < (slice H.vertices s e).length := by omega
    have hrel := g3.get hlt' hlt
    rw [List.getElem?_eq_getElem hlt'] at hget'
    have hgv : (slice H.vertices s e)[i - s] = v := Option.some.inj hget'
    simp only [List.get_eq_getElem, hgv] at hrel
    refine ⟨D[i - s].part, hrel.1, ?_⟩
    rw [hv, List.getElem?_append_right (by omega), List.getElem?_append_left (by omega), hA,
      List.getElem?_eq_getElem hlt, ← hrel.2]
  · rw [g4]; simp only [rangeWeight, hsl, listWeight]; ring
  · rw [g5]; simp only [rangeWeight, hsl, listWeight]; ring

/-- C35, balance: when weights in the range are between 0 and `W`, the bounds are not negative and
the total weight plus `W` is at most `max0 + max1 + 1`, both parts are within bounds. -/
theorem C35_balance {H : Hypergraph} {s e : Nat} (h1 : s ≤ e) (h2 : e ≤ H.vertices.length)
    (labels : Interval) (hl : labels.low ≠ labels.high) {max0 max1 : Int} (rng : Rng)
    (hm0 : 0 ≤ max0) (hm1 : 0 ≤ max1) {W : Int}
    (hW : ∀ v ∈ slice H.vertices s e, 0 ≤ v.weight ∧ v.weight ≤ W)
    (hsum : ((slice H.vertices s e).map (·.weight)).sum + W ≤ max0 + max1 + 1) :
    ∃ r, bisectRandom H max0 max1 s e labels rng = .ok r ∧ r.w0 ≤ max0 ∧ r.w1 ≤ max1 := by
  have hA : (H.vertices.take s).length = s := by rw [List.length_take]; omega
  obtain ⟨r, D, g1, -, -, -, -, g6⟩ := randomLoop_ok labels hl max0 max1 (H.vertices.drop e)
    (slice H.vertices s e) (H.vertices.take s) { H := H, w0 := 0, w1 := 0, rng := rng }
    (split_slice _ h1)
  rw [hA, slice_length _ h2] at g1
  exact ⟨r, g1, g6 W hW hm0 hm1 (by simpa using hsum)⟩

/-- C35, unit weights: bounds that sum to at least the number of vertices are respected. -/
theorem C35_unit_weights {H : Hypergraph} {s e : Nat} (h1 : s ≤ e) (h2 : e ≤ H.vertices.length)
    (labels : Interval) (hl : labels.low ≠ labels.high) {max0 max1 : Int} (rng : Rng)
    (hm0 : 0 ≤ max0) (hm1 : 0 ≤ max1) (hW : ∀ v ∈ slice H.vertices s e, v.weight = 1)
    (hsum : ((e - s : Nat) : Int) ≤ max0 + max1) :
    ∃ r, bisectRandom H max0 max1 s e labels rng = .ok r ∧ r.w0 ≤ max0 ∧ r.w1 ≤ max1 := by
  apply C35_balance h1 h2 labels hl rng hm0 hm1 (W := 1)
  · intro v hv; rw [hW v hv]; omega
  · have : ((slice H.vertices s e).map (·.weight)).sum = ((slice H.vertices s e).length : Int) := by
      generalize slice H.vertices s e = l at hW
      induction l with
      | nil => rfl
      | cons a l ih =>
        rw [List.map_cons, List.sum_cons, ih (fun v hv => hW v (by simp [hv])), hW a (by simp)]
        push_cast [List.length_cons]; ring
    rw [this, slice_length _ h2]; omega

/-- Positions 1..3 of the example get labels 4 and 9 with weights 5 and 3. -/
example : (bisectRandom exampleH 5 6 1 4 ⟨4, 9⟩ (fun _ => 1)).toOption.map
    (fun r => (r.H.vertices.map (·.part), r.w0, r.w1)) = some ([0, 9, 9, 4], 4, 4) := by decide +kernel

/-- Without the slack for the largest weight, bounds can be exceeded. -/
theorem C35_balance_needed : ∃ (H : Hypergraph) (rng : Rng), WF H ∧ (∀ v ∈ H.vertices, 0 ≤ v.weight) ∧
    (H.vertices.map (·.weight)).sum ≤ 5 + 5 ∧
    ∃ r, bisectRandom H 5 5 0 4 ⟨0, 1⟩ rng = .ok r ∧ r.w0 > 5 := by
  refine ⟨exampleH, fun n => n, exampleH_wf, by decide, by decide, _, rfl, by decide +kernel⟩

/-! ### C36 -/

theorem reorder_splits {H : Hypergraph} (w : WF H) {s e : Nat} (h1 : s ≤ e)
    (h2 : e ≤ H.vertices.length) {low high : Int}
    (hlab : ∀ v ∈ slice H.vertices s e, v.part = low ∨ v.part = high)
    (hhigh : ∃ v ∈ slice H.vertices s e, v.part = high) :
    ∃ (H' : Hypergraph) (m : Nat), reorderHypergraph H s e low high = .ok (H', (m : Int)) ∧
      SplitAt s m e low high H H' := by
  obtain ⟨v0, hv0, hp0⟩ := hhigh
  obtain ⟨i0, a1, a2, a3⟩ := mem_slice.1 hv0
  obtain ⟨H', e', b1, b2, b3⟩ := reorderLoop_ok (S := s) (E := e) (low := low) (high := high)
    (e - s) H s (Nat.le_refl _) h2 (Nat.le_refl _) h1
    (fun i v c1 c2 c3 => hlab v (mem_slice.2 ⟨i, c1, c2, c3⟩)) (fun i v c1 c2 _ => by omega)
    ⟨i0, v0, a1, a2, a3, hp0⟩
  have hge := b3.ge
  have hle := b3.le
  have hlen : H'.vertices.length = H.vertices.length := b3.perm.length_eq
  refine ⟨H'.updateMap, e' - 1, ?_, by omega, by omega, ?_, b3.outside, ?_, ?_, ?_, ?_, ?_⟩
  · unfold reorderHypergraph
    rw [b1, ok_bind]
    have : (e' : Int) - 1 = ((e' - 1 : Nat) : Int) := by omega
    simp only [pure_eq_ok, this]
  · change (slice H'.vertices s e).Perm (slice H.vertices s e)
    have hp := b3.perm
    rw [split_slice H'.vertices h1, split_slice H.vertices h1] at hp
    have t1 : H'.vertices.take s = H.vertices.take s := by
      apply List.ext_getElem?
      intro i
      rw [List.getElem?_take, List.getElem?_take]
      split
      · exact b3.outside i (Or.inl (by assumption))
      · rfl
    have t2 : H'.vertices.drop e = H.vertices.drop e := by
      apply List.ext_getElem?
      intro i
      rw [List.getElem?_drop, List.getElem?_drop]
      exact b3.outside _ (Or.inr (by omega))
    rw [t1, t2] at hp
    exact (List.perm_append_right_iff _).1 ((List.perm_append_left_iff _).1 hp)
  · intro v hv
    obtain ⟨i, c1, c2, c3⟩ := mem_slice.1 hv
    exact b3.lows i v c1 c2 c3
  · intro v hv
    obtain ⟨i, c1, c2, c3⟩ := mem_slice.1 hv
    exact b3.highs i v c1 c2 c3
  · change H'.nets = H.nets
    rw [b2]
  · have := permuted_wf w b3.perm
    rw [b2]
    exact this
  · rw [b2]
    rfl

/-- C36: when the range holds at least one high label, reordering puts exactly the low-labelled
vertices of the range before the new end and exactly the high-labelled ones after it, changes
nothing outside the range, and leaves exact lookups. What is missing: a range without a high
label (`C36_no_high`). -/
theorem C36_partial {H : Hypergraph} (w : WF H) {s e : Nat} (h1 : s ≤ e)
    (h2 : e ≤ H.vertices.length) {low high : Int}
    (hlab : ∀ v ∈ slice H.vertices s e, v.part = low ∨ v.part = high)
    (hhigh : ∃ v ∈ slice H.vertices s e, v.part = high) :
    ∃ (H' : Hypergraph) (m : Nat), reorderHypergraph H s e low high = .ok (H', (m : Int)) ∧
      SplitAt s m e low high H H' :=
  reorder_splits w h1 h2 hlab hhigh

/-- C36 fails for every range without a high label: nothing is reordered, and the new end is one
too small, so that the last low-labelled vertex is handed to the high side (an empty range even
gets an end before its start). -/
theorem C36_no_high {H : Hypergraph} {s e : Nat} (h2 : e ≤ H.vertices.length) {low high : Int}
    (hno : ∀ v ∈ slice H.vertices s e, v.part ≠ high) :
    reorderHypergraph H s e low high = .ok (H.updateMap, (e : Int) - 1) := by
  unfold reorderHypergraph
  rw [reorderLoop_none (e - s) H s (Nat.le_refl _) h2
    (fun i v c1 c2 c3 => hno v (mem_slice.2 ⟨i, c1, c2, c3⟩)), ok_bind]
  rfl

/-- Vertices 1,3 (label 0) come before 2,7 (label 1). -/
example : (reorderHypergraph exampleH 0 4 0 1).toOption.map
    (fun r => (r.1.vertices.map (·.id), r.2)) = some ([1, 3, 7, 2], 2) := by decide +kernel

/-- The range holding only vertex 1, with label 0: that vertex is left to the high side. -/
theorem C36_false : WF exampleH ∧ (∀ v ∈ slice exampleH.vertices 0 1, v.part = 0) ∧
    ∃ H', reorderHypergraph exampleH 0 1 0 1 = .ok (H', 0) ∧
      ∃ v ∈ slice H'.vertices 0 1, v.part ≠ 1 := by
  refine ⟨exampleH_wf, by decide, _, rfl, ?_⟩
  decide +kernel

end PMondriaan

import Verif.Model.Recursive
import Verif.Proofs.WF
import Verif.Proofs.SortMove
import Verif.Proofs.Container

/-
Proofs about random bisection and reordering.
-/

namespace PMondriaan

open Spec

/-! ### Random bisection -/

/-- `v'` is `v` with one of the two labels. -/
def Relabelled (labels : Interval) (v v' : Vertex) : Prop :=
  (v'.part = labels.low ∨ v'.part = labels.high) ∧ v' = { v with part := v'.part }

/-- Total weight of the vertices of a list with a given part. -/
def listWeight (l : List Vertex) (p : Int) : Int :=
  ((l.filter (fun v => v.part = p)).map (·.weight)).sum

theorem listWeight_cons (v : Vertex) (l : List Vertex) (p : Int) :
    listWeight (v :: l) p = (if v.part = p then v.weight else 0) + listWeight l p := by
  unfold listWeight
  by_cases h : v.part = p <;> simp [h]

theorem randomPart_cases (max0 max1 w0 w1 w : Int) (d : Nat) :
    (randomPart max0 max1 w0 w1 w d = 0 ∧ (w0 + w ≤ max0 ∨ w1 + w > max1)) ∨
    (randomPart max0 max1 w0 w1 w d = 1 ∧ (w1 + w ≤ max1 ∨ w0 + w > max0)) := by
  unfold randomPart
  rcases Nat.mod_two_eq_zero_or_one d with h | h <;> simp only [h]
  · by_cases h1 : w0 + w > max0
    · simp [h1]
    · simp [h1]; left; omega
  · by_cases h1 : w1 + w > max1
    · simp [h1]
    · simp [h1]; left; omega

theorem setPartAt_append {H : Hypergraph} {A B : List Vertex} {v : Vertex}
    (hv : H.vertices = A ++ v :: B) (p : Int) :
    H.setPartAt A.length p = .ok { H with vertices := A ++ { v with part := p } :: B } := by
  unfold Hypergraph.setPartAt Hypergraph.vertexAt
  rw [hv]
  simp [Hypergraph.setVertex, hv]

theorem randomLoop_ok (labels : Interval) (hl : labels.low ≠ labels.high) (max0 max1 : Int)
    (B : List Vertex) : ∀ (rest A : List Vertex) (s : RState), s.H.vertices = A ++ (rest ++ B) →
    ∃ s' D, (List.range' A.length rest.length).foldlM (randomStep max0 max1 labels) s = .ok s' ∧
      s'.H = { s.H with vertices := A ++ (D ++ B) } ∧
      List.Forall₂ (Relabelled labels) rest D ∧
      s'.w0 = s.w0 + listWeight D labels.low ∧ s'.w1 = s.w1 + listWeight D labels.high ∧
      (∀ W, (∀ v ∈ rest, 0 ≤ v.weight ∧ v.weight ≤ W) → s.w0 ≤ max0 → s.w1 ≤ max1 →
        s.w0 + s.w1 + (rest.map (·.weight)).sum + W ≤ max0 + max1 + 1 →
        s'.w0 ≤ max0 ∧ s'.w1 ≤ max1) := by
  intro rest
  induction rest with
  | nil =>
    intro A s hv
    refine ⟨s, [], rfl, ?_, .nil, ?_, ?_, ?_⟩
    · rw [List.nil_append] at hv ⊢; rw [← hv]
    · simp [listWeight]
    · simp [listWeight]
    · intro W _ h0 h1 _; exact ⟨h0, h1⟩
  | cons v rest ih =>
    intro A s hv
    rw [List.length_cons, List.range'_succ, List.foldlM_cons]
    have hget : s.H.vertexAt A.length = .ok v := by
      unfold Hypergraph.vertexAt; rw [hv]; simp
    set part := randomPart max0 max1 s.w0 s.w1 v.weight s.rng.draw.1 with hpart
    set v' : Vertex := { v with part := labels.label part } with hv'
    set s1 : RState := { H := { s.H with vertices := A ++ v' :: (rest ++ B) },
                         w0 := if part = 0 then s.w0 + v.weight else s.w0,
                         w1 := if part = 0 then s.w1 else s.w1 + v.weight,
                         rng := s.rng.draw.2 } with hs1
    have hstep : randomStep max0 max1 labels s A.length = .ok s1 := by
      unfold randomStep
      simp only [hget, ok_bind]
      rw [setPartAt_append (B := rest ++ B) (v := v) hv]
      rfl
    rw [hstep, ok_bind]
    obtain ⟨s', D, h1, h2, h3, h4, h5, h6⟩ := ih (A ++ [v']) s1 (by simp [hs1])
    rw [List.length_append, List.length_singleton] at h1
    refine ⟨s', v' :: D, h1, ?_, .cons ?_ h3, ?_, ?_, ?_⟩
    · rw [h2]; simp [hs1]
    · refine ⟨?_, rfl⟩
      simp only [hv', Interval.label]
      split
      · exact Or.inl rfl
      · exact Or.inr rfl
    · rw [h4, listWeight_cons]
      simp only [hs1, hv', Interval.label]
      by_cases h : part = 0
      · simp [h]; ring
      · simp [h, Ne.symm hl]
    · rw [h5, listWeight_cons]
      simp only [hs1, hv', Interval.label]
      by_cases h : part = 0
      · simp [h, hl]
      · simp [h]; ring
    · intro W hW h0 h1' hsum
      obtain ⟨hv0, hvW⟩ := hW v (by simp)
      rw [List.map_cons, List.sum_cons] at hsum
      have hnn : 0 ≤ (rest.map (·.weight)).sum := by
        have hW' : ∀ y ∈ rest, 0 ≤ y.weight := fun y hy => (hW y (by simp [hy])).1
        clear * - hW'
        induction rest with
        | nil => simp
        | cons a l ih =>
          have h1 := hW' a (by simp)
          have h2 := ih (fun y hy => hW' y (by simp [hy]))
          rw [List.map_cons, List.sum_cons]
          omega
      have hcases := randomPart_cases max0 max1 s.w0 s.w1 v.weight s.rng.draw.1
      rw [← hpart] at hcases
      apply h6 W (fun v hv => hW v (by simp [hv]))
      · simp only [hs1]
        rcases hcases with ⟨hp, h⟩ | ⟨hp, h⟩
        · rw [if_pos hp]; omega
        · rw [if_neg (by omega)]; exact h0
      · simp only [hs1]
        rcases hcases with ⟨hp, h⟩ | ⟨hp, h⟩
        · rw [if_pos hp]; exact h1'
        · rw [if_neg (by omega)]; omega
      · simp only [hs1]
        split <;> omega

/-! ### Reordering -/

theorem vertexAt_ok {H : Hypergraph} {i : Nat} {v : Vertex} (h : H.vertices[i]? = some v) :
    H.vertexAt i = .ok v := by
  unfold Hypergraph.vertexAt; rw [h]

theorem reorderSkip_ok {H : Hypergraph} {low : Int} {pivot : Nat} :
    ∀ (e : Nat), pivot < e → e ≤ H.vertices.length →
    ∃ e', reorderSkip H low pivot e = .ok e' ∧ pivot < e' ∧ e' ≤ e ∧
      (∀ i v, e' ≤ i → i < e → H.vertices[i]? = some v → v.part ≠ low) ∧
      (e' - 1 = pivot ∨ ∀ v, H.vertices[e' - 1]? = some v → v.part = low) := by
  intro e
  induction e with
  | zero => intro h; omega
  | succ e ih =>
    intro h1 h2
    have hget : H.vertices[e]? = some H.vertices[e] := by simp [show e < H.vertices.length by omega]
    unfold reorderSkip
    rw [vertexAt_ok hget, ok_bind]
    by_cases hc : H.vertices[e].part ≠ low ∧ e ≠ pivot
    · rw [if_pos hc]
      obtain ⟨e', a1, a2, a3, a4, a5⟩ := ih (by omega) (by omega)
      refine ⟨e', a1, a2, by omega, ?_, a5⟩
      intro i v hi1 hi2 hv
      rcases Nat.lt_or_ge i e with h | h
      · exact a4 i v hi1 h hv
      · have : i = e := by omega
        subst this
        rw [hget] at hv
        cases hv
        exact hc.1
    · rw [if_neg hc]
      refine ⟨e + 1, rfl, h1, Nat.le_refl _, ?_, ?_⟩
      · intro i v hi1 hi2; omega
      · rw [Nat.add_sub_cancel]
        by_cases hp : e = pivot
        · exact Or.inl hp
        · right
          intro v hv
          rw [hget] at hv
          cases hv
          by_contra hne
          exact hc ⟨hne, hp⟩

theorem getElem?_swap {α : Type} {l : List α} {a b : Nat} (ha : a < l.length) (hb : b < l.length)
    (i : Nat) : ((l.set a l[b]).set b l[a])[i]? =
      if i = b then some l[a] else if i = a then some l[b] else l[i]? := by
  rw [List.getElem?_set]
  by_cases h1 : i = b
  · subst h1; simp [hb]
  · rw [if_neg (fun h => h1 h.symm), if_neg h1, List.getElem?_set]
    by_cases h2 : i = a
    · subst h2; simp [ha]
    · rw [if_neg (fun h => h2 h.symm), if_neg h2]

/-- `H` with other vertices. -/
def withVertices (H : Hypergraph) (vs : List Vertex) : Hypergraph := { H with vertices := vs }

/-- What the loop guarantees: a permutation inside `[S, E)`, low labels before `e' - 1`, high
labels from `e' - 1` on. -/
structure Reordered (S E : Nat) (low high : Int) (vs vs' : List Vertex) (e' : Nat) : Prop where
  perm : vs'.Perm vs
  outside : ∀ i, i < S ∨ E ≤ i → vs'[i]? = vs[i]?
  ge : S < e'
  le : e' ≤ E
  lows : ∀ i v, S ≤ i → i < e' - 1 → vs'[i]? = some v → v.part = low
  highs : ∀ i v, e' - 1 ≤ i → i < E → vs'[i]? = some v → v.part = high

theorem reorderLoop_seen {S E : Nat} {low high : Int} :
    ∀ (f : Nat) (H : Hypergraph) (pivot e : Nat), e - pivot ≤ f → S < e → e ≤ E →
      E ≤ H.vertices.length → S ≤ pivot → pivot ≤ e →
      (∀ i v, S ≤ i → i < E → H.vertices[i]? = some v → v.part = low ∨ v.part = high) →
      (∀ i v, S ≤ i → i < pivot → i < e - 1 → H.vertices[i]? = some v → v.part = low) →
      (∀ i v, e - 1 ≤ i → i < E → H.vertices[i]? = some v → v.part = high) →
      ∃ H' e', reorderLoop low high f H pivot e = .ok (H', e') ∧
        H' = { H with vertices := H'.vertices } ∧
        Reordered S E low high H.vertices H'.vertices e' := by
  intro f
  induction f with
  | zero =>
    intro H pivot e hf hSe heE hEl hSp hpe hlh2 hlow hhigh
    unfold reorderLoop
    rw [if_neg (by omega)]
    exact ⟨H, e, rfl, rfl, List.Perm.refl _, fun i _ => rfl, hSe, heE,
      fun i v h1 h2 h3 => hlow i v h1 (by omega) h2 h3, hhigh⟩
  | succ f ih =>
    intro H pivot e hf hSe heE hEl hSp hpe hlh2 hlow hhigh
    unfold reorderLoop
    by_cases hlt : pivot < e
    · rw [if_pos hlt]
      have hpl : pivot < H.vertices.length := by omega
      have hget : H.vertices[pivot]? = some H.vertices[pivot] := by simp [hpl]
      rw [vertexAt_ok hget, ok_bind]
      by_cases hh : H.vertices[pivot].part = high
      · rw [if_pos hh]
        obtain ⟨e2, a1, a2, a3, a4, a5⟩ := reorderSkip_ok (H := H) (low := low) (pivot := pivot) e
          hlt (by omega)
        have hel : e2 - 1 < H.vertices.length := by omega
        have hget2 : H.vertices[e2 - 1]? = some H.vertices[e2 - 1] := by simp [hel]
        rw [a1, ok_bind, vswap_ok hpl hel, ok_bind]
        have hsw := getElem?_swap hpl hel
        obtain ⟨H', e', b1, b2, b3⟩ := ih (withVertices H
            ((H.vertices.set pivot H.vertices[e2 - 1]).set (e2 - 1) H.vertices[pivot]))
          (pivot + 1) e2 (by omega) (by omega) (by omega) (by simpa [withVertices] using hEl) (by omega) (by omega)
          (by
            intro i v h1 h2 hv
            simp only [withVertices, hsw] at hv
            by_cases c1 : i = e2 - 1
            · rw [if_pos c1] at hv; cases hv; exact Or.inr hh
            · rw [if_neg c1] at hv
              by_cases c2 : i = pivot
              · rw [if_pos c2] at hv; cases hv; exact hlh2 _ _ (by omega) (by omega) hget2
              · rw [if_neg c2] at hv; exact hlh2 i v h1 h2 hv)
          (by
            intro i v h1 h2 h3 hv
            simp only [withVertices, hsw] at hv
            rw [if_neg (by omega)] at hv
            by_cases c2 : i = pivot
            · rw [if_pos c2] at hv; cases hv
              rcases a5 with a5 | a5
              · omega
              · exact a5 _ hget2
            · rw [if_neg c2] at hv
              exact hlow i v h1 (by omega) (by omega) hv)
          (by
            intro i v h1 h2 hv
            simp only [withVertices, hsw] at hv
            by_cases c1 : i = e2 - 1
            · rw [if_pos c1] at hv; cases hv; exact hh
            · rw [if_neg c1] at hv
              rw [if_neg (by omega)] at hv
              rcases Nat.lt_or_ge i e with c3 | c3
              · exact (hlh2 i v (by omega) h2 hv).resolve_left (a4 i v (by omega) c3 hv)
              · exact hhigh i v (by omega) h2 hv)
        refine ⟨H', e', b1, b2, b3.perm.trans (swap_perm hpl hel), ?_, b3.ge, b3.le, b3.lows, b3.highs⟩
        intro i hi
        rw [b3.outside i hi]
        simp only [withVertices, hsw]
        rw [if_neg (by omega), if_neg (by omega)]
      · rw [if_neg hh]
        have hl : H.vertices[pivot].part = low :=
          (hlh2 pivot _ hSp (by omega) hget).resolve_right hh
        apply ih H (pivot + 1) e (by omega) hSe heE hEl (by omega) (by omega) hlh2 _ hhigh
        intro i v h1 h2 h3 hv
        by_cases c : i = pivot
        · subst c; rw [hget] at hv; cases hv; exact hl
        · exact hlow i v h1 (by omega) h3 hv
    · rw [if_neg hlt]
      exact ⟨H, e, rfl, rfl, List.Perm.refl _, fun i _ => rfl, hSe, heE,
        fun i v h1 h2 h3 => hlow i v h1 (by omega) h2 h3, hhigh⟩

theorem reorderLoop_ok {S E : Nat} {low high : Int} :
    ∀ (f : Nat) (H : Hypergraph) (pivot : Nat), E - pivot ≤ f →
      E ≤ H.vertices.length → S ≤ pivot → pivot ≤ E →
      (∀ i v, S ≤ i → i < E → H.vertices[i]? = some v → v.part = low ∨ v.part = high) →
      (∀ i v, S ≤ i → i < pivot → H.vertices[i]? = some v → v.part = low) →
      (∃ i v, pivot ≤ i ∧ i < E ∧ H.vertices[i]? = some v ∧ v.part = high) →
      ∃ H' e', reorderLoop low high f H pivot E = .ok (H', e') ∧
        H' = { H with vertices := H'.vertices } ∧
        Reordered S E low high H.vertices H'.vertices e' := by
  intro f
  induction f with
  | zero =>
    rintro H pivot hf hEl hSp hpe hlh2 hlow ⟨i, v, h1, h2, -⟩
    omega
  | succ f ih =>
    rintro H pivot hf hEl hSp hpe hlh2 hlow ⟨i0, v0, h1, h2, h3, h4⟩
    have hlt : pivot < E := by omega
    have hpl : pivot < H.vertices.length := by omega
    have hget : H.vertices[pivot]? = some H.vertices[pivot] := by simp [hpl]
    unfold reorderLoop
    rw [if_pos hlt, vertexAt_ok hget, ok_bind]
    by_cases hh : H.vertices[pivot].part = high
    · rw [if_pos hh]
      obtain ⟨e2, a1, a2, a3, a4, a5⟩ := reorderSkip_ok (H := H) (low := low) (pivot := pivot) E
        hlt (by omega)
      have hel : e2 - 1 < H.vertices.length := by omega
      have hget2 : H.vertices[e2 - 1]? = some H.vertices[e2 - 1] := by simp [hel]
      rw [a1, ok_bind, vswap_ok hpl hel, ok_bind]
      have hsw := getElem?_swap hpl hel
      obtain ⟨H', e', b1, b2, b3⟩ := reorderLoop_seen f (withVertices H
          ((H.vertices.set pivot H.vertices[e2 - 1]).set (e2 - 1) H.vertices[pivot]))
        (pivot + 1) e2 (S := S) (E := E) (by omega) (by omega) (by omega) (by simpa [withVertices] using hEl)
        (by omega) (by omega)
        (by
          intro i v h1 h2 hv
          simp only [withVertices, hsw] at hv
          by_cases c1 : i = e2 - 1
          · rw [if_pos c1] at hv; cases hv; exact Or.inr hh
          · rw [if_neg c1] at hv
            by_cases c2 : i = pivot
            · rw [if_pos c2] at hv; cases hv; exact hlh2 _ _ (by omega) (by omega) hget2
            · rw [if_neg c2] at hv; exact hlh2 i v h1 h2 hv)
        (by
          intro i v h1 h2 h3 hv
          simp only [withVertices, hsw] at hv
          rw [if_neg (by omega)] at hv
          by_cases c2 : i = pivot
          · rw [if_pos c2] at hv; cases hv
            rcases a5 with a5 | a5
            · omega
            · exact a5 _ hget2
          · rw [if_neg c2] at hv
            exact hlow i v h1 (by omega) hv)
        (by
          intro i v h1 h2 hv
          simp only [withVertices, hsw] at hv
          by_cases c1 : i = e2 - 1
          · rw [if_pos c1] at hv; cases hv; exact hh
          · rw [if_neg c1] at hv
            rw [if_neg (by omega)] at hv
            exact (hlh2 i v (by omega) h2 hv).resolve_left (a4 i v (by omega) h2 hv))
      refine ⟨H', e', b1, b2, b3.perm.trans (swap_perm hpl hel), ?_, b3.ge, b3.le, b3.lows, b3.highs⟩
      intro i hi
      rw [b3.outside i hi]
      simp only [withVertices, hsw]
      rw [if_neg (by omega), if_neg (by omega)]
    · rw [if_neg hh]
      have hl : H.vertices[pivot].part = low :=
        (hlh2 pivot _ hSp (by omega) hget).resolve_right hh
      apply ih H (pivot + 1) (by omega) hEl (by omega) (by omega) hlh2
      · intro i v h1 h2 hv
        by_cases c : i = pivot
        · subst c; rw [hget] at hv; cases hv; exact hl
        · exact hlow i v h1 (by omega) hv
      · refine ⟨i0, v0, ?_, h2, h3, h4⟩
        rcases Nat.eq_or_lt_of_le h1 with c | c
        · subst c; rw [hget] at h3; cases h3; exact absurd h4 hh
        · exact c

theorem reorderLoop_none {E : Nat} {low high : Int} :
    ∀ (f : Nat) (H : Hypergraph) (pivot : Nat), E - pivot ≤ f → E ≤ H.vertices.length →
      (∀ i v, pivot ≤ i → i < E → H.vertices[i]? = some v → v.part ≠ high) →
      reorderLoop low high f H pivot E = .ok (H, E) := by
  intro f
  induction f with
  | zero =>
    intro H pivot hf _ _
    unfold reorderLoop
    rw [if_neg (by omega)]
  | succ f ih =>
    intro H pivot hf hEl hno
    unfold reorderLoop
    by_cases hlt : pivot < E
    · have hget : H.vertices[pivot]? = some H.vertices[pivot] := by
        simp [show pivot < H.vertices.length by omega]
      rw [if_pos hlt, vertexAt_ok hget, ok_bind, if_neg (hno pivot _ (Nat.le_refl _) hlt hget)]
      exact ih H (pivot + 1) (by omega) hEl (fun i v h1 h2 hv => hno i v (by omega) h2 hv)
    · rw [if_neg hlt]

/-- Permuting the vertices and rebuilding the map keeps a hypergraph well-formed. -/
theorem permuted_wf {H : Hypergraph} (w : WF H) {vs : List Vertex} (hp : vs.Perm H.vertices) :
    WF ({ H with vertices := vs } : Hypergraph).updateMap := by
  have hnd : (vs.map (·.id)).Nodup := (hp.map _).nodup_iff.2 w.vids
  refine ⟨hnd, w.nids, fun u i => buildMap_spec hnd u i, w.nmap, ?_, w.npins, ?_, ?_⟩
  · intro v hv; exact w.vnets v (hp.mem_iff.1 hv)
  · intro v hv; exact w.inc_net v (hp.mem_iff.1 hv)
  · intro n hn u hu
    obtain ⟨v, hv, h⟩ := w.inc_vtx n hn u hu
    exact ⟨v, hp.mem_iff.2 hv, h⟩

end PMondriaan

import Verif.Props.LabelProp

/-
The course of label propagation (C76).
-/

namespace PMondriaan

open Spec

/-! ### C76 -/

/-- C76: `label_propagation` draws a label for every vertex in turn, and then makes at most
`max_iter` sweeps. Each sweep visits every vertex once; a vertex whose label has more than
`min_size` vertices takes a label to which it has the most links, any other keeps its label. The
sweeps end after one that changed nothing. The result is the labelling at the end. -/
theorem C76_label_propagation {shuf : Shuffle} (hsh : ∀ r l, (shuf r l).1.Perm l) {H : Hypergraph}
    (w : WF H) {l : Nat} (hl : 1 ≤ l) (maxIter : Nat) (minSize : Int) (rng : Rng) :
    ∃ L rng' P Q, labelPropagation shuf H l maxIter minSize rng = .ok (L, rng') ∧
      LabelStart H l rng P ∧ LabelSweeps H (LabelStep H l minSize) maxIter P Q ∧
      HasLabels H Q (L.map (fun (x : Nat) => (x : Int))) := by
  obtain ⟨s0, s, -, h2, -, h4, -, h6, h7⟩ := labelPropagation_ok hsh w hl maxIter minSize rng
  exact ⟨s.L, s.rng, _, _, h2, h6, h7,
    hasLabels_labelFun w (L := intL s.L) (by simpa [intL] using h4.len)⟩

/-- C76: `label_propagation_bisect` draws a label for every vertex in turn (the other one when the
drawn label has no room left), and then makes at most `max_iter` sweeps. Each sweep visits every
vertex once and selects a label to which it has the most links; the vertex takes it if it is new and
has room. The sweeps end after one that changed nothing. The result is the labelling at the end. -/
theorem C76_bisect {shuf : Shuffle} (hsh : ∀ r l, (shuf r l).1.Perm l) {H : Hypergraph} (w : WF H)
    (maxIter : Nat) (max0 max1 : Int) (rng : Rng) :
    ∃ s P Q, lpBisect shuf H (List.replicate H.nets.length ⟨0, 0⟩) maxIter max0 max1 rng = .ok s ∧
      BisectStart H max0 max1 rng P ∧ LabelSweeps H (BisectStep H max0 max1) maxIter P Q ∧
      HasLabels H Q s.L := by
  obtain ⟨s0, s, -, h2, -, h4, -, -, h6, h7⟩ := lpBisect_ok hsh w maxIter max0 max1 rng
  exact ⟨s, _, _, h2, h6, h7, hasLabels_labelFun w h4.len⟩

/-! ### What the end of the sweeps means -/

/-- A visit changes at most the label of the visited vertex. -/
def Local (step : (Nat → Int) → Vertex → (Nat → Int) → Prop) : Prop :=
  ∀ P v Q, step P v Q → ∀ u, u ≠ v.id → Q u = P u

theorem visits_quiet {step : (Nat → Int) → Vertex → (Nat → Int) → Prop} (hloc : Local step)
    {vs : List Vertex} {P Q : Nat → Int} (h : Visits step vs P Q) (hnd : (vs.map (·.id)).Nodup)
    (hq : ∀ v ∈ vs, Q v.id = P v.id) :
    (∀ u, Q u = P u) ∧ ∀ v ∈ vs, step P v P := by
  induction h with
  | nil => exact ⟨fun _ => rfl, by simp⟩
  | @snoc vs v P Q R h hs ih =>
    rw [List.map_append, List.nodup_append] at hnd
    have hne : ∀ x ∈ vs, x.id ≠ v.id := fun x hx =>
      hnd.2.2 _ (List.mem_map_of_mem hx) _ (by simp)
    obtain ⟨h1, h2⟩ := ih hnd.1 (by
      intro x hx
      rw [← hloc _ _ _ hs x.id (hne x hx)]
      exact hq x (by simp [hx]))
    have hQ : Q = P := funext h1
    subst hQ
    have hR : R = Q := by
      funext u
      by_cases hu : u = v.id
      · subst hu; exact hq v (by simp)
      · exact hloc _ _ _ hs u hu
    subst hR
    refine ⟨fun _ => rfl, ?_⟩
    intro x hx
    rcases List.mem_append.1 hx with hx | hx
    · exact h2 x hx
    · simp only [List.mem_singleton] at hx
      subst hx
      exact hs

/-- The sweeps end either after `k` sweeps, each of which changed something, or with a labelling
that no visit changes. -/
theorem labelSweeps_end {H : Hypergraph} (w : WF H)
    {step : (Nat → Int) → Vertex → (Nat → Int) → Prop} (hloc : Local step) {k : Nat}
    {P Q : Nat → Int} (h : LabelSweeps H step k P Q) :
    BusySweeps H step k P Q ∨ ∀ v ∈ H.vertices, step Q v Q := by
  induction h with
  | done => exact Or.inl BusySweeps.done
  | quiet hp hv =>
    right
    intro v hvm
    exact (visits_quiet hloc hv (((hp.map (·.id)).nodup_iff).2 w.vids) (fun _ _ => rfl)).2 v
      (hp.mem_iff.2 hvm)
  | more hp hv hne _ ih =>
    rcases ih with h | h
    · exact Or.inl (BusySweeps.more hp hv hne h)
    · exact Or.inr h

theorem labelStep_local (H : Hypergraph) (l : Nat) (m : Int) : Local (LabelStep H l m) := by
  intro P v Q h u hu
  cases h with
  | stay => rfl
  | take a => unfold relabel; rw [if_neg hu]

theorem bisectStep_local (H : Hypergraph) (a b : Int) : Local (BisectStep H a b) := by
  intro P v Q h u hu
  cases h with
  | stay => rfl
  | take a => unfold relabel; rw [if_neg hu]

theorem labelStep_fixed {H : Hypergraph} {l : Nat} {m : Int} {P Q : Nat → Int} {v : Vertex}
    (h : LabelStep H l m P v Q) (hf : Q v.id = P v.id) (hm : m < (labelSize H P (P v.id) : Int))
    (b : Nat) (hb : b < l) : links H P v b ≤ links H P v (P v.id) := by
  cases h with
  | stay hle => omega
  | take a _ ha hmost =>
    unfold relabel at hf
    rw [if_pos rfl] at hf
    rw [← hf]
    exact hmost b hb

theorem bisectStep_fixed {H : Hypergraph} {max0 max1 : Int} {P Q : Nat → Int} {v : Vertex}
    (h : BisectStep H max0 max1 P v Q) (hf : Q v.id = P v.id) (h01 : P v.id = 0 ∨ P v.id = 1) :
    links H P v (1 - P v.id) ≤ links H P v (P v.id) ∨
      limitOf max0 max1 (1 - P v.id) < weightIn H P (1 - P v.id) + v.weight := by
  cases h with
  | stay a ha hm hc =>
    by_cases he : P v.id = a
    · rw [he]; exact Or.inl hm
    · right
      have : 1 - P v.id = a := by omega
      rw [this]
      exact hc.resolve_left he
  | take a ha hm hne hc =>
    unfold relabel at hf
    rw [if_pos rfl] at hf
    exact absurd hf.symm hne

/-- C76: unless each of `max_iter` sweeps changed something, `label_propagation` ends with a
labelling in which every vertex has no other label to which it has more links, except for the
vertices of labels with at most `min_size` vertices. -/
theorem C76_settled {shuf : Shuffle} (hsh : ∀ r l, (shuf r l).1.Perm l) {H : Hypergraph}
    (w : WF H) {l : Nat} (hl : 1 ≤ l) (maxIter : Nat) (minSize : Int) (rng : Rng) :
    ∃ L rng' P Q, labelPropagation shuf H l maxIter minSize rng = .ok (L, rng') ∧
      LabelStart H l rng P ∧ HasLabels H Q (L.map (fun (x : Nat) => (x : Int))) ∧
      (BusySweeps H (LabelStep H l minSize) maxIter P Q ∨
        ∀ v ∈ H.vertices, minSize < (labelSize H Q (Q v.id) : Int) →
          ∀ b : Nat, b < l → links H Q v b ≤ links H Q v (Q v.id)) := by
  obtain ⟨L, r, P, Q, h1, h2, h3, h4⟩ := C76_label_propagation hsh w hl maxIter minSize rng
  refine ⟨L, r, P, Q, h1, h2, h4, ?_⟩
  rcases labelSweeps_end w (labelStep_local H l minSize) h3 with h | h
  · exact Or.inl h
  · right
    intro v hv hsz b hb
    exact labelStep_fixed (h v hv) rfl hsz b hb

/-- C76: unless each of `max_iter` sweeps changed something, `label_propagation_bisect` ends with a
labelling in which every vertex has at least as many links to its label as to the other one, except
for vertices for which the other label has no room. -/
theorem C76_bisect_settled {shuf : Shuffle} (hsh : ∀ r l, (shuf r l).1.Perm l) {H : Hypergraph}
    (w : WF H) (maxIter : Nat) (max0 max1 : Int) (rng : Rng) :
    ∃ s P Q, lpBisect shuf H (List.replicate H.nets.length ⟨0, 0⟩) maxIter max0 max1 rng = .ok s ∧
      BisectStart H max0 max1 rng P ∧ HasLabels H Q s.L ∧
      (BusySweeps H (BisectStep H max0 max1) maxIter P Q ∨
        ∀ v ∈ H.vertices, links H Q v (1 - Q v.id) ≤ links H Q v (Q v.id) ∨
          limitOf max0 max1 (1 - Q v.id) < weightIn H Q (1 - Q v.id) + v.weight) := by
  obtain ⟨s0, s, -, h2, -, h4, -, -, h6, h7⟩ := lpBisect_ok hsh w maxIter max0 max1 rng
  refine ⟨s, _, _, h2, h6, hasLabels_labelFun w h4.len, ?_⟩
  rcases labelSweeps_end w (bisectStep_local H max0 max1) h7 with h | h
  · exact Or.inl h
  · right
    intro v hv
    obtain ⟨i, hi⟩ := List.mem_iff_getElem?.1 hv
    have hil : i < s.L.length := by
      rw [h4.len]; rw [List.getElem?_eq_some_iff] at hi; exact hi.1
    have h01 : labelFun H s.L v.id = 0 ∨ labelFun H s.L v.id = 1 := by
      rw [labelFun_get w hi (x := s.L[i]) (by simp [hil])]
      exact h4.labels _ (List.getElem_mem hil)
    exact bisectStep_fixed (h v hv) rfl h01

/-- Two triangles joined by one net. -/
def twoTriangles : Hypergraph :=
  Hypergraph.create 6 3
    [{ id := 0, nets := [0] }, { id := 1, nets := [0] }, { id := 2, nets := [0, 2] },
     { id := 3, nets := [1, 2] }, { id := 4, nets := [1] }, { id := 5, nets := [1] }]
    [{ id := 0, vertices := [0, 1, 2], cost := 1, globalSize := 3 },
     { id := 1, vertices := [3, 4, 5], cost := 1, globalSize := 3 },
     { id := 2, vertices := [2, 3], cost := 1, globalSize := 2 }]

/-- The start 0, 1, 0, 1, 0, 1 ends with one label for each triangle. -/
example : WF twoTriangles ∧
    (lpBisect (fun r l => (l, r)) twoTriangles (List.replicate 3 ⟨0, 0⟩) 5 4 4
      (fun n => n)).toOption.map (·.L) = some [0, 0, 0, 1, 1, 1] ∧
    links twoTriangles (fun u => ((u % 2 : Nat) : Int)) ⟨2, [0, 2], 1, -1⟩ 0 = 1 ∧
    links twoTriangles (fun u => ((u % 2 : Nat) : Int)) ⟨2, [0, 2], 1, -1⟩ 1 = 2 := by
  refine ⟨WF_create (by decide) (by decide) (by decide) (by decide) (by decide) (by decide),
    by decide +kernel, by decide, by decide⟩

end PMondriaan

import Verif.Proofs.Free
import Verif.Props.Dist
import Mathlib.Data.List.Sort

/-
Properties of the handling of free vertices: C28, C29, C30.
-/

namespace PMondriaan

open Spec

instance (H : Hypergraph) (v : Nat) : Decidable (IsVertex H v) := by
  unfold IsVertex; infer_instance

instance (H : Hypergraph) : Decidable (Bipartitioned H) := by
  unfold Bipartitioned; infer_instance

/-! ### C28 -/

/-- `C` with the list `f` of free vertices and total free weight `t`. -/
def withFree (C : Contraction) (f : List (Nat × Int)) (t : Int) : Contraction :=
  ⟨C.samples, C.matched, f, t, t⟩

/-- C28, first half: `merge_free_vertices` removes exactly the vertices without nets, remembers
their ids and weights, and records their total weight. -/
theorem C28_merge {H : Hypergraph} (w : WF H) {C : Contraction} (hC : C.free = []) :
    ∃ H', C.mergeFree H = .ok (withFree C (freeOf H) ((freeOf H).map (·.2)).sum, H') ∧ WF H' ∧
      H'.vertices.Perm (H.vertices.filter (fun v => v.nets ≠ [])) ∧ SameNets H H' ∧
      H'.globalSize = H'.vertices.length := by
  obtain ⟨H', h1, h2, h3, h4, -⟩ := removeFreeVertices_ok w hC
  refine ⟨{ H' with globalSize := H'.vertices.length }, ?_,
    ⟨h2.1, h2.2, h2.3, h2.4, h2.5, h2.6, h2.7, h2.8⟩, h3, ⟨h4.1, h4.2, h4.3, h4.4, h4.5⟩, rfl⟩
  unfold Contraction.mergeFree
  rw [h1]
  rfl

/-- C28: the free vertices removed by `merge_free_vertices` from `H` are put back by
`assign_free_vertices` into any bisected `H1` that has none of their ids (in the code: the same
hypergraph after the bisection of the rest), each once, with its weight and in part 0 or 1, and
nothing else changes. What is missing: the total weight of the free vertices must not be zero. -/
theorem C28_partial {srt : List (Nat × Int) → List (Nat × Int)} (hsrt : ∀ l, (srt l).Perm l)
    {H : Hypergraph} (w : WF H) {C : Contraction} (hC : C.free = [])
    (hne : ((freeOf H).map (·.2)).sum ≠ 0)
    {H1 : Hypergraph} (w1 : WF H1) (hb : Bipartitioned H1)
    (hfresh : ∀ f ∈ freeOf H, ¬ IsVertex H1 f.1) (m0 m1 : Int) (rng : Rng) :
    ∃ C' H' a l, C.mergeFree H = .ok (C', H') ∧
      Contraction.assignFree srt C' H1 m0 m1 rng = .ok a ∧ WF a.H ∧
      a.H.vertices = H1.vertices ++ l ∧ SameNets H1 a.H ∧
      (l.map (fun v => (v.id, v.weight))).Perm (freeOf H) ∧
      ∀ v ∈ l, v.nets = [] ∧ (v.part = 0 ∨ v.part = 1) := by
  obtain ⟨H', h1, -⟩ := C28_merge w hC
  obtain ⟨a, l, a1, a2, a3, a4, a5, a6, a7, -⟩ := assignFree_ok hsrt
    (C := withFree C (freeOf H) ((freeOf H).map (·.2)).sum) w1 hb m0 m1 rng (freeOf_ids w) hfresh
  rw [if_neg (show (withFree C (freeOf H) ((freeOf H).map (·.2)).sum).globalFree ≠ 0 from hne)] at a4
  refine ⟨_, H', a, l, h1, a1, a2, a3, a5, ?_, fun v hv => ⟨a4.2 v hv, greedy_parts a7 v hv⟩⟩
  rw [a4.1]
  exact hsrt _

/-- C28 for positive weights. -/
theorem C28_positive {srt : List (Nat × Int) → List (Nat × Int)} (hsrt : ∀ l, (srt l).Perm l)
    {H : Hypergraph} (w : WF H) {C : Contraction} (hC : C.free = [])
    (hpos : ∀ v ∈ H.vertices, 0 < v.weight) {H1 : Hypergraph} (w1 : WF H1) (hb : Bipartitioned H1)
    (hfresh : ∀ f ∈ freeOf H, ¬ IsVertex H1 f.1) (m0 m1 : Int) (rng : Rng) :
    ∃ C' H' a l, C.mergeFree H = .ok (C', H') ∧
      Contraction.assignFree srt C' H1 m0 m1 rng = .ok a ∧ WF a.H ∧
      a.H.vertices = H1.vertices ++ l ∧ SameNets H1 a.H ∧
      (l.map (fun v => (v.id, v.weight))).Perm (freeOf H) ∧
      ∀ v ∈ l, v.nets = [] ∧ (v.part = 0 ∨ v.part = 1) := by
  by_cases hne : ((freeOf H).map (·.2)).sum ≠ 0
  · exact C28_partial hsrt w hC hne w1 hb hfresh m0 m1 rng
  · have hnil : freeOf H = [] := by
      by_contra hn
      have hp : ∀ x ∈ (freeOf H).map (·.2), 0 < x := by
        intro x hx
        obtain ⟨f, hf, rfl⟩ := List.mem_map.1 hx
        obtain ⟨v, hv, rfl⟩ := List.mem_map.1 hf
        exact hpos v (List.mem_filter.1 hv).1
      have : ∀ l : List Int, (∀ x ∈ l, 0 < x) → l ≠ [] → 0 < l.sum := by
        intro l
        induction l with
        | nil => intro _ h; exact absurd rfl h
        | cons a l ih =>
          intro h _
          have ha := h a (by simp)
          rw [List.sum_cons]
          by_cases hl : l = []
          · subst hl; simpa using ha
          · have := ih (fun x hx => h x (by simp [hx])) hl
            omega
      have := this _ hp (by simpa using hn)
      omega
    obtain ⟨H', h1, -⟩ := C28_merge w hC
    obtain ⟨a, l, a1, a2, a3, a4, a5, a6, a7, -⟩ := assignFree_ok hsrt
      (C := withFree C (freeOf H) ((freeOf H).map (·.2)).sum) w1 hb m0 m1 rng (freeOf_ids w) hfresh
    refine ⟨_, H', a, l, h1, a1, a2, a3, a5, ?_, fun v hv => ⟨a4.2 v hv, greedy_parts a7 v hv⟩⟩
    rw [a4.1]
    simp only [withFree, hnil]
    split
    · exact List.Perm.refl _
    · have := hsrt (freeOf H)
      rw [hnil] at this
      exact this

/-- A hypergraph with an empty column (id 2) whose weight is its degree, 0. -/
def zeroFree : Hypergraph :=
  Hypergraph.create 3 2
    [{ id := 0, nets := [0, 1], weight := 2, part := 0 }, { id := 1, nets := [0], weight := 1, part := 1 },
     { id := 2, nets := [], weight := 0, part := -1 }]
    [{ id := 0, vertices := [0, 1], cost := 1 }, { id := 1, vertices := [0], cost := 1 }]

/-- C28 fails for zero weights: the vertex is removed and never put back, whatever the sorting,
the bounds and the random stream. -/
theorem C28_false : WF zeroFree ∧ ∃ C' H', Contraction.mergeFree {} zeroFree = .ok (C', H') ∧
    WF H' ∧ Bipartitioned H' ∧ IsVertex zeroFree 2 ∧
    ∀ srt m0 m1 rng, ∃ a, Contraction.assignFree srt C' H' m0 m1 rng = .ok a ∧ ¬ IsVertex a.H 2 := by
  have w : WF zeroFree :=
    WF_create (by decide) (by decide) (by decide) (by decide) (by decide) (by decide)
  obtain ⟨H', h1, h2, h3, -⟩ := C28_merge w (C := {}) rfl
  have hb : Bipartitioned H' := by
    intro v hv
    have hall : ∀ v ∈ zeroFree.vertices.filter (fun v => v.nets ≠ []), v.part = 0 ∨ v.part = 1 := by
      decide
    exact hall v (h3.subset hv)
  refine ⟨w, _, H', h1, h2, hb, by decide, ?_⟩
  intro srt m0 m1 rng
  unfold Contraction.assignFree
  rw [weightAllParts2 hb]
  refine ⟨{ H := H', w0 := partWeight H' 0, w1 := partWeight H' 1, rng := rng }, rfl, ?_⟩
  intro h
  obtain ⟨v, hv, hid⟩ := List.mem_map.1 h
  have hall : ∀ v ∈ zeroFree.vertices.filter (fun v => v.nets ≠ []), v.id ≠ 2 := by decide
  exact hall v (h3.subset hv) hid

/-- Two free vertices, of weights 3 and 5, besides a bisected pair. -/
def twoFree : Hypergraph :=
  Hypergraph.create 4 1
    [{ id := 7, nets := [], weight := 3, part := -1 }, { id := 0, nets := [0], weight := 2, part := 0 },
     { id := 9, nets := [], weight := 5, part := -1 }, { id := 1, nets := [0], weight := 1, part := 1 }]
    [{ id := 0, vertices := [0, 1], cost := 1 }]

/-- The order of decreasing weight for a pair. -/
def sortDesc (l : List (Nat × Int)) : List (Nat × Int) := l.insertionSort (fun a b => b.2 ≤ a.2)

theorem sortDesc_perm (l : List (Nat × Int)) : (sortDesc l).Perm l := List.perm_insertionSort _ l

example : WF twoFree := WF_create (by decide) (by decide) (by decide) (by decide) (by decide) (by decide)

example : freeOf twoFree = [(7, 3), (9, 5)] := by decide

/-- The weights and final (id, weight, part) of the vertices after both functions. -/
def freeOutcome (H : Hypergraph) (m0 m1 : Int) : Option (Int × Int × List (Nat × Int × Int)) :=
  match Contraction.mergeFree {} H with
  | .error _ => none
  | .ok (C, H') =>
    match Contraction.assignFree sortDesc C H' m0 m1 (fun _ => 0) with
    | .error _ => none
    | .ok a => some (a.w0, a.w1, a.H.vertices.map (fun v => (v.id, v.weight, v.part)))

/-- Room for everything; the heavier free vertex goes to the emptier part 1. -/
example : freeOutcome twoFree 6 6 =
    some (5, 6, [(1, 1, 1), (0, 2, 0), (9, 5, 1), (7, 3, 0)]) := by decide +kernel

/-- Vertex 9 fits in neither part and goes to part 0. -/
example : freeOutcome twoFree 4 4 =
    some (7, 4, [(1, 1, 1), (0, 2, 0), (9, 5, 0), (7, 3, 1)]) := by decide +kernel

/-! ### C29 -/

/-- C29: `assign_free_vertices` returns the true part weights afterwards and places the free
vertices greedily: a part goes over its bound only with a vertex that fits in neither part (that
vertex goes to part 0), and a vertex that fits in both goes to the relatively emptier part. -/
theorem C29_greedy {srt : List (Nat × Int) → List (Nat × Int)} (hsrt : ∀ l, (srt l).Perm l)
    {C : Contraction} {H : Hypergraph} (w : WF H) (hb : Bipartitioned H) (m0 m1 : Int) (rng : Rng)
    (hnd : (C.free.map (·.1)).Nodup) (hfresh : ∀ f ∈ C.free, ¬ IsVertex H f.1) :
    ∃ a l, Contraction.assignFree srt C H m0 m1 rng = .ok a ∧ a.H.vertices = H.vertices ++ l ∧
      GreedyPlaced (partWeight H 0) (partWeight H 1) m0 m1 l ∧
      a.w0 = partWeight a.H 0 ∧ a.w1 = partWeight a.H 1 := by
  obtain ⟨a, l, a1, -, a3, -, -, -, a7, a8, a9⟩ := assignFree_ok hsrt w hb m0 m1 rng hnd hfresh
  exact ⟨a, l, a1, a3, a7, a8, a9⟩

theorem greedy_within {W0 W1 m0 m1 : Int} {l : List Vertex} (h : GreedyPlaced W0 W1 m0 m1 l)
    (h0 : W0 ≤ m0) (h1 : W1 ≤ m1) (hu : ∀ v ∈ l, v.weight = 1)
    (ht : W0 + W1 + l.length ≤ m0 + m1) :
    W0 + placedWeight l 0 ≤ m0 ∧ W1 + placedWeight l 1 ≤ m1 := by
  suffices H : ∀ (post pre : List Vertex), l = pre ++ post →
      W0 + placedWeight pre 0 ≤ m0 → W1 + placedWeight pre 1 ≤ m1 →
      placedWeight pre 0 + placedWeight pre 1 = pre.length →
      W0 + placedWeight l 0 ≤ m0 ∧ W1 + placedWeight l 1 ≤ m1 by
    exact H l [] rfl (by simpa [placedWeight] using h0) (by simpa [placedWeight] using h1)
      (by simp [placedWeight])
  intro post
  induction post with
  | nil => intro pre hl a b _; rw [List.append_nil] at hl; subst hl; exact ⟨a, b⟩
  | cons v post ih =>
    intro pre hl a b hs
    obtain ⟨hp, ho, hq, -⟩ := h pre v post hl
    have hv : v.weight = 1 := hu v (by rw [hl]; simp)
    have hlen : l.length = pre.length + (post.length + 1) := by rw [hl]; simp
    have e0 : placedWeight (pre ++ [v]) 0 = placedWeight pre 0 + (if v.part = 0 then 1 else 0) := by
      unfold placedWeight
      rw [List.filter_append, List.map_append, List.sum_append]
      congr 1
      by_cases h : v.part = 0 <;> simp [h, hv]
    have e1 : placedWeight (pre ++ [v]) 1 = placedWeight pre 1 + (if v.part = 1 then 1 else 0) := by
      unfold placedWeight
      rw [List.filter_append, List.map_append, List.sum_append]
      congr 1
      by_cases h : v.part = 1 <;> simp [h, hv]
    refine ih (pre ++ [v]) (by rw [hl]; simp) ?_ ?_ ?_
    · rw [e0]
      rcases hp with h0' | h1'
      · rw [if_pos h0']
        have := ho h0'
        rw [hv] at this
        by_contra hc
        have := this (by omega)
        omega
      · rw [if_neg (by omega)]; omega
    · rw [e1]
      rcases hp with h0' | h1'
      · rw [if_neg (by omega)]; omega
      · rw [if_pos h1']
        have := hq h1'
        rw [hv] at this
        omega
    · rw [e0, e1, List.length_append]
      rcases hp with h0' | h1'
      · rw [if_pos h0', if_neg (by omega)]; push_cast; simp; omega
      · rw [if_neg (by omega), if_pos h1']; push_cast; simp; omega

/-- C29, a consequence: free vertices of weight 1 keep a balanced bisection balanced whenever the
two bounds together have room for them. -/
theorem C29_unit_weights {srt : List (Nat × Int) → List (Nat × Int)} (hsrt : ∀ l, (srt l).Perm l)
    {C : Contraction} {H : Hypergraph} (w : WF H) (hb : Bipartitioned H) (m0 m1 : Int) (rng : Rng)
    (hnd : (C.free.map (·.1)).Nodup) (hfresh : ∀ f ∈ C.free, ¬ IsVertex H f.1)
    (hu : ∀ f ∈ C.free, f.2 = 1) (h0 : partWeight H 0 ≤ m0) (h1 : partWeight H 1 ≤ m1)
    (ht : partWeight H 0 + partWeight H 1 + C.free.length ≤ m0 + m1) :
    ∃ a, Contraction.assignFree srt C H m0 m1 rng = .ok a ∧
      partWeight a.H 0 ≤ m0 ∧ partWeight a.H 1 ≤ m1 := by
  obtain ⟨a, l, a1, -, a3, a4, -, -, a7, -, -⟩ := assignFree_ok hsrt w hb m0 m1 rng hnd hfresh
  refine ⟨a, a1, ?_⟩
  rw [partWeight_add_list a3, partWeight_add_list a3]
  have hmem : ∀ v ∈ l, (v.id, v.weight) ∈ C.free := by
    intro v hv
    have h : (v.id, v.weight) ∈ l.map (fun v => (v.id, v.weight)) :=
      List.mem_map.2 ⟨v, hv, rfl⟩
    rw [a4.1] at h
    split at h
    · cases h
    · exact (hsrt _).subset h
  have hlen : l.length ≤ C.free.length := by
    have : l.length = (l.map (fun v => (v.id, v.weight))).length := by simp
    rw [this, a4.1]
    split
    · simp
    · exact le_of_eq (hsrt _).length_eq
  refine greedy_within a7 h0 h1 (fun v hv => hu _ (hmem v hv)) ?_
  omega

/-! ### C30 -/

/-- C30: the parallel `merge_free_vertices` and what it leaves in the contractions. -/
theorem C30_merge {S : List CProc} (hw : ∀ s ∈ S, WF s.2) (hC : ∀ s ∈ S, s.1.free = []) :
    ∃ S', mergeFreePar S = .ok S' ∧ List.Forall₂ (fun s s' =>
      s'.1.free = freeOf s.2 ∧ s'.1.localFree = ((freeOf s.2).map (·.2)).sum ∧
      s'.1.globalFree = totalFree S' ∧ s'.1.samples = s.1.samples ∧ s'.1.matched = s.1.matched ∧
      WF s'.2 ∧ s'.2.vertices.Perm (s.2.vertices.filter (fun v => v.nets ≠ [])) ∧
      SameNets s.2 s'.2 ∧ s'.2.globalSize = (S'.map (fun t => t.2.vertices.length)).sum) S S' :=
  mergeFreePar_ok hw hC

/-- C30: the parallel `assign_free_vertices`. Every processor returns the true global part
weights afterwards, and gets back exactly its own free vertices. What is missing: when the total
free weight is zero nothing is restored, and the two bounds must not sum to zero. -/
theorem C30_partial {srt : List (Nat × Int) → List (Nat × Int)} (hsrt : ∀ l, (srt l).Perm l)
    {S : List CProc} (hS : FreeReady S) (m0 m1 : Int) (hm : totalFree S ≠ 0 → m0 + m1 ≠ 0) (rngs : Nat → Rng) :
    ∃ R, assignFreePar srt S m0 m1 rngs = .ok R ∧ R.length = S.length ∧
      (∀ (i : Nat) (s : CProc), S[i]? = some s → ∃ a l f, R[i]? = some a ∧ Restored s a l f ∧
        if totalFree S = 0 then f = [] else f.Perm s.1.free) ∧
      ∀ a ∈ R, a.w0 = (R.map (fun b => partWeight b.H 0)).sum ∧
        a.w1 = (R.map (fun b => partWeight b.H 1)).sum :=
  assignFreePar_ok hsrt hS m0 m1 hm rngs

/-- C30: bounds that sum to zero (two bounds of 0, say) make the code divide by zero. -/
theorem C30_zero_bounds {srt : List (Nat × Int) → List (Nat × Int)}
    {S : List CProc} (hS : FreeReady S) (hz : totalFree S ≠ 0) (m0 m1 : Int) (hm : m0 + m1 = 0)
    (rngs : Nat → Rng) : assignFreePar srt S m0 m1 rngs = .error .ub := by
  obtain ⟨s0, S', hS0⟩ := List.exists_cons_of_ne_nil hS.nonempty
  unfold assignFreePar
  obtain ⟨A, B, hw⟩ := globalWeightParts2 S hS.bip
  rw [hw]
  simp only [ok_bind]
  rw [vget_ok (a := [A, B]) (by rw [hS0]; rfl)]
  have hv0 : vget [A, B] 0 = .ok A := rfl
  have hv1 : vget [A, B] 1 = .ok B := rfl
  simp only [ok_bind, hv0, hv1]
  have hg0 : s0.1.globalFree = totalFree S := hS.globalFree s0 (by rw [hS0]; simp)
  rw [if_neg (by
    rw [List.all_eq_true]
    intro h
    have := h s0 (by rw [hS0]; simp)
    rw [beq_iff_eq, hg0] at this
    exact hz this)]
  rw [if_neg (by
    rw [List.any_eq_true]
    rintro ⟨s, hs, h⟩
    rw [beq_iff_eq, hS.globalFree s hs] at h
    exact hz h)]
  rw [vget_ok (a := s0) (by rw [hS0]; rfl)]
  simp only [ok_bind]
  rw [if_pos hm]

/-- Three processors: the free vertices of processor 0 all go to part 0, those of processor 2 to
part 1, those of processor 1 are split. -/
def freeProcs : List CProc :=
  [({ free := [(10, 4)], localFree := 4, globalFree := 12 },
    Hypergraph.create 2 1 [{ id := 0, nets := [0], weight := 2, part := 0 }]
      [{ id := 0, vertices := [0], cost := 1 }]),
   ({ free := [(11, 1), (12, 3)], localFree := 4, globalFree := 12 },
    Hypergraph.create 2 1 [{ id := 1, nets := [0], weight := 2, part := 1 }]
      [{ id := 0, vertices := [1], cost := 1 }]),
   ({ free := [(13, 4)], localFree := 4, globalFree := 12 }, Hypergraph.create 2 1 [] [])]

theorem freeProcs_ready : FreeReady freeProcs := by
  refine ⟨by decide, ?_, by decide, by decide, by decide, by decide, by decide⟩
  intro s hs
  simp only [freeProcs, List.mem_cons, List.not_mem_nil, or_false] at hs
  rcases hs with rfl | rfl | rfl <;>
    exact WF_create (by decide) (by decide) (by decide) (by decide) (by decide) (by decide)

/-- Weights and parts on each processor. -/
def freeParOutcome (S : List CProc) (m0 m1 : Int) :
    Option (List (Int × Int × List (Nat × Int))) :=
  match assignFreePar sortDesc S m0 m1 (fun _ _ => 1) with
  | .error _ => none
  | .ok R => some (R.map (fun a => (a.w0, a.w1, a.H.vertices.map (fun v => (v.id, v.part)))))

example : freeParOutcome freeProcs 8 8 = some
    [(9, 7, [(0, 0), (10, 0)]), (9, 7, [(1, 1), (12, 0), (11, 1)]), (9, 7, [(13, 1)])] := by
  decide +kernel

end PMondriaan

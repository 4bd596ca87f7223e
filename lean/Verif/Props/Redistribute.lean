import Verif.Proofs.RedistSizes
import Verif.Proofs.RedistLoad
import Verif.Proofs.KeepsInts
import Verif.Props.Dist

/-
Properties of the redistribution of the hypergraph: C46 and C54.
-/

namespace PMondriaan

open Spec

/-- Three processors: the low label has weight 6, the high label weight 12. -/
def redistEx (M0 M1 : Int) : List RedistArgs :=
  [ ⟨Hypergraph.create 9 2
      [ ⟨0, [0], 2, 0⟩, ⟨1, [0, 1], 3, 3⟩, ⟨2, [], 4, 3⟩ ]
      [ ⟨0, [0, 1], 2, 2⟩, ⟨1, [1], 5, 3⟩ ], M0, 2, 7⟩,
    ⟨Hypergraph.create 9 2
      [ ⟨3, [1], 1, 0⟩, ⟨4, [], 3, 3⟩ ]
      [ ⟨1, [3], 5, 3⟩ ], M1, 1, 3⟩,
    ⟨Hypergraph.create 9 2
      [ ⟨5, [1], 3, 0⟩, ⟨6, [], 2, 3⟩, ⟨7, [], 1, 7⟩ ]
      [ ⟨1, [5], 5, 3⟩ ], M1, 3, 2⟩ ]

theorem redistEx_input {M0 M1 : Int} (h0 : 0 ≤ M0) (h1 : 0 ≤ M1) : RedistInput 2 0 3 (redistEx M0 M1) := by
  refine ⟨⟨?_, ?_, ?_, ?_⟩, ?_, by decide, ?_, ?_, ?_⟩
  · intro H hH
    simp only [redistEx, List.map_cons, List.map_nil, List.mem_cons, List.not_mem_nil, or_false] at hH
    rcases hH with rfl | rfl | rfl <;>
      exact WF_create (by decide) (by decide) (by decide) (by decide) (by decide) (by decide)
  · show (((redistEx 0 0).map (·.H)).flatMap (·.vertices) |>.map (·.id)).Nodup
    decide
  · show ∀ H ∈ (redistEx 0 0).map (·.H), _
    decide
  · show ∀ H ∈ (redistEx 0 0).map (·.H), ∀ H' ∈ (redistEx 0 0).map (·.H), _
    decide
  all_goals
    intro a ha
    simp only [redistEx, List.mem_cons, List.not_mem_nil, or_false] at ha
  · rcases ha with rfl | rfl | rfl <;> (unfold WeightsNonneg; dsimp only [Hypergraph.create]; decide)
  · rcases ha with rfl | rfl | rfl <;> rfl
  · rcases ha with rfl | rfl | rfl <;> rfl
  · rcases ha with rfl | rfl | rfl <;> assumption

/-- The vertices of each processor with their parts, and the end of the range. -/
def redistView (r : Res (List (Hypergraph × Int))) : Option (List (List (Nat × Int) × Int)) :=
  match r with
  | .ok l => some (l.map (fun x => (x.1.vertices.map (fun v => (v.id, v.part)), x.2)))
  | .error _ => none

/-! ### C46 -/

theorem getElem?_rangeMap {α : Type} {p : Nat} {f : Nat → α} {t : Nat} {x : α}
    (h : ((List.range p).map f)[t]? = some x) : t < p ∧ x = f t := by
  rw [List.getElem?_map] at h
  by_cases ht : t < p
  · simp [ht] at h; exact ⟨ht, h.symm⟩
  · simp [ht] at h

theorem argAt_get {args : List RedistArgs} {t : Nat} (ht : t < args.length) :
    args[t]? = some (argAt args t) := by
  unfold argAt
  rw [List.getD_eq_getElem?_getD, List.getElem?_eq_getElem ht]
  rfl

theorem sur0_high {N plow : Nat} {low high : Int} {args : List RedistArgs} (hI : RedistInput N low high args)
    {t : Nat} (ht : t < args.length) (h : plow ≤ t) : sur0 plow args t = -partWeight (argAt args t).H low := by
  unfold sur0 surplusOf
  rw [if_neg (by omega), hI.w0 _ (argAt_mem ht)]
  simp

theorem sur1_low {N plow : Nat} {low high : Int} {args : List RedistArgs} (hI : RedistInput N low high args)
    {t : Nat} (ht : t < args.length) (h : t < plow) : sur1 plow args t = -partWeight (argAt args t).H high := by
  unfold sur1 surplusOf
  rw [if_pos h, hI.w1 _ (argAt_mem ht)]
  simp

theorem Spec.RedistInput.run {N : Nat} {low high : Int} {args : List RedistArgs} (hI : RedistInput N low high args)
    {ord : List Nat → List Nat} (hord : ∀ l, (ord l).Perm l) {dv : Delivery Vertex} (hdv : Fair dv)
    {dc : Delivery (Nat × Int)} (hdc : Fair dc) (plow : Nat) (W : Int) :
    ∃ res o vs0 new0 new1 R, redistribute ord dv dc plow low high args =
        .ok ((List.range args.length).map res) ∧ RedistOut plow low high W args res o vs0 new0 new1 R :=
  redistribute_ok hord hdv hdc hI.labels hI.dist hI.weights
    (fun a ha => ⟨(hI.w0 a ha).le, (hI.w1 a ha).le⟩) hI.max W

/-- C46: the redistribution always succeeds (it does not scan past the end of the list, and every processor it
looks up exists); no vertex is lost, duplicated or changed, the nets keep their pins and costs; only vertices with
the low label are sent, to the first `plow` processors, and vertices with the high label, to the others. The value
returned is the end of the vertices that are still to be partitioned: when there are no processors for the low side,
exactly the vertices without the low label come before it. -/
theorem C46_redistribute {N : Nat} {low high : Int} {args : List RedistArgs} (hI : RedistInput N low high args)
    {ord : List Nat → List Nat} (hord : ∀ l, (ord l).Perm l) {dv : Delivery Vertex} (hdv : Fair dv)
    {dc : Delivery (Nat × Int)} (hdc : Fair dc) (plow : Nat) :
    ∃ res, redistribute ord dv dc plow low high args = .ok res ∧
      Redistributed N (args.map (·.H)) (res.map (·.1)) ∧
      (∀ (t : Nat) x a, res[t]? = some x → args[t]? = some a → ∀ v ∈ x.1.vertices,
        v ∈ a.H.vertices ∨ (v.part = low ∧ t < plow) ∨ (v.part = high ∧ plow ≤ t)) ∧
      (∀ x ∈ res, if plow = 0 then x.2 ≤ x.1.vertices.length ∧
          ∀ (i : Nat) v, x.1.vertices[i]? = some v → ((i : Int) < x.2 ↔ v.part ≠ low)
        else x.2 = x.1.vertices.length) := by
  obtain ⟨res, o, vs0, new0, new1, R, h1, h2⟩ := hI.run hord hdv hdc plow 0
  refine ⟨_, h1, h2.redistributed hI.dist (redistribute_sizes h1), ?_, ?_⟩
  · intro t x a hx ha v hv
    obtain ⟨ht, rfl⟩ := getElem?_rangeMap hx
    rw [argAt_get ht] at ha
    injection ha with ha
    subst ha
    have hn := hI.weights _ (argAt_mem ht)
    rcases h2.mem ht hv with h | ⟨h, h3⟩ | ⟨h, h3⟩
    · exact Or.inl h
    · refine Or.inr (Or.inl ⟨h, ?_⟩)
      by_contra hc
      rw [sur0_high hI ht (by omega)] at h3
      have : 0 ≤ partWeight (argAt args t).H low := partSum_nonneg hn low
      omega
    · refine Or.inr (Or.inr ⟨h, ?_⟩)
      by_contra hc
      rw [sur1_low hI ht (by omega)] at h3
      have : 0 ≤ partWeight (argAt args t).H high := partSum_nonneg hn high
      omega
  · intro x hx
    obtain ⟨t, ht, rfl⟩ := List.mem_map.1 hx
    have ht := List.mem_range.1 ht
    have hS := h2.sent t ht
    rw [h2.fin t ht, h2.verts t ht]
    by_cases hp : plow = 0
    · rw [if_pos hp]
      refine ⟨by simp, ?_⟩
      intro i v hv
      have hfront : ∀ u ∈ (o t).H.vertices ++ R t, u.part ≠ low := by
        intro u hu
        rcases List.mem_append.1 hu with hu | hu
        · exact hS.front hp u hu
        · rw [(h2.got t ht).mem_iff] at hu
          obtain ⟨m, hm, rfl⟩ := List.mem_map.1 hu
          obtain ⟨s, hs, hm⟩ := List.mem_flatMap.1 (List.mem_filter.1 hm).1
          have hs := List.mem_range.1 hs
          rcases List.mem_append.1 hm with hm | hm
          · rw [((h2.sent s hs).mem1 m hm).1]; exact hI.labels.symm
          · rw [(h2.sent s hs).keeps0 (Or.inr hp)] at hm
            cases hm
      have hback : ∀ u ∈ vs0 t, u.part = low := by
        intro u hu
        rw [hS.back, if_pos hp] at hu
        simpa using (List.mem_filter.1 hu).2
      by_cases hi : i < ((o t).H.vertices ++ R t).length
      · rw [List.getElem?_append_left hi] at hv
        have := hfront v (List.mem_of_getElem? hv)
        exact ⟨fun _ => this, fun _ => by exact_mod_cast hi⟩
      · rw [List.getElem?_append_right (by omega)] at hv
        have := hback v (List.mem_of_getElem? hv)
        constructor
        · intro h; omega
        · intro h; exact absurd this h
    · rw [if_neg hp]
      have : vs0 t = [] := by rw [hS.back, if_neg hp]
      rw [this]; simp

/-- With one processor for the low side and two for the high side. -/
example : redistView (redistribute List.reverse (revDelivery _) (revDelivery _) 1 0 3 (redistEx 6 6)) =
    some [([(0, 0), (5, 0), (3, 0)], 3), ([(4, 3), (1, 3)], 2), ([(6, 3), (7, 7), (2, 3)], 3)] := by decide +kernel

/-- With no processors for the low side. -/
example : redistView (redistribute List.reverse (revDelivery _) (revDelivery _) 0 0 3 (redistEx 4 4)) =
    some [([(2, 3), (0, 0)], 1), ([(4, 3), (1, 3), (3, 0)], 2), ([(6, 3), (7, 7), (5, 0)], 2)] := by decide +kernel

theorem weight_le_label {vs : List Vertex} (hn : ∀ v ∈ vs, 0 ≤ v.weight) {v : Vertex} (hv : v ∈ vs) :
    v.weight ≤ partSum vs v.part := by
  induction vs with
  | nil => cases hv
  | cons u vs ih =>
    have hu := hn u (by simp)
    have hnt : ∀ v ∈ vs, 0 ≤ v.weight := fun v hv => hn v (by simp [hv])
    rw [partSum_cons]
    rcases List.mem_cons.1 hv with rfl | hv
    · rw [if_pos rfl]
      have := partSum_nonneg hnt v.part
      omega
    · have := ih hnt hv
      split <;> omega

theorem RedistOut.nonneg {N plow : Nat} {low high W : Int} {args : List RedistArgs}
    {res : Nat → Hypergraph × Int} {o : Nat → Outgoing} {vs0 : Nat → List Vertex}
    {new0 new1 : Nat → List (Nat × Vertex)} {R : Nat → List Vertex} (hI : RedistInput N low high args)
    (h : RedistOut plow low high W args res o vs0 new0 new1 R) {t : Nat} (ht : t < args.length) :
    ∀ v ∈ (res t).1.vertices, 0 ≤ v.weight := by
  intro v hv
  have h1 := h.vertices
  have h2 : v ∈ (((List.range args.length).map res).map (·.1)).flatMap (·.vertices) := by
    rw [List.map_map]
    exact List.mem_flatMap.2 ⟨_, List.mem_map.2 ⟨t, List.mem_range.2 ht, rfl⟩, hv⟩
  rw [h1.mem_iff] at h2
  obtain ⟨H, hH, hv⟩ := List.mem_flatMap.1 h2
  obtain ⟨a, ha, rfl⟩ := List.mem_map.1 hH
  exact hI.weights a ha v hv

/-- C46: when the maximum local weights `M0` and `M1` leave room for the two sides, every vertex of positive weight
with the low label ends on one of the first `plow` processors and every one with the high label on the others. -/
theorem C46_separated {N : Nat} {low high : Int} {args : List RedistArgs} (hI : RedistInput N low high args)
    {ord : List Nat → List Nat} (hord : ∀ l, (ord l).Perm l) {dv : Delivery Vertex} (hdv : Fair dv)
    {dc : Delivery (Nat × Int)} (hdc : Fair dc) {plow : Nat} (hp : plow ≤ args.length) {M0 M1 : Int}
    (hm : ∀ (t : Nat) a, args[t]? = some a → a.maxLocal = if t < plow then M0 else M1)
    (h0 : 0 < plow → labelTotal args low ≤ plow * M0)
    (h1 : labelTotal args high ≤ ((args.length - plow : Nat) : Int) * M1) :
    ∃ res, redistribute ord dv dc plow low high args = .ok res ∧
      ∀ (t : Nat) x, res[t]? = some x → ∀ v ∈ x.1.vertices, 0 < v.weight →
        (v.part = low → 0 < plow → t < plow) ∧ (v.part = high → plow ≤ t) := by
  obtain ⟨res, o, vs0, new0, new1, R, hr, h2⟩ := hI.run hord hdv hdc plow 0
  refine ⟨_, hr, ?_⟩
  intro t x hx v hv hw
  obtain ⟨ht, rfl⟩ := getElem?_rangeMap hx
  have hnn := h2.nonneg hI ht
  have hle := weight_le_label hnn hv
  constructor
  · rintro rfl hpos
    by_contra hc
    have hs := sur0_high hI ht (Nat.le_of_not_lt hc)
    have htot := sum_surplus0 plow M0 M1 args _ hI.w0 hm hp
    have h00 := h0 hpos
    unfold labelTotal at h00
    have hn : 0 ≤ partWeight (argAt args t).H v.part := partSum_nonneg (hI.weights _ (argAt_mem ht)) _
    have := (h2.load0 hI.labels hpos (by omega) ht).1 (by omega)
    have e : partWeight (res t).1 v.part = partSum (res t).1.vertices v.part := rfl
    omega
  · rintro rfl
    by_contra hc
    have hs := sur1_low hI ht (Nat.lt_of_not_le hc)
    have htot := sum_surplus1 plow M0 M1 args _ hI.w1 hm
    unfold labelTotal at h1
    have hn : 0 ≤ partWeight (argAt args t).H v.part := partSum_nonneg (hI.weights _ (argAt_mem ht)) _
    have := (h2.load1 hI.labels (by omega) ht).1 (by omega)
    have e : partWeight (res t).1 v.part = partSum (res t).1.vertices v.part := rfl
    omega

/-- C46: with the maximum local weights computed by `recursive_bisect`, the sides are separated, provided that
the high side has a processor. -/
theorem C46_separated_code {N : Nat} {low high : Int} {args : List RedistArgs} (hI : RedistInput N low high args)
    {ord : List Nat → List Nat} (hord : ∀ l, (ord l).Perm l) {dv : Delivery Vertex} (hdv : Fair dv)
    {dc : Delivery (Nat × Int)} (hdc : Fair dc) {plow : Nat} (hp : plow < args.length)
    (hlen : args.length ≤ 2 ^ 53) {rnd : ℚ → ℚ} (hk : KeepsInts rnd) (hr : RoundsWithin (1 / 2 ^ 53) rnd)
    {eta : ℚ} (heta : 0 ≤ eta) (hW0 : labelTotal args low < 2 ^ 53) (hW1 : labelTotal args high < 2 ^ 53)
    (hm : ∀ (t : Nat) a, args[t]? = some a → a.maxLocal = if t < plow
      then newMaxLocal rnd (labelTotal args low) plow eta
      else newMaxLocal rnd (labelTotal args high) (args.length - plow) eta) :
    ∃ res, redistribute ord dv dc plow low high args = .ok res ∧
      ∀ (t : Nat) x, res[t]? = some x → ∀ v ∈ x.1.vertices, 0 < v.weight →
        (v.part = low → 0 < plow → t < plow) ∧ (v.part = high → plow ≤ t) := by
  have hnn : ∀ q, 0 ≤ labelTotal args q := by
    intro q
    unfold labelTotal
    apply List.sum_nonneg
    intro x hx
    obtain ⟨a, ha, rfl⟩ := List.mem_map.1 hx
    exact partSum_nonneg (hI.weights a ha) q
  refine C46_separated hI hord hdv hdc hp.le hm ?_ ?_
  · intro hpos
    exact (newMaxLocal_ge hk hr (hnn low) hW0 hpos (by omega) heta).1
  · exact (newMaxLocal_ge hk hr (hnn high) hW1 (by omega) (by omega) heta).1

/-- The hypotheses on rounding hold for rounding to the nearest double. -/
example : KeepsInts nearest53 ∧ RoundsWithin (1 / 2 ^ 53) nearest53 := ⟨nearest53_keepsInts, nearest53_rounds⟩

theorem redistEx_max : ∀ (t : Nat) a, (redistEx 6 6)[t]? = some a → a.maxLocal = if t < 1
      then newMaxLocal id (labelTotal (redistEx 6 6) 0) 1 0
      else newMaxLocal id (labelTotal (redistEx 6 6) 3) ((redistEx 6 6).length - 1) 0 := by
  intro t a h
  have e0 : newMaxLocal id (labelTotal (redistEx 6 6) 0) 1 0 = 6 := by decide +kernel
  have e1 : newMaxLocal id (labelTotal (redistEx 6 6) 3) ((redistEx 6 6).length - 1) 0 = 6 := by decide +kernel
  rw [e0, e1, ite_self]
  have := List.mem_of_getElem? h
  simp only [redistEx, List.mem_cons, List.not_mem_nil, or_false] at this
  rcases this with rfl | rfl | rfl <;> rfl

/-- The instance used above satisfies the hypotheses of `C46_separated_code`. -/
example : ∃ res, redistribute List.reverse (revDelivery _) (revDelivery _) 1 0 3 (redistEx 6 6) = .ok res ∧
      ∀ (t : Nat) x, res[t]? = some x → ∀ v ∈ x.1.vertices, 0 < v.weight →
        (v.part = 0 → 0 < 1 → t < 1) ∧ (v.part = 3 → 1 ≤ t) :=
  C46_separated_code (redistEx_input (by decide) (by decide)) List.reverse_perm (revDelivery_fair _)
    (revDelivery_fair _) (by decide) (by decide) (rnd := id)
    (KeepsInts.of_monotone monotone_id (fun _ _ _ => rfl)) ⟨by norm_num, by norm_num, by intro x; simp⟩
    (le_refl (0 : ℚ)) (by decide +kernel) (by decide +kernel) redistEx_max

/-- Two processors, with weight 3 on the low and 1 on the high side. -/
def stuckEx (w : Int) : List RedistArgs :=
  [ ⟨Hypergraph.create 4 1 [ ⟨0, [0], 2, 0⟩, ⟨1, [0], w, 3⟩ ] [ ⟨0, [0, 1], 2, 2⟩ ], 2, 2, w⟩,
    ⟨Hypergraph.create 4 1 [ ⟨2, [], 1, 0⟩ ] [], 2, 1, 0⟩ ]

theorem stuckEx_input {w : Int} (hw : w = 0 ∨ w = 1) : RedistInput 1 0 3 (stuckEx w) := by
  rcases hw with rfl | rfl
  all_goals
    refine ⟨⟨?_, by decide, by decide, by decide⟩, by unfold WeightsNonneg; decide, by decide, by decide, by decide,
      by decide⟩
    intro H hH
    simp only [stuckEx, List.map_cons, List.map_nil, List.mem_cons, List.not_mem_nil, or_false] at hH
    rcases hH with rfl | rfl <;>
      exact WF_create (by decide) (by decide) (by decide) (by decide) (by decide) (by decide)

/-- C46: the sides are not always separated. With two processors, and 3/4 of the weight on the low side, the number
of processors for the low side is rounded to two; the high side has no processor, and its vertices stay where they
are, although they have positive weight and the maximum local weights are those computed by `recursive_bisect`. -/
theorem C46_not_separated : RedistInput 1 0 3 (stuckEx 1) ∧ pLow nearest53 3 1 2 = 2 ∧
    newMaxLocal nearest53 3 2 0 = 2 ∧
    redistView (redistribute id (revDelivery _) (revDelivery _) 2 0 3 (stuckEx 1)) =
      some [([(0, 0), (1, 3)], 2), ([(2, 0)], 1)] := by
  refine ⟨stuckEx_input (by decide), ?_, ?_, by decide +kernel⟩
  · decide +kernel
  · decide +kernel

/-- C46: a vertex of weight zero can stay on the wrong side even when both sides have a processor. -/
theorem C46_zero_weight : RedistInput 1 0 3 (stuckEx 0) ∧
    labelTotal (stuckEx 0) 0 ≤ 1 * 3 ∧ labelTotal (stuckEx 0) 3 ≤ 1 * 2 ∧
    redistView (redistribute id (revDelivery _) (revDelivery _) 1 0 3
      ((stuckEx 0).map (fun a => { a with maxLocal := 3 }))) =
      some [([(0, 0), (1, 3), (2, 0)], 3), ([], 0)] := by
  refine ⟨stuckEx_input (by decide), by decide +kernel, by decide +kernel, by decide +kernel⟩

/-! ### C54 -/

/-- C54: when there is room, a processor ends with at most its maximum local weight on its own side, plus at most one
vertex too many from every other processor: if no vertex is heavier than `W`, at most `(p - 1) * (W - 1)` more. A
processor that had too much itself ends with at most the maximum. -/
theorem C54_load {N : Nat} {low high : Int} {args : List RedistArgs} (hI : RedistInput N low high args)
    {ord : List Nat → List Nat} (hord : ∀ l, (ord l).Perm l) {dv : Delivery Vertex} (hdv : Fair dv)
    {dc : Delivery (Nat × Int)} (hdc : Fair dc) {plow : Nat} (hp : plow ≤ args.length) {M0 M1 : Int}
    (hm : ∀ (t : Nat) a, args[t]? = some a → a.maxLocal = if t < plow then M0 else M1)
    (h0 : 0 < plow → labelTotal args low ≤ plow * M0)
    (h1 : labelTotal args high ≤ ((args.length - plow : Nat) : Int) * M1)
    {W : Int} (hW1 : 1 ≤ W) (hW : ∀ a ∈ args, ∀ v ∈ a.H.vertices, v.weight ≤ W) :
    ∃ res, redistribute ord dv dc plow low high args = .ok res ∧
      ∀ (t : Nat) x a, res[t]? = some x → args[t]? = some a →
        (t < plow →
          partWeight x.1 low ≤ M0 + ((args.length - 1 : Nat) : Int) * (W - 1) ∧
          (M0 ≤ partWeight a.H low → partWeight x.1 low ≤ M0)) ∧
        (plow ≤ t →
          partWeight x.1 high ≤ M1 + ((args.length - 1 : Nat) : Int) * (W - 1) ∧
          (M1 ≤ partWeight a.H high → partWeight x.1 high ≤ M1)) := by
  obtain ⟨res, o, vs0, new0, new1, R, hr, h2⟩ := hI.run hord hdv hdc plow W
  refine ⟨_, hr, ?_⟩
  intro t x a hx ha
  obtain ⟨ht, rfl⟩ := getElem?_rangeMap hx
  rw [argAt_get ht] at ha
  injection ha with ha
  subst ha
  have hmt := hm t _ (argAt_get ht)
  have hw0 := hI.w0 _ (argAt_mem ht)
  have hw1 := hI.w1 _ (argAt_mem ht)
  have hsend : ∀ {sur : Nat → Int}, 0 ≤ sur t → (senders args.length sur : Int) * (W - 1) ≤
      ((args.length - 1 : Nat) : Int) * (W - 1) := by
    intro sur hs
    apply Int.mul_le_mul_of_nonneg_right _ (by omega)
    have h3 : senders args.length sur < args.length := by
      unfold senders
      have h4 := List.length_filter_lt_length_iff_exists (l := List.range args.length)
        (p := fun s => decide (sur s < 0))
      rw [List.length_range] at h4
      apply h4.2
      exact ⟨t, List.mem_range.2 ht, by simpa using hs⟩
    omega
  have hmul : 0 ≤ ((args.length - 1 : Nat) : Int) * (W - 1) := Int.mul_nonneg (by omega) (by omega)
  constructor
  · intro hlt
    have htot := sum_surplus0 plow M0 M1 args _ hI.w0 hm hp
    have h00 := h0 (by omega)
    unfold labelTotal at h00
    obtain ⟨l1, l2⟩ := h2.load0 hI.labels (by omega) (by omega) ht
    have hs : sur0 plow args t = M0 - partWeight (argAt args t).H low := by
      unfold sur0 surplusOf
      rw [if_pos hlt, hmt, if_pos hlt, hw0]
    have l2 := l2 hW hW1
    refine ⟨?_, fun h => by have := l1 (by omega); omega⟩
    by_cases hs0 : 0 ≤ sur0 plow args t
    · have := l2 hs0
      have := hsend hs0
      omega
    · have := l1 (by omega)
      omega
  · intro hlt
    have htot := sum_surplus1 plow M0 M1 args _ hI.w1 hm
    unfold labelTotal at h1
    obtain ⟨l1, l2⟩ := h2.load1 hI.labels (by omega) ht
    have hs : sur1 plow args t = M1 - partWeight (argAt args t).H high := by
      unfold sur1 surplusOf
      rw [if_neg (by omega), hmt, if_neg (by omega), hw1]
    have l2 := l2 hW hW1
    refine ⟨?_, fun h => by have := l1 (by omega); omega⟩
    by_cases hs0 : 0 ≤ sur1 plow args t
    · have := l2 hs0
      have := hsend hs0
      omega
    · have := l1 (by omega)
      omega

/-- The example: the maxima are 6 and 6, the loads 6, and 6 and 6. -/
example : ((redistribute List.reverse (revDelivery _) (revDelivery _) 1 0 3 (redistEx 6 6)).toOption.map
    (fun l => l.map (fun x => (partWeight x.1 0, partWeight x.1 3)))) = some [(6, 0), (0, 6), (0, 6)] := by
  decide +kernel

end PMondriaan

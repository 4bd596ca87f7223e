import Verif.Proofs.Reduce
import Verif.Proofs.Restrict
import Verif.Props.Free
import Verif.Props.Dist

/-
Properties of duplicate nets, of copies and of restricted hypergraphs: C31 to C34.
-/

namespace PMondriaan

open Spec

/-! ### C31 -/

theorem cutNet_as_sum (P : Nat → Int) (nets : List Net) : cutNet P nets =
    (nets.map (fun n => n.cost * (if ∃ u ∈ n.vertices, ∃ w ∈ n.vertices, P u ≠ P w then 1 else 0))).sum := by
  unfold cutNet
  congr 1
  apply List.map_congr_left
  intro n _
  by_cases h : IsCut P n
  · rw [if_pos h, if_pos (show ∃ u ∈ n.vertices, ∃ w ∈ n.vertices, P u ≠ P w from h)]; ring
  · rw [if_neg h, if_neg (show ¬ ∃ u ∈ n.vertices, ∃ w ∈ n.vertices, P u ≠ P w from h)]; ring

theorem lambda_as_sum (P : Nat → Int) (nets : List Net) : lambdaMinusOne P nets =
    (nets.map (fun n => n.cost * (((n.vertices.map P).dedup.length - 1 : Nat) : Int))).sum := by
  unfold lambdaMinusOne connectivity
  congr 1
  apply List.map_congr_left
  intro n _
  ring

/-- A sum over the nets that looks at pins only up to order is the same after simplification. -/
theorem simplify_sum {H H' : Hypergraph} (w : WF H) (hc : CostsNonneg H)
    (ht : (H.nets.map (·.cost)).sum < 2147483648)
    (hn : H'.nets.Perm (((H.nets.map sortNet).filter (fun n => keptId H n = n.id)).map
        (fun n => withCost n (edgeCosts (H.nets.map sortNet) n.vertices))))
    (f : List Nat → Int) (hf : ∀ l l' : List Nat, l.Perm l' → f l = f l') :
    (H'.nets.map (fun n => n.cost * f n.vertices)).sum =
      (H.nets.map (fun n => n.cost * f n.vertices)).sum := by
  set L := H.nets.map sortNet with hL
  have hnn : ∀ n ∈ L, 0 ≤ n.cost := by
    intro n hn'
    obtain ⟨m, hm, rfl⟩ := List.mem_map.1 hn'
    exact hc m hm
  have hsum : (L.map (·.cost)).sum = (H.nets.map (·.cost)).sum := by
    rw [hL, List.map_map]; rfl
  have hLnd : (L.map (·.id)).Nodup := (sortVertices_wf w).nids
  rw [(hn.map _).sum_eq, List.map_map]
  have h1 : (H.nets.map (fun n => n.cost * f n.vertices)).sum =
      (L.map (fun n => n.cost * f n.vertices)).sum := by
    rw [hL, List.map_map]
    congr 1
    apply List.map_congr_left
    intro n _
    simp only [Function.comp_apply]
    rw [hf _ _ (sortNet_perm n)]
    rfl
  rw [h1, group_sum hLnd lastIds_spec f]
  congr 1
  apply List.map_congr_left
  intro n _
  simp only [Function.comp_apply]
  have : (withCost n (edgeCosts L n.vertices)).cost = groupCost L n.vertices :=
    edgeCosts_eq hnn (fun k => lt_of_le_of_lt (groupCost_le hnn k) (hsum ▸ ht)) _
  rw [this]
  rfl

theorem partOf_forall2 {R : Vertex → Vertex → Prop} {vs vs' : List Vertex}
    (h : List.Forall₂ R vs vs') (hR : ∀ v v', R v v' → v'.id = v.id ∧ v'.part = v.part) (u : Nat) :
    (match vs'.find? (fun v => v.id == u) with | some v => v.part | none => -1) =
    (match vs.find? (fun v => v.id == u) with | some v => v.part | none => (-1 : Int)) := by
  induction h with
  | nil => rfl
  | cons hx _ ih =>
    obtain ⟨h1, h2⟩ := hR _ _ hx
    rw [List.find?_cons, List.find?_cons, h1]
    cases h : (_ == u)
    · exact ih
    · exact h2

/-- C31: simplifying duplicate nets changes no cutsize: not the cut-net value, not the λ−1
value, for no labelling. Vertices keep their order, ids, weights and parts, and no two nets with
the same pins remain. What is missing: costs must be non-negative and sum to less than 2³¹,
because the code accumulates them in an `int` (all costs are 1 in a hypergraph that was read). -/
theorem C31_partial {H : Hypergraph} (w : WF H) (hc : CostsNonneg H)
    (ht : (H.nets.map (·.cost)).sum < 2147483648) :
    ∃ H', simplifyDuplicateNets H = .ok H' ∧ WF H' ∧
      (∀ P : Nat → Int, cutNet P H'.nets = cutNet P H.nets ∧
        lambdaMinusOne P H'.nets = lambdaMinusOne P H.nets) ∧
      (∀ m, cutsize H' m = cutsize H m) ∧
      List.Forall₂ (fun v v' => v'.id = v.id ∧ v'.weight = v.weight ∧ v'.part = v.part)
        H.vertices H'.vertices ∧
      (∀ n ∈ H'.nets, ∀ n' ∈ H'.nets, n.vertices.Perm n'.vertices → n = n') := by
  obtain ⟨H', ds, h1, h2, h3, h4, -⟩ := simplify_ok w
  have hcut : ∀ P : Nat → Int, cutNet P H'.nets = cutNet P H.nets ∧
        lambdaMinusOne P H'.nets = lambdaMinusOne P H.nets := by
    intro P
    rw [cutNet_as_sum, cutNet_as_sum, lambda_as_sum, lambda_as_sum]
    constructor
    · refine simplify_sum w hc ht h3
        (fun l => if ∃ u ∈ l, ∃ w ∈ l, P u ≠ P w then 1 else 0) ?_
      intro l l' hp
      simp only [hp.mem_iff]
    · refine simplify_sum w hc ht h3 (fun l => (((l.map P).dedup.length - 1 : Nat) : Int)) ?_
      intro l l' hp
      rw [((hp.map P).dedup).length_eq]
  have hpart : partOf H' = partOf H := by
    funext u
    exact partOf_forall2 h4 (fun v v' h => ⟨h.1, h.2.2.1⟩) u
  refine ⟨H', h1, h2, hcut, ?_, h4.imp (fun v v' h => ⟨h.1, h.2.1, h.2.2.1⟩), ?_⟩
  · intro m
    rw [cutsize_ok h2, cutsize_ok w]
    congr 1
    unfold cutValue
    cases m with
    | cutNet => simp only [hpart]; exact (hcut _).1
    | lambdaMinusOne => simp only [hpart]; exact (hcut _).2
  · intro n hn n' hn' hp
    have key : ∀ m ∈ H'.nets, m.vertices.Pairwise (· ≤ ·) ∧
        m.id = lastIds (H.nets.map sortNet) m.vertices := by
      intro m hm
      obtain ⟨m0, hm0, rfl⟩ := List.mem_map.1 (h3.mem_iff.1 hm)
      rw [List.mem_filter, decide_eq_true_eq] at hm0
      refine ⟨?_, hm0.2.symm⟩
      obtain ⟨m1, -, rfl⟩ := List.mem_map.1 hm0.1
      exact List.pairwise_insertionSort _ _
    obtain ⟨s1, i1⟩ := key n hn
    obtain ⟨s2, i2⟩ := key n' hn'
    have hv : n.vertices = n'.vertices := List.Perm.eq_of_pairwise (le := (· ≤ ·))
      (by intro a b _ _ h1 h2; exact Nat.le_antisymm h1 h2) s1 s2 hp
    exact h2.net_inj hn hn' (by rw [i1, i2, hv])

/-- Three nets on the same pins (in different orders) and one other net. -/
def dupH : Hypergraph :=
  Hypergraph.create 3 4
    [ { id := 0, nets := [0, 1, 2], weight := 1, part := 0 },
      { id := 1, nets := [0, 1, 2, 3], weight := 1, part := 1 },
      { id := 2, nets := [3], weight := 1, part := 0 } ]
    [ { id := 0, vertices := [0, 1], cost := 1, globalSize := 2 },
      { id := 3, vertices := [2, 1], cost := 4, globalSize := 2 },
      { id := 1, vertices := [1, 0], cost := 2, globalSize := 2 },
      { id := 2, vertices := [0, 1], cost := 3, globalSize := 2 } ]

theorem dupH_wf : WF dupH :=
  WF_create (by decide) (by decide) (by decide) (by decide) (by decide) (by decide)

/-- The three nets become one of cost 6. -/
example : (simplifyDuplicateNets dupH).toOption.map (fun H => (H.nets, H.dups.map (·.2))) =
    some ([ { id := 2, vertices := [0, 1], cost := 6, globalSize := 2 },
            { id := 3, vertices := [1, 2], cost := 4, globalSize := 2 } ], [2, 2]) := by decide +kernel

/-- Two vertices and one net of cost 2³¹. -/
def bigCost : Hypergraph :=
  Hypergraph.create 2 1
    [ { id := 0, nets := [0], weight := 1, part := 0 },
      { id := 1, nets := [0], weight := 1, part := 1 } ]
    [ { id := 0, vertices := [0, 1], cost := 2147483648, globalSize := 2 } ]

/-- C31 fails for costs outside the range of `int`: a single net of cost 2³¹ gets cost −2³¹. -/
theorem C31_false : WF bigCost ∧ cutsize bigCost .cutNet = .ok 2147483648 ∧
    ∃ H', simplifyDuplicateNets bigCost = .ok H' ∧ cutsize H' .cutNet = .ok (-2147483648) := by
  refine ⟨WF_create (by decide) (by decide) (by decide) (by decide) (by decide) (by decide),
    by decide +kernel, ?_⟩
  refine ⟨_, rfl, ?_⟩
  decide +kernel

/-! ### C32 -/

theorem forall2_map_eq {α β γ : Type} {R : α → β → Prop} {l : List α} {l' : List β}
    (h : List.Forall₂ R l l') {f : α → γ} {g : β → γ} (hf : ∀ a b, R a b → g b = f a) :
    l'.map g = l.map f := by
  induction h with
  | nil => rfl
  | cons hx _ ih => rw [List.map_cons, List.map_cons, hf _ _ hx, ih]

theorem forall2_mem_left {α β : Type} {R : α → β → Prop} {l : List α} {l' : List β}
    (h : List.Forall₂ R l l') {a : α} (ha : a ∈ l) : ∃ b ∈ l', R a b := by
  induction h with
  | nil => simp at ha
  | cons hx _ ih =>
    rcases List.mem_cons.1 ha with rfl | ha
    · exact ⟨_, List.mem_cons_self, hx⟩
    · obtain ⟨b, hb, hr⟩ := ih ha
      exact ⟨b, List.mem_cons_of_mem _ hb, hr⟩

theorem vnets_mem_iff {H : Hypergraph} (w : WF H) {v : Vertex} (hv : v ∈ H.vertices) (e : Nat) :
    e ∈ v.nets ↔ ∃ n ∈ H.nets, n.id = e ∧ v.id ∈ n.vertices := by
  constructor
  · exact w.inc_net v hv e
  · rintro ⟨n, hn, rfl, hu⟩
    obtain ⟨v', hv', h1, h2⟩ := w.inc_vtx n hn _ hu
    rw [w.vertex_inj hv' hv h1] at h2
    exact h2

/-- Two well-formed hypergraphs whose nets have the same ids and the same pins have the same
vertex side. -/
theorem vside_of_nets {H R : Hypergraph} (w : WF H) (wR : WF R)
    (hids : (R.nets.map (·.id)).Perm (H.nets.map (·.id)))
    (hn : ∀ n ∈ H.nets, ∃ m ∈ R.nets, m.id = n.id ∧ m.vertices.Perm n.vertices)
    {v r : Vertex} (hv : v ∈ H.vertices) (hr : r ∈ R.vertices) (hid : r.id = v.id) :
    r.nets.Perm v.nets := by
  rw [List.perm_ext_iff_of_nodup (wR.vnets r hr) (w.vnets v hv)]
  intro e
  rw [vnets_mem_iff wR hr, vnets_mem_iff w hv]
  constructor
  · rintro ⟨m, hm, rfl, hu⟩
    obtain ⟨n, hn1, hn2⟩ := List.mem_map.1 (hids.mem_iff.1 (List.mem_map.2 ⟨m, hm, rfl⟩))
    have hn2 : n.id = m.id := hn2
    obtain ⟨m', hm', h1, h2⟩ := hn n hn1
    rw [wR.net_inj hm' hm (h1.trans hn2)] at h2
    exact ⟨n, hn1, hn2, by rw [← hid]; exact h2.mem_iff.1 hu⟩
  · rintro ⟨n, hn1, rfl, hu⟩
    obtain ⟨m', hm', h1, h2⟩ := hn n hn1
    exact ⟨m', hm', h1, by rw [hid]; exact h2.mem_iff.2 hu⟩

/-- C32: resetting the duplicate nets after a simplification restores every net with its id,
cost and pins and every vertex with its nets, also when parts and pin orders were changed in
between (as refinement does). What is missing: the list of duplicates must have been empty, costs
must fit the `int` accumulator, and the re-added nets lose their global size (`C32_false`). -/
theorem C32_partial {H H1 H2 : Hypergraph} (w : WF H) (hd : H.dups = []) (hc : CostsNonneg H)
    (ht : (H.nets.map (·.cost)).sum < 2147483648)
    (h1 : simplifyDuplicateNets H = .ok H1) (w2 : WF H2) (hs : SameUpToParts H1 H2) :
    ∃ R, H2.resetDuplicateNets = .ok R ∧ WF R ∧
      (R.nets.map (·.id)).Perm (H.nets.map (·.id)) ∧
      (∀ n ∈ H.nets, ∃ m ∈ R.nets, m.id = n.id ∧ m.cost = n.cost ∧ m.vertices.Perm n.vertices) ∧
      R.vertices.map (fun v => (v.id, v.weight)) = H.vertices.map (fun v => (v.id, v.weight)) ∧
      R.vertices.map (fun v => v.part) = H2.vertices.map (fun v => v.part) ∧
      (∀ v ∈ H.vertices, ∀ r ∈ R.vertices, r.id = v.id → r.nets.Perm v.nets) := by
  obtain ⟨H1', ds, g1, w1, hn, hv, -, -, -, hds, -, hdsv⟩ := simplify_ok w
  obtain rfl : H1' = H1 := by rw [g1] at h1; exact Except.ok.inj h1
  rw [hd, List.nil_append] at hds
  set L := H.nets.map sortNet with hL
  have hwS : WF H.sortVertices := sortVertices_wf w
  have hLnd : (L.map (·.id)).Nodup := hwS.nids
  have hinj : ∀ a ∈ L, ∀ b ∈ L, a.id = b.id → a = b := fun a ha b hb h =>
    hwS.net_inj (n := a) (n' := b) ha hb h
  have hnn : ∀ n ∈ L, 0 ≤ n.cost := by
    intro n hn'
    obtain ⟨m, hm, rfl⟩ := List.mem_map.1 hn'
    exact hc m hm
  have hsum : (L.map (·.cost)).sum = (H.nets.map (·.cost)).sum := by
    rw [hL, List.map_map]; rfl
  have hec : ∀ k, edgeCosts L k = groupCost L k := fun k =>
    edgeCosts_eq hnn (fun k => lt_of_le_of_lt (groupCost_le hnn k) (hsum ▸ ht)) k
  -- the kept net of a group
  have hkept : ∀ n ∈ L, ∃ m ∈ L, m.id = keptId H n ∧ m.vertices = n.vertices ∧
      keptId H m = m.id := by
    intro n hn'
    obtain ⟨m, hm, h1, h2⟩ := lastIds_spec n hn'
    refine ⟨m, hm, h1, h2, ?_⟩
    unfold keptId
    rw [h2, ← h1]
  have hk1 : ∀ e, IsNet H1' e ↔ ∃ m ∈ L, keptId H m = m.id ∧ m.id = e := by
    intro e
    unfold IsNet
    rw [(hn.map (·.id)).mem_iff, List.map_map]
    simp only [List.mem_map, List.mem_filter, decide_eq_true_eq, Function.comp_apply]
    constructor
    · rintro ⟨m, ⟨hm, hk⟩, rfl⟩; exact ⟨m, hm, hk, rfl⟩
    · rintro ⟨m, hm, hk, rfl⟩; exact ⟨m, ⟨hm, hk⟩, rfl⟩
  have hids2 : H2.nets.map (·.id) = H1'.nets.map (·.id) := by
    exact forall2_map_eq hs.nets (fun a b h => h.1)
  have hvid2 : H2.vertices.map (·.id) = H1'.vertices.map (·.id) := by
    have := congrArg (List.map (fun x : Nat × List Nat × Int => x.1)) hs.vertices
    rwa [List.map_map, List.map_map] at this
  have hvid1 : H1'.vertices.map (·.id) = H.vertices.map (·.id) := by
    exact forall2_map_eq hv (fun a b h => h.1)
  have hvw : H2.vertices.map (fun v => (v.id, v.weight)) =
      H.vertices.map (fun v => (v.id, v.weight)) := by
    have h2 := congrArg (List.map (fun x : Nat × List Nat × Int => (x.1, x.2.2))) hs.vertices
    rw [List.map_map, List.map_map] at h2
    refine Eq.trans h2 ?_
    exact forall2_map_eq hv (fun a b h => by simp [h.1, h.2.1])
  have hmem : ∀ d ∈ ds, d.1 ∈ L ∧ keptId H d.1 ≠ d.1.id ∧ d.2 = keptId H d.1 := by
    intro d hd'
    rw [hdsv] at hd'
    obtain ⟨n, hn', rfl⟩ := List.mem_map.1 hd'
    rw [List.mem_filter, decide_eq_true_eq] at hn'
    exact ⟨hn'.1, hn'.2, rfl⟩
  obtain ⟨R, r1, wR, r2, r3, -⟩ := resetLoop_ok w2 ds
    (by rw [hdsv, List.map_map]; exact (List.filter_sublist.map _).nodup hLnd)
    (by
      intro d hd' hin
      obtain ⟨a1, a2, -⟩ := hmem d hd'
      unfold IsNet at hin
      rw [hids2] at hin
      obtain ⟨m, b1, b2, b3⟩ := (hk1 _).1 hin
      rw [hinj m b1 _ a1 b3] at b2
      exact a2 b2)
    (by
      intro d hd'
      obtain ⟨a1, -, -⟩ := hmem d hd'
      refine ⟨hwS.npins d.1 a1, ?_⟩
      intro u hu
      obtain ⟨v, hv', hvu, -⟩ := hwS.inc_vtx d.1 a1 u hu
      unfold IsVertex
      rw [hvid2, hvid1]
      exact List.mem_map.2 ⟨v, hv', hvu⟩)
    (by
      intro d hd'
      obtain ⟨a1, -, a3⟩ := hmem d hd'
      obtain ⟨m, b1, b2, -, b4⟩ := hkept d.1 a1
      unfold IsNet
      rw [hids2]
      exact (hk1 _).2 ⟨m, b1, b4, by rw [b2, a3]⟩)
  have hreset : H2.resetDuplicateNets = .ok R := by
    unfold Hypergraph.resetDuplicateNets
    rw [hs.dups, hds]
    exact r1
  have hRids : R.nets.map (·.id) = H2.nets.map (·.id) ++ ds.map (fun d => d.1.id) := by
    rw [r2, resetNets, List.map_map, List.map_append, List.map_map]
    rfl
  have hperm : (R.nets.map (·.id)).Perm (H.nets.map (·.id)) := by
    have e1 : H.nets.map (·.id) = L.map (·.id) := by rw [hL, List.map_map]; rfl
    rw [hRids, hids2, e1, hdsv, List.map_map]
    have e2 := (hn.map (·.id))
    rw [List.map_map] at e2
    refine (e2.append_right _).trans ?_
    have := (List.filter_append_perm (fun n => decide (keptId H n = n.id)) L).map (·.id)
    rw [List.map_append] at this
    refine List.Perm.trans (List.Perm.of_eq ?_) this
    congr 1
    have : (fun n : Net => decide (keptId H n ≠ n.id)) = fun n => !decide (keptId H n = n.id) := by
      funext n; simp
    rw [this]
    rfl
  -- costs taken away
  have htaken : ∀ m ∈ L, takenCost ds m.id =
      if keptId H m = m.id then groupCost L m.vertices - m.cost else 0 := by
    intro m hm
    split
    · rename_i hk
      have e1 : takenCost ds m.id =
          ((L.filter (fun n => n.vertices = m.vertices ∧ n.id ≠ m.id)).map (·.cost)).sum := by
        unfold takenCost
        rw [hdsv, List.filter_map, List.map_map, List.filter_filter]
        have : L.filter (fun a => (((fun d : Net × Nat => decide (d.2 = m.id)) ∘
            fun n => (n, keptId H n)) a && decide (keptId H a ≠ a.id))) =
            L.filter (fun n => n.vertices = m.vertices ∧ n.id ≠ m.id) := by
          apply List.filter_congr
          intro n hn'
          simp only [Function.comp_apply, ← Bool.decide_and, decide_eq_decide]
          constructor
          · rintro ⟨a, b⟩
            obtain ⟨m', b1, b2, b3, b4⟩ := hkept n hn'
            have : m' = m := hinj m' b1 m hm (b2.trans a)
            subst this
            exact ⟨b3.symm, fun h => b (a.trans h.symm)⟩
          · rintro ⟨a, b⟩
            have : keptId H n = m.id := by rw [← hk]; unfold keptId; rw [a]
            exact ⟨this, by rw [this]; exact fun h => b h.symm⟩
        rw [this]
        rfl
      have e2 : groupCost L m.vertices =
          ((L.filter (fun n => n.vertices = m.vertices ∧ n.id ≠ m.id)).map (·.cost)).sum + m.cost := by
        unfold groupCost
        have hp := (List.filter_append_perm (fun n : Net => decide (n.id ≠ m.id))
          (L.filter (fun n => n.vertices = m.vertices)))
        have h3 := (hp.map (·.cost)).sum_eq
        rw [← h3, List.map_append, List.sum_append, List.filter_filter, List.filter_filter]
        congr 1
        · congr 3
          funext n
          simp only [← Bool.decide_and, decide_eq_decide]
          exact And.comm
        · have : L.filter (fun a => (!decide (a.id ≠ m.id)) && decide (a.vertices = m.vertices)) =
              L.filter (fun a => a == m) := by
            apply List.filter_congr
            intro n hn'
            rw [Bool.eq_iff_iff]
            simp only [Bool.and_eq_true, Bool.not_eq_true', decide_eq_false_iff_not,
              not_not, decide_eq_true_eq, ne_eq, beq_iff_eq]
            constructor
            · rintro ⟨a, -⟩; exact hinj n hn' m hm a
            · rintro rfl; exact ⟨rfl, rfl⟩
          rw [this]
          have hndL : L.Nodup := List.Nodup.of_map _ hLnd
          rw [List.filter_beq m, List.count_eq_one_of_mem hndL hm]
          simp
      rw [e1, e2]; ring
    · rename_i hk
      unfold takenCost
      rw [List.filter_eq_nil_iff.2]
      · rfl
      · intro d hd'
        obtain ⟨a1, a2, a3⟩ := hmem d hd'
        simp only [decide_eq_true_eq]
        intro h
        obtain ⟨m', b1, b2, b3, b4⟩ := hkept d.1 a1
        have : m' = m := hinj m' b1 m hm (by rw [b2, ← a3, h])
        subst this
        exact hk b4
  have hnets : ∀ n ∈ H.nets, ∃ m ∈ R.nets, m.id = n.id ∧ m.cost = n.cost ∧
      m.vertices.Perm n.vertices := by
    intro n hn'
    have hsn : sortNet n ∈ L := List.mem_map.2 ⟨n, hn', rfl⟩
    by_cases hk : keptId H (sortNet n) = (sortNet n).id
    · -- kept
      have : withCost (sortNet n) (edgeCosts L (sortNet n).vertices) ∈ H1'.nets := by
        rw [hn.mem_iff]
        exact List.mem_map.2 ⟨_, List.mem_filter.2 ⟨hsn, by simpa using hk⟩, rfl⟩
      obtain ⟨i, hi⟩ := List.mem_iff_getElem?.1 this
      obtain ⟨m, hm, q1, q2, q3, q4⟩ : ∃ m ∈ H2.nets, m.id = (sortNet n).id ∧
          m.cost = edgeCosts L (sortNet n).vertices ∧ True ∧ m.vertices.Perm (sortNet n).vertices := by
        obtain ⟨m, hm, h⟩ := forall2_mem_left hs.nets this
        exact ⟨m, hm, h.1, h.2.1, trivial, h.2.2.2⟩
      refine ⟨withCost m (m.cost - takenCost ds m.id), ?_, q1, ?_, q4.trans (sortNet_perm n)⟩
      · rw [r2, resetNets]
        exact List.mem_map.2 ⟨m, List.mem_append_left _ hm, rfl⟩
      · change m.cost - takenCost ds m.id = n.cost
        rw [q1, htaken _ hsn, if_pos hk, q2, hec]
        change _ - (_ - n.cost) = n.cost
        ring
    · -- put back
      refine ⟨withCost (Net.mk' n.id (sortNet n).vertices n.cost)
        (n.cost - takenCost ds n.id), ?_, rfl, ?_, sortNet_perm n⟩
      · rw [r2, resetNets]
        refine List.mem_map.2 ⟨Net.mk' n.id (sortNet n).vertices n.cost, List.mem_append_right _ ?_, rfl⟩
        refine List.mem_map.2 ⟨(sortNet n, keptId H (sortNet n)), ?_, rfl⟩
        rw [hdsv]
        exact List.mem_map.2 ⟨_, List.mem_filter.2 ⟨hsn, by simpa using hk⟩, rfl⟩
      · change n.cost - takenCost ds (sortNet n).id = n.cost
        rw [htaken _ hsn, if_neg hk]
        ring
  refine ⟨R, hreset, wR, hperm, hnets, ?_, ?_, ?_⟩
  · rw [r3, List.map_map]; exact hvw
  · rw [r3, List.map_map]; rfl
  · intro v hv' r hr hid
    exact vside_of_nets w wR hperm (fun n hn' => by
      obtain ⟨m, a, b, -, c⟩ := hnets n hn'; exact ⟨m, a, b, c⟩) hv' hr hid

/-- The costs 1, 2, 3 come back; net ids 0 and 1 are appended. -/
example : ((simplifyDuplicateNets dupH).bind (·.resetDuplicateNets)).toOption.map
    (fun H => H.nets.map (fun n => (n.id, n.cost, n.globalSize))) =
    some [(2, 3, 2), (3, 4, 2), (0, 1, 0), (1, 2, 0)] := by decide +kernel

/-- C32 fails literally: the re-added nets have global size 0, and a second reset subtracts the
costs again and lists the nets twice at their pins. -/
theorem C32_false : WF dupH ∧ dupH.dups = [] ∧
    ∃ H1 R R2, simplifyDuplicateNets dupH = .ok H1 ∧ H1.resetDuplicateNets = .ok R ∧
      R.resetDuplicateNets = .ok R2 ∧
      (∃ n ∈ dupH.nets, ∃ m ∈ R.nets, m.id = n.id ∧ m.globalSize ≠ n.globalSize) ∧
      R2.nets.map (·.cost) = [0, 4, 1, 2] ∧ ¬ WF R2 := by
  refine ⟨dupH_wf, rfl, _, _, _, rfl, rfl, rfl, ?_, ?_, ?_⟩
  · decide +kernel
  · decide +kernel
  · intro h
    exact absurd h.vnets (by decide +kernel)

/-! ### C33 -/

/-- The metric values only look at the costs and, up to order, at the pins. -/
theorem cutValue_forall2 {H H' : Hypergraph} (hp : partOf H' = partOf H)
    (hn : List.Forall₂ (fun n n' : Net => n'.cost = n.cost ∧ n'.vertices.Perm n.vertices)
      H.nets H'.nets) (m : Metric) : cutValue m H' = cutValue m H := by
  unfold cutValue
  cases m with
  | cutNet =>
    simp only [hp]
    rw [cutNet_as_sum, cutNet_as_sum]
    congr 1
    apply forall2_map_eq hn
    rintro a b ⟨h1, h2⟩
    rw [h1]
    congr 1
    simp only [h2.mem_iff]
  | lambdaMinusOne =>
    simp only [hp]
    rw [lambda_as_sum, lambda_as_sum]
    congr 1
    apply forall2_map_eq hn
    rintro a b ⟨h1, h2⟩
    rw [h1, ((h2.map (partOf H)).dedup).length_eq]

/-- C33: a copy has the same vertices, net ids, incidences and global sizes; it is well-formed
and its cutsize is that of the original when all costs are 1. What is missing: costs become 1 and
the remembered duplicates are dropped (`C33_false`). -/
theorem C33_partial {H : Hypergraph} (w : WF H) :
    ∃ H', H.copy = .ok H' ∧ WF H' ∧ H'.vertices = H.vertices ∧
      H'.globalSize = H.globalSize ∧ H'.globalNumberNets = H.globalNumberNets ∧
      H'.nrNz = H.nrNz ∧
      List.Forall₂ (fun n n' => n'.id = n.id ∧ n'.globalSize = n.globalSize ∧
        n'.vertices.Perm n.vertices ∧ n'.cost = 1) H.nets H'.nets ∧
      ((∀ n ∈ H.nets, n.cost = 1) → ∀ m, cutsize H' m = cutsize H m) := by
  obtain ⟨H', h1, h2, h3, h4, h5, h6, h7, h8⟩ := copy_ok w
  refine ⟨H', h1, h2, h3, h4, h5, h6, h8.imp (fun a b h => ⟨h.1, h.2.2.1, h.2.2.2, h.2.1⟩), ?_⟩
  intro hc m
  rw [cutsize_ok h2, cutsize_ok w]
  congr 1
  apply cutValue_forall2
  · unfold partOf; rw [h3]
  · refine (forall2_and_mem h8).imp ?_
    rintro a b ⟨ha, h⟩
    exact ⟨h.2.1.trans (hc a ha).symm, h.2.2.2⟩

example : (exampleH.copy).toOption.map (fun H => H.nets.map (fun n => (n.id, n.vertices, n.cost))) =
    some [(5, [1, 2, 3], 1), (2, [1, 7, 3], 1), (0, [2, 7, 3], 1)] := by decide +kernel

/-- C33 fails: the copy of `dupH` has another cutsize, and the copy of a simplified hypergraph
does not remember its duplicates. -/
theorem C33_false : WF dupH ∧ (∃ H', dupH.copy = .ok H' ∧ cutsize dupH .cutNet = .ok 10 ∧
      cutsize H' .cutNet = .ok 4) ∧
    ∃ H1 H', simplifyDuplicateNets dupH = .ok H1 ∧ H1.copy = .ok H' ∧
      H1.dups.length = 2 ∧ H'.dups = [] := by
  refine ⟨dupH_wf, ⟨_, rfl, by decide +kernel, by decide +kernel⟩, _, _, rfl, rfl, ?_, rfl⟩
  decide +kernel

/-! ### C34 -/

/-- C34: on every processor `create_new_hypergraph` gives the restriction to the ranges: exactly
the vertices in the range, exactly the nets with at least two pins in the ranges of all processors
and one pin here, with exactly the pins in the range and the true global size. What is missing:
the costs are 1 instead of the costs of the original (`C34_false`). -/
theorem C34_partial {N : Nat} {xs : List RangeOf} (hD : Distributed N (xs.map (·.H)))
    (hr : ∀ x ∈ xs, x.s ≤ x.e ∧ x.e ≤ x.H.vertices.length) {np : NetPart}
    (hv : np.Valid xs.length N) {d1 d2 : Delivery (Nat × Int)} (hd1 : Fair d1) (hd2 : Fair d2)
    {order : List Nat → List Nat} (ho : ∀ l, (order l).Perm l) :
    ∃ Rs, createNewPar order d1 d2 np xs = .ok Rs ∧ List.Forall₂ (RestrictedTo xs) xs Rs :=
  createNewPar_ok hD hr hv hd1 hd2 ho

/-- The two processors of `exampleD`, the first without its second vertex. -/
def exampleR : List RangeOf :=
  [ { H := Hypergraph.create 4 3
        [ { id := 1, nets := [0, 2], weight := 2, part := 0 },
          { id := 4, nets := [0, 1], weight := 3, part := 1 } ]
        [ { id := 0, vertices := [1, 4], cost := 2, globalSize := 3 },
          { id := 2, vertices := [1], cost := 1, globalSize := 2 },
          { id := 1, vertices := [4], cost := 7, globalSize := 1 } ], s := 0, e := 1 },
    { H := Hypergraph.create 4 3
        [ { id := 0, nets := [2], weight := 1, part := 1 },
          { id := 3, nets := [0], weight := 5, part := 1 } ]
        [ { id := 2, vertices := [0], cost := 1, globalSize := 2 },
          { id := 0, vertices := [3], cost := 2, globalSize := 3 } ], s := 0, e := 2 } ]

/-- Net 1 goes; nets 0 and 2 stay on both processors with global size 2. -/
example : (createNewPar id (fun _ l => l) (fun _ l => l) (blockPart 2 3) exampleR).toOption.map
    (List.map (fun H => H.nets.map (fun n => (n.id, n.vertices, n.cost, n.globalSize)))) =
    some [[(0, [1], 1, 2), (2, [1], 1, 2)], [(2, [0], 1, 2), (0, [3], 1, 2)]] := by decide +kernel

/-- C34 fails for the costs: net 0 of cost 2 has cost 1 in the new hypergraph. -/
theorem C34_false : ∃ Rs, createNewPar id (fun _ l => l) (fun _ l => l) (blockPart 2 3) exampleR = .ok Rs ∧
    ∃ x ∈ exampleR, ∃ n ∈ x.H.nets, ∃ R ∈ Rs, ∃ m ∈ R.nets, m.id = n.id ∧ m.cost ≠ n.cost := by
  refine ⟨_, rfl, ?_⟩
  decide +kernel

end PMondriaan

import Verif.Proofs.CoarsenDone

/-
Proofs about `coarsen_hypergraph_par` as a whole.
-/

namespace PMondriaan

open Spec

variable {F : Type}

theorem forall2_rangeMap {α β : Type} (d : β) {R : α → β → Prop} {p : Nat} {a : Nat → α} {l : List β}
    (h : List.Forall₂ R ((List.range p).map a) l) :
    ∃ b : Nat → β, l = (List.range p).map b ∧ ∀ t, t < p → R (a t) (b t) := by
  have hlen : l.length = p := by rw [← h.length_eq]; simp
  refine ⟨fun t => l.getD t d, ?_, ?_⟩
  · apply List.ext_getElem?
    intro i
    by_cases hi : i < p
    · rw [rangeMap_get hi]
      rw [List.getD_eq_getElem?_getD, List.getElem?_eq_getElem (by omega)]
      rfl
    · rw [List.getElem?_eq_none (by omega), List.getElem?_eq_none (by simp; omega)]
  · intro t ht
    have := (List.forall₂_iff_get.1 h).2 t (by simpa using ht) (by omega)
    simp only [List.get_eq_getElem, List.getElem_map, List.getElem_range] at this
    show R (a t) (l.getD t d)
    rw [List.getD_eq_getElem?_getD, List.getElem?_eq_getElem (by omega)]
    exact this

theorem forall2_imp_left {α β : Type} {R Q : α → β → Prop} {l : List α} {k : List β}
    (h : List.Forall₂ R l k) (hi : ∀ a ∈ l, ∀ b, R a b → Q a b) : List.Forall₂ Q l k := by
  induction h with
  | nil => exact .nil
  | cons hab _ ih =>
    exact .cons (hi _ List.mem_cons_self _ hab) (ih (fun a ha => hi a (List.mem_cons_of_mem _ ha)))

/-- The record of a processor before any request has been accepted. -/
def freshC (H : Hypergraph) (l : List Nat) : Contraction :=
  { samples := sampleIds H l, matched := List.replicate l.length [] }

section

variable {N ss maxC p : Nat} {h : Nat → Hypergraph} {σ : Nat → List Nat}
  {m : Nat → List (List (Nat × Nat))} {acc : Nat → List (Nat × Nat)}

theorem flatMap_rangeMap {α : Type} (p : Nat) (f : Nat → Hypergraph) (g : Hypergraph → List α) :
    ((List.range p).map f).flatMap g = (List.range p).flatMap (fun t => g (f t)) := by
  rw [List.flatMap_map]

/-- Before free nets and vertices are removed the processors hold a distributed hypergraph. -/
theorem held_distributed (hD : Distributed N ((List.range p).map h)) {size : Nat}
    {HC : Nat → Hypergraph}
    (hH : ∀ t, t < p → Held p h σ m (unionCost ((List.range p).map h)) size t (HC t)) :
    Distributed N ((List.range p).map HC) := by
  have hids : ∀ t, t < p → (HC t).vertices.map (·.id) = ((h t).vertices.filter (fun v => v.id ∉
      goneIds ((List.range p).map (fun t => contractionOf (h t) (σ t) (m t))))).map (·.id) :=
    fun t ht => forall2_map_eq' (hH t ht).made _ _ (fun v _ x hx => hx.1)
  refine ⟨?_, ?_, ?_, ?_⟩
  · intro H hHm
    obtain ⟨t, ht, rfl⟩ := List.mem_map.1 hHm
    exact (hH t (List.mem_range.1 ht)).wf
  · have hd := hD.disjoint
    rw [flatMap_rangeMap, List.map_flatMap] at hd ⊢
    refine List.Sublist.nodup ?_ hd
    have : (List.range p).flatMap (fun t => (HC t).vertices.map (·.id)) =
        (List.range p).flatMap (fun t => ((h t).vertices.filter (fun v => v.id ∉
      goneIds ((List.range p).map (fun t => contractionOf (h t) (σ t) (m t))))).map (·.id)) := by
      rw [List.flatMap_def, List.flatMap_def]
      congr 1
      apply List.map_congr_left
      intro t ht
      exact hids t (List.mem_range.1 ht)
    rw [this]
    generalize goneIds ((List.range p).map (fun t => contractionOf (h t) (σ t) (m t))) = G
    generalize List.range p = l
    induction l with
    | nil => simp
    | cons a l ih =>
      rw [List.flatMap_cons, List.flatMap_cons]
      exact (List.filter_sublist.map _).append ih
  · intro H hHm n hn
    obtain ⟨t, ht, rfl⟩ := List.mem_map.1 hHm
    obtain ⟨s, hs, hn'⟩ := (hH t (List.mem_range.1 ht)).nets n hn
    obtain ⟨n', hn', hid⟩ := List.mem_map.1 hn'
    rw [← hid]
    exact hD.ids (h s) (List.mem_map.2 ⟨s, List.mem_range.2 hs, rfl⟩) n' hn'
  · intro H hHm H' hHm' n hn n' hn' hid
    obtain ⟨t, ht, rfl⟩ := List.mem_map.1 hHm
    obtain ⟨t', ht', rfl⟩ := List.mem_map.1 hHm'
    rw [(hH t (List.mem_range.1 ht)).costs n hn, (hH t' (List.mem_range.1 ht')).costs n' hn', hid]

/-- The last two stages. -/
theorem coarsenFinish_ok (hD : Distributed N ((List.range p).map h)) (hσ : SamplesOk ss p h σ)
    (hM : Matching ss maxC p h σ m acc) {size : Nat} {HC : Nat → Hypergraph}
    (hH : ∀ t, t < p → Held p h σ m (unionCost ((List.range p).map h)) size t (HC t))
    {np : NetPart} (hv : np.Valid p N) {d1 d2 : Delivery (Nat × Int)} (hd1 : Fair d1) (hd2 : Fair d2)
    {order : List Nat → List Nat} (ho : ∀ l, (order l).Perm l) :
    ∃ Rs R, removeFreeNetsPar order d1 d2 np ((List.range p).map HC) 1 = .ok Rs ∧
      mergeFreePar (((List.range p).map (fun t => contractionOf (h t) (σ t) (m t))).zip Rs) = .ok R ∧
      CoarsenedPar N ((List.range p).map h) ((List.range p).map σ) maxC R ∧
      ∀ t, t < p → ∃ c, R[t]? = some c ∧ c.1.matched = m t := by
  set Hs := (List.range p).map h with hHs
  set HCs := (List.range p).map HC with hHCs
  set Cs := (List.range p).map (fun t => contractionOf (h t) (σ t) (m t)) with hCs
  set V := Hs.flatMap (·.vertices) with hV
  have hw : ∀ t, t < p → WF (h t) := fun t ht =>
    hD.wf _ (List.mem_map.2 ⟨t, List.mem_range.2 ht, rfl⟩)
  have hdis := hD.disjoint
  have hD0 : Distributed N HCs := held_distributed hD hH
  obtain ⟨Rs, e1, hR⟩ := removeFreeNetsPar_ok hD0 (np := np) (by simpa [hHCs] using hv) hd1 hd2 ho 1
  obtain ⟨r, rfl, hr⟩ := forall2_rangeMap (Hypergraph.create 0 0 [] []) hR
  have hzip : Cs.zip ((List.range p).map r) =
      (List.range p).map (fun t => (contractionOf (h t) (σ t) (m t), r t)) := by
    rw [hCs, List.zip_map']
  obtain ⟨R, e2, hF⟩ := mergeFreePar_ok (S := Cs.zip ((List.range p).map r)) (by
    rw [hzip]
    intro s hs
    obtain ⟨t, ht, rfl⟩ := List.mem_map.1 hs
    exact (hr t (List.mem_range.1 ht)).wf) (by
    rw [hzip]
    intro s hs
    obtain ⟨t, ht, rfl⟩ := List.mem_map.1 hs
    rfl)
  refine ⟨_, R, e1, e2, ?_⟩
  rw [hzip] at hF
  obtain ⟨q, rfl, hq⟩ := forall2_rangeMap ({}, Hypergraph.create 0 0 [] []) hF
  simp only at hq
  refine ⟨?_, fun t ht => ⟨q t, rangeMap_get ht _, (hq t ht).2.2.2.2.1⟩⟩
  -- notation
  have hC1 : ((List.range p).map q).map (·.1) = (List.range p).map (fun t => (q t).1) := by
    rw [List.map_map]; rfl
  have hC2 : ((List.range p).map q).map (·.2) = (List.range p).map (fun t => (q t).2) := by
    rw [List.map_map]; rfl
  have hmem : ∀ c ∈ (List.range p).map q, ∃ t, t < p ∧ c = q t := by
    intro c hc
    obtain ⟨t, ht, rfl⟩ := List.mem_map.1 hc
    exact ⟨t, List.mem_range.1 ht, rfl⟩
  have hget : ∀ {α : Type} (f : Nat → α) (t : Nat) (a : α), ((List.range p).map f)[t]? = some a →
      t < p ∧ a = f t := by
    intro α f t a ha
    by_cases ht : t < p
    · rw [rangeMap_get ht] at ha
      exact ⟨ht, (Option.some.inj ha).symm⟩
    · simp [ht] at ha
  -- the contraction records are those of the matching phase
  have hgoneEq : goneIds (((List.range p).map q).map (·.1)) = goneIds Cs := by
    rw [hC1, hCs]
    unfold goneIds
    rw [List.flatMap_map, List.flatMap_map, List.flatMap_def, List.flatMap_def]
    congr 1
    apply List.map_congr_left
    intro t ht
    rw [(hq t (List.mem_range.1 ht)).2.2.2.2.1]
  have hmatEq : ∀ u, matchesIn (((List.range p).map q).map (·.1)) u = matchesIn Cs u := by
    intro u
    rw [hC1, hCs]
    unfold matchesIn
    rw [List.flatMap_map, List.flatMap_map, List.flatMap_def, List.flatMap_def]
    congr 1
    apply List.map_congr_left
    intro t ht
    rw [(hq t (List.mem_range.1 ht)).2.2.2.2.1, (hq t (List.mem_range.1 ht)).2.2.2.1]
  have hmatEq' : matchesIn (((List.range p).map q).map (·.1)) = matchesIn Cs := funext hmatEq
  set CW := wholeContraction Hs (((List.range p).map q).map (·.1)) with hCW
  -- matches of the whole hypergraph
  have wU : WF (unionH N Hs) := unionH_wf hD
  set M := V.map (fun v => (matchesIn Cs v.id).map (·.1)) with hMdef
  set newV := (V.filter (fun v => v.id ∉ goneIds Cs)).map newVertex with hnewV
  have hMO : MatchOk (unionH N Hs) maxC M newV := whole_match hw hdis hσ hM
  have hms : ∀ v ∈ V, msAt (unionH N Hs) M v.id = (matchesIn Cs v.id).map (·.1) := fun v hv =>
    whole_msAt wU hv
  have hnewids : newV.map (·.id) = (V.map (·.id)).filter (fun u => u ∉ goneIds Cs) := by
    rw [hnewV, List.map_map, List.filter_map]
    rfl
  have hsam : (recorded (unionH N Hs) M newV 0).samples = CW.samples := by
    rw [hCW]
    unfold wholeContraction recorded
    simp only
    rw [hgoneEq, hnewids]
  have hmat : (recorded (unionH N Hs) M newV 0).matched.map (fun l => l.map (·.1)) =
      CW.matched.map (fun l => l.map (·.1)) := by
    rw [hCW]
    unfold wholeContraction recorded
    simp only
    rw [hgoneEq, hmatEq', ← hV, ← hnewids, hnewV]
    simp only [List.map_map]
    apply List.map_congr_left
    intro v hv
    have hvV : v ∈ V := (List.mem_filter.1 hv).1
    simp only [Function.comp_apply]
    have hid : (newVertex v).id = v.id := rfl
    rw [hid, hms v hvV, List.map_map, List.map_map]
    rfl
  have hmemb : ∀ s, members (recorded (unionH N Hs) M newV 0) s = members CW s :=
    members_congr hsam hmat
  have hstar : StarClustering (unionH N Hs) CW maxC := star_congr hsam hmat (recorded_star wU hMO 0)
  have hclw : ∀ s, clusterWeight (unionH N Hs) (recorded (unionH N Hs) M newV 0) s =
      clusterWeight (unionH N Hs) CW s := by
    intro s; unfold clusterWeight; rw [hmemb]
  -- the vertices made
  have hmadeAll : ∀ t, t < p → List.Forall₂ (fun v x => MadeFrom (unionH N Hs) M (newVertex v) x)
      ((h t).vertices.filter (fun v => v.id ∉ goneIds Cs)) (HC t).vertices := by
    intro t ht
    refine forall2_imp_left (hH t ht).made ?_
    intro v hv x hx
    have hv0 := (List.mem_filter.1 hv).1
    have hvV : v ∈ V := List.mem_flatMap.2 ⟨h t, List.mem_map.2 ⟨t, List.mem_range.2 ht, rfl⟩, hv0⟩
    obtain ⟨x1, x2, x3, x4, x5⟩ := hx
    have hin : ∀ y ∈ matchesIn Cs v.id, vtxOf V y.1 ∈ V ∧ (vtxOf V y.1).id = y.1 := by
      intro y hy
      have hyM : y.1 ∈ M.flatten := by
        refine List.mem_flatten.2 ⟨_, List.mem_map.2 ⟨v, hvV, rfl⟩, List.mem_map.2 ⟨y, hy, rfl⟩⟩
      have hyV : y.1 ∈ V.map (·.id) := hMO.cover.subset (List.mem_append_right _ hyM)
      obtain ⟨w, hw', hwid⟩ := List.mem_map.1 hyV
      rw [← hwid, vtxOf_eq hdis hw']
      exact ⟨hw', rfl⟩
    refine ⟨(matchesIn Cs v.id).map (fun y => vtxOf V y.1), ?_, ?_, ?_⟩
    · have hid : (newVertex v).id = v.id := rfl
      rw [hid, hms v hvV, List.map_map]
      apply List.map_congr_left
      intro y hy
      exact (hin y hy).2
    · intro u hu
      obtain ⟨y, hy, rfl⟩ := List.mem_map.1 hu
      exact (hin y hy).1
    · refine ⟨x1, x2, ?_, x3, ?_⟩
      · rw [x4, List.map_map]; rfl
      · intro e
        rw [x5 e]
        constructor
        · rintro (he | ⟨y, hy, he⟩)
          · exact Or.inl he
          · exact Or.inr ⟨_, List.mem_map.2 ⟨y, hy, rfl⟩, he⟩
        · rintro (he | ⟨u, hu, he⟩)
          · exact Or.inl he
          · obtain ⟨y, hy, rfl⟩ := List.mem_map.1 hu
            exact Or.inr ⟨y, hy, he⟩
  have hmade : ∀ t, t < p → ∀ v ∈ (h t).vertices.filter (fun v => v.id ∉ goneIds Cs), ∀ x,
      MadeFrom (unionH N Hs) M (newVertex v) x → x.id = v.id ∧ x.part = -1 ∧
        x.weight = clusterWeight (unionH N Hs) CW v.id ∧
        ∀ n ∈ (unionH N Hs).nets, n.id ∈ x.nets ↔ ∃ u ∈ n.vertices, u ∈ members CW v.id := by
    intro t ht v hv x hx
    have hvV : v ∈ V := List.mem_flatMap.2 ⟨h t, List.mem_map.2 ⟨t, List.mem_range.2 ht, rfl⟩,
      (List.mem_filter.1 hv).1⟩
    have hin : newVertex v ∈ newV :=
      List.mem_map.2 ⟨v, List.mem_filter.2 ⟨hvV, (List.mem_filter.1 hv).2⟩, rfl⟩
    obtain ⟨c1, c2, -, c4, -, c6⟩ := made_cluster wU hMO 0 hin hx
    refine ⟨c1, c2, ?_, ?_⟩
    · rw [c4, hclw]; rfl
    · intro n hn
      rw [c6 n hn, hmemb]
      exact Iff.rfl
  have hkeptids : ∀ t, t < p → (HC t).vertices.map (·.id) =
      ((h t).vertices.map (·.id)).filter (fun u => u ∉ goneIds Cs) := by
    intro t ht
    rw [forall2_map_eq' (hmadeAll t ht) (·.id) (·.id) (fun v hv x hx => (hmade t ht v hv x hx).1),
      List.filter_map]
    rfl
  have hkeptw : ∀ t, t < p → (HC t).vertices.map (fun v => (v.id, v.weight)) =
      (((h t).vertices.map (·.id)).filter (fun u => u ∉ goneIds Cs)).map
        (fun u => (u, clusterWeight (unionH N Hs) CW u)) := by
    intro t ht
    rw [forall2_map_eq' (hmadeAll t ht) (fun v => (v.id, clusterWeight (unionH N Hs) CW v.id))
      (fun v => (v.id, v.weight)) (fun v hv x hx => by
        obtain ⟨g1, -, g3, -⟩ := hmade t ht v hv x hx
        rw [g1, g3]), List.filter_map, List.map_map]
    rfl
  have hallids : V.map (·.id) = (List.range p).flatMap (fun t => (h t).vertices.map (·.id)) := by
    rw [hV, hHs, flatMap_rangeMap, List.map_flatMap]
  have hCWs : CW.samples = (List.range p).flatMap (fun t =>
      ((h t).vertices.map (·.id)).filter (fun u => u ∉ goneIds Cs)) := by
    rw [← hsam]
    unfold recorded
    simp only
    rw [hnewids, hallids, List.filter_flatMap]
  -- pins before removal
  have hpins0 : ∀ e, e < N → (unionPins HCs e).Perm (touched CW (unionNet Hs e)) := by
    intro e he
    have hn1 : (unionPins HCs e).Nodup := (unionH_wf hD0).npins (unionNet HCs e)
      (List.mem_map.2 ⟨e, List.mem_range.2 he, rfl⟩)
    have hn2 : (touched CW (unionNet Hs e)).Nodup := by
      unfold touched
      apply List.Nodup.filter
      rw [← hsam]
      exact hMO.ids_nodup wU
    have hnU : unionNet Hs e ∈ (unionH N Hs).nets := List.mem_map.2 ⟨e, List.mem_range.2 he, rfl⟩
    rw [List.perm_ext_iff_of_nodup hn1 hn2]
    intro u
    rw [mem_unionPins]
    unfold touched
    rw [List.mem_filter, decide_eq_true_iff]
    constructor
    · rintro ⟨H, hHm, n, hn, hne, hu⟩
      obtain ⟨t, ht, rfl⟩ := List.mem_map.1 hHm
      have ht := List.mem_range.1 ht
      obtain ⟨x, hx, hxu, hxe⟩ := (hH t ht).wf.inc_vtx n hn u hu
      obtain ⟨v, hv, hvx⟩ := forall2_mem_right (hmadeAll t ht) hx
      obtain ⟨g1, -, -, g4⟩ := hmade t ht v hv x hvx
      have huv : u = v.id := by rw [← hxu, g1]
      rw [hne] at hxe
      refine ⟨?_, ?_⟩
      · rw [hCWs]
        refine List.mem_flatMap.2 ⟨t, List.mem_range.2 ht, ?_⟩
        rw [← hkeptids t ht]
        exact List.mem_map.2 ⟨x, hx, hxu⟩
      · rw [huv]
        exact (g4 _ hnU).1 hxe
    · rintro ⟨hu, w, hwp, hwm⟩
      rw [hCWs] at hu
      obtain ⟨t, ht, hut⟩ := List.mem_flatMap.1 hu
      have ht := List.mem_range.1 ht
      rw [← hkeptids t ht] at hut
      obtain ⟨x, hx, hxu⟩ := List.mem_map.1 hut
      have hxu : x.id = u := hxu
      obtain ⟨v, hv, hvx⟩ := forall2_mem_right (hmadeAll t ht) hx
      obtain ⟨g1, -, -, g4⟩ := hmade t ht v hv x hvx
      have hxe : e ∈ x.nets := (g4 _ hnU).2 ⟨w, hwp, by rw [← g1, hxu]; exact hwm⟩
      obtain ⟨n, hn, hne, hxn⟩ := (hH t ht).wf.inc_net x hx e hxe
      exact ⟨HC t, List.mem_map.2 ⟨t, List.mem_range.2 ht, rfl⟩, n, hn, hne, hxu ▸ hxn⟩
  -- pins after removal
  have hqnets : ∀ t, t < p → (q t).2.nets = (r t).nets := fun t ht =>
    (hq t ht).2.2.2.2.2.2.2.1.nets
  have hpins1 : ∀ e, (unionPins (((List.range p).map q).map (·.2)) e).Perm
      (if 1 < (unionPins HCs e).length then unionPins HCs e else []) := by
    intro e
    have hlocal : ∀ t, t < p → (((q t).2.nets.filter (fun n => n.id = e)).flatMap (·.vertices)).Perm
        (if 1 < (unionPins HCs e).length then
          ((HC t).nets.filter (fun n => n.id = e)).flatMap (·.vertices) else []) := by
      intro t ht
      rw [hqnets t ht]
      refine (((hr t ht).nets.filter _).flatMap_right _).trans (List.Perm.of_eq ?_)
      rw [List.filter_map, List.flatMap_map, List.filter_filter]
      have e3 : ((HC t).nets.filter (fun n => (((fun n : Net => decide (n.id = e)) ∘ fun n =>
            withSize n (unionPins HCs n.id).length) n && decide (staysNet HCs 1 n)))) =
          ((HC t).nets.filter (fun n => n.id = e)).filter
            (fun n => decide (1 < (unionPins HCs e).length) && decide (n.vertices ≠ [])) := by
        rw [List.filter_filter]
        apply List.filter_congr
        intro n _
        simp only [Function.comp_apply, withSize, staysNet]
        by_cases hne : n.id = e
        · simp [hne]
        · simp [hne]
      rw [e3]
      generalize (HC t).nets.filter (fun n => decide (n.id = e)) = l
      by_cases hc : 1 < (unionPins HCs e).length
      · rw [if_pos hc]
        induction l with
        | nil => rfl
        | cons n l ih =>
          rw [List.flatMap_cons, ← ih, List.filter_cons]
          by_cases hnv : n.vertices = []
          · simp [hnv, withSize]
          · simp [hnv, withSize, hc]
      · rw [if_neg hc]
        have : l.filter (fun n => decide (1 < (unionPins HCs e).length) && decide (n.vertices ≠ [])) = [] := by
          rw [List.filter_eq_nil_iff]
          intro n _
          simp [hc]
        rw [this]; rfl
    have e4 : unionPins (((List.range p).map q).map (·.2)) e = (List.range p).flatMap (fun t =>
        ((q t).2.nets.filter (fun n => n.id = e)).flatMap (·.vertices)) := by
      rw [hC2]; unfold unionPins; rw [List.flatMap_map]
    have e5 : unionPins HCs e = (List.range p).flatMap (fun t =>
        ((HC t).nets.filter (fun n => n.id = e)).flatMap (·.vertices)) := by
      rw [hHCs]; unfold unionPins; rw [List.flatMap_map]
    rw [e4]
    refine (List.Perm.flatMap_left _ (fun t ht => hlocal t (List.mem_range.1 ht))).trans
      (List.Perm.of_eq ?_)
    by_cases hc : 1 < (unionPins HCs e).length
    · simp only [hc, if_true]
      rw [e5]
    · simp only [hc, if_false]
      simp
  have hlocnet : ∀ t, t < p → ∀ n ∈ (q t).2.nets, ∃ n0 ∈ (HC t).nets, n0.id = n.id ∧
      n0.cost = n.cost ∧ n0.vertices = n.vertices ∧ n.vertices ≠ [] ∧
      1 < (unionPins HCs n.id).length ∧ n.globalSize = (unionPins HCs n.id).length := by
    intro t ht n hn
    rw [hqnets t ht] at hn
    obtain ⟨n0, hn0, rfl⟩ := List.mem_map.1 ((hr t ht).nets.subset hn)
    obtain ⟨h1, h2⟩ := List.mem_filter.1 hn0
    have h2 := of_decide_eq_true h2
    exact ⟨n0, h1, rfl, rfl, rfl, h2.2, h2.1, rfl⟩
  have hvertq : ∀ t, t < p → (q t).2.vertices.Perm ((r t).vertices.filter (fun v => v.nets ≠ [])) :=
    fun t ht => (hq t ht).2.2.2.2.2.2.1
  have hrv : ∀ t, t < p → (r t).vertices.map (fun v => (v.id, v.weight)) =
      (HC t).vertices.map (fun v => (v.id, v.weight)) := fun t ht =>
    forall2_map_eq' (hr t ht).vertices _ _ (fun a _ b hab => by rw [hab.1, hab.2.1])
  -- vertices and free vertices together
  have hsplit : ∀ t, t < p → ((q t).2.vertices.map (fun v => (v.id, v.weight)) ++ (q t).1.free).Perm
      ((HC t).vertices.map (fun v => (v.id, v.weight))) := by
    intro t ht
    rw [(hq t ht).1, ← hrv t ht]
    refine (((hvertq t ht).map _).append_right _).trans ?_
    unfold freeOf
    rw [← List.map_append]
    apply List.Perm.map
    have := List.filter_append_perm (fun v : Vertex => decide (v.nets ≠ [])) (r t).vertices
    refine List.Perm.trans ?_ this
    apply List.Perm.append_left
    rw [List.filter_congr]
    intro v _
    simp
  have hstays : ∀ t, t < p → ((q t).2.vertices.map (·.id) ++ (q t).1.free.map (·.1)).Perm
      (((h t).vertices.map (·.id)).filter (fun u => u ∉ goneIds Cs)) := by
    intro t ht
    have := (hsplit t ht).map (·.1)
    rw [List.map_append, List.map_map, List.map_map] at this
    refine List.Perm.trans this (List.Perm.of_eq ?_)
    rw [← hkeptids t ht]
    rfl
  have hdist : Distributed N (((List.range p).map q).map (·.2)) := by
    rw [hC2]
    refine ⟨?_, ?_, ?_, ?_⟩
    · intro H hHm
      obtain ⟨t, ht, rfl⟩ := List.mem_map.1 hHm
      exact (hq t (List.mem_range.1 ht)).2.2.2.2.2.1
    · rw [flatMap_rangeMap, List.map_flatMap]
      refine Subperm.nodup' ?_ hdis
      rw [← hV, hallids]
      apply flatMap_subperm
      intro t ht
      have ht := List.mem_range.1 ht
      refine List.Subperm.trans (List.sublist_append_left _ ((q t).1.free.map (·.1))).subperm ?_
      refine (hstays t ht).subperm.trans ?_
      exact List.filter_sublist.subperm
    · intro H hHm n hn
      obtain ⟨t, ht, rfl⟩ := List.mem_map.1 hHm
      obtain ⟨n0, hn0, hid, -⟩ := hlocnet t (List.mem_range.1 ht) n hn
      rw [← hid]
      exact hD0.ids (HC t) (List.mem_map.2 ⟨t, ht, rfl⟩) n0 hn0
    · intro H hHm H' hHm' n hn n' hn' hid
      obtain ⟨t, ht, rfl⟩ := List.mem_map.1 hHm
      obtain ⟨t', ht', rfl⟩ := List.mem_map.1 hHm'
      obtain ⟨n0, hn0, i1, i2, -⟩ := hlocnet t (List.mem_range.1 ht) n hn
      obtain ⟨n1, hn1, j1, j2, -⟩ := hlocnet t' (List.mem_range.1 ht') n' hn'
      rw [← i2, ← j2]
      exact hD0.costs (HC t) (List.mem_map.2 ⟨t, ht, rfl⟩) (HC t') (List.mem_map.2 ⟨t', ht', rfl⟩)
        n0 hn0 n1 hn1 (by rw [i1, j1, hid])
  -- when a net has pins at the end
  have hpinsIff : ∀ e, e < N → (unionPins (((List.range p).map q).map (·.2)) e ≠ [] ↔
      2 ≤ (touched CW (unionNet Hs e)).length) := by
    intro e he
    rw [← (hpins0 e he).length_eq]
    have h1 := hpins1 e
    by_cases hc : 1 < (unionPins HCs e).length
    · rw [if_pos hc] at h1
      refine ⟨fun _ => hc, fun _ hnil => ?_⟩
      rw [hnil] at h1
      have := h1.length_eq
      simp at this
      omega
    · rw [if_neg hc] at h1
      have h2 := List.Perm.eq_nil h1
      refine ⟨fun hne => absurd h2 hne, fun hge => absurd hge (by omega)⟩
  have hcostEq : ∀ e, unionPins (((List.range p).map q).map (·.2)) e ≠ [] →
      unionCost (((List.range p).map q).map (·.2)) e = unionCost Hs e := by
    intro e hne
    obtain ⟨u, hu⟩ := List.exists_mem_of_ne_nil _ hne
    obtain ⟨H, hHm, n, hn, hid, -⟩ := mem_unionPins.1 hu
    have h1 := unionCost_eq hdist hHm hn
    rw [hC2] at hHm
    obtain ⟨t, ht, rfl⟩ := List.mem_map.1 hHm
    obtain ⟨n0, hn0, i1, i2, -⟩ := hlocnet t (List.mem_range.1 ht) n hn
    rw [hid] at h1
    rw [h1, ← i2, (hH t (List.mem_range.1 ht)).costs n0 hn0, i1, hid]
  refine ⟨by simp [hHs], by simp [hHs], hdist, hstar, ⟨?_, ⟨?_, ?_⟩, ?_⟩, ?_, ?_, ?_, ?_, ?_, ?_, ?_, ?_, ?_, ?_, ?_⟩
  · -- vertices
    have e1 : (dropEmpty (unionH N (((List.range p).map q).map (·.2)))).vertices =
        (List.range p).flatMap (fun t => (q t).2.vertices) := by
      rw [hC2]
      exact flatMap_rangeMap _ _ _
    have e2 : CW.free = (List.range p).flatMap (fun t => (q t).1.free) := by
      rw [hCW, hC1]
      unfold wholeContraction
      simp only
      rw [List.flatMap_map]
    rw [e1, e2, List.map_flatMap]
    refine (List.flatMap_append_perm _ _ _).trans ?_
    unfold clusterWeights
    rw [hCWs, List.map_flatMap]
    apply List.Perm.flatMap_left
    intro t ht
    have ht := List.mem_range.1 ht
    exact (hsplit t ht).trans (List.Perm.of_eq (hkeptw t ht))
  · -- nets
    refine List.Perm.of_eq ?_
    have e1 : (dropEmpty (unionH N (((List.range p).map q).map (·.2)))).nets =
        ((List.range N).map (unionNet (((List.range p).map q).map (·.2)))).filter
          (fun n => n.vertices ≠ []) := rfl
    have e2 : (unionH N Hs).nets = (List.range N).map (unionNet Hs) := rfl
    rw [e1, e2, List.filter_map, List.filter_map]
    have e3 : (List.range N).filter ((fun n : Net => decide (n.vertices ≠ [])) ∘
        unionNet (((List.range p).map q).map (·.2))) = (List.range N).filter
        ((fun n => decide (2 ≤ (touched CW n).length)) ∘ unionNet Hs) := by
      apply List.filter_congr
      intro e he
      simp only [Function.comp_apply]
      rw [decide_eq_decide]
      exact hpinsIff e (List.mem_range.1 he)
    rw [← e3, List.map_map (f := unionNet Hs), List.map_map (f := unionNet (((List.range p).map q).map (·.2)))]
    apply List.map_congr_left
    intro e he
    have hne := of_decide_eq_true (List.mem_filter.1 he).2
    simp only [Function.comp_apply, unionNet]
    rw [hcostEq e hne]
  · -- pins
    intro n' hn' n hn hid
    obtain ⟨hn1, hne⟩ := List.mem_filter.1 hn'
    obtain ⟨e, he, rfl⟩ := List.mem_map.1 hn1
    obtain ⟨e', he', rfl⟩ := List.mem_map.1 hn
    have hee : e' = e := hid
    subst hee
    have hne := of_decide_eq_true hne
    have he := List.mem_range.1 he
    have hc : 1 < (unionPins HCs e').length := by
      have := (hpinsIff e' he).1 hne
      rw [← (hpins0 e' he).length_eq] at this
      exact this
    have h1 := hpins1 e'
    rw [if_pos hc] at h1
    exact h1.trans (hpins0 e' he)
  · intro n' hn'
    obtain ⟨hn1, -⟩ := List.mem_filter.1 hn'
    obtain ⟨e, -, rfl⟩ := List.mem_map.1 hn1
    rfl
  · intro c hc n hn
    obtain ⟨t, ht, rfl⟩ := hmem c hc
    obtain ⟨n0, hn0, i1, i2, i3, i4, i5, i6⟩ := hlocnet t ht n hn
    refine ⟨i4, ?_⟩
    rw [i6]
    have h1 := hpins1 n.id
    rw [if_pos i5] at h1
    exact h1.length_eq.symm
  · intro c hc v hv
    obtain ⟨t, ht, rfl⟩ := hmem c hc
    obtain ⟨h1, h2⟩ := List.mem_filter.1 ((hvertq t ht).subset hv)
    refine ⟨?_, of_decide_eq_true h2⟩
    obtain ⟨x, hx, hl⟩ := forall2_mem_right (hr t ht).vertices h1
    obtain ⟨v0, hv0, hvx⟩ := forall2_mem_right (hmadeAll t ht) hx
    rw [hl.2.2.1]
    exact (hmade t ht v0 hv0 x hvx).2.1
  · intro t H c h1 h2
    obtain ⟨ht, rfl⟩ := hget h t H h1
    obtain ⟨-, rfl⟩ := hget q t c h2
    rw [hgoneEq]
    exact hstays t ht
  · intro t H l c h1 h2 h3
    obtain ⟨ht, rfl⟩ := hget h t H h1
    obtain ⟨-, rfl⟩ := hget σ t l h2
    obtain ⟨-, rfl⟩ := hget q t c h3
    rw [(hq t ht).2.2.2.1, (hq t ht).2.2.2.2.1]
    refine ⟨sampleIds_map (hσ t ht).2.1, ?_⟩
    show (m t).length = (sampleIds (h t) (σ t)).length
    rw [hM.len t ht, sampleIds_length (hσ t ht).2.1]
  · rw [hgoneEq, hCs]
    unfold goneIds
    rw [List.flatMap_map]
    exact hM.nodup
  · intro c hc u hu
    obtain ⟨t, ht, rfl⟩ := hmem c hc
    rw [(hq t ht).2.2.2.1] at hu
    rw [hgoneEq]
    have hu : u ∈ sampleIds (h t) (σ t) := hu
    obtain ⟨x, hx, hux⟩ := List.mem_filterMap.1 hu
    obtain ⟨v, hv, rfl⟩ := Option.map_eq_some_iff.1 hux
    exact sample_kept hw hdis hM ht hx hv
  · intro c hc l hl
    obtain ⟨t, ht, rfl⟩ := hmem c hc
    rw [(hq t ht).2.2.2.2.1] at hl
    exact hM.size t ht l hl
  · intro c hc l hl y hy
    obtain ⟨t, ht, rfl⟩ := hmem c hc
    rw [(hq t ht).2.2.2.2.1] at hl
    obtain ⟨hp, i, v, hv, hid, -⟩ := hM.vtx t ht l hl y hy
    exact ⟨h y.2, rangeMap_get hp _, List.mem_map.2 ⟨v, List.mem_of_getElem? hv, hid⟩⟩
  · intro c hc
    obtain ⟨t, ht, rfl⟩ := hmem c hc
    exact ⟨by rw [(hq t ht).1, (hq t ht).2.1], (hq t ht).2.2.1⟩
  · intro c hc
    obtain ⟨t, ht, rfl⟩ := hmem c hc
    exact (hq t ht).2.2.2.2.2.2.2.2
  · intro t H c h1 h2
    obtain ⟨ht, rfl⟩ := hget h t H h1
    obtain ⟨-, rfl⟩ := hget q t c h2
    rw [(hq t ht).2.2.2.2.2.2.2.1.globalNumberNets, (hr t ht).globalNumberNets, (hH t ht).gnn]

/-- The whole of the coarsening after the samples have been drawn. -/
theorem coarsenFrom_ok (E : CoarseEnv F) (ho : ∀ l, (E.order l).Perm l)
    (hn : ∀ k l, (E.nthLocal k l).Perm l) (hn2 : ∀ k l, (E.nthOwner k l).Perm l)
    (hdS : Fair E.dSample) (hdR : Fair E.dReq) (hdA : Fair E.dAcc) (hdI : Fair E.dInfo)
    (hd1 : Fair E.d1) (hd2 : Fair E.d2) (opts : Options) (hD : Distributed N ((List.range p).map h))
    (hv : E.np.Valid p N) (hσ : SamplesOk opts.sampleSize p h σ) :
    ∃ R, coarsenFrom E opts ((List.range p).map h) ((List.range p).map σ) = .ok R ∧
      CoarsenedPar N ((List.range p).map h) ((List.range p).map σ) opts.maxClustersize R ∧
      ∃ (outs : Nat → List (Nat × SampleMsg)) (reqs : Nat → List (Nat × ReqMsg F))
        (m : Nat → List (List (Nat × Nat))) (out2 : Nat → List (Nat × (Nat × Nat))),
      (∀ t, t < p → sampleSends p t (h t) (σ t) = .ok (outs t)) ∧
      (∀ t, t < p → requests E opts p t (h t) (σ t) (inbox E.dSample ((List.range p).map outs) t) =
        .ok (reqs t)) ∧
      (∀ t, t < p → accepts E opts p t (σ t).length
          { samples := sampleIds (h t) (σ t), matched := List.replicate (σ t).length [] }
          (inbox E.dReq ((List.range p).map reqs) t) = .ok (contractionOf (h t) (σ t) (m t), out2 t)) ∧
      ∀ t, t < p → ∃ c, R[t]? = some c ∧ c.1.matched = m t := by
  have hw : ∀ t, t < p → WF (h t) := fun t ht =>
    hD.wf _ (List.mem_map.2 ⟨t, List.mem_range.2 ht, rfl⟩)
  have hc : ∀ t, t < p → ∀ n ∈ (h t).nets, n.cost = unionCost ((List.range p).map h) n.id :=
    fun t ht n hn => (unionCost_eq hD (List.mem_map.2 ⟨t, List.mem_range.2 ht, rfl⟩) hn).symm
  obtain ⟨outs, reqs, m, out2, g1, g2, g3, hM⟩ :=
    matchPhase_ok E ho hn hn2 hdS hdR hdA opts hw hD.disjoint hσ
  obtain ⟨fl, out, st, k1, k2, k3, k4⟩ := contractPhase_ok ho hdI hw hD.disjoint hσ hM hc
  obtain ⟨HC, k5⟩ := k4 (((List.range p).map (fun t => (st t).1.length)).foldl (· + ·) 0)
  obtain ⟨Rs, R, f1, f2, f3, f4⟩ := coarsenFinish_ok hD hσ hM (fun t ht => (k5 t ht).2) hv hd1 hd2 ho
  refine ⟨R, ?_, f3, outs, reqs, m, out2, g1, g2, g3, f4⟩
  have hlen : ((List.range p).map h).length = p := by simp
  unfold coarsenFrom
  simp only [hlen]
  have hz : ((List.range p).map h).zip ((List.range p).map σ) =
      (List.range p).map (fun t => (h t, σ t)) := List.zip_map'
  rw [hz, zipIdx_rangeMap, mapM_rangeMap (g := outs) (fun t ht => g1 t ht), ok_bind]
  rw [mapM_rangeMap (g := fun t => (freshC (h t) (σ t), reqs t)) (by
      intro t ht
      unfold requestStep
      simp only
      rw [addSamples_eq (hσ t ht).2.1, ok_bind, g2 t ht]
      rfl), ok_bind]
  have hz2 : ((List.range p).map (fun t => (freshC (h t) (σ t), reqs t))).zip
      ((List.range p).map σ) = (List.range p).map (fun t => ((freshC (h t) (σ t), reqs t), σ t)) := List.zip_map'
  have hr1 : ((List.range p).map (fun t => (freshC (h t) (σ t), reqs t))).map (·.2) =
      (List.range p).map reqs := by rw [List.map_map]; rfl
  rw [hz2, zipIdx_rangeMap, hr1, mapM_rangeMap
    (g := fun t => (contractionOf (h t) (σ t) (m t), out2 t)) (fun t ht => g3 t ht), ok_bind]
  have hr2 : ((List.range p).map (fun t => (contractionOf (h t) (σ t) (m t), out2 t))).map (·.2) =
      (List.range p).map out2 := by rw [List.map_map]; rfl
  have hr2' : ((List.range p).map (fun t => (contractionOf (h t) (σ t) (m t), out2 t))).map (·.1) =
      (List.range p).map (fun t => contractionOf (h t) (σ t) (m t)) := by rw [List.map_map]; rfl
  rw [zipIdx_rangeMap, hr2, hr2', mapM_rangeMap (g := fun t => (fl t, out t))
    (fun t ht => k1 t ht), ok_bind]
  have hr3 : ((List.range p).map (fun t => (fl t, out t))).map (·.2) = (List.range p).map out := by
    rw [List.map_map]; rfl
  have hz3 : ((List.range p).map (fun t => (h t, σ t))).zip
      ((List.range p).map (fun t => (fl t, out t))) =
      (List.range p).map (fun t => ((h t, σ t), (fl t, out t))) := List.zip_map'
  rw [hz3, zipIdx_rangeMap, hr3, mapM_rangeMap (g := st) (fun t ht => k2 t ht), ok_bind]
  have hz4 : ((List.range p).map (fun t => (h t, σ t))).zip ((List.range p).map st) =
      (List.range p).map (fun t => ((h t, σ t), st t)) := List.zip_map'
  have hr4 : ((List.range p).map st).map (fun r => r.1.length) =
      (List.range p).map (fun t => (st t).1.length) := by rw [List.map_map]; rfl
  rw [hz4, hr4, mapM_rangeMap (g := HC) (fun t ht => (k5 t ht).1), ok_bind, f1, ok_bind, f2]

end

end PMondriaan

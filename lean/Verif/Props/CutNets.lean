import Verif.Proofs.CutNets
import Verif.Props.Dist

/-
Properties of setting cut nets aside (C39) and of adding them back (C40).
-/

namespace PMondriaan

open Spec

/-! ### C39 -/

theorem SetAside.gone_iff {ids : List Nat} {H : Hypergraph} {cut : List Net}
    {y : Hypergraph × List Net} (h : SetAside ids H cut y) {e : Nat} (he : IsNet H e) :
    ¬ IsNet y.1 e ↔ e ∈ ids := by
  have h1 : IsNet y.1 e ↔ e ∉ ids := by
    unfold IsNet
    rw [(h.nets.map (·.id)).mem_iff]
    obtain ⟨n, hn, hne⟩ := List.mem_map.1 he
    have hne : n.id = e := hne
    simp only [List.mem_map, List.mem_filter, decide_eq_true_eq]
    constructor
    · rintro ⟨m, ⟨-, a⟩, rfl⟩; exact a
    · intro a; exact ⟨n, ⟨hn, by rw [hne]; exact a⟩, hne⟩
  rw [h1, not_not]

/-- C39, processors working alone: a net disappears exactly when it has two different pins on some
processor, whatever their parts. In particular every net that is cut on a processor is set aside,
and nets with one pin never are. What is missing: nets that are not cut are set aside as well
(`C39_false`); the code compares vertex ids, not parts. -/
theorem C39_partial {d : Delivery Nat} (hd : Fair d) {xs : List (Hypergraph × List Net)}
    (hw : ∀ x ∈ xs, WF x.1) (hne : ∀ x ∈ xs, ∀ n ∈ x.1.nets, n.vertices ≠ []) :
    ∃ ys, removeCutNetsAlone d xs = .ok ys ∧
      List.Forall₂ (fun x y => WF y.1 ∧ ∀ e, IsNet x.1 e → (¬ IsNet y.1 e ↔
        ∃ x' ∈ xs, ∃ n ∈ x'.1.nets, n.id = e ∧ ∃ u ∈ n.vertices, ∃ v ∈ n.vertices, u ≠ v)) xs ys ∧
      ∀ x ∈ xs, ∀ n ∈ x.1.nets, IsCut (partOf x.1) n → ∀ y ∈ ys, ¬ IsNet y.1 n.id := by
  obtain ⟨ys, h1, h2⟩ := removeCutNetsAlone_ok hd hw hne
  have hmem : ∀ e, e ∈ allManyPins xs ↔
      ∃ x' ∈ xs, ∃ n ∈ x'.1.nets, n.id = e ∧ ∃ u ∈ n.vertices, ∃ v ∈ n.vertices, u ≠ v := by
    intro e
    unfold allManyPins
    rw [List.mem_flatMap]
    refine exists_congr fun x => and_congr_right fun hx => ?_
    rw [mem_manyPins]
    refine exists_congr fun n => and_congr_right fun hn => and_congr_right fun _ => ?_
    have hnd := (hw x hx).npins n hn
    constructor
    · intro hl
      match hvs : n.vertices, hl, hnd with
      | a :: b :: l, _, hnd =>
        rw [List.nodup_cons] at hnd
        exact ⟨a, by simp, b, by simp, fun h => hnd.1 (by simp [h])⟩
    · rintro ⟨u, hu, v, hv, huv⟩
      match hvs : n.vertices, hu, hv with
      | [a], hu, hv =>
        rw [List.mem_singleton] at hu hv
        exact absurd (hu.trans hv.symm) huv
      | a :: b :: l, _, _ => simp
  refine ⟨ys, h1, ?_, ?_⟩
  · refine forall2_imp_mem h2 ?_
    intro x y hx hxy
    refine ⟨hxy.wf, fun e he => ?_⟩
    rw [hxy.gone_iff he, hmem]
  · intro x hx n hn hcut y hy hnet
    obtain ⟨x', hx', hxy⟩ := forall2_right h2 hy
    have he : IsNet x'.1 n.id := by
      obtain ⟨m, hm, hid⟩ := List.mem_map.1 hnet
      exact List.mem_map.2 ⟨m, (List.mem_filter.1 (hxy.nets.mem_iff.1 hm)).1, hid⟩
    refine (hxy.gone_iff he).2 ?_ hnet
    rw [hmem]
    obtain ⟨u, hu, v, hv, huv⟩ := hcut
    exact ⟨x, hx, n, hn, rfl, u, hu, v, hv, fun h => huv (by rw [h])⟩

/-- C39, processors working together: a net disappears exactly when the part of some pin differs
from the *id* of some pin, because the code compares a part with an id. -/
theorem C39_group {N : Nat} {xs : List (Hypergraph × List Net)}
    (hD : Distributed N (xs.map (·.1))) {np : NetPart} (hv : np.Valid xs.length N)
    {d1 : Delivery (Nat × Int)} (hd1 : Fair d1) {d2 : Delivery Nat} (hd2 : Fair d2)
    (hne : ∀ x ∈ xs, ∀ n ∈ x.1.nets, n.vertices ≠ []) :
    ∃ ys, removeCutNetsGroup np d1 d2 xs = .ok ys ∧
      List.Forall₂ (fun x y => WF y.1 ∧ ∀ e, IsNet x.1 e → (¬ IsNet y.1 e ↔
        ∃ u ∈ unionPins (xs.map (·.1)) e, ∃ v ∈ unionPins (xs.map (·.1)) e,
          partOf (unionH N (xs.map (·.1))) u ≠ (v : Int))) xs ys ∧
      ∀ e, IsCut (partOf (unionH N (xs.map (·.1)))) (unionNet (xs.map (·.1)) e) →
        ∀ y ∈ ys, ¬ IsNet y.1 e := by
  have hmemH : ∀ x ∈ xs, x.1 ∈ xs.map (·.1) := fun x hx => List.mem_map.2 ⟨x, hx, rfl⟩
  have hw : ∀ x ∈ xs, WF x.1 := fun x hx => hD.wf _ (hmemH x hx)
  set outs1 := xs.map (fun x => x.1.nets.map
    (fun n => (np.owner n.id, (n.id, netLabel x.1 n)))) with houts
  have hin : ∀ t m, m ∈ inbox d1 outs1 t ↔
      ∃ x ∈ xs, ∃ n ∈ x.1.nets, np.owner n.id = t ∧ m = (n.id, netLabel x.1 n) := by
    intro t m
    rw [mem_inbox hd1, houts]
    simp only [List.mem_map]
    constructor
    · rintro ⟨o, ⟨x, hx, rfl⟩, hm⟩
      obtain ⟨n, hn, he⟩ := List.mem_map.1 hm
      rw [Prod.mk.injEq] at he
      exact ⟨x, hx, n, hn, he.1, he.2.symm⟩
    · rintro ⟨x, hx, n, hn, h1, rfl⟩
      exact ⟨_, ⟨x, hx, rfl⟩, List.mem_map.2 ⟨n, hn, by rw [h1]⟩⟩
  have hcol : ∀ t, ∃ st, (inbox d1 outs1 t).foldlM (collectLabel np)
      (List.replicate (np.count t) (-2), []) = .ok st ∧ Collected np N t (inbox d1 outs1 t) st := by
    intro t
    apply collect_ok hv
    intro m hm
    obtain ⟨x, hx, n, hn, h1, rfl⟩ := (hin t m).1 hm
    exact ⟨hD.ids _ (hmemH x hx) n hn, h1, netLabel_ge n⟩
  choose st hst1 hst2 using hcol
  have hrep : ∀ e, e < N → (e ∈ (st (np.owner e)).2 ↔
      ∃ u ∈ unionPins (xs.map (·.1)) e, ∃ v ∈ unionPins (xs.map (·.1)) e,
        partOf (unionH N (xs.map (·.1))) u ≠ (v : Int)) := by
    intro e he
    rw [(hst2 (np.owner e)).reported]
    have hpin : ∀ u, u ∈ unionPins (xs.map (·.1)) e ↔
        ∃ x ∈ xs, ∃ n ∈ x.1.nets, n.id = e ∧ u ∈ n.vertices := by
      intro u; rw [mem_unionPins]; simp
    have hlab : ∀ l, l ∈ labelsFor e (inbox d1 outs1 (np.owner e)) ↔
        ∃ x ∈ xs, ∃ n ∈ x.1.nets, n.id = e ∧ netLabel x.1 n = l := by
      intro l
      rw [mem_labelsFor, hin]
      constructor
      · rintro ⟨x, hx, n, hn, -, h⟩
        rw [Prod.mk.injEq] at h
        exact ⟨x, hx, n, hn, h.1.symm, h.2.symm⟩
      · rintro ⟨x, hx, n, hn, rfl, rfl⟩
        exact ⟨x, hx, n, hn, rfl, rfl⟩
    rw [slotOf_neg]
    constructor
    · rintro ⟨-, -, h⟩
      rcases h with h | ⟨l, hl, l', hl', hll⟩
      · obtain ⟨x, hx, n, hn, rfl, hneg⟩ := (hlab _).1 h
        obtain ⟨u, hu, v, hv', huv⟩ := netLabel_neg (hne x hx n hn) hneg
        refine ⟨u, (hpin u).2 ⟨x, hx, n, hn, rfl, hu⟩, v, (hpin v).2 ⟨x, hx, n, hn, rfl, hv'⟩, ?_⟩
        rwa [partOf_union_pin hD (hmemH x hx) hn hu]
      · obtain ⟨x, hx, n, hn, h1, rfl⟩ := (hlab _).1 hl
        obtain ⟨x', hx', n', hn', h1', rfl⟩ := (hlab _).1 hl'
        by_cases c : netLabel x.1 n = -1
        · obtain ⟨u, hu, v, hv', huv⟩ := netLabel_neg (hne x hx n hn) c
          refine ⟨u, (hpin u).2 ⟨x, hx, n, hn, h1, hu⟩, v, (hpin v).2 ⟨x, hx, n, hn, h1, hv'⟩, ?_⟩
          rwa [partOf_union_pin hD (hmemH x hx) hn hu]
        · by_cases c' : netLabel x'.1 n' = -1
          · obtain ⟨u, hu, v, hv', huv⟩ := netLabel_neg (hne x' hx' n' hn') c'
            refine ⟨u, (hpin u).2 ⟨x', hx', n', hn', h1', hu⟩, v,
              (hpin v).2 ⟨x', hx', n', hn', h1', hv'⟩, ?_⟩
            rwa [partOf_union_pin hD (hmemH x' hx') hn' hu]
          · obtain ⟨u, hu⟩ := List.exists_mem_of_ne_nil _ (hne x hx n hn)
            obtain ⟨u', hu'⟩ := List.exists_mem_of_ne_nil _ (hne x' hx' n' hn')
            refine ⟨u, (hpin u).2 ⟨x, hx, n, hn, h1, hu⟩, u', (hpin u').2 ⟨x', hx', n', hn', h1', hu'⟩, ?_⟩
            rw [partOf_union_pin hD (hmemH x hx) hn hu, (netLabel_eq c u hu).2,
              (netLabel_eq c' u' hu').1]
            exact hll
    · rintro ⟨u, hu, v, hv', huv⟩
      refine ⟨he, rfl, ?_⟩
      obtain ⟨x, hx, n, hn, h1, hu⟩ := (hpin u).1 hu
      obtain ⟨x', hx', n', hn', h1', hv'⟩ := (hpin v).1 hv'
      by_cases c : netLabel x.1 n = -1
      · left; exact (hlab _).2 ⟨x, hx, n, hn, h1, c⟩
      · by_cases c' : netLabel x'.1 n' = -1
        · left; exact (hlab _).2 ⟨x', hx', n', hn', h1', c'⟩
        · right
          refine ⟨_, (hlab _).2 ⟨x, hx, n, hn, h1, rfl⟩, _, (hlab _).2 ⟨x', hx', n', hn', h1', rfl⟩, ?_⟩
          rw [partOf_union_pin hD (hmemH x hx) hn hu, (netLabel_eq c u hu).2] at huv
          rwa [← (netLabel_eq c' v hv').1]
  -- the run
  set ids := (List.range xs.length).flatMap (fun t => (st t).2) with hids
  have hidsmem : ∀ e, e < N → (e ∈ ids ↔ e ∈ (st (np.owner e)).2) := by
    intro e he
    rw [hids, List.mem_flatMap]
    constructor
    · rintro ⟨t, -, h⟩
      have := ((hst2 t).reported e).1 h
      rw [this.2.1]; exact h
    · intro h
      exact ⟨np.owner e, List.mem_range.2 (hv.owner_lt e he), h⟩
  have hrun : ∃ ys, removeCutNetsGroup np d1 d2 xs = .ok ys ∧
      List.Forall₂ (fun x y => SetAside ids x.1 x.2 y) xs ys := by
    unfold removeCutNetsGroup
    rw [mapM_ok (g := fun x => x.1.nets.map (fun n => (np.owner n.id, (n.id, netLabel x.1 n)))) xs (by
      intro x hx
      exact sendLabels_ok hv (hw x hx) (hD.ids _ (hmemH x hx)) (hne x hx)), ok_bind, ← houts,
      mapM_ok (g := fun t => toAll xs.length (st t).2) (List.range xs.length) (by
        intro t _; rw [hst1 t]; rfl), ok_bind]
    have key : ∀ t, t < xs.length → ∀ x ∈ xs,
        ∃ y, (inbox d2 ((List.range xs.length).map (fun t => toAll xs.length (st t).2)) t).foldlM
          setAside x = .ok y ∧ SetAside ids x.1 x.2 y := by
      intro t ht x hx
      obtain ⟨y, h1, h2⟩ := setAside_ok
        (inbox d2 ((List.range xs.length).map (fun t => toAll xs.length (st t).2)) t) (hw x hx) x.2
      refine ⟨y, h1, h2.congr ?_⟩
      intro e
      rw [mem_inbox hd2]
      simp only [List.mem_map, hids, List.mem_flatMap]
      constructor
      · rintro ⟨l, ⟨r, hr, rfl⟩, hm⟩
        exact ⟨r, hr, (mem_toAll.1 hm).2⟩
      · rintro ⟨r, hr, hm⟩
        exact ⟨_, ⟨r, hr, rfl⟩, mem_toAll.2 ⟨ht, hm⟩⟩
    generalize inbox d2 ((List.range xs.length).map (fun t => toAll xs.length (st t).2)) = I at key
    obtain ⟨ys, h1, h2⟩ := mapM_forall2 (f := fun (xt : (Hypergraph × List Net) × Nat) =>
      (I xt.2).foldlM setAside xt.1) (R := fun xt y => SetAside ids xt.1.1 xt.1.2 y) xs.zipIdx (by
      rintro ⟨x, t⟩ hx
      have := List.mem_zipIdx hx
      exact key t (by omega) x (List.fst_mem_of_mem_zipIdx hx))
    refine ⟨ys, h1, ?_⟩
    have h3 : List.Forall₂ (fun (x : Hypergraph × List Net) y => SetAside ids x.1 x.2 y)
        (xs.zipIdx.map Prod.fst) ys := List.forall₂_map_left_iff.2 h2
    rwa [List.zipIdx_map_fst] at h3
  obtain ⟨ys, h1, h2⟩ := hrun
  have hgone : ∀ x ∈ xs, ∀ y, SetAside ids x.1 x.2 y → ∀ e, IsNet x.1 e → (¬ IsNet y.1 e ↔
      ∃ u ∈ unionPins (xs.map (·.1)) e, ∃ v ∈ unionPins (xs.map (·.1)) e,
        partOf (unionH N (xs.map (·.1))) u ≠ (v : Int)) := by
    intro x hx y hxy e he
    have heN : e < N := by
      obtain ⟨n, hn, hid⟩ := List.mem_map.1 he
      have hid : n.id = e := hid
      rw [← hid]; exact hD.ids _ (hmemH x hx) n hn
    rw [hxy.gone_iff he, hidsmem e heN, hrep e heN]
  refine ⟨ys, h1, ?_, ?_⟩
  · refine forall2_imp_mem h2 ?_
    intro x y hx hxy
    exact ⟨hxy.wf, hgone x hx y hxy⟩
  · intro e hcut y hy hnet
    obtain ⟨x, hx, hxy⟩ := forall2_right h2 hy
    have he : IsNet x.1 e := by
      obtain ⟨m, hm, hid⟩ := List.mem_map.1 hnet
      exact List.mem_map.2 ⟨m, (List.mem_filter.1 (hxy.nets.mem_iff.1 hm)).1, hid⟩
    refine (hgone x hx y hxy e he).2 ?_ hnet
    obtain ⟨u, hu, v, hv', huv⟩ := hcut
    by_cases c : partOf (unionH N (xs.map (·.1))) u = (u : Int)
    · by_cases c' : partOf (unionH N (xs.map (·.1))) v = (u : Int)
      · exact absurd (c.trans c'.symm) huv
      · exact ⟨v, hv', u, hu, c'⟩
    · exact ⟨u, hu, u, hu, c⟩

/-- All four vertices of the example in part 0. -/
def exampleUncut : Hypergraph :=
  { exampleH with vertices := exampleH.vertices.map (fun v => { v with part := 0 }) }

/-- C39 is false: with all vertices in one part no net is cut, and all nets are set aside. -/
theorem C39_false : WF exampleUncut ∧ (∀ n ∈ exampleUncut.nets, ¬ IsCut (partOf exampleUncut) n) ∧
    (removeCutNetsAlone (revDelivery _) [(exampleUncut, [])]).toOption.map
      (fun ys => ys.map (fun y => (y.1.nets.map (·.id), y.2.map (·.id)))) =
      some [([], [0, 2, 5])] := by
  refine ⟨WF_create (by decide) (by decide) (by decide) (by decide) (by decide) (by decide),
    by decide, by decide +kernel⟩

/-- C39 is also false for two processors working together: net 2 has two pins, both in part 1 after
relabelling, and is set aside. -/
theorem C39_group_false :
    (removeCutNetsGroup (blockPart 2 3) (revDelivery _) (revDelivery _)
      (exampleD.map (fun H => ({ H with vertices := H.vertices.map (fun v => { v with part := 1 }) },
        [])))).toOption.map
      (fun ys => ys.map (fun y => (y.1.nets.map (·.id), y.2.map (·.id)))) =
      some [([], [2, 1, 0]), ([], [2, 0])] := by
  decide +kernel

/-- A net with one pin stays, a net with two pins goes. -/
example : (removeCutNetsAlone (revDelivery _) (exampleD.map (fun H => (H, [])))).toOption.map
    (fun ys => ys.map (fun y => (y.1.nets.map (·.id), y.2.map (·.id)))) =
    some [([1, 2], [0]), ([2], [0])] := by decide +kernel

/-- A net without pins is undefined behaviour (`vertices[0]`). -/
theorem C39_empty_net {d : Delivery Nat} {H : Hypergraph} {cut : List Net} {n : Net} {ns : List Net}
    (h : H.nets = n :: ns) (hn : n.vertices = []) :
    removeCutNetsAlone d [(H, cut)] = .error .ub := by
  have : reportedNets H = .error .ub := by
    unfold reportedNets
    rw [h, List.foldlM_cons, reportsNet_empty H hn]
    rfl
  unfold removeCutNetsAlone
  rw [List.mapM_cons, this]
  rfl

/-! ### C40 -/

/-- What remains after setting aside and adding back: every net with its pins and cost is there
again, but the removed nets are missing from the lists of the vertices. -/
structure NetsBack (gone : Nat → Prop) (H H' : Hypergraph) : Prop where
  nets : (H'.nets.map (fun n => (n.id, n.vertices, n.cost))).Perm
    (H.nets.map (fun n => (n.id, n.vertices, n.cost)))
  maps : ∀ e j, H'.nmap e = some j ↔ (H'.nets.map (·.id))[j]? = some e
  vmap : H'.vmap = H.vmap
  vertices : List.Forall₂ (fun v v' => v'.id = v.id ∧ v'.weight = v.weight ∧ v'.part = v.part ∧
    ∀ e, e ∈ v'.nets ↔ e ∈ v.nets ∧ ¬ gone e) H.vertices H'.vertices

theorem asideCopy_key (n : Net) : ((asideCopy n).id, (asideCopy n).vertices, (asideCopy n).cost) =
    (n.id, n.vertices, n.cost) := rfl

theorem setAside_pins {ids : List Nat} {H : Hypergraph} (w : WF H)
    (hne : ∀ n ∈ H.nets, n.vertices ≠ []) {y : Hypergraph × List Net} (h : SetAside ids H [] y) :
    ∀ n ∈ y.2, n.vertices ≠ [] ∧ ∀ u ∈ n.vertices, y.1.isLocal u = true := by
  obtain ⟨l, l1, l2⟩ := h.cut
  rw [List.nil_append] at l1
  intro n hn
  rw [l1, l2.mem_iff, List.mem_map] at hn
  obtain ⟨m, hm, rfl⟩ := hn
  have hm := (List.mem_filter.1 hm).1
  refine ⟨hne m hm, fun u hu => ?_⟩
  unfold Hypergraph.isLocal
  rw [h.vmap]
  exact (isLocal_iff w u).2 (pins_isVertex w hm u hu)

theorem setAside_restored {ids : List Nat} {H : Hypergraph} (w : WF H)
    {y : Hypergraph × List Net} (h : SetAside ids H [] y) :
    NetsBack (· ∈ ids) H (addedBack y.1 y.2) := by
  obtain ⟨l, l1, l2⟩ := h.cut
  rw [List.nil_append] at l1
  have hkeep : ∀ {α : Type} (f : Net → α), (∀ n, f (asideCopy n) = f n) →
      ((y.1.nets ++ y.2).map f).Perm (H.nets.map f) := by
    intro α f hf
    rw [List.map_append, l1]
    refine (List.Perm.append (h.nets.map f) (l2.map f)).trans ?_
    rw [List.map_map, show f ∘ asideCopy = f from funext hf, ← List.map_append]
    refine List.Perm.map f ?_
    refine List.perm_append_comm.trans ?_
    have := List.filter_append_perm (fun n : Net => decide (n.id ∈ ids)) H.nets
    simpa using this
  have hnd : ((y.1.nets ++ y.2).map (·.id)).Nodup := (hkeep (·.id) (fun _ => rfl)).nodup_iff.2 w.nids
  obtain ⟨g1, g2, g3, g4, -⟩ := addedBack_ok y.2 h.wf.nmap hnd
  refine ⟨?_, g4, by rw [g2, h.vmap], ?_⟩
  · rw [g3, List.map_append, List.map_map]
    have := hkeep (fun n => (n.id, n.vertices, n.cost)) (fun _ => rfl)
    rw [List.map_append] at this
    exact this
  · rw [g1]; exact h.vertices

/-- C40: setting aside and adding back on processors working alone restores every net with its pins
and cost, the map of the nets, and every vertex. What is missing: the vertex-side lists have lost
the nets that were set aside (for every hypergraph in which a net was set aside,
`C40_lists_lost`), and the global sizes are gone. -/
theorem C40_partial {d1 : Delivery Nat} (hd1 : Fair d1) {d2 : Delivery (Nat × Nat × Int)}
    (hd2 : Fair d2) {Hs : List Hypergraph} (hw : ∀ H ∈ Hs, WF H)
    (hne : ∀ H ∈ Hs, ∀ n ∈ H.nets, n.vertices ≠ []) :
    ∃ ys zs, removeCutNetsAlone d1 (Hs.map (fun H => (H, []))) = .ok ys ∧
      addCutNets d2 ys = .ok zs ∧
      List.Forall₂ (NetsBack (fun e => ∃ K ∈ Hs, ∃ n ∈ K.nets, n.id = e ∧ 2 ≤ n.vertices.length))
        Hs zs := by
  obtain ⟨ys, h1, h2⟩ := removeCutNetsAlone_ok hd1 (xs := Hs.map (fun H => (H, [])))
    (by intro x hx; obtain ⟨H, hH, rfl⟩ := List.mem_map.1 hx; exact hw H hH)
    (by intro x hx; obtain ⟨H, hH, rfl⟩ := List.mem_map.1 hx; exact hne H hH)
  have hF : List.Forall₂ (fun H y => SetAside (allManyPins (Hs.map (fun H => (H, [])))) H [] y) Hs ys :=
    List.forall₂_map_left_iff.1 h2
  refine ⟨ys, ys.map (fun x => addedBack x.1 x.2), h1, addCutNets_local hd2 ?_, ?_⟩
  · intro y hy n hn
    obtain ⟨H, hH, hHy⟩ := forall2_right hF hy
    exact setAside_pins (hw H hH) (hne H hH) hHy n hn
  · rw [List.forall₂_map_right_iff]
    refine forall2_imp_mem hF ?_
    intro H y hH hHy
    have hr := setAside_restored (hw H hH) hHy
    refine ⟨hr.nets, hr.maps, hr.vmap, hr.vertices.imp ?_⟩
    rintro v v' ⟨a1, a2, a3, a4⟩
    refine ⟨a1, a2, a3, fun e => ?_⟩
    rw [a4 e]
    refine and_congr_right fun _ => not_congr ?_
    unfold allManyPins
    simp only [List.mem_flatMap, List.mem_map, exists_exists_and_eq_and, mem_manyPins]

/-- C40 is false whenever a net was set aside: its pins no longer list it. -/
theorem C40_lists_lost {gone : Nat → Prop} {H H' : Hypergraph} (h : NetsBack gone H H') :
    ∀ v' ∈ H'.vertices, ∀ e ∈ v'.nets, ¬ gone e := by
  intro v' hv' e he
  obtain ⟨v, -, hv⟩ := forall2_right h.vertices hv'
  exact ((hv.2.2.2 e).1 he).2

set_option synthInstance.maxSize 1000 in
/-- C40 is false: vertex 1 of the example loses both its nets, although the nets are back. -/
theorem C40_false : WF exampleH ∧
    ((removeCutNetsAlone (revDelivery _) [(exampleH, [])]).toOption.bind
      (fun ys => (addCutNets (revDelivery _) ys).toOption)).map (fun zs => zs.map (fun H =>
        (H.vertices.map (·.nets), H.nets.map (fun n => (n.id, n.vertices, n.globalSize))))) =
      some [([[], [], [], []], [(0, [2, 7, 3], 0), (2, [1, 7, 3], 0), (5, [1, 2, 3], 0)])] :=
  ⟨exampleH_wf, by decide +kernel⟩

end PMondriaan

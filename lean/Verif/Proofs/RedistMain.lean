import Verif.Proofs.RedistAll
import Verif.Proofs.ParPass
import Verif.Spec.Redistribute

/-
Redistribution: all processors together.
-/

namespace PMondriaan

open Spec

/-! ### Lists -/

theorem zipIdx_rangeMap {α : Type} (p : Nat) (A : Nat → α) :
    ((List.range p).map A).zipIdx = (List.range p).map (fun t => (A t, t)) := by
  apply List.ext_getElem?
  intro i
  rw [List.getElem?_zipIdx]
  by_cases h : i < p
  · simp [h]
  · simp [h]

theorem byTarget_perm {M : Type} (p : Nat) (ms : List (Nat × M)) (h : ∀ m ∈ ms, m.1 < p) :
    ((List.range p).flatMap (fun t => (ms.filter (fun m => m.1 = t)).map (·.2))).Perm (ms.map (·.2)) := by
  suffices H : ∀ k, ((List.range k).flatMap (fun t => (ms.filter (fun m => m.1 = t)).map (·.2))).Perm
      ((ms.filter (fun m => m.1 < k)).map (·.2)) by
    have := H p
    rwa [List.filter_eq_self.2 (by simpa using h)] at this
  intro k
  induction k with
  | zero => simp
  | succ k ih =>
    rw [List.range_succ, List.flatMap_append, List.flatMap_singleton]
    refine (ih.append_right _).trans ?_
    rw [← List.map_append]
    apply List.Perm.map
    have h1 := List.filter_append_perm (fun m : Nat × M => decide (m.1 < k)) (ms.filter (fun m => m.1 < k + 1))
    rw [List.filter_filter, List.filter_filter] at h1
    have e1 : ms.filter (fun m => decide (m.1 < k) && decide (m.1 < k + 1)) = ms.filter (fun m => m.1 < k) := by
      apply List.filter_congr
      intro m _
      by_cases h : m.1 < k
      · simp [h, Nat.lt_succ_of_lt h]
      · simp [h]
    have e2 : ms.filter (fun m => !decide (m.1 < k) && decide (m.1 < k + 1)) = ms.filter (fun m => m.1 = k) := by
      apply List.filter_congr
      intro m _
      rw [Bool.eq_iff_iff]
      simp
      omega
    rw [e1, e2] at h1
    exact h1

theorem redist_of {N : Nat} {Hs Hs' : List Hypergraph} (D : Distributed N Hs) (hlen : Hs'.length = Hs.length)
    (hwf : ∀ H ∈ Hs', WF H) (hv : (Hs'.flatMap (·.vertices)).Perm (Hs.flatMap (·.vertices)))
    (hn : ∀ H ∈ Hs', ∀ n ∈ H.nets, ∃ H0 ∈ Hs, ∃ n0 ∈ H0.nets, n0.id = n.id ∧ n0.cost = n.cost)
    (hn' : ∀ H ∈ Hs, ∀ n ∈ H.nets, ∃ H' ∈ Hs', IsNet H' n.id)
    (hs : Hs'.map sizes = Hs.map sizes) : Redistributed N Hs Hs' := by
  have D' : Distributed N Hs' := by
    refine ⟨hwf, (hv.map _).nodup_iff.2 D.disjoint, ?_, ?_⟩
    · intro H hH n hn1
      obtain ⟨H0, h0, n0, h1, h2, -⟩ := hn H hH n hn1
      rw [← h2]; exact D.ids H0 h0 n0 h1
    · intro H hH H' hH' n hn1 n' hn1' he
      obtain ⟨H0, h0, n0, h1, h2, h3⟩ := hn H hH n hn1
      obtain ⟨H0', h0', n0', h1', h2', h3'⟩ := hn H' hH' n' hn1'
      rw [← h3, ← h3']
      exact D.costs H0 h0 H0' h0' n0 h1 n0' h1' (by rw [h2, h2', he])
  have hmem : ∀ {Ks : List Hypergraph}, Distributed N Ks → ∀ e u, u ∈ unionPins Ks e ↔
      ∃ v ∈ Ks.flatMap (·.vertices), v.id = u ∧ e ∈ v.nets := by
    intro Ks DK e u
    rw [mem_unionPins]
    constructor
    · rintro ⟨H, hH, n, hn, rfl, hu⟩
      obtain ⟨v, hv, h1, h2⟩ := (DK.wf H hH).inc_vtx n hn u hu
      exact ⟨v, List.mem_flatMap.2 ⟨H, hH, hv⟩, h1, h2⟩
    · rintro ⟨v, hv, rfl, he⟩
      obtain ⟨H, hH, hv⟩ := List.mem_flatMap.1 hv
      obtain ⟨n, hn, h1, h2⟩ := (DK.wf H hH).inc_net v hv e he
      exact ⟨H, hH, n, hn, h1, h2⟩
  have hnd : ∀ {Ks : List Hypergraph}, Distributed N Ks → ∀ e, (unionPins Ks e).Nodup := by
    intro Ks DK e
    by_cases he : e < N
    · exact (unionH_wf DK).npins (unionNet Ks e)
        (List.mem_map.2 ⟨e, List.mem_range.2 he, rfl⟩)
    · have : unionPins Ks e = [] := by
        rw [List.eq_nil_iff_forall_not_mem]
        intro u hu
        obtain ⟨H, hH, n, hn, h1, -⟩ := mem_unionPins.1 hu
        have := DK.ids H hH n hn
        omega
      rw [this]; exact List.nodup_nil
  refine ⟨hlen, D', hv, ?_, ?_, ?_, hs⟩
  · intro e
    rw [List.perm_ext_iff_of_nodup (hnd D' e) (hnd D e)]
    intro u
    rw [hmem D', hmem D]
    constructor <;> rintro ⟨v, h1, h2⟩
    · exact ⟨v, hv.mem_iff.1 h1, h2⟩
    · exact ⟨v, hv.mem_iff.2 h1, h2⟩
  · intro e
    by_cases he : ∃ H ∈ Hs, IsNet H e
    · obtain ⟨H, hH, he⟩ := he
      obtain ⟨n, h1, rfl⟩ := List.mem_map.1 he
      obtain ⟨H', hH', he'⟩ := hn' H hH n h1
      obtain ⟨n', h1', h2'⟩ := List.mem_map.1 he'
      rw [unionCost_eq D hH h1]
      show unionCost Hs' n.id = n.cost
      rw [← h2', unionCost_eq D' hH' h1']
      obtain ⟨H0, h0, n0, h3, h4, h5⟩ := hn H' hH' n' h1'
      rw [← h5]
      exact D.costs H0 h0 H hH n0 h3 n h1 (h4.trans h2')
    · have h1 : ∀ {Ks : List Hypergraph}, (¬ ∃ H ∈ Ks, IsNet H e) → unionCost Ks e = 0 := by
        intro Ks h
        unfold unionCost
        rw [List.find?_eq_none.2]
        intro n hn hne
        obtain ⟨H, hH, hn⟩ := List.mem_flatMap.1 hn
        exact h ⟨H, hH, List.mem_map.2 ⟨n, hn, by simpa using hne⟩⟩
      rw [h1 he, h1]
      rintro ⟨H', hH', he'⟩
      obtain ⟨n', h1', h2'⟩ := List.mem_map.1 he'
      obtain ⟨H0, h0, n0, h3, h4, -⟩ := hn H' hH' n' h1'
      exact he ⟨H0, h0, List.mem_map.2 ⟨n0, h3, h4.trans h2'⟩⟩
  · intro e
    constructor
    · rintro ⟨H', hH', he'⟩
      obtain ⟨n', h1', h2'⟩ := List.mem_map.1 he'
      obtain ⟨H0, h0, n0, h3, h4, -⟩ := hn H' hH' n' h1'
      exact ⟨H0, h0, List.mem_map.2 ⟨n0, h3, h4.trans h2'⟩⟩
    · rintro ⟨H, hH, he⟩
      obtain ⟨n, h1, rfl⟩ := List.mem_map.1 he
      exact hn' H hH n h1

/-! ### All processors -/

def argAt (args : List RedistArgs) (t : Nat) : RedistArgs :=
  args.getD t ⟨Hypergraph.create 0 0 [] [], 0, 0, 0⟩

theorem argAt_map (args : List RedistArgs) : args = (List.range args.length).map (argAt args) := by
  apply List.ext_getElem?
  intro i
  by_cases h : i < args.length
  · simp [h, argAt]
  · simp [h]

theorem argAt_mem {args : List RedistArgs} {t : Nat} (ht : t < args.length) : argAt args t ∈ args := by
  have h := List.mem_map_of_mem (f := argAt args) (List.mem_range.2 ht)
  rwa [← argAt_map args] at h

/-- The surplus of the low and of the high label. -/
def sur0 (plow : Nat) (args : List RedistArgs) (t : Nat) : Int := (surplusOf plow t (argAt args t)).1
def sur1 (plow : Nat) (args : List RedistArgs) (t : Nat) : Int := (surplusOf plow t (argAt args t)).2

/-- The messages sent to `t`. -/
def gotAt (p : Nat) (new : Nat → List (Nat × Vertex)) (t : Nat) : List Vertex :=
  (((List.range p).flatMap new).filter (fun m => m.1 = t)).map (·.2)

/-- The result on all processors. -/
structure RedistOut (plow : Nat) (low high : Int) (W : Int) (args : List RedistArgs)
    (res : Nat → Hypergraph × Int) (o : Nat → Outgoing) (vs0 : Nat → List Vertex)
    (new0 new1 : Nat → List (Nat × Vertex)) (R : Nat → List Vertex) : Prop where
  sent : ∀ t, t < args.length → SentOut args.length t plow low high (sur0 plow args) (sur1 plow args) W
    (argAt args t).H (o t) (vs0 t) (new0 t) (new1 t)
  got : ∀ t, t < args.length → (R t).Perm (gotAt args.length (fun s => new1 s ++ new0 s) t)
  wf : ∀ t, t < args.length → WF (res t).1
  verts : ∀ t, t < args.length → (res t).1.vertices = (o t).H.vertices ++ R t ++ vs0 t
  fin : ∀ t, t < args.length → (res t).2 = ((o t).H.vertices ++ R t).length
  nets : ∀ t, t < args.length → ∀ n ∈ (res t).1.nets, ∃ s, s < args.length ∧
    ∃ n' ∈ (argAt args s).H.nets, n'.id = n.id ∧ n'.cost = n.cost
  isNet : ∀ t, t < args.length → ∀ n ∈ (argAt args t).H.nets, IsNet (res t).1 n.id

theorem allSent_perm {plow : Nat} {low high : Int} {W : Int} {args : List RedistArgs} {o : Nat → Outgoing}
    {vs0 : Nat → List Vertex} {new0 new1 : Nat → List (Nat × Vertex)}
    (h : ∀ t, t < args.length → SentOut args.length t plow low high (sur0 plow args) (sur1 plow args) W
      (argAt args t).H (o t) (vs0 t) (new0 t) (new1 t)) :
    ((List.range args.length).flatMap (fun t => (o t).H.vertices ++ vs0 t) ++
      ((List.range args.length).flatMap (fun s => new1 s ++ new0 s)).map (·.2)).Perm
      ((args.map (·.H)).flatMap (·.vertices)) := by
  conv_rhs => rw [argAt_map args]
  rw [List.map_map, List.flatMap_map, List.map_flatMap]
  refine (List.flatMap_append_perm _ _ _).trans ?_
  apply List.Perm.flatMap_left
  intro t ht
  exact (h t (List.mem_range.1 ht)).left.perm

theorem redistribute_ok {ord : List Nat → List Nat} (hord : ∀ l, (ord l).Perm l) {dv : Delivery Vertex}
    (hdv : Fair dv) {dc : Delivery (Nat × Int)} (hdc : Fair dc) {N : Nat} {plow : Nat} {low high : Int}
    (hlh : low ≠ high) {args : List RedistArgs} (D : Distributed N (args.map (·.H)))
    (hn : ∀ a ∈ args, WeightsNonneg a.H)
    (hw : ∀ a ∈ args, a.w0 ≤ partWeight a.H low ∧ a.w1 ≤ partWeight a.H high)
    (hm : ∀ a ∈ args, 0 ≤ a.maxLocal) (W : Int) :
    ∃ res o vs0 new0 new1 R, redistribute ord dv dc plow low high args =
        .ok ((List.range args.length).map res) ∧ RedistOut plow low high W args res o vs0 new0 new1 R := by
  set p := args.length with hp
  have hH : ∀ t, t < p → (argAt args t).H ∈ args.map (·.H) := fun t ht => List.mem_map_of_mem (argAt_mem ht)
  have hsur : args.zipIdx.map (fun (x : RedistArgs × Nat) => surplusOf plow x.2 x.1) =
      (List.range p).map (fun t => surplusOf plow t (argAt args t)) := by
    conv_lhs => rw [argAt_map args]
    rw [zipIdx_rangeMap, List.map_map]
    rfl
  have hs : ∀ t, t < p → ∃ x : (Outgoing × List Vertex) × (List (Nat × Vertex) × List (Nat × Vertex)),
      redistSend ord p t plow low high
        (((List.range p).map (fun t => surplusOf plow t (argAt args t))).map (·.1))
        (((List.range p).map (fun t => surplusOf plow t (argAt args t))).map (·.2)) (argAt args t).H = .ok x.1 ∧
      SentOut p t plow low high (sur0 plow args) (sur1 plow args) W (argAt args t).H x.1.1 x.1.2 x.2.1 x.2.2 := by
    intro t ht
    have ha := argAt_mem ht
    obtain ⟨hw0, hw1⟩ := hw _ ha
    have hm := hm _ ha
    have hp0 : 0 ≤ partWeight (argAt args t).H low := partSum_nonneg (hn _ ha) low
    have hp1 : 0 ≤ partWeight (argAt args t).H high := partSum_nonneg (hn _ ha) high
    obtain ⟨o, vs0, new0, new1, h1, h2⟩ := redistSend_ok hord ht hlh (plow := plow)
      (l0 := ((List.range p).map (fun t => surplusOf plow t (argAt args t))).map (·.1))
      (l1 := ((List.range p).map (fun t => surplusOf plow t (argAt args t))).map (·.2))
      (sur0 := sur0 plow args) (sur1 := sur1 plow args)
      (fun t ht => by simp [ht, sur0]) (fun t ht => by simp [ht, sur1]) W (D.wf _ (hH t ht)) (hn _ ha)
      (by unfold sur0 surplusOf; split <;> dsimp only <;> omega)
      (by unfold sur1 surplusOf; split <;> dsimp only <;> omega)
    exact ⟨((o, vs0), (new0, new1)), h1, h2⟩
  have : Inhabited ((Outgoing × List Vertex) × (List (Nat × Vertex) × List (Nat × Vertex))) :=
    ⟨((⟨Hypergraph.create 0 0 [] [], [], []⟩, []), ([], []))⟩
  choose! x hx1 hx2 using hs
  set news : Nat → List (Nat × Vertex) := fun s => (x s).2.2 ++ (x s).2.1 with hnews
  have houts : args.zipIdx.mapM (fun (y : RedistArgs × Nat) => redistSend ord p y.2 plow low high
      (((List.range p).map (fun t => surplusOf plow t (argAt args t))).map (·.1))
      (((List.range p).map (fun t => surplusOf plow t (argAt args t))).map (·.2)) y.1.H) =
      .ok ((List.range p).map (fun t => (x t).1)) := by
    have hz : args.zipIdx = (List.range p).map (fun t => (argAt args t, t)) := by
      conv_lhs => rw [argAt_map args]
      exact zipIdx_rangeMap _ _
    rw [hz]
    exact mapM_rangeMap hx1
  have hall := allSent_perm hx2
  have hndall := ((hall.map (·.id)).nodup_iff.2 D.disjoint)
  have hverts : (((List.range p).map (fun t => (x t).1)).map (·.1.verts)).flatten = (List.range p).flatMap news := by
    rw [List.map_map, ← List.flatMap_def]
    apply List.flatMap_congr
    intro t ht
    exact (hx2 t (List.mem_range.1 ht)).verts
  have hR : ∀ t, (inbox dv (((List.range p).map (fun t => (x t).1)).map (·.1.verts)) t).Perm (gotAt p news t) := by
    intro t
    have := inbox_perm hdv (((List.range p).map (fun t => (x t).1)).map (·.1.verts)) t
    rw [hverts] at this
    exact this
  have hf : ∀ t, t < p → ∃ H', redistFinish plow (x t).1.1.H (x t).1.2
      (inbox dc (((List.range p).map (fun t => (x t).1)).map (·.1.costs)) t)
      (inbox dv (((List.range p).map (fun t => (x t).1)).map (·.1.verts)) t) =
        .ok (H', (((x t).1.1.H.vertices ++ inbox dv (((List.range p).map (fun t => (x t).1)).map (·.1.verts)) t).length : Int)) ∧
      WF H' ∧ H'.vertices = (x t).1.1.H.vertices ++
        inbox dv (((List.range p).map (fun t => (x t).1)).map (·.1.verts)) t ++ (x t).1.2 ∧
      (∀ n ∈ H'.nets, (∃ n' ∈ (x t).1.1.H.nets, n'.id = n.id ∧ n'.cost = n.cost) ∨
        (n.id, n.cost) ∈ inbox dc (((List.range p).map (fun t => (x t).1)).map (·.1.costs)) t) ∧
      (∀ e, IsNet (x t).1.1.H e → IsNet H' e) := by
    intro t ht
    have hS := hx2 t ht
    apply redistFinish_ok hS.left.wf
    · intro h
      rw [hS.back, if_neg h]
    · have h1 : (((x t).1.1.H.vertices ++ (x t).1.2 ++ gotAt p news t).map (·.id)).Nodup := by
        refine List.Nodup.sublist ?_ hndall
        apply List.Sublist.map
        apply List.Sublist.append
        · rw [List.flatMap_def]
          exact List.sublist_flatten_of_mem (List.mem_map.2 ⟨t, List.mem_range.2 ht, rfl⟩)
        · exact List.Sublist.map _ List.filter_sublist
      exact (((hR t).append_left _).map _).nodup_iff.2 h1
    · intro v hv
      rw [(hR t).mem_iff] at hv
      obtain ⟨m, hm1, rfl⟩ := List.mem_map.1 hv
      obtain ⟨s, hs, hm2⟩ := List.mem_flatMap.1 (List.mem_filter.1 hm1).1
      have hs := List.mem_range.1 hs
      exact (D.wf _ (hH s hs)).vnets _ ((hx2 s hs).left.mem_sent (List.mem_map_of_mem hm2))
    · intro v hv e he
      obtain ⟨out, ho, hv⟩ := (mem_inbox hdv).1 hv
      obtain ⟨y, hy, rfl⟩ := List.mem_map.1 ho
      obtain ⟨s, hs, rfl⟩ := List.mem_map.1 hy
      obtain ⟨c, hc⟩ := (hx2 s (List.mem_range.1 hs)).net1 _ hv e he
      exact ⟨c, (mem_inbox hdc).2 ⟨_, List.mem_map_of_mem (List.mem_map_of_mem hs), hc⟩⟩
  have : Inhabited Hypergraph := ⟨Hypergraph.create 0 0 [] []⟩
  choose! H' hf1 hf2 hf3 hf4 hf5 using hf
  refine ⟨fun t => (H' t, (((x t).1.1.H.vertices ++ inbox dv (((List.range p).map (fun t => (x t).1)).map (·.1.verts)) t).length : Int)),
    fun t => (x t).1.1, fun t => (x t).1.2, fun t => (x t).2.1, fun t => (x t).2.2,
    fun t => inbox dv (((List.range p).map (fun t => (x t).1)).map (·.1.verts)) t, ?_, ?_⟩
  · unfold redistribute
    dsimp only
    rw [← hp]
    rw [hsur, houts, ok_bind, zipIdx_rangeMap]
    exact mapM_rangeMap hf1
  · refine ⟨hx2, fun t _ => hR t, hf2, hf3, fun t _ => rfl, ?_, ?_⟩
    · intro t ht n hn1
      rcases hf4 t ht n hn1 with ⟨n', h1, h2, h3⟩ | h1
      · obtain ⟨n'', h4, h5, h6⟩ := (hx2 t ht).left.wasNet (n := n') h1
        exact ⟨t, ht, n'', h4, h5.trans h2, h6.trans h3⟩
      · obtain ⟨out, ho, hv⟩ := (mem_inbox hdc).1 h1
        obtain ⟨y, hy, rfl⟩ := List.mem_map.1 ho
        obtain ⟨s, hs, rfl⟩ := List.mem_map.1 hy
        obtain ⟨-, n', h2, h3⟩ := (hx2 s (List.mem_range.1 hs)).net2 _ hv
        exact ⟨s, List.mem_range.1 hs, n', h2, h3⟩
    · intro t ht n hn1
      obtain ⟨n', h1, h2, -⟩ := (hx2 t ht).left.isNet hn1
      exact hf5 t ht n.id (List.mem_map.2 ⟨n', h1, h2⟩)

theorem RedistOut.vertices {plow : Nat} {low high W : Int} {args : List RedistArgs}
    {res : Nat → Hypergraph × Int} {o : Nat → Outgoing} {vs0 : Nat → List Vertex}
    {new0 new1 : Nat → List (Nat × Vertex)} {R : Nat → List Vertex}
    (h : RedistOut plow low high W args res o vs0 new0 new1 R) :
    ((((List.range args.length).map res).map (·.1)).flatMap (·.vertices)).Perm
      ((args.map (·.H)).flatMap (·.vertices)) := by
  refine List.Perm.trans ?_ (allSent_perm h.sent)
  rw [List.map_map, List.flatMap_map]
  refine List.Perm.trans (l₂ := (List.range args.length).flatMap
    (fun t => ((o t).H.vertices ++ vs0 t) ++ gotAt args.length (fun s => new1 s ++ new0 s) t)) ?_ ?_
  · apply List.Perm.flatMap_left
    intro t ht
    have ht := List.mem_range.1 ht
    simp only [Function.comp_def]
    rw [h.verts t ht, List.append_assoc, List.append_assoc]
    exact (List.perm_append_comm.trans ((h.got t ht).append_left _)).append_left _
  · refine (List.flatMap_append_perm _ _ _).symm.trans ?_
    apply List.Perm.append_left
    apply byTarget_perm
    intro m hm
    obtain ⟨s, hs, hm⟩ := List.mem_flatMap.1 hm
    have hS := h.sent s (List.mem_range.1 hs)
    rcases List.mem_append.1 hm with hm | hm
    · exact (hS.mem1 m hm).2.1
    · exact (hS.mem0 m hm).2.1

theorem RedistOut.redistributed {N plow : Nat} {low high W : Int} {args : List RedistArgs}
    {res : Nat → Hypergraph × Int} {o : Nat → Outgoing} {vs0 : Nat → List Vertex}
    {new0 new1 : Nat → List (Nat × Vertex)} {R : Nat → List Vertex} (D : Distributed N (args.map (·.H)))
    (h : RedistOut plow low high W args res o vs0 new0 new1 R)
    (hs : (((List.range args.length).map res).map (·.1)).map sizes = (args.map (·.H)).map sizes) :
    Redistributed N (args.map (·.H)) (((List.range args.length).map res).map (·.1)) := by
  have hH : ∀ t, t < args.length → (argAt args t).H ∈ args.map (·.H) :=
    fun t ht => List.mem_map_of_mem (argAt_mem ht)
  refine redist_of D (by simp) ?_ ?_ ?_ ?_ hs
  · intro H hH
    rw [List.map_map] at hH
    obtain ⟨t, ht, rfl⟩ := List.mem_map.1 hH
    exact h.wf t (List.mem_range.1 ht)
  · exact h.vertices
  · intro H hH' n hn
    rw [List.map_map] at hH'
    obtain ⟨t, ht, rfl⟩ := List.mem_map.1 hH'
    obtain ⟨s, hs, n', h1, h2⟩ := h.nets t (List.mem_range.1 ht) n hn
    exact ⟨_, hH s hs, n', h1, h2⟩
  · intro H hH' n hn
    rw [argAt_map args, List.map_map] at hH'
    obtain ⟨t, ht, rfl⟩ := List.mem_map.1 hH'
    refine ⟨(res t).1, ?_, h.isNet t (List.mem_range.1 ht) n hn⟩
    rw [List.map_map]
    exact List.mem_map.2 ⟨t, ht, rfl⟩

end PMondriaan

import Verif.Proofs.RedistAll
import Verif.Proofs.Free
import Verif.Proofs.UncoarsenStep
import Verif.Spec.BisectPar

/-
Proofs about copying the coarse hypergraph to all processors.
-/

namespace PMondriaan

open Spec

/-! ### Messages to all others -/

theorem mem_others {p s t : Nat} (hs : s < p) : t ∈ others p s ↔ t < p ∧ t ≠ s := by
  unfold others
  rw [List.mem_append, List.mem_range, List.mem_range'_1]
  omega

theorem others_nodup (p s : Nat) : (others p s).Nodup := by
  unfold others
  rw [List.nodup_append]
  refine ⟨List.nodup_range, List.nodup_range', ?_⟩
  intro a ha b hb
  rw [List.mem_range] at ha
  rw [List.mem_range'_1] at hb
  omega

theorem filter_target {M : Type} {L : List Nat} (hL : L.Nodup) (m : M) (t : Nat) :
    ((L.map (fun s => (s, m))).filter (fun x => x.1 = t)).map (·.2) = if t ∈ L then [m] else [] := by
  induction L with
  | nil => rfl
  | cons a L ih =>
    obtain ⟨h1, h2⟩ := List.nodup_cons.1 hL
    rw [List.map_cons, List.filter_cons]
    by_cases hat : a = t
    · subst hat
      rw [if_pos (by simp), List.map_cons, ih h2, if_neg h1, if_pos (by simp)]
    · rw [if_neg (by simpa using hat), ih h2]
      have : t ∈ a :: L ↔ t ∈ L := by simp [Ne.symm hat]
      simp only [this]

theorem filter_sends {α M : Type} {L : List Nat} (hL : L.Nodup) (msg : α → M) (t : Nat) (l : List α) :
    ((l.flatMap (fun v => L.map (fun s => (s, msg v)))).filter (fun x => x.1 = t)).map (·.2) =
      if t ∈ L then l.map msg else [] := by
  induction l with
  | nil => simp
  | cons v l ih =>
    rw [List.flatMap_cons, List.filter_append, List.map_append, ih, filter_target hL]
    split
    · rfl
    · rfl

theorem inbox_others {α M : Type} {d : Delivery M} (hd : Fair d) (msg : α → M) (p : Nat)
    (l : Nat → List α) (t : Nat) (ht : t < p) :
    (inbox d ((List.range p).map (fun s => (l s).flatMap (fun v => (others p s).map (fun r => (r, msg v))))) t).Perm
      (((List.range p).filter (fun s => s ≠ t)).flatMap (fun s => (l s).map msg)) := by
  refine (inbox_perm hd _ t).trans (List.Perm.of_eq ?_)
  have key : ∀ L : List Nat, (∀ s ∈ L, s < p) →
      ((L.map (fun s => (l s).flatMap (fun v => (others p s).map (fun r => (r, msg v))))).flatten.filter
        (fun x => x.1 = t)).map (·.2) = (L.filter (fun s => s ≠ t)).flatMap (fun s => (l s).map msg) := by
    intro L hL
    induction L with
    | nil => rfl
    | cons s L ih =>
      rw [List.map_cons, List.flatten_cons, List.filter_append, List.map_append,
        ih (fun x hx => hL x (by simp [hx])), filter_sends (others_nodup p s), List.filter_cons]
      have hm : t ∈ others p s ↔ s ≠ t := by
        rw [mem_others (hL s (by simp))]
        constructor
        · intro h; exact Ne.symm h.2
        · intro h; exact ⟨ht, Ne.symm h⟩
      by_cases hst : s ≠ t
      · rw [if_pos (hm.2 hst), if_pos (by simpa using hst), List.flatMap_cons]
      · rw [if_neg (fun h => hst (hm.1 h)), if_neg (by simpa using hst)]
        rfl
  exact key _ (fun s hs => List.mem_range.1 hs)

theorem range_perm_others {p t : Nat} (ht : t < p) :
    (List.range p).Perm (t :: (List.range p).filter (fun s => s ≠ t)) := by
  have h := List.perm_cons_erase (List.mem_range.2 ht)
  rw [List.nodup_range.erase_eq_filter] at h
  refine h.trans (List.Perm.of_eq ?_)
  congr 1
  apply List.filter_congr
  intro s _
  rw [Bool.eq_iff_iff]
  simp

/-! ### Receiving -/

theorem wf_of_updateMap {K : Hypergraph} (w : WF (withBack K []).updateMap)
    (hm : ∀ u i, K.vmap u = some i ↔ (K.vertices.map (·.id))[i]? = some u) : WF K := by
  have hv : (withBack K []).updateMap.vertices = K.vertices := by
    unfold withBack Hypergraph.updateMap
    simp
  refine ⟨hv ▸ w.vids, w.nids, hm, w.nmap, hv ▸ w.vnets, w.npins, ?_, ?_⟩
  · have := w.inc_net
    rw [hv] at this
    exact this
  · have := w.inc_vtx
    rw [hv] at this
    exact this

theorem updateMap_of_wf {K : Hypergraph} (w : WF K) : WF (withBack K []).updateMap := by
  have hv : (withBack K []).updateMap.vertices = K.vertices := by
    unfold withBack Hypergraph.updateMap
    simp
  refine ⟨by rw [hv]; exact w.vids, w.nids, ?_, w.nmap, by rw [hv]; exact w.vnets, w.npins, ?_, ?_⟩
  · intro u i
    have hnd : ((withBack K []).vertices.map (·.id)).Nodup := by
      have := w.vids
      rw [← hv] at this
      exact this
    exact buildMap_spec hnd u i
  · rw [hv]; exact w.inc_net
  · rw [hv]; exact w.inc_vtx

/-- What stays the same while vertices are received. -/
structure GotVerts (G0 G : Hypergraph) (ms : List VertMsg) : Prop where
  wf : WF G
  verts : G.vertices = G0.vertices ++ ms.map (fun m => Vertex.mk' m.1 m.2.2 m.2.1)
  nets : G.nets.map (fun n => (n.id, n.cost)) = G0.nets.map (fun n => (n.id, n.cost))
  dups : G.dups = G0.dups
  size : G.globalSize = G0.globalSize
  number : G.globalNumberNets = G0.globalNumberNets

theorem isNet_of_pairs {A B : Hypergraph}
    (h : A.nets.map (fun n => (n.id, n.cost)) = B.nets.map (fun n => (n.id, n.cost))) (e : Nat) :
    IsNet A e ↔ IsNet B e := by
  have := congrArg (List.map Prod.fst) h
  rw [List.map_map, List.map_map] at this
  unfold IsNet
  have h2 : A.nets.map (·.id) = B.nets.map (·.id) := this
  rw [h2]

theorem replReceive_ok {G0 G : Hypergraph} {done : List VertMsg} (h : GotVerts G0 G done) {m : VertMsg}
    (hid : m.1 ∉ G.vertices.map (·.id)) (hnd : m.2.2.Nodup) (hin : ∀ e ∈ m.2.2, IsNet G e) :
    ∃ G', replReceive G m = .ok G' ∧ GotVerts G0 G' (done ++ [m]) := by
  have w := h.wf
  set v := Vertex.mk' m.1 m.2.2 m.2.1 with hv
  obtain ⟨K, k1, k2⟩ := receive_ok (H0 := G) (H := G) (vs0 := []) (rs := [])
    ⟨updateMap_of_wf w, by simp, fun n hn => ⟨n, hn, rfl, rfl⟩, fun e he => he⟩ (v := v)
    (by rw [List.append_nil]; exact hid) hnd hin
  have e1 := addPins_ok m.1 m.2.2 { G with vertices := G.vertices ++ [v] } hnd w.nids w.nmap hin
  have hK : K = { G with vertices := G.vertices ++ [v], nets := G.nets.map (addOnePin m.1 m.2.2) } := by
    have : redistReceive G v = .ok { G with vertices := G.vertices ++ [v], nets := G.nets.map (addOnePin m.1 m.2.2) } := e1
    rw [k1] at this
    exact Except.ok.inj this
  have e2 := addPins_ok m.1 m.2.2 (G.addVertex m.1 m.2.2 m.2.1) hnd w.nids w.nmap hin
  refine ⟨{ G.addVertex m.1 m.2.2 m.2.1 with nets := G.nets.map (addOnePin m.1 m.2.2) }, ?_, ?_⟩
  · unfold replReceive
    have hl : (G.addVertex m.1 m.2.2 m.2.1).vertices.getLast? = some v := by
      show (G.vertices ++ [v]).getLast? = some v
      simp
    simp only [hl]
    exact e2
  · refine ⟨?_, ?_, ?_, h.dups, h.size, h.number⟩
    · apply wf_of_updateMap
      · have := k2.wf
        rw [hK] at this
        exact this
      · intro u i
        show mapSet G.vmap m.1 G.vertices.length u = some i ↔ ((G.vertices ++ [v]).map (·.id))[i]? = some u
        have := push_map w.vmap hid u i
        rw [List.length_map] at this
        rw [this, List.map_append]
        rfl
    · show G.vertices ++ [v] = _
      rw [h.verts, List.map_append, List.append_assoc]
      rfl
    · show (G.nets.map (addOnePin m.1 m.2.2)).map _ = _
      rw [List.map_map, ← h.nets]
      apply List.map_congr_left
      intro n _
      simp only [Function.comp_apply, addPin_id, addPin_cost]

theorem replReceives_ok {G0 : Hypergraph} : ∀ (ms done : List VertMsg) (G : Hypergraph), GotVerts G0 G done →
    (G.vertices.map (·.id) ++ ms.map (·.1)).Nodup → (∀ m ∈ ms, m.2.2.Nodup) →
    (∀ m ∈ ms, ∀ e ∈ m.2.2, IsNet G0 e) →
    ∃ G', ms.foldlM replReceive G = .ok G' ∧ GotVerts G0 G' (done ++ ms) := by
  intro ms
  induction ms with
  | nil => intro done G h _ _ _; exact ⟨G, rfl, by simpa using h⟩
  | cons m ms ih =>
    intro done G h hnd hn hin
    obtain ⟨G1, h1, h2⟩ := replReceive_ok h (m := m) (by
      intro hm
      exact List.disjoint_of_nodup_append hnd hm (by simp)) (hn m (by simp))
      (fun e he => (isNet_of_pairs h.nets e).2 (hin m (by simp) e he))
    obtain ⟨G2, h3, h4⟩ := ih (done ++ [m]) G1 h2 (by
      have hv : G1.vertices = G.vertices ++ [Vertex.mk' m.1 m.2.2 m.2.1] := by
        rw [h2.verts, h.verts]; simp
      rw [hv]
      simpa [Vertex.mk'] using hnd)
      (fun x hx => hn x (by simp [hx])) (fun x hx => hin x (by simp [hx]))
    exact ⟨G2, by rw [List.foldlM_cons, h1, ok_bind]; exact h3, by simpa using h4⟩

theorem addNets_fields : ∀ (ms : List (Nat × Int)) (G : Hypergraph),
    (ms.foldl (fun G m => G.addNet m.1 [] m.2) G).vmap = G.vmap ∧
    (ms.foldl (fun G m => G.addNet m.1 [] m.2) G).dups = G.dups ∧
    (ms.foldl (fun G m => G.addNet m.1 [] m.2) G).globalSize = G.globalSize ∧
    (ms.foldl (fun G m => G.addNet m.1 [] m.2) G).globalNumberNets = G.globalNumberNets := by
  intro ms
  induction ms with
  | nil => intro G; exact ⟨rfl, rfl, rfl, rfl⟩
  | cons m ms ih =>
    intro G
    rw [List.foldl_cons]
    obtain ⟨h1, h2, h3, h4⟩ := ih (G.addNet m.1 [] m.2)
    have : (G.addNet m.1 [] m.2).vmap = G.vmap ∧ (G.addNet m.1 [] m.2).dups = G.dups ∧
        (G.addNet m.1 [] m.2).globalSize = G.globalSize ∧
        (G.addNet m.1 [] m.2).globalNumberNets = G.globalNumberNets := by
      unfold Hypergraph.addNet
      split <;> exact ⟨rfl, rfl, rfl, rfl⟩
    obtain ⟨g1, g2, g3, g4⟩ := this
    exact ⟨h1.trans g1, h2.trans g2, h3.trans g3, h4.trans g4⟩

/-- One processor. -/
theorem replicateOne_ok {H : Hypergraph} (w : WF H) {costs : List (Nat × Int)} {verts : List VertMsg}
    (hnd : (H.vertices.map (·.id) ++ verts.map (·.1)).Nodup) (hn : ∀ m ∈ verts, m.2.2.Nodup)
    (hin : ∀ m ∈ verts, ∀ e ∈ m.2.2, ∃ c, (e, c) ∈ costs) :
    ∃ G, replicateOne H costs verts = .ok G ∧ WF G ∧
      G.vertices = H.vertices ++ verts.map (fun m => Vertex.mk' m.1 m.2.2 m.2.1) ∧
      (∀ e, IsNet G e ↔ IsNet H e ∨ ∃ c, (e, c) ∈ costs) ∧
      (∀ n ∈ G.nets, IsNet H n.id → n.cost = 1) ∧
      (∀ n ∈ G.nets, ¬ IsNet H n.id → (n.id, n.cost) ∈ costs) ∧
      G.dups = [] ∧ G.globalSize = H.globalSize ∧ G.globalNumberNets = H.globalNumberNets := by
  obtain ⟨C, c1, wC, c2, c3, c4, -, c6, c7⟩ := copy_ok w
  have hisC : ∀ e, IsNet C e ↔ IsNet H e := by
    intro e
    have : C.nets.map (·.id) = H.nets.map (·.id) := (forall2_map_eq c7 (fun a b hab => hab.1))
    unfold IsNet
    rw [this]
  have hA := addNets_ok costs [] C (H0 := C) (vs0 := [])
    ⟨updateMap_of_wf wC, rfl, fun n hn => Or.inl ⟨n, hn, rfl, rfl⟩, fun n hn => hn, by simp⟩
  rw [List.nil_append] at hA
  obtain ⟨f1, f2, f3, f4⟩ := addNets_fields costs C
  unfold replicateOne
  rw [c1, ok_bind]
  generalize costs.foldl (fun G m => G.addNet m.1 [] m.2) C = D at hA f1 f2 f3 f4 ⊢
  have wD : WF D := by
    apply wf_of_updateMap hA.wf
    rw [f1, hA.verts]
    exact wC.vmap
  obtain ⟨G, g1, g2⟩ := replReceives_ok (G0 := D) verts [] D
    ⟨wD, by simp, rfl, rfl, rfl, rfl⟩ (by rw [hA.verts, c2]; exact hnd) hn (by
      intro m hm e he
      obtain ⟨c, hc⟩ := hin m hm e he
      exact hA.isNet _ hc)
  rw [List.nil_append] at g2
  have hpair : ∀ n ∈ G.nets, ∃ n' ∈ D.nets, n'.id = n.id ∧ n'.cost = n.cost := by
    intro n hn
    have : (n.id, n.cost) ∈ D.nets.map (fun n => (n.id, n.cost)) := by
      rw [← g2.nets]; exact List.mem_map.2 ⟨n, hn, rfl⟩
    obtain ⟨n', h1, h2⟩ := List.mem_map.1 this
    exact ⟨n', h1, congrArg Prod.fst h2, congrArg Prod.snd h2⟩
  refine ⟨G, g1, g2.wf, by rw [g2.verts, hA.verts, c2], ?_, ?_, ?_, by rw [g2.dups, f2, c6],
    by rw [g2.size, f3, c3], by rw [g2.number, f4, c4]⟩
  · intro e
    rw [isNet_of_pairs g2.nets]
    constructor
    · intro he
      obtain ⟨n, hn, rfl⟩ := List.mem_map.1 he
      rcases hA.nets n hn with ⟨n', h1, h2, -⟩ | h1
      · exact Or.inl ((hisC _).1 (List.mem_map.2 ⟨n', h1, h2⟩))
      · exact Or.inr ⟨_, h1⟩
    · rintro (he | ⟨c, hc⟩)
      · obtain ⟨n, hn, rfl⟩ := List.mem_map.1 ((hisC _).2 he)
        exact List.mem_map.2 ⟨n, hA.keeps n hn, rfl⟩
      · exact hA.isNet _ hc
  · intro n hn he
    obtain ⟨n', h1, h2, h3⟩ := hpair n hn
    obtain ⟨x, hx, hxe⟩ := List.mem_map.1 ((hisC _).2 he)
    have hxe : x.id = n.id := hxe
    rw [← h3, wD.net_inj h1 (hA.keeps x hx) (h2.trans hxe.symm)]
    obtain ⟨y, -, hy⟩ := forall2_mem_right c7 hx
    exact hy.2.1
  · intro n hn he
    obtain ⟨n', h1, h2, h3⟩ := hpair n hn
    rcases hA.nets n' h1 with ⟨x, hx, h4, -⟩ | h4
    · exact absurd ((hisC _).1 (List.mem_map.2 ⟨x, hx, h4.trans h2⟩)) he
    · rw [← h2, ← h3]; exact h4

/-! ### All processors -/

theorem mem_unionPins_vertex {N : Nat} {Hs : List Hypergraph} (hD : Distributed N Hs) {e u : Nat} :
    u ∈ unionPins Hs e ↔ ∃ v ∈ Hs.flatMap (·.vertices), v.id = u ∧ e ∈ v.nets := by
  rw [mem_unionPins]
  constructor
  · rintro ⟨H, hH, n, hn, hid, hu⟩
    obtain ⟨v, hv, h1, h2⟩ := (hD.wf H hH).inc_vtx n hn u hu
    exact ⟨v, List.mem_flatMap.2 ⟨H, hH, hv⟩, h1, hid ▸ h2⟩
  · rintro ⟨v, hv, rfl, he⟩
    obtain ⟨H, hH, hv⟩ := List.mem_flatMap.1 hv
    obtain ⟨n, hn, h1, h2⟩ := (hD.wf H hH).inc_net v hv e he
    exact ⟨H, hH, n, hn, h1, h2⟩

theorem unionPins_nodup {N : Nat} {Hs : List Hypergraph} (hD : Distributed N Hs) (e : Nat) :
    (unionPins Hs e).Nodup := by
  by_cases he : e < N
  · exact (unionH_wf hD).npins (unionNet Hs e) (List.mem_map.2 ⟨e, List.mem_range.2 he, rfl⟩)
  · have : unionPins Hs e = [] := by
      rw [List.eq_nil_iff_forall_not_mem]
      intro u hu
      obtain ⟨H, hH, n, hn, hid, -⟩ := mem_unionPins.1 hu
      have := hD.ids H hH n hn
      omega
    rw [this]
    exact List.nodup_nil

theorem replicateAll_fun {N p : Nat} {h : Nat → Hypergraph} (hD : Distributed N ((List.range p).map h))
    {dV : Delivery VertMsg} {dN : Delivery (Nat × Int)} (hV : Fair dV) (hN : Fair dN) :
    ∃ g : Nat → Hypergraph, replicateAll dV dN ((List.range p).map h) = .ok ((List.range p).map g) ∧
      ∀ t, t < p → Replica ((List.range p).map h) (h t) (g t) := by
  set Hs := (List.range p).map h with hHs
  have hlen : Hs.length = p := by rw [hHs]; simp
  have hmem : ∀ t, t < p → h t ∈ Hs := fun t ht => List.mem_map.2 ⟨t, List.mem_range.2 ht, rfl⟩
  set vouts := Hs.zipIdx.map (fun x => vertSends Hs.length x.2 x.1) with hvo
  set nouts := Hs.zipIdx.map (fun x => costSends Hs.length x.2 x.1) with hno
  have hz : Hs.zipIdx = (List.range p).map (fun t => (h t, t)) := zipIdx_rangeMap ..
  have ev : vouts = (List.range p).map (fun s => ((h s).vertices).flatMap
      (fun v => (others p s).map (fun r => (r, ((v.id, v.weight, v.nets) : VertMsg))))) := by
    rw [hvo, hz, List.map_map, hlen]; rfl
  have en : nouts = (List.range p).map (fun s => ((h s).nets).flatMap
      (fun n => (others p s).map (fun r => (r, (n.id, n.cost))))) := by
    rw [hno, hz, List.map_map, hlen]; rfl
  have hone : ∀ t, t < p → ∃ G, replicateOne (h t) (inbox dN nouts t) (inbox dV vouts t) = .ok G ∧
      Replica Hs (h t) G := by
    intro t ht
    have pv : (inbox dV vouts t).Perm (((List.range p).filter (fun s => s ≠ t)).flatMap
        (fun s => (h s).vertices.map (fun v => ((v.id, v.weight, v.nets) : VertMsg)))) := by
      rw [ev]
      exact inbox_others hV (fun v : Vertex => ((v.id, v.weight, v.nets) : VertMsg)) p (fun s => (h s).vertices) t ht
    have pn : (inbox dN nouts t).Perm (((List.range p).filter (fun s => s ≠ t)).flatMap
        (fun s => (h s).nets.map (fun n => (n.id, n.cost)))) := by
      rw [en]
      exact inbox_others hN (fun n : Net => (n.id, n.cost)) p (fun s => (h s).nets) t ht
    -- all vertices are the local ones and the received ones
    have pall : ((Hs.flatMap (·.vertices)).map (fun v => ((v.id, v.weight, v.nets) : VertMsg))).Perm
        ((h t).vertices.map (fun v => (v.id, v.weight, v.nets)) ++ inbox dV vouts t) := by
      rw [hHs, flatMap_rangeMap, List.map_flatMap]
      refine (List.Perm.flatMap_right _ (range_perm_others ht)).trans ?_
      rw [List.flatMap_cons]
      exact List.Perm.append_left _ pv.symm
    have hin_v : ∀ m ∈ inbox dV vouts t, ∃ s, s < p ∧ s ≠ t ∧ ∃ v ∈ (h s).vertices,
        m = (v.id, v.weight, v.nets) := by
      intro m hm
      obtain ⟨s, hs, hm⟩ := List.mem_flatMap.1 (pv.subset hm)
      obtain ⟨v, hv, rfl⟩ := List.mem_map.1 hm
      obtain ⟨h1, h2⟩ := List.mem_filter.1 hs
      exact ⟨s, List.mem_range.1 h1, by simpa using h2, v, hv, rfl⟩
    have hin_n : ∀ e c, (e, c) ∈ inbox dN nouts t ↔ ∃ s, s < p ∧ s ≠ t ∧ ∃ n ∈ (h s).nets,
        n.id = e ∧ n.cost = c := by
      intro e c
      rw [pn.mem_iff, List.mem_flatMap]
      constructor
      · rintro ⟨s, hs, hm⟩
        obtain ⟨n, hn, he⟩ := List.mem_map.1 hm
        obtain ⟨h1, h2⟩ := List.mem_filter.1 hs
        exact ⟨s, List.mem_range.1 h1, by simpa using h2, n, hn, congrArg Prod.fst he, congrArg Prod.snd he⟩
      · rintro ⟨s, hs, hst, n, hn, rfl, rfl⟩
        exact ⟨s, List.mem_filter.2 ⟨List.mem_range.2 hs, by simpa using hst⟩, List.mem_map.2 ⟨n, hn, rfl⟩⟩
    obtain ⟨G, g1, g2, g3, g4, g5, g6, g7, g8, g9⟩ := replicateOne_ok (hD.wf _ (hmem t ht))
      (costs := inbox dN nouts t) (verts := inbox dV vouts t) (by
        have h1 := pall.map (fun m : VertMsg => m.1)
        rw [List.map_map, List.map_append, List.map_map] at h1
        exact h1.nodup_iff.1 hD.disjoint) (by
        intro m hm
        obtain ⟨s, hs, -, v, hv, rfl⟩ := hin_v m hm
        exact (hD.wf _ (hmem s hs)).vnets v hv) (by
        intro m hm e he
        obtain ⟨s, hs, hst, v, hv, rfl⟩ := hin_v m hm
        obtain ⟨n, hn, h1, -⟩ := (hD.wf _ (hmem s hs)).inc_net v hv e he
        exact ⟨n.cost, (hin_n _ _).2 ⟨s, hs, hst, n, hn, h1, rfl⟩⟩)
    have hkeys : G.vertices.map (fun v => ((v.id, v.weight, v.nets) : VertMsg)) =
        (h t).vertices.map (fun v => (v.id, v.weight, v.nets)) ++ inbox dV vouts t := by
      rw [g3, List.map_append, List.map_map]
      congr 1
      conv_rhs => rw [← List.map_id (inbox dV vouts t)]
      rfl
    have hvert : (G.vertices.map (fun v => (v.id, v.weight, v.nets))).Perm
        ((Hs.flatMap (·.vertices)).map (fun v => (v.id, v.weight, v.nets))) := by
      rw [hkeys]; exact pall.symm
    refine ⟨G, g1, g2, hvert, ⟨_, g3, ?_⟩, ?_, ?_, g5, ?_, g7, g8, g9⟩
    · intro v hv
      obtain ⟨m, -, rfl⟩ := List.mem_map.1 hv
      rfl
    · intro e
      rw [g4]
      constructor
      · rintro (he | ⟨c, hc⟩)
        · exact ⟨h t, hmem t ht, he⟩
        · obtain ⟨s, hs, -, n, hn, rfl, -⟩ := (hin_n _ _).1 hc
          exact ⟨h s, hmem s hs, List.mem_map.2 ⟨n, hn, rfl⟩⟩
      · rintro ⟨H', hH', he⟩
        obtain ⟨s, hs, rfl⟩ := List.mem_map.1 hH'
        by_cases hst : s = t
        · subst hst; exact Or.inl he
        · obtain ⟨n, hn, rfl⟩ := List.mem_map.1 he
          exact Or.inr ⟨n.cost, (hin_n _ _).2 ⟨s, List.mem_range.1 hs, hst, n, hn, rfl, rfl⟩⟩
    · intro n hn
      rw [List.perm_ext_iff_of_nodup (g2.npins n hn) (unionPins_nodup hD n.id)]
      intro u
      rw [mem_unionPins_vertex hD]
      constructor
      · intro hu
        obtain ⟨v, hv, h1, h2⟩ := g2.inc_vtx n hn u hu
        obtain ⟨x, hx, he⟩ := List.mem_map.1 (hvert.subset (List.mem_map.2 ⟨v, hv, rfl⟩))
        have e1 : x.id = v.id := congrArg Prod.fst he
        have e2 : x.nets = v.nets := congrArg (fun y => y.2.2) he
        exact ⟨x, hx, e1.trans h1, by rw [e2]; exact h2⟩
      · rintro ⟨x, hx, h1, h2⟩
        obtain ⟨v, hv, he⟩ := List.mem_map.1 (hvert.symm.subset (List.mem_map.2 ⟨x, hx, rfl⟩))
        have e1 : v.id = x.id := congrArg Prod.fst he
        have e2 : v.nets = x.nets := congrArg (fun y => y.2.2) he
        obtain ⟨m, hm, h3, h4⟩ := g2.inc_net v hv n.id (by rw [e2]; exact h2)
        rw [g2.net_inj hm hn h3, e1, h1] at h4
        exact h4
    · intro n hn he
      obtain ⟨s, hs, -, m, hm, h1, h2⟩ := (hin_n _ _).1 (g6 n hn he)
      rw [← h2, ← h1, unionCost_eq hD (hmem s hs) hm]
  choose g hg using hone
  refine ⟨fun t => if ht : t < p then g t ht else h t, ?_, ?_⟩
  · unfold replicateAll
    rw [← hvo, ← hno, hz, mapM_rangeMap (g := fun t => if ht : t < p then g t ht else h t)]
    intro t ht
    rw [dif_pos ht]
    exact (hg t ht).1
  · intro t ht
    show Replica Hs (h t) (if ht : t < p then g t ht else h t)
    rw [dif_pos ht]
    exact (hg t ht).2

end PMondriaan

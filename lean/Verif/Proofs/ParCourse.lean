import Verif.Proofs.MlParTop

/-
The cut of the labels that the processors give to the vertices in their ranges.
-/

namespace PMondriaan

open Spec

theorem relabels_ids {H H' : Hypergraph} {s e : Nat} {low high : Int} (h : Relabels s e low high H H') :
    H'.vertices.map (·.id) = H.vertices.map (·.id) := by
  apply List.ext_getElem?
  intro i
  rw [List.getElem?_map, List.getElem?_map]
  by_cases hi : i < s ∨ e ≤ i
  · rw [h.outside i hi]
  · cases hc : H.vertices[i]? with
    | none =>
      rw [List.getElem?_eq_none_iff] at hc
      rw [List.getElem?_eq_none (by rw [h.length]; exact hc)]
    | some v =>
      obtain ⟨p, -, he⟩ := h.inside i v (by omega) (by omega) hc
      rw [he]
      rfl

theorem relabels_all_ids {xs : List RangeOf} {rs : List RState} {low high : Int}
    (h : List.Forall₂ (fun (x : RangeOf) (r : RState) => Relabels x.s x.e low high x.H r.H) xs rs) :
    ((rs.map (·.H)).flatMap (·.vertices)).map (·.id) = ((xs.map (·.H)).flatMap (·.vertices)).map (·.id) := by
  induction h with
  | nil => rfl
  | cons hx _ ih =>
    rw [List.map_cons, List.map_cons, List.flatMap_cons, List.flatMap_cons, List.map_append, List.map_append, ih,
      relabels_ids hx]

theorem relabels_slice_nets {H H' : Hypergraph} {s e : Nat} {low high : Int} (h : Relabels s e low high H H') :
    (slice H'.vertices s e).map (fun v => (v.id, v.nets)) = (slice H.vertices s e).map (fun v => (v.id, v.nets)) := by
  have hv : H'.vertices.map (fun v => (v.id, v.nets)) = H.vertices.map (fun v => (v.id, v.nets)) := by
    apply List.ext_getElem?
    intro i
    rw [List.getElem?_map, List.getElem?_map]
    by_cases hi : i < s ∨ e ≤ i
    · rw [h.outside i hi]
    · cases hc : H.vertices[i]? with
      | none =>
        rw [List.getElem?_eq_none_iff] at hc
        rw [List.getElem?_eq_none (by rw [h.length]; exact hc)]
      | some v =>
        obtain ⟨p, -, he⟩ := h.inside i v (by omega) (by omega) hc
        rw [he]
        rfl
  unfold slice
  rw [List.map_take, List.map_drop, hv, ← List.map_drop, ← List.map_take]

theorem mem_slice_of_map {α : Type} {vs vs' : List Vertex} {f : Vertex → α} (h : vs'.map f = vs.map f) {v : Vertex}
    (hv : v ∈ vs) : ∃ u ∈ vs', f u = f v := by
  have : f v ∈ vs'.map f := by rw [h]; exact List.mem_map.2 ⟨v, hv, rfl⟩
  obtain ⟨u, hu, he⟩ := List.mem_map.1 this
  exact ⟨u, hu, he⟩

/-- The ranges of the processors with the labels they have been given. -/
def relabelled (xs : List RangeOf) (rs : List RState) : List RangeOf :=
  (xs.zip rs).map (fun y => { y.1 with H := y.2.H })

section

variable {N : Nat} {xs : List RangeOf} {M : List CProc} {L : List (Hypergraph × Option Int × Rng)} {rs : List RState}
  {labels : Interval}

/-- The nets that the labels in the ranges cut are those that the bisection `L` cuts. -/
theorem rangesCut_eq (hD : Distributed N (xs.map (·.H))) (h : List.Forall₂ (Started N xs) xs M)
    (hL : LevelBisected N (M.map (·.2)) L) (hl : labels.low ≠ labels.high)
    (h1 : List.Forall₂ (fun (x : RangeOf) (r : RState) => Relabels x.s x.e labels.low labels.high x.H r.H) xs rs)
    (h2 : ∀ (i : Nat) x q r, xs[i]? = some x → L[i]? = some q → rs[i]? = some r →
        ∀ v ∈ slice r.H.vertices x.s x.e, IsVertex q.1 v.id → v.part = labels.label (partOf q.1 v.id)) :
    (rangesCut N (relabelled xs rs) : Int) = cutValue .cutNet (unionH N (L.map (·.1))) := by
  obtain ⟨Ls, hLs⟩ : ∃ Ls, Ls = L.map (·.1) := ⟨_, rfl⟩
  have hsame := hL.same
  have hdist := hL.dist
  rw [← hLs] at hsame hdist ⊢
  have hlM : M.length = xs.length := h.length_eq.symm
  have hlL : L.length = xs.length := by
    have := hL.same.length_eq
    rw [List.length_map, List.length_map] at this
    omega
  have hlR : rs.length = xs.length := h1.length_eq.symm
  -- all there is to know of one processor
  have hat : ∀ i, i < xs.length → ∃ x m q r, xs[i]? = some x ∧ M[i]? = some m ∧ L[i]? = some q ∧ rs[i]? = some r ∧
      Started N xs x m ∧ SameUpToParts m.2 q.1 ∧ Relabels x.s x.e labels.low labels.high x.H r.H := by
    intro i hi
    refine ⟨xs[i], M[i], L[i], rs[i], List.getElem?_eq_getElem hi, List.getElem?_eq_getElem _,
      List.getElem?_eq_getElem _, List.getElem?_eq_getElem _, ?_, ?_, ?_⟩
    · exact (List.forall₂_iff_get.1 h).2 i hi (by omega)
    · have := (List.forall₂_iff_get.1 hL.same).2 i (by rw [List.length_map]; omega) (by rw [List.length_map]; omega)
      simpa using this
    · exact (List.forall₂_iff_get.1 h1).2 i hi (by omega)
  obtain ⟨ys, hys⟩ : ∃ ys, ys = relabelled xs rs := ⟨_, rfl⟩
  rw [← hys]
  have hyat : ∀ u, u ∈ ys.flatMap inRange → ∃ (i : Nat) (x : RangeOf) (r : RState), i < xs.length ∧ xs[i]? = some x ∧ rs[i]? = some r ∧
      u ∈ slice r.H.vertices x.s x.e := by
    intro u hu
    obtain ⟨y, hy, hu⟩ := List.mem_flatMap.1 hu
    rw [hys] at hy
    obtain ⟨z, hz, rfl⟩ := List.mem_map.1 hy
    obtain ⟨i, hi⟩ := List.getElem?_of_mem hz
    obtain ⟨i1, i2⟩ := List.getElem?_zip_eq_some.1 hi
    exact ⟨i, z.1, z.2, (List.getElem?_eq_some_iff.1 i1).1, i1, i2, hu⟩
  have hyof : ∀ (i : Nat) (x : RangeOf) (r : RState) (u : Vertex), xs[i]? = some x → rs[i]? = some r → u ∈ slice r.H.vertices x.s x.e → u ∈ ys.flatMap inRange := by
    intro i x r u hx hr hu
    refine List.mem_flatMap.2 ⟨{ x with H := r.H }, ?_, hu⟩
    rw [hys]
    exact List.mem_map.2 ⟨(x, r), List.mem_of_getElem? (List.getElem?_zip_eq_some.2 ⟨hx, hr⟩), rfl⟩
  have hrp : ∀ e u, u ∈ ys.flatMap inRange → e ∈ u.nets → u.id ∈ rangePins xs e := by
    intro e u hu he
    obtain ⟨i, x, r, hi, hx, hr, hu⟩ := hyat u hu
    obtain ⟨x', m, q, r', a1, a2, a3, a4, hst, hsm, hrel⟩ := hat i hi
    rw [hx] at a1; cases a1
    rw [hr] at a4; cases a4
    obtain ⟨v, hv, hve⟩ := mem_slice_of_map (relabels_slice_nets hrel).symm hu
    have e1 : v.id = u.id := congrArg Prod.fst hve
    have e2 : v.nets = u.nets := congrArg Prod.snd hve
    exact List.mem_flatMap.2 ⟨x, List.mem_of_getElem? hx, List.mem_map.2 ⟨v, List.mem_filter.2 ⟨hv, by rw [e2]; simpa using he⟩, e1⟩⟩
  -- from a vertex in a range to a pin
  have hfw : ∀ e u, u ∈ ys.flatMap inRange → e ∈ u.nets → 2 ≤ (rangePins xs e).length →
      u.id ∈ unionPins Ls e ∧ u.part = labels.label (partOf (unionH N Ls) u.id) := by
    intro e u hu he hrp
    obtain ⟨i, x, r, hi, hx, hr, hu⟩ := hyat u hu
    obtain ⟨x', m, q, r', a1, a2, a3, a4, hst, hsm, hrel⟩ := hat i hi
    rw [hx] at a1; cases a1
    rw [hr] at a4; cases a4
    obtain ⟨v, hv, hve⟩ := mem_slice_of_map (relabels_slice_nets hrel).symm hu
    have e1 : v.id = u.id := congrArg Prod.fst hve
    have e2 : v.nets = u.nets := congrArg Prod.snd hve
    have hpin := (hst.pins e hrp).symm.subset (List.mem_map.2 ⟨v, List.mem_filter.2 ⟨hv, by rw [e2]; simpa using he⟩, rfl⟩)
    obtain ⟨n, hn, hvn⟩ := List.mem_flatMap.1 hpin
    obtain ⟨hn, hne⟩ := List.mem_filter.1 hn
    have hne : n.id = e := of_decide_eq_true hne
    obtain ⟨n', hn', g1, -, -, g4⟩ := forall2_mem_left hsm.nets hn
    have hqL : q.1 ∈ Ls := by rw [hLs]; exact List.mem_map.2 ⟨q, List.mem_of_getElem? a3, rfl⟩
    have hun : u.id ∈ n'.vertices := by rw [← e1]; exact g4.symm.subset hvn
    refine ⟨mem_unionPins.2 ⟨q.1, hqL, n', hn', g1.trans hne, hun⟩, ?_⟩
    rw [partOf_union_pin hdist hqL hn' hun]
    apply h2 i x q r hx a3 hr u hu
    obtain ⟨y, hy, hye, -⟩ := (hdist.wf _ hqL).inc_vtx n' hn' _ hun
    exact List.mem_map.2 ⟨y, hy, hye⟩
  -- from a pin to a vertex in a range
  have hbw : ∀ e a, a ∈ unionPins Ls e → 2 ≤ (rangePins xs e).length ∧ ∃ u ∈ ys.flatMap inRange, u.id = a ∧ e ∈ u.nets := by
    intro e a ha
    obtain ⟨K, hK, n', hn', hne, hu⟩ := mem_unionPins.1 ha
    rw [hLs] at hK
    obtain ⟨q, hq, rfl⟩ := List.mem_map.1 hK
    obtain ⟨i, hi⟩ := List.getElem?_of_mem hq
    have hil := (List.getElem?_eq_some_iff.1 hi).1
    obtain ⟨x, m, q', r, a1, a2, a3, a4, hst, hsm, hrel⟩ := hat i (by omega)
    rw [hi] at a3; cases a3
    obtain ⟨n, hn, g1, -, -, g4⟩ := forall2_mem_right hsm.nets hn'
    have hid : n.id = e := g1.symm.trans hne
    have hs := (hst.sizes n hn).2
    rw [hid] at hs
    have hpin : a ∈ (m.2.nets.filter (fun n => n.id = e)).flatMap (·.vertices) :=
      List.mem_flatMap.2 ⟨n, List.mem_filter.2 ⟨hn, decide_eq_true hid⟩, g4.subset hu⟩
    obtain ⟨v, hv, rfl⟩ := List.mem_map.1 ((hst.pins e hs).subset hpin)
    obtain ⟨hv, hve⟩ := List.mem_filter.1 hv
    obtain ⟨u, hu, hue⟩ := mem_slice_of_map (relabels_slice_nets hrel) hv
    have e1 : u.id = v.id := congrArg Prod.fst hue
    have e2 : u.nets = v.nets := congrArg Prod.snd hue
    exact ⟨hs, u, hyof i x r u a1 a4 hu, e1, by rw [e2]; simpa using hve⟩
  -- the parts of the union
  have hbip : ∀ e a, a ∈ unionPins Ls e → partOf (unionH N Ls) a = 0 ∨ partOf (unionH N Ls) a = 1 := by
    intro e a ha
    obtain ⟨K, hK, n', hn', hne, hu⟩ := mem_unionPins.1 ha
    obtain ⟨v, hv, rfl, -⟩ := (hdist.wf _ hK).inc_vtx n' hn' _ hu
    rw [partOf_union hdist hK hv, (hdist.wf _ hK).partOf_eq hv]
    rw [hLs] at hK
    obtain ⟨q, hq, rfl⟩ := List.mem_map.1 hK
    exact hL.bip q hq v hv
  have hlab : ∀ a b : Int, (a = 0 ∨ a = 1) → (b = 0 ∨ b = 1) → (labels.label a ≠ labels.label b ↔ a ≠ b) := by
    rintro a b (rfl | rfl) (rfl | rfl) <;> simp [Interval.label, hl, hl.symm]
  -- equal ids, equal vertices
  have hinj : ∀ u w, u ∈ ys.flatMap inRange → w ∈ ys.flatMap inRange → u.id = w.id → u.part = w.part := by
    have hids := relabels_all_ids h1
    have hnd := hD.disjoint
    rw [← hids] at hnd
    have hmem : ∀ u, u ∈ ys.flatMap inRange → u ∈ (rs.map (·.H)).flatMap (·.vertices) := by
      intro u hu
      obtain ⟨i, x, r, -, -, hr, hu⟩ := hyat u hu
      exact List.mem_flatMap.2 ⟨r.H, List.mem_map.2 ⟨r, List.mem_of_getElem? hr, rfl⟩, 
        ((List.take_sublist _ _).trans (List.drop_sublist _ _)).subset hu⟩
    intro u w hu hw he
    rw [List.inj_on_of_nodup_map hnd (hmem u hu) (hmem w hw) he]
  have hiff : ∀ e, (∃ u ∈ ys.flatMap inRange, ∃ w ∈ ys.flatMap inRange, e ∈ u.nets ∧ e ∈ w.nets ∧ u.part ≠ w.part) ↔
      IsCut (partOf (unionH N Ls)) (unionNet Ls e) := by
    intro e
    constructor
    · rintro ⟨u, hu, w, hw, heu, hew, hne⟩
      have hid : u.id ≠ w.id := fun hc => hne (hinj u w hu hw hc)
      have hlen : 2 ≤ (rangePins xs e).length := by
        have : [u.id, w.id].Subperm (rangePins xs e) := by
          apply List.subperm_of_subset (by simp [hid])
          intro a ha
          simp only [List.mem_cons, List.not_mem_nil, or_false] at ha
          rcases ha with rfl | rfl
          · exact hrp e u hu heu
          · exact hrp e w hw hew
        exact this.length_le
      obtain ⟨p1, p2⟩ := hfw e u hu heu hlen
      obtain ⟨q1, q2⟩ := hfw e w hw hew hlen
      rw [p2, q2] at hne
      exact ⟨u.id, p1, w.id, q1, (hlab _ _ (hbip e _ p1) (hbip e _ q1)).1 hne⟩
    · rintro ⟨a, ha, b, hb, hne⟩
      obtain ⟨hlen, u, hu, rfl, heu⟩ := hbw e a ha
      obtain ⟨-, w, hw, rfl, hew⟩ := hbw e b hb
      refine ⟨u, hu, w, hw, heu, hew, ?_⟩
      rw [(hfw e u hu heu hlen).2, (hfw e w hw hew hlen).2]
      exact (hlab _ _ (hbip e _ ha) (hbip e _ hb)).2 hne
  -- counting
  have hcost : ∀ e, IsCut (partOf (unionH N Ls)) (unionNet Ls e) → unionCost Ls e = 1 := by
    rintro e ⟨a, ha, -⟩
    obtain ⟨K, hK, n', hn', rfl, -⟩ := mem_unionPins.1 ha
    rw [unionCost_eq hdist hK hn']
    obtain ⟨H, hH, hs⟩ := forall2_mem_right hsame hK
    obtain ⟨n, hn, -, g2, -⟩ := forall2_mem_right hs.nets hn'
    rw [g2]
    obtain ⟨m, hm, rfl⟩ := List.mem_map.1 hH
    obtain ⟨x, -, hst⟩ := forall2_mem_right h hm
    exact hst.costs n hn
  show _ = cutNet _ ((List.range N).map (unionNet Ls))
  unfold rangesCut cutNet
  generalize List.range N = es
  induction es with
  | nil => rfl
  | cons e es ih =>
    rw [List.map_cons, List.map_cons, List.sum_cons, ← ih, List.filter_cons]
    by_cases hc : IsCut (partOf (unionH N Ls)) (unionNet Ls e)
    · rw [if_pos hc, if_pos (decide_eq_true ((hiff e).2 hc)), List.length_cons]
      have : (unionNet Ls e).cost = 1 := hcost e hc
      rw [this]
      push_cast
      omega
    · rw [if_neg hc, if_neg (by rw [decide_eq_true_eq, hiff e]; exact hc)]
      omega

end

end PMondriaan

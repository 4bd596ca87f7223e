import Verif.Spec.Free
import Verif.Proofs.Container
import Verif.Proofs.Bsp
import Verif.Proofs.Bridge

/-
Free vertices: setting them aside and placing them again.
-/

namespace PMondriaan

open Spec Contraction

/-! ### Removing free vertices -/

/-- Two hypergraphs with the same nets and the same bookkeeping. -/
structure SameNets (H H' : Hypergraph) : Prop where
  nets : H'.nets = H.nets
  nmap : H'.nmap = H.nmap
  globalNumberNets : H'.globalNumberNets = H.globalNumberNets
  nrNz : H'.nrNz = H.nrNz
  dups : H'.dups = H.dups

theorem SameNets.refl (H : Hypergraph) : SameNets H H := ⟨rfl, rfl, rfl, rfl, rfl⟩

theorem SameNets.trans {H H' H'' : Hypergraph} (a : SameNets H H') (b : SameNets H' H'') :
    SameNets H H'' :=
  ⟨b.1.trans a.1, b.2.trans a.2, b.3.trans a.3, b.4.trans a.4, b.5.trans a.5⟩

theorem removeFreeVertex_ok {H : Hypergraph} (w : WF H) {v : Vertex} (hv : v ∈ H.vertices)
    (hf : v.nets = []) :
    ∃ H', H.removeFreeVertex v.id = .ok H' ∧ WF H' ∧
      H'.vertices.Perm (H.vertices.filter (fun x => x.id ≠ v.id)) ∧ SameNets H H' ∧
      H'.globalSize = H.globalSize := by
  obtain ⟨i, hi⟩ := List.mem_iff_getElem?.1 hv
  have hil : i < H.vertices.length := (List.getElem?_eq_some_iff.1 hi).1
  have hvm : H.vmap v.id = some i := (w.vmap_iff _ _).2 ⟨v, hi, rfl⟩
  have hperm : (v :: swapRemoveAt H.vertices i).Perm H.vertices := by
    have := swapRemoveAt_perm hil
    rwa [(List.getElem?_eq_some_iff.1 hi).2] at this
  have hids : ((v :: swapRemoveAt H.vertices i).map (·.id)).Nodup :=
    ((hperm.map (·.id)).nodup_iff).2 w.vids
  rw [List.map_cons, List.nodup_cons] at hids
  have hne : ∀ x ∈ swapRemoveAt H.vertices i, x.id ≠ v.id := by
    intro x hx he; exact hids.1 (he ▸ List.mem_map_of_mem hx)
  have hsub : ∀ x ∈ swapRemoveAt H.vertices i, x ∈ H.vertices := fun x hx =>
    hperm.mem_iff.1 (List.mem_cons_of_mem _ hx)
  unfold Hypergraph.removeFreeVertex
  simp only [hvm, Option.getD_some, hi]
  refine ⟨_, rfl, ?_, ?_, ⟨rfl, rfl, rfl, rfl, rfl⟩, rfl⟩
  · refine ⟨hids.2, w.nids, ?_, w.nmap, fun x hx => w.vnets x (hsub x hx), w.npins, ?_, ?_⟩
    · intro u j
      simp only
      rw [swapRemoveAt_map]
      apply swapRemove_map w.vmap (by simp [hi])
      rw [← swapRemoveAt_map, List.getElem?_map]
      cases (swapRemoveAt H.vertices i)[i]? <;> rfl
    · intro x hx e he
      exact w.inc_net x (hsub x hx) e he
    · intro n hn u hu
      obtain ⟨x, hx, hxu, hxe⟩ := w.inc_vtx n hn u hu
      rcases List.mem_cons.1 (hperm.mem_iff.2 hx) with h | h
      · subst h; rw [hf] at hxe; cases hxe
      · exact ⟨x, h, hxu, hxe⟩
  · have h6 := hperm.filter (fun x => decide (x.id ≠ v.id))
    rw [List.filter_cons_of_neg (by simp), List.filter_eq_self.2] at h6
    · exact h6
    · intro x hx; simpa using hne x hx

theorem removeFrees_ok (fs : List (Nat × Int)) : ∀ {H : Hypergraph}, WF H →
    (fs.map (·.1)).Nodup → (∀ f ∈ fs, ∃ v ∈ H.vertices, v.id = f.1 ∧ v.nets = []) →
    ∃ H', fs.foldlM (fun (H : Hypergraph) f => H.removeFreeVertex f.1) H = .ok H' ∧ WF H' ∧
      H'.vertices.Perm (H.vertices.filter (fun x => x.id ∉ fs.map (·.1))) ∧ SameNets H H' ∧
      H'.globalSize = H.globalSize := by
  induction fs with
  | nil =>
    intro H w _ _
    exact ⟨H, rfl, w, by simp, SameNets.refl H, rfl⟩
  | cons f fs ih =>
    intro H w hnd hin
    rw [List.map_cons, List.nodup_cons] at hnd
    obtain ⟨v, hv, hvf, hve⟩ := hin f (by simp)
    obtain ⟨H1, h1, w1, hp1, hs1, hg1⟩ := removeFreeVertex_ok w hv hve
    obtain ⟨H', h2, w2, hp2, hs2, hg2⟩ := ih w1 hnd.2 (by
      intro g hg
      obtain ⟨x, hx, hxg, hxe⟩ := hin g (by simp [hg])
      refine ⟨x, ?_, hxg, hxe⟩
      rw [hp1.mem_iff, List.mem_filter]
      refine ⟨hx, ?_⟩
      simp only [ne_eq, decide_not, Bool.not_eq_eq_eq_not, Bool.not_true, decide_eq_false_iff_not]
      intro h
      apply hnd.1
      rw [← hvf, ← h, hxg]
      exact List.mem_map_of_mem hg)
    refine ⟨H', ?_, w2, ?_, hs1.trans hs2, hg2.trans hg1⟩
    · rw [List.foldlM_cons, ← hvf, h1]
      exact h2
    · refine hp2.trans ((hp1.filter _).trans (List.Perm.of_eq ?_))
      rw [List.filter_filter]
      apply List.filter_congr
      intro x _
      rw [Bool.eq_iff_iff]
      simp [hvf]
      tauto

theorem collectFree_eq (vs : List Vertex) : ∀ (a : List (Nat × Int)) (t : Int),
    vs.foldl collectFree (a, t) =
      (a ++ (vs.filter (fun v => v.nets = [])).map (fun v => (v.id, v.weight)),
       t + ((vs.filter (fun v => v.nets = [])).map (·.weight)).sum) := by
  induction vs with
  | nil => simp
  | cons v vs ih =>
    intro a t
    rw [List.foldl_cons]
    by_cases h : v.nets = []
    · simp only [collectFree, h, List.length_nil, if_true]
      rw [ih, List.filter_cons_of_pos (by simp [h])]
      simp [add_assoc]
    · have hl : v.nets.length ≠ 0 := by simpa using h
      simp only [collectFree, hl, if_false]
      rw [ih, List.filter_cons_of_neg (by simp [h])]

theorem freeOf_ids {H : Hypergraph} (w : WF H) : ((freeOf H).map (·.1)).Nodup := by
  unfold freeOf
  rw [List.map_map]
  have : (((H.vertices.filter (fun v => v.nets = [])).map (·.id))).Nodup :=
    ((List.filter_sublist).map _).nodup w.vids
  exact this

theorem removeFreeVertices_ok {H : Hypergraph} (w : WF H) {C : Contraction} (hC : C.free = []) :
    ∃ H', C.removeFreeVertices H =
        .ok ({ C with free := freeOf H }, H', ((freeOf H).map (·.2)).sum) ∧ WF H' ∧
      H'.vertices.Perm (H.vertices.filter (fun v => v.nets ≠ [])) ∧ SameNets H H' ∧
      H'.globalSize = H.globalSize := by
  unfold Contraction.removeFreeVertices
  rw [hC, collectFree_eq]
  simp only [List.nil_append, zero_add]
  obtain ⟨H', h1, h2, h3, h4, h5⟩ := removeFrees_ok (freeOf H) w (freeOf_ids w) (by
    intro f hf
    obtain ⟨v, hv, rfl⟩ := List.mem_map.1 hf
    have := List.mem_filter.1 hv
    exact ⟨v, this.1, rfl, by simpa using this.2⟩)
  refine ⟨H', ?_, h2, ?_, h4, h5⟩
  · have h1' : ((H.vertices.filter (fun v => v.nets = [])).map (fun v => (v.id, v.weight))).foldlM
      (fun (H : Hypergraph) f => H.removeFreeVertex f.1) H = .ok H' := h1
    rw [h1']
    simp only [ok_bind, pure_eq_ok, freeOf, List.map_map]
    rfl
  · refine h3.trans (List.Perm.of_eq ?_)
    apply List.filter_congr
    intro v hv
    rw [Bool.eq_iff_iff]
    simp only [decide_eq_true_eq]
    constructor
    · intro h he
      apply h
      exact List.mem_map.2 ⟨(v.id, v.weight), List.mem_map.2 ⟨v, by simp [hv, he], rfl⟩, rfl⟩
    · intro h hm
      obtain ⟨f, hf, hfv⟩ := List.mem_map.1 hm
      obtain ⟨x, hx, rfl⟩ := List.mem_map.1 hf
      have hx := List.mem_filter.1 hx
      have : x = v := w.vertex_inj hx.1 hv hfv
      subst this
      exact h (by simpa using hx.2)

/-! ### Adding them back -/

/-- `H` with one more vertex at the end. -/
def pushVertex (H : Hypergraph) (v : Vertex) : Hypergraph :=
  { H with vertices := H.vertices ++ [v], vmap := mapSet H.vmap v.id H.vertices.length }

theorem pushVertex_wf {H : Hypergraph} (w : WF H) {v : Vertex} (hid : ¬ IsVertex H v.id)
    (hf : v.nets = []) : WF (pushVertex H v) := by
  refine ⟨?_, w.nids, ?_, w.nmap, ?_, w.npins, ?_, ?_⟩
  · simp only [pushVertex, List.map_append, List.map_cons, List.map_nil]
    rw [List.nodup_append]
    refine ⟨w.vids, by simp, ?_⟩
    intro a ha b hb hab
    rw [List.mem_singleton] at hb
    subst hb hab
    exact hid ha
  · intro u i
    simp only [pushVertex, List.map_append, List.map_cons, List.map_nil]
    have := push_map w.vmap hid u i
    simpa using this
  · intro x hx
    rcases List.mem_append.1 hx with h | h
    · exact w.vnets x h
    · rw [List.mem_singleton] at h; subst h; rw [hf]; exact List.nodup_nil
  · intro x hx e he
    rcases List.mem_append.1 hx with h | h
    · exact w.inc_net x h e he
    · rw [List.mem_singleton] at h; subst h; rw [hf] at he; cases he
  · intro n hn u hu
    obtain ⟨x, hx, a, b⟩ := w.inc_vtx n hn u hu
    exact ⟨x, List.mem_append_left _ hx, a, b⟩

theorem addFree_ok (H : Hypergraph) (f : Nat × Int) (part : Int) :
    addFree H f part = .ok (pushVertex H { id := f.1, nets := [], weight := f.2, part := part }) := by
  unfold addFree Hypergraph.setPartOf Hypergraph.localId Hypergraph.addVertex
  simp only [mapSet, if_true, List.length_append, List.length_singleton, Nat.lt_succ_self,
    ok_bind, Hypergraph.setPartAt, Hypergraph.vertexAt]
  simp only [List.getElem?_concat_length, ok_bind, pure_eq_ok, Hypergraph.setVertex, pushVertex,
    Vertex.mk']
  congr 2
  rw [List.set_append_right _ _ (Nat.le_refl _)]
  simp

theorem placedWeight_append (l : List Vertex) (v : Vertex) (p : Int) :
    placedWeight (l ++ [v]) p = placedWeight l p + if v.part = p then v.weight else 0 := by
  unfold placedWeight
  rw [List.filter_append, List.map_append, List.sum_append]
  congr 1
  by_cases h : v.part = p <;> simp [h]

theorem placedWeight_app (l l' : List Vertex) (p : Int) :
    placedWeight (l ++ l') p = placedWeight l p + placedWeight l' p := by
  unfold placedWeight
  rw [List.filter_append, List.map_append, List.sum_append]

theorem greedy_snoc {W0 W1 m0 m1 : Int} {l : List Vertex} (h : GreedyPlaced W0 W1 m0 m1 l)
    {v : Vertex} (hv : let A := W0 + placedWeight l 0
      let B := W1 + placedWeight l 1
      (v.part = 0 ∨ v.part = 1) ∧
      (v.part = 0 → A + v.weight > m0 → B + v.weight > m1) ∧
      (v.part = 1 → B + v.weight ≤ m1) ∧
      (A + v.weight ≤ m0 → B + v.weight ≤ m1 →
        (v.part = 0 → A * m1 ≤ B * m0) ∧ (v.part = 1 → B * m0 ≤ A * m1))) :
    GreedyPlaced W0 W1 m0 m1 (l ++ [v]) := by
  intro pre x post hl
  rcases List.eq_nil_or_concat post with rfl | ⟨post', y, rfl⟩
  · have := List.append_inj' hl rfl
    obtain ⟨rfl, h2⟩ := this
    cases h2
    exact hv
  · have h1 : l ++ [v] = (pre ++ x :: post') ++ [y] := by simpa using hl
    have := List.append_inj' h1 rfl
    obtain ⟨rfl, -⟩ := this
    exact h pre x post' rfl

theorem choosePart_spec (A B m0 m1 wt : Int) (rng : Rng) :
    let p := (choosePart A B m0 m1 wt rng).1
    (p = 0 ∨ p = 1) ∧ (p = 0 → A + wt > m0 → B + wt > m1) ∧ (p = 1 → B + wt ≤ m1) ∧
    (A + wt ≤ m0 → B + wt ≤ m1 → (p = 0 → A * m1 ≤ B * m0) ∧ (p = 1 → B * m0 ≤ A * m1)) := by
  intro p
  have hp : p = (choosePart A B m0 m1 wt rng).1 := rfl
  clear_value p
  unfold choosePart at hp
  generalize A * m1 = x at *
  generalize B * m0 = y at *
  have hd : ((rng.draw.1 % 2 : Nat) : Int) = 0 ∨ ((rng.draw.1 % 2 : Nat) : Int) = 1 := by omega
  split_ifs at hp <;> simp only at hp <;> (try subst hp) <;>
    (refine ⟨by omega, ?_, ?_, ?_⟩ <;> omega)

/-- The greedy loop. -/
theorem assignLoop_ok {H : Hypergraph} (fs : List (Nat × Int)) (W0 W1 m0 m1 : Int) (rng : Rng)
    (w : WF H) (hnd : (fs.map (·.1)).Nodup) (hfresh : ∀ f ∈ fs, ¬ IsVertex H f.1) :
    ∃ a l, fs.foldlM (assignStep m0 m1) { H := H, w0 := W0, w1 := W1, rng := rng } = .ok a ∧
      WF a.H ∧ a.H.vertices = H.vertices ++ l ∧ FreeVertices l fs ∧ SameNets H a.H ∧
      a.H.globalSize = H.globalSize ∧ GreedyPlaced W0 W1 m0 m1 l ∧
      a.w0 = W0 + placedWeight l 0 ∧ a.w1 = W1 + placedWeight l 1 := by
  obtain ⟨a, h1, l, h2⟩ := foldlM_inv (f := assignStep m0 m1)
    (fun pre _ a => ∃ l, WF a.H ∧ a.H.vertices = H.vertices ++ l ∧ FreeVertices l pre ∧
      SameNets H a.H ∧ a.H.globalSize = H.globalSize ∧ GreedyPlaced W0 W1 m0 m1 l ∧
      a.w0 = W0 + placedWeight l 0 ∧ a.w1 = W1 + placedWeight l 1)
    fs { H := H, w0 := W0, w1 := W1, rng := rng } (by
      refine ⟨[], w, by simp, ⟨rfl, by simp⟩, SameNets.refl H, rfl, ?_, by simp [placedWeight],
        by simp [placedWeight]⟩
      intro pre v post h
      simp at h) (by
      rintro pre f post a ⟨l, wa, hv, hfv, hs, hg, hgr, e0, e1⟩ hl
      unfold assignStep
      have hcp := choosePart_spec a.w0 a.w1 m0 m1 f.2 a.rng
      generalize choosePart a.w0 a.w1 m0 m1 f.2 a.rng = pr at hcp
      obtain ⟨part, rng'⟩ := pr
      simp only at hcp ⊢
      rw [addFree_ok]
      simp only [ok_bind, pure_eq_ok]
      refine ⟨_, rfl, l ++ [{ id := f.1, nets := [], weight := f.2, part := part }], ?_, ?_, ?_, ?_,
        ?_, ?_, ?_, ?_⟩
      · apply pushVertex_wf wa _ rfl
        simp only [IsVertex]
        rw [hv, List.map_append, List.mem_append]
        rintro (h | h)
        · exact hfresh f (by rw [hl]; simp) h
        · obtain ⟨x, hx, hxf⟩ := List.mem_map.1 h
          have : f.1 ∈ pre.map (·.1) := by
            rw [← hfv.1, List.map_map]
            exact List.mem_map.2 ⟨x, hx, hxf⟩
          rw [hl, List.map_append, List.nodup_append] at hnd
          exact hnd.2.2 _ this f.1 (by simp) rfl
      · simp [pushVertex, hv]
      · refine ⟨by simp [hfv.1], ?_⟩
        intro x hx
        rcases List.mem_append.1 hx with h | h
        · exact hfv.2 x h
        · rw [List.mem_singleton] at h; subst h; rfl
      · exact ⟨hs.1, hs.2, hs.3, hs.4, hs.5⟩
      · exact hg
      · apply greedy_snoc hgr
        rw [← e0, ← e1]
        exact hcp
      · rw [placedWeight_append, ← add_assoc, ← e0]
        simp only
        by_cases hp : part = 0 <;> simp [hp]
      · rw [placedWeight_append, ← add_assoc, ← e1]
        simp only
        rcases hcp.1 with hp | hp <;> simp [hp])
  exact ⟨a, l, h1, h2⟩

theorem partWeight_add_list {H H' : Hypergraph} {l : List Vertex} (h : H'.vertices = H.vertices ++ l)
    (p : Int) : partWeight H' p = partWeight H p + placedWeight l p := by
  unfold partWeight
  rw [h, List.filter_append, List.map_append, List.sum_append]; rfl

theorem weightAllParts2 {H : Hypergraph} (hb : Bipartitioned H) :
    H.weightAllParts 2 = .ok [partWeight H 0, partWeight H 1] := by
  rw [weightAllParts_ok H 2 (by
    intro v hv
    rcases hb v hv with h | h <;> rw [h] <;> decide)]
  rfl

theorem assignGreedy_ok {srt : List (Nat × Int) → List (Nat × Int)} (hsrt : ∀ l, (srt l).Perm l)
    {C : Contraction} {H : Hypergraph} (w : WF H) (W0 W1 m0 m1 : Int) (rng : Rng)
    (hnd : (C.free.map (·.1)).Nodup) (hfresh : ∀ f ∈ C.free, ¬ IsVertex H f.1) :
    ∃ a l, assignGreedy srt C H W0 W1 m0 m1 rng = .ok a ∧
      WF a.H ∧ a.H.vertices = H.vertices ++ l ∧ FreeVertices l (srt C.free) ∧ SameNets H a.H ∧
      a.H.globalSize = H.globalSize ∧ GreedyPlaced W0 W1 m0 m1 l ∧
      a.w0 = W0 + placedWeight l 0 ∧ a.w1 = W1 + placedWeight l 1 := by
  unfold assignGreedy
  exact assignLoop_ok _ W0 W1 m0 m1 rng w (((hsrt C.free).map _).nodup_iff.2 hnd)
    (fun f hf => hfresh f ((hsrt C.free).mem_iff.1 hf))

theorem assignFree_ok {srt : List (Nat × Int) → List (Nat × Int)} (hsrt : ∀ l, (srt l).Perm l)
    {C : Contraction} {H : Hypergraph} (w : WF H) (hb : Bipartitioned H) (m0 m1 : Int) (rng : Rng)
    (hnd : (C.free.map (·.1)).Nodup) (hfresh : ∀ f ∈ C.free, ¬ IsVertex H f.1) :
    ∃ a l, assignFree srt C H m0 m1 rng = .ok a ∧
      WF a.H ∧ a.H.vertices = H.vertices ++ l ∧
      FreeVertices l (if C.globalFree = 0 then [] else srt C.free) ∧ SameNets H a.H ∧
      a.H.globalSize = H.globalSize ∧
      GreedyPlaced (partWeight H 0) (partWeight H 1) m0 m1 l ∧
      a.w0 = partWeight a.H 0 ∧ a.w1 = partWeight a.H 1 := by
  unfold assignFree
  rw [weightAllParts2 hb]
  have h0 : vget [partWeight H 0, partWeight H 1] 0 = .ok (partWeight H 0) := rfl
  have h1 : vget [partWeight H 0, partWeight H 1] 1 = .ok (partWeight H 1) := rfl
  simp only [ok_bind, h0, h1]
  by_cases hz : C.globalFree = 0
  · rw [if_pos hz, if_pos hz]
    refine ⟨_, [], rfl, w, by simp, ⟨rfl, by simp⟩, SameNets.refl H, rfl, ?_, rfl, rfl⟩
    intro pre v post h
    simp at h
  · rw [if_neg hz, if_neg hz]
    obtain ⟨a, l, h1, h2, h3, h4, h5, h6, h7, h8, h9⟩ :=
      assignGreedy_ok hsrt w (partWeight H 0) (partWeight H 1) m0 m1 rng hnd hfresh
    exact ⟨a, l, h1, h2, h3, h4, h5, h6, h7, by rw [h8, partWeight_add_list h3],
      by rw [h9, partWeight_add_list h3]⟩

theorem assignAll_ok {C : Contraction} {H : Hypergraph} (w : WF H) (part : Int)
    (hnd : (C.free.map (·.1)).Nodup) (hfresh : ∀ f ∈ C.free, ¬ IsVertex H f.1) :
    ∃ H' l, C.assignAll H part = .ok H' ∧ WF H' ∧ H'.vertices = H.vertices ++ l ∧
      FreeVertices l C.free ∧ (∀ v ∈ l, v.part = part) ∧ SameNets H H' ∧
      H'.globalSize = H.globalSize := by
  unfold Contraction.assignAll
  obtain ⟨H', h1, l, h2⟩ := foldlM_inv (f := fun H f => addFree H f part)
    (fun pre _ (H' : Hypergraph) => ∃ l, WF H' ∧ H'.vertices = H.vertices ++ l ∧
      FreeVertices l pre ∧ (∀ v ∈ l, v.part = part) ∧ SameNets H H' ∧
      H'.globalSize = H.globalSize) C.free H
    ⟨[], w, by simp, ⟨rfl, by simp⟩, by simp, SameNets.refl H, rfl⟩ (by
      rintro pre f post H1 ⟨l, w1, hv, hfv, hp, hs, hg⟩ hl
      rw [addFree_ok]
      refine ⟨_, rfl, l ++ [{ id := f.1, nets := [], weight := f.2, part := part }], ?_, ?_, ?_, ?_,
        ?_, ?_⟩
      · apply pushVertex_wf w1 _ rfl
        simp only [IsVertex]
        rw [hv, List.map_append, List.mem_append]
        rintro (h | h)
        · exact hfresh f (by rw [hl]; simp) h
        · obtain ⟨x, hx, hxf⟩ := List.mem_map.1 h
          have : f.1 ∈ pre.map (·.1) := by
            rw [← hfv.1, List.map_map]
            exact List.mem_map.2 ⟨x, hx, hxf⟩
          rw [hl, List.map_append, List.nodup_append] at hnd
          exact hnd.2.2 _ this f.1 (by simp) rfl
      · simp [pushVertex, hv]
      · refine ⟨by simp [hfv.1], ?_⟩
        intro x hx
        rcases List.mem_append.1 hx with h | h
        · exact hfv.2 x h
        · rw [List.mem_singleton] at h; subst h; rfl
      · intro x hx
        rcases List.mem_append.1 hx with h | h
        · exact hp x h
        · rw [List.mem_singleton] at h; subst h; rfl
      · exact ⟨hs.1, hs.2, hs.3, hs.4, hs.5⟩
      · exact hg)
  exact ⟨H', l, h1, h2⟩

/-! ### In parallel -/

theorem mapM_zipIdx_get {α β : Type} (l : List α) (f : α × Nat → Res β)
    (R : Nat → α → β → Prop)
    (h : ∀ (i : Nat) (a : α), l[i]? = some a → ∃ b, f (a, i) = .ok b ∧ R i a b) :
    ∃ l', (l.zipIdx).mapM f = .ok l' ∧ l'.length = l.length ∧
      ∀ (i : Nat) (a : α), l[i]? = some a → ∃ b, l'[i]? = some b ∧ R i a b := by
  suffices H : ∀ (l : List α) (k : Nat),
      (∀ (i : Nat) (a : α), l[i]? = some a → ∃ b, f (a, k + i) = .ok b ∧ R (k + i) a b) →
      ∃ l', (l.zipIdx k).mapM f = .ok l' ∧ l'.length = l.length ∧
        ∀ (i : Nat) (a : α), l[i]? = some a → ∃ b, l'[i]? = some b ∧ R (k + i) a b by
    have := H l 0 (by simpa using h)
    simpa using this
  intro l
  induction l with
  | nil => intro k _; exact ⟨[], rfl, rfl, by simp⟩
  | cons a l ih =>
    intro k h
    obtain ⟨b, hb, hR⟩ := h 0 a (by simp)
    obtain ⟨l', hl', hlen, hF⟩ := ih (k + 1) (by
      intro i x hx
      have := h (i + 1) x (by simpa using hx)
      rwa [show k + 1 + i = k + (i + 1) by omega])
    refine ⟨b :: l', ?_, by simp [hlen], ?_⟩
    · rw [List.zipIdx_cons, List.mapM_cons]
      simp only [Nat.add_zero] at hb
      rw [hb]
      simp only [ok_bind]
      rw [hl']
      rfl
    · intro i x hx
      cases i with
      | zero =>
        simp only [List.getElem?_cons_zero, Option.some.injEq] at hx
        subst hx
        exact ⟨b, by simp, hR⟩
      | succ i =>
        obtain ⟨c, hc, hRc⟩ := hF i x (by simpa using hx)
        exact ⟨c, by simpa using hc, by rwa [show k + (i + 1) = k + 1 + i by omega]⟩

theorem splitLoop_spec (target : Int) : ∀ (L : List Int) (a : Int) (t : Nat),
    ∃ k, k ≤ L.length ∧ splitLoop target L a t = (a + (L.take k).sum, t + k) := by
  intro L
  induction L with
  | nil => intro a t; exact ⟨0, by simp, by simp [splitLoop]⟩
  | cons x L ih =>
    intro a t
    unfold splitLoop
    by_cases h : a + x ≤ target
    · rw [if_pos h]
      obtain ⟨k, hk, he⟩ := ih (a + x) (t + 1)
      refine ⟨k + 1, by simpa using hk, ?_⟩
      rw [he, List.take_succ_cons, List.sum_cons, add_assoc]
      congr 1
      omega
    · rw [if_neg h]
      exact ⟨0, by simp, by simp⟩

/-- Sum of contributions that depend on the position relative to `k`. -/
theorem sum_split (L : List Int) (f : Int → Nat → Int) (lo hi : Int → Int) (x : Int)
    (k : Nat) : ∀ (j : Nat), (∀ (i : Nat) y, L[i]? = some y → f y (j + i) =
      if j + i < k then lo y else if j + i = k then x else hi y) → j ≤ k →
    ((L.zipIdx j).map (fun y => f y.1 y.2)).sum = ((L.take (k - j)).map lo).sum +
      (if k < j + L.length then x else 0) + ((L.drop (k - j + 1)).map hi).sum := by
  induction L with
  | nil => intro j _ hj; simp; omega
  | cons y L ih =>
    intro j h hj
    rw [List.zipIdx_cons, List.map_cons, List.sum_cons]
    have h0 := h 0 y (by simp)
    simp only [Nat.add_zero] at h0
    simp only
    rw [h0]
    by_cases hjk : j < k
    · rw [if_pos hjk, ih (j + 1) (by
        intro i z hz
        have := h (i + 1) z (by simpa using hz)
        rwa [show j + 1 + i = j + (i + 1) by omega]) (by omega)]
      have e1 : k - j = (k - (j + 1)) + 1 := by omega
      rw [e1, List.take_succ_cons, List.drop_succ_cons, List.map_cons, List.sum_cons,
        List.length_cons]
      have e2 : (k < j + 1 + L.length) ↔ (k < j + (L.length + 1)) := by omega
      simp only [e2]
      ring
    · have : k = j := by omega
      subst this
      rw [if_neg (by omega), if_pos rfl]
      have hall : ((L.zipIdx (k + 1)).map (fun y => f y.1 y.2)).sum = (L.map hi).sum := by
        congr 1
        apply List.ext_getElem?
        intro i
        rw [List.getElem?_map, List.getElem?_map, List.getElem?_zipIdx]
        cases hz : L[i]? with
        | none => rfl
        | some z =>
          simp only [Option.map_some]
          have := h (i + 1) z (by simpa using hz)
          rw [show k + 1 + i = k + (i + 1) by omega, this, if_neg (by omega), if_neg (by omega)]
      rw [hall]
      simp

theorem placedWeight_all {l : List Vertex} {f : List (Nat × Int)} (h : FreeVertices l f) {p : Int}
    (hp : ∀ v ∈ l, v.part = p) : placedWeight l p = (f.map (·.2)).sum := by
  unfold placedWeight
  rw [List.filter_eq_self.2 (by intro v hv; simpa using hp v hv), ← h.1, List.map_map]
  rfl

theorem placedWeight_none {l : List Vertex} {p q : Int}
    (hp : ∀ v ∈ l, v.part = p) (hpq : p ≠ q) : placedWeight l q = 0 := by
  unfold placedWeight
  rw [List.filter_eq_nil_iff.2 (by intro v hv; simp [hp v hv, hpq])]
  rfl

/-- What holds of processor `s` and its outcome `a`: `l` was added. -/
structure Restored (s : CProc) (a : AState) (l : List Vertex) (f : List (Nat × Int)) : Prop where
  wf : WF a.H
  verts : a.H.vertices = s.2.vertices ++ l
  free : FreeVertices l f
  nets : SameNets s.2 a.H
  size : a.H.globalSize = s.2.globalSize
  parts : ∀ v ∈ l, v.part = 0 ∨ v.part = 1

theorem greedy_parts {W0 W1 m0 m1 : Int} {l : List Vertex} (h : GreedyPlaced W0 W1 m0 m1 l) :
    ∀ v ∈ l, v.part = 0 ∨ v.part = 1 := by
  intro v hv
  obtain ⟨pre, post, rfl⟩ := List.append_of_mem hv
  exact (h pre v post rfl).1

theorem globalWeightParts2' (S : List CProc) (hb : ∀ s ∈ S, Bipartitioned s.2) :
    globalWeightParts (S.map (·.2)) 2 = .ok ((S.map (·.2)).map (fun _ =>
      [(S.map (fun s => partWeight s.2 0)).sum, (S.map (fun s => partWeight s.2 1)).sum])) := by
  unfold globalWeightParts
  rw [mapM_ok (g := fun H => [partWeight H 0, partWeight H 1])]
  · simp only [ok_bind, pure_eq_ok, List.map_map]
    congr 2
    funext s
    simp only [Function.comp_apply]
    have : ∀ (l : List CProc) (x y : Int), (l.map ((fun H => [partWeight H 0, partWeight H 1]) ∘
        (fun s : CProc => s.2))).foldl addEach [x, y] =
        [x + (l.map (fun s => partWeight s.2 0)).sum, y + (l.map (fun s => partWeight s.2 1)).sum] := by
      intro l
      induction l with
      | nil => simp
      | cons s l ih =>
        intro x y
        rw [List.map_cons, List.foldl_cons]
        have : addEach [x, y] (((fun H => [partWeight H 0, partWeight H 1]) ∘
          (fun s : CProc => s.2)) s) = [x + partWeight s.2 0, y + partWeight s.2 1] := rfl
        rw [this, ih]
        simp [add_assoc]
    have h2 := this S 0 0
    simpa using h2
  · intro H hH
    obtain ⟨s, hs, rfl⟩ := List.mem_map.1 hH
    exact weightAllParts2 (hb s hs)

theorem globalWeightParts2 (S : List CProc) (hb : ∀ s ∈ S, Bipartitioned s.2) :
    ∃ A B, globalWeightParts (S.map (·.2)) 2 = .ok ((S.map (·.2)).map (fun _ => [A, B])) :=
  ⟨_, _, globalWeightParts2' S hb⟩

theorem assignFreePar_ok {srt : List (Nat × Int) → List (Nat × Int)} (hsrt : ∀ l, (srt l).Perm l)
    {S : List CProc} (hS : FreeReady S) (m0 m1 : Int) (hm : totalFree S ≠ 0 → m0 + m1 ≠ 0) (rngs : Nat → Rng) :
    ∃ R, assignFreePar srt S m0 m1 rngs = .ok R ∧ R.length = S.length ∧
      (∀ (i : Nat) (s : CProc), S[i]? = some s → ∃ a l f, R[i]? = some a ∧ Restored s a l f ∧
        if totalFree S = 0 then f = [] else f.Perm s.1.free) ∧
      ∀ a ∈ R, a.w0 = (R.map (fun b => partWeight b.H 0)).sum ∧
        a.w1 = (R.map (fun b => partWeight b.H 1)).sum := by
  have hw := globalWeightParts2' S hS.bip
  set A := (S.map (fun s => partWeight s.2 0)).sum with hA
  set B := (S.map (fun s => partWeight s.2 1)).sum with hB
  obtain ⟨s0, S', hS0⟩ := List.exists_cons_of_ne_nil hS.nonempty
  unfold assignFreePar
  rw [hw]
  simp only [ok_bind]
  rw [vget_ok (a := [A, B]) (by rw [hS0]; rfl)]
  have hv0 : vget [A, B] 0 = .ok A := rfl
  have hv1 : vget [A, B] 1 = .ok B := rfl
  simp only [ok_bind, hv0, hv1]
  by_cases hz : totalFree S = 0
  · rw [if_pos (by
      rw [List.all_eq_true]
      intro s hs
      simp [hS.globalFree s hs, hz])]
    refine ⟨_, rfl, by simp, ?_, ?_⟩
    · intro i s hi
      refine ⟨{ H := s.2, w0 := A, w1 := B, rng := rngs i }, [], [], ?_, ?_, ?_⟩
      · simp [hi]
      · have hs := List.mem_of_getElem? hi
        exact ⟨hS.wf s hs, by simp, ⟨rfl, by simp⟩, SameNets.refl _, rfl, by simp⟩
      · rw [if_pos hz]
    · intro a ha
      obtain ⟨x, hx, rfl⟩ := List.mem_map.1 ha
      have hf : ∀ q, (List.map (fun b => partWeight b.H q) (List.map (fun x : CProc × Nat =>
          ({ H := x.1.2, w0 := A, w1 := B, rng := rngs x.2 } : AState)) S.zipIdx)) =
          S.map (fun s => partWeight s.2 q) := by
        intro q
        rw [List.map_map]
        have h1 : S.map (fun s => partWeight s.2 q) =
          (S.zipIdx.map Prod.fst).map (fun s => partWeight s.2 q) := by rw [List.zipIdx_map_fst]
        rw [h1, List.map_map]
        rfl
      exact ⟨by simp only [hf]; rfl, by simp only [hf]; rfl⟩
  · have hg0 : s0.1.globalFree = totalFree S := hS.globalFree s0 (by rw [hS0]; simp)
    rw [if_neg (by
      rw [List.all_eq_true]
      intro h
      have := h s0 (by rw [hS0]; simp)
      rw [beq_iff_eq, hg0] at this
      exact hz this)]
    rw [if_neg (by
      rw [List.any_eq_true]
      rintro ⟨s, hs, h⟩
      rw [beq_iff_eq, hS.globalFree s hs] at h
      exact hz h)]
    rw [vget_ok (a := s0) (by rw [hS0]; rfl)]
    simp only [ok_bind]
    rw [if_neg (hm hz)]
    set target := (B * m0 - A * m1 + s0.1.globalFree * m0).tdiv (m0 + m1)
    obtain ⟨k, hk, hsp⟩ := splitLoop_spec target (S.map (fun s => s.1.localFree)) 0 0
    rw [hsp]
    simp only [zero_add]
    set L := S.map (fun s => s.1.localFree) with hL
    have hfold : ∀ l : List Int, l.foldl (· + ·) 0 = l.sum := by
      intro l
      have := foldl_add_eq_sum (fun x : Int => x) l 0
      simpa using this
    obtain ⟨rs, hrs, hlen, hR⟩ := mapM_zipIdx_get S (fun x =>
        assignOne srt m0 m1 A B L (L.take k).sum k x.1 (rngs x.2) x.2)
      (fun i s a => ∃ l f, Restored s a l f ∧ f.Perm s.1.free ∧
        (i < k → ∀ v ∈ l, v.part = 0) ∧ (k < i → ∀ v ∈ l, v.part = 1) ∧
        (i = k → a.w0 = A + (L.take k).sum + placedWeight l 0 ∧
          a.w1 = B + (L.drop (k + 1)).sum + placedWeight l 1) ∧
        (i ≠ k → a.w0 = A + (L.take k).sum ∧ a.w1 = B)) (by
      intro i s hi
      have hs := List.mem_of_getElem? hi
      unfold assignOne
      simp only
      by_cases h1 : i < k
      · rw [if_pos h1]
        obtain ⟨H', l, a1, a2, a3, a4, a5, a6, a7⟩ := assignAll_ok (hS.wf s hs) 0 (hS.nodup s hs)
          (hS.fresh s hs)
        rw [a1]
        refine ⟨_, rfl, l, s.1.free, ⟨a2, a3, a4, a6, a7, fun v hv => Or.inl (a5 v hv)⟩,
          List.Perm.refl _, fun _ => a5, by omega, by omega, fun _ => ⟨rfl, rfl⟩⟩
      · rw [if_neg h1]
        by_cases h2 : i > k
        · rw [if_pos h2]
          obtain ⟨H', l, a1, a2, a3, a4, a5, a6, a7⟩ := assignAll_ok (hS.wf s hs) 1 (hS.nodup s hs)
            (hS.fresh s hs)
          rw [a1]
          refine ⟨_, rfl, l, s.1.free, ⟨a2, a3, a4, a6, a7, fun v hv => Or.inr (a5 v hv)⟩,
            List.Perm.refl _, by omega, fun _ => a5, by omega, fun _ => ⟨rfl, rfl⟩⟩
        · rw [if_neg h2, hfold]
          obtain ⟨a, l, a1, a2, a3, a4, a5, a6, a7, a8, a9⟩ := assignGreedy_ok hsrt (hS.wf s hs)
            (A + (L.take k).sum) (B + (L.drop (k + 1)).sum) m0 m1 (rngs i) (hS.nodup s hs)
            (hS.fresh s hs)
          exact ⟨a, a1, l, srt s.1.free, ⟨a2, a3, a4, a5, a6, greedy_parts a7⟩, hsrt _, by omega,
            by omega, fun _ => ⟨a8, a9⟩, by omega⟩)
    rw [hrs]
    simp only [ok_bind]
    -- the part weights of the outcome
    have hlL : L.length = S.length := by simp [hL]
    have hsum : ∀ (q : Int) (lo hi : Int → Int) (x : Int),
        (∀ (i : Nat) (s : CProc), S[i]? = some s → ∀ a, rs[i]? = some a →
          partWeight a.H q = partWeight s.2 q + (if i < k then lo s.1.localFree else
            if i = k then x else hi s.1.localFree)) →
        (rs.map (fun b => partWeight b.H q)).sum = (S.map (fun s => partWeight s.2 q)).sum +
          (((L.take k).map lo).sum + (if k < L.length then x else 0) +
            ((L.drop (k + 1)).map hi).sum) := by
      intro q lo hi x h
      have h1 := sum_split L (fun y i => if i < k then lo y else if i = k then x else hi y) lo hi x k 0
        (by intro i y _; simp) (Nat.zero_le _)
      simp only [Nat.sub_zero, Nat.zero_add] at h1
      rw [← h1]
      have h2 : rs.map (fun b => partWeight b.H q) = (S.zipIdx).map (fun x' => partWeight x'.1.2 q +
          (if x'.2 < k then lo x'.1.1.localFree else if x'.2 = k then x else hi x'.1.1.localFree)) := by
        apply List.ext_getElem?
        intro i
        rw [List.getElem?_map, List.getElem?_map, List.getElem?_zipIdx]
        cases hi' : S[i]? with
        | none =>
          have : rs[i]? = none := by
            rw [List.getElem?_eq_none_iff] at hi' ⊢; omega
          rw [this]; rfl
        | some s =>
          obtain ⟨a, ha, -⟩ := hR i s hi'
          rw [ha]
          simp only [Option.map_some, Nat.zero_add]
          rw [h i s hi' a ha]
      rw [h2]
      have h3 : ∀ (l : List (CProc × Nat)) (f g : CProc × Nat → Int),
          (l.map (fun x => f x + g x)).sum = (l.map f).sum + (l.map g).sum := by
        intro l f g
        induction l with
        | nil => simp
        | cons a l ih => simp only [List.map_cons, List.sum_cons, ih]; ring
      rw [h3 S.zipIdx (fun x' => partWeight x'.1.2 q) (fun x' =>
          (if x'.2 < k then lo x'.1.1.localFree else if x'.2 = k then x else hi x'.1.1.localFree))]
      congr 1
      · have h1 : S.map (fun s => partWeight s.2 q) =
          (S.zipIdx.map Prod.fst).map (fun s => partWeight s.2 q) := by rw [List.zipIdx_map_fst]
        rw [h1, List.map_map]
        rfl
      · rw [hL, List.zipIdx_map, List.map_map]
        rfl
    have hfreew : ∀ s ∈ S, ∀ f : List (Nat × Int), f.Perm s.1.free →
        (f.map (·.2)).sum = s.1.localFree := by
      intro s hs f hf
      rw [hS.localFree s hs]
      exact (hf.map _).sum_eq
    have hzero : ∀ l : List Int, (l.map (fun _ => (0 : Int))).sum = 0 := by
      intro l; induction l with
      | nil => rfl
      | cons a l ih => rw [List.map_cons, List.sum_cons, ih]; rfl
    by_cases hkp : k < S.length
    · -- there is a split processor
      obtain ⟨sk, hsk⟩ : ∃ sk, S[k]? = some sk := ⟨_, List.getElem?_eq_getElem hkp⟩
      obtain ⟨ak, hak, lk, fk, hrk, hfk, -, -, hwk, -⟩ := hR k sk hsk
      obtain ⟨hw0, hw1⟩ := hwk rfl
      rw [hak]
      simp only
      have e0 := hsum 0 (fun y => y) (fun _ => 0) (placedWeight lk 0) (by
        intro i s hi a ha
        obtain ⟨a', ha', l, f, hr, hf, c1, c2, c3, -⟩ := hR i s hi
        rw [ha] at ha'; cases ha'
        rw [partWeight_add_list hr.verts]
        congr 1
        by_cases h1 : i < k
        · rw [if_pos h1, placedWeight_all hr.free (c1 h1), hfreew s (List.mem_of_getElem? hi) f hf]
        · rw [if_neg h1]
          by_cases h2 : i = k
          · subst h2
            rw [if_pos rfl]
            rw [hi] at hsk; cases hsk
            rw [ha] at hak; cases hak
            have := hr.verts
            rw [hrk.verts] at this
            rw [List.append_cancel_left this]
          · rw [if_neg h2, placedWeight_none (c2 (by omega)) (by decide)])
      have e1 := hsum 1 (fun _ => 0) (fun y => y) (placedWeight lk 1) (by
        intro i s hi a ha
        obtain ⟨a', ha', l, f, hr, hf, c1, c2, c3, -⟩ := hR i s hi
        rw [ha] at ha'; cases ha'
        rw [partWeight_add_list hr.verts]
        congr 1
        by_cases h1 : i < k
        · rw [if_pos h1, placedWeight_none (c1 h1) (by decide)]
        · rw [if_neg h1]
          by_cases h2 : i = k
          · subst h2
            rw [if_pos rfl]
            rw [hi] at hsk; cases hsk
            rw [ha] at hak; cases hak
            have := hr.verts
            rw [hrk.verts] at this
            rw [List.append_cancel_left this]
          · rw [if_neg h2, placedWeight_all hr.free (c2 (by omega)),
              hfreew s (List.mem_of_getElem? hi) f hf])
      rw [if_pos (by omega), hzero, List.map_id'] at e0
      rw [if_pos (by omega), hzero, List.map_id'] at e1
      refine ⟨_, rfl, by simp [hlen], ?_, ?_⟩
      · intro i s hi
        obtain ⟨a, ha, l, f, hr, hf, -⟩ := hR i s hi
        refine ⟨{ a with w0 := ak.w0, w1 := ak.w1 }, l, f, by simp [ha], ?_, ?_⟩
        · exact ⟨hr.1, hr.2, hr.3, hr.4, hr.5, hr.6⟩
        · rw [if_neg hz]; exact hf
      · intro a ha
        obtain ⟨b, hb, rfl⟩ := List.mem_map.1 ha
        rw [List.map_map, List.map_map]
        have f0 : ((fun b => partWeight b.H 0) ∘ fun r : AState => { r with w0 := ak.w0, w1 := ak.w1 }) =
            fun b => partWeight b.H 0 := rfl
        have f1 : ((fun b => partWeight b.H 1) ∘ fun r : AState => { r with w0 := ak.w0, w1 := ak.w1 }) =
            fun b => partWeight b.H 1 := rfl
        rw [f0, f1, e0, e1]
        simp only
        rw [hw0, hw1]
        constructor <;> ring
    · have hnone : rs[k]? = none := by rw [List.getElem?_eq_none_iff]; omega
      rw [hnone]
      simp only
      have hke : k = S.length := by omega
      have e0 := hsum 0 (fun y => y) (fun _ => 0) 0 (by
        intro i s hi a ha
        have hil := (List.getElem?_eq_some_iff.1 hi).1
        obtain ⟨a', ha', l, f, hr, hf, c1, c2, c3, -⟩ := hR i s hi
        rw [ha] at ha'; cases ha'
        rw [partWeight_add_list hr.verts, if_pos (by omega), placedWeight_all hr.free (c1 (by omega)),
          hfreew s (List.mem_of_getElem? hi) f hf])
      have e1 := hsum 1 (fun _ => 0) (fun y => y) 0 (by
        intro i s hi a ha
        have hil := (List.getElem?_eq_some_iff.1 hi).1
        obtain ⟨a', ha', l, f, hr, hf, c1, c2, c3, -⟩ := hR i s hi
        rw [ha] at ha'; cases ha'
        rw [partWeight_add_list hr.verts, if_pos (by omega), placedWeight_none (c1 (by omega)) (by decide)])
      rw [if_neg (by omega), hzero, List.map_id'] at e0
      rw [if_neg (by omega), hzero, List.map_id', List.drop_eq_nil_of_le (by omega)] at e1
      refine ⟨_, rfl, hlen, ?_, ?_⟩
      · intro i s hi
        obtain ⟨a, ha, l, f, hr, hf, -⟩ := hR i s hi
        refine ⟨a, l, f, ha, hr, ?_⟩
        rw [if_neg hz]; exact hf
      · intro a ha
        obtain ⟨i, hi⟩ := List.mem_iff_getElem?.1 ha
        have hil : i < rs.length := (List.getElem?_eq_some_iff.1 hi).1
        obtain ⟨a', ha', -, -, -, -, -, -, -, c4⟩ := hR i S[i] (List.getElem?_eq_getElem (by omega))
        rw [hi] at ha'; cases ha'
        obtain ⟨d0, d1⟩ := c4 (by omega)
        rw [d0, d1, e0, e1]
        exact ⟨by rw [hA]; simp, by rw [hB]; simp⟩

theorem mergeFreePar_ok {S : List CProc} (hw : ∀ s ∈ S, WF s.2) (hC : ∀ s ∈ S, s.1.free = []) :
    ∃ S', mergeFreePar S = .ok S' ∧ List.Forall₂ (fun s s' =>
      s'.1.free = freeOf s.2 ∧ s'.1.localFree = ((freeOf s.2).map (·.2)).sum ∧
      s'.1.globalFree = totalFree S' ∧ s'.1.samples = s.1.samples ∧ s'.1.matched = s.1.matched ∧
      WF s'.2 ∧ s'.2.vertices.Perm (s.2.vertices.filter (fun v => v.nets ≠ [])) ∧
      SameNets s.2 s'.2 ∧ s'.2.globalSize = (S'.map (fun t => t.2.vertices.length)).sum) S S' := by
  unfold mergeFreePar
  have hm : ∃ rs, S.mapM (fun s => s.1.removeFreeVertices s.2) = .ok rs ∧
      List.Forall₂ (fun (s : CProc) (r : Contraction × Hypergraph × Int) =>
        r.1 = { s.1 with free := freeOf s.2 } ∧ r.2.2 = ((freeOf s.2).map (·.2)).sum ∧
        WF r.2.1 ∧ r.2.1.vertices.Perm (s.2.vertices.filter (fun v => v.nets ≠ [])) ∧
        SameNets s.2 r.2.1) S rs := by
    induction S with
    | nil => exact ⟨[], rfl, List.Forall₂.nil⟩
    | cons s S ih =>
      obtain ⟨rs, h1, h2⟩ := ih (fun s hs => hw s (by simp [hs])) (fun s hs => hC s (by simp [hs]))
      obtain ⟨H', a1, a2, a3, a4, a5⟩ := removeFreeVertices_ok (hw s (by simp)) (hC s (by simp))
      refine ⟨({ s.1 with free := freeOf s.2 }, H', ((freeOf s.2).map (·.2)).sum) :: rs, ?_, ?_⟩
      · rw [List.mapM_cons, a1]
        simp only [ok_bind]
        rw [h1]; rfl
      · exact List.Forall₂.cons ⟨rfl, rfl, a2, a3, a4⟩ h2
  obtain ⟨rs, h1, h2⟩ := hm
  rw [h1]
  simp only [ok_bind, pure_eq_ok]
  refine ⟨_, rfl, ?_⟩
  have hfold : ∀ l : List Int, l.foldl (· + ·) 0 = l.sum := by
    intro l
    have := foldl_add_eq_sum (fun x : Int => x) l 0
    simpa using this
  have hfoldN : ∀ (l : List Nat) (a : Nat), l.foldl (· + ·) a = a + l.sum := by
    intro l
    induction l with
    | nil => simp
    | cons x l ih => intro a; rw [List.foldl_cons, ih, List.sum_cons]; omega
  rw [hfold, hfoldN]
  have htot : ∀ (t : Int) (z : Nat), totalFree (rs.map (fun r =>
      (({ r.1 with localFree := r.2.2, globalFree := t },
        { r.2.1 with globalSize := z }) : CProc))) = (rs.map (fun r => r.2.2)).sum := by
    intro t z
    unfold totalFree
    rw [List.map_map]
    congr 1
    apply List.map_congr_left
    intro r hr
    simp only [Function.comp_apply]
    have : ∀ r ∈ rs, (r.1.free.map (·.2)).sum = r.2.2 := by
      intro r hr
      obtain ⟨i, hi, rfl⟩ := List.mem_iff_getElem.1 hr
      have := h2.get (i := i) (by rw [h2.length_eq]; exact hi) hi
      simp only [List.get_eq_getElem] at this
      rw [this.1, this.2.1]
    exact this r hr
  rw [List.forall₂_map_right_iff]
  refine h2.imp ?_
  rintro s r ⟨a1, a2, a3, a4, a5⟩
  refine ⟨by rw [a1], a2, (htot _ _).symm, by rw [a1], by rw [a1], ?_, a4,
    ⟨a5.1, a5.2, a5.3, a5.4, a5.5⟩, ?_⟩
  · exact ⟨a3.1, a3.2, a3.3, a3.4, a3.5, a3.6, a3.7, a3.8⟩
  · simp [Function.comp_def]

end PMondriaan

import Verif.Proofs.RedistLocal

/-
Redistribution: receiving, and all processors together.
-/

namespace PMondriaan

open Spec

/-! ### `add_to_nets` -/

/-- The nets after the vertex `u` was added to those in `es`. -/
def addOnePin (u : Nat) (es : List Nat) (n : Net) : Net :=
  if n.id ∈ es then { n with vertices := n.vertices ++ [u] } else n

theorem addPin_id (u : Nat) (es : List Nat) (n : Net) : (addOnePin u es n).id = n.id := by
  unfold addOnePin; split <;> rfl

theorem addPin_cost (u : Nat) (es : List Nat) (n : Net) : (addOnePin u es n).cost = n.cost := by
  unfold addOnePin; split <;> rfl

/-- The body of `add_to_nets`. -/
def addPinStep (u : Nat) (H : Hypergraph) (e : Nat) : Res Hypergraph := do
  let j ← H.localIdNet e
  let n ← vget H.nets j
  pure (H.setNet j { n with vertices := n.vertices ++ [u] })

theorem addPins_ok (u : Nat) : ∀ (es : List Nat) (H : Hypergraph), es.Nodup →
    (H.nets.map (·.id)).Nodup → (∀ e j, H.nmap e = some j ↔ (H.nets.map (·.id))[j]? = some e) →
    (∀ e ∈ es, IsNet H e) →
    es.foldlM (addPinStep u) H = .ok { H with nets := H.nets.map (addOnePin u es) } := by
  intro es
  induction es with
  | nil =>
    intro H _ _ _ _
    have : H.nets.map (addOnePin u []) = H.nets := by
      conv_rhs => rw [← List.map_id H.nets]
      apply List.map_congr_left
      intro n _
      simp [addOnePin]
    rw [this]
    rfl
  | cons e es ih =>
    intro H hnd hids hmap hin
    obtain ⟨j, hj⟩ := List.getElem?_of_mem (hin e (by simp))
    have hj' := hj
    rw [List.getElem?_map, Option.map_eq_some_iff] at hj'
    obtain ⟨n, hn, hne⟩ := hj'
    have hstep : addPinStep u H e = .ok (H.setNet j { n with vertices := n.vertices ++ [u] }) := by
      unfold addPinStep Hypergraph.localIdNet
      rw [(hmap e j).2 hj]
      simp only [ok_bind, vget_ok hn, pure_eq_ok]
    have hset : (H.setNet j { n with vertices := n.vertices ++ [u] }).nets = H.nets.map (addOnePin u [e]) := by
      show H.nets.set j _ = _
      apply List.ext_getElem?
      intro i
      rw [List.getElem?_set, List.getElem?_map]
      obtain ⟨hlt, hget⟩ := List.getElem?_eq_some_iff.1 hn
      by_cases hij : j = i
      · subst hij
        rw [if_pos rfl, if_pos hlt, hn]
        simp [addOnePin, hne]
      · rw [if_neg hij]
        cases hi : H.nets[i]? with
        | none => rfl
        | some m =>
          have hme : m.id ≠ e := by
            intro h
            apply hij
            have h1 : (H.nets.map (·.id))[i]? = some e := by rw [List.getElem?_map, hi, ← h]; rfl
            have h2 := (hmap e i).2 h1
            rw [(hmap e j).2 hj] at h2
            exact Option.some.inj h2
          simp [addOnePin, hme]
    have hids' : (H.setNet j { n with vertices := n.vertices ++ [u] }).nets.map (·.id) = H.nets.map (·.id) := by
      rw [hset, List.map_map]
      apply List.map_congr_left
      intro m _
      exact addPin_id _ _ _
    rw [List.foldlM_cons, hstep, ok_bind, ih _ (List.nodup_cons.1 hnd).2 (by rw [hids']; exact hids)
      (by rw [hids']; exact hmap) (by
        intro e' he'
        unfold IsNet
        rw [hids']
        exact hin e' (by simp [he']))]
    rw [hset, List.map_map]
    congr 1
    show Hypergraph.mk _ _ _ _ _ _ _ _ = Hypergraph.mk _ _ _ _ _ _ _ _
    congr 1
    apply List.map_congr_left
    intro m _
    simp only [Function.comp_def]
    have h1 : e ∉ es := (List.nodup_cons.1 hnd).1
    by_cases h2 : m.id = e
    · have h3 : m.id ∉ es := h2 ▸ h1
      simp [addOnePin, h2, h1]
    · by_cases h3 : m.id ∈ es <;> simp [addOnePin, h2, h3]

/-! ### Receiving -/

/-- The invariant while messages are received: `rs` are the vertices received. -/
structure Got (H0 H : Hypergraph) (vs0 rs : List Vertex) : Prop where
  wf : WF (withBack H vs0).updateMap
  verts : H.vertices = H0.vertices ++ rs
  nets : ∀ n ∈ H.nets, (∃ n' ∈ H0.nets, n'.id = n.id ∧ n'.cost = n.cost)
  isNet : ∀ e, IsNet H0 e → IsNet H e

theorem receive_ok {H0 H : Hypergraph} {vs0 rs : List Vertex} (h : Got H0 H vs0 rs) {v : Vertex}
    (hid : v.id ∉ (H.vertices ++ vs0).map (·.id)) (hnd : v.nets.Nodup) (hin : ∀ e ∈ v.nets, IsNet H e) :
    ∃ H', redistReceive H v = .ok H' ∧ Got H0 H' vs0 (rs ++ [v]) := by
  have w := h.wf
  have hmap : ∀ e j, H.nmap e = some j ↔ (H.nets.map (·.id))[j]? = some e := w.nmap
  refine ⟨{ H with vertices := H.vertices ++ [v], nets := H.nets.map (addOnePin v.id v.nets) }, ?_, ?_⟩
  · exact addPins_ok v.id v.nets { H with vertices := H.vertices ++ [v] } hnd w.nids hmap hin
  · have hids : (H.nets.map (addOnePin v.id v.nets)).map (·.id) = H.nets.map (·.id) := by
      rw [List.map_map]
      exact List.map_congr_left (fun m _ => addPin_id _ _ _)
    have hvperm : (H.vertices ++ [v] ++ vs0).Perm (v :: (H.vertices ++ vs0)) := by
      rw [List.append_assoc]
      exact List.perm_middle
    have hvnd : ((H.vertices ++ [v] ++ vs0).map (·.id)).Nodup := by
      rw [(hvperm.map _).nodup_iff, List.map_cons, List.nodup_cons]
      exact ⟨hid, w.vids⟩
    refine ⟨?_, by rw [h.verts]; simp, ?_, ?_⟩
    · refine ⟨hvnd, ?_, fun u i => buildMap_spec hvnd u i, ?_, ?_, ?_, ?_, ?_⟩
      · exact hids ▸ w.nids
      · intro e j
        have := hmap e j
        rw [← hids] at this
        exact this
      · intro x hx
        rcases List.mem_cons.1 (hvperm.mem_iff.1 hx) with rfl | hx
        · exact hnd
        · exact w.vnets x hx
      · intro n hn
        obtain ⟨m, hm, rfl⟩ := List.mem_map.1 (show n ∈ H.nets.map (addOnePin v.id v.nets) from hn)
        unfold addOnePin
        split
        · have hm' := w.npins m hm
          refine List.Nodup.append hm' (by simp) ?_
          intro u hu hu'
          rw [List.mem_singleton] at hu'
          subst hu'
          obtain ⟨x, hx, h1, -⟩ := w.inc_vtx m hm _ hu
          exact hid (h1 ▸ List.mem_map_of_mem hx)
        · exact w.npins m hm
      · intro x hx e he
        rcases List.mem_cons.1 (hvperm.mem_iff.1 hx) with rfl | hx
        · obtain ⟨m, hm, hme⟩ := List.mem_map.1 (hin e he)
          refine ⟨addOnePin x.id x.nets m, List.mem_map_of_mem hm, by rw [addPin_id]; exact hme, ?_⟩
          unfold addOnePin
          rw [if_pos (by rw [hme]; exact he)]
          simp
        · obtain ⟨m, hm, h1, h2⟩ := w.inc_net x hx e he
          refine ⟨addOnePin v.id v.nets m, List.mem_map_of_mem hm, by rw [addPin_id]; exact h1, ?_⟩
          unfold addOnePin
          split
          · simp [h2]
          · exact h2
      · intro n hn u hu
        obtain ⟨m, hm, rfl⟩ := List.mem_map.1 (show n ∈ H.nets.map (addOnePin v.id v.nets) from hn)
        rw [addPin_id]
        have hcase : u ∈ m.vertices ∨ (u = v.id ∧ m.id ∈ v.nets) := by
          unfold addOnePin at hu
          split at hu
          · rename_i hmv
            rcases List.mem_append.1 hu with hu | hu
            · exact Or.inl hu
            · exact Or.inr ⟨by simpa using hu, hmv⟩
          · exact Or.inl hu
        rcases hcase with hu | ⟨rfl, hmv⟩
        · obtain ⟨x, hx, h1, h2⟩ := w.inc_vtx m hm u hu
          exact ⟨x, hvperm.mem_iff.2 (List.mem_cons_of_mem _ hx), h1, h2⟩
        · exact ⟨v, hvperm.mem_iff.2 (by simp), rfl, hmv⟩
    · intro n hn
      obtain ⟨m, hm, rfl⟩ := List.mem_map.1 (show n ∈ H.nets.map (addOnePin v.id v.nets) from hn)
      rw [addPin_id, addPin_cost]
      exact h.nets m hm
    · intro e he
      unfold IsNet
      rw [show (Hypergraph.mk H.globalSize H.globalNumberNets (H.vertices ++ [v]) (H.nets.map (addOnePin v.id v.nets))
        H.nrNz H.vmap H.nmap H.dups).nets.map (·.id) = H.nets.map (·.id) from hids]
      exact h.isNet e he

theorem receives_ok {H0 : Hypergraph} {vs0 : List Vertex} : ∀ (ws rs : List Vertex) (H : Hypergraph),
    Got H0 H vs0 rs → ((H.vertices ++ vs0 ++ ws).map (·.id)).Nodup → (∀ v ∈ ws, v.nets.Nodup) →
    (∀ v ∈ ws, ∀ e ∈ v.nets, IsNet H0 e) →
    ∃ H', ws.foldlM redistReceive H = .ok H' ∧ Got H0 H' vs0 (rs ++ ws) := by
  intro ws
  induction ws with
  | nil => intro rs H h _ _ _; exact ⟨H, rfl, by simpa using h⟩
  | cons v ws ih =>
    intro rs H h hnd hn hin
    obtain ⟨H1, h1, h2⟩ := receive_ok h (v := v) (by
      intro hm
      rw [List.map_append, List.map_cons] at hnd
      exact List.disjoint_of_nodup_append hnd hm (by simp)) (hn v (by simp))
      (fun e he => h.isNet e (hin v (by simp) e he))
    obtain ⟨H2, h3, h4⟩ := ih (rs ++ [v]) H1 h2 (by
      have hv : H1.vertices = H.vertices ++ [v] := by rw [h2.verts, h.verts]; simp
      rw [hv]
      refine (List.Perm.map _ ?_).nodup_iff.1 hnd
      refine List.Perm.trans List.perm_middle ?_
      simp only [List.append_assoc, List.singleton_append]
      exact List.perm_middle.symm)
      (fun x hx => hn x (by simp [hx])) (fun x hx => hin x (by simp [hx]))
    exact ⟨H2, by rw [List.foldlM_cons, h1, ok_bind]; exact h3, by simpa using h4⟩

/-! ### New nets -/

/-- The invariant while new nets are added. -/
structure Added (H0 H : Hypergraph) (vs0 : List Vertex) (ms : List (Nat × Int)) : Prop where
  wf : WF (withBack H vs0).updateMap
  verts : H.vertices = H0.vertices
  nets : ∀ n ∈ H.nets, (∃ n' ∈ H0.nets, n'.id = n.id ∧ n'.cost = n.cost) ∨ (n.id, n.cost) ∈ ms
  keeps : ∀ n ∈ H0.nets, n ∈ H.nets
  isNet : ∀ m ∈ ms, IsNet H m.1

theorem addNets_ok {H0 : Hypergraph} {vs0 : List Vertex} : ∀ (ms done : List (Nat × Int)) (H : Hypergraph),
    Added H0 H vs0 done → Added H0 (ms.foldl (fun H m => H.addNet m.1 [] m.2) H) vs0 (done ++ ms) := by
  intro ms
  induction ms with
  | nil => intro done H h; simpa using h
  | cons m ms ih =>
    intro done H h
    have w := h.wf
    have hmap : ∀ e j, H.nmap e = some j ↔ (H.nets.map (·.id))[j]? = some e := w.nmap
    suffices h1 : Added H0 (H.addNet m.1 [] m.2) vs0 (done ++ [m]) by
      have := ih (done ++ [m]) _ h1
      simpa using this
    unfold Hypergraph.addNet
    split
    · rename_i hs
      refine ⟨h.wf, h.verts, ?_, h.keeps, ?_⟩
      · intro n hn
        rcases h.nets n hn with h1 | h1
        · exact Or.inl h1
        · exact Or.inr (by simp [h1])
      · intro m' hm'
        rcases List.mem_append.1 hm' with hm' | hm'
        · exact h.isNet m' hm'
        · rw [List.mem_singleton] at hm'
          subst hm'
          obtain ⟨j, hj⟩ := Option.isSome_iff_exists.1 hs
          exact List.mem_of_getElem? ((hmap _ _).1 hj)
    · rename_i hs
      have hnot : m.1 ∉ H.nets.map (·.id) := by
        intro hm
        obtain ⟨j, hj⟩ := List.getElem?_of_mem hm
        rw [(hmap _ _).2 hj] at hs
        simp at hs
      refine ⟨?_, h.verts, ?_, fun n hn => by simp [h.keeps n hn], ?_⟩
      · refine ⟨w.vids, ?_, w.vmap, ?_, w.vnets, ?_, ?_, ?_⟩
        · show ((H.nets ++ [Net.mk' m.1 [] m.2]).map (·.id)).Nodup
          rw [List.map_append]
          refine List.Nodup.append w.nids (by simp) ?_
          intro e he he'
          simp only [List.map_cons, List.map_nil, List.mem_singleton, Net.mk'] at he'
          subst he'
          exact hnot he
        · intro e j
          show mapSet H.nmap m.1 H.nets.length e = some j ↔ ((H.nets ++ [Net.mk' m.1 [] m.2]).map (·.id))[j]? = some e
          have := push_map hmap hnot e j
          rw [List.length_map] at this
          simpa [Net.mk'] using this
        · intro n hn
          rcases List.mem_append.1 (show n ∈ H.nets ++ [Net.mk' m.1 [] m.2] from hn) with hn | hn
          · exact w.npins n hn
          · rw [List.mem_singleton] at hn
            subst hn
            simp [Net.mk']
        · intro v hv e he
          obtain ⟨n, hn, h1, h2⟩ := w.inc_net v hv e he
          exact ⟨n, List.mem_append_left _ hn, h1, h2⟩
        · intro n hn u hu
          rcases List.mem_append.1 (show n ∈ H.nets ++ [Net.mk' m.1 [] m.2] from hn) with hn | hn
          · exact w.inc_vtx n hn u hu
          · rw [List.mem_singleton] at hn
            subst hn
            simp [Net.mk'] at hu
      · intro n hn
        rcases List.mem_append.1 hn with hn | hn
        · rcases h.nets n hn with h1 | h1
          · exact Or.inl h1
          · exact Or.inr (by simp [h1])
        · rw [List.mem_singleton] at hn
          subst hn
          exact Or.inr (by simp [Net.mk'])
      · intro m' hm'
        unfold IsNet
        rcases List.mem_append.1 hm' with hm' | hm'
        · have := h.isNet m' hm'
          unfold IsNet at this
          simp [this]
        · rw [List.mem_singleton] at hm'
          subst hm'
          simp [Net.mk']

/-- The end of `redistribute_hypergraph` on one processor. -/
theorem redistFinish_ok {plow : Nat} {H : Hypergraph} {vs0 : List Vertex} (w : WF (withBack H vs0).updateMap)
    (h0 : plow ≠ 0 → vs0 = []) {costs : List (Nat × Int)} {verts : List Vertex}
    (hnd : ((H.vertices ++ vs0 ++ verts).map (·.id)).Nodup) (hn : ∀ v ∈ verts, v.nets.Nodup)
    (hin : ∀ v ∈ verts, ∀ e ∈ v.nets, ∃ c, (e, c) ∈ costs) :
    ∃ H', redistFinish plow H vs0 costs verts = .ok (H', ((H.vertices ++ verts).length : Int)) ∧ WF H' ∧
      H'.vertices = H.vertices ++ verts ++ vs0 ∧
      (∀ n ∈ H'.nets, (∃ n' ∈ H.nets, n'.id = n.id ∧ n'.cost = n.cost) ∨ (n.id, n.cost) ∈ costs) ∧
      (∀ e, IsNet H e → IsNet H' e) := by
  have hA := addNets_ok costs [] H (vs0 := vs0)
    ⟨w, rfl, fun n hn => Or.inl ⟨n, hn, rfl, rfl⟩, fun n hn => hn, by simp⟩
  rw [List.nil_append] at hA
  unfold redistFinish
  generalize costs.foldl (fun H m => H.addNet m.1 [] m.2) H = H1 at hA ⊢
  obtain ⟨H2, h2, hG⟩ := receives_ok (H0 := H1) (vs0 := vs0) verts [] H1
    ⟨hA.wf, by simp, fun n hn => ⟨n, hn, rfl, rfl⟩, fun e he => he⟩ (by rw [hA.verts]; exact hnd) hn (by
      intro v hv e he
      obtain ⟨c, hc⟩ := hin v hv e he
      exact hA.isNet _ hc)
  rw [List.nil_append] at hG
  dsimp only
  rw [h2, ok_bind]
  have hback : (if plow = 0 then { H2 with vertices := H2.vertices ++ vs0 } else H2) = withBack H2 vs0 := by
    split
    · rfl
    · rename_i hp
      rw [h0 hp]
      unfold withBack
      simp
  rw [hback]
  have hv : H2.vertices = H.vertices ++ verts := by rw [hG.verts, hA.verts]
  refine ⟨(withBack H2 vs0).updateMap, ?_, hG.wf, ?_, ?_, ?_⟩
  · show Except.ok (_, (((H2.vertices ++ vs0).length : Nat) : Int) - (vs0.length : Int)) = _
    rw [hv, List.length_append (as := H.vertices ++ verts)]
    congr 2
    push_cast
    omega
  · show H2.vertices ++ vs0 = _
    rw [hv]
  · intro n hn
    obtain ⟨n1, h3, h4, h5⟩ := hG.nets n hn
    rcases hA.nets n1 h3 with ⟨n2, h6, h7, h8⟩ | h6
    · exact Or.inl ⟨n2, h6, h7.trans h4, h8.trans h5⟩
    · exact Or.inr (by rw [h4, h5] at h6; exact h6)
  · intro e he
    obtain ⟨n, hn, hne⟩ := List.mem_map.1 he
    exact hG.isNet e (List.mem_map.2 ⟨n, hA.keeps n hn, hne⟩)

end PMondriaan

import Verif.Proofs.WF
import Mathlib.Data.List.Forall2

/-
Container operations: swap-and-pop removal, id maps, removal of nets.
-/

namespace PMondriaan

open Spec

/-! ### Swap and pop -/

theorem swapRemoveAt_length {α : Type} {l : List α} {i : Nat} (h : i < l.length) :
    (swapRemoveAt l i).length = l.length - 1 := by
  unfold swapRemoveAt
  cases hl : l.getLast? with
  | none => rw [List.getLast?_eq_none_iff] at hl; subst hl; simp at h
  | some b => simp

theorem swapRemoveAt_get {α : Type} {l : List α} {i : Nat} (h : i < l.length) (k : Nat) :
    (swapRemoveAt l i)[k]? =
      if k < l.length - 1 then (if k = i then l[l.length - 1]? else l[k]?) else none := by
  unfold swapRemoveAt
  cases hl : l.getLast? with
  | none => rw [List.getLast?_eq_none_iff] at hl; subst hl; simp at h
  | some b =>
    rw [List.getLast?_eq_getElem?] at hl
    simp only [List.getElem?_dropLast, List.length_set]
    split
    · rename_i hk
      rw [List.getElem?_set]
      by_cases hki : k = i
      · subst hki; simp [h, hl]
      · have : ¬ i = k := fun h => hki h.symm
        simp [hki, this]
    · rfl

theorem swapRemoveAt_perm {α : Type} {l : List α} {i : Nat} (h : i < l.length) :
    (l[i] :: swapRemoveAt l i).Perm l := by
  unfold swapRemoveAt
  cases hl : l.getLast? with
  | none => rw [List.getLast?_eq_none_iff] at hl; subst hl; simp at h
  | some b =>
    simp only
    obtain ⟨l', rfl⟩ : ∃ l', l = l' ++ [b] := by
      rw [List.getLast?_eq_some_iff] at hl
      obtain ⟨ys, hys⟩ := hl
      exact ⟨ys, hys⟩
    rw [List.length_append, List.length_singleton] at h
    rcases Nat.lt_or_ge i l'.length with hi | hi
    · rw [List.set_append_left _ _ hi, List.dropLast_concat, List.getElem_append_left hi]
      have h1 := List.set_perm_cons_eraseIdx hi b
      have h2 := List.getElem_cons_eraseIdx_perm hi
      calc (l'[i] :: l'.set i b).Perm (l'[i] :: b :: l'.eraseIdx i) := List.Perm.cons _ h1
        _ |>.Perm (b :: l'[i] :: l'.eraseIdx i) := List.Perm.swap _ _ _
        _ |>.Perm (b :: l') := List.Perm.cons _ h2
        _ |>.Perm (l' ++ [b]) := (List.perm_append_singleton b l').symm
    · have : i = l'.length := by omega
      subst this
      rw [List.set_append_right _ _ (Nat.le_refl _)]
      simp only [Nat.sub_self, List.set_cons_zero, List.dropLast_concat]
      rw [List.getElem_append_right (Nat.le_refl _)]
      simpa using (List.perm_append_singleton b l').symm

theorem swapRemove_perm {l : List Nat} {x : Nat} (h : x ∈ l) : (x :: swapRemove l x).Perm l := by
  unfold swapRemove
  rw [if_pos h]
  have hlt := List.idxOf_lt_length_of_mem h
  have := swapRemoveAt_perm hlt
  rwa [List.getElem_idxOf hlt] at this

theorem swapRemove_not_mem {l : List Nat} {x : Nat} (h : x ∉ l) : swapRemove l x = l := by
  unfold swapRemove; rw [if_neg h]

theorem swapRemove_nodup {l : List Nat} (h : l.Nodup) (x : Nat) :
    (swapRemove l x).Perm (l.filter (· ≠ x)) := by
  by_cases hx : x ∈ l
  · have hp := swapRemove_perm hx
    have hnd : (x :: swapRemove l x).Nodup := hp.nodup_iff.2 h
    have h1 := hp.filter (· ≠ x)
    simp only [ne_eq, not_true_eq_false, decide_false, Bool.false_eq_true, not_false_eq_true,
      List.filter_cons_of_neg] at h1
    rw [List.filter_eq_self.2] at h1
    · exact h1
    · intro a ha
      have : a ≠ x := by
        rintro rfl; exact (List.nodup_cons.1 hnd).1 ha
      simp [this]
  · rw [swapRemove_not_mem hx, List.filter_eq_self.2]
    intro a ha
    have : a ≠ x := by rintro rfl; exact hx ha
    simp [this]

theorem mem_swapRemove {l : List Nat} (h : l.Nodup) (x y : Nat) :
    y ∈ swapRemove l x ↔ y ∈ l ∧ y ≠ x := by
  rw [(swapRemove_nodup h x).mem_iff]; simp

/-- The map update of swap-and-pop keeps an exact map exact. -/
theorem swapRemove_map {ids : List Nat} {m : Nat → Option Nat}
    (hm : ∀ u i, m u = some i ↔ ids[i]? = some u) {j : Nat} {x : Nat} (hj : ids[j]? = some x)
    {y : Nat} (hy : (swapRemoveAt ids j)[j]?.getD x = y) (u i : Nat) :
    mapErase (mapSet m y j) x u = some i ↔ (swapRemoveAt ids j)[i]? = some u := by
  have hinj : ∀ (a b c : Nat), ids[a]? = some c → ids[b]? = some c → a = b := by
    intro a b c ha hb
    have := (hm c a).2 ha
    rw [(hm c b).2 hb] at this
    exact (Option.some.inj this).symm
  have hjl : j < ids.length := by rw [List.getElem?_eq_some_iff] at hj; exact hj.1
  rw [swapRemoveAt_get hjl] at hy ⊢
  unfold mapErase mapSet
  by_cases hlast : j < ids.length - 1
  · rw [if_pos hlast, if_pos rfl] at hy
    obtain ⟨z, hz⟩ : ∃ z, ids[ids.length - 1]? = some z := by
      rw [List.getElem?_eq_getElem (by omega)]; exact ⟨_, rfl⟩
    rw [hz] at hy ⊢
    simp only [Option.getD_some] at hy
    subst hy
    have hzx : z ≠ x := by
      intro h; subst h
      have := hinj _ _ _ hz hj; omega
    by_cases hux : u = x
    · subst hux
      simp only [if_true]
      constructor
      · intro h; cases h
      · intro h
        split at h
        · split at h
          · exact absurd (Option.some.inj h) hzx
          · rename_i h1
            exact absurd (hinj _ _ _ h hj) h1
        · cases h
    · rw [if_neg hux]
      by_cases huz : u = z
      · subst huz
        simp only [if_true]
        constructor
        · intro h; cases h; simp [hlast]
        · intro h
          split at h
          · split at h
            · rename_i h1; rw [h1]
            · rename_i h0 h1
              have := hinj _ _ _ h hz
              omega
          · cases h
      · rw [if_neg huz, hm]
        constructor
        · intro h
          have hil : i < ids.length := by rw [List.getElem?_eq_some_iff] at h; exact h.1
          have h1 : i ≠ ids.length - 1 := by
            intro h'; rw [h'] at h; rw [h] at hz
            exact huz (Option.some.inj hz)
          have h2 : i ≠ j := by
            intro h'; rw [h'] at h; rw [h] at hj
            exact hux (Option.some.inj hj)
          rw [if_pos (by omega), if_neg h2]; exact h
        · intro h
          split at h
          · split at h
            · exact absurd (Option.some.inj h).symm huz
            · exact h
          · cases h
  · rw [if_neg hlast] at hy
    simp only [Option.getD_none] at hy
    subst hy
    by_cases hux : u = x
    · subst hux
      simp only [if_true]
      constructor
      · intro h; cases h
      · intro h
        split at h
        · split at h
          · omega
          · rename_i h0 h1
            exact absurd (hinj _ _ _ h hj) h1
        · cases h
    · rw [if_neg hux, if_neg hux, hm]
      constructor
      · intro h
        have hil : i < ids.length := by rw [List.getElem?_eq_some_iff] at h; exact h.1
        have h2 : i ≠ j := by
          intro h'; rw [h'] at h; rw [h] at hj
          exact hux (Option.some.inj hj)
        rw [if_pos (by omega), if_neg h2]; exact h
      · intro h
        split at h
        · split at h
          · omega
          · exact h
        · cases h

theorem swapRemoveAt_map {α β : Type} (f : α → β) (l : List α) (i : Nat) :
    (swapRemoveAt l i).map f = swapRemoveAt (l.map f) i := by
  unfold swapRemoveAt
  rw [List.getLast?_map]
  cases l.getLast? with
  | none => rfl
  | some b => simp

/-- The map update of `push_back`. -/
theorem push_map {ids : List Nat} {m : Nat → Option Nat}
    (hm : ∀ u i, m u = some i ↔ ids[i]? = some u) {x : Nat} (hx : x ∉ ids) (u i : Nat) :
    mapSet m x ids.length u = some i ↔ (ids ++ [x])[i]? = some u := by
  unfold mapSet
  by_cases hu : u = x
  · subst hu
    simp only [if_true]
    constructor
    · intro hi; cases hi; simp
    · intro hi
      rw [List.getElem?_append] at hi
      split at hi
      · exact absurd (List.mem_of_getElem? hi) hx
      · rcases Nat.lt_or_ge ids.length i with h1 | h1
        · have : i - ids.length ≥ 1 := by omega
          rw [List.getElem?_eq_none (by simpa using this)] at hi
          cases hi
        · congr 1; omega
  · simp only [hu, if_false]
    rw [hm, List.getElem?_append]
    constructor
    · intro hi
      rw [if_pos (by rw [List.getElem?_eq_some_iff] at hi; exact hi.1)]; exact hi
    · intro hi
      split at hi
      · exact hi
      · exfalso
        have := List.mem_of_getElem? hi
        simp at this
        exact hu this

/-! ### Removing a net -/

/-- The vertices after the net with id `e` was removed. -/
def dropNet (vs : List Vertex) (e : Nat) : List Vertex := vs.map (·.removeNet e)

theorem removeNet_self {v : Vertex} {e : Nat} (h : e ∉ v.nets) : v.removeNet e = v := by
  unfold Vertex.removeNet; rw [swapRemove_not_mem h]

/-- The result of `remove_net_by_index` on a consistent hypergraph. -/
def netRemoved (H : Hypergraph) (j : Nat) (n : Net) : Hypergraph :=
  { H with
    vertices := dropNet H.vertices n.id
    nets := swapRemoveAt H.nets j
    nmap := mapErase (mapSet H.nmap (((swapRemoveAt H.nets j)[j]?.map (·.id)).getD n.id) j) n.id }

theorem removeNetLoop_ok {H : Hypergraph} (w : WF H) {n : Net} (hn : n ∈ H.nets) :
    n.vertices.foldlM (fun (H : Hypergraph) u => do
      let i ← H.localId u
      let v ← vget H.vertices i
      pure (H.setVertex i (v.removeNet n.id))) H =
    .ok { H with vertices := dropNet H.vertices n.id } := by
  obtain ⟨H', h1, h2⟩ := foldlM_inv (f := fun (H : Hypergraph) u => do
      let i ← H.localId u
      let v ← vget H.vertices i
      pure (H.setVertex i (v.removeNet n.id)))
    (fun pre _ H' => H' = { H with vertices := H.vertices.map (fun (v : Vertex) =>
      if v.id ∈ pre then v.removeNet n.id else v) }) n.vertices H (by simp) (by
      rintro pre u post H' rfl hl
      obtain ⟨v, hv, hvu, -⟩ := w.inc_vtx n hn u (by rw [hl]; simp)
      subst hvu
      obtain ⟨i, hi, hli⟩ := w.localId_mem hv
      have hupre : v.id ∉ pre := by
        have := w.npins n hn
        rw [hl, List.nodup_append] at this
        intro h
        exact this.2.2 _ h v.id (by simp) rfl
      refine ⟨_, ?_, rfl⟩
      have hli' : Hypergraph.localId { H with vertices := H.vertices.map (fun (v : Vertex) =>
          if v.id ∈ pre then v.removeNet n.id else v) } v.id = .ok i := by
        unfold Hypergraph.localId at hli ⊢
        simpa using hli
      rw [hli']; simp only [ok_bind]
      rw [vget_ok (a := v) (by simp [hi, hupre])]
      simp only [ok_bind, pure_eq_ok, Hypergraph.setVertex]
      congr 2
      apply List.ext_getElem?
      intro k
      rw [List.getElem?_set]
      simp only [List.getElem?_map, List.length_map, List.mem_append, List.mem_singleton]
      by_cases hk : i = k
      · subst hk
        have hlt : i < H.vertices.length := by rw [List.getElem?_eq_some_iff] at hi; exact hi.1
        rw [if_pos rfl, if_pos hlt, hi]
        simp
      · rw [if_neg hk]
        cases hvk : H.vertices[k]? with
        | none => rfl
        | some v' =>
          simp only [Option.map_some]
          have : v'.id ≠ v.id := by
            intro h
            have h1 := (w.vmap_iff v'.id k).2 ⟨v', hvk, rfl⟩
            have h2 := (w.vmap_iff v.id i).2 ⟨v, hi, rfl⟩
            rw [h, h2] at h1
            exact hk (Option.some.inj h1)
          simp [this])
  rw [h1, h2]
  congr 2
  unfold dropNet
  apply List.map_congr_left
  intro v hv
  by_cases hvn : v.id ∈ n.vertices
  · rw [if_pos hvn]
  · rw [if_neg hvn, removeNet_self]
    intro he
    obtain ⟨n', hn', hid, hmem⟩ := w.inc_net v hv _ he
    have : n' = n := List.inj_on_of_nodup_map w.nids hn' hn hid
    subst this; exact hvn hmem

theorem removeNetByIndex_ok {H : Hypergraph} (w : WF H) {j : Nat} {n : Net}
    (hj : H.nets[j]? = some n) : H.removeNetByIndex j = .ok (netRemoved H j n) := by
  unfold Hypergraph.removeNetByIndex
  rw [hj]
  simp only
  rw [removeNetLoop_ok w (List.mem_of_getElem? hj)]
  simp only [ok_bind, pure_eq_ok, netRemoved]
  congr 3
  cases (swapRemoveAt H.nets j)[j]? <;> rfl

theorem dropNet_ids (vs : List Vertex) (e : Nat) :
    (dropNet vs e).map (·.id) = vs.map (·.id) := by
  simp [dropNet, Vertex.removeNet, Function.comp_def]

theorem netRemoved_wf {H : Hypergraph} (w : WF H) {j : Nat} {n : Net}
    (hj : H.nets[j]? = some n) : WF (netRemoved H j n) := by
  have hjl : j < H.nets.length := by rw [List.getElem?_eq_some_iff] at hj; exact hj.1
  have hn := List.mem_of_getElem? hj
  have hperm : (n :: swapRemoveAt H.nets j).Perm H.nets := by
    have := swapRemoveAt_perm hjl
    rwa [(List.getElem?_eq_some_iff.1 hj).2] at this
  have hids : ((n :: swapRemoveAt H.nets j).map (·.id)).Nodup :=
    ((hperm.map (·.id)).nodup_iff).2 w.nids
  have hne : ∀ m ∈ swapRemoveAt H.nets j, m.id ≠ n.id := by
    intro m hm he
    rw [List.map_cons, List.nodup_cons] at hids
    exact hids.1 (he ▸ List.mem_map_of_mem hm)
  have hsub : ∀ m ∈ swapRemoveAt H.nets j, m ∈ H.nets := by
    intro m hm; exact hperm.mem_iff.1 (List.mem_cons_of_mem _ hm)
  refine ⟨?_, ?_, ?_, ?_, ?_, ?_, ?_, ?_⟩
  · simp only [netRemoved, dropNet_ids]; exact w.vids
  · rw [List.map_cons, List.nodup_cons] at hids; exact hids.2
  · intro u i; simp only [netRemoved, dropNet_ids]; exact w.vmap u i
  · intro e i
    simp only [netRemoved]
    rw [swapRemoveAt_map]
    apply swapRemove_map w.nmap (by simp [hj])
    rw [← swapRemoveAt_map, List.getElem?_map]
  · intro v hv
    simp only [netRemoved, dropNet, List.mem_map] at hv
    obtain ⟨x, hx, rfl⟩ := hv
    exact (swapRemove_nodup (w.vnets x hx) n.id).nodup_iff.2 ((w.vnets x hx).filter _)
  · intro m hm; exact w.npins m (hsub m hm)
  · intro v hv e he
    simp only [netRemoved, dropNet, List.mem_map] at hv
    obtain ⟨x, hx, rfl⟩ := hv
    simp only [Vertex.removeNet] at he ⊢
    rw [mem_swapRemove (w.vnets x hx)] at he
    obtain ⟨m, hm, hme, hmx⟩ := w.inc_net x hx e he.1
    refine ⟨m, ?_, hme, hmx⟩
    have := hperm.mem_iff.2 hm
    rcases List.mem_cons.1 this with h | h
    · subst h; exact absurd hme.symm he.2
    · exact h
  · intro m hm u hu
    obtain ⟨v, hv, hvu, hmv⟩ := w.inc_vtx m (hsub m hm) u hu
    refine ⟨v.removeNet n.id, ?_, hvu, ?_⟩
    · simp only [netRemoved, dropNet]; exact List.mem_map_of_mem hv
    · simp only [Vertex.removeNet]
      rw [mem_swapRemove (w.vnets v hv)]
      exact ⟨hmv, hne m hm⟩

/-- Vertex `v'` is vertex `v` without the nets whose id satisfies `gone`. -/
def LostNets (gone : Nat → Prop) (v v' : Vertex) : Prop :=
  v'.id = v.id ∧ v'.weight = v.weight ∧ v'.part = v.part ∧
    ∀ e, e ∈ v'.nets ↔ e ∈ v.nets ∧ ¬ gone e

/-- Removing a list of different nets by id. -/
theorem removeNets_ok (ids : List Nat) : ∀ {H : Hypergraph}, WF H → ids.Nodup →
    (∀ e ∈ ids, IsNet H e) →
    ∃ H', ids.foldlM (fun (H : Hypergraph) id => do
        let j ← H.localIdNet id
        H.removeNetByIndex j) H = .ok H' ∧ WF H' ∧
      H'.nets.Perm (H.nets.filter (fun n => n.id ∉ ids)) ∧
      List.Forall₂ (LostNets (· ∈ ids)) H.vertices H'.vertices ∧
      H'.globalSize = H.globalSize ∧ H'.globalNumberNets = H.globalNumberNets ∧
      H'.nrNz = H.nrNz ∧ H'.dups = H.dups ∧ H'.vmap = H.vmap := by
  induction ids with
  | nil =>
    intro H w _ _
    refine ⟨H, rfl, w, ?_, ?_, rfl, rfl, rfl, rfl, rfl⟩
    · simp
    · rw [List.forall₂_same]; intro v _; simp [LostNets]
  | cons e ids ih =>
    intro H w hnd hin
    rw [List.nodup_cons] at hnd
    obtain ⟨n, hn, hne⟩ := List.mem_map.1 (hin e (by simp))
    have hne : n.id = e := hne
    obtain ⟨j, hj⟩ := List.mem_iff_getElem?.1 hn
    have hjl : j < H.nets.length := by rw [List.getElem?_eq_some_iff] at hj; exact hj.1
    have hperm : (n :: swapRemoveAt H.nets j).Perm H.nets := by
      have := swapRemoveAt_perm hjl
      rwa [(List.getElem?_eq_some_iff.1 hj).2] at this
    obtain ⟨H', h1, h2, h3, h4, h5⟩ := ih (netRemoved_wf w hj) hnd.2 (by
      intro e' he'
      obtain ⟨m, hm, hme⟩ := List.mem_map.1 (hin e' (by simp [he']))
      have hme : m.id = e' := hme
      rcases List.mem_cons.1 (hperm.mem_iff.2 hm) with h | h
      · subst h; rw [← hme, hne] at he'; exact absurd he' hnd.1
      · exact hme ▸ List.mem_map_of_mem h)
    refine ⟨H', ?_, h2, ?_, ?_, h5⟩
    · rw [List.foldlM_cons, ← hne, w.localIdNet_of_get hj]
      simp only [ok_bind]
      rw [removeNetByIndex_ok w hj]
      exact h1
    · refine h3.trans ?_
      have hids : ((n :: swapRemoveAt H.nets j).map (·.id)).Nodup :=
        ((hperm.map (·.id)).nodup_iff).2 w.nids
      rw [List.map_cons, List.nodup_cons] at hids
      have h6 := hperm.filter (fun n => decide (n.id ∉ e :: ids))
      rw [List.filter_cons_of_neg (by simp [hne])] at h6
      refine List.Perm.trans ?_ h6
      apply List.Perm.of_eq
      simp only [netRemoved]
      apply List.filter_congr
      intro m hm
      have : m.id ≠ e := by
        intro h; exact hids.1 (by rw [hne, ← h]; exact List.mem_map_of_mem hm)
      simp [this]
    · simp only [netRemoved, dropNet, List.forall₂_map_left_iff] at h4
      have hall : ∀ v ∈ H.vertices, v.nets.Nodup := w.vnets
      revert h4 hall
      generalize H.vertices = vs
      generalize H'.vertices = vs'
      intro h4 hall
      induction h4 with
      | nil => exact List.Forall₂.nil
      | cons hx _ ihx =>
        refine List.Forall₂.cons ?_ (ihx (fun v hv => hall v (List.mem_cons_of_mem _ hv)))
        obtain ⟨a, b, c, d⟩ := hx
        refine ⟨a, b, c, ?_⟩
        intro e'
        rw [d e']
        simp only [Vertex.removeNet]
        rw [mem_swapRemove (hall _ (by simp))]
        simp only [List.mem_cons, hne]
        tauto

theorem setSizes_wf {H : Hypergraph} (w : WF H) (f : Net → Nat) :
    WF { H with nets := H.nets.map (fun n => { n with globalSize := f n }) } := by
  have hid : (H.nets.map (fun n => { n with globalSize := f n })).map (·.id) = H.nets.map (·.id) := by
    simp [Function.comp_def]
  refine ⟨w.vids, ?_, w.vmap, ?_, w.vnets, ?_, ?_, ?_⟩
  · simp only [hid]; exact w.nids
  · simp only [hid]; exact w.nmap
  · intro n hn
    obtain ⟨m, hm, rfl⟩ := List.mem_map.1 hn
    exact w.npins m hm
  · intro v hv e he
    obtain ⟨n, hn, h1, h2⟩ := w.inc_net v hv e he
    exact ⟨_, List.mem_map_of_mem hn, h1, h2⟩
  · intro n hn u hu
    obtain ⟨m, hm, rfl⟩ := List.mem_map.1 hn
    exact w.inc_vtx m hm u hu

end PMondriaan

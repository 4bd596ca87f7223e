import Verif.Proofs.CoarsenInfo
import Verif.Proofs.Contract

/-
Proofs about the parallel `contract_hypergraph`, on one processor.
-/

namespace PMondriaan

open Spec

/-- The nets `N` have the costs given by `c` and exactly the pins that the vertices `V` list. -/
structure NetsFit (c : Nat → Int) (V : List Vertex) (N : List Net) : Prop where
  nids : (N.map (·.id)).Nodup
  costs : ∀ n ∈ N, n.cost = c n.id
  npins : ∀ n ∈ N, n.vertices.Nodup
  pins : ∀ n ∈ N, ∀ u, u ∈ n.vertices ↔ ∃ v ∈ V, v.id = u ∧ n.id ∈ v.nets
  cover : ∀ v ∈ V, ∀ e ∈ v.nets, e ∈ N.map (·.id)

theorem NetsFit.wf {c : Nat → Int} {V : List Vertex} {N : List Net} (h : NetsFit c V N)
    (hV : (V.map (·.id)).Nodup) (hn : ∀ v ∈ V, v.nets.Nodup) (gs gn : Nat) :
    WF (Hypergraph.create gs gn V N) := by
  apply WF_create hV h.nids hn h.npins
  · intro v hv e he
    obtain ⟨n, hn, rfl⟩ := List.mem_map.1 (h.cover v hv e he)
    exact ⟨n, hn, rfl, (h.pins n hn v.id).2 ⟨v, hv, rfl, he⟩⟩
  · intro n hn u hu
    exact (h.pins n hn u).1 hu

theorem mem_of_map_eq {α β : Type} {f : α → β} {l l' : List α} (h : l.map f = l'.map f) {a : α}
    (ha : a ∈ l) : ∃ a' ∈ l', f a' = f a := by
  have := List.mem_map_of_mem (f := f) ha
  rw [h] at this
  exact List.mem_map.1 this

theorem NetsFit.congr {c : Nat → Int} {V V' : List Vertex} {N : List Net} (h : NetsFit c V N)
    (hV : V.map (fun v => (v.id, v.nets)) = V'.map (fun v => (v.id, v.nets))) : NetsFit c V' N := by
  refine ⟨h.nids, h.costs, h.npins, ?_, ?_⟩
  · intro n hn u
    rw [h.pins n hn u]
    constructor
    · rintro ⟨v, hv, h1, h2⟩
      obtain ⟨v', hv', he⟩ := mem_of_map_eq hV hv
      simp only [Prod.mk.injEq] at he
      exact ⟨v', hv', by rw [he.1, h1], by rw [he.2]; exact h2⟩
    · rintro ⟨v, hv, h1, h2⟩
      obtain ⟨v', hv', he⟩ := mem_of_map_eq hV.symm hv
      simp only [Prod.mk.injEq] at he
      exact ⟨v', hv', by rw [he.1, h1], by rw [he.2]; exact h2⟩
  · intro v hv e he
    obtain ⟨v', hv', h2⟩ := mem_of_map_eq hV.symm hv
    simp only [Prod.mk.injEq] at h2
    exact h.cover v' hv' e (by rw [h2.2]; exact he)

/-- One more incidence. -/
theorem NetsFit.addInc {c : Nat → Int} {A B : List Vertex} {x : Vertex} {N : List Net}
    (h : NetsFit c (A ++ x :: B) N) (hV : ((A ++ x :: B).map (·.id)).Nodup) {e : Nat}
    (hx : e ∉ x.nets) (he : e ∈ N.map (·.id)) :
    NetsFit c (A ++ { x with nets := x.nets ++ [e] } :: B) (pinned N x.id [e]) := by
  have huniq : ∀ v ∈ A ++ x :: B, v.id = x.id → v = x := fun v hv hid =>
    List.inj_on_of_nodup_map hV hv (by simp) hid
  have hAB : ∀ v, v ∈ A ++ { x with nets := x.nets ++ [e] } :: B →
      v = { x with nets := x.nets ++ [e] } ∨ (v ∈ A ++ x :: B ∧ v.id ≠ x.id) := by
    intro v hv
    rw [List.map_append, List.map_cons, List.nodup_append, List.nodup_cons] at hV
    obtain ⟨-, ⟨h2, -⟩, h3⟩ := hV
    rcases List.mem_append.1 hv with hv | hv
    · exact Or.inr ⟨by simp [hv], h3 v.id (List.mem_map_of_mem hv) x.id (by simp)⟩
    · rcases List.mem_cons.1 hv with hv | hv
      · exact Or.inl hv
      · refine Or.inr ⟨by simp [hv], fun hid => h2 ?_⟩
        rw [← hid]
        exact List.mem_map_of_mem hv
  have hBA : ∀ v, v ∈ A ++ x :: B → v.id ≠ x.id →
      v ∈ A ++ { x with nets := x.nets ++ [e] } :: B := by
    intro v hv hid
    rcases List.mem_append.1 hv with hv | hv
    · simp [hv]
    · rcases List.mem_cons.1 hv with hv | hv
      · exact absurd (by rw [hv]) hid
      · simp [hv]
  have hnew : ({ x with nets := x.nets ++ [e] } : Vertex) ∈
      A ++ { x with nets := x.nets ++ [e] } :: B := by simp
  have hmem : ∀ n' ∈ pinned N x.id [e], ∃ n ∈ N, n'.id = n.id ∧ n'.cost = n.cost ∧
      ((n.id = e ∧ n'.vertices = n.vertices ++ [x.id]) ∨ (n.id ≠ e ∧ n'.vertices = n.vertices)) := by
    intro n' hn'
    obtain ⟨n, hn, rfl⟩ := List.mem_map.1 hn'
    refine ⟨n, hn, ?_⟩
    by_cases hne : n.id = e
    · simp [hne, addPin]
    · simp [hne]
  have hnot : ∀ n ∈ N, n.id = e → x.id ∉ n.vertices := by
    intro n hn hne hu
    obtain ⟨v, hv, h1, h2⟩ := (h.pins n hn x.id).1 hu
    rw [huniq v hv h1, hne] at h2
    exact hx h2
  refine ⟨by rw [pinned_ids]; exact h.nids, ?_, ?_, ?_, ?_⟩
  · intro n' hn'
    obtain ⟨n, hn, h1, h2, -⟩ := hmem n' hn'
    rw [h2, h1, h.costs n hn]
  · intro n' hn'
    obtain ⟨n, hn, h1, h2, ⟨h3, h4⟩ | ⟨h3, h4⟩⟩ := hmem n' hn'
    · rw [h4, List.nodup_append]
      refine ⟨h.npins n hn, by simp, ?_⟩
      intro a ha b hb
      rw [List.mem_singleton] at hb
      rintro rfl
      exact hnot n hn h3 (hb ▸ ha)
    · rw [h4]; exact h.npins n hn
  · intro n' hn' u
    obtain ⟨n, hn, h1, h2, h3⟩ := hmem n' hn'
    rw [h1]
    have hold : u ∈ n.vertices ↔ _ := h.pins n hn u
    constructor
    · intro hu
      have hu' : u ∈ n.vertices ∨ (u = x.id ∧ n.id = e) := by
        rcases h3 with ⟨h3, h4⟩ | ⟨h3, h4⟩
        · rw [h4, List.mem_append, List.mem_singleton] at hu
          exact hu.imp id (fun h => ⟨h, h3⟩)
        · rw [h4] at hu; exact Or.inl hu
      rcases hu' with hu' | ⟨rfl, hne⟩
      · obtain ⟨v, hv, h5, h6⟩ := hold.1 hu'
        by_cases hvx : v.id = x.id
        · have := huniq v hv hvx
          subst this
          exact ⟨_, hnew, h5, by simp [h6]⟩
        · exact ⟨v, hBA v hv hvx, h5, h6⟩
      · exact ⟨_, hnew, rfl, by simp [hne]⟩
    · rintro ⟨v, hv, h5, h6⟩
      rcases hAB v hv with rfl | ⟨hv', hvx⟩
      · simp only [List.mem_append, List.mem_singleton] at h5 h6
        subst h5
        rcases h6 with h6 | h6
        · have : x.id ∈ n.vertices := hold.2 ⟨x, by simp, rfl, h6⟩
          rcases h3 with ⟨-, h4⟩ | ⟨-, h4⟩ <;> rw [h4]
          · simp [this]
          · exact this
        · rcases h3 with ⟨-, h4⟩ | ⟨h3, -⟩
          · rw [h4]; simp
          · exact absurd h6 h3
      · have : u ∈ n.vertices := hold.2 ⟨v, hv', h5, h6⟩
        rcases h3 with ⟨-, h4⟩ | ⟨-, h4⟩ <;> rw [h4]
        · simp [this]
        · exact this
  · intro v hv e' he'
    rw [pinned_ids]
    rcases hAB v hv with rfl | ⟨hv', -⟩
    · simp only [List.mem_append, List.mem_singleton] at he'
      rcases he' with he' | rfl
      · exact h.cover x (by simp) e' he'
      · exact he
    · exact h.cover v hv' e' he'

/-- One more net, without pins. -/
theorem NetsFit.addNet {c : Nat → Int} {V : List Vertex} {N : List Net} (h : NetsFit c V N) {e : Nat}
    (he : e ∉ N.map (·.id)) : NetsFit c V (N ++ [Net.mk' e [] (c e)]) := by
  refine ⟨?_, ?_, ?_, ?_, ?_⟩
  · rw [List.map_append, List.nodup_append]
    refine ⟨h.nids, by simp, ?_⟩
    intro a ha b hb hab
    simp only [List.map_cons, List.map_nil, List.mem_singleton, Net.mk'] at hb
    exact he (hb ▸ hab ▸ ha)
  · intro n hn
    rcases List.mem_append.1 hn with hn | hn
    · exact h.costs n hn
    · rw [List.mem_singleton] at hn; subst hn; rfl
  · intro n hn
    rcases List.mem_append.1 hn with hn | hn
    · exact h.npins n hn
    · rw [List.mem_singleton] at hn; subst hn; simp [Net.mk']
  · intro n hn u
    rcases List.mem_append.1 hn with hn | hn
    · exact h.pins n hn u
    · rw [List.mem_singleton] at hn
      subst hn
      simp only [Net.mk', List.not_mem_nil, false_iff]
      rintro ⟨v, hv, -, h2⟩
      exact he (h.cover v hv e h2)
  · intro v hv e' he'
    rw [List.map_append]
    exact List.mem_append_left _ (h.cover v hv e' he')

/-- One more vertex, without nets. -/
theorem NetsFit.addVertex {c : Nat → Int} {V : List Vertex} {N : List Net} (h : NetsFit c V N)
    {x : Vertex} (hx : x.nets = []) : NetsFit c (V ++ [x]) N := by
  refine ⟨h.nids, h.costs, h.npins, ?_, ?_⟩
  · intro n hn u
    rw [h.pins n hn u]
    constructor
    · rintro ⟨v, hv, h1⟩; exact ⟨v, by simp [hv], h1⟩
    · rintro ⟨v, hv, h1, h2⟩
      rcases List.mem_append.1 hv with hv | hv
      · exact ⟨v, hv, h1, h2⟩
      · rw [List.mem_singleton] at hv
        subst hv
        rw [hx] at h2
        cases h2
  · intro v hv e he
    rcases List.mem_append.1 hv with hv | hv
    · exact h.cover v hv e he
    · rw [List.mem_singleton] at hv
      subst hv
      rw [hx] at he
      cases he

/-! ### New vertices -/

theorem newPin_ok {H : Hypergraph} (w : WF H) {c : Nat → Int} (hc : ∀ n ∈ H.nets, n.cost = c n.id)
    {V : List Vertex} {x : Vertex} {N : List Net} (h : NetsFit c (V ++ [x]) N)
    (hV : ((V ++ [x]).map (·.id)).Nodup) {e : Nat} (hx : e ∉ x.nets) (he : IsNet H e) :
    ∃ N', newPin H x.id N e = .ok N' ∧ NetsFit c (V ++ [{ x with nets := x.nets ++ [e] }]) N' ∧
      ∀ e', e' ∈ N'.map (·.id) → e' ∈ N.map (·.id) ∨ e' = e := by
  have hmap : ∀ N : List Net, N.map (fun n => if n.id = e then
      { n with vertices := n.vertices ++ [x.id] } else n) = pinned N x.id [e] := by
    intro N
    unfold pinned
    apply List.map_congr_left
    intro n _
    simp [addPin]
  unfold newPin
  by_cases hin : e ∈ N.map (·.id)
  · rw [if_pos hin, hmap]
    refine ⟨_, rfl, h.addInc hV hx hin, ?_⟩
    intro e' he'
    rw [pinned_ids] at he'
    exact Or.inl he'
  · rw [if_neg hin]
    obtain ⟨n, hn, hid⟩ := List.mem_map.1 he
    have hid : n.id = e := hid
    obtain ⟨j, hj⟩ := List.mem_iff_getElem?.1 hn
    rw [← hid, w.netOf_of_get hj, ok_bind, hid]
    have h2 := (h.addNet hin).addInc hV hx (by simp [Net.mk'])
    have heq : pinned (N ++ [Net.mk' e [] (c e)]) x.id [e] = N ++ [Net.mk' e [x.id] n.cost] := by
      unfold pinned
      rw [List.map_append]
      congr 1
      · conv_rhs => rw [← List.map_id N]
        apply List.map_congr_left
        intro m hm
        have : m.id ≠ e := fun hme => hin (List.mem_map.2 ⟨m, hm, hme⟩)
        simp [this]
      · have hcn : n.cost = c e := by rw [← hid]; exact hc n hn
        simp [Net.mk', addPin, hcn]
    rw [heq] at h2
    refine ⟨_, rfl, h2, ?_⟩
    intro e' he'
    rw [List.map_append, List.mem_append] at he'
    exact he'.imp id (by simp [Net.mk'])

theorem keepVertex_pins {H : Hypergraph} (w : WF H) {c : Nat → Int}
    (hc : ∀ n ∈ H.nets, n.cost = c n.id) {V : List Vertex} {N : List Net} (h : NetsFit c V N)
    {v : Vertex} (hv : v ∈ H.vertices) (hV : ((V ++ [v]).map (·.id)).Nodup) :
    ∃ N', v.nets.foldlM (newPin H v.id) N = .ok N' ∧ NetsFit c (V ++ [newVertex v]) N' ∧
      ∀ e', e' ∈ N'.map (·.id) → e' ∈ N.map (·.id) ∨ e' ∈ v.nets := by
  obtain ⟨N', e1, I1, I2⟩ := foldlM_inv (f := newPin H v.id)
    (fun pre _ (N' : List Net) => NetsFit c (V ++ [{ newVertex v with nets := pre }]) N' ∧
      ∀ e', e' ∈ N'.map (·.id) → e' ∈ N.map (·.id) ∨ e' ∈ pre) v.nets N
    ⟨h.addVertex rfl, fun e' he' => Or.inl he'⟩ (by
      rintro pre e post N1 ⟨i1, i2⟩ hl
      have he : e ∈ v.nets := by rw [hl]; simp
      obtain ⟨n, hn, hne, -⟩ := w.inc_net v hv e he
      have hnd := w.vnets v hv
      rw [hl, List.nodup_append] at hnd
      obtain ⟨N2, e2, j1, j2⟩ := newPin_ok w hc i1 (by simpa [newVertex, Vertex.mk'] using hV)
        (e := e) (fun h => hnd.2.2 e h e (by simp) rfl) (List.mem_map.2 ⟨n, hn, hne⟩)
      refine ⟨N2, e2, j1, ?_⟩
      intro e' he'
      rcases j2 e' he' with h | rfl
      · rcases i2 e' h with h | h
        · exact Or.inl h
        · exact Or.inr (by simp [h])
      · exact Or.inr (by simp))
  exact ⟨N', e1, I1, I2⟩

theorem keepVertices_ok {H : Hypergraph} (w : WF H) {c : Nat → Int}
    (hc : ∀ n ∈ H.nets, n.cost = c n.id) (f : Vertex → Bool) :
    ∃ N, (List.range H.vertices.length).foldlM (keepVertex H (H.vertices.map f)) ([], []) =
        .ok ((H.vertices.filter (fun v => !f v)).map newVertex, N) ∧
      NetsFit c ((H.vertices.filter (fun v => !f v)).map newVertex) N ∧
      ∀ e ∈ N.map (·.id), IsNet H e := by
  obtain ⟨st, e1, I1, I2, I3⟩ := foldlM_inv (f := keepVertex H (H.vertices.map f))
    (fun pre _ (st : List Vertex × List Net) =>
      st.1 = ((H.vertices.take pre.length).filter (fun v => !f v)).map newVertex ∧
      NetsFit c st.1 st.2 ∧ ∀ e ∈ st.2.map (·.id), IsNet H e) (List.range H.vertices.length)
    ([], []) ⟨by simp, ⟨by simp, by simp, by simp, by simp, by simp⟩, by simp⟩ (by
      rintro pre i post ⟨V, N⟩ ⟨h1, h2, h3⟩ hl
      have hi : i = pre.length ∧ i < H.vertices.length := by
        have := congrArg (·[pre.length]?) hl
        simp only [List.getElem?_append_right (Nat.le_refl _), Nat.sub_self,
          List.getElem?_cons_zero] at this
        rw [List.getElem?_eq_some_iff] at this
        obtain ⟨hlt, he⟩ := this
        rw [List.length_range] at hlt
        rw [List.getElem_range] at he
        omega
      obtain ⟨rfl, hil⟩ := hi
      have htake : H.vertices.take (pre ++ [pre.length]).length =
          H.vertices.take pre.length ++ [H.vertices[pre.length]] := by
        rw [List.length_append, List.length_singleton, List.take_succ_eq_append_getElem hil]
      simp only at h1 h2 h3
      subst h1
      unfold keepVertex
      rw [vget_ok (a := f H.vertices[pre.length]) (by simp [hil]), ok_bind]
      by_cases hf : f H.vertices[pre.length]
      · rw [if_pos hf]
        refine ⟨_, rfl, ?_, h2, h3⟩
        rw [htake, List.filter_append]
        simp [hf]
      · rw [if_neg hf, vertexAt_ok (List.getElem?_eq_getElem hil), ok_bind]
        have hmem : H.vertices[pre.length] ∈ H.vertices := List.getElem_mem hil
        have hnd : (((((H.vertices.take pre.length).filter (fun v => !f v)).map newVertex) ++
            [H.vertices[pre.length]]).map (·.id)).Nodup := by
          have : (((((H.vertices.take pre.length).filter (fun v => !f v)).map newVertex) ++
            [H.vertices[pre.length]]).map (·.id)) =
            (((H.vertices.take pre.length).filter (fun v => !f v)) ++ [H.vertices[pre.length]]).map
              (·.id) := by
            rw [List.map_append, List.map_append, List.map_map]
            rfl
          rw [this]
          refine List.Sublist.nodup ?_ w.vids
          apply List.Sublist.map
          refine (List.Sublist.append_right List.filter_sublist _).trans ?_
          rw [← List.take_succ_eq_append_getElem hil]
          exact List.take_sublist _ _
        obtain ⟨N', e2, j1, j2⟩ := keepVertex_pins w hc h2 hmem hnd
        rw [e2, ok_bind]
        have hnewl : ((H.vertices.take (pre ++ [pre.length]).length).filter (fun v => !f v)).map newVertex =
            ((H.vertices.take pre.length).filter (fun v => !f v)).map newVertex ++
              [newVertex H.vertices[pre.length]] := by
          rw [htake, List.filter_append, List.map_append]
          simp [hf]
        refine ⟨_, rfl, hnewl.symm, j1, ?_⟩
        intro e he
        rcases j2 e he with h | h
        · exact h3 e h
        · obtain ⟨n, hn, hne, -⟩ := w.inc_net _ hmem e h
          exact List.mem_map.2 ⟨n, hn, hne⟩)
  obtain ⟨V, N⟩ := st
  simp only [List.length_range, List.take_length] at I1 I2 I3
  subst I1
  exact ⟨N, e1, I2, I3⟩

/-! ### Messages about the samples -/

theorem newNets_ok {c : Nat → Int} {V : List Vertex} (es : List Nat) {N : List Net}
    (h : NetsFit c V N) :
    ∃ N', es.zipIdx.foldlM (newNet (es.map c)) N = .ok N' ∧ NetsFit c V N' ∧
      ∀ e, e ∈ N'.map (·.id) ↔ e ∈ N.map (·.id) ∨ e ∈ es := by
  obtain ⟨N', e1, I1, I2⟩ := foldlM_inv (f := newNet (es.map c))
    (fun pre _ (N' : List Net) => NetsFit c V N' ∧
      ∀ e, e ∈ N'.map (·.id) ↔ e ∈ N.map (·.id) ∨ e ∈ pre.map (·.1)) es.zipIdx N
    ⟨h, by simp⟩ (by
      rintro pre ⟨e, i⟩ post N1 ⟨i1, i2⟩ hl
      have hei : es[i]? = some e := by
        have : (e, i) ∈ es.zipIdx := by rw [hl]; simp
        exact List.mem_zipIdx_iff_getElem?.1 this
      unfold newNet
      simp only
      by_cases hin : e ∈ N1.map (·.id)
      · rw [if_pos hin]
        refine ⟨N1, rfl, i1, ?_⟩
        intro e'
        rw [i2, List.map_append, List.mem_append]
        constructor
        · rintro (h | h)
          · exact Or.inl h
          · exact Or.inr (Or.inl h)
        · rintro (h | h | h)
          · exact Or.inl h
          · exact Or.inr h
          · simp only [List.map_cons, List.map_nil, List.mem_singleton] at h
            subst h
            exact (i2 _).1 hin
      · rw [if_neg hin, vget_ok (a := c e) (by rw [List.getElem?_map, hei]; rfl), ok_bind]
        refine ⟨_, rfl, i1.addNet hin, ?_⟩
        intro e'
        rw [List.map_append, List.mem_append, i2, List.map_append, List.mem_append, or_assoc]
        simp [Net.mk'])
  refine ⟨N', e1, I1, ?_⟩
  intro e
  rw [I2, List.zipIdx_map_fst]

/-- What one processor knows about its samples after the messages. -/
structure SampleInfo (k : Nat) (c : Nat → Int) (V : List Vertex) (ids : List Nat)
    (msgs : List InfoMsg) (st : GrowState) : Prop where
  weights : st.weights = (List.range k).map (fun j =>
    ((msgs.filter (fun m => m.sample = j)).map (·.weight)).sum)
  len : st.lists.length = k
  lists : ∀ (j : Nat) l, st.lists[j]? = some l → l.Nodup ∧
    ∀ e, e ∈ l ↔ ∃ m ∈ msgs, m.sample = j ∧ e ∈ m.nets
  fit : NetsFit c V st.nets
  nets : ∀ e, e ∈ st.nets.map (·.id) ↔ e ∈ ids ∨ ∃ m ∈ msgs, e ∈ m.nets

theorem infoReceives_ok {k : Nat} {c : Nat → Int} {V : List Vertex} {N : List Net}
    (h : NetsFit c V N) {msgs : List InfoMsg}
    (hm : ∀ m ∈ msgs, m.sample < k ∧ m.costs = m.nets.map c) :
    ∃ st, msgs.foldlM infoReceive
        { weights := List.replicate k 0, lists := List.replicate k [], nets := N } = .ok st ∧
      SampleInfo k c V (N.map (·.id)) msgs st := by
  obtain ⟨st, e1, I⟩ := foldlM_inv (f := infoReceive)
    (fun pre _ st => SampleInfo k c V (N.map (·.id)) pre st) msgs
    { weights := List.replicate k 0, lists := List.replicate k [], nets := N } (by
      refine ⟨?_, by simp, ?_, h, by simp⟩
      · apply List.ext_getElem <;> simp
      · intro j l hj
        simp only at hj
        rw [List.getElem?_replicate] at hj
        split at hj
        · cases hj; simp
        · cases hj) (by
      intro pre m post st I hl
      obtain ⟨h1, h2⟩ := hm m (by rw [hl]; simp)
      have hll : st.lists[m.sample]? = some (st.lists[m.sample]'(by rw [I.len]; exact h1)) :=
        List.getElem?_eq_getElem _
      generalize st.lists[m.sample]'(by rw [I.len]; exact h1) = l at hll
      obtain ⟨l1, l2⟩ := I.lists _ _ hll
      obtain ⟨N', e2, j1, j2⟩ := newNets_ok m.nets I.fit
      unfold infoReceive
      rw [vget_ok (a := ((pre.filter (fun x => x.sample = m.sample)).map (·.weight)).sum)
        (by rw [I.weights]; simp [h1]), ok_bind, vget_ok hll, ok_bind, h2, e2, ok_bind]
      obtain ⟨f1, f2⟩ := foldl_insertNat m.nets l l1
      refine ⟨_, rfl, ?_, by simp [I.len], ?_, j1, ?_⟩
      · simp only
        apply List.ext_getElem
        · simp [I.weights]
        · intro j g1 g2
          simp only [List.length_map, List.length_range] at g2
          have g3 : st.weights[j]? = some ((pre.filter (fun x => x.sample = j)).map (·.weight)).sum := by
            rw [I.weights]; simp [g2]
          rw [List.getElem_set]
          split
          · rename_i hj
            subst hj
            simp
          · rename_i hj
            rw [(List.getElem?_eq_some_iff.1 g3).2]
            simp [hj]
      · intro j l' hj
        simp only at hj
        rw [List.getElem?_set] at hj
        split at hj
        · rename_i hjm
          subst hjm
          rw [if_pos (by rw [I.len]; exact h1)] at hj
          cases hj
          refine ⟨f1, ?_⟩
          intro e
          rw [f2, l2]
          constructor
          · rintro (⟨m', hm', h⟩ | h)
            · exact ⟨m', by simp [hm'], h⟩
            · exact ⟨m, by simp, rfl, h⟩
          · rintro ⟨m', hm', h3, h4⟩
            rcases List.mem_append.1 hm' with hm' | hm'
            · exact Or.inl ⟨m', hm', h3, h4⟩
            · rw [List.mem_singleton] at hm'
              subst hm'
              exact Or.inr h4
        · rename_i hjm
          obtain ⟨k1, k2⟩ := I.lists j l' hj
          refine ⟨k1, ?_⟩
          intro e
          rw [k2]
          constructor
          · rintro ⟨m', hm', h⟩
            exact ⟨m', by simp [hm'], h⟩
          · rintro ⟨m', hm', h3, h4⟩
            rcases List.mem_append.1 hm' with hm' | hm'
            · exact ⟨m', hm', h3, h4⟩
            · rw [List.mem_singleton] at hm'
              subst hm'
              exact absurd h3 hjm
      · intro e
        simp only
        rw [j2, I.nets]
        constructor
        · rintro ((h | ⟨m', hm', h⟩) | h)
          · exact Or.inl h
          · exact Or.inr ⟨m', by simp [hm'], h⟩
          · exact Or.inr ⟨m, by simp, h⟩
        · rintro (h | ⟨m', hm', h⟩)
          · exact Or.inl (Or.inl h)
          · rcases List.mem_append.1 hm' with hm' | hm'
            · exact Or.inl (Or.inr ⟨m', hm', h⟩)
            · rw [List.mem_singleton] at hm'
              subst hm'
              exact Or.inr h)
  exact ⟨st, e1, I⟩

theorem contractLocal_ok {H : Hypergraph} (w : WF H) {c : Nat → Int}
    (hc : ∀ n ∈ H.nets, n.cost = c n.id) (f : Vertex → Bool) {samples : List Nat}
    {msgs : List InfoMsg} (hm : ∀ m ∈ msgs, m.sample < samples.length ∧ m.costs = m.nets.map c) :
    ∃ st ids, contractLocal H samples (H.vertices.map f) msgs =
        .ok ((H.vertices.filter (fun v => !f v)).map newVertex, st) ∧
      (∀ e ∈ ids, IsNet H e) ∧
      SampleInfo samples.length c ((H.vertices.filter (fun v => !f v)).map newVertex) ids msgs st := by
  obtain ⟨N, e1, h1, h2⟩ := keepVertices_ok w hc f
  obtain ⟨st, e2, h3⟩ := infoReceives_ok h1 hm
  refine ⟨st, N.map (·.id), ?_, h2, h3⟩
  unfold contractLocal
  rw [e1, ok_bind]
  simp only [e2, ok_bind]
  rfl

/-! ### Growing the samples -/

/-- The vertex with its extra weight and nets. -/
def grown (W : Nat → Int) (L : Nat → List Nat) (v : Vertex) : Vertex :=
  { v with weight := v.weight + W v.id, nets := (L v.id).foldl setInsert v.nets }

theorem contractNets_create {c : Nat → Int} {gs gn : Nat} {V : List Vertex}
    (hV : (V.map (·.id)).Nodup) {i : Nat} {x : Vertex}
    (hx : (V[i]?).map (·.id) = some x.id) (es : List Nat) {N : List Net}
    (h : NetsFit c (V.set i x) N) (hes : ∀ e ∈ es, e ∈ N.map (·.id)) :
    ∃ N', es.foldlM contractNet (Hypergraph.create gs gn V N, x) =
        .ok (Hypergraph.create gs gn V N', { x with nets := es.foldl setInsert x.nets }) ∧
      NetsFit c (V.set i { x with nets := es.foldl setInsert x.nets }) N' ∧
      N'.map (·.id) = N.map (·.id) := by
  have hil : i < V.length := by
    by_contra hn
    rw [List.getElem?_eq_none (by omega)] at hx
    cases hx
  obtain ⟨st, e1, N', hst, I2, I3⟩ := foldlM_inv (f := contractNet)
    (fun pre _ (st : Hypergraph × Vertex) => ∃ N', st = (Hypergraph.create gs gn V N',
        { x with nets := pre.foldl setInsert x.nets }) ∧
      NetsFit c (V.set i { x with nets := pre.foldl setInsert x.nets }) N' ∧
      N'.map (·.id) = N.map (·.id)) es (Hypergraph.create gs gn V N, x)
    ⟨N, rfl, h, rfl⟩ (by
      rintro pre e post st ⟨N1, rfl, i2, i3⟩ hl
      have he : e ∈ N1.map (·.id) := by rw [i3]; exact hes e (by rw [hl]; simp)
      unfold contractNet
      simp only
      by_cases hin : e ∈ pre.foldl setInsert x.nets
      · rw [if_pos hin]
        have hs : (pre ++ [e]).foldl setInsert x.nets = pre.foldl setInsert x.nets := by
          rw [List.foldl_append, List.foldl_cons, List.foldl_nil, setInsert, if_pos hin]
        exact ⟨_, rfl, N1, by rw [hs], by rw [hs]; exact i2, i3⟩
      · rw [if_neg hin]
        have hs : (pre ++ [e]).foldl setInsert x.nets = pre.foldl setInsert x.nets ++ [e] := by
          rw [List.foldl_append, List.foldl_cons, List.foldl_nil, setInsert, if_neg hin]
        have hN : NetsOk (Hypergraph.create gs gn V N1) :=
          ⟨i2.nids, fun e j => buildMap_spec i2.nids e j⟩
        have hadd := addPinOf_ok hN x.id (ns := []) (e := e) he (by simp)
        rw [pinned_nil] at hadd
        have h0 : withNets (Hypergraph.create gs gn V N1) (Hypergraph.create gs gn V N1).nets =
          Hypergraph.create gs gn V N1 := rfl
        rw [h0, List.nil_append] at hadd
        have h1 : withNets (Hypergraph.create gs gn V N1)
            (pinned (Hypergraph.create gs gn V N1).nets x.id [e]) =
            Hypergraph.create gs gn V (pinned N1 x.id [e]) := by
          unfold withNets Hypergraph.create
          simp only
          rw [pinned_ids]
        rw [h1] at hadd
        rw [hadd, ok_bind]
        refine ⟨_, rfl, pinned N1 x.id [e], by rw [hs], ?_, by rw [pinned_ids]; exact i3⟩
        rw [hs]
        rw [List.set_eq_take_append_cons_drop, if_pos hil] at i2 ⊢
        have hidsx : ((V.take i ++ ({ x with nets := pre.foldl setInsert x.nets } : Vertex) ::
            V.drop (i + 1)).map (·.id)) = V.map (·.id) := by
          have hxi : V[i].id = x.id := by
            rw [List.getElem?_eq_getElem hil] at hx
            simpa using hx
          have : V = V.take i ++ V[i] :: V.drop (i + 1) := by
            rw [← List.drop_eq_getElem_cons hil, List.take_append_drop]
          have h2 : V.map (·.id) = (V.take i ++ V[i] :: V.drop (i + 1)).map (·.id) :=
            congrArg (List.map (·.id)) this
          rw [h2, List.map_append, List.map_cons, List.map_append, List.map_cons, hxi]
        exact i2.addInc (by rw [hidsx]; exact hV) hin he)
  rw [hst] at e1
  exact ⟨N', e1, I2, I3⟩

/-- Every sample gets what is known about it. `W` and `L` give weight and nets by vertex id. -/
theorem growAll_ok {order : List Nat → List Nat} (size : Nat) {H : Hypergraph} {samples : List Nat}
    {c : Nat → Int} {V : List Vertex} {st : GrowState} (W : Nat → Int) (L : Nat → List Nat)
    (hs : ∀ (j x : Nat), samples[j]? = some x → ∃ v0, H.vertices[x]? = some v0 ∧ v0.id ∈ V.map (·.id) ∧
      st.weights[j]? = some (W v0.id) ∧ ∃ l, st.lists[j]? = some l ∧ order l = L v0.id)
    (hLs : ∀ u, ∀ e ∈ L u, e ∈ st.nets.map (·.id))
    (hnone : ∀ v ∈ V, (∀ (j x : Nat), samples[j]? = some x → ∀ v0, H.vertices[x]? = some v0 → v0.id ≠ v.id) →
      W v.id = 0 ∧ L v.id = [])
    (hnd : (samples.map (fun x => (H.vertices[x]?).map (·.id))).Nodup)
    (hV : (V.map (·.id)).Nodup) (hVn : ∀ v ∈ V, v.nets.Nodup) (hf : NetsFit c V st.nets) :
    ∃ N, growAll order size H samples (V, st) =
        .ok (Hypergraph.create size H.globalNumberNets (V.map (grown W L)) N) ∧
      NetsFit c (V.map (grown W L)) N ∧ N.map (·.id) = st.nets.map (·.id) := by
  unfold growAll
  simp only
  -- the ids of the samples done
  let idOf : Nat × Nat → Option Nat := fun y => (H.vertices[y.1]?).map (·.id)
  let upd : List (Nat × Nat) → Vertex → Vertex := fun pre v =>
    if some v.id ∈ pre.map idOf then grown W L v else v
  have hupdid : ∀ pre, (V.map (upd pre)).map (·.id) = V.map (·.id) := by
    intro pre
    rw [List.map_map]
    apply List.map_congr_left
    intro v _
    simp only [Function.comp_apply, upd]
    split <;> rfl
  have hupdn : ∀ pre, ∀ v ∈ V.map (upd pre), v.nets.Nodup := by
    intro pre v hv
    obtain ⟨v', hv', rfl⟩ := List.mem_map.1 hv
    simp only [upd]
    split
    · exact (foldl_insertNat _ _ (hVn v' hv')).1
    · exact hVn v' hv'
  obtain ⟨HC, e1, N, hHC, I2, I3⟩ := foldlM_inv (f := growSample order H st)
    (fun pre _ (HC : Hypergraph) => ∃ N,
      HC = Hypergraph.create size H.globalNumberNets (V.map (upd pre)) N ∧
      NetsFit c (V.map (upd pre)) N ∧ N.map (·.id) = st.nets.map (·.id)) samples.zipIdx
    (Hypergraph.create size H.globalNumberNets V st.nets)
    ⟨st.nets, by simp [upd], by simpa [upd] using hf, rfl⟩ (by
      rintro pre ⟨x, j⟩ post HC ⟨N, rfl, i2, i3⟩ hl
      have hxj : samples[j]? = some x := by
        have : (x, j) ∈ samples.zipIdx := by rw [hl]; simp
        exact List.mem_zipIdx_iff_getElem?.1 this
      obtain ⟨v0, hv0, hin, hw, l, hlj, hol⟩ := hs j x hxj
      -- not done before
      have hnew : some v0.id ∉ pre.map idOf := by
        intro hmem
        have h1 : (samples.zipIdx.map idOf).Nodup := by
          have : samples.zipIdx.map idOf = samples.map (fun x => (H.vertices[x]?).map (·.id)) := by
            conv_rhs => rw [← List.zipIdx_map_fst 0 samples]
            rw [List.map_map]
            rfl
          rw [this]; exact hnd
        rw [hl, List.map_append, List.nodup_append] at h1
        exact h1.2.2 _ hmem (idOf (x, j)) (by simp) (by simp [idOf, hv0])
      obtain ⟨v, hv, hvid⟩ := List.mem_map.1 hin
      have hvid : v.id = v0.id := hvid
      obtain ⟨i, hi⟩ := List.mem_iff_getElem?.1 hv
      have hupv : upd pre v = v := by
        simp only [upd]
        rw [if_neg (by rw [hvid]; exact hnew)]
      have hgi : (V.map (upd pre))[i]? = some v := by rw [List.getElem?_map, hi, Option.map_some, hupv]
      have hw1 := i2.wf (by rw [hupdid]; exact hV) (hupdn pre) size H.globalNumberNets
      have hHCi : (Hypergraph.create size H.globalNumberNets (V.map (upd pre)) N).vertices[i]? = some v := hgi
      unfold growSample
      have hloc := hw1.localId_of_get hHCi
      rw [hvid] at hloc
      simp only
      rw [vertexAt_ok hv0, ok_bind, hloc, ok_bind, vertexAt_ok hHCi, ok_bind, vget_ok hw, ok_bind,
        vget_ok hlj, ok_bind, hol]
      have hset : ((V.map (upd pre)).set i { v with weight := v.weight + W v0.id }).map
          (fun v => (v.id, v.nets)) = (V.map (upd pre)).map (fun v => (v.id, v.nets)) := by
        rw [List.map_set]
        apply List.ext_getElem?
        intro k
        rw [List.getElem?_set]
        split
        · rename_i hik
          subst hik
          have hlt := (List.getElem?_eq_some_iff.1 hgi).1
          rw [if_pos (by simpa using hlt), List.getElem?_map (l := V.map (upd pre)), hgi]
          rfl
        · rfl
      obtain ⟨N', e2, j1, j2⟩ := contractNets_create (gs := size) (gn := H.globalNumberNets)
        (V := V.map (upd pre)) (by rw [hupdid]; exact hV) (i := i)
        (x := { v with weight := v.weight + W v0.id }) (by rw [hgi]; rfl) (L v0.id)
        (i2.congr hset.symm) (by intro e he; rw [i3]; exact hLs _ e he)
      rw [e2, ok_bind]
      have hgrown : ({ v with weight := v.weight + W v0.id,
                              nets := (L v0.id).foldl setInsert v.nets } : Vertex) = grown W L v := by
        unfold grown; rw [hvid]
      have hnext : (V.map (upd pre)).set i (grown W L v) = V.map (upd (pre ++ [(x, j)])) := by
        apply List.ext_getElem?
        intro k
        rw [List.getElem?_set]
        split
        · rename_i hik
          subst hik
          have hlt := (List.getElem?_eq_some_iff.1 hgi).1
          rw [if_pos hlt, List.getElem?_map, hi, Option.map_some]
          simp only [upd]
          rw [if_pos (by simp [idOf, hv0, hvid])]
        · rename_i hik
          rw [List.getElem?_map, List.getElem?_map]
          cases hk : V[k]? with
          | none => rfl
          | some v' =>
            have hne : v'.id ≠ v0.id := by
              intro hne
              apply hik
              have h1 : (V.map (·.id))[i]? = some v0.id := by rw [List.getElem?_map, hi]; simp [hvid]
              have h2 : (V.map (·.id))[k]? = some v0.id := by rw [List.getElem?_map, hk]; simp [hne]
              exact (List.getElem?_inj (by simpa using (List.getElem?_eq_some_iff.1 hi).1) hV).1
                (h1.trans h2.symm)
            simp only [Option.map_some, upd, List.map_append, List.map_cons, List.map_nil,
              List.mem_append, List.mem_singleton, idOf, hv0, Option.some.injEq, hne, or_false]
      refine ⟨_, rfl, N', ?_, ?_, j2.trans i3⟩
      · simp only [hgrown, Hypergraph.setVertex, Hypergraph.create, hnext]
        rw [hupdid, hupdid]
      · rw [← hnext, ← hgrown]
        exact j1)
  have hfin : V.map (upd samples.zipIdx) = V.map (grown W L) := by
    apply List.map_congr_left
    intro v hv
    simp only [upd]
    split
    · rfl
    · rename_i hnot
      obtain ⟨h1, h2⟩ := hnone v hv (by
        intro j x hxj v0 hv0 hne
        apply hnot
        refine List.mem_map.2 ⟨(x, j), List.mem_zipIdx_iff_getElem?.2 hxj, ?_⟩
        simp [idOf, hv0, hne])
      unfold grown
      rw [h1, h2]
      simp
  rw [hfin] at hHC I2
  rw [hHC] at e1
  exact ⟨N, e1, I2, I3⟩

end PMondriaan

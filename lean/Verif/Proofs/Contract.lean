import Verif.Proofs.Coarsen
import Verif.Proofs.LabelProp
import Verif.Props.Container
import Verif.Props.Free

/-
Proofs about `contract_hypergraph` (sequential).
-/

namespace PMondriaan

open Spec

/-- The nets `base` in which those with id in `ns` have one more pin `u`. -/
def pinned (base : List Net) (u : Nat) (ns : List Nat) : List Net :=
  base.map (fun n => if n.id ∈ ns then addPin u n else n)

theorem pinned_ids (base : List Net) (u : Nat) (ns : List Nat) :
    (pinned base u ns).map (·.id) = base.map (·.id) := by
  unfold pinned
  rw [List.map_map]
  apply List.map_congr_left
  intro n _
  simp only [Function.comp_apply]
  split <;> rfl

theorem pinned_nil (base : List Net) (u : Nat) : pinned base u [] = base := by
  unfold pinned; simp

/-- The nets of `HC` are stored where the map says. -/
structure NetsOk (HC : Hypergraph) : Prop where
  nids : (HC.nets.map (·.id)).Nodup
  nmap : ∀ e j, HC.nmap e = some j ↔ (HC.nets.map (·.id))[j]? = some e

/-- `HC` with other nets. -/
def withNets (HC : Hypergraph) (ns : List Net) : Hypergraph := { HC with nets := ns }

theorem addPinOf_ok {HC : Hypergraph} (h : NetsOk HC) (u : Nat) {e : Nat} {ns : List Nat}
    (he : IsNet HC e) (hne : e ∉ ns) :
    addPinOf (withNets HC (pinned HC.nets u ns)) u e =
      .ok (withNets HC (pinned HC.nets u (ns ++ [e]))) := by
  obtain ⟨j, hj⟩ := List.mem_iff_getElem?.1 he
  have hm : (withNets HC (pinned HC.nets u ns)).nmap e = some j := (h.nmap e j).2 hj
  rw [List.getElem?_map, Option.map_eq_some_iff] at hj
  obtain ⟨n, hn, hid⟩ := hj
  have hid : n.id = e := hid
  have hjl : j < HC.nets.length := by rw [List.getElem?_eq_some_iff] at hn; exact hn.1
  have hg : (withNets HC (pinned HC.nets u ns)).nets[j]? = some n := by
    unfold withNets pinned
    simp only
    rw [List.getElem?_map, hn, Option.map_some, if_neg (by rw [hid]; exact hne)]
  unfold addPinOf Hypergraph.modifyNet
  simp only [hm, hg]
  congr 1
  unfold Hypergraph.setNet withNets
  simp only
  congr 1
  apply List.ext_getElem?
  intro i
  rw [List.getElem?_set]
  by_cases hij : j = i
  · subst hij
    rw [if_pos rfl, if_pos (by unfold pinned; simpa using hjl)]
    unfold pinned
    rw [List.getElem?_map, hn, Option.map_some, if_pos (by rw [hid]; simp)]
    rfl
  · rw [if_neg hij]
    unfold pinned
    rw [List.getElem?_map, List.getElem?_map]
    cases hx : HC.nets[i]? with
    | none => rfl
    | some x =>
      have hxe : x.id ≠ e := by
        intro hxe
        apply hij
        have h1 : (HC.nets.map (·.id))[j]? = some e := by rw [List.getElem?_map, hn]; simp [hid]
        have h2 : (HC.nets.map (·.id))[i]? = some e := by rw [List.getElem?_map, hx]; simp [hxe]
        exact (List.getElem?_inj (by simpa using hjl) h.nids).1 (h1.trans h2.symm)
      simp [hxe]

theorem addOwn_ok {HC : Hypergraph} (h : NetsOk HC) (u : Nat) (es : List Nat) (hnd : es.Nodup)
    (hes : ∀ e ∈ es, IsNet HC e) :
    es.foldlM (fun HC e => addPinOf HC u e) HC = .ok (withNets HC (pinned HC.nets u es)) := by
  obtain ⟨s, e, I⟩ := foldlM_inv (f := fun HC e => addPinOf HC u e)
    (fun pre _ s => s = withNets HC (pinned HC.nets u pre)) es HC (by rw [pinned_nil]; rfl) (by
      intro pre a post s hs hl
      subst hs
      refine ⟨_, addPinOf_ok h u (hes a (by rw [hl]; simp)) ?_, rfl⟩
      intro ha
      rw [hl, List.nodup_append] at hnd
      exact hnd.2.2 a ha a (by simp) rfl)
  rw [e, I]

/-- `m` is `v` merged with the vertices `us`. -/
structure Merged (us : List Vertex) (v m : Vertex) : Prop where
  id : m.id = v.id
  part : m.part = v.part
  weight : m.weight = v.weight + (us.map (·.weight)).sum
  nodup : m.nets.Nodup
  nets : ∀ e, e ∈ m.nets ↔ e ∈ v.nets ∨ ∃ u ∈ us, e ∈ u.nets

theorem contractNets_ok {HC : Hypergraph} (h : NetsOk HC) (es : List Nat)
    (hes : ∀ e ∈ es, IsNet HC e) (v : Vertex) (hnd : v.nets.Nodup) :
    ∃ v', es.foldlM contractNet (withNets HC (pinned HC.nets v.id v.nets), v) =
        .ok (withNets HC (pinned HC.nets v.id v'.nets), v') ∧
      v'.id = v.id ∧ v'.part = v.part ∧ v'.weight = v.weight ∧ v'.nets.Nodup ∧
      ∀ e, e ∈ v'.nets ↔ e ∈ v.nets ∨ e ∈ es := by
  obtain ⟨s, e, v', I⟩ := foldlM_inv (f := contractNet)
    (fun pre _ s => ∃ v', s = (withNets HC (pinned HC.nets v.id v'.nets), v') ∧
      v'.id = v.id ∧ v'.part = v.part ∧ v'.weight = v.weight ∧ v'.nets.Nodup ∧
      ∀ e, e ∈ v'.nets ↔ e ∈ v.nets ∨ e ∈ pre) es
    (withNets HC (pinned HC.nets v.id v.nets), v)
    ⟨v, rfl, rfl, rfl, rfl, hnd, by simp⟩ (by
      rintro pre a post s ⟨v', rfl, h1, h2, h3, h4, h5⟩ hl
      unfold contractNet
      by_cases ha : a ∈ v'.nets
      · simp only [if_pos ha]
        refine ⟨_, rfl, v', rfl, h1, h2, h3, h4, ?_⟩
        intro e
        rw [h5 e, List.mem_append, List.mem_singleton]
        constructor
        · rintro (h | h)
          · exact Or.inl h
          · exact Or.inr (Or.inl h)
        · rintro (h | h | rfl)
          · exact Or.inl h
          · exact Or.inr h
          · exact (h5 e).1 ha
      · simp only [if_neg ha]
        rw [h1, addPinOf_ok h v.id (hes a (by rw [hl]; simp)) ha]
        refine ⟨_, rfl, ⟨v.id, v'.nets ++ [a], v'.weight, v'.part⟩, rfl, rfl, h2, h3, ?_, ?_⟩
        · simp only [List.nodup_append]
          refine ⟨h4, by simp, ?_⟩
          rintro x hx y hy rfl
          rw [List.mem_singleton] at hy
          exact ha (hy ▸ hx)
        · intro e
          simp only [List.mem_append, h5 e, or_assoc])
  obtain ⟨rfl, I⟩ := I
  exact ⟨v', e, I⟩

/-- `C` in which the last sample has the matches `ms`. -/
def withLast (C : Contraction) (s : Nat) (ms : List (Nat × Nat)) : Contraction :=
  { C with samples := C.samples ++ [s], matched := C.matched ++ [ms] }

theorem contractMatches_ok {H HC : Hypergraph} (w : WF H) (h : NetsOk HC)
    (hids : HC.nets.map (·.id) = H.nets.map (·.id)) (rank : Nat) (C : Contraction) (ms : List Nat)
    (hms : ∀ m ∈ ms, IsVertex H m) (v : Vertex) (hnd : v.nets.Nodup) :
    ∃ m us, ms.foldlM (contractMatch H rank C.matched.length)
        (withNets HC (pinned HC.nets v.id v.nets), C.addSample v.id, v) =
        .ok (withNets HC (pinned HC.nets v.id m.nets),
          withLast C v.id (ms.map (fun x => (x, rank))), m) ∧
      us.map (·.id) = ms ∧ (∀ u ∈ us, u ∈ H.vertices) ∧ Merged us v m := by
  obtain ⟨s, e, m, us, I⟩ := foldlM_inv (f := contractMatch H rank C.matched.length)
    (fun pre _ s => ∃ (m : Vertex) (us : List Vertex),
      s = (withNets HC (pinned HC.nets v.id m.nets),
        withLast C v.id (pre.map (fun x => (x, rank))), m) ∧
      us.map (·.id) = pre ∧ (∀ u ∈ us, u ∈ H.vertices) ∧ Merged us v m) ms
    (withNets HC (pinned HC.nets v.id v.nets), C.addSample v.id, v)
    ⟨v, [], rfl, rfl, by simp, rfl, rfl, by simp, hnd, by simp⟩ (by
      rintro pre a post s ⟨m, us, rfl, h1, h2, h3⟩ hl
      obtain ⟨u, hu, hua⟩ := List.mem_map.1 (hms a (by rw [hl]; simp))
      have hua : u.id = a := hua
      have hC : (withLast C v.id (pre.map (fun x => (x, rank)))).addMatch C.matched.length a rank =
          .ok (withLast C v.id ((pre ++ [a]).map (fun x => (x, rank)))) := by
        unfold Contraction.addMatch withLast
        simp
      have hV : H.vertexOf a = .ok u := by rw [← hua]; exact w.vertexOf_mem hu
      unfold contractMatch
      simp only [hC, ok_bind, hV]
      obtain ⟨m', e', i1, i2, i3, i4, i5⟩ := contractNets_ok h u.nets (fun e he => by
        obtain ⟨n, hn, hne, -⟩ := w.inc_net u hu e he
        unfold IsNet
        rw [hids]
        exact List.mem_map.2 ⟨n, hn, hne⟩) { m with weight := m.weight + u.weight } h3.nodup
      have e2 : u.nets.foldlM contractNet (withNets HC (pinned HC.nets v.id m.nets),
          { m with weight := m.weight + u.weight }) =
          .ok (withNets HC (pinned HC.nets v.id m'.nets), m') := by
        rw [← h3.id]; exact e'
      rw [e2]
      simp only [ok_bind]
      refine ⟨_, rfl, m', us ++ [u], rfl, by simp [h1, hua], ?_, ?_⟩
      · intro x hx
        rw [List.mem_append, List.mem_singleton] at hx
        rcases hx with hx | rfl
        · exact h2 x hx
        · exact hu
      · refine ⟨i1.trans h3.id, i2.trans h3.part, ?_, i4, ?_⟩
        · rw [i3]
          simp only [h3.weight, List.map_append, List.map_cons, List.map_nil, List.sum_append,
            List.sum_cons, List.sum_nil]
          omega
        · intro e
          rw [i5 e]
          simp only
          rw [h3.nets e]
          constructor
          · rintro ((h | ⟨x, hx, he⟩) | h)
            · exact Or.inl h
            · exact Or.inr ⟨x, by simp [hx], he⟩
            · exact Or.inr ⟨u, by simp, h⟩
          · rintro (h | ⟨x, hx, he⟩)
            · exact Or.inl (Or.inl h)
            · rw [List.mem_append, List.mem_singleton] at hx
              rcases hx with hx | rfl
              · exact Or.inl (Or.inr ⟨x, hx, he⟩)
              · exact Or.inr he)
  obtain ⟨rfl, I⟩ := I
  exact ⟨m, us, e, I⟩

/-- The matches of the vertex with id `x`. -/
def msAt (H : Hypergraph) (M : List (List Nat)) (x : Nat) : List Nat :=
  match H.vmap x with
  | some i => (M[i]?).getD []
  | none => []

/-- The contraction recorded for the new vertices `newV`. -/
def recorded (H : Hypergraph) (M : List (List Nat)) (newV : List Vertex) (rank : Nat) :
    Contraction :=
  { samples := newV.map (·.id),
    matched := newV.map (fun v => (msAt H M v.id).map (fun x => (x, rank))) }

/-- The new vertex `m` made from `v`. -/
def MadeFrom (H : Hypergraph) (M : List (List Nat)) (v m : Vertex) : Prop :=
  ∃ us : List Vertex, us.map (·.id) = msAt H M v.id ∧ (∀ u ∈ us, u ∈ H.vertices) ∧ Merged us v m

theorem pinned_fill (N : List Net) (M : List Vertex) (m : Vertex) :
    pinned (N.map (fillNet M)) m.id m.nets = N.map (fillNet (M ++ [m])) := by
  unfold pinned
  rw [List.map_map]
  apply List.map_congr_left
  intro n _
  simp only [Function.comp_apply, fillNet]
  by_cases h : n.id ∈ m.nets
  · simp [addPin, h]
  · simp [h]

/-- State of the contraction after the first `i` vertices have become `done`. -/
def contractState (HC : Hypergraph) (newV done : List Vertex) : Hypergraph :=
  { HC with vertices := done ++ newV.drop done.length, nets := HC.nets.map (fillNet done) }

theorem contractLoop_ok {H : Hypergraph} (w : WF H) {maxC : Nat} {M : List (List Nat)}
    {newV : List Vertex} (hM : MatchOk H maxC M newV) (rank : Nat) {HC : Hypergraph}
    (hHC : NetsOk HC) (hids : HC.nets.map (·.id) = H.nets.map (·.id)) (hv : HC.vertices = newV) :
    ∃ L, (List.range newV.length).foldlM (contractVertex H M rank) (HC, {}) =
        .ok ({ HC with vertices := L, nets := HC.nets.map (fillNet L) },
          recorded H M newV rank) ∧
      List.Forall₂ (MadeFrom H M) newV L := by
  obtain ⟨s, e, L, h1, h2, h3⟩ := foldlM_inv (f := contractVertex H M rank)
    (fun pre _ s => ∃ L : List Vertex, L.length = pre.length ∧
      s = (contractState HC newV L,
        ({ samples := (newV.take pre.length).map (·.id),
           matched := (newV.take pre.length).map (fun v => (msAt H M v.id).map (fun x => (x, rank))) }
            : Contraction)) ∧
      List.Forall₂ (MadeFrom H M) (newV.take pre.length) L) (List.range newV.length) (HC, {})
    ⟨[], rfl, by
      unfold contractState
      have : HC.nets.map (fillNet []) = HC.nets := by
        conv_rhs => rw [← List.map_id HC.nets]
        apply List.map_congr_left
        intro n _
        simp [fillNet]
      simp [this, ← hv], by simp⟩ (by
      rintro pre i post s ⟨L, h1, rfl, h3⟩ hl
      have hi : i = pre.length ∧ i < newV.length := by
        have := congrArg (·[pre.length]?) hl
        simp only [List.getElem?_append_right (Nat.le_refl _), Nat.sub_self,
          List.getElem?_cons_zero] at this
        rw [List.getElem?_eq_some_iff] at this
        obtain ⟨hlt, he⟩ := this
        rw [List.length_range] at hlt
        rw [List.getElem_range] at he
        omega
      obtain ⟨hi, hil⟩ := hi
      subst hi
      have hve : newV[pre.length]? = some newV[pre.length] := List.getElem?_eq_getElem _
      generalize newV[pre.length] = v at hve
      have hdrop : newV.drop pre.length = v :: newV.drop (pre.length + 1) := by
        rw [List.getElem?_eq_some_iff] at hve
        obtain ⟨_, hve⟩ := hve
        rw [← hve]
        exact List.drop_eq_getElem_cons hil
      have htake : newV.take (pre.length + 1) = newV.take pre.length ++ [v] := by
        rw [List.take_add_one, hve]; rfl
      obtain ⟨v0, hv0, hcp⟩ := hM.copies v (List.mem_of_getElem? hve)
      have hvid : v.id = v0.id := by rw [hcp]; rfl
      have hvn : v.nets = v0.nets := by rw [hcp]; rfl
      obtain ⟨j, hj⟩ := List.mem_iff_getElem?.1 hv0
      have hjl : j < H.vertices.length := by rw [List.getElem?_eq_some_iff] at hj; exact hj.1
      have hloc : H.localId v.id = .ok j := by rw [hvid]; exact w.localId_of_get hj
      have hvm : H.vmap v.id = some j := (w.vmap_iff _ _).2 ⟨v0, hj, hvid.symm⟩
      have hMj : M[j]? = some (M[j]'(by rw [hM.len]; exact hjl)) := List.getElem?_eq_getElem _
      have hms : msAt H M v.id = M[j]'(by rw [hM.len]; exact hjl) := by
        unfold msAt; rw [hvm]; simp only [hMj, Option.getD_some]
      generalize M[j]'(by rw [hM.len]; exact hjl) = ms at hMj hms
      have hat : (contractState HC newV L).vertexAt pre.length = .ok v := by
        apply vertexAt_ok
        unfold contractState
        simp only
        rw [h1, List.getElem?_append_right (by omega), h1, Nat.sub_self, hdrop]
        rfl
      have hN : NetsOk (contractState HC newV L) := by
        have : (HC.nets.map (fillNet L)).map (·.id) = HC.nets.map (·.id) := by
          rw [List.map_map]
          rfl
        exact ⟨by unfold contractState; simp only; rw [this]; exact hHC.nids,
          by unfold contractState; simp only; rw [this]; exact hHC.nmap⟩
      have hidsN : (contractState HC newV L).nets.map (·.id) = H.nets.map (·.id) := by
        rw [← hids]
        unfold contractState
        simp only
        rw [List.map_map]
        rfl
      have hown := addOwn_ok hN v.id v.nets (by rw [hvn]; exact w.vnets v0 hv0) (by
        intro e he
        unfold IsNet
        rw [hidsN]
        rw [hvn] at he
        obtain ⟨n, hn, hne, -⟩ := w.inc_net v0 hv0 e he
        exact List.mem_map.2 ⟨n, hn, hne⟩)
      have hmsv : ∀ m ∈ ms, IsVertex H m := by
        intro m hm
        apply hM.cover.subset
        rw [List.mem_append, List.mem_flatten]
        exact Or.inr ⟨ms, List.mem_of_getElem? hMj, hm⟩
      obtain ⟨m, us, em, u1, u2, u3⟩ := contractMatches_ok w hN hidsN rank
        { samples := (newV.take pre.length).map (·.id),
          matched := (newV.take pre.length).map (fun v => (msAt H M v.id).map (fun x => (x, rank))) }
        ms hmsv v (by rw [hvn]; exact w.vnets v0 hv0)
      have hlen : ((newV.take pre.length).map
          (fun v => (msAt H M v.id).map (fun x => (x, rank)))).length = pre.length := by
        rw [List.length_map, List.length_take]; omega
      simp only [hlen] at em
      unfold contractVertex
      simp only [hat, ok_bind, hloc, hown, vget_ok hMj, em]
      refine ⟨_, rfl, L ++ [m], by simp [h1], ?_, ?_⟩
      · congr 1
        · unfold contractState withNets Hypergraph.setVertex
          simp only [List.length_append, List.length_cons, List.length_nil]
          congr 1
          · rw [h1, hdrop, ← h1, List.set_append_right _ _ (Nat.le_refl _), Nat.sub_self,
              List.set_cons_zero, List.append_assoc]
            rfl
          · rw [← u3.id]
            exact pinned_fill _ _ _
        · simp only [List.length_append, List.length_cons, List.length_nil, htake,
            List.map_append, List.map_cons, List.map_nil, withLast, hms]
      · simp only [List.length_append, List.length_cons, List.length_nil, htake]
        refine List.rel_append h3 ?_
        exact List.Forall₂.cons ⟨us, by rw [u1, hms], u2, u3⟩ List.Forall₂.nil)
  rw [List.length_range] at h1 h2 h3
  rw [List.take_length] at h2 h3
  refine ⟨L, ?_, h3⟩
  rw [e, h2]
  unfold contractState
  rw [h1, List.drop_length, List.append_nil]
  rfl

/-! ### The whole contraction -/

theorem flatMap_self {g : Nat → List Nat} (ids : List Nat) (hnd : ids.Nodup) {s : Nat}
    (hs : s ∈ ids) : ids.flatMap (fun x => if x = s then x :: g x else []) = s :: g s := by
  induction ids with
  | nil => cases hs
  | cons a l ih =>
    rw [List.nodup_cons] at hnd
    rw [List.flatMap_cons]
    rcases List.mem_cons.1 hs with rfl | h
    · rw [if_pos rfl]
      have : l.flatMap (fun x => if x = s then x :: g x else []) = [] := by
        rw [List.flatMap_eq_nil_iff]
        intro x hx
        rw [if_neg]
        rintro rfl
        exact hnd.1 hx
      rw [this, List.append_nil]
    · rw [if_neg (by rintro rfl; exact hnd.1 h), List.nil_append]
      exact ih hnd.2 h

section

variable {H : Hypergraph} {maxC : Nat} {M : List (List Nat)} {newV : List Vertex}

theorem MatchOk.nodup (w : WF H) (hM : MatchOk H maxC M newV) :
    (newV.map (·.id) ++ M.flatten).Nodup := hM.cover.nodup_iff.2 w.vids

theorem MatchOk.ids_nodup (w : WF H) (hM : MatchOk H maxC M newV) : (newV.map (·.id)).Nodup :=
  (List.nodup_append.1 (hM.nodup w)).1

theorem members_recorded (w : WF H) (hM : MatchOk H maxC M newV) (rank : Nat)
    {s : Nat} (hs : s ∈ newV.map (·.id)) :
    members (recorded H M newV rank) s = s :: msAt H M s := by
  unfold members recorded
  simp only
  rw [List.zip_map', List.flatMap_map]
  have h := flatMap_self (g := msAt H M) _ (hM.ids_nodup w) hs
  rw [List.flatMap_map] at h
  rw [← h]
  congr 1
  funext v
  simp [Function.comp_def]

theorem flatten_eq_msAt (w : WF H) (hM : MatchOk H maxC M newV) :
    M.flatten = (H.vertices.map (·.id)).flatMap (msAt H M) := by
  rw [List.flatMap_map, List.flatMap]
  congr 1
  apply List.ext_getElem?
  intro i
  rw [List.getElem?_map]
  cases hv : H.vertices[i]? with
  | none =>
    rw [Option.map_none]
    rw [List.getElem?_eq_none_iff] at hv ⊢
    rw [hM.len]; exact hv
  | some v =>
    have hil : i < H.vertices.length := by rw [List.getElem?_eq_some_iff] at hv; exact hv.1
    have hMi : M[i]? = some (M[i]'(by rw [hM.len]; exact hil)) := List.getElem?_eq_getElem _
    rw [Option.map_some]
    unfold msAt
    rw [(w.vmap_iff v.id i).2 ⟨v, hv, rfl⟩]
    simp only [hMi, Option.getD_some]

theorem msAt_sample (w : WF H) (hM : MatchOk H maxC M newV) {x : Nat} (hx : msAt H M x ≠ []) :
    x ∈ newV.map (·.id) := by
  unfold msAt at hx
  cases hm : H.vmap x with
  | none => rw [hm] at hx; exact absurd rfl hx
  | some i =>
    rw [hm] at hx
    simp only at hx
    obtain ⟨v, hv, hvx⟩ := (w.vmap_iff x i).1 hm
    cases hl : M[i]? with
    | none => rw [hl] at hx; exact absurd rfl hx
    | some l =>
      rw [hl] at hx
      exact List.mem_map.2 ⟨newVertex v, hM.centres i v l hv hl hx, hvx⟩

theorem flatMap_samples (w : WF H) (hM : MatchOk H maxC M newV) :
    ((newV.map (·.id)).flatMap (msAt H M)).Perm M.flatten := by
  conv_rhs => rw [flatten_eq_msAt w hM]
  refine List.Perm.trans ?_ (hM.cover.flatMap_right (msAt H M))
  rw [List.flatMap_append]
  have : M.flatten.flatMap (msAt H M) = [] := by
    rw [List.flatMap_eq_nil_iff]
    intro x hx
    by_contra hne
    exact (List.nodup_append.1 (hM.nodup w)).2.2 x (msAt_sample w hM hne) x hx rfl
  rw [this, List.append_nil]

theorem msAt_length (hM : MatchOk H maxC M newV) (x : Nat) : (msAt H M x).length ≤ maxC := by
  unfold msAt
  split
  · rename_i i _
    cases hl : M[i]? with
    | none => simp
    | some l => exact hM.size l (List.mem_of_getElem? hl)
  · simp

theorem recorded_star (w : WF H) (hM : MatchOk H maxC M newV) (rank : Nat) :
    StarClustering H (recorded H M newV rank) maxC := by
  constructor
  · simp [recorded]
  · refine List.Perm.trans ?_ hM.cover
    have : (recorded H M newV rank).matched.flatten.map (·.1) =
        (newV.map (·.id)).flatMap (msAt H M) := by
      unfold recorded
      simp only
      rw [List.map_flatten, List.map_map, List.flatMap_map, List.flatMap]
      congr 1
      apply List.map_congr_left
      intro v _
      simp [Function.comp_def]
    rw [this]
    exact (flatMap_samples w hM).append_left _
  · intro l hl
    obtain ⟨v, -, rfl⟩ := List.mem_map.1 hl
    rw [List.length_map]
    exact msAt_length hM _

theorem cluster_nodup (w : WF H) (hM : MatchOk H maxC M newV) {s : Nat}
    (hs : s ∈ newV.map (·.id)) : (s :: msAt H M s).Nodup := by
  have hnd := (flatMap_samples w hM).append_left (newV.map (·.id)) |>.nodup_iff.2 (hM.nodup w)
  rw [List.nodup_append] at hnd
  have hsub : (msAt H M s).Sublist ((newV.map (·.id)).flatMap (msAt H M)) := by
    rw [List.flatMap]
    exact List.sublist_flatten_of_mem (List.mem_map.2 ⟨s, hs, rfl⟩)
  rw [List.nodup_cons]
  exact ⟨fun h => hnd.2.2 s hs s (hsub.subset h) rfl, hsub.nodup hnd.2.1⟩

theorem filter_ids_perm (w : WF H) (us : List Vertex) (hus : ∀ u ∈ us, u ∈ H.vertices)
    (hnd : (us.map (·.id)).Nodup) :
    (H.vertices.filter (fun v => v.id ∈ us.map (·.id))).Perm us := by
  rw [List.perm_ext_iff_of_nodup (List.Nodup.filter _ (List.Nodup.of_map _ w.vids))
    (List.Nodup.of_map _ hnd)]
  intro v
  rw [List.mem_filter, decide_eq_true_iff]
  constructor
  · rintro ⟨hv, hm⟩
    obtain ⟨u, hu, hid⟩ := List.mem_map.1 hm
    rw [← w.vertex_inj (hus u hu) hv hid]
    exact hu
  · intro hv
    exact ⟨hus v hv, List.mem_map.2 ⟨v, hv, rfl⟩⟩

/-- What one new vertex looks like in terms of the clusters. -/
theorem made_cluster (w : WF H) (hM : MatchOk H maxC M newV) (rank : Nat) {v m : Vertex}
    (hv : v ∈ newV) (hm : MadeFrom H M v m) :
    m.id = v.id ∧ m.part = -1 ∧ m.nets.Nodup ∧
      m.weight = clusterWeight H (recorded H M newV rank) v.id ∧
      (∀ e ∈ m.nets, IsNet H e) ∧
      ∀ n ∈ H.nets, n.id ∈ m.nets ↔
        ∃ u ∈ n.vertices, u ∈ members (recorded H M newV rank) v.id := by
  obtain ⟨us, h1, h2, h3⟩ := hm
  obtain ⟨v0, hv0, hcp⟩ := hM.copies v hv
  have hvid : v.id = v0.id := by rw [hcp]; rfl
  have hvn : v.nets = v0.nets := by rw [hcp]; rfl
  have hvw : v.weight = v0.weight := by rw [hcp]; rfl
  have hvp : v.part = -1 := by rw [hcp]; rfl
  have hs : v.id ∈ newV.map (·.id) := List.mem_map.2 ⟨v, hv, rfl⟩
  have hmem := members_recorded w hM rank hs
  have hall : ∀ u ∈ v0 :: us, u ∈ H.vertices := by
    intro u hu
    rcases List.mem_cons.1 hu with rfl | hu
    · exact hv0
    · exact h2 u hu
  have hids : (v0 :: us).map (·.id) = v.id :: msAt H M v.id := by
    rw [List.map_cons, h1, hvid]
  refine ⟨h3.id, h3.part.trans hvp, h3.nodup, ?_, ?_, ?_⟩
  · unfold clusterWeight
    rw [hmem, ← hids, ((filter_ids_perm w (v0 :: us) hall (by
      rw [hids]; exact cluster_nodup w hM hs)).map _).sum_eq, List.map_cons, List.sum_cons,
      h3.weight, hvw]
  · intro e he
    have hx : ∃ u ∈ v0 :: us, e ∈ u.nets := by
      rcases (h3.nets e).1 he with h | ⟨u, hu, h⟩
      · exact ⟨v0, by simp, by rw [← hvn]; exact h⟩
      · exact ⟨u, by simp [hu], h⟩
    obtain ⟨u, hu, he⟩ := hx
    obtain ⟨n, hn, hne, -⟩ := w.inc_net u (hall u hu) e he
    exact List.mem_map.2 ⟨n, hn, hne⟩
  · intro n hn
    rw [h3.nets n.id, hmem, ← hids, hvn]
    constructor
    · intro h
      have hx : ∃ u ∈ v0 :: us, n.id ∈ u.nets := by
        rcases h with h | ⟨u, hu, h⟩
        · exact ⟨v0, by simp, h⟩
        · exact ⟨u, by simp [hu], h⟩
      obtain ⟨u, hu, he⟩ := hx
      exact ⟨u.id, (mem_pins_iff w (hall u hu) hn).1 he, List.mem_map.2 ⟨u, hu, rfl⟩⟩
    · rintro ⟨x, hx, hxm⟩
      obtain ⟨u, hu, rfl⟩ := List.mem_map.1 hxm
      have he := (mem_pins_iff w (hall u hu) hn).2 hx
      rcases List.mem_cons.1 hu with rfl | hu
      · exact Or.inl he
      · exact Or.inr ⟨u, hu, he⟩

theorem forall2_filter_ids {R : Vertex → Vertex → Prop} {l l' : List Vertex}
    (h : List.Forall₂ R l l') (p : Vertex → Bool) (q : Nat → Bool)
    (hR : ∀ v ∈ l, ∀ m, R v m → m.id = v.id ∧ p m = q v.id) :
    (l'.filter p).map (·.id) = (l.map (·.id)).filter q := by
  induction h with
  | nil => rfl
  | @cons v m l l' hvm _ ih =>
    obtain ⟨h1, h2⟩ := hR v (by simp) m hvm
    have ih := ih (fun v hv => hR v (by simp [hv]))
    rw [List.map_cons, List.filter_cons, List.filter_cons, ← h2]
    by_cases hp : p m = true
    · rw [if_pos hp, if_pos hp, List.map_cons, ih, h1]
    · rw [if_neg hp, if_neg hp, ih]

theorem forall2_mem_right {α β : Type} {R : α → β → Prop} {l : List α} {l' : List β}
    (h : List.Forall₂ R l l') {b : β} (hb : b ∈ l') : ∃ a ∈ l, R a b := by
  induction h with
  | nil => cases hb
  | @cons x y l l' hxy _ ih =>
    rcases List.mem_cons.1 hb with rfl | hb
    · exact ⟨x, by simp, hxy⟩
    · obtain ⟨a, ha, h⟩ := ih hb
      exact ⟨a, by simp [ha], h⟩

theorem forall2_map_eq' {α β γ : Type} {R : α → β → Prop} {l : List α} {l' : List β}
    (h : List.Forall₂ R l l') (f : α → γ) (g : β → γ) (hR : ∀ a ∈ l, ∀ b, R a b → g b = f a) :
    l'.map g = l.map f := by
  induction h with
  | nil => rfl
  | @cons a b l l' hab _ ih =>
    rw [List.map_cons, List.map_cons, hR a (by simp) b hab,
      ih (fun a ha => hR a (by simp [ha]))]

end

theorem contractSeq_ok {H : Hypergraph} (w : WF H) {maxC : Nat} {M : List (List Nat)}
    {newV : List Vertex} (hM : MatchOk H maxC M newV) (rank : Nat) {order : List Nat → List Nat}
    (hord : ∀ l, (order l).Perm l) :
    ∃ HC C, contractSeq order rank H {} M newV = .ok (HC, C) ∧ WF HC ∧ StarClustering H C maxC ∧
      IsContraction H C HC ∧ (∀ l ∈ C.matched, ∀ m ∈ l, m.2 = rank) ∧
      (∀ v ∈ HC.vertices, v.part = -1 ∧ v.nets ≠ []) ∧
      HC.globalSize = HC.vertices.length ∧ HC.globalNumberNets = H.globalNumberNets ∧
      C.globalFree = (C.free.map (·.2)).sum ∧ HC.dups = [] ∧
      C.samples = (recorded H M newV rank).samples ∧
      C.matched = (recorded H M newV rank).matched := by
  unfold contractSeq
  set HC0 := Hypergraph.create newV.length H.globalNumberNets newV
    (H.nets.map (fun n => Net.mk' n.id [] n.cost)) with hHC0
  have hn0 : HC0.nets.map (·.id) = H.nets.map (·.id) := by
    rw [hHC0]; unfold Hypergraph.create; simp only; rw [List.map_map]; rfl
  have hN0 : NetsOk HC0 := by
    refine ⟨by rw [hn0]; exact w.nids, ?_⟩
    intro e j
    exact buildMap_spec (show (HC0.nets.map (·.id)).Nodup by rw [hn0]; exact w.nids) e j
  obtain ⟨L, e1, hL⟩ := contractLoop_ok w hM rank hN0 hn0 rfl
  simp only [e1, ok_bind]
  have hmade : ∀ v ∈ newV, ∀ m, MadeFrom H M v m → _ := fun v hv m hm =>
    made_cluster w hM rank hv hm
  have hLids : L.map (·.id) = newV.map (·.id) :=
    forall2_map_eq' hL _ _ (fun v hv m hm => (hmade v hv m hm).1)
  have hLmem : ∀ m ∈ L, ∃ v ∈ newV, MadeFrom H M v m := fun m hm => forall2_mem_right hL hm
  have hfill : ∀ n ∈ H.nets, (fillNet L (Net.mk' n.id [] n.cost)).vertices =
      touched (recorded H M newV rank) n := by
    intro n hn
    unfold fillNet Net.mk'
    simp only [List.nil_append]
    unfold touched
    exact forall2_filter_ids hL _ _ (fun v hv m hm => ⟨(hmade v hv m hm).1, by
      rw [decide_eq_decide]; exact (hmade v hv m hm).2.2.2.2.2 n hn⟩)
  have w1 : WF { HC0 with vertices := L, nets := HC0.nets.map (fillNet L) } := by
    have heq : ({ HC0 with vertices := L, nets := HC0.nets.map (fillNet L) } : Hypergraph) =
        Hypergraph.create newV.length H.globalNumberNets L (HC0.nets.map (fillNet L)) := by
      rw [hHC0]
      unfold Hypergraph.create
      simp only
      congr 1
      · rw [hLids]
      · congr 1
        rw [List.map_map, List.map_map, List.map_map]
        rfl
    rw [heq]
    have hLnd : (L.map (·.id)).Nodup := by rw [hLids]; exact hM.ids_nodup w
    apply WF_create hLnd
    · have : (HC0.nets.map (fillNet L)).map (·.id) = H.nets.map (·.id) := by
        rw [← hn0, List.map_map]; rfl
      rw [this]; exact w.nids
    · intro m hm
      obtain ⟨v, hv, hvm⟩ := hLmem m hm
      exact (hmade v hv m hvm).2.2.1
    · intro n hn
      obtain ⟨x, hx, rfl⟩ := List.mem_map.1 hn
      obtain ⟨y, hy, rfl⟩ := List.mem_map.1 hx
      simp only [fillNet, Net.mk', List.nil_append]
      exact (List.filter_sublist.map _).nodup hLnd
    · intro m hm e he
      obtain ⟨v, hv, hvm⟩ := hLmem m hm
      obtain ⟨n, hn, hne⟩ := List.mem_map.1 ((hmade v hv m hvm).2.2.2.2.1 e he)
      have hne : n.id = e := hne
      refine ⟨fillNet L (Net.mk' n.id [] n.cost), List.mem_map.2 ⟨_, List.mem_map.2 ⟨n, hn, rfl⟩, rfl⟩,
        hne, ?_⟩
      simp only [fillNet, Net.mk', List.nil_append]
      exact List.mem_map.2 ⟨m, List.mem_filter.2 ⟨hm, by simpa [hne] using he⟩, rfl⟩
    · intro n hn u hu
      obtain ⟨x, hx, rfl⟩ := List.mem_map.1 hn
      obtain ⟨y, hy, rfl⟩ := List.mem_map.1 hx
      simp only [fillNet, Net.mk', List.nil_append] at hu
      obtain ⟨m, hm, rfl⟩ := List.mem_map.1 hu
      obtain ⟨hm, hd⟩ := List.mem_filter.1 hm
      exact ⟨m, hm, rfl, of_decide_eq_true hd⟩
  obtain ⟨HC2, e2, w2, n2, v2, -, g2, -, d2⟩ := C07_remove_free_nets w1 1 order hord
  simp only [e2, ok_bind]
  obtain ⟨HC3, e3, w3, v3, s3, z3⟩ := C28_merge w2 (C := recorded H M newV rank) rfl
  simp only [e3, ok_bind, pure_eq_ok]
  have hstar := recorded_star w hM rank
  have hidw : HC2.vertices.map (fun v => (v.id, v.weight)) =
      (newV.map (·.id)).map (fun s => (s, clusterWeight H (recorded H M newV rank) s)) := by
    have h1 : HC2.vertices.map (fun v => (v.id, v.weight)) = L.map (fun v => (v.id, v.weight)) :=
      forall2_map_eq' v2 _ _ (fun a _ b hab => by rw [hab.1, hab.2.1])
    rw [h1, List.map_map]
    refine forall2_map_eq' hL _ _ (fun v hv m hm => ?_)
    obtain ⟨i1, -, -, i4, -⟩ := hmade v hv m hm
    simp only [Function.comp_apply]
    rw [i1, i4]
  refine ⟨HC3, _, rfl, w3, ⟨hstar.len, hstar.cover, hstar.size⟩, ?_, ?_, ?_, z3, ?_, rfl, ?_, rfl, rfl⟩
  · refine ⟨?_, ⟨?_, ?_⟩, ?_⟩
    · have hp : (HC3.vertices.map (fun v => (v.id, v.weight)) ++ freeOf HC2).Perm
          (HC2.vertices.map (fun v => (v.id, v.weight))) := by
        refine ((v3.map _).append_right _).trans ?_
        unfold freeOf
        rw [← List.map_append]
        apply List.Perm.map
        have := List.filter_append_perm (fun v : Vertex => decide (v.nets ≠ [])) HC2.vertices
        refine List.Perm.trans ?_ this
        apply List.Perm.append_left
        rw [List.filter_congr]
        intro v _
        simp
      refine hp.trans ?_
      rw [hidw]
      exact List.Perm.refl _
    · have hx : (HC3.nets.map (fun n => (n.id, n.cost))).Perm
          (((HC0.nets.map (fillNet L)).filter (fun n => 1 < n.vertices.length)).map
            (fun n => (n.id, n.cost))) := by
        rw [s3.nets]
        refine (n2.map _).trans ?_
        rw [List.map_map]
        exact List.Perm.refl _
      refine hx.trans ?_
      have hy : HC0.nets.map (fillNet L) = H.nets.map (fun n => fillNet L (Net.mk' n.id [] n.cost)) := by
        rw [hHC0]; unfold Hypergraph.create; simp only; rw [List.map_map]; rfl
      rw [hy, List.filter_map, List.map_map]
      have hf : H.nets.filter ((fun n => decide (1 < n.vertices.length)) ∘
          fun n => fillNet L (Net.mk' n.id [] n.cost)) =
          H.nets.filter (fun n => 2 ≤ (touched (recorded H M newV rank) n).length) := by
        apply List.filter_congr
        intro n hn
        simp only [Function.comp_apply]
        rw [hfill n hn, decide_eq_decide]
        omega
      rw [hf]
      exact List.Perm.refl _
    · intro n' hn' n hn hid
      rw [s3.nets] at hn'
      obtain ⟨x, hx, rfl⟩ := List.mem_map.1 (n2.subset hn')
      obtain ⟨y, hy, rfl⟩ := List.mem_map.1 (List.mem_filter.1 hx).1
      obtain ⟨z, hz, rfl⟩ := List.mem_map.1 hy
      have : n = z := w.net_inj hn hz hid
      subst this
      simp only
      rw [hfill n hn]
      exact List.Perm.refl _
    · intro n' hn'
      rw [s3.nets] at hn'
      obtain ⟨x, hx, rfl⟩ := List.mem_map.1 (n2.subset hn')
      rfl
  · intro l hl m hm
    obtain ⟨v, -, rfl⟩ := List.mem_map.1 hl
    obtain ⟨x, -, rfl⟩ := List.mem_map.1 hm
    rfl
  · intro v hv
    obtain ⟨hv2, hne⟩ := List.mem_filter.1 (v3.subset hv)
    refine ⟨?_, by simpa using hne⟩
    obtain ⟨m, hm, hmv⟩ := forall2_mem_right v2 hv2
    obtain ⟨v', hv', hvm⟩ := hLmem m hm
    rw [hmv.2.2.1]
    exact (hmade v' hv' m hvm).2.1
  · rw [s3.globalNumberNets, g2]
    rfl
  · rw [s3.dups, d2]
    rfl

end PMondriaan

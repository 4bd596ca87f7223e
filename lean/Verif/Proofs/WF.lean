import Verif.Spec.Hypergraph
import Mathlib.Data.List.Induction

/-
Consequences of well-formedness: every checked access of the model succeeds.
-/

namespace PMondriaan

open Spec

/-! ### Maps -/

theorem buildMap_append (ids : List Nat) (x : Nat) :
    buildMap (ids ++ [x]) = mapSet (buildMap ids) x ids.length := by
  unfold buildMap
  rw [List.zipIdx_append, List.foldl_append]
  simp

theorem buildMap_spec {ids : List Nat} (h : ids.Nodup) (u i : Nat) :
    buildMap ids u = some i ↔ ids[i]? = some u := by
  induction ids using List.reverseRecOn generalizing i with
  | nil => simp [buildMap]
  | append_singleton ids x ih =>
    have hnd : ids.Nodup := (List.nodup_append.1 h).1
    have hx : x ∉ ids := by
      intro hx
      exact (List.nodup_append.1 h).2.2 x hx x (by simp) rfl
    rw [buildMap_append]
    unfold mapSet
    by_cases hu : u = x
    · subst hu
      simp only [if_true]
      constructor
      · intro hi
        cases hi
        simp
      · intro hi
        rw [List.getElem?_append] at hi
        split at hi
        · exact absurd (List.mem_of_getElem? hi) hx
        · rename_i hlt
          rcases Nat.lt_or_ge ids.length i with h1 | h1
          · have : i - ids.length ≥ 1 := by omega
            rw [List.getElem?_eq_none (by simpa using this)] at hi
            cases hi
          · congr 1; omega
    · simp only [hu, if_false]
      rw [ih hnd, List.getElem?_append]
      constructor
      · intro hi
        rw [if_pos (by
          rw [List.getElem?_eq_some_iff] at hi; exact hi.1)]
        exact hi
      · intro hi
        split at hi
        · exact hi
        · exfalso
          have := List.mem_of_getElem? hi
          simp at this
          exact hu this

/-! ### Accesses -/

theorem vget_ok {α : Type} {l : List α} {i : Nat} {a : α} (h : l[i]? = some a) :
    vget l i = .ok a := by
  simp [vget, h]

theorem vget_eq_ok {α : Type} {l : List α} {i : Nat} {a : α} :
    vget l i = .ok a ↔ l[i]? = some a := by
  unfold vget
  cases h : l[i]? <;> simp

theorem vset_ok {α : Type} {l : List α} {i : Nat} {a : α} (h : i < l.length) :
    vset l i a = .ok (l.set i a) := by
  simp [vset, h]

namespace Spec.WF

variable {H : Hypergraph} (w : WF H)
include w

theorem vmap_iff (u i : Nat) : H.vmap u = some i ↔ ∃ v, H.vertices[i]? = some v ∧ v.id = u := by
  rw [w.vmap]
  simp [List.getElem?_map]

theorem nmap_iff (e j : Nat) : H.nmap e = some j ↔ ∃ n, H.nets[j]? = some n ∧ n.id = e := by
  rw [w.nmap]
  simp [List.getElem?_map]

theorem localId_of_get {i : Nat} {v : Vertex} (h : H.vertices[i]? = some v) :
    H.localId v.id = .ok i := by
  have : H.vmap v.id = some i := (w.vmap_iff _ _).2 ⟨v, h, rfl⟩
  have hlt : i < H.vertices.length := by
    rw [List.getElem?_eq_some_iff] at h; exact h.1
  simp [Hypergraph.localId, this, hlt]

theorem localId_mem {v : Vertex} (h : v ∈ H.vertices) :
    ∃ i, H.vertices[i]? = some v ∧ H.localId v.id = .ok i := by
  obtain ⟨i, hi⟩ := List.mem_iff_getElem?.1 h
  exact ⟨i, hi, w.localId_of_get hi⟩

theorem vertexOf_mem {v : Vertex} (h : v ∈ H.vertices) : H.vertexOf v.id = .ok v := by
  obtain ⟨i, hi, hl⟩ := w.localId_mem h
  simp [Hypergraph.vertexOf, hl, Hypergraph.vertexAt, hi]

theorem localIdNet_of_get {j : Nat} {n : Net} (h : H.nets[j]? = some n) :
    H.localIdNet n.id = .ok j := by
  have : H.nmap n.id = some j := (w.nmap_iff _ _).2 ⟨n, h, rfl⟩
  simp [Hypergraph.localIdNet, this]

theorem netOf_of_get {j : Nat} {n : Net} (h : H.nets[j]? = some n) :
    H.netOf n.id = .ok n := by
  have : H.nmap n.id = some j := (w.nmap_iff _ _).2 ⟨n, h, rfl⟩
  simp [Hypergraph.netOf, this, h]

theorem vertex_inj {v v' : Vertex} (h : v ∈ H.vertices) (h' : v' ∈ H.vertices)
    (hid : v.id = v'.id) : v = v' :=
  List.inj_on_of_nodup_map w.vids h h' hid

theorem net_inj {n n' : Net} (h : n ∈ H.nets) (h' : n' ∈ H.nets)
    (hid : n.id = n'.id) : n = n' :=
  List.inj_on_of_nodup_map w.nids h h' hid

theorem vindex_inj {i i' : Nat} {v v' : Vertex} (h : H.vertices[i]? = some v)
    (h' : H.vertices[i']? = some v') (hid : v.id = v'.id) : i = i' := by
  have h1 := (w.vmap_iff v.id i).2 ⟨v, h, rfl⟩
  have h2 := (w.vmap_iff v.id i').2 ⟨v', h', hid.symm⟩
  rw [h1] at h2; exact Option.some.inj h2

theorem nindex_inj {i i' : Nat} {v v' : Net} (h : H.nets[i]? = some v)
    (h' : H.nets[i']? = some v') (hid : v.id = v'.id) : i = i' := by
  have h1 := (w.nmap_iff v.id i).2 ⟨v, h, rfl⟩
  have h2 := (w.nmap_iff v.id i').2 ⟨v', h', hid.symm⟩
  rw [h1] at h2; exact Option.some.inj h2

/-- A net id on the vertex side: position and net. -/
theorem net_of_vnet {v : Vertex} (h : v ∈ H.vertices) {e : Nat} (he : e ∈ v.nets) :
    ∃ j n, H.nets[j]? = some n ∧ n.id = e ∧ v.id ∈ n.vertices ∧ H.localIdNet e = .ok j ∧
      H.netOf e = .ok n := by
  obtain ⟨n, hn, hne, hv⟩ := w.inc_net v h e he
  obtain ⟨j, hj⟩ := List.mem_iff_getElem?.1 hn
  exact ⟨j, n, hj, hne, hv, hne ▸ w.localIdNet_of_get hj, hne ▸ w.netOf_of_get hj⟩

/-- A pin on the net side: the vertex. -/
theorem vertex_of_pin {n : Net} (h : n ∈ H.nets) {u : Nat} (hu : u ∈ n.vertices) :
    ∃ i v, H.vertices[i]? = some v ∧ v.id = u ∧ n.id ∈ v.nets ∧ H.localId u = .ok i ∧
      H.vertexOf u = .ok v := by
  obtain ⟨v, hv, hvu, he⟩ := w.inc_vtx n h u hu
  obtain ⟨i, hi, hl⟩ := w.localId_mem hv
  exact ⟨i, v, hi, hvu, he, hvu ▸ hl, hvu ▸ w.vertexOf_mem hv⟩

theorem partOf_eq {v : Vertex} (h : v ∈ H.vertices) : partOf H v.id = v.part := by
  unfold partOf
  cases hf : H.vertices.find? (fun x => x.id == v.id) with
  | none =>
    rw [List.find?_eq_none] at hf
    exact absurd (by simp) (hf v h)
  | some x =>
    have hx : x ∈ H.vertices := List.mem_of_find?_eq_some hf
    have hid : x.id = v.id := by simpa using List.find?_some hf
    simp [w.vertex_inj hx h hid]

theorem partOfV_pin {n : Net} (h : n ∈ H.nets) {u : Nat} (hu : u ∈ n.vertices) :
    H.partOfV u = .ok (partOf H u) := by
  obtain ⟨i, v, hi, hvu, -, -, hv⟩ := w.vertex_of_pin h hu
  subst hvu
  simp [Hypergraph.partOfV, hv, w.partOf_eq (List.mem_of_getElem? hi)]

end Spec.WF

/-- Well-formedness of a freshly constructed hypergraph, from facts about the lists. -/
theorem WF_create {gs gn : Nat} {vs : List Vertex} {ns : List Net} {nz : Nat}
    (h1 : (vs.map (·.id)).Nodup) (h2 : (ns.map (·.id)).Nodup)
    (h3 : ∀ v ∈ vs, v.nets.Nodup) (h4 : ∀ n ∈ ns, n.vertices.Nodup)
    (h5 : ∀ v ∈ vs, ∀ e ∈ v.nets, ∃ n ∈ ns, n.id = e ∧ v.id ∈ n.vertices)
    (h6 : ∀ n ∈ ns, ∀ u ∈ n.vertices, ∃ v ∈ vs, v.id = u ∧ n.id ∈ v.nets) :
    WF (Hypergraph.create gs gn vs ns nz) where
  vids := h1
  nids := h2
  vmap := fun u i => buildMap_spec h1 u i
  nmap := fun u i => buildMap_spec h2 u i
  vnets := h3
  npins := h4
  inc_net := h5
  inc_vtx := h6

theorem exampleH_wf : WF exampleH :=
  WF_create (by decide) (by decide) (by decide) (by decide) (by decide) (by decide)

end PMondriaan

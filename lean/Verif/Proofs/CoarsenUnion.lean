import Verif.Proofs.CoarsenMatch
import Verif.Spec.CoarsenPar

/-
Proofs about the parallel coarsening, over all processors: what every processor holds before free
nets and vertices are removed.
-/

namespace PMondriaan

open Spec

variable {F : Type}

theorem toldWeight_flatMap (l : List Nat) (f : Nat → List (Nat × InfoMsg)) (t j : Nat) :
    toldWeight (l.flatMap f) t j = (l.map (fun s => toldWeight (f s) t j)).sum := by
  unfold toldWeight
  induction l with
  | nil => rfl
  | cons a l ih =>
    rw [List.flatMap_cons, List.filter_append, List.map_append, List.sum_append, ih, List.map_cons,
      List.sum_cons]

theorem accWeight_flatMap (vtx : Nat → Vertex) (l : List Nat) (f : Nat → List (Nat × Nat)) (g : Nat) :
    accWeight vtx (l.flatMap f) g = (l.map (fun s => accWeight vtx (f s) g)).sum := by
  induction l with
  | nil => rfl
  | cons a l ih =>
    rw [List.flatMap_cons, accWeight_append, ih, List.map_cons, List.sum_cons]

/-- The vertex with id `u`. -/
def vtxOf (V : List Vertex) (u : Nat) : Vertex :=
  (V.find? (fun v => v.id == u)).getD { id := u, nets := [], weight := 0, part := -1 }

theorem vtxOf_eq {V : List Vertex} (hnd : (V.map (·.id)).Nodup) {v : Vertex} (hv : v ∈ V) :
    vtxOf V v.id = v := by
  unfold vtxOf
  cases hf : V.find? (fun x => x.id == v.id) with
  | none => exact absurd (List.find?_eq_none.1 hf v hv) (by simp)
  | some x =>
    have h1 := List.find?_some hf
    simp only [beq_iff_eq] at h1
    exact List.inj_on_of_nodup_map hnd (List.mem_of_find?_eq_some hf) hv h1

/-- The processors hold different vertices. -/
theorem owner_unique {p : Nat} {h : Nat → Hypergraph}
    (hdis : ((((List.range p).map h).flatMap (·.vertices)).map (·.id)).Nodup) {s t : Nat}
    (hs : s < p) (ht : t < p) {v w : Vertex} (hv : v ∈ (h s).vertices) (hw : w ∈ (h t).vertices)
    (hid : v.id = w.id) : s = t ∧ v = w := by
  have e5 : (((List.range p).map h).flatMap (·.vertices)).map (·.id) =
      (List.range p).flatMap (fun s => (h s).vertices.map (·.id)) := by
    rw [List.map_flatMap, List.flatMap_map]
  have hst : s = t := by
    rw [e5, List.nodup_flatMap] at hdis
    have hp := List.pairwise_iff_getElem.1 hdis.2
    rcases Nat.lt_trichotomy s t with hlt | heq | hlt
    · have := hp s t (by simpa using hs) (by simpa using ht) hlt
      simp only [List.getElem_range, Function.onFun] at this
      exact (this (List.mem_map.2 ⟨v, hv, rfl⟩) (List.mem_map.2 ⟨w, hw, hid.symm⟩)).elim
    · exact heq
    · have := hp t s (by simpa using ht) (by simpa using hs) hlt
      simp only [List.getElem_range, Function.onFun] at this
      exact (this (List.mem_map.2 ⟨w, hw, hid.symm⟩) (List.mem_map.2 ⟨v, hv, rfl⟩)).elim
  subst hst
  refine ⟨rfl, ?_⟩
  refine List.inj_on_of_nodup_map hdis ?_ ?_ hid
  · exact List.mem_flatMap.2 ⟨h s, List.mem_map.2 ⟨s, List.mem_range.2 hs, rfl⟩, hv⟩
  · exact List.mem_flatMap.2 ⟨h s, List.mem_map.2 ⟨s, List.mem_range.2 hs, rfl⟩, hw⟩

/-- What processor `t` holds after the contraction: `HC`, made from its own vertices that were not
matched, with what the other processors reported. -/
structure Held (p : Nat) (h : Nat → Hypergraph) (σ : Nat → List Nat)
    (m : Nat → List (List (Nat × Nat))) (c : Nat → Int) (size t : Nat) (HC : Hypergraph) : Prop where
  wf : WF HC
  made : List.Forall₂ (fun v x => x.id = v.id ∧ x.part = -1 ∧ x.nets.Nodup ∧
      x.weight = v.weight + ((matchesIn ((List.range p).map (fun t => contractionOf (h t) (σ t) (m t))) v.id).map
        (fun y => (vtxOf (((List.range p).map h).flatMap (·.vertices)) y.1).weight)).sum ∧
      ∀ e, e ∈ x.nets ↔ e ∈ v.nets ∨
        ∃ y ∈ matchesIn ((List.range p).map (fun t => contractionOf (h t) (σ t) (m t))) v.id,
          e ∈ (vtxOf (((List.range p).map h).flatMap (·.vertices)) y.1).nets)
    ((h t).vertices.filter (fun v =>
      v.id ∉ goneIds ((List.range p).map (fun t => contractionOf (h t) (σ t) (m t))))) HC.vertices
  costs : ∀ n ∈ HC.nets, n.cost = c n.id
  nets : ∀ n ∈ HC.nets, ∃ s, s < p ∧ IsNet (h s) n.id
  size : HC.globalSize = size
  gnn : HC.globalNumberNets = (h t).globalNumberNets
  dups : HC.dups = []

theorem sampleIds_mem {H : Hypergraph} {l : List Nat} {u : Nat} (h : u ∈ sampleIds H l) :
    ∃ x v, x ∈ l ∧ H.vertices[x]? = some v ∧ v.id = u := by
  unfold sampleIds at h
  obtain ⟨x, hx, hu⟩ := List.mem_filterMap.1 h
  obtain ⟨v, hv, rfl⟩ := Option.map_eq_some_iff.1 hu
  exact ⟨x, v, hx, hv, rfl⟩

theorem sampleIds_nodup {H : Hypergraph} (w : WF H) {l : List Nat}
    (h : ∀ x ∈ l, x < H.vertices.length) (hnd : l.Nodup) : (sampleIds H l).Nodup := by
  have : ((sampleIds H l).map some).Nodup := by
    rw [sampleIds_map h]
    refine List.Nodup.map_on ?_ hnd
    intro x hx y hy hxy
    rw [List.getElem?_eq_getElem (h x hx), List.getElem?_eq_getElem (h y hy)] at hxy
    simp only [Option.map_some, Option.some.injEq] at hxy
    have h3 : (H.vertices.map (·.id))[x]'(by simpa using h x hx) =
        (H.vertices.map (·.id))[y]'(by simpa using h y hy) := by simpa using hxy
    exact (w.vids.getElem_inj_iff).1 h3
  exact List.Nodup.of_map _ this

/-- Looking up a list by key. -/
theorem lookup_flatMap {α : Type} {ks : List Nat} (hnd : ks.Nodup) {ls : List (List α)} {j k : Nat}
    {l : List α} (hk : ks[j]? = some k) (hl : ls[j]? = some l) :
    (ks.zip ls).flatMap (fun x => if x.1 = k then x.2 else []) = l := by
  induction ks generalizing ls j with
  | nil => simp at hk
  | cons a ks ih =>
    cases ls with
    | nil => simp at hl
    | cons b ls =>
      rw [List.nodup_cons] at hnd
      rw [List.zip_cons_cons, List.flatMap_cons]
      cases j with
      | zero =>
        simp only [List.getElem?_cons_zero, Option.some.injEq] at hk hl
        subst hk hl
        rw [if_pos rfl]
        have : (ks.zip ls).flatMap (fun x => if x.1 = a then x.2 else []) = [] := by
          rw [List.flatMap_eq_nil_iff]
          rintro ⟨x1, x2⟩ hx
          rw [if_neg]
          rintro rfl
          exact hnd.1 (List.of_mem_zip hx).1
        rw [this, List.append_nil]
      | succ j =>
        simp only [List.getElem?_cons_succ] at hk hl
        have hne : a ≠ k := fun h => hnd.1 (h ▸ List.mem_of_getElem? hk)
        rw [if_neg hne, List.nil_append]
        exact ih hnd.2 hk hl

theorem lookup_none {α : Type} {ks : List Nat} {ls : List (List α)} {k : Nat} (hk : k ∉ ks) :
    (ks.zip ls).flatMap (fun x => if x.1 = k then x.2 else []) = [] := by
  rw [List.flatMap_eq_nil_iff]
  rintro ⟨x1, x2⟩ hx
  rw [if_neg]
  rintro rfl
  exact hk (List.of_mem_zip hx).1

section

variable {ss maxC p : Nat} {h : Nat → Hypergraph} {σ : Nat → List Nat}
  {m : Nat → List (List (Nat × Nat))} {acc : Nat → List (Nat × Nat)}

theorem matchesIn_sample (hw : ∀ t, t < p → WF (h t))
    (hdis : ((((List.range p).map h).flatMap (·.vertices)).map (·.id)).Nodup)
    (hσ : SamplesOk ss p h σ) {t j u : Nat} (ht : t < p)
    {l : List (Nat × Nat)} (hu : (sampleIds (h t) (σ t))[j]? = some u) (hl : (m t)[j]? = some l) :
    matchesIn ((List.range p).map (fun t => contractionOf (h t) (σ t) (m t))) u = l := by
  unfold matchesIn
  rw [List.flatMap_map]
  have e : (List.range p).flatMap (fun s => ((contractionOf (h s) (σ s) (m s)).samples.zip
      (contractionOf (h s) (σ s) (m s)).matched).flatMap (fun x => if x.1 = u then x.2 else [])) =
      (List.range p).flatMap (fun s => if s = t then l else []) := by
    rw [List.flatMap_def, List.flatMap_def]
    congr 1
    apply List.map_congr_left
    intro s hs
    have hs := List.mem_range.1 hs
    by_cases hst : s = t
    · subst hst
      rw [if_pos rfl]
      exact lookup_flatMap (sampleIds_nodup (hw s hs) (hσ s hs).2.1 (hσ s hs).1) hu hl
    · rw [if_neg hst]
      apply lookup_none
      intro hmem
      obtain ⟨x, v, -, hv, hvu⟩ := sampleIds_mem hmem
      obtain ⟨y, w', -, hw', hwu⟩ := sampleIds_mem (List.mem_of_getElem? hu)
      exact hst (owner_unique hdis hs ht (List.mem_of_getElem? hv) (List.mem_of_getElem? hw')
        (hvu.trans hwu.symm)).1
  rw [e, flatMap_single ht]

theorem matchesIn_none {u : Nat} (hu : ∀ t, t < p → u ∉ sampleIds (h t) (σ t)) :
    matchesIn ((List.range p).map (fun t => contractionOf (h t) (σ t) (m t))) u = [] := by
  unfold matchesIn
  rw [List.flatMap_map, List.flatMap_eq_nil_iff]
  intro s hs
  exact lookup_none (hu s (List.mem_range.1 hs))

theorem mem_gone {u : Nat} :
    u ∈ goneIds ((List.range p).map (fun t => contractionOf (h t) (σ t) (m t))) ↔
      ∃ t, t < p ∧ ∃ l ∈ m t, ∃ y ∈ l, y.1 = u := by
  unfold goneIds
  simp only [List.flatMap_map, List.mem_flatMap, List.mem_range, contractionOf, List.mem_map,
    List.mem_flatten]
  constructor
  · rintro ⟨t, ht, y, ⟨l, hl, hy⟩, rfl⟩; exact ⟨t, ht, l, hl, y, hy, rfl⟩
  · rintro ⟨t, ht, l, hl, y, hy, rfl⟩; exact ⟨t, ht, y, ⟨l, hl, hy⟩, rfl⟩

/-- A vertex is told that it is matched exactly when it is. -/
theorem told_gone (hdis : ((((List.range p).map h).flatMap (·.vertices)).map (·.id)).Nodup)
    (hM : Matching ss maxC p h σ m acc) {t : Nat} (ht : t < p) {v : Vertex}
    (hv : v ∈ (h t).vertices) :
    v.id ∈ (acc t).map (·.2) ↔
      v.id ∈ goneIds ((List.range p).map (fun t => contractionOf (h t) (σ t) (m t))) := by
  rw [mem_gone]
  constructor
  · intro hin
    obtain ⟨y, hy, hid⟩ := List.mem_map.1 hin
    obtain ⟨t', j, l, ht', hl, hyl, -⟩ := (hM.accMem t ht y).1 hy
    exact ⟨t', ht', l, List.mem_of_getElem? hl, _, hyl, hid⟩
  · rintro ⟨t', ht', l, hl, y, hy, hid⟩
    obtain ⟨hp, i, w, hw, hwid, -⟩ := hM.vtx t' ht' l hl y hy
    have hst := (owner_unique hdis hp ht (List.mem_of_getElem? hw) hv (hwid.trans hid)).1
    obtain ⟨j, hj⟩ := List.mem_iff_getElem?.1 hl
    refine List.mem_map.2 ⟨(t' * ss + j, v.id), ?_, rfl⟩
    refine (hM.accMem t ht _).2 ⟨t', j, l, ht', hj, ?_, rfl⟩
    rw [← hst, ← hid]
    exact hy

/-- A sample is never matched. -/
theorem sample_kept (hw : ∀ t, t < p → WF (h t)) (hdis : ((((List.range p).map h).flatMap (·.vertices)).map (·.id)).Nodup)
    (hM : Matching ss maxC p h σ m acc) {t : Nat} (ht : t < p) {x : Nat} (hx : x ∈ σ t) {v : Vertex}
    (hv : (h t).vertices[x]? = some v) :
    v.id ∉ goneIds ((List.range p).map (fun t => contractionOf (h t) (σ t) (m t))) := by
  rw [mem_gone]
  rintro ⟨t', ht', l, hl, y, hy, hid⟩
  obtain ⟨hp, i, w, hwv, hwid, hi⟩ := hM.vtx t' ht' l hl y hy
  obtain ⟨hst, hvw⟩ := owner_unique hdis hp ht (List.mem_of_getElem? hwv) (List.mem_of_getElem? hv)
    (hwid.trans hid)
  rw [hst] at hwv hi
  rw [hvw] at hwv
  have h1 : (h t).vmap v.id = some i := ((hw t ht).vmap_iff _ _).2 ⟨v, hwv, rfl⟩
  have h2 : (h t).vmap v.id = some x := ((hw t ht).vmap_iff _ _).2 ⟨v, hv, rfl⟩
  rw [h1] at h2
  cases h2
  exact hi hx

end

end PMondriaan

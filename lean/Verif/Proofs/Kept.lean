import Verif.Spec.RecBisectPar
import Verif.Proofs.RedistMain
import Verif.Proofs.RecBisect
import Verif.Proofs.Contract
import Verif.Props.Reduce

/-
The same hypergraph, distributed in another way: composition of changes.
-/

namespace PMondriaan

open Spec

variable {N : Nat}

theorem distributed_append {A B : List Hypergraph} (h : Distributed N (A ++ B)) :
    Distributed N A ∧ Distributed N B := by
  have hd := h.disjoint
  rw [List.flatMap_append, List.map_append, List.nodup_append] at hd
  exact ⟨⟨fun H hH => h.wf H (List.mem_append_left _ hH), hd.1, fun H hH => h.ids H (List.mem_append_left _ hH),
      fun H hH H' hH' => h.costs H (List.mem_append_left _ hH) H' (List.mem_append_left _ hH')⟩,
    ⟨fun H hH => h.wf H (List.mem_append_right _ hH), hd.2.1, fun H hH => h.ids H (List.mem_append_right _ hH),
      fun H hH H' hH' => h.costs H (List.mem_append_right _ hH) H' (List.mem_append_right _ hH')⟩⟩

theorem unionCost_absent {Hs : List Hypergraph} {e : Nat} (h : ¬ ∃ H ∈ Hs, IsNet H e) : unionCost Hs e = 0 := by
  unfold unionCost
  rw [List.find?_eq_none.2]
  intro n hn hne
  obtain ⟨H, hH, hn⟩ := List.mem_flatMap.1 hn
  exact h ⟨H, hH, List.mem_map.2 ⟨n, hn, by simpa using hne⟩⟩

theorem unionCost_of_net {Hs : List Hypergraph} (hD : Distributed N Hs) {H : Hypergraph} (hH : H ∈ Hs) {e : Nat}
    (he : IsNet H e) : ∃ n ∈ H.nets, n.id = e ∧ n.cost = unionCost Hs e := by
  obtain ⟨n, h1, rfl⟩ := List.mem_map.1 he
  exact ⟨n, h1, rfl, (unionCost_eq hD hH h1).symm⟩

/-- Equal costs, given the costs of all nets of the new distribution. -/
theorem costs_of_nets {Hs Hs' : List Hypergraph} (D : Distributed N Hs) (D' : Distributed N Hs')
    (hn : ∀ H ∈ Hs', ∀ n ∈ H.nets, ∃ H0 ∈ Hs, ∃ n0 ∈ H0.nets, n0.id = n.id ∧ n0.cost = n.cost)
    (hn' : ∀ e, (∃ H ∈ Hs', IsNet H e) ↔ ∃ H ∈ Hs, IsNet H e) (e : Nat) : unionCost Hs' e = unionCost Hs e := by
  by_cases he : ∃ H ∈ Hs', IsNet H e
  · obtain ⟨H', hH', he'⟩ := he
    obtain ⟨n', h1, h2, h3⟩ := unionCost_of_net D' hH' he'
    obtain ⟨H0, h0, n0, h4, h5, h6⟩ := hn H' hH' n' h1
    rw [← h3, ← h6, ← h2, ← h5, unionCost_eq D h0 h4]
  · rw [unionCost_absent he, unionCost_absent (fun h => he ((hn' e).2 h))]

theorem Spec.Kept.net {Hs Hs' : List Hypergraph} (hD : Distributed N Hs) (h : Kept N Hs Hs') {H : Hypergraph}
    (hH : H ∈ Hs') {n : Net} (hn : n ∈ H.nets) : ∃ H0 ∈ Hs, ∃ n0 ∈ H0.nets, n0.id = n.id ∧ n0.cost = n.cost := by
  obtain ⟨H0, h0, h1⟩ := (h.nets n.id).1 ⟨H, hH, List.mem_map.2 ⟨n, hn, rfl⟩⟩
  obtain ⟨n0, h2, h3, h4⟩ := unionCost_of_net hD h0 h1
  exact ⟨H0, h0, n0, h2, h3, by rw [h4, ← h.costs, unionCost_eq h.dist hH hn]⟩

theorem Spec.Kept.trans {A B C : List Hypergraph} (h1 : Kept N A B) (h2 : Kept N B C) : Kept N A C :=
  ⟨h2.length.trans h1.length, h2.dist, h2.verts.trans h1.verts, fun e => (h2.pins e).trans (h1.pins e),
    fun e => (h2.costs e).trans (h1.costs e), fun e => (h2.nets e).trans (h1.nets e),
    h2.sizes.trans h1.sizes⟩

theorem Spec.Kept.append {A A' B B' : List Hypergraph} (hD : Distributed N (A ++ B)) (h1 : Kept N A A')
    (h2 : Kept N B B') : Kept N (A ++ B) (A' ++ B') := by
  obtain ⟨dA, dB⟩ := distributed_append hD
  have hv : (((A' ++ B').flatMap (·.vertices)).map (fun v => (v.id, v.weight))).Perm
      (((A ++ B).flatMap (·.vertices)).map (fun v => (v.id, v.weight))) := by
    rw [List.flatMap_append, List.flatMap_append, List.map_append, List.map_append]
    exact h1.verts.append h2.verts
  have hn : ∀ H ∈ A' ++ B', ∀ n ∈ H.nets, ∃ H0 ∈ A ++ B, ∃ n0 ∈ H0.nets, n0.id = n.id ∧ n0.cost = n.cost := by
    intro H hH n hn
    rcases List.mem_append.1 hH with hH | hH
    · obtain ⟨H0, h0, h3⟩ := h1.net dA hH hn
      exact ⟨H0, List.mem_append_left _ h0, h3⟩
    · obtain ⟨H0, h0, h3⟩ := h2.net dB hH hn
      exact ⟨H0, List.mem_append_right _ h0, h3⟩
  have hn' : ∀ e, (∃ H ∈ A' ++ B', IsNet H e) ↔ ∃ H ∈ A ++ B, IsNet H e := by
    intro e
    simp only [List.mem_append, or_and_right, exists_or]
    rw [h1.nets e, h2.nets e]
  have hD' : Distributed N (A' ++ B') := by
    refine ⟨?_, ?_, ?_, ?_⟩
    · intro H hH
      rcases List.mem_append.1 hH with hH | hH
      · exact h1.dist.wf H hH
      · exact h2.dist.wf H hH
    · have := hv.map Prod.fst
      rw [List.map_map, List.map_map] at this
      exact this.nodup_iff.2 hD.disjoint
    · intro H hH n hn1
      obtain ⟨H0, h0, n0, h3, h4, -⟩ := hn H hH n hn1
      rw [← h4]; exact hD.ids H0 h0 n0 h3
    · intro H hH H' hH' n hn1 n' hn1' he
      obtain ⟨H0, h0, n0, h3, h4, h5⟩ := hn H hH n hn1
      obtain ⟨H0', h0', n0', h3', h4', h5'⟩ := hn H' hH' n' hn1'
      rw [← h5, ← h5']
      exact hD.costs H0 h0 H0' h0' n0 h3 n0' h3' (by rw [h4, h4', he])
  refine ⟨?_, hD', hv, ?_, costs_of_nets hD hD' hn hn', hn',
    by rw [List.map_append, List.map_append, h1.sizes, h2.sizes]⟩
  · rw [List.length_append, List.length_append, h1.length, h2.length]
  · intro e
    unfold unionPins
    rw [List.flatMap_append, List.flatMap_append]
    exact (h1.pins e).append (h2.pins e)

/-- Changes on each processor separately. -/
theorem kept_local {Hs Hs' : List Hypergraph} (hD : Distributed N Hs)
    (h : List.Forall₂ (fun H H' => WF H' ∧ H'.nets = H.nets ∧
      (H'.vertices.map (fun v => (v.id, v.weight))).Perm (H.vertices.map (fun v => (v.id, v.weight))) ∧ sizes H' = sizes H) Hs Hs') :
    Kept N Hs Hs' := by
  have hv : ((Hs'.flatMap (·.vertices)).map (fun v => (v.id, v.weight))).Perm
      ((Hs.flatMap (·.vertices)).map (fun v => (v.id, v.weight))) := by
    clear hD
    induction h with
    | nil => exact .refl _
    | cons hx _ ih =>
      rw [List.flatMap_cons, List.flatMap_cons, List.map_append, List.map_append]
      exact hx.2.2.1.append ih
  have hn : ∀ H ∈ Hs', ∀ n ∈ H.nets, ∃ H0 ∈ Hs, ∃ n0 ∈ H0.nets, n0.id = n.id ∧ n0.cost = n.cost := by
    intro H hH n hn
    obtain ⟨H0, h0, -, h2, -⟩ := forall2_mem_right h hH
    exact ⟨H0, h0, n, h2 ▸ hn, rfl, rfl⟩
  have hn' : ∀ e, (∃ H ∈ Hs', IsNet H e) ↔ ∃ H ∈ Hs, IsNet H e := by
    intro e
    constructor
    · rintro ⟨H, hH, he⟩
      obtain ⟨H0, h0, -, h2, -⟩ := forall2_mem_right h hH
      exact ⟨H0, h0, by unfold IsNet at he ⊢; rwa [h2] at he⟩
    · rintro ⟨H, hH, he⟩
      obtain ⟨H0, h0, -, h2, -⟩ := forall2_mem_left h hH
      exact ⟨H0, h0, by unfold IsNet at he ⊢; rwa [h2]⟩
  have hD' : Distributed N Hs' := by
    refine ⟨?_, ?_, ?_, ?_⟩
    · intro H hH
      obtain ⟨H0, -, h1, -⟩ := forall2_mem_right h hH
      exact h1
    · have := hv.map Prod.fst
      rw [List.map_map, List.map_map] at this
      exact this.nodup_iff.2 hD.disjoint
    · intro H hH n hn1
      obtain ⟨H0, h0, n0, h3, h4, -⟩ := hn H hH n hn1
      rw [← h4]; exact hD.ids H0 h0 n0 h3
    · intro H hH H' hH' n hn1 n' hn1' he
      obtain ⟨H0, h0, n0, h3, h4, h5⟩ := hn H hH n hn1
      obtain ⟨H0', h0', n0', h3', h4', h5'⟩ := hn H' hH' n' hn1'
      rw [← h5, ← h5']
      exact hD.costs H0 h0 H0' h0' n0 h3 n0' h3' (by rw [h4, h4', he])
  refine ⟨h.length_eq.symm, hD', hv, ?_, costs_of_nets hD hD' hn hn', hn', ?_⟩
  swap
  · exact forall2_map_eq h fun _ _ hx => hx.2.2.2
  intro e
  have : unionPins Hs' e = unionPins Hs e := by
    unfold unionPins
    clear hv hn hn' hD' hD
    induction h with
    | nil => rfl
    | cons hx _ ih => rw [List.flatMap_cons, List.flatMap_cons, ih, hx.2.1]
  rw [this]

theorem Spec.Redistributed.kept {Hs Hs' : List Hypergraph} (h : Redistributed N Hs Hs') : Kept N Hs Hs' :=
  ⟨h.length, h.dist, h.vertices.map _, h.pins, h.costs, h.nets, h.sizes⟩

end PMondriaan

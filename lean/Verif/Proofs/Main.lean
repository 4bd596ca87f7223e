import Verif.Model.Main
import Verif.Spec.Main
import Verif.Props.Reader
import Verif.Props.Checks
import Verif.Proofs.Kept

/-
The matrix held by the processors, from reading to the end.
-/

namespace PMondriaan

open Spec

variable {E V : Nat} {es : List (Nat × Nat)} {wt : List Nat → Int}

theorem rowOf_empty {e : Nat} (h : ¬ ∃ x ∈ es, x.1 = e + 1) : rowOf es e = [] := by
  unfold rowOf
  rw [List.filter_eq_nil_iff.2]
  · rfl
  · intro x hx
    simp only [decide_eq_true_eq]
    exact fun hxe => h ⟨x, hx, hxe⟩

/-- Distributed reading: the processors hold the matrix. -/
theorem holdMatrix_read {owner : Nat → Nat} {p : Nat} {H : Hypergraph} {Rs : List Hypergraph}
    (hM : IsMatrix E V es wt H) (hP : PartitionOf E owner p H Rs) : HoldMatrix E V es wt Rs := by
  obtain ⟨h1, h2, h3, h4, h5⟩ := hP
  have hwt : ∀ R ∈ Rs, ∀ v ∈ R.vertices, v.weight = wt (columnOf es v.id) := by
    intro R hR v hv
    obtain ⟨r, -, hL⟩ := forall2_mem_right h3 hR
    obtain ⟨u, hu, e1, e2, -⟩ := hL.vertices v hv
    rw [← e2, (hM.columns u hu).2.1, e1]
  refine ⟨h2, ?_, ?_, ?_, ?_, ?_⟩
  · have e1 : (Rs.flatMap (·.vertices)).map (fun v => (v.id, v.weight)) =
        ((Rs.flatMap (·.vertices)).map (·.id)).map (fun u => (u, wt (columnOf es u))) := by
      rw [List.map_map]
      apply List.map_congr_left
      intro v hv
      obtain ⟨R, hR, hv⟩ := List.mem_flatMap.1 hv
      simp only [Function.comp_apply, hwt R hR v hv]
    rw [e1]
    rw [hM.vids] at h4
    exact h4.map _
  · intro e he
    by_cases hx : ∃ x ∈ es, x.1 = e + 1
    · have hm : e ∈ H.nets.map (·.id) := by
        rw [hM.netIds, List.mem_filter, List.mem_range]
        exact ⟨he, by simpa using hx⟩
      obtain ⟨m, hm1, rfl⟩ := List.mem_map.1 hm
      rw [← (hM.rows m hm1).1]
      exact h5 m hm1
    · rw [rowOf_empty hx]
      have : unionPins Rs e = [] := by
        rw [List.eq_nil_iff_forall_not_mem]
        intro u hu
        obtain ⟨R, hR, n, hn, rfl, -⟩ := mem_unionPins.1 hu
        obtain ⟨r, -, hL⟩ := forall2_mem_right h3 hR
        obtain ⟨m, hm, hid, -⟩ := (hL.netIds n.id).1 (List.mem_map_of_mem hn)
        have hmem : m.id ∈ H.nets.map (·.id) := List.mem_map_of_mem hm
        rw [hM.netIds, List.mem_filter, hid] at hmem
        exact hx (by simpa using hmem.2)
      rw [this]
  · intro R hR n hn
    obtain ⟨r, -, hL⟩ := forall2_mem_right h3 hR
    obtain ⟨m, hm, hid, -⟩ := (hL.netIds n.id).1 (List.mem_map_of_mem hn)
    rw [(hL.nets n hn m hm hid).2.1, (hM.rows m hm).2.1]
  · intro R hR
    obtain ⟨r, -, hL⟩ := forall2_mem_right h3 hR
    rw [hL.globalSize, hM.globalSize]
  · intro R hR
    obtain ⟨r, -, hL⟩ := forall2_mem_right h3 hR
    rw [hL.globalNumberNets, hM.globalNumberNets]

/-- Distributed reading: no processor holds a row without entries. -/
theorem read_nonempty {owner : Nat → Nat} {p : Nat} {H : Hypergraph} {Rs : List Hypergraph}
    (hP : PartitionOf E owner p H Rs) : ∀ R ∈ Rs, ∀ n ∈ R.nets, n.vertices ≠ [] := by
  obtain ⟨-, -, h3, -, -⟩ := hP
  intro R hR n hn h
  obtain ⟨r, -, hL⟩ := forall2_mem_right h3 hR
  obtain ⟨m, hm, hid, u, hu, ho⟩ := (hL.netIds n.id).1 (List.mem_map_of_mem hn)
  rw [(hL.nets n hn m hm hid).1] at h
  have : u ∈ m.vertices.filter (fun u => owner u = r) := List.mem_filter.2 ⟨hu, by simpa using ho⟩
  rw [h] at this
  cases this

theorem holdMatrix_pos {Hs : List Hypergraph} (h : HoldMatrix E V es wt Hs)
    (hw : ∀ v < V, 0 < wt (columnOf es v)) : ∀ H ∈ Hs, ∀ v ∈ H.vertices, 0 < v.weight := by
  intro H hH v hv
  have h1 : (v.id, v.weight) ∈ (Hs.flatMap (·.vertices)).map (fun v => (v.id, v.weight)) :=
    List.mem_map.2 ⟨v, List.mem_flatMap.2 ⟨H, hH, hv⟩, rfl⟩
  rw [h.verts.mem_iff] at h1
  obtain ⟨u, hu, he⟩ := List.mem_map.1 h1
  simp only [Prod.mk.injEq] at he
  rw [← he.2]
  exact hw u (List.mem_range.1 hu)

theorem holdMatrix_weight {Hs : List Hypergraph} (h : HoldMatrix E V es wt Hs) :
    ((Hs.flatMap (·.vertices)).map (·.weight)).sum = matrixWeight V es wt := by
  have := (h.verts.map Prod.snd).sum_eq
  rw [List.map_map, List.map_map] at this
  exact this

theorem holdMatrix_length {Hs : List Hypergraph} (h : HoldMatrix E V es wt Hs) :
    (Hs.flatMap (·.vertices)).length = V := by
  have := h.verts.length_eq
  simpa using this

/-- The copies of all hypergraphs. -/
theorem copies_ok {Hs : List Hypergraph} (h : HoldMatrix E V es wt Hs) :
    ∃ Cs, Hs.mapM (fun H => H.copy) = .ok Cs ∧ Cs.length = Hs.length ∧ HoldMatrix E V es wt Cs := by
  obtain ⟨Cs, h1, h2⟩ := mapM_forall2 (f := fun H : Hypergraph => H.copy)
    (R := fun H C => WF C ∧ C.vertices = H.vertices ∧ C.globalSize = H.globalSize ∧
      C.globalNumberNets = H.globalNumberNets ∧
      List.Forall₂ (fun n n' => n'.id = n.id ∧ n'.cost = 1 ∧ n'.globalSize = n.globalSize ∧
        n'.vertices.Perm n.vertices) H.nets C.nets) Hs (by
    intro H hH
    obtain ⟨C, c1, c2, c3, c4, c5, -, -, c6⟩ := copy_ok (h.dist.wf H hH)
    exact ⟨C, c1, c2, c3, c4, c5, c6⟩)
  have hlen := h2.length_eq
  have hv : Cs.flatMap (·.vertices) = Hs.flatMap (·.vertices) := by
    clear h1 h hlen
    induction h2 with
    | nil => rfl
    | cons hx _ ih => rw [List.flatMap_cons, List.flatMap_cons, ih, hx.2.1]
  have hpins : ∀ e, (unionPins Cs e).Perm (unionPins Hs e) := by
    intro e
    clear h1 h hlen hv
    unfold unionPins
    induction h2 with
    | nil => exact .refl _
    | @cons H C Hs Cs hx _ ih =>
      rw [List.flatMap_cons, List.flatMap_cons]
      refine List.Perm.append ?_ ih
      have hn := hx.2.2.2.2
      generalize H.nets = l at hn
      generalize C.nets = l' at hn
      induction hn with
      | nil => exact .refl _
      | @cons n n' l l' hn _ ih =>
        rw [List.filter_cons, List.filter_cons, hn.1]
        by_cases hne : n.id = e
        · rw [if_pos (by simpa using hne), if_pos (by simpa using hne), List.flatMap_cons, List.flatMap_cons]
          exact hn.2.2.2.append ih
        · rw [if_neg (by simpa using hne), if_neg (by simpa using hne)]
          exact ih
  have hcost : ∀ C ∈ Cs, ∀ n ∈ C.nets, n.cost = 1 := by
    intro C hC n hn
    obtain ⟨H, -, hx⟩ := forall2_mem_right h2 hC
    obtain ⟨n', -, h3⟩ := forall2_mem_right hx.2.2.2.2 hn
    exact h3.2.1
  refine ⟨Cs, h1, hlen.symm, ⟨?_, ?_, ?_, ?_⟩, ?_, ?_, hcost, ?_, ?_⟩
  · intro C hC
    obtain ⟨H, -, hx⟩ := forall2_mem_right h2 hC
    exact hx.1
  · rw [hv]; exact h.dist.disjoint
  · intro C hC n hn
    obtain ⟨H, hH, hx⟩ := forall2_mem_right h2 hC
    obtain ⟨n', hn', h3⟩ := forall2_mem_right hx.2.2.2.2 hn
    rw [h3.1]; exact h.dist.ids H hH n' hn'
  · intro C hC C' hC' n hn n' hn' _
    rw [hcost C hC n hn, hcost C' hC' n' hn']
  · rw [hv]; exact h.verts
  · intro e he
    exact (hpins e).trans (h.pins e he)
  · intro C hC
    obtain ⟨H, hH, hx⟩ := forall2_mem_right h2 hC
    rw [hx.2.2.1]; exact h.size H hH
  · intro C hC
    obtain ⟨H, hH, hx⟩ := forall2_mem_right h2 hC
    rw [hx.2.2.2.1]; exact h.number H hH

/-- Any redistribution keeps the matrix. -/
theorem Spec.Kept.holdMatrix {Hs Hs' : List Hypergraph} (h : HoldMatrix E V es wt Hs) (hk : Kept E Hs Hs') :
    HoldMatrix E V es wt Hs' := by
  have hsz : ∀ H ∈ Hs', H.globalSize = V ∧ H.globalNumberNets = E := by
    intro H hH
    have h1 : Spec.sizes H ∈ Hs'.map Spec.sizes := List.mem_map_of_mem hH
    rw [hk.sizes] at h1
    obtain ⟨K, hK, he⟩ := List.mem_map.1 h1
    unfold Spec.sizes at he
    simp only [Prod.mk.injEq] at he
    rw [← he.1, ← he.2.1]
    exact ⟨h.size K hK, h.number K hK⟩
  refine ⟨hk.dist, hk.verts.trans h.verts, fun e he => (hk.pins e).trans (h.pins e he), ?_, fun H hH => (hsz H hH).1,
    fun H hH => (hsz H hH).2⟩
  intro H hH n hn
  obtain ⟨H0, h0, n0, h1, -, h3⟩ := hk.net h.dist hH hn
  rw [← h3]; exact h.costs H0 h0 n0 h1

/-- The labels of the columns. -/
def labelsOf (E : Nat) (Hs : List Hypergraph) (u : Nat) : Int := partOf (unionH E Hs) u

theorem labelsOf_eq {Hs : List Hypergraph} (h : Distributed E Hs) {v : Vertex} (hv : v ∈ Hs.flatMap (·.vertices)) :
    labelsOf E Hs v.id = v.part := (unionH_wf h).partOf_eq (H := unionH E Hs) hv

theorem holdLabels {Hs : List Hypergraph} (h : HoldMatrix E V es wt Hs) : HoldLabels V (labelsOf E Hs) Hs := by
  unfold HoldLabels
  have e1 : (Hs.flatMap (·.vertices)).map (fun v => (v.id, v.part)) =
      ((Hs.flatMap (·.vertices)).map (·.id)).map (fun u => (u, labelsOf E Hs u)) := by
    rw [List.map_map]
    apply List.map_congr_left
    intro v hv
    simp only [Function.comp_apply, labelsOf_eq h.dist hv]
  rw [e1]
  apply List.Perm.map
  have := h.verts.map Prod.fst
  rw [List.map_map, List.map_map] at this
  exact this.trans (by rw [show (Prod.fst ∘ fun v => (v, wt (columnOf es v))) = id from rfl, List.map_id])

theorem HoldLabels.mem {Hs : List Hypergraph} {lab : Nat → Int} (h : HoldLabels V lab Hs) {u : Nat} (hu : u < V) :
    ∃ H ∈ Hs, ∃ v ∈ H.vertices, v.id = u ∧ v.part = lab u := by
  have h1 : (u, lab u) ∈ (List.range V).map (fun v => (v, lab v)) :=
    List.mem_map.2 ⟨u, List.mem_range.2 hu, rfl⟩
  rw [← List.Perm.mem_iff h] at h1
  obtain ⟨v, hv, he⟩ := List.mem_map.1 h1
  obtain ⟨H, hH, hv⟩ := List.mem_flatMap.1 hv
  simp only [Prod.mk.injEq] at he
  exact ⟨H, hH, v, hv, he⟩

/-- The cut of the hypergraph is the communication volume of the matrix. -/
theorem holdMatrix_cut {Hs : List Hypergraph} (h : HoldMatrix E V es wt Hs) :
    cutValue .lambdaMinusOne (unionH E Hs) = rowsCut E es (labelsOf E Hs) := by
  unfold cutValue lambdaMinusOne rowsCut
  simp only
  have e1 : (unionH E Hs).nets = (List.range E).map (unionNet Hs) := rfl
  rw [e1, List.map_map]
  congr 1
  apply List.map_congr_left
  intro e he
  have he := List.mem_range.1 he
  have hp := h.pins e he
  have e2 : connectivity (partOf (unionH E Hs)) (unionNet Hs e) =
      ((rowOf es e).map (labelsOf E Hs)).dedup.length := by
    unfold connectivity unionNet
    exact ((hp.map _).dedup).length_eq
  simp only [Function.comp_apply]
  rw [e2]
  by_cases hr : rowOf es e = []
  · rw [hr]; simp
  · obtain ⟨u, hu⟩ := List.exists_mem_of_ne_nil _ hr
    rw [← hp.mem_iff] at hu
    obtain ⟨H, hH, n, hn, rfl, -⟩ := mem_unionPins.1 hu
    have : (unionNet Hs n.id).cost = 1 := by
      unfold unionNet
      dsimp only
      rw [unionCost_eq h.dist hH hn, h.costs H hH n hn]
    rw [this, mul_one]

theorem holdMatrix_partWeight {Hs : List Hypergraph} (h : HoldMatrix E V es wt Hs) (q : Int) :
    partWeight (unionH E Hs) q = columnsWeight V es wt (labelsOf E Hs) q := by
  unfold partWeight columnsWeight
  have e1 : (unionH E Hs).vertices = Hs.flatMap (·.vertices) := rfl
  rw [e1]
  have e2 : ((Hs.flatMap (·.vertices)).filter (fun v => v.part = q)).map (·.weight) =
      (((Hs.flatMap (·.vertices)).map (fun v => (v.id, v.weight))).filter (fun x => labelsOf E Hs x.1 = q)).map
        Prod.snd := by
    rw [List.filter_map, List.map_map]
    have : (Hs.flatMap (·.vertices)).filter (fun v => v.part = q) =
        (Hs.flatMap (·.vertices)).filter ((fun x : Nat × Int => decide (labelsOf E Hs x.1 = q)) ∘
          (fun v : Vertex => (v.id, v.weight))) := by
      apply List.filter_congr
      intro v hv
      simp only [Function.comp_apply, labelsOf_eq h.dist hv]
    rw [this]
    rfl
  rw [e2, ((h.verts.filter _).map Prod.snd).sum_eq, List.filter_map, List.map_map]
  rfl

end PMondriaan

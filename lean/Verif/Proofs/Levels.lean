import Verif.Spec.Levels
import Verif.Proofs.Multilevel
import Mathlib.Data.List.Pairwise

/-
Proofs about the levels of the sequential multilevel method.
-/

namespace PMondriaan

open Spec

/-! ### Connected components -/

theorem closedIn_congr {nets nets' : List Net} {vs vs' : List Vertex}
    (hv : ∀ v ∈ vs', ∃ u ∈ vs, u.id = v.id)
    (hn : ∀ n' ∈ nets', (∃ n ∈ nets, ∀ v ∈ vs', v.id ∈ n'.vertices → v.id ∈ n.vertices) ∨
      ∀ u ∈ vs', ∀ w ∈ vs', u.id ∈ n'.vertices → w.id ∈ n'.vertices → u.id = w.id) {T : Nat → Bool}
    (h : ClosedIn nets vs T) : ClosedIn nets' vs' T := by
  intro n' hn' u hu w hw hun hwn
  rcases hn n' hn' with ⟨n, hnm, hsub⟩ | h1
  · obtain ⟨u', hu', hue⟩ := hv u hu
    obtain ⟨w', hw', hwe⟩ := hv w hw
    have := h n hnm u' hu' w' hw' (by rw [hue]; exact hsub u hu hun) (by rw [hwe]; exact hsub w hw hwn)
    rw [hue, hwe] at this
    exact this
  · rw [h1 u hu w hw hun hwn]

theorem component_congr {nets nets' : List Net} {vs vs' : List Vertex} {S : Nat → Bool}
    (hv : ∀ v ∈ vs, ∃ u ∈ vs', u.id = v.id) (hv' : ∀ v ∈ vs', ∃ u ∈ vs, u.id = v.id)
    (h1 : ClosedIn nets' vs' S) (h2 : ∀ T, ClosedIn nets' vs' T → ClosedIn nets vs T)
    (h : Component nets vs S) : Component nets' vs' S := by
  refine ⟨?_, h1, ?_⟩
  · obtain ⟨v, hvm, hvS⟩ := h.nonempty
    obtain ⟨u, hu, he⟩ := hv v hvm
    exact ⟨u, hu, by rw [he]; exact hvS⟩
  · intro T hT u hu w hw hSu hSw
    obtain ⟨u', hu', hue⟩ := hv' u hu
    obtain ⟨w', hw', hwe⟩ := hv' w hw
    have := h.linked T (h2 T hT) u' hu' w' hw' (by rw [hue]; exact hSu) (by rw [hwe]; exact hSw)
    rw [hue, hwe] at this
    exact this

section

variable {H : Hypergraph} {C : Contraction} {maxC : Nat}

/-- The vertices in the clusters whose samples satisfy `Q`. -/
def liftSet (C : Contraction) (Q : Nat → Bool) (u : Nat) : Bool :=
  decide (∃ s ∈ C.samples, Q s = true ∧ u ∈ members C s)

theorem members_unique (w : WF H) (hs : StarClustering H C maxC) {s t u : Nat} (h1 : s ∈ C.samples)
    (h2 : t ∈ C.samples) (h3 : u ∈ members C s) (h4 : u ∈ members C t) : s = t := by
  have hnd : (C.samples.flatMap (members C)).Nodup := (clusters_perm w hs).nodup_iff.2 w.vids
  rw [List.nodup_flatMap] at hnd
  by_contra hne
  have hsy : Std.Symm (Function.onFun List.Disjoint (members C)) := ⟨fun a b hab => List.Disjoint.symm hab⟩
  have h5 := List.Pairwise.forall hnd.2 h1 h2 hne
  exact h5 h3 h4

theorem liftSet_eq (w : WF H) (hs : StarClustering H C maxC) (Q : Nat → Bool) {s u : Nat} (h1 : s ∈ C.samples)
    (h2 : u ∈ members C s) : liftSet C Q u = Q s := by
  unfold liftSet
  cases hq : Q s with
  | true => exact decide_eq_true ⟨s, h1, hq, h2⟩
  | false =>
    apply decide_eq_false
    rintro ⟨t, ht, hqt, hut⟩
    rw [members_unique w hs ht h1 hut h2, hq] at hqt
    cases hqt

theorem sample_mem (w : WF H) (hs : StarClustering H C maxC) {s : Nat} (h : s ∈ C.samples) : s ∈ members C s := by
  rw [← (zip_unzip hs).1] at h
  obtain ⟨z, hz, rfl⟩ := List.mem_map.1 h
  rw [members_of_zip w hs hz]
  exact List.mem_cons_self

theorem liftSet_weight (w : WF H) (hs : StarClustering H C maxC) (Q : Nat → Bool) :
    setWeight H.vertices (liftSet C Q) = (((clusterWeights H C).filter (fun x => Q x.1)).map (·.2)).sum := by
  unfold setWeight
  rw [filter_sum_ids w (liftSet C Q), ← ((clusters_perm w hs).map _).sum_eq, sum_flatMap', sum_map_filter]
  unfold clusterWeights
  rw [List.map_map]
  congr 1
  apply List.map_congr_left
  intro s hsm
  simp only [Function.comp_apply]
  rw [clusterWeight_eq w hs hsm]
  cases hq : Q s with
  | true =>
    simp only [if_true]
    congr 1
    apply List.map_congr_left
    intro u hu
    rw [liftSet_eq w hs Q hsm hu, hq, if_pos rfl]
  | false =>
    simp only [Bool.false_eq_true, if_false]
    have : ((members C s).map (fun u => if liftSet C Q u = true then weightOf H u else 0)) =
        (members C s).map (fun _ => (0 : Int)) := by
      apply List.map_congr_left
      intro u hu
      rw [liftSet_eq w hs Q hsm hu, hq]
      rfl
    rw [this]
    simp

theorem members_length (w : WF H) (hs : StarClustering H C maxC) {s : Nat} (h : s ∈ C.samples) :
    (members C s).length ≤ maxC + 1 := by
  rw [← (zip_unzip hs).1] at h
  obtain ⟨z, hz, rfl⟩ := List.mem_map.1 h
  rw [members_of_zip w hs hz, List.length_cons, List.length_map]
  have : z.2 ∈ C.matched := by rw [← (zip_unzip hs).2]; exact List.mem_map.2 ⟨z, hz, rfl⟩
  have := hs.size z.2 this
  omega

theorem liftSet_size (w : WF H) (hs : StarClustering H C maxC) (Q : Nat → Bool) :
    setSize H.vertices (liftSet C Q) ≤ (maxC + 1) * (C.samples.filter Q).length := by
  have h1 : setSize H.vertices (liftSet C Q) = ((H.vertices.map (·.id)).filter (liftSet C Q)).length := by
    unfold setSize
    rw [List.filter_map, List.length_map]
    rfl
  rw [h1, ← ((clusters_perm w hs).filter _).length_eq]
  suffices G : ∀ l : List Nat, (∀ s ∈ l, s ∈ C.samples) →
      ((l.flatMap (members C)).filter (liftSet C Q)).length ≤ (maxC + 1) * (l.filter Q).length from
    G C.samples (fun _ h => h)
  intro l
  induction l with
  | nil => intro _; simp
  | cons s l ih =>
    intro hl
    have h2 := ih (fun t ht => hl t (List.mem_cons_of_mem _ ht))
    have hsm := hl s List.mem_cons_self
    rw [List.flatMap_cons, List.filter_append, List.length_append, List.filter_cons]
    cases hq : Q s with
    | true =>
      have h3 := List.length_filter_le (liftSet C Q) (members C s)
      have h4 := members_length w hs hsm
      simp only [if_true, List.length_cons]
      rw [Nat.mul_add]
      omega
    | false =>
      have h3 : (members C s).filter (liftSet C Q) = [] := by
        rw [List.filter_eq_nil_iff]
        intro u hu
        rw [liftSet_eq w hs Q hsm hu, hq]
        simp
      rw [h3]
      simp only [Bool.false_eq_true, if_false, List.length_nil]
      omega

/-- Matched vertices share a net with their samples. -/
def ClustersLinked (H : Hypergraph) (C : Contraction) : Prop :=
  ∀ z ∈ C.samples.zip C.matched, ∀ m ∈ z.2, ∃ n ∈ H.nets, z.1 ∈ n.vertices ∧ m.1 ∈ n.vertices

theorem closed_cluster (w : WF H) (hs : StarClustering H C maxC) (hl : ClustersLinked H C) {T : Nat → Bool}
    (hT : ClosedIn H.nets H.vertices T) {s u : Nat} (h1 : s ∈ C.samples) (h2 : u ∈ members C s) : T u = T s := by
  rw [← (zip_unzip hs).1] at h1
  obtain ⟨z, hz, rfl⟩ := List.mem_map.1 h1
  rw [members_of_zip w hs hz, List.mem_cons] at h2
  rcases h2 with rfl | h2
  · rfl
  obtain ⟨m, hm, rfl⟩ := List.mem_map.1 h2
  obtain ⟨n, hn, hz1, hm1⟩ := hl z hz m hm
  obtain ⟨a, ha, hae, -⟩ := w.inc_vtx n hn _ hz1
  obtain ⟨b, hb, hbe, -⟩ := w.inc_vtx n hn _ hm1
  have := hT n hn b hb a ha (by rw [hbe]; exact hm1) (by rw [hae]; exact hz1)
  rw [hae, hbe] at this
  exact this

/-- A component of clusters is a component of vertices. -/
theorem lift_component (w : WF H) (hs : StarClustering H C maxC) (hl : ClustersLinked H C) (Q : Nat → Bool)
    (h1 : ∃ s ∈ C.samples, Q s = true)
    (h2 : ∀ n ∈ H.nets, ∀ s ∈ touched C n, ∀ t ∈ touched C n, Q s = Q t)
    (h3 : ∀ T : Nat → Bool, (∀ n ∈ H.nets, ∀ s ∈ touched C n, ∀ t ∈ touched C n, T s = T t) →
      ∀ s ∈ C.samples, ∀ t ∈ C.samples, Q s = true → Q t = true → T s = T t) :
    Component H.nets H.vertices (liftSet C Q) := by
  have hcl : ∀ v ∈ H.vertices, ∃ s ∈ C.samples, v.id ∈ members C s := fun v hv =>
    cluster_of w hs (List.mem_map.2 ⟨v, hv, rfl⟩)
  have hto : ∀ n : Net, ∀ s ∈ C.samples, ∀ u ∈ n.vertices, u ∈ members C s → s ∈ touched C n := by
    intro n s hsm u hu hus
    unfold touched
    rw [List.mem_filter]
    exact ⟨hsm, decide_eq_true ⟨u, hu, hus⟩⟩
  refine ⟨?_, ?_, ?_⟩
  · obtain ⟨s, hsm, hq⟩ := h1
    have hv : IsVertex H s := (clusters_perm w hs).subset (List.mem_flatMap.2 ⟨s, hsm, sample_mem w hs hsm⟩)
    obtain ⟨v, hvm, rfl⟩ := List.mem_map.1 hv
    exact ⟨v, hvm, by rw [liftSet_eq w hs Q hsm (sample_mem w hs hsm)]; exact hq⟩
  · intro n hn u hu v hv hun hvn
    obtain ⟨s, hsm, hus⟩ := hcl u hu
    obtain ⟨t, htm, hvt⟩ := hcl v hv
    rw [liftSet_eq w hs Q hsm hus, liftSet_eq w hs Q htm hvt]
    exact h2 n hn s (hto n s hsm _ hun hus) t (hto n t htm _ hvn hvt)
  · intro T hT u hu v hv hSu hSv
    obtain ⟨s, hsm, hus⟩ := hcl u hu
    obtain ⟨t, htm, hvt⟩ := hcl v hv
    rw [liftSet_eq w hs Q hsm hus] at hSu
    rw [liftSet_eq w hs Q htm hvt] at hSv
    rw [closed_cluster w hs hl hT hsm hus, closed_cluster w hs hl hT htm hvt]
    refine h3 T ?_ s hsm t htm hSu hSv
    intro n hn s hs' t ht'
    unfold touched at hs' ht'
    rw [List.mem_filter] at hs' ht'
    obtain ⟨a, ha, has⟩ := of_decide_eq_true hs'.2
    obtain ⟨b, hb, hbt⟩ := of_decide_eq_true ht'.2
    rw [← closed_cluster w hs hl hT hs'.1 has, ← closed_cluster w hs hl hT ht'.1 hbt]
    obtain ⟨x, hx, hxe, -⟩ := w.inc_vtx n hn a ha
    obtain ⟨y, hy, hye, -⟩ := w.inc_vtx n hn b hb
    have := hT n hn x hx y hy (by rw [hxe]; exact ha) (by rw [hye]; exact hb)
    rw [hxe, hye] at this
    exact this

variable {HC : Hypergraph}

/-- Either a net touches one cluster, or it has become a coarse net. -/
theorem touched_cases (hn : ContractedNets H C HC) {n : Net} (hnm : n ∈ H.nets) :
    (∃ n' ∈ HC.nets, n'.vertices.Perm (touched C n)) ∨ ∀ s ∈ touched C n, ∀ t ∈ touched C n, s = t := by
  by_cases h : 2 ≤ (touched C n).length
  · left
    have : (n.id, n.cost) ∈ HC.nets.map (fun n => (n.id, n.cost)) :=
      hn.nets.symm.subset (List.mem_map.2 ⟨n, List.mem_filter.2 ⟨hnm, decide_eq_true h⟩, rfl⟩)
    obtain ⟨n', hn', he⟩ := List.mem_map.1 this
    exact ⟨n', hn', hn.pins n' hn' n hnm (congrArg Prod.fst he).symm⟩
  · right
    intro s hs t ht
    match hl : touched C n with
    | [] => rw [hl] at hs; cases hs
    | [a] =>
      rw [hl, List.mem_singleton] at hs ht
      rw [hs, ht]
    | a :: b :: l => rw [hl] at h; simp at h

theorem coarse_ids (hI : IsContraction H C HC) :
    (HC.vertices.map (·.id) ++ C.free.map (·.1)).Perm C.samples := by
  have h1 := hI.vertices.map (·.1)
  rw [List.map_append, List.map_map] at h1
  unfold clusterWeights at h1
  rw [List.map_map] at h1
  simpa [Function.comp_def] using h1

theorem component_up (w : WF H) (hs : StarClustering H C maxC) (wc : WF HC) (hI : IsContraction H C HC)
    (hl : ClustersLinked H C) {S : Nat → Bool} (hS : Component HC.nets HC.vertices S) :
    ∃ S', Component H.nets H.vertices S' ∧ setWeight H.vertices S' = setWeight HC.vertices S ∧
      setSize H.vertices S' ≤ (maxC + 1) * setSize HC.vertices S ∧
      ((∃ v ∈ HC.vertices, S v.id = false) → ∃ v ∈ H.vertices, S' v.id = false) := by
  have hids := coarse_ids hI
  have hnd : (HC.vertices.map (·.id) ++ C.free.map (·.1)).Nodup := hids.nodup_iff.2 (hs.samples_nodup w)
  obtain ⟨Q, hQ⟩ : ∃ Q : Nat → Bool, Q = fun s => S s && decide (s ∈ HC.vertices.map (·.id)) := ⟨_, rfl⟩
  have hQt : ∀ s, Q s = true ↔ S s = true ∧ s ∈ HC.vertices.map (·.id) := by
    intro s; rw [hQ]; simp
  have hQv : ∀ v ∈ HC.vertices, Q v.id = S v.id := by
    intro v hv
    rw [hQ]
    have : v.id ∈ HC.vertices.map (·.id) := List.mem_map.2 ⟨v, hv, rfl⟩
    simp only [this, decide_true, Bool.and_true]
  have hvs : ∀ v ∈ HC.vertices, v.id ∈ C.samples := fun v hv =>
    hids.subset (List.mem_append_left _ (List.mem_map.2 ⟨v, hv, rfl⟩))
  refine ⟨liftSet C Q, lift_component w hs hl Q ?_ ?_ ?_, ?_, ?_, ?_⟩
  · obtain ⟨v, hv, hSv⟩ := hS.nonempty
    exact ⟨v.id, hids.subset (List.mem_append_left _ (List.mem_map.2 ⟨v, hv, rfl⟩)), by rw [hQv v hv]; exact hSv⟩
  · intro n hn s hs' t ht'
    rcases touched_cases hI.nets hn with ⟨n', hn', hp⟩ | h
    · have hs2 := hp.symm.subset hs'
      have ht2 := hp.symm.subset ht'
      obtain ⟨x, hx, hxe, -⟩ := wc.inc_vtx n' hn' s hs2
      obtain ⟨y, hy, hye, -⟩ := wc.inc_vtx n' hn' t ht2
      rw [← hxe, ← hye, hQv x hx, hQv y hy]
      exact hS.closed n' hn' x hx y hy (by rw [hxe]; exact hs2) (by rw [hye]; exact ht2)
    · rw [h s hs' t ht']
  · intro T hT s hsm t htm hQs hQt'
    obtain ⟨hSs, hsv⟩ := (hQt s).1 hQs
    obtain ⟨hSt, htv⟩ := (hQt t).1 hQt'
    obtain ⟨x, hx, rfl⟩ := List.mem_map.1 hsv
    obtain ⟨y, hy, rfl⟩ := List.mem_map.1 htv
    refine hS.linked T ?_ x hx y hy hSs hSt
    intro n' hn' u hu v hv hun hvn
    have : (n'.id, n'.cost) ∈ (H.nets.filter (fun n => 2 ≤ (touched C n).length)).map (fun n => (n.id, n.cost)) :=
      hI.nets.nets.subset (List.mem_map.2 ⟨n', hn', rfl⟩)
    obtain ⟨n, hn, he⟩ := List.mem_map.1 this
    have hp := hI.nets.pins n' hn' n (List.mem_filter.1 hn).1 (congrArg Prod.fst he)
    exact hT n (List.mem_filter.1 hn).1 _ (hp.subset hun) _ (hp.subset hvn)
  · rw [liftSet_weight w hs Q, ← ((hI.vertices.filter (fun x => Q x.1)).map (·.2)).sum_eq, List.filter_append,
      List.map_append, List.sum_append]
    have h1 : C.free.filter (fun x => Q x.1) = [] := by
      rw [List.filter_eq_nil_iff]
      intro f hf hQf
      exact (List.nodup_append.1 hnd).2.2 f.1 ((hQt _).1 hQf).2 f.1 (List.mem_map.2 ⟨f, hf, rfl⟩) rfl
    rw [h1, List.map_nil, List.sum_nil, add_zero, List.filter_map, List.map_map]
    unfold setWeight
    have h2 : HC.vertices.filter ((fun x : Nat × Int => Q x.1) ∘ fun v => (v.id, v.weight)) =
        HC.vertices.filter (fun v => S v.id) := by
      apply List.filter_congr
      intro v hv
      exact hQv v hv
    rw [h2]
    rfl
  · refine le_trans (liftSet_size w hs Q) (Nat.mul_le_mul_left _ ?_)
    rw [← (hids.filter _).length_eq, List.filter_append, List.length_append]
    have h1 : (C.free.map (·.1)).filter Q = [] := by
      rw [List.filter_eq_nil_iff]
      intro f hf hQf
      exact (List.nodup_append.1 hnd).2.2 f ((hQt _).1 hQf).2 f hf rfl
    rw [h1, List.length_nil, Nat.add_zero, List.filter_map, List.length_map]
    unfold setSize
    exact le_of_eq (congrArg List.length (List.filter_congr (fun v hv => hQv v hv)))
  · rintro ⟨v, hv, hSv⟩
    have hv1 : IsVertex H v.id := (clusters_perm w hs).subset
      (List.mem_flatMap.2 ⟨v.id, hvs v hv, sample_mem w hs (hvs v hv)⟩)
    obtain ⟨u, hu, hue⟩ := List.mem_map.1 hv1
    have hue : u.id = v.id := hue
    exact ⟨u, hu, by rw [hue, liftSet_eq w hs Q (hvs v hv) (sample_mem w hs (hvs v hv)), hQv v hv]; exact hSv⟩

theorem component_free (w : WF H) (hs : StarClustering H C maxC) (wc : WF HC) (hI : IsContraction H C HC)
    (hl : ClustersLinked H C) {f : Nat × Int} (hf : f ∈ C.free) :
    ∃ S', Component H.nets H.vertices S' ∧ setWeight H.vertices S' = f.2 ∧ setSize H.vertices S' ≤ maxC + 1 := by
  have hids := coarse_ids hI
  have hnd : (HC.vertices.map (·.id) ++ C.free.map (·.1)).Nodup := hids.nodup_iff.2 (hs.samples_nodup w)
  have hfs : f.1 ∈ C.samples := hids.subset (List.mem_append_right _ (List.mem_map.2 ⟨f, hf, rfl⟩))
  refine ⟨liftSet C (fun s => s == f.1), lift_component w hs hl _ ⟨f.1, hfs, beq_self_eq_true _⟩ ?_ ?_, ?_, ?_⟩
  · intro n hn s hs' t ht'
    rcases touched_cases hI.nets hn with ⟨n', hn', hp⟩ | h
    · have hne : ∀ s ∈ touched C n, (s == f.1) = false := by
        intro s hs'
        rw [beq_eq_false_iff_ne]
        rintro rfl
        obtain ⟨x, hx, hxe, -⟩ := wc.inc_vtx n' hn' _ (hp.symm.subset hs')
        exact (List.nodup_append.1 hnd).2.2 f.1 (List.mem_map.2 ⟨x, hx, hxe⟩) f.1 (List.mem_map.2 ⟨f, hf, rfl⟩) rfl
      rw [hne s hs', hne t ht']
    · rw [h s hs' t ht']
  · intro T _ s _ t _ h1 h2
    rw [eq_of_beq h1, eq_of_beq h2]
  · rw [liftSet_weight w hs]
    have hcw : f ∈ clusterWeights H C := hI.vertices.subset (List.mem_append_right _ hf)
    obtain ⟨s, hsm, rfl⟩ := List.mem_map.1 hcw
    unfold clusterWeights
    rw [List.filter_map, List.map_map]
    have h1 : C.samples.filter ((fun x : Nat × Int => x.1 == s) ∘ fun s => (s, clusterWeight H C s)) = [s] := by
      have : (fun x : Nat × Int => x.1 == s) ∘ (fun s => (s, clusterWeight H C s)) = fun x => x == s := rfl
      rw [this, List.filter_beq, List.count_eq_one_of_mem (hs.samples_nodup w) hsm]
      rfl
    rw [h1]
    simp
  · refine le_trans (liftSet_size w hs _) ?_
    rw [List.filter_beq, List.count_eq_one_of_mem (hs.samples_nodup w) hfs]
    simp
end

theorem setWeight_forall2 {l k : List Vertex}
    (h : List.Forall₂ (fun v v' => v'.id = v.id ∧ v'.weight = v.weight) l k) (S : Nat → Bool) :
    setWeight k S = setWeight l S := by
  unfold setWeight
  induction h with
  | nil => rfl
  | @cons a b _ _ hab _ ih =>
    rw [List.filter_cons, List.filter_cons, hab.1]
    split
    · rw [List.map_cons, List.map_cons, List.sum_cons, List.sum_cons, ih, hab.2]
    · exact ih

theorem setSize_forall2 {l k : List Vertex} (h : List.Forall₂ (fun v v' => v'.id = v.id) l k) (S : Nat → Bool) :
    setSize k S = setSize l S := by
  unfold setSize
  induction h with
  | nil => rfl
  | @cons a b _ _ hab _ ih =>
    rw [List.filter_cons, List.filter_cons, hab]
    split
    · rw [List.length_cons, List.length_cons, ih]
    · exact ih

/-- Simplification does not change the components. -/
theorem simplify_closed {H H1 : Hypergraph} (w : WF H) (h : simplifyDuplicateNets H = .ok H1) :
    ∀ T, ClosedIn H1.nets H1.vertices T ↔ ClosedIn H.nets H.vertices T := by
  obtain ⟨H', ds, h1, -, h3, h4, -⟩ := simplify_ok w
  rw [h] at h1
  injection h1 with h1
  subst h1
  intro T
  constructor
  · apply closedIn_congr
    · intro v hv
      obtain ⟨u, hu, hr⟩ := forall2_mem_left h4 hv
      exact ⟨u, hu, hr.1⟩
    · intro n hn
      left
      obtain ⟨m, hm, hid, hvs⟩ := lastIds_spec (nets := H.nets.map sortNet) (sortNet n) (List.mem_map.2 ⟨n, hn, rfl⟩)
      refine ⟨withCost m (edgeCosts (H.nets.map sortNet) m.vertices), h3.symm.subset (List.mem_map.2
        ⟨m, List.mem_filter.2 ⟨hm, decide_eq_true ?_⟩, rfl⟩), ?_⟩
      · unfold keptId
        rw [hvs, hid]
      · intro v _ hvn
        show v.id ∈ m.vertices
        rw [hvs]
        exact (sortNet_perm n).symm.subset hvn
  · apply closedIn_congr
    · intro v hv
      obtain ⟨u, hu, hr⟩ := forall2_mem_right h4 hv
      exact ⟨u, hu, hr.1.symm⟩
    · intro n' hn'
      left
      obtain ⟨m, hm, rfl⟩ := List.mem_map.1 (h3.subset hn')
      obtain ⟨n, hn, rfl⟩ := List.mem_map.1 (List.mem_filter.1 hm).1
      exact ⟨n, hn, fun v _ hvn => (sortNet_perm n).subset hvn⟩

/-- The placement of free vertices fails only with a vertex heavier than the slack. -/
theorem greedy_over {W0 W1 m0 m1 : Int} {l : List Vertex} (h : GreedyPlaced W0 W1 m0 m1 l)
    (h0 : W0 ≤ m0) (h1 : W1 ≤ m1) (hnn : ∀ v ∈ l, 0 ≤ v.weight) :
    (W0 + placedWeight l 0 ≤ m0 ∧ W1 + placedWeight l 1 ≤ m1) ∨
      ∃ v ∈ l, m0 + m1 < W0 + W1 + (l.map (·.weight)).sum + v.weight := by
  suffices G : ∀ (post pre : List Vertex), l = pre ++ post →
      W0 + placedWeight pre 0 ≤ m0 → W1 + placedWeight pre 1 ≤ m1 →
      placedWeight pre 0 + placedWeight pre 1 = (pre.map (·.weight)).sum →
      (W0 + placedWeight l 0 ≤ m0 ∧ W1 + placedWeight l 1 ≤ m1) ∨
        ∃ v ∈ l, m0 + m1 < W0 + W1 + (l.map (·.weight)).sum + v.weight by
    exact G l [] rfl (by simpa [placedWeight] using h0) (by simpa [placedWeight] using h1)
      (by simp [placedWeight])
  intro post
  induction post with
  | nil => intro pre hl a b _; rw [List.append_nil] at hl; subst hl; exact Or.inl ⟨a, b⟩
  | cons v post ih =>
    intro pre hl a b hs
    obtain ⟨hp, ho, hq, -⟩ := h pre v post hl
    have hpost : 0 ≤ (post.map (·.weight)).sum :=
      sum_map_nonneg _ _ (fun x hx => hnn x (by rw [hl]; simp [hx]))
    have hsum : (l.map (·.weight)).sum = (pre.map (·.weight)).sum + (v.weight + (post.map (·.weight)).sum) := by
      rw [hl, List.map_append, List.sum_append, List.map_cons, List.sum_cons]
    by_cases hov : v.part = 0 ∧ W0 + placedWeight pre 0 + v.weight > m0
    · right
      have h2 := ho hov.1 hov.2
      refine ⟨v, by rw [hl]; simp, ?_⟩
      have h3 := hov.2
      omega
    · refine ih (pre ++ [v]) (by rw [hl]; simp) ?_ ?_ ?_
      · rw [placedWeight_append]
        by_cases hp0 : v.part = 0
        · rw [if_pos hp0]
          have : ¬ (W0 + placedWeight pre 0 + v.weight > m0) := fun h => hov ⟨hp0, h⟩
          omega
        · rw [if_neg hp0]; omega
      · rw [placedWeight_append]
        by_cases hp1 : v.part = 1
        · rw [if_pos hp1]
          have := hq hp1
          omega
        · rw [if_neg hp1]; omega
      · rw [placedWeight_append, placedWeight_append, List.map_append, List.sum_append]
        rcases hp with h0 | h0 <;> simp [h0] <;> omega

theorem bip_total {H : Hypergraph} (hb : Bipartitioned H) : partWeight H 0 + partWeight H 1 = allWeight H := by
  unfold partWeight allWeight
  unfold Bipartitioned at hb
  generalize H.vertices = l at hb
  induction l with
  | nil => rfl
  | cons v l ih =>
    have h1 := ih (fun x hx => hb x (by simp [hx]))
    rcases hb v (by simp) with h | h
    · simp only [List.filter_cons, h, decide_true, if_true, List.map_cons, List.sum_cons, Int.reduceEq, decide_false,
        Bool.false_eq_true, if_false] at h1 ⊢
      omega
    · simp only [List.filter_cons, h, decide_true, if_true, List.map_cons, List.sum_cons, Int.reduceEq, decide_false,
        Bool.false_eq_true, if_false] at h1 ⊢
      omega

/-- A component is heavier than what the bounds leave over, and small enough to be contracted to one vertex in `j`
rounds. -/
def HeavyComponent (opts : Options) (j : Nat) (nets : List Net) (vs : List Vertex) (max0 max1 : Int) : Prop :=
  ∃ S, Component nets vs S ∧ max0 + max1 < (vs.map (·.weight)).sum + setWeight vs S ∧
    setSize vs S ≤ (opts.maxClustersize + 1) ^ j ∧
    (opts.maxClustersize < opts.coarseningNrvertices → ∃ v ∈ vs, S v.id = false)

theorem outside_of_size {vs : List Vertex} {S : Nat → Bool} (h : setSize vs S < vs.length) :
    ∃ v ∈ vs, S v.id = false := by
  by_contra hc
  have : vs.filter (fun v => S v.id) = vs := by
    rw [List.filter_eq_self]
    intro v hv
    by_contra hne
    exact hc ⟨v, hv, by simpa using hne⟩
  unfold setSize at h
  rw [this] at h
  omega

/-- One level up: from the coarse bisection to the finer one. -/
theorem level_up {srt : List (Nat × Int) → List (Nat × Int)} (hsrt : ∀ l, (srt l).Perm l)
    {H HC HC' : Hypergraph} {C : Contraction} {opts : Options} (w : WF H) (hcost : CostsNonneg H)
    (hpos : ∀ v ∈ H.vertices, 0 < v.weight) (hs : StarClustering H C opts.maxClustersize) (wC : WF HC) (hc : IsContraction H C HC)
    (hl : ClustersLinked H C) (hfree : C.globalFree = (C.free.map (·.2)).sum) (hpl : FreePlaced C)
    (hsame : SameContent HC HC') (wc : WF HC') (hb : Bipartitioned HC') {fuel : Nat}
    (hf : H.vertices.length < fuel) (hsz : opts.coarseningNrvertices < H.vertices.length) (max0 max1 : Int) (rng : Rng)
    {r : PassResult}
    (hr : uncoarsenSeq fuel srt HC' H C opts max0 max1 rng = .ok r) (hbal : Balanced HC' max0 max1) :
    (Balanced r.H max0 max1 ∧ r.cut ≤ cutValue .cutNet HC') ∨ HeavyComponent opts 1 H.nets H.vertices max0 max1 := by
  obtain ⟨r', u1, -, -, -, -, a, a1, a2⟩ := C27_uncoarsen_seq hsrt w hcost (fun v hv => le_of_lt (hpos v hv)) hs hc
    hfree hpl hsame wc hb hf opts max0 max1 rng
  rw [hr] at u1
  injection u1 with u1
  subst u1
  obtain ⟨a', b1, -, -, b4, -, -, ⟨l, b7, b8⟩, -, -⟩ := placed_ok hsrt w hs hc hfree hpl hsame wc hb max0 max1 rng
  rw [a1] at b1
  injection b1 with b1
  subst b1
  have hlf : (l.map (fun v => (v.id, v.weight))).Perm C.free := by
    rw [b8, List.map_append, hsame.vertices] at b4
    exact (List.perm_append_left_iff _).1 (b4.trans hc.vertices.symm)
  have hcw : ∀ f ∈ C.free, 0 ≤ f.2 := by
    intro f hf
    obtain ⟨s, hsm, rfl⟩ := List.mem_map.1 (hc.vertices.subset (List.mem_append_right _ hf))
    exact le_of_lt (clusterWeight_pos w hs hpos hsm)
  have htot : allWeight HC' + (l.map (·.weight)).sum = allWeight H := by
    rw [← clusterWeights_total w hs, ← (b4.map (·.2)).sum_eq, b8]
    simp [allWeight, Function.comp_def]
  rcases greedy_over b7 hbal.1 hbal.2 (fun v hv => hcw (v.id, v.weight) (hlf.subset (List.mem_map.2 ⟨v, hv, rfl⟩))) with
    h | ⟨v, hv, hov⟩
  · left
    apply a2
    unfold Balanced
    rw [partWeight_add_list b8, partWeight_add_list b8]
    exact h
  · right
    obtain ⟨S, h1, h2, h3⟩ := component_free w hs wC hc hl (hlf.subset (List.mem_map.2 ⟨v, hv, rfl⟩))
    refine ⟨S, h1, ?_, by rw [Nat.pow_one]; exact h3, fun hmc => outside_of_size (by omega)⟩
    rw [h2]
    have := bip_total hb
    show max0 + max1 < allWeight H + v.weight
    omega

theorem balanced_of_lists {A B : Hypergraph} (h1 : B.vertices.map (·.weight) = A.vertices.map (·.weight))
    (h2 : B.vertices.map (·.part) = A.vertices.map (·.part)) {max0 max1 : Int} (h : Balanced A max0 max1) :
    Balanced B max0 max1 := by
  have hp : ∀ p, partWeight B p = partWeight A p := by
    intro p
    unfold partWeight
    generalize A.vertices = l at h1 h2
    generalize B.vertices = k at h1 h2
    induction k generalizing l with
    | nil =>
      cases l with
      | nil => rfl
      | cons => simp at h1
    | cons b k ih =>
      cases l with
      | nil => simp at h1
      | cons a l =>
        rw [List.map_cons, List.map_cons] at h1 h2
        injection h1 with h1 h3
        injection h2 with h2 h4
        rw [List.filter_cons, List.filter_cons, h2]
        split
        · rw [List.map_cons, List.map_cons, List.sum_cons, List.sum_cons, h1, ih l h3 h4]
        · exact ih l h3 h4
  unfold Balanced
  rw [hp, hp]
  exact h

/-- The levels of the multilevel method: the bisection of the coarsest hypergraph gets no worse on the way up. -/
theorem mlLevel_course {F : Type} {E : Env F} {N : Nat} (hE : E.Ok N) (rank : Nat) (opts : Options) (max0 max1 : Int)
    (n : Nat) : ∀ (H : Hypergraph) (rng : Rng), LevelReady E.fuel H → H.globalSize = H.vertices.length →
    ∃ (R : Hypergraph) (rng' : Rng) (j : Nat) (G : Hypergraph) (rng0 : Rng) (K0 : Hypergraph) (rng1 : Rng),
      mlLevel E rank opts max0 max1 n H rng = .ok (R, some (cutValue .cutNet R), rng') ∧
      LevelDone H R ∧ Descends E rank opts j H rng G rng0 ∧ j ≤ n ∧
      (j = n ∨ G.globalSize ≤ opts.coarseningNrvertices) ∧
      initialPartitioning E.fuel E.shuf G max0 max1 opts rng0 = .ok (K0, some (cutValue .cutNet K0), rng1) ∧
      (Balanced K0 max0 max1 → (Balanced R max0 max1 ∧ cutValue .cutNet R ≤ cutValue .cutNet K0) ∨
        HeavyComponent opts j H.nets H.vertices max0 max1) := by
  have base : ∀ (n : Nat) (H : Hypergraph) (rng : Rng), LevelReady E.fuel H →
      (0 = n ∨ H.globalSize ≤ opts.coarseningNrvertices) →
      ∃ (R : Hypergraph) (rng' : Rng) (j : Nat) (G : Hypergraph) (rng0 : Rng) (K0 : Hypergraph) (rng1 : Rng),
      initialPartitioning E.fuel E.shuf H max0 max1 opts rng = .ok (R, some (cutValue .cutNet R), rng') ∧
      LevelDone H R ∧ Descends E rank opts j H rng G rng0 ∧ j ≤ n ∧
      (j = n ∨ G.globalSize ≤ opts.coarseningNrvertices) ∧
      initialPartitioning E.fuel E.shuf G max0 max1 opts rng0 = .ok (K0, some (cutValue .cutNet K0), rng1) ∧
      (Balanced K0 max0 max1 → (Balanced R max0 max1 ∧ cutValue .cutNet R ≤ cutValue .cutNet K0) ∨
        HeavyComponent opts j H.nets H.vertices max0 max1) := by
    intro n H rng hR hj
    obtain ⟨R, rng', h1, h2⟩ := mlBase_ok hE opts max0 max1 hR rng
    exact ⟨R, rng', 0, H, rng, R, rng', h1, h2, .stay H rng, by omega, hj, h1, fun h => Or.inl ⟨h, le_refl _⟩⟩
  induction n with
  | zero =>
    intro H rng hR _
    exact base 0 H rng hR (Or.inl rfl)
  | succ n ih =>
    intro H rng hR hgs
    unfold mlLevel
    by_cases hg : H.globalSize > opts.coarseningNrvertices
    swap
    · rw [if_neg hg]
      exact base (n + 1) H rng hR (Or.inr (by omega))
    rw [if_pos hg]
    obtain ⟨H1, s1, w1, s2, -, s4, -⟩ := C31_partial hR.wf hR.costs hR.total
    obtain ⟨c1, c2⟩ := simplify_costs hR.wf hR.costs hR.total s1
    have hlen1 : H1.vertices.length < E.fuel := by
      rw [s4.length_eq.symm]; exact hR.fuel
    have hpos1 : ∀ v ∈ H1.vertices, 0 < v.weight := by
      intro v hv
      obtain ⟨u, hu, h⟩ := forall2_mem_right s4 hv
      rw [h.2.1]
      exact hR.pos u hu
    have ht1 : (H1.nets.map (·.cost)).sum < 2147483648 := by rw [c2]; exact hR.total
    obtain ⟨HC, C, rng1, k1, wc, hs, hI, -, -, -, hgc, -, hfree, hd⟩ :=
      C26_coarsen E.scores hE.shuf hE.order rank w1 opts rng
    have hlk : ClustersLinked H1 C := C26_linked hE.shuf hE.order w1 k1
    have hpl := freePlaced_of_pos w1 hs hI hpos1
    obtain ⟨HC', rng2, j, G, rng0, K0, rng3, l1, l2, l3, l4, l5, l6, l7⟩ :=
      ih HC rng1 (coarse_ready w1 c1 ht1 hpos1 hlen1 hs hI wc hd) hgc
    obtain ⟨r, u1, u2, u3, u4, u5, -⟩ := C27_uncoarsen_seq hE.srt w1 c1
      (fun v hv => le_of_lt (hpos1 v hv)) hs hI hfree hpl l2.same l2.wf l2.bip hlen1 opts max0 max1 rng2
    have hup := level_up hE.srt w1 c1 hpos1 hs wc hI hlk hfree hpl l2.same l2.wf l2.bip hlen1
      (by rw [← s4.length_eq]; omega) max0 max1 rng2 u1
    obtain ⟨R, t1, t2, t3, t4, t5, t6, -⟩ := C32_partial hR.wf hR.dups hR.costs hR.total s1 u4 u3
    have hcont := content_of_reset hR.wf t2 t3 t4 t5
    have hcut : r.cut = cutValue .cutNet R := by
      rw [u2, cutValue_content hR.wf .cutNet hcont, cutValue_content w1 .cutNet (sameContent_of_same w1 u3)]
      show cutNet (partOf r.H) H1.nets = cutNet (partOf R) H.nets
      rw [(s2 _).1]
      congr 1
      have hids : R.vertices.map (·.id) = r.H.vertices.map (·.id) := by
        have h1 := congrArg (List.map (·.1)) t5
        have h2 := congrArg (List.map (·.1)) u3.vertices
        rw [List.map_map, List.map_map] at h1 h2
        have h3 : H1.vertices.map (·.id) = H.vertices.map (·.id) :=
          forall2_map_eq s4 (fun a b hab => hab.1)
        exact (h1.trans h3.symm).trans h2.symm
      funext u
      exact partOf_of_lists hids t6 u
    have hw4 : H1.vertices.map (·.weight) = H.vertices.map (·.weight) := forall2_map_eq s4 (fun a b hab => hab.2.1)
    have hheavy : ∀ i, HeavyComponent opts i H1.nets H1.vertices max0 max1 →
        HeavyComponent opts i H.nets H.vertices max0 max1 := by
      rintro i ⟨S, hS, hlt, hsz, hout⟩
      refine ⟨S, component_congr ?_ ?_ ((simplify_closed hR.wf s1 S).1 hS.closed)
        (fun T hT => (simplify_closed hR.wf s1 T).2 hT) hS, ?_, ?_, ?_⟩
      · intro v hv
        obtain ⟨u, hu, h⟩ := forall2_mem_right s4 hv
        exact ⟨u, hu, h.1.symm⟩
      · intro v hv
        obtain ⟨u, hu, h⟩ := forall2_mem_left s4 hv
        exact ⟨u, hu, h.1⟩
      · rw [hw4, setWeight_forall2 (s4.imp (fun a b h => ⟨h.1, h.2.1⟩))] at hlt
        exact hlt
      · rw [setSize_forall2 (s4.imp (fun a b h => h.1))] at hsz
        exact hsz
      · intro hmc
        obtain ⟨v, hv, hSv⟩ := hout hmc
        obtain ⟨u, hu, h⟩ := forall2_mem_right s4 hv
        exact ⟨u, hu, by rw [← h.1]; exact hSv⟩
    refine ⟨R, r.rng, j + 1, G, rng0, K0, rng3, ?_, ⟨t2, ?_, hcont⟩, .down hg s1 k1 l3, by omega,
      l5.imp (by omega) id, l6, ?_⟩
    · simp only [s1, k1, l1, u1, t1, ok_bind, pure_eq_ok, hcut]
    · intro v hv
      have : v.part ∈ r.H.vertices.map (fun v => v.part) := by
        rw [← t6]; exact List.mem_map.2 ⟨v, hv, rfl⟩
      obtain ⟨x, hx, he⟩ := List.mem_map.1 this
      have he : x.part = v.part := he
      rw [← he]
      exact u5 x hx
    · intro hb
      rcases l7 hb with ⟨g1, g2⟩ | ⟨S, hS, hlt, hsz, hout⟩
      · rcases hup g1 with ⟨g3, g4⟩ | g3
        · left
          rw [← hcut]
          refine ⟨balanced_of_lists ?_ t6 g3, le_trans g4 g2⟩
          have h1 := congrArg (List.map (·.2)) t5
          have h2 := congrArg (List.map (·.2.2)) u3.vertices
          rw [List.map_map, List.map_map] at h1 h2
          exact (h1.trans hw4.symm).trans h2.symm
        · right
          apply hheavy
          obtain ⟨S, g4, g5, g6, g7⟩ := g3
          exact ⟨S, g4, g5, le_trans g6 (Nat.pow_le_pow_right (by omega) (by omega)), g7⟩
      · right
        apply hheavy
        obtain ⟨S', h1, h2, h5, h6⟩ := component_up w1 hs wc hI hlk hS
        refine ⟨S', h1, ?_, ?_, fun hmc => h6 (hout hmc)⟩
        swap
        · refine le_trans h5 ?_
          rw [Nat.pow_succ, Nat.mul_comm]
          exact Nat.mul_le_mul_right _ hsz
        rw [h2]
        have h3 : (HC.vertices.map (·.weight)).sum + (C.free.map (·.2)).sum = (H1.vertices.map (·.weight)).sum := by
          have := clusterWeights_total w1 hs
          rw [← (hI.vertices.map (·.2)).sum_eq] at this
          simpa [allWeight, Function.comp_def] using this
        have h4 : 0 ≤ (C.free.map (·.2)).sum := by
          apply sum_map_nonneg
          intro f hf
          obtain ⟨s, hsm, rfl⟩ := List.mem_map.1 (hI.vertices.subset (List.mem_append_right _ hf))
          exact le_of_lt (clusterWeight_pos w1 hs hpos1 hsm)
        omega

end PMondriaan

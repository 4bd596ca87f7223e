import Verif.Spec.Coarsen
import Verif.Proofs.Recursive
import Verif.Props.Reduce
import Verif.Proofs.Contract
import Verif.Proofs.Same

/-
Proofs about `uncoarsen_hypergraph` (sequential) and about projecting labels from clusters to
their members.
-/

namespace PMondriaan

open Spec

/-! ### Setting parts by id -/

/-- `H` with the part of every vertex given by `P`. -/
def relabel (H : Hypergraph) (P : Nat → Int) : Hypergraph :=
  { H with vertices := H.vertices.map (fun v => { v with part := P v.id }) }

/-- Updates of a labelling, one after the other. -/
def setAll (P : Nat → Int) (U : List (Nat × Int)) : Nat → Int :=
  U.foldl (fun P u => fun y => if y = u.1 then u.2 else P y) P

theorem setAll_append (P : Nat → Int) (U V : List (Nat × Int)) :
    setAll P (U ++ V) = setAll (setAll P U) V := by
  unfold setAll; rw [List.foldl_append]

theorem setAll_not_mem (P : Nat → Int) (U : List (Nat × Int)) {k : Nat} (hk : k ∉ U.map (·.1)) :
    setAll P U k = P k := by
  induction U generalizing P with
  | nil => rfl
  | cons u U ih =>
    rw [List.map_cons, List.mem_cons, not_or] at hk
    have : setAll P (u :: U) = setAll (fun y => if y = u.1 then u.2 else P y) U := rfl
    rw [this, ih _ hk.2, if_neg hk.1]

theorem setAll_mem (P : Nat → Int) (U : List (Nat × Int)) (hnd : (U.map (·.1)).Nodup) {k : Nat}
    {p : Int} (hk : (k, p) ∈ U) : setAll P U k = p := by
  induction U generalizing P with
  | nil => cases hk
  | cons u U ih =>
    rw [List.map_cons, List.nodup_cons] at hnd
    have : setAll P (u :: U) = setAll (fun y => if y = u.1 then u.2 else P y) U := rfl
    rw [this]
    rcases List.mem_cons.1 hk with rfl | hk
    · rw [setAll_not_mem _ _ hnd.1, if_pos rfl]
    · exact ih _ hnd.2 hk

theorem relabel_get (H : Hypergraph) (P : Nat → Int) (i : Nat) :
    (relabel H P).vertices[i]? = (H.vertices[i]?).map (fun v => { v with part := P v.id }) := by
  unfold relabel; simp only; rw [List.getElem?_map]

theorem setPartAt_relabel {H : Hypergraph} (w : WF H) (P : Nat → Int) {i : Nat} {v : Vertex}
    (hi : H.vertices[i]? = some v) (p : Int) :
    (relabel H P).setPartAt i p =
      .ok (relabel H (fun y => if y = v.id then p else P y)) := by
  unfold Hypergraph.setPartAt
  have h1 : (relabel H P).vertices[i]? = some { v with part := P v.id } := by
    rw [relabel_get, hi]; rfl
  rw [vertexAt_ok h1]
  simp only [ok_bind, pure_eq_ok]
  congr 1
  unfold Hypergraph.setVertex relabel
  simp only
  congr 1
  apply List.ext_getElem?
  intro j
  have hil : i < H.vertices.length := by rw [List.getElem?_eq_some_iff] at hi; exact hi.1
  rw [List.getElem?_set]
  by_cases hij : i = j
  · subst hij
    rw [if_pos rfl, if_pos (by simpa using hil), List.getElem?_map, hi]
    simp
  · rw [if_neg hij, List.getElem?_map, List.getElem?_map]
    cases hx : H.vertices[j]? with
    | none => rfl
    | some x =>
      simp only [Option.map_some]
      rw [if_neg]
      intro hid
      exact hij (w.vindex_inj hi hx hid.symm)

theorem relabel_wf {H : Hypergraph} (w : WF H) (P : Nat → Int) : WF (relabel H P) := by
  have hids : (relabel H P).vertices.map (·.id) = H.vertices.map (·.id) := by
    unfold relabel; simp only; rw [List.map_map]; rfl
  refine ⟨by rw [hids]; exact w.vids, w.nids, by rw [hids]; exact w.vmap, w.nmap, ?_, w.npins, ?_, ?_⟩
  · intro v hv
    obtain ⟨x, hx, rfl⟩ := List.mem_map.1 hv
    exact w.vnets x hx
  · intro v hv
    obtain ⟨x, hx, rfl⟩ := List.mem_map.1 hv
    exact w.inc_net x hx
  · intro n hn u hu
    obtain ⟨v, hv, h⟩ := w.inc_vtx n hn u hu
    exact ⟨_, List.mem_map.2 ⟨v, hv, rfl⟩, h⟩

theorem relabel_partOf {H : Hypergraph} (w : WF H) (P : Nat → Int) {u : Nat} (hu : IsVertex H u) :
    partOf (relabel H P) u = P u := by
  obtain ⟨v, hv, rfl⟩ := List.mem_map.1 hu
  exact (relabel_wf w P).partOf_eq (List.mem_map.2 ⟨v, hv, rfl⟩)

theorem relabel_self {H : Hypergraph} (w : WF H) : relabel H (partOf H) = H := by
  unfold relabel
  have : H.vertices.map (fun v => { v with part := partOf H v.id }) = H.vertices := by
    conv_rhs => rw [← List.map_id H.vertices]
    apply List.map_congr_left
    intro v hv
    rw [w.partOf_eq hv]
    rfl
  rw [this]

theorem relabel_same (H : Hypergraph) (P : Nat → Int) : SameUpToParts H (relabel H P) where
  globalSize := rfl
  globalNumberNets := rfl
  nrNz := rfl
  dups := rfl
  vmap := rfl
  nmap := rfl
  vertices := by unfold relabel; simp only; rw [List.map_map]; rfl
  nets := by
    unfold relabel
    simp only
    induction H.nets with
    | nil => exact List.Forall₂.nil
    | cons a l ih => exact List.Forall₂.cons ⟨rfl, rfl, rfl, List.Perm.refl _⟩ ih

theorem setPartOf_relabel {H : Hypergraph} (w : WF H) (P : Nat → Int) {x : Nat} (hx : IsVertex H x)
    (p : Int) : (relabel H P).setPartOf x p = .ok (relabel H (setAll P [(x, p)])) := by
  obtain ⟨v, hv, rfl⟩ := List.mem_map.1 hx
  obtain ⟨i, hi⟩ := List.mem_iff_getElem?.1 hv
  unfold Hypergraph.setPartOf
  have h1 : (relabel H P).vertices[i]? = some { v with part := P v.id } := by
    rw [relabel_get, hi]; rfl
  have h2 : (relabel H P).localId v.id = .ok i :=
    (relabel_wf w P).localId_of_get (v := { v with part := P v.id }) h1
  simp only [h2, ok_bind]
  exact setPartAt_relabel w P hi p

/-! ### uncoarsen -/

theorem uncoarsenVertices_ok {H : Hypergraph} (w : WF H) (P : Nat → Int) (vs : List Vertex)
    (hvs : ∀ v ∈ vs, IsVertex H v.id) :
    vs.foldlM uncoarsenVertex (relabel H P) =
      .ok (relabel H (setAll P (vs.map (fun v => (v.id, v.part))))) := by
  induction vs generalizing P with
  | nil => rfl
  | cons v vs ih =>
    have hstep : uncoarsenVertex (relabel H P) v = .ok (relabel H (setAll P [(v.id, v.part)])) := by
      obtain ⟨x, hx, hid⟩ := List.mem_map.1 (hvs v (by simp))
      have hid : x.id = v.id := hid
      obtain ⟨i, hi⟩ := List.mem_iff_getElem?.1 hx
      unfold uncoarsenVertex
      have : (relabel H P).vmap v.id = some i := (w.vmap_iff v.id i).2 ⟨x, hi, hid⟩
      simp only [this]
      rw [setPartAt_relabel w P hi, hid]
      rfl
    rw [List.foldlM_cons, hstep, ok_bind, ih _ (fun v hv => hvs v (by simp [hv])), List.map_cons]
    rfl

theorem setParts_ok {H : Hypergraph} (w : WF H) (P : Nat → Int) (ms : List (Nat × Nat))
    (hms : ∀ m ∈ ms, IsVertex H m.1) (p : Int) :
    ms.foldlM (fun (H : Hypergraph) m => H.setPartOf m.1 p) (relabel H P) =
      .ok (relabel H (setAll P (ms.map (fun m => (m.1, p))))) := by
  induction ms generalizing P with
  | nil => rfl
  | cons m ms ih =>
    rw [List.foldlM_cons, setPartOf_relabel w P (hms m (by simp)), ok_bind,
      ih _ (fun v hv => hms v (by simp [hv])), List.map_cons]
    rfl

/-- The updates made for the matches. -/
def matchUpdates (P : Nat → Int) (Z : List (Nat × List (Nat × Nat))) : List (Nat × Int) :=
  Z.flatMap (fun z => z.2.map (fun m => (m.1, P z.1)))

theorem uncoarsenSamples_ok {HC H : Hypergraph} (w : WF H) (wc : WF HC) {C : Contraction}
    (hlen : C.matched.length = C.samples.length) (hs : ∀ s ∈ C.samples, IsVertex HC s)
    (hm : ∀ l ∈ C.matched, ∀ m ∈ l, IsVertex H m.1) (P : Nat → Int) :
    (List.range C.samples.length).foldlM (uncoarsenSample HC C) (relabel H P) =
      .ok (relabel H (setAll P (matchUpdates (partOf HC) (C.samples.zip C.matched)))) := by
  obtain ⟨s, e, I⟩ := foldlM_inv (f := uncoarsenSample HC C)
    (fun pre _ s => s = relabel H (setAll P (matchUpdates (partOf HC)
      ((C.samples.zip C.matched).take pre.length)))) (List.range C.samples.length) (relabel H P)
    (by simp [matchUpdates, setAll]) (by
      rintro pre i post s rfl hl
      have hi : i = pre.length ∧ i < C.samples.length := by
        have := congrArg (·[pre.length]?) hl
        simp only [List.getElem?_append_right (Nat.le_refl _), Nat.sub_self,
          List.getElem?_cons_zero] at this
        rw [List.getElem?_eq_some_iff] at this
        obtain ⟨hlt, he⟩ := this
        rw [List.length_range] at hlt
        rw [List.getElem_range] at he
        omega
      obtain ⟨rfl, hil⟩ := hi
      have h1 : C.samples[pre.length]? = some C.samples[pre.length] := List.getElem?_eq_getElem _
      have h2 : C.matched[pre.length]? = some (C.matched[pre.length]'(by omega)) :=
        List.getElem?_eq_getElem _
      generalize C.samples[pre.length] = a at h1
      generalize C.matched[pre.length]'(by omega) = l at h2
      obtain ⟨v, hv, hva⟩ := List.mem_map.1 (hs a (List.mem_of_getElem? h1))
      have hva : v.id = a := hva
      have h3 : HC.vertexOf a = .ok v := by rw [← hva]; exact wc.vertexOf_mem hv
      have hp : v.part = partOf HC a := by rw [← hva, wc.partOf_eq hv]
      have htake : (C.samples.zip C.matched).take (pre.length + 1) =
          (C.samples.zip C.matched).take pre.length ++ [(a, l)] := by
        rw [List.take_add_one, List.getElem?_zip_eq_some (z := (a, l)) |>.2 ⟨h1, h2⟩]
        rfl
      unfold uncoarsenSample
      simp only [vget_ok h1, ok_bind, h3, vget_ok h2]
      rw [setParts_ok w _ l (hm l (List.mem_of_getElem? h2))]
      refine ⟨_, rfl, ?_⟩
      rw [List.length_append, List.length_cons, List.length_nil, htake, ← setAll_append, hp]
      unfold matchUpdates
      rw [List.flatMap_append]
      simp)
  rw [e, I, List.length_range]
  congr 4
  rw [List.take_of_length_le]
  rw [List.length_zip, hlen]
  simp

/-! ### Clusters -/

section

variable {H : Hypergraph} {C : Contraction} {maxC : Nat}

theorem zip_unzip (hs : StarClustering H C maxC) :
    (C.samples.zip C.matched).map (·.1) = C.samples ∧
    (C.samples.zip C.matched).map (·.2) = C.matched :=
  ⟨List.map_fst_zip (by rw [hs.len]), List.map_snd_zip (by rw [hs.len])⟩

theorem _root_.PMondriaan.Spec.StarClustering.samples_nodup (w : WF H) (hs : StarClustering H C maxC) : C.samples.Nodup :=
  (List.nodup_append.1 (hs.cover.nodup_iff.2 w.vids)).1

theorem flatMap_key {Z : List (Nat × List (Nat × Nat))} (hnd : (Z.map (·.1)).Nodup)
    {z : Nat × List (Nat × Nat)} (hz : z ∈ Z) :
    Z.flatMap (fun p => if p.1 = z.1 then p.1 :: p.2.map (·.1) else []) = z.1 :: z.2.map (·.1) := by
  induction Z with
  | nil => cases hz
  | cons a Z ih =>
    rw [List.map_cons, List.nodup_cons] at hnd
    rw [List.flatMap_cons]
    rcases List.mem_cons.1 hz with rfl | h
    · rw [if_pos rfl]
      have : Z.flatMap (fun p => if p.1 = z.1 then p.1 :: p.2.map (·.1) else []) = [] := by
        rw [List.flatMap_eq_nil_iff]
        intro x hx
        rw [if_neg]
        intro hxz
        exact hnd.1 (List.mem_map.2 ⟨x, hx, hxz⟩)
      rw [this, List.append_nil]
    · rw [if_neg, List.nil_append]
      · exact ih hnd.2 h
      · intro haz
        exact hnd.1 (List.mem_map.2 ⟨z, h, haz.symm⟩)

theorem members_of_zip (w : WF H) (hs : StarClustering H C maxC) {z : Nat × List (Nat × Nat)}
    (hz : z ∈ C.samples.zip C.matched) : members C z.1 = z.1 :: z.2.map (·.1) := by
  unfold members
  exact flatMap_key (by rw [(zip_unzip hs).1]; exact hs.samples_nodup w) hz

theorem flatMap_perm (Z : List (Nat × List (Nat × Nat))) :
    (Z.flatMap (fun z => z.1 :: z.2.map (·.1))).Perm
      (Z.map (·.1) ++ (Z.map (·.2)).flatten.map (·.1)) := by
  induction Z with
  | nil => simp
  | cons z Z ih =>
    rw [List.flatMap_cons, List.map_cons, List.map_cons, List.flatten_cons, List.map_append,
      List.cons_append, List.cons_append]
    apply List.Perm.cons
    refine (ih.append_left _).trans ?_
    rw [← List.append_assoc, ← List.append_assoc]
    exact List.perm_append_comm.append_right _

/-- The clusters partition the vertices. -/
theorem clusters_perm (w : WF H) (hs : StarClustering H C maxC) :
    (C.samples.flatMap (members C)).Perm (H.vertices.map (·.id)) := by
  refine List.Perm.trans ?_ hs.cover
  have h1 : C.samples.flatMap (members C) =
      (C.samples.zip C.matched).flatMap (fun z => z.1 :: z.2.map (·.1)) := by
    conv_lhs => rw [← (zip_unzip hs).1]
    rw [List.flatMap_map, List.flatMap, List.flatMap]
    congr 1
    apply List.map_congr_left
    intro z hz
    exact members_of_zip w hs hz
  rw [h1]
  have := flatMap_perm (C.samples.zip C.matched)
  rw [(zip_unzip hs).1, (zip_unzip hs).2] at this
  exact this

theorem cluster_of (w : WF H) (hs : StarClustering H C maxC) {u : Nat} (hu : IsVertex H u) :
    ∃ s ∈ C.samples, u ∈ members C s :=
  List.mem_flatMap.1 ((clusters_perm w hs).symm.subset hu)

/-- `uncoarsen` when all samples are vertices of the coarse hypergraph. -/
theorem uncoarsen_ok (w : WF H) (hs : StarClustering H C maxC) {HC : Hypergraph} (wc : WF HC)
    (hids : (HC.vertices.map (·.id)).Perm C.samples) :
    ∃ P, uncoarsen HC H C = .ok (relabel H P) ∧ Projected (partOf HC) C (relabel H P) := by
  have hvH : ∀ v ∈ HC.vertices, IsVertex H v.id := by
    intro v hv
    apply hs.cover.subset
    rw [List.mem_append]
    exact Or.inl (hids.subset (List.mem_map.2 ⟨v, hv, rfl⟩))
  have hmH : ∀ l ∈ C.matched, ∀ m ∈ l, IsVertex H m.1 := by
    intro l hl m hm
    apply hs.cover.subset
    rw [List.mem_append]
    exact Or.inr (List.mem_map.2 ⟨m, List.mem_flatten.2 ⟨l, hl, hm⟩, rfl⟩)
  have hsC : ∀ s ∈ C.samples, IsVertex HC s := fun s h => hids.symm.subset h
  refine ⟨setAll (partOf H) (HC.vertices.map (fun v => (v.id, v.part)) ++
    matchUpdates (partOf HC) (C.samples.zip C.matched)), ?_, ?_⟩
  · unfold uncoarsen
    have h1 := uncoarsenVertices_ok w (partOf H) HC.vertices hvH
    rw [relabel_self w] at h1
    simp only [h1, ok_bind]
    rw [uncoarsenSamples_ok w wc hs.len hsC hmH, ← setAll_append]
  · have hnd : ((HC.vertices.map (fun v => (v.id, v.part)) ++
        matchUpdates (partOf HC) (C.samples.zip C.matched)).map (·.1)).Nodup := by
      have heq : (HC.vertices.map (fun v => (v.id, v.part)) ++
        matchUpdates (partOf HC) (C.samples.zip C.matched)).map (·.1) =
          HC.vertices.map (·.id) ++ C.matched.flatten.map (·.1) := by
        rw [List.map_append, List.map_map]
        congr 1
        unfold matchUpdates
        rw [List.map_flatMap]
        conv_rhs => rw [← (zip_unzip hs).2]
        rw [List.map_flatten, List.map_map, List.flatMap]
        congr 1
        apply List.map_congr_left
        intro z _
        simp only [Function.comp_apply, List.map_map]
        rfl
      rw [heq]
      exact ((hids.append_right _).trans hs.cover).nodup_iff.2 w.vids
    intro s hsm u hu
    obtain ⟨z, hz, hzs⟩ : ∃ z ∈ C.samples.zip C.matched, z.1 = s := by
      rw [← (zip_unzip hs).1] at hsm
      exact List.mem_map.1 hsm
    have huH : IsVertex H u :=
      (clusters_perm w hs).subset (List.mem_flatMap.2 ⟨s, hsm, hu⟩)
    rw [relabel_partOf w _ huH]
    apply setAll_mem _ _ hnd
    rw [List.mem_append]
    rw [← hzs, members_of_zip w hs hz] at hu
    rcases List.mem_cons.1 hu with rfl | hu
    · left
      obtain ⟨v, hv, hvs⟩ := List.mem_map.1 (hsC s hsm)
      have hvs : v.id = s := hvs
      refine List.mem_map.2 ⟨v, hv, ?_⟩
      rw [hzs, ← hvs, wc.partOf_eq hv]
    · right
      obtain ⟨m, hm, rfl⟩ := List.mem_map.1 hu
      unfold matchUpdates
      exact List.mem_flatMap.2 ⟨z, hz, List.mem_map.2 ⟨m, hm, by rw [hzs]⟩⟩

/-! ### Cutsize and weights of a projected labelling -/

/-- How often the cost of a net with these labels counts. -/
def labelValue (m : Metric) (ls : List Int) : Nat :=
  match m with
  | .cutNet => if 1 < ls.dedup.length then 1 else 0
  | .lambdaMinusOne => ls.dedup.length - 1

theorem dedup_length_congr {l l' : List Int} (h : ∀ x, x ∈ l ↔ x ∈ l') :
    l.dedup.length = l'.dedup.length := by
  apply List.Perm.length_eq
  rw [List.perm_ext_iff_of_nodup (List.nodup_dedup _) (List.nodup_dedup _)]
  intro x
  rw [List.mem_dedup, List.mem_dedup]
  exact h x

theorem labelValue_congr (m : Metric) {l l' : List Int} (h : ∀ x, x ∈ l ↔ x ∈ l') :
    labelValue m l = labelValue m l' := by
  unfold labelValue
  rw [dedup_length_congr h]

theorem dedup_length_le (l : List Int) : l.dedup.length ≤ l.length :=
  (List.dedup_sublist l).length_le

theorem labelValue_small (m : Metric) {l : List Int} (h : l.length < 2) : labelValue m l = 0 := by
  have := dedup_length_le l
  unfold labelValue
  split
  · rw [if_neg]; omega
  · omega

theorem cut_iff_dedup (P : Nat → Int) (vs : List Nat) :
    (∃ u ∈ vs, ∃ w ∈ vs, P u ≠ P w) ↔ 1 < (vs.map P).dedup.length := by
  constructor
  · rintro ⟨u, hu, x, hx, hne⟩
    by_contra hlt
    have hu' : P u ∈ (vs.map P).dedup := List.mem_dedup.2 (List.mem_map.2 ⟨u, hu, rfl⟩)
    have hx' : P x ∈ (vs.map P).dedup := List.mem_dedup.2 (List.mem_map.2 ⟨x, hx, rfl⟩)
    rcases hd : (vs.map P).dedup with _ | ⟨a, _ | ⟨b, l⟩⟩
    · rw [hd] at hu'; cases hu'
    · rw [hd, List.mem_singleton] at hu' hx'
      exact hne (hu'.trans hx'.symm)
    · rw [hd] at hlt; simp at hlt
  · intro h
    rcases hd : (vs.map P).dedup with _ | ⟨a, _ | ⟨b, l⟩⟩
    · rw [hd] at h; simp at h
    · rw [hd] at h; simp at h
    · have hnd := List.nodup_dedup (vs.map P)
      rw [hd, List.nodup_cons] at hnd
      have ha : a ∈ vs.map P := List.mem_dedup.1 (by rw [hd]; simp)
      have hb : b ∈ vs.map P := List.mem_dedup.1 (by rw [hd]; simp)
      obtain ⟨u, hu, rfl⟩ := List.mem_map.1 ha
      obtain ⟨x, hx, rfl⟩ := List.mem_map.1 hb
      refine ⟨u, hu, x, hx, ?_⟩
      intro he
      exact hnd.1 (by rw [he]; simp)

theorem cutValue_labels (m : Metric) (H : Hypergraph) : cutValue m H =
    (H.nets.map (fun n => n.cost * (labelValue m (n.vertices.map (partOf H)) : Int))).sum := by
  unfold cutValue labelValue
  cases m with
  | cutNet =>
    simp only
    rw [cutNet_as_sum]
    congr 1
    apply List.map_congr_left
    intro n _
    simp only [cut_iff_dedup]
    split <;> simp
  | lambdaMinusOne =>
    simp only
    rw [lambda_as_sum]

theorem sum_filter_zero {α : Type} (l : List α) (p : α → Bool) (f : α → Int)
    (h : ∀ a ∈ l, p a = false → f a = 0) : (l.map f).sum = ((l.filter p).map f).sum := by
  induction l with
  | nil => rfl
  | cons a l ih =>
    have ih := ih (fun a ha => h a (by simp [ha]))
    rw [List.map_cons, List.sum_cons, List.filter_cons]
    cases hp : p a with
    | true => simp [ih]
    | false => rw [h a (by simp) hp]; simp [ih]

/-- The clusters touched by the net with id `e`. -/
def touchedOf (H : Hypergraph) (C : Contraction) (e : Nat) : List Nat :=
  match H.nets.find? (fun n => n.id == e) with
  | some n => touched C n
  | none => []

theorem touchedOf_eq (w : WF H) {n : Net} (hn : n ∈ H.nets) : touchedOf H C n.id = touched C n := by
  unfold touchedOf
  cases hf : H.nets.find? (fun m => m.id == n.id) with
  | none =>
    rw [List.find?_eq_none] at hf
    exact absurd (beq_self_eq_true n.id) (by simpa using hf n hn)
  | some m =>
    have h1 := List.find?_some hf
    have h2 := List.mem_of_find?_eq_some hf
    rw [w.net_inj h2 hn (by simpa using h1)]

theorem labels_touched (w : WF H) (hs : StarClustering H C maxC) {P Q : Nat → Int}
    (hP : ∀ s ∈ C.samples, ∀ u ∈ members C s, Q u = P s) {n : Net} (hn : n ∈ H.nets) (x : Int) :
    x ∈ n.vertices.map Q ↔ x ∈ (touched C n).map P := by
  unfold touched
  constructor
  · intro hx
    obtain ⟨u, hu, rfl⟩ := List.mem_map.1 hx
    obtain ⟨v, hv, hvu, -⟩ := w.inc_vtx n hn u hu
    obtain ⟨s, hsm, hum⟩ := cluster_of w hs (u := u) (List.mem_map.2 ⟨v, hv, hvu⟩)
    refine List.mem_map.2 ⟨s, List.mem_filter.2 ⟨hsm, ?_⟩, (hP s hsm u hum).symm⟩
    simp only [decide_eq_true_eq]
    exact ⟨u, hu, hum⟩
  · intro hx
    obtain ⟨s, hsm, rfl⟩ := List.mem_map.1 hx
    rw [List.mem_filter, decide_eq_true_eq] at hsm
    obtain ⟨hsm, u, hu, hum⟩ := hsm
    exact List.mem_map.2 ⟨u, hu, hP s hsm u hum⟩

/-- A projected labelling of `H` cuts exactly what the labelling of the contracted nets cuts. -/
theorem projected_cut (w : WF H) (hs : StarClustering H C maxC) {HC H' : Hypergraph}
    (hn : ContractedNets H C HC) (hsame : SameUpToParts H H')
    (hP : Projected (partOf HC) C H') (m : Metric) : cutValue m H' = cutValue m HC := by
  set f : Nat × Int → Int := fun x =>
    x.2 * (labelValue m ((touchedOf H C x.1).map (partOf HC)) : Int) with hf
  have h1 : cutValue m HC = ((HC.nets.map (fun n => (n.id, n.cost))).map f).sum := by
    rw [cutValue_labels, List.map_map]
    congr 1
    apply List.map_congr_left
    intro n' hn'
    have hid : (n'.id, n'.cost) ∈ HC.nets.map (fun n => (n.id, n.cost)) :=
      List.mem_map.2 ⟨n', hn', rfl⟩
    obtain ⟨n, hnf, hne⟩ := List.mem_map.1 (hn.nets.subset hid)
    have hnH := (List.mem_filter.1 hnf).1
    simp only [Prod.mk.injEq] at hne
    simp only [Function.comp_apply, hf]
    rw [← hne.1, touchedOf_eq w hnH]
    congr 2
    apply labelValue_congr
    intro x
    exact ((hn.pins n' hn' n hnH hne.1).map _).mem_iff
  have h2 : cutValue m H' = (H.nets.map (fun n => f (n.id, n.cost))).sum := by
    rw [cutValue_labels]
    congr 1
    refine forall2_map_eq' hsame.nets _ _ ?_
    intro n hnH n' hnn
    obtain ⟨i1, i2, -, i4⟩ := hnn
    simp only [hf]
    rw [i2, touchedOf_eq w hnH]
    congr 2
    apply labelValue_congr
    intro x
    rw [(i4.map _).mem_iff]
    exact labels_touched w hs hP hnH x
  rw [h1, h2, (hn.nets.map f).sum_eq, List.map_map]
  apply sum_filter_zero
  intro n hnH hp
  simp only [hf]
  rw [touchedOf_eq w hnH, labelValue_small]
  · simp
  · rw [decide_eq_false_iff_not] at hp
    rw [List.length_map]
    omega

/-- The weight of the vertex with id `u`. -/
def weightOf (H : Hypergraph) (u : Nat) : Int :=
  match H.vertices.find? (fun v => v.id == u) with
  | some v => v.weight
  | none => 0

theorem weightOf_eq (w : WF H) {v : Vertex} (hv : v ∈ H.vertices) : weightOf H v.id = v.weight := by
  unfold weightOf
  cases hf : H.vertices.find? (fun x => x.id == v.id) with
  | none =>
    rw [List.find?_eq_none] at hf
    exact absurd (beq_self_eq_true v.id) (by simpa using hf v hv)
  | some x =>
    have h1 := List.find?_some hf
    have h2 := List.mem_of_find?_eq_some hf
    rw [w.vertex_inj h2 hv (by simpa using h1)]

theorem sum_map_filter {α : Type} (l : List α) (p : α → Bool) (f : α → Int) :
    ((l.filter p).map f).sum = (l.map (fun a => if p a then f a else 0)).sum := by
  induction l with
  | nil => rfl
  | cons a l ih =>
    rw [List.filter_cons, List.map_cons, List.sum_cons, ← ih]
    split <;> simp

theorem filter_sum_ids (w : WF H) (q : Nat → Bool) :
    ((H.vertices.filter (fun v => q v.id)).map (·.weight)).sum =
      ((H.vertices.map (·.id)).map (fun u => if q u then weightOf H u else 0)).sum := by
  rw [List.map_map, sum_map_filter]
  congr 1
  apply List.map_congr_left
  intro v hv
  simp only [Function.comp_apply, weightOf_eq w hv]

theorem sum_flatMap' {α : Type} (l : List α) (g : α → List Nat) (f : Nat → Int) :
    ((l.flatMap g).map f).sum = (l.map (fun a => ((g a).map f).sum)).sum := by
  induction l with
  | nil => rfl
  | cons a l ih => rw [List.flatMap_cons, List.map_append, List.sum_append, List.map_cons,
      List.sum_cons, ih]

theorem clusterWeight_eq (w : WF H) (hs : StarClustering H C maxC) {s : Nat} (hsm : s ∈ C.samples) :
    clusterWeight H C s = ((members C s).map (weightOf H)).sum := by
  unfold clusterWeight
  rw [filter_sum_ids w (fun u => decide (u ∈ members C s))]
  have hnd : (C.samples.flatMap (members C)).Nodup := (clusters_perm w hs).nodup_iff.2 w.vids
  have hsub : (members C s).Sublist (C.samples.flatMap (members C)) := by
    rw [List.flatMap]
    exact List.sublist_flatten_of_mem (List.mem_map.2 ⟨s, hsm, rfl⟩)
  have hp : ((H.vertices.map (·.id)).filter (fun u => decide (u ∈ members C s))).Perm
      (members C s) := by
    rw [List.perm_ext_iff_of_nodup (w.vids.filter _) (hsub.nodup hnd)]
    intro u
    rw [List.mem_filter, decide_eq_true_iff]
    exact ⟨fun h => h.2, fun h => ⟨(clusters_perm w hs).subset (hsub.subset h), h⟩⟩
  rw [← (hp.map (weightOf H)).sum_eq, sum_map_filter]

/-- The clusters have together the weight of `H`. -/
theorem clusterWeights_total (w : WF H) (hs : StarClustering H C maxC) :
    ((clusterWeights H C).map (·.2)).sum = allWeight H := by
  unfold clusterWeights allWeight
  have h1 : H.vertices.map (·.weight) = (H.vertices.map (·.id)).map (weightOf H) := by
    rw [List.map_map]
    apply List.map_congr_left
    intro v hv
    simp only [Function.comp_apply, weightOf_eq w hv]
  rw [h1, ← ((clusters_perm w hs).map (weightOf H)).sum_eq, sum_flatMap', List.map_map]
  congr 1
  apply List.map_congr_left
  intro s hsm
  exact clusterWeight_eq w hs hsm

/-- A projected labelling gives every part the weight of the clusters with that label. -/
theorem projected_weight (w : WF H) (hs : StarClustering H C maxC) {HC H' : Hypergraph}
    (wc : WF HC) (w' : WF H')
    (hv : (HC.vertices.map (fun v => (v.id, v.weight))).Perm (clusterWeights H C))
    (hsame : SameUpToParts H H') (hP : Projected (partOf HC) C H') (p : Int) :
    partWeight H' p = partWeight HC p := by
  have hids : H'.vertices.map (·.id) = H.vertices.map (·.id) := hsame.vids
  have hw : ∀ u, IsVertex H u → weightOf H' u = weightOf H u := by
    intro u hu
    obtain ⟨v, hv, rfl⟩ := List.mem_map.1 hu
    have : (v.id, v.nets, v.weight) ∈ H'.vertices.map (fun v => (v.id, v.nets, v.weight)) := by
      rw [hsame.vertices]; exact List.mem_map.2 ⟨v, hv, rfl⟩
    obtain ⟨v', hv', he⟩ := List.mem_map.1 this
    simp only [Prod.mk.injEq] at he
    rw [weightOf_eq w hv, ← he.1, weightOf_eq w' hv', he.2.2]
  have h1 : partWeight H' p = ((C.samples.flatMap (members C)).map
      (fun u => if partOf H' u = p then weightOf H u else 0)).sum := by
    have h2 : partWeight H' p = ((H'.vertices.filter (fun v => decide (partOf H' v.id = p))).map
        (·.weight)).sum := by
      unfold partWeight
      congr 2
      apply List.filter_congr
      intro v hv
      rw [w'.partOf_eq hv]
    rw [h2, filter_sum_ids w' (fun u => decide (partOf H' u = p)), hids,
      ((clusters_perm w hs).map _).sum_eq]
    congr 1
    apply List.map_congr_left
    intro u hu
    rw [hw u hu]
    simp
  have h3 : partWeight HC p =
      ((HC.vertices.map (fun v => (v.id, v.weight))).map
        (fun x => if partOf HC x.1 = p then x.2 else 0)).sum := by
    unfold partWeight
    rw [sum_map_filter, List.map_map]
    congr 1
    apply List.map_congr_left
    intro v hv
    simp only [Function.comp_apply, wc.partOf_eq hv, decide_eq_true_eq]
  rw [h1, h3, (hv.map _).sum_eq, sum_flatMap']
  unfold clusterWeights
  rw [List.map_map]
  congr 1
  apply List.map_congr_left
  intro s hsm
  simp only [Function.comp_apply]
  rw [clusterWeight_eq w hs hsm]
  by_cases hp : partOf HC s = p
  · rw [if_pos hp]
    congr 1
    apply List.map_congr_left
    intro u hu
    rw [if_pos ((hP s hsm u hu).trans hp)]
  · rw [if_neg hp]
    have : ((members C s).map (fun u => if partOf H' u = p then weightOf H u else 0)) =
        (members C s).map (fun _ => (0 : Int)) := by
      apply List.map_congr_left
      intro u hu
      rw [if_neg (by rw [hP s hsm u hu]; exact hp)]
    rw [this]
    simp

end

end PMondriaan

import Verif.Spec.Lone
import Verif.Props.Multilevel

/-
Proofs about the multilevel bisection when vertices of weight zero occur.
-/

namespace PMondriaan

open Spec

/-- Elements of weight zero may be left out of a sum. -/
theorem sum_keep_zero (l : List Vertex) (keep : Vertex → Prop) [DecidablePred keep]
    (hz : ∀ v ∈ l, ¬ keep v → v.weight = 0) (p : Nat × Int → Bool) :
    (((((l.filter (fun v => decide (keep v))).map (fun v => (v.id, v.weight))).filter p).map (·.2)).sum : Int) =
      (((l.map (fun v => (v.id, v.weight))).filter p).map (·.2)).sum := by
  induction l with
  | nil => rfl
  | cons v l ih =>
    have h1 := ih (fun u hu => hz u (by simp [hu]))
    by_cases hk : keep v
    · rw [List.filter_cons_of_pos (by simpa using hk), List.map_cons, List.map_cons]
      by_cases hp : p (v.id, v.weight) = true
      · rw [List.filter_cons_of_pos hp, List.filter_cons_of_pos hp, List.map_cons, List.sum_cons, List.map_cons,
          List.sum_cons, h1]
      · rw [List.filter_cons_of_neg hp, List.filter_cons_of_neg hp, h1]
    · rw [List.filter_cons_of_neg (by simpa using hk), h1, List.map_cons]
      by_cases hp : p (v.id, v.weight) = true
      · rw [List.filter_cons_of_pos hp, List.map_cons, List.sum_cons]
        dsimp only
        rw [hz v (by simp) hk]
        omega
      · rw [List.filter_cons_of_neg hp]

/-- Relabelling some vertices of a range. -/
theorem relabel_some {H : Hypergraph} (w : WF H) {s e : Nat}
    {labels : Interval} (hl : labels.low ≠ labels.high)
    {A : Hypergraph} (hb : Bipartitioned A) (keep : Vertex → Prop) [DecidablePred keep]
    (hz : ∀ v ∈ slice H.vertices s e, ¬ keep v → v.weight = 0)
    (hp : (A.vertices.map (fun v => (v.id, v.weight))).Perm
      (((slice H.vertices s e).filter (fun v => decide (keep v))).map (fun v => (v.id, v.weight)))) :
    ∃ H', A.vertices.foldlM (copyLabel labels) H = .ok H' ∧
      H' = { H with vertices := H'.vertices } ∧ H'.vertices.length = H.vertices.length ∧
      (∀ i, i < s ∨ e ≤ i → H'.vertices[i]? = H.vertices[i]?) ∧
      (∀ i v, s ≤ i → i < e → H.vertices[i]? = some v → ¬ keep v → H'.vertices[i]? = some v) ∧
      (∀ i v, s ≤ i → i < e → H.vertices[i]? = some v → keep v →
        ∃ p, (p = labels.low ∨ p = labels.high) ∧ H'.vertices[i]? = some { v with part := p }) ∧
      partWeight A 0 = rangeWeight H' s e labels.low ∧
      partWeight A 1 = rangeWeight H' s e labels.high := by
  obtain ⟨U, hU⟩ : ∃ U, U = A.vertices.map (fun v => (v.id, labels.label v.part)) := ⟨_, rfl⟩
  obtain ⟨P, hP⟩ : ∃ P, P = setAll (partOf H) U := ⟨_, rfl⟩
  have hids : (A.vertices.map (·.id)).Perm (((slice H.vertices s e).filter (fun v => decide (keep v))).map (·.id)) := by
    have := hp.map (·.1)
    rw [List.map_map, List.map_map] at this
    exact this
  have hsub0 : (slice H.vertices s e).Sublist H.vertices :=
    (List.take_sublist _ _).trans (List.drop_sublist _ _)
  have hsub : ((slice H.vertices s e).filter (fun v => decide (keep v))).Sublist H.vertices :=
    List.filter_sublist.trans hsub0
  have hUid : U.map (·.1) = A.vertices.map (·.id) := by rw [hU, List.map_map]; rfl
  have hnd : (U.map (·.1)).Nodup := by
    rw [hUid]
    exact hids.nodup_iff.2 (w.vids.sublist (hsub.map _))
  have hIs : ∀ v ∈ A.vertices, IsVertex H v.id := by
    intro v hv
    obtain ⟨x, hx, he⟩ := List.mem_map.1 (hids.subset (List.mem_map.2 ⟨v, hv, rfl⟩))
    exact List.mem_map.2 ⟨x, hsub.subset hx, he⟩
  have hlab : ∀ x ∈ A.vertices, P x.id = labels.label x.part := fun x hx => by
    rw [hP]
    exact setAll_mem _ U hnd (by rw [hU]; exact List.mem_map.2 ⟨x, hx, rfl⟩)
  have hsl : ∀ i (v : Vertex), s ≤ i → i < e → H.vertices[i]? = some v →
      v ∈ slice H.vertices s e := by
    intro i v hi he hv
    rw [List.mem_iff_getElem?]
    refine ⟨i - s, ?_⟩
    unfold slice
    rw [List.getElem?_take, if_pos (by omega), List.getElem?_drop]
    rw [← hv]
    congr 1
    omega
  have hlh : ∀ x ∈ A.vertices, (labels.label x.part = labels.low ↔ x.part = 0) ∧
      (labels.label x.part = labels.high ↔ x.part = 1) := by
    intro x hx
    rcases hb x hx with h | h
    · rw [h]; simp [Interval.label, hl]
    · rw [h]; simp [Interval.label, hl.symm]
  have hin : ∀ v ∈ slice H.vertices s e, keep v → P v.id = labels.low ∨ P v.id = labels.high := by
    intro v hv hk
    obtain ⟨x, hx, he⟩ := List.mem_map.1 (hids.symm.subset
      (List.mem_map.2 ⟨v, List.mem_filter.2 ⟨hv, decide_eq_true hk⟩, rfl⟩))
    have he : x.id = v.id := he
    rw [← he, hlab x hx]
    rcases hb x hx with h | h
    · left; rw [h]; rfl
    · right; rw [h]; rfl
  have hout : ∀ v ∈ H.vertices, (v ∈ slice H.vertices s e → ¬ keep v) → P v.id = v.part := by
    intro v hv hk
    rw [hP, setAll_not_mem _ _ (by
      rw [hUid]
      intro hm
      obtain ⟨x, hx, he⟩ := List.mem_map.1 (hids.subset hm)
      have hxv : x = v := w.vertex_inj (hsub.subset hx) hv he
      rw [hxv] at hx
      obtain ⟨h1, h2⟩ := List.mem_filter.1 hx
      exact hk h1 (of_decide_eq_true h2)), w.partOf_eq hv]
  have hget : ∀ i : Nat, (relabel H P).vertices[i]? =
      (H.vertices[i]?).map (fun v : Vertex => { v with part := P v.id }) := relabel_get H P
  have hrw : ∀ q : Int, rangeWeight (relabel H P) s e q =
      ((((slice H.vertices s e).map (fun v => (v.id, v.weight))).filter
        (fun z => P z.1 = q)).map (·.2)).sum := by
    intro q
    unfold rangeWeight slice relabel
    simp only
    rw [← List.map_drop, ← List.map_take, List.filter_map, List.map_map, List.filter_map,
      List.map_map]
    rfl
  have hpw : ∀ (q r : Int), (∀ x ∈ A.vertices, (P x.id = r ↔ x.part = q)) → partWeight A q =
      (((A.vertices.map (fun v => (v.id, v.weight))).filter (fun z => P z.1 = r)).map (·.2)).sum := by
    intro q r h
    unfold partWeight
    rw [List.filter_map, List.map_map]
    have : A.vertices.filter (fun v => v.part = q) =
        A.vertices.filter ((fun z : Nat × Int => decide (P z.1 = r)) ∘ fun v => (v.id, v.weight)) := by
      apply List.filter_congr
      intro x hx
      simp only [Function.comp_def]
      rw [decide_eq_decide]
      exact (h x hx).symm
    rw [this]
    rfl
  refine ⟨relabel H P, ?_, rfl, ?_, ?_, ?_, ?_, ?_, ?_⟩
  · have := copyLabels_ok w labels A.vertices hIs (partOf H)
    rw [relabel_self w] at this
    rw [hP, hU]
    exact this
  · unfold relabel; simp
  · intro i hi
    rw [hget]
    cases hv : H.vertices[i]? with
    | none => rfl
    | some v =>
      have hvm : v ∈ H.vertices := List.mem_of_getElem? hv
      rw [Option.map_some, hout v hvm]
      intro hx
      exfalso
      obtain ⟨j, hj⟩ := List.mem_iff_getElem?.1 hx
      unfold slice at hj
      rw [List.getElem?_take] at hj
      split at hj
      · rw [List.getElem?_drop] at hj
        have := w.vindex_inj hj hv rfl
        omega
      · cases hj
  · intro i v hi he hv hk
    rw [hget, hv, Option.map_some, hout v (List.mem_of_getElem? hv) (fun _ => hk)]
  · intro i v hi he hv hk
    refine ⟨P v.id, hin v (hsl i v hi he hv) hk, ?_⟩
    rw [hget, hv]
    rfl
  · rw [hpw 0 labels.low (fun x hx => by rw [hlab x hx]; exact (hlh x hx).1), hrw]
    rw [((hp.filter _).map _).sum_eq]
    exact sum_keep_zero _ keep hz _
  · rw [hpw 1 labels.high (fun x hx => by rw [hlab x hx]; exact (hlh x hx).2), hrw]
    rw [((hp.filter _).map _).sum_eq]
    exact sum_keep_zero _ keep hz _

theorem forall2_filter_map {α β γ : Type} {R : α → β → Prop} {l : List α} {l' : List β} (h : List.Forall₂ R l l')
    (p : α → Bool) (q : β → Bool) (f : α → γ) (g : β → γ) (hR : ∀ a ∈ l, ∀ b, R a b → p a = q b ∧ f a = g b) :
    (l'.filter q).map g = (l.filter p).map f := by
  induction h with
  | nil => rfl
  | @cons a b l l' hab _ ih =>
    obtain ⟨h1, h2⟩ := hR a (by simp) b hab
    have h3 := ih (fun x hx => hR x (by simp [hx]))
    rw [List.filter_cons, List.filter_cons, h1]
    split
    · rw [List.map_cons, List.map_cons, h2, h3]
    · exact h3

/-- In the restriction to a range, the vertices without nets are those that are alone. -/
theorem lone_iff {H : Hypergraph} (w : WF H) {s e : Nat} {v v' : Vertex} (hv : v ∈ slice H.vertices s e)
    (h : ∀ i, i ∈ v'.nets ↔ i ∈ v.nets ∧ 2 ≤ (rangePins [{ H := H, s := s, e := e }] i).length) :
    v'.nets = [] ↔ Lone H s e v := by
  have hsub : (slice H.vertices s e).Sublist H.vertices :=
    (List.take_sublist _ _).trans (List.drop_sublist _ _)
  have hpins : ∀ i, rangePins [{ H := H, s := s, e := e }] i =
      ((slice H.vertices s e).filter (fun v => i ∈ v.nets)).map (·.id) := by
    intro i
    unfold rangePins
    rw [List.flatMap_cons, List.flatMap_nil, List.append_nil]
    rfl
  constructor
  · intro hnil n hn hvn u hu hun
    by_contra hne
    have hmem : ∀ x ∈ slice H.vertices s e, x.id ∈ n.vertices → n.id ∈ x.nets := by
      intro x hx hxn
      obtain ⟨z, hz, hzu, hzn⟩ := w.inc_vtx n hn _ hxn
      rw [← w.vertex_inj hz (hsub.subset hx) hzu]
      exact hzn
    have hpin : ∀ x ∈ slice H.vertices s e, x.id ∈ n.vertices →
        x.id ∈ rangePins [{ H := H, s := s, e := e }] n.id := by
      intro x hx hxn
      rw [hpins]
      exact List.mem_map.2 ⟨x, List.mem_filter.2 ⟨hx, decide_eq_true (hmem x hx hxn)⟩, rfl⟩
    have htwo : 2 ≤ (rangePins [{ H := H, s := s, e := e }] n.id).length := by
      have p1 := hpin u hu hun
      have p2 := hpin v hv hvn
      match hp : rangePins [{ H := H, s := s, e := e }] n.id with
      | [] => rw [hp] at p1; cases p1
      | [q] =>
        rw [hp, List.mem_singleton] at p1 p2
        exact absurd (p1.trans p2.symm) hne
      | _ :: _ :: _ => simp
    have := (h n.id).2 ⟨hmem v hv hvn, htwo⟩
    rw [hnil] at this
    cases this
  · intro hL
    rw [List.eq_nil_iff_forall_not_mem]
    intro i hi
    obtain ⟨h1, h2⟩ := (h i).1 hi
    obtain ⟨n, hn, hne, hvn⟩ := w.inc_net v (hsub.subset hv) i h1
    have hall : ∀ x ∈ rangePins [{ H := H, s := s, e := e }] i, x = v.id := by
      intro x hx
      rw [hpins] at hx
      obtain ⟨u, hu, rfl⟩ := List.mem_map.1 hx
      obtain ⟨hu1, hu2⟩ := List.mem_filter.1 hu
      obtain ⟨n2, hn2, hne2, hun⟩ := w.inc_net u (hsub.subset hu1) i (of_decide_eq_true hu2)
      rw [← w.net_inj hn hn2 (hne.trans hne2.symm)] at hun
      exact hL n hn hvn u hu1 hun
    have hnd : (rangePins [{ H := H, s := s, e := e }] i).Nodup := by
      rw [hpins]
      exact w.vids.sublist ((List.filter_sublist.trans hsub).map _)
    match hq : rangePins [{ H := H, s := s, e := e }] i, h2, hall, hnd with
    | a :: b :: l, _, hall, hnd =>
      have ha := hall a (by simp)
      have hb := hall b (by simp)
      rw [ha, hb] at hnd
      simp at hnd
    | [a], h2, _, _ => simp at h2
    | [], h2, _, _ => simp at h2

end PMondriaan

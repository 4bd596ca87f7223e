import Verif.Model.Reduce
import Verif.Proofs.Bsp
import Verif.Proofs.Cut
import Verif.Proofs.Container

/-
Proofs about duplicate nets, copying and restricting hypergraphs.
-/

namespace PMondriaan

open Spec

/-! ### Sums over groups of nets -/

theorem sum_unique {α : Type} {l : List α} (hnd : l.Nodup) {m : α} (hm : m ∈ l) {g : α → Int}
    (h0 : ∀ m' ∈ l, m' ≠ m → g m' = 0) : (l.map g).sum = g m := by
  induction l with
  | nil => cases hm
  | cons a l ih =>
    rw [List.nodup_cons] at hnd
    rw [List.map_cons, List.sum_cons]
    rcases List.mem_cons.1 hm with rfl | hm'
    · have : (l.map g).sum = 0 := by
        rw [List.map_congr_left (g := fun _ => (0 : Int)) (by
          intro x hx
          exact h0 x (by simp [hx]) (fun h => hnd.1 (h ▸ hx)))]
        clear ih h0 hnd hm
        induction l with
        | nil => rfl
        | cons a l ih => rw [List.map_cons, List.sum_cons, ih]; rfl
      rw [this, add_zero]
    · rw [h0 a (by simp) (fun h => hnd.1 (h ▸ hm')),
        ih hnd.2 hm' (fun m' h1 h2 => h0 m' (by simp [h1]) h2), zero_add]

theorem sum_swap {α β : Type} (l : List α) (l' : List β) (f : α → β → Int) :
    (l.map (fun a => (l'.map (f a)).sum)).sum = (l'.map (fun b => (l.map (fun a => f a b)).sum)).sum := by
  induction l with
  | nil => induction l' with
    | nil => rfl
    | cons b l' ih => simp at ih ⊢
  | cons a l ih =>
    rw [List.map_cons, List.sum_cons, ih]
    clear ih
    induction l' with
    | nil => rfl
    | cons b l' ih =>
      simp only [List.map_cons, List.sum_cons] at ih ⊢
      rw [← ih]; ring

theorem sum_filter_ite' {α : Type} (l : List α) (p : α → Bool) (g : α → Int) :
    ((l.filter p).map g).sum = (l.map (fun a => if p a then g a else 0)).sum := by
  induction l with
  | nil => rfl
  | cons a l ih =>
    by_cases h : p a
    · rw [List.filter_cons_of_pos h]; simp [h, ih]
    · rw [List.filter_cons_of_neg h]; simp [h, ih]

/-- Total cost of the nets with pin list `k`. -/
def groupCost (nets : List Net) (k : List Nat) : Int :=
  ((nets.filter (fun n => n.vertices = k)).map (·.cost)).sum

theorem groupCost_cons (n : Net) (nets : List Net) (k : List Nat) :
    groupCost (n :: nets) k = (if n.vertices = k then n.cost else 0) + groupCost nets k := by
  unfold groupCost
  by_cases h : n.vertices = k <;> simp [h]

theorem group_sum {L : List Net} (hnd : (L.map (·.id)).Nodup) {last : List Nat → Nat}
    (hlast : ∀ n ∈ L, ∃ m ∈ L, m.id = last n.vertices ∧ m.vertices = n.vertices)
    (f : List Nat → Int) :
    (L.map (fun n => n.cost * f n.vertices)).sum =
      ((L.filter (fun n => last n.vertices = n.id)).map
        (fun n => groupCost L n.vertices * f n.vertices)).sum := by
  set K := L.filter (fun n => last n.vertices = n.id) with hK
  have hKnd : K.Nodup := (List.filter_sublist).nodup (List.Nodup.of_map _ hnd)
  have h1 : ∀ n ∈ L, n.cost * f n.vertices =
      (K.map (fun m => if n.vertices = m.vertices then n.cost * f m.vertices else 0)).sum := by
    intro n hn
    obtain ⟨m, hm, hid, hv⟩ := hlast n hn
    have hmK : m ∈ K := by
      rw [hK, List.mem_filter]
      refine ⟨hm, ?_⟩
      rw [decide_eq_true_eq, hv, hid]
    rw [sum_unique hKnd hmK]
    · rw [if_pos hv.symm, hv]
    · intro m' hm' hne
      rw [if_neg]
      intro hv'
      rw [hK, List.mem_filter, decide_eq_true_eq] at hm'
      apply hne
      exact (List.inj_on_of_nodup_map hnd) hm'.1 hm (by rw [← hm'.2, ← hv', hid])
  rw [List.map_congr_left h1, sum_swap]
  congr 1
  apply List.map_congr_left
  intro m hm
  unfold groupCost
  rw [sum_filter_ite']
  clear h1 hKnd hm hK hlast hnd K
  induction L with
  | nil => simp
  | cons n L ih =>
    simp only [List.map_cons, List.sum_cons, ih, decide_eq_true_eq]
    by_cases h : n.vertices = m.vertices
    · simp only [h, if_true]; ring
    · simp only [h, if_false]; ring

/-! ### The two maps -/

theorem wrap32_id {x : Int} (h0 : 0 ≤ x) (h1 : x < 2147483648) : wrap32 x = x := by
  unfold wrap32
  apply Int.bmod_eq_of_le <;> simp <;> omega

theorem groupCost_nonneg {nets : List Net} (h : ∀ n ∈ nets, 0 ≤ n.cost) (k : List Nat) :
    0 ≤ groupCost nets k := by
  induction nets with
  | nil => simp [groupCost]
  | cons n nets ih =>
    rw [groupCost_cons]
    have h1 := h n (by simp)
    have h2 := ih (fun m hm => h m (by simp [hm]))
    split <;> omega

theorem groupCost_le {nets : List Net} (h : ∀ n ∈ nets, 0 ≤ n.cost) (k : List Nat) :
    groupCost nets k ≤ (nets.map (·.cost)).sum := by
  induction nets with
  | nil => simp [groupCost]
  | cons n nets ih =>
    rw [groupCost_cons, List.map_cons, List.sum_cons]
    have h1 := h n (by simp)
    have h2 := ih (fun m hm => h m (by simp [hm]))
    split <;> omega

theorem edgeCosts_eq {nets : List Net} (h : ∀ n ∈ nets, 0 ≤ n.cost)
    (ht : ∀ k, groupCost nets k < 2147483648) (k : List Nat) :
    edgeCosts nets k = groupCost nets k := by
  unfold edgeCosts
  suffices H : ∀ (nets : List Net) (m : List Nat → Int), (∀ n ∈ nets, 0 ≤ n.cost) →
      0 ≤ m k → m k + groupCost nets k < 2147483648 →
      nets.foldl (fun m n => fun k => if k = n.vertices then wrap32 (m k + n.cost) else m k) m k =
        m k + groupCost nets k by
    have := H nets (fun _ => 0) h (le_refl _) (by simpa using ht k)
    simpa using this
  intro nets
  induction nets with
  | nil => intro m _ _ _; simp [groupCost]
  | cons n nets ih =>
    intro m h hm ht
    rw [List.foldl_cons]
    have h1 := h n (by simp)
    have h2 := groupCost_nonneg (fun m hm => h m (by simp [hm])) (nets := nets) k
    rw [groupCost_cons] at ht ⊢
    rw [ih _ (fun m hm => h m (by simp [hm]))]
    · by_cases hk : n.vertices = k
      · rw [if_pos hk, if_pos hk.symm]
        rw [if_pos hk] at ht
        rw [wrap32_id (by omega) (by omega)]; ring
      · rw [if_neg hk, if_neg (fun h => hk h.symm)]; ring
    · by_cases hk : n.vertices = k
      · rw [if_pos hk.symm]
        rw [if_pos hk] at ht
        rw [wrap32_id (by omega) (by omega)]; omega
      · rw [if_neg (fun h => hk h.symm)]; exact hm
    · by_cases hk : n.vertices = k
      · rw [if_pos hk.symm]
        rw [if_pos hk] at ht
        rw [wrap32_id (by omega) (by omega)]; omega
      · rw [if_neg (fun h => hk h.symm)]
        rw [if_neg hk] at ht; omega

theorem lastIds_spec {nets : List Net} : ∀ n ∈ nets,
    ∃ m ∈ nets, m.id = lastIds nets n.vertices ∧ m.vertices = n.vertices := by
  unfold lastIds
  suffices H : ∀ (nets : List Net) (f : List Nat → Nat) (k : List Nat),
      ((∀ n ∈ nets, n.vertices ≠ k) ∧ nets.foldl (fun m n => fun k => if k = n.vertices then n.id
        else m k) f k = f k) ∨
      ∃ m ∈ nets, m.id = nets.foldl (fun m n => fun k => if k = n.vertices then n.id else m k) f k ∧
        m.vertices = k by
    intro n hn
    rcases H nets (fun _ => 0) n.vertices with ⟨h, -⟩ | h
    · exact absurd rfl (h n hn)
    · exact h
  intro nets
  induction nets with
  | nil => intro f k; left; simp
  | cons n nets ih =>
    intro f k
    rw [List.foldl_cons]
    rcases ih (fun k => if k = n.vertices then n.id else f k) k with ⟨h1, h2⟩ | ⟨m, hm, h1, h2⟩
    · by_cases hk : n.vertices = k
      · right
        refine ⟨n, by simp, ?_, hk⟩
        rw [h2, if_pos hk.symm]
      · left
        refine ⟨?_, ?_⟩
        · intro m hm
          rcases List.mem_cons.1 hm with rfl | hm
          · exact hk
          · exact h1 m hm
        · rw [h2, if_neg (fun h => hk h.symm)]
    · right
      exact ⟨m, by simp [hm], h1, h2⟩

/-! ### Removing duplicates -/

theorem setDups_wf {H : Hypergraph} (w : WF H) (ds : List (Net × Nat)) : WF { H with dups := ds } :=
  ⟨w.1, w.2, w.3, w.4, w.5, w.6, w.7, w.8⟩

theorem removeDups_ok (rs : List (Nat × Nat)) : ∀ {H : Hypergraph}, WF H → (rs.map (·.1)).Nodup →
    (∀ r ∈ rs, IsNet H r.1) →
    ∃ H' ds, rs.foldlM (fun (H : Hypergraph) r => H.removeDuplicateNet r.1 r.2) H = .ok H' ∧
      WF H' ∧ H'.nets.Perm (H.nets.filter (fun n => n.id ∉ rs.map (·.1))) ∧
      List.Forall₂ (LostNets (· ∈ rs.map (·.1))) H.vertices H'.vertices ∧
      H'.globalSize = H.globalSize ∧ H'.globalNumberNets = H.globalNumberNets ∧
      H'.nrNz = H.nrNz ∧ H'.dups = H.dups ++ ds ∧ H'.vmap = H.vmap ∧
      List.Forall₂ (fun (r : Nat × Nat) (d : Net × Nat) => d.1 ∈ H.nets ∧ d.1.id = r.1 ∧ d.2 = r.2)
        rs ds := by
  induction rs with
  | nil =>
    intro H w _ _
    refine ⟨H, [], rfl, w, by simp, ?_, rfl, rfl, rfl, by simp, rfl, List.Forall₂.nil⟩
    rw [List.forall₂_same]; intro v _; simp [LostNets]
  | cons r rs ih =>
    intro H w hnd hin
    rw [List.map_cons, List.nodup_cons] at hnd
    obtain ⟨n, hn, hne⟩ := List.mem_map.1 (hin r (by simp))
    have hne : n.id = r.1 := hne
    obtain ⟨j, hj⟩ := List.mem_iff_getElem?.1 hn
    obtain ⟨H1, a1, a2, a3, a4, a5, a6, a7, a8, a9⟩ := removeNets_ok [r.1]
      (setDups_wf w (H.dups ++ [(n, r.2)])) (by simp) (by
        intro e he
        rw [List.mem_singleton] at he
        subst he
        exact hin r (by simp))
    simp only at a3 a4 a5 a6 a7 a8 a9
    obtain ⟨H', ds, b1, b2, b3, b4, b5, b6, b7, b8, b9, b10⟩ := ih a2 hnd.2 (by
      intro r' hr'
      obtain ⟨m, hm, hme⟩ := List.mem_map.1 (hin r' (by simp [hr']))
      have hme : m.id = r'.1 := hme
      refine List.mem_map.2 ⟨m, a3.mem_iff.2 (List.mem_filter.2 ⟨hm, ?_⟩), hme⟩
      rw [decide_eq_true_eq, List.mem_singleton, hme]
      intro h
      exact hnd.1 (h ▸ List.mem_map_of_mem hr'))
    refine ⟨H', (n, r.2) :: ds, ?_, b2, ?_, ?_, b5.trans a5, b6.trans a6, b7.trans a7, ?_,
      b9.trans a9, ?_⟩
    · rw [List.foldlM_cons]
      have hstep : H.removeDuplicateNet r.1 r.2 = .ok H1 := by
        unfold Hypergraph.removeDuplicateNet
        rw [← hne, w.netOf_of_get hj]
        simp only [ok_bind]
        rw [List.foldlM_cons] at a1
        obtain ⟨x, hx, hx'⟩ := bind_eq_ok.1 a1
        simp only [List.foldlM_nil, pure_eq_ok, Except.ok.injEq] at hx'
        subst hx'
        rw [hne]
        exact hx
      rw [hstep]
      exact b1
    · refine b3.trans ((a3.filter _).trans (List.Perm.of_eq ?_))
      rw [List.filter_filter]
      apply List.filter_congr
      intro m _
      simp only [List.map_cons, List.mem_cons, List.not_mem_nil, or_false]
      by_cases h1 : m.id = r.1 <;> simp [h1]
    · revert a4 b4
      generalize H.vertices = vs
      generalize H1.vertices = vs1
      generalize H'.vertices = vs'
      intro a4
      induction a4 generalizing vs' with
      | nil => intro b4; cases b4; exact List.Forall₂.nil
      | cons hx _ ihx =>
        intro b4
        cases b4 with
        | cons hy b4 =>
          refine List.Forall₂.cons ?_ (ihx _ b4)
          obtain ⟨a, b, c, d⟩ := hx
          obtain ⟨a', b', c', d'⟩ := hy
          refine ⟨a'.trans a, b'.trans b, c'.trans c, ?_⟩
          intro e
          rw [d' e, d e]
          simp only [List.map_cons, List.mem_cons, List.not_mem_nil, or_false]
          tauto
    · rw [b8, a8, List.append_assoc, List.singleton_append]
    · refine List.Forall₂.cons ⟨hn, hne, rfl⟩ (b10.imp ?_)
      rintro r' d ⟨h1, h2, h3⟩
      exact ⟨(List.mem_filter.1 (a3.mem_iff.1 h1)).1, h2, h3⟩

/-! ### simplify -/

theorem sortVertices_wf {H : Hypergraph} (w : WF H) : WF H.sortVertices := by
  have hp : ∀ l : List Nat, (l.insertionSort (· ≤ ·)).Perm l := fun l => List.perm_insertionSort _ l
  refine ⟨w.1, ?_, w.3, ?_, w.5, ?_, ?_, ?_⟩
  · simp only [Hypergraph.sortVertices, List.map_map, Function.comp_def]; exact w.2
  · simp only [Hypergraph.sortVertices, List.map_map, Function.comp_def]; exact w.4
  · intro n hn
    obtain ⟨m, hm, rfl⟩ := List.mem_map.1 hn
    exact (hp _).nodup_iff.2 (w.npins m hm)
  · intro v hv e he
    obtain ⟨n, hn, h1, h2⟩ := w.inc_net v hv e he
    exact ⟨_, List.mem_map.2 ⟨n, hn, rfl⟩, h1, (hp _).mem_iff.2 h2⟩
  · intro n hn u hu
    obtain ⟨m, hm, rfl⟩ := List.mem_map.1 hn
    exact w.inc_vtx m hm u ((hp _).mem_iff.1 hu)

/-- The net with another cost. -/
def withCost (n : Net) (c : Int) : Net := { n with cost := c }

theorem setCost_wf {H : Hypergraph} (w : WF H) (f : Net → Int) :
    WF { H with nets := H.nets.map (fun n => withCost n (f n)) } := by
  refine ⟨w.1, ?_, w.3, ?_, w.5, ?_, ?_, ?_⟩
  · simp only [List.map_map, Function.comp_def]; exact w.2
  · simp only [List.map_map, Function.comp_def]; exact w.4
  · intro n hn
    obtain ⟨m, hm, rfl⟩ := List.mem_map.1 hn
    exact w.npins m hm
  · intro v hv e he
    obtain ⟨n, hn, h1, h2⟩ := w.inc_net v hv e he
    exact ⟨_, List.mem_map.2 ⟨n, hn, rfl⟩, h1, h2⟩
  · intro n hn u hu
    obtain ⟨m, hm, rfl⟩ := List.mem_map.1 hn
    exact w.inc_vtx m hm u hu

/-- A net with its pins in increasing order. -/
def sortNet (n : Net) : Net := { n with vertices := n.vertices.insertionSort (· ≤ ·) }

theorem sortNet_perm (n : Net) : (sortNet n).vertices.Perm n.vertices := List.perm_insertionSort _ _

/-- The id kept for the group of a (sorted) net. -/
def keptId (H : Hypergraph) (n : Net) : Nat := lastIds (H.nets.map sortNet) n.vertices

/-- Everything about `simplify_duplicate_nets`: which nets are kept, with which cost, and what
is put in the list of duplicates. -/
theorem simplify_ok {H : Hypergraph} (w : WF H) :
    ∃ H' ds, simplifyDuplicateNets H = .ok H' ∧ WF H' ∧
      H'.nets.Perm (((H.nets.map sortNet).filter (fun n => keptId H n = n.id)).map
        (fun n => withCost n (edgeCosts (H.nets.map sortNet) n.vertices))) ∧
      List.Forall₂ (LostNets (fun e => ∃ n ∈ H.nets.map sortNet, keptId H n ≠ n.id ∧ n.id = e))
        H.vertices H'.vertices ∧
      H'.globalSize = H.globalSize ∧ H'.globalNumberNets = H.globalNumberNets ∧
      H'.nrNz = H.nrNz ∧ H'.dups = H.dups ++ ds ∧ H'.vmap = H.vmap ∧
      ds = ((H.nets.map sortNet).filter (fun n => keptId H n ≠ n.id)).map
        (fun n => (n, keptId H n)) := by
  have hsn : H.sortVertices.nets = H.nets.map sortNet := rfl
  unfold simplifyDuplicateNets
  simp only [hsn]
  set L := H.nets.map sortNet with hL
  have hfun : L.map (fun n => if lastIds L n.vertices ≠ n.id then n
      else withCost n (edgeCosts L n.vertices)) =
      L.map (fun n => withCost n (if lastIds L n.vertices ≠ n.id then n.cost
        else edgeCosts L n.vertices)) := by
    apply List.map_congr_left
    intro n _; split <;> rfl
  have hfun' : L.map (fun n => if lastIds L n.vertices ≠ n.id then n
      else { n with cost := edgeCosts L n.vertices }) = _ := hfun
  rw [hfun']
  have w2 := setCost_wf (sortVertices_wf w) (fun n => if lastIds L n.vertices ≠ n.id then n.cost
        else edgeCosts L n.vertices)
  have hLnd : (L.map (·.id)).Nodup := (sortVertices_wf w).nids
  have hmem : ∀ e, e ∈ ((L.filter (fun n => lastIds L n.vertices ≠ n.id)).map
      (fun n => (n.id, lastIds L n.vertices))).map (·.1) ↔
      ∃ n ∈ L, keptId H n ≠ n.id ∧ n.id = e := by
    intro e
    rw [List.map_map]
    constructor
    · intro h
      obtain ⟨n, hn, rfl⟩ := List.mem_map.1 h
      rw [List.mem_filter, decide_eq_true_eq] at hn
      exact ⟨n, hn.1, hn.2, rfl⟩
    · rintro ⟨n, hn, hk, rfl⟩
      exact List.mem_map.2 ⟨n, List.mem_filter.2 ⟨hn, by rw [decide_eq_true_eq]; exact hk⟩, rfl⟩
  obtain ⟨H', ds, a1, a2, a3, a4, a5, a6, a7, a8, a9, a10⟩ := removeDups_ok
    ((L.filter (fun n => lastIds L n.vertices ≠ n.id)).map (fun n => (n.id, lastIds L n.vertices)))
    w2 (by
      rw [List.map_map]
      exact ((List.filter_sublist).map (fun n : Net => n.id)).nodup hLnd) (by
      intro r hr
      obtain ⟨n, hn, rfl⟩ := List.mem_map.1 hr
      simp only [IsNet, hsn, List.map_map, Function.comp_def]
      exact List.mem_map.2 ⟨n, (List.mem_filter.1 hn).1, rfl⟩)
  refine ⟨H', ds, a1, a2, ?_, ?_, a5, a6, a7, a8, a9, ?_⟩
  · refine a3.trans (List.Perm.of_eq ?_)
    simp only [hsn]
    rw [List.filter_map]
    have hf : L.filter ((fun n : Net => decide (n.id ∉ ((L.filter (fun n => lastIds L n.vertices ≠ n.id)).map
        (fun n => (n.id, lastIds L n.vertices))).map (·.1))) ∘ (fun n => withCost n
          (if lastIds L n.vertices ≠ n.id then n.cost else edgeCosts L n.vertices))) =
        L.filter (fun n => keptId H n = n.id) := by
      apply List.filter_congr
      intro n hn
      simp only [Function.comp_apply]
      rw [decide_eq_decide, hmem]
      constructor
      · intro h
        by_contra hk
        exact h ⟨n, hn, hk, rfl⟩
      · rintro hk ⟨m, hm, hmk, hid⟩
        have := List.inj_on_of_nodup_map hLnd hm hn hid
        subst this
        exact hmk hk
    rw [hf]
    apply List.map_congr_left
    intro n hn
    rw [List.mem_filter, decide_eq_true_eq] at hn
    have : lastIds L n.vertices = n.id := hn.2
    simp only [this, ne_eq, not_true_eq_false, if_false]
  · have h4 : List.Forall₂ (LostNets (· ∈ ((L.filter (fun n => lastIds L n.vertices ≠ n.id)).map
        (fun n => (n.id, lastIds L n.vertices))).map (·.1))) H.vertices H'.vertices := a4
    refine h4.imp ?_
    rintro v v' ⟨b1, b2, b3, b4⟩
    refine ⟨b1, b2, b3, ?_⟩
    intro e
    exact (b4 e).trans (and_congr_right fun _ => not_congr (hmem e))
  · rw [List.forall₂_map_left_iff] at a10
    have hin : ∀ n ∈ L.filter (fun n => lastIds L n.vertices ≠ n.id), n ∈ L ∧ keptId H n ≠ n.id := by
      intro n hn
      rw [List.mem_filter, decide_eq_true_eq] at hn
      exact hn
    have hgoal : ∀ n ∈ L.filter (fun n => lastIds L n.vertices ≠ n.id), ∀ d : Net × Nat,
        (d.1 ∈ H.sortVertices.nets.map (fun n => withCost n
          (if lastIds L n.vertices ≠ n.id then n.cost else edgeCosts L n.vertices)) ∧
          d.1.id = n.id ∧ d.2 = lastIds L n.vertices) → d = (n, keptId H n) := by
      rintro n hn ⟨d1, d2⟩ ⟨h1, h2, h3⟩
      obtain ⟨m, hm, hme⟩ := List.mem_map.1 h1
      have hid : m.id = n.id := by rw [← h2, ← hme]; rfl
      have := List.inj_on_of_nodup_map hLnd hm (hin n hn).1 hid
      subst this
      have hk : lastIds L m.vertices ≠ m.id := (hin m hn).2
      rw [if_pos hk] at hme
      simp only at h3 hme
      rw [h3, ← hme]
      rfl
    change ds = (L.filter (fun n => lastIds L n.vertices ≠ n.id)).map (fun n => (n, keptId H n))
    revert a10 hgoal
    generalize L.filter (fun n => lastIds L n.vertices ≠ n.id) = M
    intro a10
    clear a8
    induction a10 with
    | nil => intro _; rfl
    | cons hx _ ihx =>
      intro hg
      rw [List.map_cons, ← ihx (fun n hn => hg n (by simp [hn])), hg _ (by simp) _ hx]

/-! ### Putting duplicates back -/

/-- Vertex `v` after net `n` has been added to the net lists of the pins of `n`. -/
def gainNet (n : Net) (v : Vertex) : Vertex :=
  if v.id ∈ n.vertices then { v with nets := v.nets ++ [n.id] } else v

theorem gainNet_id (n : Net) (v : Vertex) : (gainNet n v).id = v.id := by
  unfold gainNet; split <;> rfl

theorem addNet_new {H : Hypergraph} (w : WF H) {e : Nat} (he : ¬ IsNet H e) (vs : List Nat)
    (c : Int) : H.addNet e vs c = { H with
      nets := H.nets ++ [Net.mk' e vs c], nmap := mapSet H.nmap e H.nets.length } := by
  unfold Hypergraph.addNet
  rw [if_neg]
  intro h
  obtain ⟨j, hj⟩ := Option.isSome_iff_exists.1 h
  rw [w.nmap] at hj
  exact he (List.mem_of_getElem? hj)

theorem addLocalNet_ok {H : Hypergraph} (w : WF H) {n : Net} (hn : ¬ IsNet H n.id)
    (hnd : n.vertices.Nodup) (hin : ∀ u ∈ n.vertices, IsVertex H u) :
    ∃ H', H.addLocalNet n = .ok H' ∧ WF H' ∧
      H'.nets = H.nets ++ [Net.mk' n.id n.vertices n.cost] ∧
      H'.vertices = H.vertices.map (gainNet n) ∧
      H'.globalSize = H.globalSize ∧ H'.globalNumberNets = H.globalNumberNets ∧
      H'.nrNz = H.nrNz ∧ H'.dups = H.dups ∧ H'.vmap = H.vmap := by
  unfold Hypergraph.addLocalNet
  rw [addNet_new w hn]
  set H0 : Hypergraph := { H with
      nets := H.nets ++ [Net.mk' n.id n.vertices n.cost],
      nmap := mapSet H.nmap n.id H.nets.length } with hH0
  obtain ⟨H', h1, h2⟩ := foldlM_inv (f := fun (H : Hypergraph) u => do
      let i ← H.localId u
      let v ← vget H.vertices i
      pure (H.setVertex i { v with nets := v.nets ++ [n.id] }))
    (fun pre _ (S : Hypergraph) => S = { H0 with vertices := H.vertices.map (fun v =>
        if v.id ∈ pre then { v with nets := v.nets ++ [n.id] } else v) }) n.vertices H0 (by
      simp [hH0]) (by
      intro pre u post S hS hl
      have hu : u ∈ n.vertices := by rw [hl]; simp
      obtain ⟨v, hv, hvu⟩ := List.mem_map.1 (hin u hu)
      have hvu : v.id = u := hvu
      obtain ⟨i, hi⟩ := List.mem_iff_getElem?.1 hv
      have hil : i < H.vertices.length := (List.getElem?_eq_some_iff.1 hi).1
      have hnp : u ∉ pre := by
        intro h
        rw [hl] at hnd
        exact (List.nodup_append.1 hnd).2.2 u h u (by simp) rfl
      have e1 : S.localId u = .ok i := by
        unfold Hypergraph.localId
        have : S.vmap u = some i := by
          rw [hS]; exact (w.vmap_iff u i).2 ⟨v, hi, hvu⟩
        rw [this]
        simp only
        rw [if_pos (by rw [hS]; simpa using hil)]
      have e2 : S.vertices[i]? = some v := by
        rw [hS]
        simp only [List.getElem?_map, hi, Option.map_some]
        rw [if_neg (by rw [hvu]; exact hnp)]
      rw [e1]
      simp only [ok_bind]
      rw [vget_ok e2]
      refine ⟨_, rfl, ?_⟩
      rw [hS]
      simp only [Hypergraph.setVertex]
      congr 1
      apply List.ext_getElem?
      intro k
      by_cases hk : i = k
      · subst hk
        rw [List.getElem?_set_self (by simpa using hil), List.getElem?_map, hi]
        simp [hvu]
      · rw [List.getElem?_set_ne hk, List.getElem?_map, List.getElem?_map]
        cases hk' : H.vertices[k]? with
        | none => rfl
        | some v' =>
          have hne : v'.id ≠ u := by
            intro h
            exact hk (w.vindex_inj hi hk' (hvu.trans h.symm))
          simp only [Option.map_some, List.mem_append, List.mem_singleton, hne, or_false])
  refine ⟨H', h1, ?_, ?_, ?_, ?_⟩
  · subst h2
    have hids : (H.vertices.map (fun v => if v.id ∈ n.vertices then
        ({ v with nets := v.nets ++ [n.id] } : Vertex) else v)).map (·.id) =
        H.vertices.map (·.id) := by
      rw [List.map_map]
      apply List.map_congr_left
      intro v _
      simp only [Function.comp_apply]
      split <;> rfl
    have hnids : ((H.nets ++ [Net.mk' n.id n.vertices n.cost]).map (·.id)) =
        H.nets.map (·.id) ++ [n.id] := by simp [Net.mk']
    have hn' : n.id ∉ H.nets.map (·.id) := hn
    refine ⟨?_, ?_, ?_, ?_, ?_, ?_, ?_, ?_⟩
    · simp only [hids]; exact w.vids
    · simp only [hH0, hnids]
      exact List.nodup_append.2 ⟨w.nids, by simp, by
        intro a ha b hb h
        rw [List.mem_singleton] at hb
        subst hb; subst h; exact hn' ha⟩
    · simp only [hids, hH0]; exact w.vmap
    · simp only [hH0, hnids]
      have := push_map (ids := H.nets.map (·.id)) (m := H.nmap) w.nmap hn'
      simpa using this
    · intro v hv
      obtain ⟨v0, hv0, rfl⟩ := List.mem_map.1 hv
      split
      · refine List.nodup_append.2 ⟨w.vnets v0 hv0, by simp, ?_⟩
        intro a ha b hb h
        rw [List.mem_singleton] at hb
        subst hb; subst h
        obtain ⟨m, hm, hme, -⟩ := w.inc_net v0 hv0 _ ha
        exact hn' (List.mem_map.2 ⟨m, hm, hme⟩)
      · exact w.vnets v0 hv0
    · intro m hm
      simp only [hH0, List.mem_append, List.mem_singleton] at hm
      rcases hm with hm | rfl
      · exact w.npins m hm
      · exact hnd
    · intro v hv e he
      obtain ⟨v0, hv0, rfl⟩ := List.mem_map.1 hv
      simp only [hH0]
      by_cases hm : v0.id ∈ n.vertices
      · rw [if_pos hm] at he ⊢
        rcases List.mem_append.1 he with he | he
        · obtain ⟨m, hm', h1, h2⟩ := w.inc_net v0 hv0 e he
          exact ⟨m, by simp [hm'], h1, h2⟩
        · rw [List.mem_singleton] at he
          subst he
          exact ⟨Net.mk' n.id n.vertices n.cost, by simp, rfl, hm⟩
      · rw [if_neg hm] at he ⊢
        obtain ⟨m, hm', h1, h2⟩ := w.inc_net v0 hv0 e he
        exact ⟨m, by simp [hm'], h1, h2⟩
    · intro m hm u hu
      simp only [hH0, List.mem_append, List.mem_singleton] at hm
      rcases hm with hm | rfl
      · obtain ⟨v, hv, h1, h2⟩ := w.inc_vtx m hm u hu
        refine ⟨_, List.mem_map.2 ⟨v, hv, rfl⟩, ?_, ?_⟩
        · split <;> exact h1
        · split
          · exact List.mem_append_left _ h2
          · exact h2
      · obtain ⟨v, hv, h1⟩ := List.mem_map.1 (hin u hu)
        have h1 : v.id = u := h1
        refine ⟨_, List.mem_map.2 ⟨v, hv, rfl⟩, ?_, ?_⟩
        · split <;> exact h1
        · have : v.id ∈ n.vertices := h1 ▸ hu
          rw [if_pos this]
          simp [Net.mk']
  · rw [h2]
  · rw [h2]; rfl
  · rw [h2]; exact ⟨rfl, rfl, rfl, rfl, rfl⟩

/-- Cost of the net with id `e` that `ds` takes away. -/
def takenCost (ds : List (Net × Nat)) (e : Nat) : Int :=
  ((ds.filter (fun d => d.2 = e)).map (fun d => d.1.cost)).sum

/-- The nets after putting back `ds`. -/
def resetNets (nets : List Net) (ds : List (Net × Nat)) : List Net :=
  (nets ++ ds.map (fun d => Net.mk' d.1.id d.1.vertices d.1.cost)).map
    (fun n => withCost n (n.cost - takenCost ds n.id))

/-- The nets of `ds` that contain `u`. -/
def dupNetsOf (ds : List (Net × Nat)) (u : Nat) : List Nat :=
  (ds.filter (fun d => u ∈ d.1.vertices)).map (·.1.id)

/-- A vertex after putting back `ds`. -/
def resetVertex (ds : List (Net × Nat)) (v : Vertex) : Vertex :=
  { v with nets := v.nets ++ dupNetsOf ds v.id }

theorem takenCost_append (ds : List (Net × Nat)) (d : Net × Nat) (e : Nat) :
    takenCost (ds ++ [d]) e = takenCost ds e + if d.2 = e then d.1.cost else 0 := by
  unfold takenCost
  rw [List.filter_append, List.map_append, List.sum_append]
  congr 1
  by_cases h : d.2 = e <;> simp [h]

theorem resetLoop_ok {H : Hypergraph} (w : WF H) (ds : List (Net × Nat))
    (hid : (ds.map (·.1.id)).Nodup) (hnew : ∀ d ∈ ds, ¬ IsNet H d.1.id)
    (hpins : ∀ d ∈ ds, d.1.vertices.Nodup ∧ ∀ u ∈ d.1.vertices, IsVertex H u)
    (ht : ∀ d ∈ ds, IsNet H d.2) :
    ∃ S, ds.foldlM (fun (H : Hypergraph) d => do
        let H1 ← H.addLocalNet d.1
        let n ← H1.netOf d.2
        H1.modifyNet d.2 (fun m => { m with cost := n.cost - d.1.cost })) H = .ok S ∧ WF S ∧
      S.nets = resetNets H.nets ds ∧ S.vertices = H.vertices.map (resetVertex ds) ∧
      S.globalSize = H.globalSize ∧ S.globalNumberNets = H.globalNumberNets ∧
      S.nrNz = H.nrNz ∧ S.dups = H.dups ∧ S.vmap = H.vmap := by
  obtain ⟨S, h1, h2⟩ := foldlM_inv (f := fun (H : Hypergraph) (d : Net × Nat) => do
        let H1 ← H.addLocalNet d.1
        let n ← H1.netOf d.2
        H1.modifyNet d.2 (fun m => { m with cost := n.cost - d.1.cost }))
    (fun pre _ (S : Hypergraph) => WF S ∧ S.nets = resetNets H.nets pre ∧
      S.vertices = H.vertices.map (resetVertex pre) ∧
      S.globalSize = H.globalSize ∧ S.globalNumberNets = H.globalNumberNets ∧
      S.nrNz = H.nrNz ∧ S.dups = H.dups ∧ S.vmap = H.vmap) ds H (by
      refine ⟨w, ?_, ?_, rfl, rfl, rfl, rfl, rfl⟩
      · simp [resetNets, takenCost, withCost]
      · have : ∀ v ∈ H.vertices, resetVertex [] v = v := by
          intro v _; simp [resetVertex, dupNetsOf]
        rw [List.map_congr_left this, List.map_id']) (by
      rintro pre d post S ⟨wS, a1, a2, a3, a4, a5, a6, a7⟩ hl
      have hd : d ∈ ds := by rw [hl]; simp
      have hdpre : d.1.id ∉ pre.map (·.1.id) := by
        intro h
        rw [hl, List.map_append, List.map_cons] at hid
        exact (List.nodup_append.1 hid).2.2 _ h _ (by simp) rfl
      have hnotS : ¬ IsNet S d.1.id := by
        unfold IsNet
        rw [a1, resetNets, List.map_map]
        intro h
        obtain ⟨m, hm, hme⟩ := List.mem_map.1 h
        have hme : m.id = d.1.id := hme
        rcases List.mem_append.1 hm with hm | hm
        · exact hnew d hd (List.mem_map.2 ⟨m, hm, hme⟩)
        · obtain ⟨d', hd', rfl⟩ := List.mem_map.1 hm
          exact hdpre (List.mem_map.2 ⟨d', hd', hme⟩)
      have hvids : S.vertices.map (·.id) = H.vertices.map (·.id) := by
        rw [a2, List.map_map]; rfl
      obtain ⟨H1, b1, b2, b3, b4, b5, b6, b7, b8, b9⟩ := addLocalNet_ok wS hnotS (hpins d hd).1 (by
        intro u hu
        unfold IsVertex
        rw [hvids]
        exact (hpins d hd).2 u hu)
      -- the target net
      obtain ⟨m0, hm0, hm0e⟩ := List.mem_map.1 (ht d hd)
      have hm0e : m0.id = d.2 := hm0e
      have hmem1 : withCost m0 (m0.cost - takenCost pre m0.id) ∈ H1.nets := by
        rw [b3, a1]
        exact List.mem_append_left _ (List.mem_map.2 ⟨m0, List.mem_append_left _ hm0, rfl⟩)
      obtain ⟨j, hj⟩ := List.mem_iff_getElem?.1 hmem1
      have hjl : j < H1.nets.length := (List.getElem?_eq_some_iff.1 hj).1
      have hjm : H1.nmap d.2 = some j := (b2.nmap_iff d.2 j).2 ⟨_, hj, hm0e⟩
      have hnet : H1.netOf d.2 = .ok (withCost m0 (m0.cost - takenCost pre m0.id)) := by
        unfold Hypergraph.netOf; rw [hjm]; simp only [hj]
      have hmod : ∀ c : Int, H1.modifyNet d.2 (fun m => { m with cost := c }) =
          .ok { H1 with nets := H1.nets.map (fun m => withCost m (if m.id = d.2 then c else m.cost)) } := by
        intro c
        unfold Hypergraph.modifyNet
        rw [hjm]
        simp only [hj, Hypergraph.setNet]
        congr 2
        apply List.ext_getElem?
        intro k
        by_cases hk : j = k
        · subst hk
          rw [List.getElem?_set_self hjl, List.getElem?_map, hj]
          simp only [Option.map_some]
          rw [if_pos (show (withCost m0 (m0.cost - takenCost pre m0.id)).id = d.2 from hm0e)]
          rfl
        · rw [List.getElem?_set_ne hk, List.getElem?_map]
          cases hk' : H1.nets[k]? with
          | none => rfl
          | some n' =>
            have hne : n'.id ≠ d.2 := by
              intro h
              exact hk (b2.nindex_inj hj hk' ((show (withCost m0 _).id = d.2 from hm0e).trans h.symm))
            simp only [Option.map_some, hne, if_false]
            rfl
      rw [b1]
      simp only [ok_bind]
      rw [hnet]
      simp only [ok_bind]
      rw [hmod]
      refine ⟨_, rfl, setCost_wf b2 _, ?_, ?_, b5.trans a3, b6.trans a4, b7.trans a5, b8.trans a6,
        b9.trans a7⟩
      · simp only
        rw [b3, a1]
        unfold resetNets
        rw [List.map_append, List.map_map, List.map_append (l₁ := pre), ← List.append_assoc,
          List.map_append (l₂ := [d].map _)]
        have hW : ∀ e, e ≠ d.2 → takenCost (pre ++ [d]) e = takenCost pre e := by
          intro e he
          rw [takenCost_append, if_neg (fun h => he h.symm), add_zero]
        have hW2 : takenCost (pre ++ [d]) d.2 = takenCost pre d.2 + d.1.cost := by
          rw [takenCost_append, if_pos rfl]
        congr 1
        · apply List.map_congr_left
          intro m hm
          simp only [Function.comp_apply, withCost]
          congr 1
          by_cases h : m.id = d.2
          · rw [if_pos h, h, hW2]
            -- `m` is the target
            have hmm : m = m0 := by
              rcases List.mem_append.1 hm with hm | hm
              · exact w.net_inj hm hm0 (h.trans hm0e.symm)
              · obtain ⟨d', hd', rfl⟩ := List.mem_map.1 hm
                exfalso
                have hd'' : d' ∈ ds := by rw [hl]; simp [hd']
                refine hnew d' hd'' ?_
                have h' : d'.1.id = d.2 := h
                rw [h']
                exact ht d hd
            subst hmm
            rw [h]; ring
          · rw [if_neg h, hW _ h]
        · simp only [List.map_cons, List.map_nil]
          congr 1
          have hne : d.1.id ≠ d.2 := by
            intro h; exact hnew d hd (h ▸ ht d hd)
          have h0 : takenCost pre d.1.id = 0 := by
            unfold takenCost
            rw [List.filter_eq_nil_iff.2]
            · rfl
            · intro d' hd'
              rw [decide_eq_true_eq]
              intro h
              have hd'' : d' ∈ ds := by rw [hl]; simp [hd']
              exact hnew d hd (h ▸ ht d' hd'')
          simp only [withCost, Net.mk', hne, if_false, hW _ hne, h0, sub_zero]
      · simp only
        rw [b4, a2, List.map_map]
        apply List.map_congr_left
        intro v _
        simp only [Function.comp_apply, gainNet, resetVertex, dupNetsOf, List.filter_append,
          List.map_append]
        by_cases h : v.id ∈ d.1.vertices
        · simp [h]
        · simp [h])
  exact ⟨S, h1, h2⟩

end PMondriaan

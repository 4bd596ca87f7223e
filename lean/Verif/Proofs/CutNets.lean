import Verif.Model.RecBisect
import Verif.Proofs.Restrict

/-
Lemmas about `remove_cut_nets` and `add_cut_nets`.
-/

namespace PMondriaan

open Spec

theorem forall2_trans {α β γ : Type} {R : α → β → Prop} {S : β → γ → Prop} {T : α → γ → Prop}
    {l : List α} {m : List β} {n : List γ} (h : List.Forall₂ R l m) (h' : List.Forall₂ S m n)
    (hT : ∀ a b c, R a b → S b c → T a c) : List.Forall₂ T l n := by
  induction h generalizing n with
  | nil => cases h'; exact .nil
  | cons h0 _ ih => cases h' with
    | cons g0 g => exact .cons (hT _ _ _ h0 g0) (ih g)

theorem forall2_imp_mem {α β : Type} {R S : α → β → Prop} {l : List α} {m : List β}
    (h : List.Forall₂ R l m) (hS : ∀ a b, a ∈ l → R a b → S a b) : List.Forall₂ S l m := by
  induction h with
  | nil => exact .nil
  | cons h0 _ ih => exact .cons (hS _ _ (by simp) h0) (ih (fun a b ha => hS a b (by simp [ha])))

theorem forall2_right {α β : Type} {R : α → β → Prop} {l : List α} {m : List β}
    (h : List.Forall₂ R l m) {b : β} (hb : b ∈ m) : ∃ a ∈ l, R a b := by
  induction h with
  | nil => cases hb
  | cons h0 _ ih =>
    rcases List.mem_cons.1 hb with rfl | hb
    · exact ⟨_, by simp, h0⟩
    · obtain ⟨a, ha, hR⟩ := ih hb
      exact ⟨a, by simp [ha], hR⟩

/-! ### Which nets are reported -/

theorem idDiffers_ok {H : Hypergraph} (w : WF H) (label : Nat) : ∀ vs : List Nat,
    (∀ u ∈ vs, IsVertex H u) → idDiffers H label vs = .ok (decide (∃ u ∈ vs, u ≠ label)) := by
  intro vs
  induction vs with
  | nil => intro _; rfl
  | cons v vs ih =>
    intro h
    obtain ⟨x, hx, hid⟩ := List.mem_map.1 (h v (by simp))
    have hid : x.id = v := hid
    unfold idDiffers
    rw [← hid, w.vertexOf_mem hx, ok_bind]
    by_cases hl : label = x.id
    · rw [if_neg (by simpa using hl), ih (fun u hu => h u (by simp [hu]))]
      simp only [List.mem_cons, exists_eq_or_imp, hl, ne_eq, not_true_eq_false, false_or]
    · rw [if_pos hl]
      simp only [pure_eq_ok, List.mem_cons, exists_eq_or_imp]
      rw [eq_comm] at hl
      simp [hl]

theorem pins_isVertex {H : Hypergraph} (w : WF H) {n : Net} (hn : n ∈ H.nets) :
    ∀ u ∈ n.vertices, IsVertex H u := by
  intro u hu
  obtain ⟨v, hv, hid, -⟩ := w.inc_vtx n hn u hu
  exact List.mem_map.2 ⟨v, hv, hid⟩

theorem reportsNet_ok {H : Hypergraph} (w : WF H) {n : Net} (hn : n ∈ H.nets)
    (hne : n.vertices ≠ []) : reportsNet H n = .ok (decide (2 ≤ n.vertices.length)) := by
  obtain ⟨v0, vs, hv⟩ : ∃ v0 vs, n.vertices = v0 :: vs := by
    cases h : n.vertices with
    | nil => exact absurd h hne
    | cons a l => exact ⟨a, l, rfl⟩
  obtain ⟨x, hx, hid⟩ := List.mem_map.1 (pins_isVertex w hn v0 (by simp [hv]))
  have hid : x.id = v0 := hid
  have hg : vget n.vertices 0 = .ok v0 := vget_ok (by simp [hv])
  unfold reportsNet
  rw [hg, ok_bind, ← hid, w.vertexOf_mem hx, ok_bind, idDiffers_ok w _ _ (pins_isVertex w hn)]
  congr 1
  have hnd := w.npins n hn
  rw [hv] at hnd ⊢
  rw [List.nodup_cons] at hnd
  rw [decide_eq_decide]
  cases vs with
  | nil => simp [hid]
  | cons b l =>
    simp only [List.length_cons]
    constructor
    · intro _; omega
    · intro _
      refine ⟨b, by simp, ?_⟩
      rw [hid]
      rintro rfl
      exact hnd.1 (by simp)

/-- The nets that a lone processor reports: those with at least two pins. -/
def manyPins (H : Hypergraph) : List Nat :=
  (H.nets.filter (fun n => 2 ≤ n.vertices.length)).map (·.id)

theorem mem_manyPins {H : Hypergraph} {e : Nat} :
    e ∈ manyPins H ↔ ∃ n ∈ H.nets, n.id = e ∧ 2 ≤ n.vertices.length := by
  unfold manyPins
  simp only [List.mem_map, List.mem_filter, decide_eq_true_eq]
  constructor
  · rintro ⟨n, ⟨a, b⟩, c⟩; exact ⟨n, a, c, b⟩
  · rintro ⟨n, a, c, b⟩; exact ⟨n, ⟨a, b⟩, c⟩

theorem reportedNets_ok {H : Hypergraph} (w : WF H) (hne : ∀ n ∈ H.nets, n.vertices ≠ []) :
    reportedNets H = .ok (manyPins H) := by
  unfold reportedNets manyPins
  have key : ∀ (l : List Net) (out : List Nat), (∀ n ∈ l, n ∈ H.nets) →
      l.foldlM (fun (out : List Nat) n => do
        let b ← reportsNet H n
        pure (if b then out ++ [n.id] else out)) out =
      (.ok (out ++ (l.filter (fun n => 2 ≤ n.vertices.length)).map (·.id)) : Res (List Nat)) := by
    intro l
    induction l with
    | nil => intro out _; simp
    | cons n l ih =>
      intro out h
      rw [List.foldlM_cons, reportsNet_ok w (h n (by simp)) (hne n (h n (by simp)))]
      rw [ok_bind, pure_eq_ok, ok_bind]
      rw [ih _ (fun m hm => h m (by simp [hm]))]
      by_cases hl : 2 ≤ n.vertices.length
      · simp [hl]
      · simp [hl]
  simpa using key H.nets [] (fun _ h => h)

/-- A net without pins is undefined behaviour. -/
theorem reportsNet_empty (H : Hypergraph) {n : Net} (h : n.vertices = []) :
    reportsNet H n = .error .ub := by
  unfold reportsNet
  rw [h]
  rfl

/-! ### Setting nets aside -/

/-- The copy of a net kept in `cut_nets`: the global size is not copied. -/
def asideCopy (n : Net) : Net := Net.mk' n.id n.vertices n.cost

theorem isLocalNet_iff {H : Hypergraph} (w : WF H) (e : Nat) : H.isLocalNet e = true ↔ IsNet H e := by
  unfold Hypergraph.isLocalNet IsNet
  rw [Option.isSome_iff_exists, List.mem_iff_getElem?]
  simp only [w.nmap]

theorem isLocal_iff {H : Hypergraph} (w : WF H) (u : Nat) : H.isLocal u = true ↔ IsVertex H u := by
  unfold Hypergraph.isLocal IsVertex
  rw [Option.isSome_iff_exists, List.mem_iff_getElem?]
  simp only [w.vmap]

/-- The result of setting nets aside. -/
structure SetAside (ids : List Nat) (H : Hypergraph) (cut : List Net)
    (x : Hypergraph × List Net) : Prop where
  wf : WF x.1
  nets : x.1.nets.Perm (H.nets.filter (fun n => n.id ∉ ids))
  vertices : List.Forall₂ (LostNets (· ∈ ids)) H.vertices x.1.vertices
  cut : ∃ l, x.2 = cut ++ l ∧ l.Perm ((H.nets.filter (fun n => n.id ∈ ids)).map asideCopy)
  globalSize : x.1.globalSize = H.globalSize
  globalNumberNets : x.1.globalNumberNets = H.globalNumberNets
  nrNz : x.1.nrNz = H.nrNz
  dups : x.1.dups = H.dups
  vmap : x.1.vmap = H.vmap

theorem setAside_ok : ∀ (ids : List Nat) {H : Hypergraph} (_ : WF H) (cut : List Net),
    ∃ x, ids.foldlM setAside (H, cut) = .ok x ∧ SetAside ids H cut x := by
  intro ids
  induction ids with
  | nil =>
    intro H w cut
    refine ⟨(H, cut), rfl, w, by simp, ?_, ⟨[], by simp, by simp⟩, rfl, rfl, rfl, rfl, rfl⟩
    rw [List.forall₂_same]; intro v _; simp [LostNets]
  | cons e ids ih =>
    intro H w cut
    rw [List.foldlM_cons]
    by_cases hin : IsNet H e
    · obtain ⟨n, hn, hne⟩ := List.mem_map.1 hin
      have hne : n.id = e := hne
      obtain ⟨j, hj⟩ := List.mem_iff_getElem?.1 hn
      have hjl : j < H.nets.length := by rw [List.getElem?_eq_some_iff] at hj; exact hj.1
      have hperm : (n :: swapRemoveAt H.nets j).Perm H.nets := by
        have := swapRemoveAt_perm hjl
        rwa [(List.getElem?_eq_some_iff.1 hj).2] at this
      have hstep : setAside (H, cut) e = .ok (netRemoved H j n, cut ++ [asideCopy n]) := by
        unfold setAside
        rw [if_pos ((isLocalNet_iff w e).2 hin)]
        simp only
        rw [← hne, w.netOf_of_get hj, ok_bind]
        unfold Hypergraph.removeNet
        rw [w.localIdNet_of_get hj, ok_bind, removeNetByIndex_ok w hj, ok_bind]
        rfl
      rw [hstep, ok_bind]
      obtain ⟨x, h1, h2⟩ := ih (netRemoved_wf w hj) (cut ++ [asideCopy n])
      have hnid : ∀ m ∈ swapRemoveAt H.nets j, m.id ≠ e := by
        intro m hm he
        have hnd := (hperm.map (·.id)).nodup_iff.2 w.nids
        rw [List.map_cons, List.nodup_cons] at hnd
        exact hnd.1 (by rw [hne, ← he]; exact List.mem_map.2 ⟨m, hm, rfl⟩)
      refine ⟨x, h1, h2.wf, ?_, ?_, ?_, ?_, ?_, ?_, ?_, ?_⟩
      · refine h2.nets.trans ?_
        have := hperm.filter (fun m => decide (¬ m.id ∈ e :: ids))
        refine List.Perm.trans ?_ this
        rw [List.filter_cons, if_neg (by simp [hne])]
        refine List.Perm.of_eq (List.filter_congr ?_)
        intro m hm
        simp [hnid m hm]
      · have : List.Forall₂ (LostNets (· = e)) H.vertices (netRemoved H j n).vertices := by
          simp only [netRemoved, dropNet, List.forall₂_map_right_iff]
          rw [List.forall₂_same]
          intro v hv
          refine ⟨rfl, rfl, rfl, fun f => ?_⟩
          simp only [Vertex.removeNet]
          rw [mem_swapRemove (w.vnets v hv), hne]
        refine forall2_trans this h2.vertices ?_
        rintro a b c ⟨b1, b2, b3, b4⟩ ⟨c1, c2, c3, c4⟩
        refine ⟨c1.trans b1, c2.trans b2, c3.trans b3, fun f => ?_⟩
        rw [c4, b4]; simp only [List.mem_cons]; tauto
      · obtain ⟨l, l1, l2⟩ := h2.cut
        refine ⟨asideCopy n :: l, by rw [l1]; simp, ?_⟩
        have := (hperm.filter (fun m => decide (m.id ∈ e :: ids))).map asideCopy
        refine List.Perm.trans ?_ this
        rw [List.filter_cons, if_pos (by simp [hne]), List.map_cons]
        refine List.Perm.cons _ (l2.trans (List.Perm.of_eq ?_))
        congr 1
        refine List.filter_congr ?_
        intro m hm
        simp [hnid m hm]
      · rw [h2.globalSize]; rfl
      · rw [h2.globalNumberNets]; rfl
      · rw [h2.nrNz]; rfl
      · rw [h2.dups]; rfl
      · rw [h2.vmap]; rfl
    · have hstep : setAside (H, cut) e = .ok (H, cut) := by
        unfold setAside
        rw [if_neg (fun h => hin ((isLocalNet_iff w e).1 h))]
        rfl
      rw [hstep, ok_bind]
      obtain ⟨x, h1, h2⟩ := ih w cut
      have hnid : ∀ m ∈ H.nets, m.id ≠ e := fun m hm he => hin (List.mem_map.2 ⟨m, hm, he⟩)
      refine ⟨x, h1, h2.wf, ?_, ?_, ?_, h2.globalSize, h2.globalNumberNets, h2.nrNz, h2.dups, h2.vmap⟩
      · refine h2.nets.trans (List.Perm.of_eq (List.filter_congr ?_))
        intro m hm; simp [hnid m hm]
      · refine forall2_imp_mem h2.vertices ?_
        rintro v v' hv ⟨b1, b2, b3, b4⟩
        refine ⟨b1, b2, b3, fun f => ?_⟩
        rw [b4]
        simp only [List.mem_cons]
        constructor
        · rintro ⟨c1, c2⟩
          refine ⟨c1, ?_⟩
          rintro (rfl | c3)
          · obtain ⟨m, hm, hid, -⟩ := w.inc_net v hv f c1
            exact hnid m hm hid
          · exact c2 c3
        · rintro ⟨c1, c2⟩
          exact ⟨c1, fun c => c2 (Or.inr c)⟩
      · obtain ⟨l, l1, l2⟩ := h2.cut
        refine ⟨l, l1, l2.trans (List.Perm.of_eq ?_)⟩
        congr 1
        refine List.filter_congr ?_
        intro m hm; simp [hnid m hm]

theorem SetAside.congr {ids ids' : List Nat} {H : Hypergraph} {cut : List Net}
    {x : Hypergraph × List Net} (h : SetAside ids H cut x) (hi : ∀ e, e ∈ ids ↔ e ∈ ids') :
    SetAside ids' H cut x where
  wf := h.wf
  nets := h.nets.trans (List.Perm.of_eq (List.filter_congr (fun n _ => by simp [hi])))
  vertices := h.vertices.imp (fun a b hab => by
    refine ⟨hab.1, hab.2.1, hab.2.2.1, fun e => ?_⟩
    rw [hab.2.2.2 e]; simp [hi])
  cut := by
    obtain ⟨l, l1, l2⟩ := h.cut
    refine ⟨l, l1, l2.trans (List.Perm.of_eq ?_)⟩
    congr 1
    exact List.filter_congr (fun n _ => by simp [hi])
  globalSize := h.globalSize
  globalNumberNets := h.globalNumberNets
  nrNz := h.nrNz
  dups := h.dups
  vmap := h.vmap

theorem mem_toAll {M : Type} {p : Nat} {ms : List M} {x : Nat × M} :
    x ∈ toAll p ms ↔ x.1 < p ∧ x.2 ∈ ms := by
  unfold toAll
  simp only [List.mem_flatMap, List.mem_map, List.mem_range]
  constructor
  · rintro ⟨m, hm, t, ht, rfl⟩; exact ⟨ht, hm⟩
  · rintro ⟨h1, h2⟩; exact ⟨x.2, h2, x.1, h1, rfl⟩

/-- The ids reported by any processor. -/
def allManyPins (xs : List (Hypergraph × List Net)) : List Nat := xs.flatMap (fun x => manyPins x.1)

theorem removeCutNetsAlone_ok {d : Delivery Nat} (hd : Fair d) {xs : List (Hypergraph × List Net)}
    (hw : ∀ x ∈ xs, WF x.1) (hne : ∀ x ∈ xs, ∀ n ∈ x.1.nets, n.vertices ≠ []) :
    ∃ ys, removeCutNetsAlone d xs = .ok ys ∧
      List.Forall₂ (fun x y => SetAside (allManyPins xs) x.1 x.2 y) xs ys := by
  unfold removeCutNetsAlone
  rw [mapM_ok (g := fun x => toAll xs.length (manyPins x.1)) xs (by
    intro x hx; rw [reportedNets_ok (hw x hx) (hne x hx)]; rfl), ok_bind]
  have key : ∀ t, t < xs.length → ∀ x ∈ xs,
      ∃ y, (inbox d (xs.map (fun x => toAll xs.length (manyPins x.1))) t).foldlM setAside x = .ok y ∧
        SetAside (allManyPins xs) x.1 x.2 y := by
    intro t ht x hx
    obtain ⟨y, h1, h2⟩ := setAside_ok
      (inbox d (xs.map (fun x => toAll xs.length (manyPins x.1))) t) (hw x hx) x.2
    refine ⟨y, h1, h2.congr ?_⟩
    intro e
    rw [mem_inbox hd]
    simp only [List.mem_map, allManyPins, List.mem_flatMap]
    constructor
    · rintro ⟨l, ⟨y, hy, rfl⟩, hm⟩
      exact ⟨y, hy, (mem_toAll.1 hm).2⟩
    · rintro ⟨y, hy, hm⟩
      exact ⟨_, ⟨y, hy, rfl⟩, mem_toAll.2 ⟨ht, hm⟩⟩
  generalize hI : inbox d (xs.map (fun x => toAll xs.length (manyPins x.1))) = I at key
  generalize allManyPins xs = A at key ⊢
  obtain ⟨ys, h1, h2⟩ := mapM_forall2 (f := fun (xt : (Hypergraph × List Net) × Nat) =>
    (I xt.2).foldlM setAside xt.1) (R := fun xt y => SetAside A xt.1.1 xt.1.2 y) xs.zipIdx (by
    rintro ⟨x, t⟩ hx
    have := List.mem_zipIdx hx
    exact key t (by omega) x (List.fst_mem_of_mem_zipIdx hx))
  refine ⟨ys, h1, ?_⟩
  have h3 : List.Forall₂ (fun (x : Hypergraph × List Net) y => SetAside A x.1 x.2 y)
      (xs.zipIdx.map Prod.fst) ys := List.forall₂_map_left_iff.2 h2
  rwa [List.zipIdx_map_fst] at h3

/-! ### Adding the nets back -/

/-- Adding back nets with only local pins. -/
def addedBack (H : Hypergraph) (cut : List Net) : Hypergraph :=
  cut.foldl (fun H n => H.addNet n.id n.vertices n.cost) H

theorem addCut_local (p : Nat) : ∀ (cut : List Net) (H : Hypergraph) (out),
    (∀ n ∈ cut, n.vertices ≠ [] ∧ ∀ u ∈ n.vertices, H.isLocal u = true) →
    cut.foldl (addCutStep p) (H, out) = (addedBack H cut, out) := by
  intro cut
  induction cut with
  | nil => intro H out _; rfl
  | cons n cut ih =>
    intro H out h
    obtain ⟨h1, h2⟩ := h n (by simp)
    have hstep : addCutStep p (H, out) n = (H.addNet n.id n.vertices n.cost, out) := by
      unfold addCutStep
      simp only
      have e1 : n.vertices.filter (fun v => !H.isLocal v) = [] := by
        rw [List.filter_eq_nil_iff]; intro u hu; simp [h2 u hu]
      have e2 : n.vertices.filter (fun v => H.isLocal v) = n.vertices := by
        rw [List.filter_eq_self]; exact h2
      rw [e1, e2, if_pos (List.length_pos_iff.2 h1)]
      simp [toAll]
    rw [List.foldl_cons, hstep, ih]
    · rfl
    · intro m hm
      refine ⟨(h m (by simp [hm])).1, fun u hu => ?_⟩
      have := (h m (by simp [hm])).2 u hu
      unfold Hypergraph.isLocal at this ⊢
      unfold Hypergraph.addNet
      split <;> exact this

/-- What `addedBack` gives when the ids are new. -/
theorem addedBack_ok : ∀ (cut : List Net) {H : Hypergraph},
    (∀ e j, H.nmap e = some j ↔ (H.nets.map (·.id))[j]? = some e) →
    ((H.nets ++ cut).map (·.id)).Nodup →
    (addedBack H cut).vertices = H.vertices ∧ (addedBack H cut).vmap = H.vmap ∧
    (addedBack H cut).nets = H.nets ++ cut.map asideCopy ∧
    (∀ e j, (addedBack H cut).nmap e = some j ↔
      ((addedBack H cut).nets.map (·.id))[j]? = some e) ∧
    (addedBack H cut).globalSize = H.globalSize ∧
    (addedBack H cut).globalNumberNets = H.globalNumberNets ∧
    (addedBack H cut).nrNz = H.nrNz ∧ (addedBack H cut).dups = H.dups := by
  intro cut
  induction cut with
  | nil => intro H h1 _; exact ⟨rfl, rfl, by simp [addedBack], h1, rfl, rfl, rfl, rfl⟩
  | cons n cut ih =>
    intro H h1 h2
    have hnew : (H.nmap n.id).isSome = false := by
      rw [Bool.eq_false_iff]
      intro hs
      obtain ⟨j, hj⟩ := Option.isSome_iff_exists.1 hs
      rw [h1] at hj
      have hmem := List.mem_of_getElem? hj
      rw [List.map_append, List.nodup_append] at h2
      exact h2.2.2 _ hmem _ (by simp) rfl
    have hadd : H.addNet n.id n.vertices n.cost =
        { H with nets := H.nets ++ [asideCopy n], nmap := mapSet H.nmap n.id H.nets.length } := by
      unfold Hypergraph.addNet
      rw [hnew]
      rfl
    have hnot : n.id ∉ H.nets.map (·.id) := by
      rw [List.map_append, List.nodup_append] at h2
      intro hm; exact h2.2.2 _ hm _ (by simp) rfl
    have hmap : ∀ e j, mapSet H.nmap n.id H.nets.length e = some j ↔
        (((H.nets ++ [asideCopy n]).map (·.id)))[j]? = some e := by
      have := push_map h1 hnot
      simpa [asideCopy, Net.mk'] using this
    have := ih (H := { H with nets := H.nets ++ [asideCopy n], nmap := mapSet H.nmap n.id H.nets.length })
      hmap (by simpa [asideCopy, Net.mk'] using h2)
    obtain ⟨g1, g2, g3, g4, g5⟩ := this
    have e1 : addedBack H (n :: cut) = addedBack
        { H with nets := H.nets ++ [asideCopy n], nmap := mapSet H.nmap n.id H.nets.length } cut := by
      unfold addedBack
      rw [List.foldl_cons, hadd]
    rw [e1]
    exact ⟨g1, g2, by rw [g3]; simp, g4, g5⟩

theorem addCutNets_local {d : Delivery (Nat × Nat × Int)} (hd : Fair d)
    {xs : List (Hypergraph × List Net)}
    (h : ∀ x ∈ xs, ∀ n ∈ x.2, n.vertices ≠ [] ∧ ∀ u ∈ n.vertices, x.1.isLocal u = true) :
    addCutNets d xs = .ok (xs.map (fun x => addedBack x.1 x.2)) := by
  unfold addCutNets
  have e1 : xs.map (fun x => x.2.foldl (addCutStep xs.length) (x.1, [])) =
      xs.map (fun x => (addedBack x.1 x.2, [])) := by
    apply List.map_congr_left
    intro x hx
    exact addCut_local _ _ _ _ (h x hx)
  simp only [e1]
  have e2 : ∀ t, inbox d ((xs.map (fun x => (addedBack x.1 x.2,
      ([] : List (Nat × (Nat × Nat × Int)))))).map (·.2)) t = [] := by
    intro t
    have := inbox_perm hd ((xs.map (fun x => (addedBack x.1 x.2,
      ([] : List (Nat × (Nat × Nat × Int)))))).map (·.2)) t
    rw [← List.perm_nil]
    refine this.trans (List.Perm.of_eq ?_)
    have : (((xs.map (fun x => (addedBack x.1 x.2,
      ([] : List (Nat × (Nat × Nat × Int)))))).map (·.2))).flatten = [] := by
      rw [List.flatten_eq_nil_iff]
      intro l hl
      simp only [List.map_map, List.mem_map, Function.comp] at hl
      obtain ⟨x, -, rfl⟩ := hl
      rfl
    rw [this]; rfl
  simp only [e2]
  rw [mapM_zipIdx_map (g := fun y => y.1) _ (by intros; rfl)]
  rw [List.map_map]
  rfl

/-! ### Several processors in one group -/

/-- The label that a processor sends for a local net. -/
def netLabel (H : Hypergraph) (n : Net) : Int :=
  match n.vertices with
  | [] => -1
  | v0 :: _ => if ∃ u ∈ n.vertices, (u : Int) ≠ partOf H v0 then -1 else partOf H v0

theorem labelLoop_ok {H : Hypergraph} (w : WF H) (label : Int) : ∀ vs : List Nat,
    (∀ u ∈ vs, IsVertex H u) →
    labelLoop H label vs = .ok (if ∃ u ∈ vs, (u : Int) ≠ label then -1 else label) := by
  intro vs
  induction vs with
  | nil => intro _; rfl
  | cons v vs ih =>
    intro h
    obtain ⟨x, hx, hid⟩ := List.mem_map.1 (h v (by simp))
    have hid : x.id = v := hid
    unfold labelLoop
    rw [← hid, w.vertexOf_mem hx, ok_bind]
    by_cases hl : label = (x.id : Int)
    · rw [if_neg (by simpa using hl), ih (fun u hu => h u (by simp [hu]))]
      simp only [List.mem_cons, exists_eq_or_imp, hl, ne_eq, not_true_eq_false, false_or]
    · rw [if_pos hl, if_pos ⟨x.id, by simp, fun h => hl h.symm⟩]
      rfl

theorem netLabel_ge {H : Hypergraph} (n : Net) : -1 ≤ netLabel H n := by
  unfold netLabel
  split
  · omega
  · rename_i v0 l h
    split
    · omega
    · rename_i hn
      push Not at hn
      rw [← hn v0 (by rw [h]; simp)]
      omega

theorem netLabel_eq {H : Hypergraph} {n : Net} (h : netLabel H n ≠ -1) :
    ∀ u ∈ n.vertices, (u : Int) = netLabel H n ∧ partOf H u = netLabel H n := by
  unfold netLabel at h ⊢
  split at h
  · exact absurd rfl h
  · rename_i v0 l hv
    split at h
    · exact absurd rfl h
    · rename_i hn
      rw [if_neg hn]
      push Not at hn
      intro u hu
      refine ⟨hn u hu, ?_⟩
      have h1 := hn u hu
      have h2 := hn v0 (by rw [hv]; simp)
      have : u = v0 := by omega
      rw [this]

theorem netLabel_neg {H : Hypergraph} {n : Net} (hne : n.vertices ≠ []) (h : netLabel H n = -1) :
    ∃ u ∈ n.vertices, ∃ x ∈ n.vertices, partOf H u ≠ (x : Int) := by
  unfold netLabel at h
  split at h
  · rename_i hv; exact absurd hv hne
  · rename_i v0 l hv
    split at h
    · rename_i hn
      obtain ⟨x, hx, hxn⟩ := hn
      exact ⟨v0, by rw [hv]; simp, x, hx, fun h => hxn h.symm⟩
    · refine ⟨v0, by rw [hv]; simp, v0, by rw [hv]; simp, ?_⟩
      rw [h]; omega

theorem sendLabels_ok {np : NetPart} {p N : Nat} (hv : np.Valid p N) {H : Hypergraph} (w : WF H)
    (hN : ∀ n ∈ H.nets, n.id < N) (hne : ∀ n ∈ H.nets, n.vertices ≠ []) :
    sendLabels np p H = .ok (H.nets.map (fun n => (np.owner n.id, (n.id, netLabel H n)))) := by
  unfold sendLabels
  apply mapM_ok
  intro n hn
  cases hvs : n.vertices with
  | nil => exact absurd hvs (hne n hn)
  | cons v0 l =>
    obtain ⟨x, hx, hid⟩ := List.mem_map.1 (pins_isVertex w hn v0 (by simp [hvs]))
    have hid : x.id = v0 := hid
    have hg : vget (v0 :: l) 0 = .ok v0 := rfl
    rw [hg, ok_bind, ← hid, w.vertexOf_mem hx, ok_bind, hid, ← hvs,
      labelLoop_ok w _ _ (pins_isVertex w hn), ok_bind]
    unfold send
    rw [if_pos (hv.owner_lt _ (hN n hn))]
    congr 3
    unfold netLabel
    rw [hvs]
    simp only
    rw [← hid, w.partOf_eq hx]

/-- The final value of a slot that has received the labels `ls`. -/
def slotOf (ls : List Int) : Int :=
  match ls with
  | [] => -2
  | l :: ls => if l = -1 ∨ ∃ x ∈ ls, x ≠ l then -1 else l

theorem slotOf_neg {ls : List Int} :
    slotOf ls = -1 ↔ -1 ∈ ls ∨ ∃ x ∈ ls, ∃ y ∈ ls, x ≠ y := by
  cases ls with
  | nil => simp [slotOf]
  | cons l ls =>
    unfold slotOf
    simp only
    by_cases h : l = -1 ∨ ∃ x ∈ ls, x ≠ l
    · rw [if_pos h]
      refine ⟨fun _ => ?_, fun _ => rfl⟩
      rcases h with h | ⟨x, hx, h⟩
      · left; simp [h]
      · right; exact ⟨x, by simp [hx], l, by simp, h⟩
    · rw [if_neg h]
      push Not at h
      constructor
      · intro h1; exact absurd h1 h.1
      · rintro (h1 | ⟨x, hx, y, hy, hxy⟩)
        · rcases List.mem_cons.1 h1 with h1 | h1
          · exact h1.symm
          · exact (h.2 _ h1).symm
        · have e : ∀ z ∈ l :: ls, z = l := by
            intro z hz
            rcases List.mem_cons.1 hz with rfl | hz
            · rfl
            · exact h.2 z hz
          exact absurd ((e x hx).trans (e y hy).symm) hxy

theorem slotOf_snoc {ls : List Int} {l : Int} (hl : -1 ≤ l) (hls : ∀ x ∈ ls, -1 ≤ x) :
    slotOf (ls ++ [l]) = if slotOf ls = -2 then l
      else if slotOf ls ≥ 0 ∧ slotOf ls ≠ l then -1 else slotOf ls := by
  cases ls with
  | nil => simp [slotOf]; exact fun h => h.symm
  | cons a ls =>
    have ha := hls a (by simp)
    unfold slotOf
    simp only [List.cons_append]
    by_cases h : a = -1 ∨ ∃ x ∈ ls, x ≠ a
    · rw [if_pos h, if_pos (by
        rcases h with h | ⟨x, hx, h⟩
        · exact Or.inl h
        · exact Or.inr ⟨x, by simp [hx], h⟩)]
      simp
    · rw [if_neg h]
      push Not at h
      by_cases e : a = l
      · subst e
        rw [if_neg]
        · rw [if_neg (by omega), if_neg (by omega)]
        · push Not
          refine ⟨h.1, fun x hx => ?_⟩
          rcases List.mem_append.1 hx with hx | hx
          · exact h.2 x hx
          · simpa using hx
      · rw [if_pos (Or.inr ⟨l, by simp, fun h => e h.symm⟩), if_neg (by omega), if_pos (by omega)]

/-- The labels received for net `e`. -/
def labelsFor (e : Nat) (ms : List (Nat × Int)) : List Int :=
  (ms.filter (fun m => m.1 = e)).map (·.2)

theorem mem_labelsFor {e : Nat} {ms : List (Nat × Int)} {l : Int} :
    l ∈ labelsFor e ms ↔ (e, l) ∈ ms := by
  unfold labelsFor
  simp only [List.mem_map, List.mem_filter, decide_eq_true_eq]
  constructor
  · rintro ⟨⟨a, b⟩, ⟨h1, h2⟩, h3⟩
    simp only at h2 h3
    rw [← h2, ← h3]; exact h1
  · intro h; exact ⟨(e, l), ⟨h, rfl⟩, rfl⟩

structure Collected (np : NetPart) (N t : Nat) (ms : List (Nat × Int))
    (st : List Int × List Nat) : Prop where
  length : st.1.length = np.count t
  slot : ∀ e, e < N → np.owner e = t → st.1[np.loc e]? = some (slotOf (labelsFor e ms))
  reported : ∀ e, e ∈ st.2 ↔ (e < N ∧ np.owner e = t ∧ slotOf (labelsFor e ms) = -1)

theorem collect_ok {np : NetPart} {p N t : Nat} (hv : np.Valid p N) (ms : List (Nat × Int))
    (hms : ∀ m ∈ ms, m.1 < N ∧ np.owner m.1 = t ∧ -1 ≤ m.2) :
    ∃ st, ms.foldlM (collectLabel np) (List.replicate (np.count t) (-2), []) = .ok st ∧
      Collected np N t ms st := by
  refine foldlM_inv (f := collectLabel np)
    (fun pre _ st => Collected np N t pre st) ms (List.replicate (np.count t) (-2), []) ?_ ?_
  · refine ⟨by simp, ?_, ?_⟩
    · intro e he ho
      have := hv.loc_lt e he
      rw [ho] at this
      simp [this, slotOf, labelsFor]
    · intro e
      simp [slotOf, labelsFor]
  · rintro pre ⟨e, l⟩ post st ⟨h1, h2, h3⟩ hsplit
    obtain ⟨m1, m2, m3⟩ := hms (e, l) (by rw [hsplit]; simp)
    simp only at m1 m2 m3
    have hpre : ∀ f, ∀ x ∈ labelsFor f pre, -1 ≤ x := by
      intro f x hx
      exact (hms (f, x) (by rw [hsplit]; simp [mem_labelsFor.1 hx])).2.2
    have hlab : ∀ f, labelsFor f (pre ++ [(e, l)]) =
        if f = e then labelsFor f pre ++ [l] else labelsFor f pre := by
      intro f
      unfold labelsFor
      by_cases hf : f = e
      · subst hf; simp
      · rw [if_neg hf]; simp [show ¬ e = f from fun h => hf h.symm]
    have hget := h2 e m1 m2
    have hlt : np.loc e < st.1.length := by
      rw [h1, ← m2]; exact hv.loc_lt e m1
    have hsn := slotOf_snoc m3 (hpre e)
    have hother : ∀ f, f < N → np.owner f = t → f ≠ e → np.loc f ≠ np.loc e := by
      intro f f1 f2 f3 h
      apply f3
      rw [← hv.glob_loc f f1, ← hv.glob_loc e m1, h, f2, m2]
    unfold collectLabel
    simp only
    rw [vget_ok hget, ok_bind]
    have fin : ∀ (x : Int) (rep : List Nat), slotOf (labelsFor e (pre ++ [(e, l)])) = x →
        (∀ f, f ∈ rep ↔ f ∈ st.2 ∨ (f = e ∧ x = -1)) → (e ∈ st.2 → x = -1) →
        Collected np N t (pre ++ [(e, l)]) (st.1.set (np.loc e) x, rep) := by
      intro x rep hx hrep hmono
      refine ⟨by simpa using h1, ?_, ?_⟩
      · intro f f1 f2
        by_cases hf : f = e
        · subst hf
          simp only
          rw [List.getElem?_set_self hlt, hx]
        · simp only
          rw [List.getElem?_set_ne (fun h => hother f f1 f2 hf h.symm), h2 f f1 f2, hlab, if_neg hf]
      · intro f
        rw [hrep, h3]
        by_cases hf : f = e
        · subst hf
          rw [hx]
          constructor
          · rintro (⟨a, b, c⟩ | ⟨-, a⟩)
            · exact ⟨a, b, hmono ((h3 f).2 ⟨a, b, c⟩)⟩
            · exact ⟨m1, m2, a⟩
          · rintro ⟨-, -, a⟩; exact Or.inr ⟨rfl, a⟩
        · rw [hlab, if_neg hf]
          simp [hf]
    rw [hlab, if_pos rfl, hsn] at fin
    by_cases c1 : slotOf (labelsFor e pre) = -2
    · rw [if_pos c1] at fin ⊢
      rw [vset_ok hlt, ok_bind]
      refine ⟨_, rfl, fin l _ rfl ?_ ?_⟩
      · intro f
        by_cases hl : l = -1
        · simp [hl]
        · simp [hl]
      · intro h
        have := ((h3 e).1 h).2.2
        rw [c1] at this; omega
    · rw [if_neg c1] at fin ⊢
      by_cases c2 : slotOf (labelsFor e pre) ≥ 0 ∧ slotOf (labelsFor e pre) ≠ l
      · rw [if_pos c2] at fin ⊢
        rw [vset_ok hlt, ok_bind]
        refine ⟨_, rfl, fin (-1) _ rfl ?_ (fun _ => rfl)⟩
        intro f; simp
      · rw [if_neg c2] at fin ⊢
        refine ⟨st, rfl, ?_⟩
        have := fin _ st.2 rfl ?_ ?_
        · have hs : st.1.set (np.loc e) (slotOf (labelsFor e pre)) = st.1 := by
            rw [← (List.getElem?_eq_some_iff.1 hget).2]; exact List.set_getElem_self hlt
          rwa [hs] at this
        · intro f
          constructor
          · exact Or.inl
          · rintro (h | ⟨rfl, h⟩)
            · exact h
            · exact (h3 f).2 ⟨m1, m2, h⟩
        · intro h; exact ((h3 e).1 h).2.2

end PMondriaan

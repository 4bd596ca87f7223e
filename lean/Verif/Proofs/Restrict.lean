import Verif.Proofs.Reduce
import Verif.Proofs.Bsp
import Verif.Spec.Reduce

/-
Proofs about copying and restricting a hypergraph: `refill`, `copy`, `createNewPar`.
-/

namespace PMondriaan

open Spec

/-- `n` with one more pin. -/
def addPin (u : Nat) (n : Net) : Net := { n with vertices := n.vertices ++ [u] }

/-- `n` with a pin for every vertex of `vs` that lists `n`. -/
def fillNet (vs : List Vertex) (n : Net) : Net :=
  { n with vertices := n.vertices ++ (vs.filter (fun v => n.id ∈ v.nets)).map (·.id) }

theorem refillVertex_ok {H : Hypergraph} (w : WF H) (u : Nat) (es : List Nat) (hnd : es.Nodup)
    (hes : ∀ e ∈ es, IsNet H e) (nets : List Net)
    (hid : nets.map (·.id) = H.nets.map (·.id)) :
    es.foldlM (H.refillPin u) nets =
      .ok (nets.map (fun n => if n.id ∈ es then addPin u n else n)) := by
  induction es generalizing nets with
  | nil => simp
  | cons e es ih =>
    rw [List.nodup_cons] at hnd
    rw [List.foldlM_cons]
    obtain ⟨m, hm, hme⟩ := List.mem_map.1 (hes e (by simp))
    have hme : m.id = e := hme
    obtain ⟨j, hj⟩ := List.mem_iff_getElem?.1 hm
    have hj1 : (nets.map (·.id))[j]? = some e := by
      rw [hid, List.getElem?_map, hj]; simp [hme]
    rw [List.getElem?_map, Option.map_eq_some_iff] at hj1
    obtain ⟨n, hn, hne⟩ := hj1
    have hl : H.localIdNet e = .ok j := by rw [← hme]; exact w.localIdNet_of_get hj
    have hstep : H.refillPin u nets e = .ok (nets.map (fun n => if n.id = e then addPin u n else n)) := by
      unfold Hypergraph.refillPin
      simp only [hl, ok_bind, vget_ok hn, pure_eq_ok]
      congr 1
      apply List.ext_getElem?
      intro i
      rw [List.getElem?_map, List.getElem?_set]
      have hnd2 : (nets.map (·.id)).Nodup := by rw [hid]; exact w.nids
      by_cases hij : j = i
      · subst hij
        have hlt : j < nets.length := by
          rw [List.getElem?_eq_some_iff] at hn; exact hn.1
        rw [if_pos rfl, if_pos hlt, hn, Option.map_some, if_pos hne]
        rfl
      · rw [if_neg hij]
        cases hx : nets[i]? with
        | none => rfl
        | some x =>
          rw [Option.map_some, if_neg]
          intro hxe
          apply hij
          have h1 : (nets.map (·.id))[j]? = some e := by rw [List.getElem?_map, hn]; simp [hne]
          have h2 : (nets.map (·.id))[i]? = some e := by rw [List.getElem?_map, hx]; simp [hxe]
          have hjl : j < (nets.map (·.id)).length := by
            rw [List.getElem?_eq_some_iff] at h1; exact h1.1
          exact (List.getElem?_inj hjl hnd2).1 (h1.trans h2.symm)
    rw [hstep, ok_bind, ih hnd.2 (fun e he => hes e (by simp [he]))]
    · rw [List.map_map]
      congr 1
      apply List.map_congr_left
      intro n _
      simp only [Function.comp_apply, List.mem_cons]
      by_cases h : n.id = e
      · have : (addPin u n).id = n.id := rfl
        rw [if_pos h, this, if_neg (by rw [h]; exact hnd.1), if_pos (Or.inl h)]
      · rw [if_neg h]
        by_cases h2 : n.id ∈ es
        · rw [if_pos h2, if_pos (Or.inr h2)]
        · rw [if_neg h2, if_neg (by rintro (h' | h'); exacts [h h', h2 h'])]
    · rw [List.map_map, ← hid]
      apply List.map_congr_left
      intro n _
      simp only [Function.comp_apply]
      split <;> rfl

theorem refill_ok {H : Hypergraph} (w : WF H) (vs : List Vertex) (hvs : ∀ v ∈ vs, v ∈ H.vertices)
    (nets : List Net) (hid : nets.map (·.id) = H.nets.map (·.id)) :
    H.refill vs nets = .ok (nets.map (fillNet vs)) := by
  unfold Hypergraph.refill
  induction vs generalizing nets with
  | nil =>
    have : nets.map (fillNet []) = nets := by
      conv_rhs => rw [← List.map_id nets]
      apply List.map_congr_left
      intro n _
      simp [fillNet]
    rw [this]
    rfl
  | cons v vs ih =>
    have hv : v ∈ H.vertices := hvs v (by simp)
    rw [List.foldlM_cons, refillVertex_ok w v.id v.nets (w.vnets v hv) (fun e he => by
      obtain ⟨n, hn, hne, -⟩ := w.inc_net v hv e he
      exact List.mem_map.2 ⟨n, hn, hne⟩) nets hid, ok_bind,
      ih (fun v hv => hvs v (by simp [hv]))]
    · rw [List.map_map]
      congr 1
      apply List.map_congr_left
      intro n _
      simp only [Function.comp_apply]
      by_cases h : n.id ∈ v.nets
      · rw [if_pos h]; simp [fillNet, addPin, h]; rfl
      · rw [if_neg h]; simp [fillNet, h]
    · rw [List.map_map, ← hid]
      apply List.map_congr_left
      intro n _
      simp only [Function.comp_apply]
      split <;> rfl

/-- The vertices of a well-formed hypergraph that list net `n` are its pins. -/
theorem filter_pins_perm {H : Hypergraph} (w : WF H) {n : Net} (hn : n ∈ H.nets) :
    ((H.vertices.filter (fun v => n.id ∈ v.nets)).map (·.id)).Perm n.vertices := by
  rw [List.perm_ext_iff_of_nodup ((List.filter_sublist.map _).nodup w.vids) (w.npins n hn)]
  intro u
  simp only [List.mem_map, List.mem_filter, decide_eq_true_eq]
  constructor
  · rintro ⟨v, ⟨hv, he⟩, rfl⟩
    obtain ⟨m, hm, h1, h2⟩ := w.inc_net v hv _ he
    rw [w.net_inj hm hn h1] at h2
    exact h2
  · intro hu
    obtain ⟨v, hv, h1, h2⟩ := w.inc_vtx n hn u hu
    exact ⟨v, ⟨hv, h2⟩, h1⟩

/-- The nets of `H` filled from some of its vertices form a hypergraph. -/
theorem filled_wf {H : Hypergraph} (w : WF H) {vs : List Vertex} (hs : vs.Sublist H.vertices)
    (f : Net → Net) (hf : ∀ n, (f n).id = n.id ∧ (f n).vertices = []) (gs gn nz : Nat) :
    WF (Hypergraph.create gs gn vs (H.nets.map (fun n => fillNet vs (f n))) nz) := by
  have hvnd : (vs.map (·.id)).Nodup := (hs.map _).nodup w.vids
  apply WF_create hvnd
  · rw [List.map_map]
    have : H.nets.map ((·.id) ∘ fun n => fillNet vs (f n)) = H.nets.map (·.id) := by
      apply List.map_congr_left
      intro n _
      exact (hf n).1
    rw [this]
    exact w.nids
  · exact fun v hv => w.vnets v (hs.subset hv)
  · intro n hn
    obtain ⟨m, -, rfl⟩ := List.mem_map.1 hn
    simp only [fillNet, (hf m).2, List.nil_append]
    exact (List.filter_sublist.map _).nodup hvnd
  · intro v hv e he
    obtain ⟨n, hn, hne, -⟩ := w.inc_net v (hs.subset hv) e he
    refine ⟨fillNet vs (f n), List.mem_map.2 ⟨n, hn, rfl⟩, (hf n).1.trans hne, ?_⟩
    simp only [fillNet, (hf n).2, (hf n).1, List.nil_append]
    exact List.mem_map.2 ⟨v, List.mem_filter.2 ⟨hv, by simpa [hne] using he⟩, rfl⟩
  · intro n hn u hu
    obtain ⟨m, -, rfl⟩ := List.mem_map.1 hn
    simp only [fillNet, (hf m).2, (hf m).1, List.nil_append] at hu
    obtain ⟨v, hv, rfl⟩ := List.mem_map.1 hu
    rw [List.mem_filter, decide_eq_true_eq] at hv
    exact ⟨v, hv.1, rfl, by simp only [fillNet, (hf m).1]; exact hv.2⟩

/-- The empty net of the copy. -/
def blankNet (n : Net) : Net := { Net.mk' n.id [] with globalSize := n.globalSize }

/-- The value of the copy constructor. -/
theorem copy_eq {H : Hypergraph} (w : WF H) :
    H.copy = .ok (Hypergraph.create H.globalSize H.globalNumberNets H.vertices
      (H.nets.map (fun n => fillNet H.vertices (blankNet n))) H.nrNz) := by
  have hr := refill_ok w H.vertices (fun v hv => hv) (H.nets.map blankNet)
    (by rw [List.map_map]; rfl)
  unfold Hypergraph.copy
  rw [List.map_map] at hr
  have hb : H.nets.map (fun n => { Net.mk' n.id [] with globalSize := n.globalSize }) =
      H.nets.map blankNet := rfl
  rw [hb, hr, ok_bind]
  rfl

/-- Everything about the copy constructor. -/
theorem copy_ok {H : Hypergraph} (w : WF H) :
    ∃ H', H.copy = .ok H' ∧ WF H' ∧ H'.vertices = H.vertices ∧
      H'.globalSize = H.globalSize ∧ H'.globalNumberNets = H.globalNumberNets ∧
      H'.nrNz = H.nrNz ∧ H'.dups = [] ∧
      List.Forall₂ (fun n n' => n'.id = n.id ∧ n'.cost = 1 ∧ n'.globalSize = n.globalSize ∧
        n'.vertices.Perm n.vertices) H.nets H'.nets := by
  refine ⟨_, copy_eq w, filled_wf w (List.Sublist.refl _) blankNet (fun n => ⟨rfl, rfl⟩) _ _ _,
    rfl, rfl, rfl, rfl, rfl, ?_⟩
  change List.Forall₂ _ H.nets (H.nets.map (fun n => fillNet H.vertices (blankNet n)))
  rw [List.forall₂_map_right_iff, List.forall₂_same]
  intro n hn
  refine ⟨rfl, rfl, rfl, ?_⟩
  simp only [fillNet, blankNet, Net.mk', List.nil_append]
  exact filter_pins_perm w hn

/-! ### Global removal of free nets -/

/-- `n` with its global size. -/
def withSize (n : Net) (k : Nat) : Net := { n with globalSize := k }

theorem mapM_forall2 {α β : Type} {f : α → Res β} {R : α → β → Prop} (l : List α)
    (h : ∀ a ∈ l, ∃ b, f a = .ok b ∧ R a b) : ∃ l', l.mapM f = .ok l' ∧ List.Forall₂ R l l' := by
  induction l with
  | nil => exact ⟨[], rfl, .nil⟩
  | cons a l ih =>
    obtain ⟨b, hb, hR⟩ := h a (by simp)
    obtain ⟨l', hl', hR'⟩ := ih (fun a ha => h a (by simp [ha]))
    refine ⟨b :: l', ?_, .cons hR hR'⟩
    rw [List.mapM_cons, hb, hl']
    rfl

/-- The nets that stay on a processor holding `H`: more than `s` pins in all and one here. -/
def staysNet (Hs : List Hypergraph) (s : Nat) (n : Net) : Prop :=
  s < (unionPins Hs n.id).length ∧ n.vertices ≠ []

instance (Hs : List Hypergraph) (s : Nat) (n : Net) : Decidable (staysNet Hs s n) := by
  unfold staysNet; infer_instance

/-- What removing the free nets does on one processor. -/
structure FreeNetsRemoved (Hs : List Hypergraph) (s : Nat) (H R : Hypergraph) : Prop where
  wf : WF R
  nets : R.nets.Perm ((H.nets.filter (fun n => staysNet Hs s n)).map
    (fun n => withSize n (unionPins Hs n.id).length))
  vertices : List.Forall₂ (LostNets (fun e => ∃ n ∈ H.nets, n.id = e ∧ ¬ staysNet Hs s n))
    H.vertices R.vertices
  globalSize : R.globalSize = H.globalSize
  globalNumberNets : R.globalNumberNets = H.globalNumberNets
  nrNz : R.nrNz = H.nrNz
  dups : R.dups = H.dups
  vmap : R.vmap = H.vmap

theorem removeFreeNetsPar_ok {N : Nat} {Hs : List Hypergraph} (hD : Distributed N Hs) {np : NetPart}
    (hv : np.Valid Hs.length N) {d1 d2 : Delivery (Nat × Int)} (hd1 : Fair d1) (hd2 : Fair d2)
    {order : List Nat → List Nat} (ho : ∀ l, (order l).Perm l) (s : Nat) :
    ∃ Rs, removeFreeNetsPar order d1 d2 np Hs s = .ok Rs ∧
      List.Forall₂ (FreeNetsRemoved Hs s) Hs Rs := by
  unfold removeFreeNetsPar
  rw [globalNetSizes_ok hD hv hd1 hd2, ok_bind]
  have := mapM_forall2 (f := fun H : Hypergraph => removeFreeLocal order s
      (H.nets.map (fun n => ((unionPins Hs n.id).length : Int)),
       { H with nets := H.nets.map (fun n =>
          { n with globalSize := (unionPins Hs n.id).length }) }))
    (R := FreeNetsRemoved Hs s) Hs (by
    intro H hH
    have w := hD.wf H hH
    have hrem : (((H.nets.map (fun n => ((unionPins Hs n.id).length : Int))).zip
        (H.nets.map (fun n => withSize n (unionPins Hs n.id).length))).filter
        (fun x => x.1 ≤ (s : Int) ∨ x.2.vertices.length = 0)).map (·.2.id) =
        (H.nets.filter (fun n => ¬ staysNet Hs s n)).map (·.id) := by
      rw [List.zip_map', List.filter_map, List.map_map]
      congr 1
      apply List.filter_congr
      intro n _
      simp only [Function.comp_apply, decide_eq_decide]
      unfold staysNet withSize
      simp only [List.length_eq_zero_iff, not_and_or, not_not, not_lt]
      constructor
      · rintro (h | h)
        · left; exact_mod_cast h
        · right; exact h
      · rintro (h | h)
        · left; exact_mod_cast h
        · right; exact h
    have w1 := setSizes_wf w (fun n => (unionPins Hs n.id).length)
    obtain ⟨R, h1, h2, h3, h4, h5, h6, h7, h8, h9⟩ := removeNets_ok
      (order ((H.nets.filter (fun n => ¬ staysNet Hs s n)).map (·.id))) w1
      ((ho _).nodup_iff.2 ((List.filter_sublist.map _).nodup w.nids)) (by
        intro e he
        rw [(ho _).mem_iff] at he
        obtain ⟨n, hn, rfl⟩ := List.mem_map.1 he
        unfold IsNet
        rw [List.map_map]
        exact List.mem_map.2 ⟨n, (List.mem_filter.1 hn).1, rfl⟩)
    have hmem : ∀ e, e ∈ order ((H.nets.filter (fun n => ¬ staysNet Hs s n)).map (·.id)) ↔
        ∃ n ∈ H.nets, n.id = e ∧ ¬ staysNet Hs s n := by
      intro e
      rw [(ho _).mem_iff]
      simp only [List.mem_map, List.mem_filter, decide_eq_true_eq]
      constructor
      · rintro ⟨n, ⟨a, b⟩, c⟩; exact ⟨n, a, c, b⟩
      · rintro ⟨n, a, c, b⟩; exact ⟨n, ⟨a, b⟩, c⟩
    refine ⟨R, ?_, h2, ?_, ?_, h5, h6, h7, h8, h9⟩
    · unfold removeFreeLocal
      simp only
      have hr2 := hrem
      unfold withSize at hr2
      rw [hr2]
      exact h1
    · refine h3.trans (List.Perm.of_eq ?_)
      simp only
      rw [List.filter_map]
      congr 1
      apply List.filter_congr
      intro n hn
      simp only [Function.comp_apply, decide_eq_decide, hmem]
      constructor
      · intro h
        by_contra hc
        exact h ⟨n, hn, rfl, hc⟩
      · rintro h ⟨m, hm, hmn, hc⟩
        rw [w.net_inj hm hn hmn] at hc
        exact hc h
    · refine h4.imp ?_
      intro v v' hl
      refine ⟨hl.1, hl.2.1, hl.2.2.1, ?_⟩
      intro e
      rw [hl.2.2.2]
      exact and_congr Iff.rfl (not_congr (hmem e)))
  obtain ⟨Rs, hR1, hR2⟩ := this
  refine ⟨Rs, ?_, hR2⟩
  rw [List.mapM_map]
  exact hR1

/-! ### Restriction to a range -/

theorem vrange_ok {x : RangeOf} (hr : x.s ≤ x.e ∧ x.e ≤ x.H.vertices.length) :
    vrange x.H.vertices x.s x.e = .ok (inRange x) := by
  unfold vrange
  rw [if_pos hr]
  rfl

theorem inRange_sublist (x : RangeOf) : (inRange x).Sublist x.H.vertices :=
  (List.take_sublist _ _).trans (List.drop_sublist _ _)

/-- A net of the new hypergraph before the removal of the free nets. -/
def rangeNet (x : RangeOf) (n : Net) : Net := fillNet (inRange x) (Net.mk' n.id [])

theorem newParts_ok {x : RangeOf} (w : WF x.H) (hr : x.s ≤ x.e ∧ x.e ≤ x.H.vertices.length) :
    newParts x = .ok (inRange x, x.H.nets.map (rangeNet x)) := by
  unfold newParts
  rw [vrange_ok hr, ok_bind, refill_ok w _ (fun v hv => (inRange_sublist x).subset hv) _
    (by rw [List.map_map]; rfl), ok_bind, List.map_map]
  rfl

/-- The new hypergraph before the removal of the free nets. -/
def rangeH (size : Nat) (x : RangeOf) : Hypergraph :=
  Hypergraph.create size x.H.globalNumberNets (inRange x) (x.H.nets.map (rangeNet x))

theorem unionPins_range {xs : List RangeOf} (hw : ∀ x ∈ xs, WF x.H) (size e : Nat) :
    unionPins (xs.map (rangeH size)) e = rangePins xs e := by
  unfold unionPins rangePins
  rw [List.flatMap_map]
  apply List.flatMap_congr
  intro x hx
  have w := hw x hx
  change ((x.H.nets.map (rangeNet x)).filter (fun n => n.id = e)).flatMap (·.vertices) = _
  rw [List.filter_map, List.flatMap_map]
  have hf : x.H.nets.filter ((fun n : Net => decide (n.id = e)) ∘ rangeNet x) =
      x.H.nets.filter (fun n => n.id = e) := rfl
  rw [hf]
  by_cases he : IsNet x.H e
  · obtain ⟨m, hm, hme⟩ := List.mem_map.1 he
    have hme : m.id = e := hme
    have : x.H.nets.filter (fun n => n.id = e) = [m] := by
      have h1 : x.H.nets.filter (fun n => n.id = e) = x.H.nets.filter (fun n => n == m) := by
        apply List.filter_congr
        intro n hn
        rw [Bool.eq_iff_iff, decide_eq_true_eq, beq_iff_eq]
        constructor
        · intro h; exact w.net_inj hn hm (h.trans hme.symm)
        · rintro rfl; exact hme
      rw [h1, List.filter_beq m, List.count_eq_one_of_mem (List.Nodup.of_map _ w.nids) hm]
      rfl
    rw [this]
    simp [rangeNet, fillNet, Net.mk', hme]
  · have h1 : x.H.nets.filter (fun n => n.id = e) = [] := by
      rw [List.filter_eq_nil_iff]
      intro n hn
      simp only [decide_eq_true_eq]
      intro h
      exact he (List.mem_map.2 ⟨n, hn, h⟩)
    have h2 : (inRange x).filter (fun v => e ∈ v.nets) = [] := by
      rw [List.filter_eq_nil_iff]
      intro v hv
      simp only [decide_eq_true_eq]
      intro h
      obtain ⟨n, hn, hne, -⟩ := w.inc_net v ((inRange_sublist x).subset hv) e h
      exact he (List.mem_map.2 ⟨n, hn, hne⟩)
    rw [h1, h2]
    rfl

theorem forall2_and_mem {α β : Type} {R : α → β → Prop} {l : List α} {l' : List β}
    (h : List.Forall₂ R l l') : List.Forall₂ (fun a b => a ∈ l ∧ R a b) l l' := by
  induction h with
  | nil => exact .nil
  | cons hx _ ih =>
    exact .cons ⟨List.mem_cons_self, hx⟩ (ih.imp (fun a b h => ⟨List.mem_cons_of_mem _ h.1, h.2⟩))

theorem flatMap_sublist {α β : Type} {l : List α} {f g : α → List β}
    (h : ∀ a ∈ l, (f a).Sublist (g a)) : (l.flatMap f).Sublist (l.flatMap g) := by
  induction l with
  | nil => exact List.Sublist.refl _
  | cons a l ih =>
    rw [List.flatMap_cons, List.flatMap_cons]
    exact (h a (by simp)).append (ih (fun a ha => h a (by simp [ha])))

theorem range_distributed {N : Nat} {xs : List RangeOf} (hD : Distributed N (xs.map (·.H)))
    (size : Nat) : Distributed N (xs.map (rangeH size)) where
  wf := by
    intro H hH
    obtain ⟨x, hx, rfl⟩ := List.mem_map.1 hH
    exact filled_wf (hD.wf x.H (List.mem_map.2 ⟨x, hx, rfl⟩)) (inRange_sublist x)
      (fun n => Net.mk' n.id []) (fun n => ⟨rfl, rfl⟩) _ _ _
  disjoint := by
    have h := hD.disjoint
    rw [List.flatMap_map] at h ⊢
    exact ((flatMap_sublist (fun x _ => inRange_sublist x)).map _).nodup h
  ids := by
    intro H hH n hn
    obtain ⟨x, hx, rfl⟩ := List.mem_map.1 hH
    obtain ⟨m, hm, rfl⟩ := List.mem_map.1 hn
    exact hD.ids x.H (List.mem_map.2 ⟨x, hx, rfl⟩) m hm
  costs := by
    intro H hH H' hH' n hn n' hn' _
    obtain ⟨x, hx, rfl⟩ := List.mem_map.1 hH
    obtain ⟨x', hx', rfl⟩ := List.mem_map.1 hH'
    obtain ⟨m, hm, rfl⟩ := List.mem_map.1 hn
    obtain ⟨m', hm', rfl⟩ := List.mem_map.1 hn'
    rfl

theorem createNewPar_ok {N : Nat} {xs : List RangeOf} (hD : Distributed N (xs.map (·.H)))
    (hr : ∀ x ∈ xs, x.s ≤ x.e ∧ x.e ≤ x.H.vertices.length) {np : NetPart}
    (hv : np.Valid xs.length N) {d1 d2 : Delivery (Nat × Int)} (hd1 : Fair d1) (hd2 : Fair d2)
    {order : List Nat → List Nat} (ho : ∀ l, (order l).Perm l) :
    ∃ Rs, createNewPar order d1 d2 np xs = .ok Rs ∧
      List.Forall₂ (RestrictedTo xs) xs Rs := by
  have hw : ∀ x ∈ xs, WF x.H := fun x hx => hD.wf x.H (List.mem_map.2 ⟨x, hx, rfl⟩)
  set size := (xs.map (fun x => (inRange x).length)).sum with hsize
  have hD' := range_distributed hD size
  obtain ⟨Rs, h1, h2⟩ := removeFreeNetsPar_ok hD' (np := np) (by rw [List.length_map]; exact hv)
    hd1 hd2 ho 1
  refine ⟨Rs, ?_, ?_⟩
  · unfold createNewPar
    rw [mapM_ok (g := fun x => (inRange x, x.H.nets.map (rangeNet x))) xs
      (fun x hx => newParts_ok (hw x hx) (hr x hx)), ok_bind]
    simp only [List.map_map]
    have hs : ((xs.map ((fun r : List Vertex × List Net => r.1.length) ∘
        fun x => (inRange x, x.H.nets.map (rangeNet x)))).foldl (· + ·) 0) = size := by
      rw [← List.sum_eq_foldl]; rfl
    rw [hs]
    have hz : xs.zip (xs.map (fun x => (inRange x, x.H.nets.map (rangeNet x)))) =
        xs.map (fun x => (x, (inRange x, x.H.nets.map (rangeNet x)))) := by
      have := List.zip_map' (l := xs) (f := (id : RangeOf → RangeOf))
        (g := fun x => (inRange x, x.H.nets.map (rangeNet x)))
      rw [List.map_id] at this
      exact this
    rw [hz, List.map_map]
    exact h1
  · rw [List.forall₂_map_left_iff] at h2
    have hself : ∀ (xs' : List RangeOf) (Rs : List Hypergraph), (∀ x ∈ xs', x ∈ xs) →
        List.Forall₂ (fun x R => FreeNetsRemoved (xs.map (rangeH size)) 1 (rangeH size x) R) xs' Rs →
        List.Forall₂ (RestrictedTo xs) xs' Rs := by
      intro xs' Rs hsub hf
      induction hf with
      | nil => exact .nil
      | @cons x R xs' Rs hx _ ih =>
        refine .cons ?_ (ih (fun x hx => hsub x (by simp [hx])))
        have hxm : x ∈ xs := hsub x (by simp)
        have w := hw x hxm
        have hup := unionPins_range hw size
        have hstay : ∀ n : Net, n ∈ x.H.nets → (staysNet (xs.map (rangeH size)) 1 (rangeNet x n) ↔
            2 ≤ (rangePins xs n.id).length ∧ ∃ v ∈ inRange x, n.id ∈ v.nets) := by
          intro n hn
          unfold staysNet
          rw [hup]
          change 1 < (rangePins xs n.id).length ∧ _ ↔ _
          refine and_congr Iff.rfl ?_
          simp only [rangeNet, fillNet, Net.mk', List.nil_append, ne_eq, List.map_eq_nil_iff,
            List.filter_eq_nil_iff, not_forall, not_not]
          constructor
          · rintro ⟨v, hv, h⟩; exact ⟨v, hv, of_decide_eq_true h⟩
          · rintro ⟨v, hv, h⟩; exact ⟨v, hv, decide_eq_true h⟩
        refine ⟨hx.wf, ?_, ?_, ?_, ?_, ?_⟩
        · rw [hx.globalSize]; exact hsize
        · exact hx.globalNumberNets
        · refine (List.Forall₂.imp ?_ (forall2_and_mem hx.vertices))
          intro v v' ⟨hv, hl⟩
          have hv : v ∈ inRange x := hv
          refine ⟨hl.1, hl.2.1, hl.2.2.1, ?_⟩
          intro e
          rw [hl.2.2.2]
          constructor
          · rintro ⟨a, b⟩
            refine ⟨a, ?_⟩
            by_contra hc
            obtain ⟨n, hn, hne, -⟩ := w.inc_net v ((inRange_sublist x).subset hv) e a
            refine b ⟨rangeNet x n, List.mem_map.2 ⟨n, hn, rfl⟩, hne, ?_⟩
            rw [hstay n hn, hne]
            exact fun h => hc h.1
          · rintro ⟨a, b⟩
            refine ⟨a, ?_⟩
            rintro ⟨n, hn, hne, hc⟩
            obtain ⟨m, hm, rfl⟩ := List.mem_map.1 hn
            have hne : m.id = e := hne
            exact hc ((hstay m hm).2 (by rw [hne]; exact ⟨b, v, hv, a⟩))
        · intro e
          unfold IsNet
          rw [(hx.nets.map (·.id)).mem_iff, List.map_map]
          simp only [List.mem_map, List.mem_filter, decide_eq_true_eq, Function.comp_apply]
          constructor
          · rintro ⟨n, ⟨hn, hst⟩, rfl⟩
            obtain ⟨m, hm, rfl⟩ := List.mem_map.1 hn
            exact (hstay m hm).1 hst
          · rintro ⟨a, v, hv, he⟩
            obtain ⟨n, hn, hne, -⟩ := w.inc_net v ((inRange_sublist x).subset hv) e he
            refine ⟨rangeNet x n, ⟨List.mem_map.2 ⟨n, hn, rfl⟩, ?_⟩, hne⟩
            rw [hstay n hn, hne]
            exact ⟨a, v, hv, he⟩
        · intro n hn
          rw [hx.nets.mem_iff] at hn
          obtain ⟨m, hm, rfl⟩ := List.mem_map.1 hn
          obtain ⟨m', hm', rfl⟩ := List.mem_map.1 (List.mem_filter.1 hm).1
          refine ⟨?_, rfl, ?_⟩
          · simp [withSize, rangeNet, fillNet, Net.mk']; rfl
          · simp only [withSize]
            rw [hup]
    exact hself xs Rs (fun x hx => hx) h2

end PMondriaan

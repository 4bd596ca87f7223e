import Verif.Proofs.SortMove

/-
`move_sorted` and `move` on the functional view.
-/

namespace PMondriaan

open Spec

theorem other_01 {p : Int} (h : p = 0 ∨ p = 1) : other p = 0 ∨ other p = 1 := by
  rcases h with rfl | rfl <;> simp [other]

theorem other_ne {p : Int} (h : p = 0 ∨ p = 1) : other p ≠ p := by
  rcases h with rfl | rfl <;> decide

theorem other_other {p : Int} (h : p = 0 ∨ p = 1) : other (other p) = p := by
  rcases h with rfl | rfl <;> decide

@[simp] theorem other_zero : other 0 = 1 := by decide
@[simp] theorem other_one : other 1 = 0 := by decide

/-- The parts after moving `v` to the other side. -/
def flip (P : Nat → Int) (v : Nat) : Nat → Int := upd P v (other (P v))

theorem flip_01 {H : Hypergraph} {P : Nat → Int} (h : Parts01 H P) (v : Nat)
    (hv : P v = 0 ∨ P v = 1) : Parts01 H (flip P v) := by
  intro u hu
  unfold flip upd
  split
  · exact other_01 hv
  · exact h u hu

theorem flip_flip {P : Nat → Int} {v : Nat} (hv : P v = 0 ∨ P v = 1) : flip (flip P v) v = P := by
  funext u
  unfold flip upd
  by_cases h : u = v
  · subst h; simp [other_other hv]
  · simp [h]

theorem flip_comm {P : Nat → Int} {u v : Nat} : flip (flip P u) v = flip (flip P v) u := by
  funext x
  unfold flip upd
  by_cases h1 : x = u <;> by_cases h2 : x = v <;> by_cases h3 : u = v <;> simp_all

/-- Relation between the pin lists before and after moving vertex `x`. -/
def MovedPins (P : Nat → Int) (x : Vertex) (L L' : Nat → List Nat) : Prop :=
  ∀ e, (e ∈ x.nets → Crossed P x.id (L e) (L' e)) ∧ (e ∉ x.nets → L' e = L e)

/-- The counts `F` have the right number of pins in part 0. -/
def ZeroCounts (H : Hypergraph) (P : Nat → Int) (L : Nat → List Nat) (F : Nat → Cnt) : Prop :=
  ∀ n ∈ H.nets, (F n.id).c0 = ((L n.id).countP (fun u => P u = 0) : Nat)

theorem moveSorted_conc {H : Hypergraph} (w : WF H) {P : Nat → Int} {L : Nat → List Nat}
    {F : Nat → Cnt} (h01 : Parts01 H P) (hL : PinsPerm H L) (hS : AllSplit H P L)
    (hF : ZeroCounts H P L F) {x : Vertex} (hx : x ∈ H.vertices) :
    ∃ L', (conc H P L).moveSorted x.id (cOf H F) = .ok (conc H (flip P x.id) L') ∧
      MovedPins P x L L' := by
  obtain ⟨i, hi, hloc⟩ := w.localId_mem hx
  unfold Hypergraph.moveSorted
  rw [conc_localId, hloc]
  simp only [ok_bind]
  rw [vget_ok (conc_vget P L hi)]
  simp only [ok_bind]
  rw [conc_setVertex w P L hi]
  have hflip : upd P x.id (other (P x.id)) = flip P x.id := rfl
  rw [hflip]
  obtain ⟨H', hH', L', rfl, hL'⟩ := foldlM_inv (f := fun (K : Hypergraph) e => do
      let n ← K.netOf e
      let j ← K.localIdNet e
      let c ← vget (cOf H F) j
      let l ← Hypergraph.borderSwap n.vertices c.c0 x.id (other (P x.id))
      K.modifyNet e (fun m => { m with vertices := l }))
    (fun pre _ H' => ∃ L', H' = conc H (flip P x.id) L' ∧
      ∀ e, (e ∈ pre → Crossed P x.id (L e) (L' e)) ∧ (e ∉ pre → L' e = L e))
    x.nets (conc H (flip P x.id) L) ⟨L, rfl, by simp⟩ (by
      rintro pre e post H' ⟨L', rfl, hL'⟩ hl
      have he : e ∈ x.nets := by rw [hl]; simp
      have hnd := w.vnets x hx
      have hnot : e ∉ pre := by
        rw [hl] at hnd
        intro hm
        exact (List.nodup_append.1 hnd).2.2 _ hm _ (by simp) rfl
      obtain ⟨j, n, hj, hne, hxn, hlocn, -⟩ := w.net_of_vnet hx he
      subst hne
      have hn := List.mem_of_getElem? hj
      have hsame : L' n.id = L n.id := (hL' n.id).2 hnot
      obtain ⟨l', hl', hcr⟩ := borderSwap_ok (hS n hn) ((hL n hn).mem_iff.2 hxn) _ (hF n hn)
        (h01 x hx)
      refine ⟨conc H (flip P x.id) (upd L' n.id l'), ?_, upd L' n.id l', rfl, ?_⟩
      · rw [conc_netOf w _ _ hj, conc_localIdNet, hlocn]
        simp only [ok_bind]
        rw [vget_ok (cOf_get hj)]
        simp only [ok_bind, hsame, hl']
        exact conc_modifyNet w _ _ hj l'
      · intro e'
        by_cases h : e' = n.id
        · subst h
          simp [hcr]
        · simp only [upd_other _ _ h, List.mem_append, List.mem_singleton, h, or_false]
          exact hL' e')
  exact ⟨L', hH', hL'⟩

namespace Crossed

variable {P : Nat → Int} {v : Nat} {l l' : List Nat}

theorem perm (h : Crossed P v l l') : l'.Perm l := by
  obtain ⟨z, o, rfl, _, _, h | h⟩ := h
  · obtain ⟨_, o', rfl, hp⟩ := h
    exact List.Perm.append_left z hp
  · obtain ⟨_, z', rfl, hp⟩ := h
    rw [show z' ++ v :: o = (z' ++ [v]) ++ o by simp]
    exact List.Perm.append_right o hp

theorem split (h : Crossed P v l l') (hnd : l.Nodup) : Split (flip P v) l' := by
  obtain ⟨z, o, rfl, hz, ho, h | h⟩ := h
  · obtain ⟨hv, o', rfl, hp⟩ := h
    have hnd' : (v :: o').Nodup := hp.nodup_iff.2 (List.nodup_append.1 hnd).2.1
    refine ⟨z ++ [v], o', by simp, ?_, ?_⟩
    · intro u hu
      unfold flip upd
      split
      · rw [hv]; rfl
      · rename_i hne
        apply hz
        simpa [hne] using hu
    · intro u hu
      have hne : u ≠ v := by
        rintro rfl
        exact (List.nodup_cons.1 hnd').1 hu
      unfold flip
      rw [upd_other _ _ hne]
      exact ho u (hp.mem_iff.1 (List.mem_cons_of_mem _ hu))
  · obtain ⟨hv, z', rfl, hp⟩ := h
    have hnd' : (z' ++ [v]).Nodup := hp.nodup_iff.2 (List.nodup_append.1 hnd).1
    refine ⟨z', v :: o, rfl, ?_, ?_⟩
    · intro u hu
      have hne : u ≠ v := by
        rintro rfl
        exact (List.nodup_append.1 hnd').2.2 _ hu _ (by simp) rfl
      unfold flip
      rw [upd_other _ _ hne]
      exact hz u (hp.mem_iff.1 (by simp [hu]))
    · intro u hu
      unfold flip upd
      split
      · rw [hv]; rfl
      · rename_i hne
        apply ho
        simpa [hne] using hu

theorem mem (h : Crossed P v l l') : v ∈ l := by
  rw [← h.perm.mem_iff]
  obtain ⟨z, o, rfl, hz, ho, h | h⟩ := h
  · obtain ⟨hv, o', rfl, hp⟩ := h; simp
  · obtain ⟨hv, z', rfl, hp⟩ := h; simp

end Crossed

/-- Flipping a vertex of a duplicate-free list changes the two counts by one. -/
theorem countP_flip_mem {P : Nat → Int} {v : Nat} {l : List Nat} (hnd : l.Nodup) (hv : v ∈ l)
    (p : Int) (h01 : P v = 0 ∨ P v = 1) (hp : p = 0 ∨ p = 1) :
    ((l.countP (fun u => flip P v u = p) : Nat) : Int) =
      (l.countP (fun u => P u = p) : Nat) + (if P v = p then -1 else 1) := by
  obtain ⟨a, b, rfl⟩ := List.append_of_mem hv
  have hna : v ∉ a := by
    intro h; exact (List.nodup_append.1 hnd).2.2 _ h _ (by simp) rfl
  have hnb : v ∉ b := (List.nodup_cons.1 (List.nodup_append.1 hnd).2.1).1
  have hcongr : ∀ l : List Nat, v ∉ l →
      l.countP (fun u => decide (flip P v u = p)) = l.countP (fun u => decide (P u = p)) := by
    intro l hl
    apply List.countP_congr
    intro u hu
    have : u ≠ v := by rintro rfl; exact hl hu
    simp [flip, upd_other _ _ this]
  rw [List.countP_append, List.countP_append, List.countP_cons, List.countP_cons, hcongr a hna,
    hcongr b hnb]
  have h1 : flip P v v = other (P v) := by simp [flip]
  rcases h01 with h | h <;> rcases hp with rfl | rfl <;> simp [h1, h] <;> omega

theorem countP_flip_notMem {P : Nat → Int} {v : Nat} {l : List Nat} (hv : v ∉ l) (p : Int) :
    l.countP (fun u => flip P v u = p) = l.countP (fun u => P u = p) := by
  apply List.countP_congr
  intro u hu
  have : u ≠ v := by rintro rfl; exact hv hu
  simp [flip, upd_other _ _ this]

section
variable {H : Hypergraph} (w : WF H) {P : Nat → Int} {L L' : Nat → List Nat}
include w

theorem mem_nets_iff {x : Vertex} (hx : x ∈ H.vertices) {n : Net} (hn : n ∈ H.nets) :
    n.id ∈ x.nets ↔ x.id ∈ n.vertices := by
  constructor
  · intro h
    obtain ⟨m, hm, hme, hxm⟩ := w.inc_net x hx _ h
    rwa [w.net_inj hm hn hme] at hxm
  · intro h
    obtain ⟨y, hy, hyx, he⟩ := w.inc_vtx n hn _ h
    rwa [w.vertex_inj hy hx hyx] at he

omit w in
theorem MovedPins.pinsPerm {x : Vertex} (h : MovedPins P x L L') (hL : PinsPerm H L) :
    PinsPerm H L' := by
  intro n hn
  by_cases he : n.id ∈ x.nets
  · exact ((h n.id).1 he).perm.trans (hL n hn)
  · rw [(h n.id).2 he]; exact hL n hn

theorem MovedPins.allSplit {x : Vertex} (hx : x ∈ H.vertices) (h : MovedPins P x L L')
    (hL : PinsPerm H L) (hS : AllSplit H P L) : AllSplit H (flip P x.id) L' := by
  intro n hn
  by_cases he : n.id ∈ x.nets
  · exact ((h n.id).1 he).split ((hL n hn).nodup_iff.2 (w.npins n hn))
  · rw [(h n.id).2 he]
    obtain ⟨z, o, hzo, hz, ho⟩ := hS n hn
    have hnot : x.id ∉ L n.id := by
      intro hm
      exact he ((mem_nets_iff w hx hn).2 ((hL n hn).mem_iff.1 hm))
    have hcongr : ∀ u ∈ L n.id, flip P x.id u = P u := by
      intro u hu
      have : u ≠ x.id := by rintro rfl; exact hnot hu
      simp [flip, upd_other _ _ this]
    refine ⟨z, o, hzo, ?_, ?_⟩
    · intro u hu
      rw [hcongr u (by rw [hzo]; simp [hu])]; exact hz u hu
    · intro u hu
      rw [hcongr u (by rw [hzo]; simp [hu])]; exact ho u hu

/-- The counts after the move. -/
def stepCnt (from_ : Int) (c : Cnt) : Cnt := (c.bump (other from_) 1).bump from_ (-1)

theorem exactF_moved {x : Vertex} (hx : x ∈ H.vertices) (h : MovedPins P x L L')
    (hL : PinsPerm H L) (h01 : Parts01 H P) {n : Net} (hn : n ∈ H.nets) :
    exactF (flip P x.id) L' n.id =
      if n.id ∈ x.nets then stepCnt (P x.id) (exactF P L n.id) else exactF P L n.id := by
  by_cases he : n.id ∈ x.nets
  · rw [if_pos he]
    have hcr := (h n.id).1 he
    have hnd : (L n.id).Nodup := (hL n hn).nodup_iff.2 (w.npins n hn)
    unfold exactF
    rw [hcr.perm.countP_eq, hcr.perm.countP_eq,
      countP_flip_mem hnd hcr.mem 0 (h01 x hx) (Or.inl rfl),
      countP_flip_mem hnd hcr.mem 1 (h01 x hx) (Or.inr rfl)]
    rcases h01 x hx with hp | hp <;> simp [hp, stepCnt, Cnt.bump]
  · rw [if_neg he]
    have hnot : x.id ∉ L n.id := by
      intro hm
      exact he ((mem_nets_iff w hx hn).2 ((hL n hn).mem_iff.1 hm))
    unfold exactF
    rw [(h n.id).2 he, countP_flip_notMem hnot, countP_flip_notMem hnot]

end

theorem cOf_congr {H : Hypergraph} {F F' : Nat → Cnt} (h : ∀ n ∈ H.nets, F n.id = F' n.id) :
    cOf H F = cOf H F' := by
  unfold cOf
  apply List.map_congr_left
  intro n hn
  exact h n hn

theorem exactF_zeroCounts (H : Hypergraph) (P : Nat → Int) (L : Nat → List Nat) :
    ZeroCounts H P L (exactF P L) := fun _ _ => rfl

/-- The loop that updates the counts over the nets of the moved vertex. -/
theorem countLoop_ok {H : Hypergraph} (w : WF H) {x : Vertex} (hx : x ∈ H.vertices) {p : Int}
    (hp : p = 0 ∨ p = 1) (P' : Nat → Int) (L' : Nat → List Nat) (F : Nat → Cnt) :
    x.nets.foldlM (fun C e => do
      let j ← (conc H P' L').localIdNet e
      let C ← cAdd C j p (-1)
      cAdd C j (other p) 1) (cOf H F) =
    .ok (cOf H (fun e => if e ∈ x.nets then stepCnt p (F e) else F e)) := by
  obtain ⟨C, hC, F', rfl, hF'⟩ := foldlM_inv (f := fun C e => do
      let j ← (conc H P' L').localIdNet e
      let C ← cAdd C j p (-1)
      cAdd C j (other p) 1)
    (fun pre _ C => ∃ F', C = cOf H F' ∧ ∀ e, F' e = if e ∈ pre then stepCnt p (F e) else F e)
    x.nets (cOf H F) ⟨F, rfl, by simp⟩ (by
      rintro pre e post C ⟨F', rfl, hF'⟩ hl
      have he : e ∈ x.nets := by rw [hl]; simp
      have hnd := w.vnets x hx
      have hnot : e ∉ pre := by
        rw [hl] at hnd
        intro hm
        exact (List.nodup_append.1 hnd).2.2 _ hm _ (by simp) rfl
      obtain ⟨j, n, hj, hne, hxn, hlocn, -⟩ := w.net_of_vnet hx he
      subst hne
      rw [conc_localIdNet, hlocn]
      simp only [ok_bind]
      rw [cOf_cAdd w hj hp]
      simp only [ok_bind]
      rw [cOf_cAdd w hj (other_01 hp)]
      refine ⟨_, rfl, _, rfl, ?_⟩
      intro e'
      by_cases h : e' = n.id
      · subst h
        simp only [upd_same, hF', hnot, if_false, List.mem_append, List.mem_singleton, or_true,
          if_true]
        rcases hp with rfl | rfl <;> simp [stepCnt, Cnt.bump]
      · simp only [upd_other _ _ h, List.mem_append, List.mem_singleton, h, or_false, hF'])
  rw [hC]
  congr 1
  exact cOf_congr (fun n _ => hF' n.id)

/-- `move(id, C)` on the functional view. -/
theorem move_conc {H : Hypergraph} (w : WF H) {P : Nat → Int} {L : Nat → List Nat}
    (h01 : Parts01 H P) (hL : PinsPerm H L) (hS : AllSplit H P L) {x : Vertex}
    (hx : x ∈ H.vertices) :
    ∃ L', (conc H P L).move x.id (cOf H (exactF P L)) =
        .ok (conc H (flip P x.id) L', cOf H (exactF (flip P x.id) L')) ∧
      PinsPerm H L' ∧ AllSplit H (flip P x.id) L' := by
  obtain ⟨i, hi, hloc⟩ := w.localId_mem hx
  obtain ⟨L', hm, hM⟩ := moveSorted_conc w h01 hL hS (exactF_zeroCounts H P L) hx
  refine ⟨L', ?_, hM.pinsPerm hL, hM.allSplit w hx hL hS⟩
  unfold Hypergraph.move
  rw [conc_localId, hloc]
  simp only [ok_bind]
  rw [vget_ok (conc_vget P L hi)]
  simp only [ok_bind]
  rw [hm]
  simp only [ok_bind]
  rw [vget_ok (conc_vget _ L' hi)]
  simp only [ok_bind]
  have hfp : flip P x.id x.id = other (P x.id) := by simp [flip]
  rw [hfp, countLoop_ok w hx (h01 x hx)]
  simp only [ok_bind, pure_eq_ok, Except.ok.injEq, Prod.mk.injEq, true_and]
  apply cOf_congr
  intro n hn
  rw [exactF_moved w hx hM hL h01 hn]

end PMondriaan

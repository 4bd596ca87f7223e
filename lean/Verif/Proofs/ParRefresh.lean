import Verif.Proofs.ParUpdate
import Verif.Proofs.Bsp

/-
The second half of `update_C` on one processor: new counts and gains.
-/

namespace PMondriaan

open Spec

/-- Local and remote pins of a net add up to its global size. -/
def RSize (H : Hypergraph) (R : Nat → Cnt) : Prop :=
  ∀ n ∈ H.nets, (R n.id).c0 + (R n.id).c1 + n.vertices.length = n.globalSize

theorem exactF_sum {H : Hypergraph} (w : WF H) {P : Nat → Int} {L : Nat → List Nat}
    (h01 : Parts01 H P) (hL : PinsPerm H L) {n : Net} (hn : n ∈ H.nets) :
    (exactF P L n.id).c0 + (exactF P L n.id).c1 = n.vertices.length := by
  rw [← (hL n hn).length_eq]
  unfold exactF
  simp only
  have : ∀ l : List Nat, (∀ u ∈ l, P u = 0 ∨ P u = 1) →
      l.countP (fun u => P u = 0) + l.countP (fun u => P u = 1) = l.length := by
    intro l hl
    induction l with
    | nil => rfl
    | cons a l ih =>
      have := ih (fun u hu => hl u (by simp [hu]))
      rw [List.countP_cons, List.countP_cons, List.length_cons]
      rcases hl a (by simp) with h | h <;> simp [h] <;> omega
  have := this (L n.id) (fun u hu => h01.pin w hn ((hL n hn).mem_iff.1 hu))
  omega

theorem viewF_size {H : Hypergraph} (w : WF H) {P : Nat → Int} {L : Nat → List Nat}
    (h01 : Parts01 H P) (hL : PinsPerm H L) {R : Nat → Cnt} (hR : RSize H R) {n : Net}
    (hn : n ∈ H.nets) : (viewF P L R n.id).c1 = n.globalSize - (viewF P L R n.id).c0 := by
  have h1 := exactF_sum w h01 hL hn
  have h2 := hR n hn
  unfold viewF
  simp only
  omega

theorem GOK_addPins {H : Hypergraph} (w : WF H) {P : Nat → Int} {L : Nat → List Nat}
    (hL : PinsPerm H L) {F : Nat → Cnt} {G : Nat → Option Int} (hG : GOK H F P G) {n : Net}
    (hn : n ∈ H.nets) (c : Cnt) :
    GOK H (upd F n.id c) P (addPins G (L n.id)
      (fun u => contrib c n.cost (P u) - contrib (F n.id) n.cost (P u))) := by
  intro y hy g hg
  have hcost : costOf H n.id = n.cost := costOf_eq w hn
  have hpt := sum_map_point (w.vnets y hy)
    (f := fun e => contrib (F e) (costOf H e) (P y.id))
    (f' := fun e => contrib (upd F n.id c e) (costOf H e) (P y.id)) (e := n.id)
    (by intro e' he'; simp [upd_other _ _ he'])
  unfold gainSum
  rw [hpt]
  unfold addPins at hg
  by_cases hym : y.id ∈ L n.id
  · have hmem : n.id ∈ y.nets := (mem_nets_iff w hy hn).2 ((hL n hn).mem_iff.1 hym)
    simp only [hym, if_true] at hg
    rw [Option.map_eq_some_iff] at hg
    obtain ⟨g0, hg0, hgg⟩ := hg
    have := hG y hy g0 hg0
    unfold gainSum at this
    simp only [hmem, if_true, upd_same, hcost]
    omega
  · have hmem : n.id ∉ y.nets := fun hm =>
      hym ((hL n hn).mem_iff.2 ((mem_nets_iff w hy hn).1 hm))
    simp only [hym, if_false] at hg
    have := hG y hy g hg
    unfold gainSum at this
    simp only [hmem, if_false]
    omega

/-- The counts part of the way through `update_C`: new for the nets with an index in `l`. -/
def mixF (H : Hypergraph) (F F' : Nat → Cnt) (l : List Nat) : Nat → Cnt :=
  fun e => if e ∈ l.filterMap (fun i => (H.nets[i]?).map (·.id)) then F' e else F e

theorem mixF_snoc {H : Hypergraph} {F F' : Nat → Cnt} {l : List Nat} {i : Nat} {n : Net}
    (hi : H.nets[i]? = some n) : mixF H F F' (l ++ [i]) = upd (mixF H F F' l) n.id (F' n.id) := by
  funext e
  unfold mixF
  simp only [List.filterMap_append, List.filterMap_cons, hi, Option.map_some, List.filterMap_nil,
    List.mem_append, List.mem_singleton]
  by_cases he : e = n.id
  · subst he; simp
  · simp [he, upd_other _ _ he]

theorem mixF_new {H : Hypergraph} (w : WF H) {F F' : Nat → Cnt} {l : List Nat} {i : Nat} {n : Net}
    (hi : H.nets[i]? = some n) (hil : i ∉ l) : mixF H F F' l n.id = F n.id := by
  unfold mixF
  rw [if_neg]
  intro hm
  obtain ⟨k, hk, hkn⟩ := List.mem_filterMap.1 hm
  rw [Option.map_eq_some_iff] at hkn
  obtain ⟨n', hn', hid⟩ := hkn
  have hki : k = i := by
    have h1 : (H.nets.map (·.id))[k]? = some n.id := by simp [hn', hid]
    have h2 : (H.nets.map (·.id))[i]? = some n.id := by simp [hi]
    have hk' := (List.getElem?_eq_some_iff.1 h1)
    have hi' := (List.getElem?_eq_some_iff.1 h2)
    exact (List.Nodup.getElem_inj_iff w.nids (hi := hk'.1) (hj := hi'.1)).1 (hk'.2.trans hi'.2.symm)
  exact hil (hki ▸ hk)

theorem mixF_all {H : Hypergraph} {F F' : Nat → Cnt} {n : Net} (hn : n ∈ H.nets) :
    mixF H F F' (List.range H.nets.length) n.id = F' n.id := by
  unfold mixF
  rw [if_pos]
  obtain ⟨i, hi, hin⟩ := List.getElem_of_mem hn
  refine List.mem_filterMap.2 ⟨i, List.mem_range.2 hi, ?_⟩
  rw [List.getElem?_eq_getElem hi, hin]; rfl

/-- The counts of part 0 of the nets. -/
def c0Of (H : Hypergraph) (F : Nat → Cnt) : List Int := H.nets.map (fun n => (F n.id).c0)

theorem refreshGains_out {B : Prop} {H : Hypergraph} (w : WF H) (hc : B → CostsNonneg H) {M : Nat}
    (hM : MaxCost H M) {R R' : Nat → Cnt} (hR : RNonneg R) (hR' : RNonneg R')
    (hz : RSize H R) (hz' : RSize H R') (hne : B → ∀ n ∈ H.nets, n.vertices ≠ [])
    {P : Nat → Int} {L : Nat → List Nat} {G : Nat → Option Int} {s : GainStructure} {Lc : List Cnt}
    (h : LInv B H M R P L G s Lc) :
    Outcome B (refreshGains s (c0Of H (viewF P L R'))) (fun s' => ∃ G',
      LInv B H M R' P L G' { s' with C := cOf H (viewF P L R') } Lc ∧
      s'.H = conc H P L ∧
      ∀ u, G' u = none ↔ G u = none) := by
  have hle : ∀ {R : Nat → Cnt} (e : Nat), RNonneg R → (exactF P L e).c0 ≤ (viewF P L R e).c0 ∧
      (exactF P L e).c1 ≤ (viewF P L R e).c1 := by
    intro R e hR
    have := hR e
    unfold viewF; simp only; omega
  unfold refreshGains
  have hlen : s.H.nets.length = H.nets.length := by rw [h.inv.hH]; simp
  rw [hlen]
  refine (Outcome.foldlM (fun pre _ s => ∃ G', GInv H M P L (viewF P L R) G' s ∧
    (B → GOK H (mixF H (viewF P L R) (viewF P L R') pre) P G') ∧
    ∀ u, G' u = none ↔ G u = none) (List.range H.nets.length) s
    ⟨G, h.inv, fun hB => by
      have : mixF H (viewF P L R) (viewF P L R') [] = viewF P L R := by
        funext e; simp [mixF]
      rw [this]; exact h.ok hB, fun _ => Iff.rfl⟩ ?_).mono ?_
  · rintro pre i post s ⟨G1, hI, hok, hnone⟩ hl
    have hi : i < H.nets.length := List.mem_range.1 (by rw [hl]; simp)
    have hnot : i ∉ pre := by
      have := List.nodup_range (n := H.nets.length)
      rw [hl] at this
      intro hm
      exact (List.nodup_append.1 this).2.2 _ hm _ (by simp) rfl
    obtain ⟨n, hin⟩ : ∃ n, H.nets[i]? = some n := ⟨_, List.getElem?_eq_getElem hi⟩
    have hn := List.mem_of_getElem? hin
    unfold refreshStep
    rw [vget_ok (show (c0Of H (viewF P L R'))[i]? = some (viewF P L R' n.id).c0 by
      simp [c0Of, hin])]
    simp only [ok_bind]
    rw [hI.hC, vget_ok (cOf_get hin)]
    simp only [ok_bind]
    rw [hI.hH, vget_ok (conc_nget P L hin)]
    simp only [ok_bind]
    have hsz := viewF_size w h.h01 h.hL hz hn
    have hsz' := viewF_size w h.h01 h.hL hz' hn
    apply Outcome.runIf
    · intro hcne
      have hb : (⟨(viewF P L R' n.id).c0, (n.globalSize : Int) - (viewF P L R' n.id).c0⟩ : Cnt) =
          viewF P L R' n.id := by
        rw [← hsz']
      rw [hb]
      by_cases hB : B
      · have hcost := costOf_eq w hn
        have hL1 : L n.id ≠ [] := by
          intro h0
          apply hne hB n hn
          have := (h.hL n hn).length_eq
          rw [h0] at this
          exact List.length_eq_zero_iff.1 this.symm
        obtain ⟨s', h1, h2⟩ := updateGains_ok w hI h.h01 h.hL h.hS hn hL1 (a := viewF P L R n.id)
          (b := viewF P L R' n.id) (hle _ hR).1 (hle _ hR).2 (hle _ hR').1 (hle _ hR').2
          (hc hB n hn) (by
            intro u hu g hg
            obtain ⟨y, hy, rfl, hey⟩ := w.inc_vtx n hn u ((h.hL n hn).mem_iff.1 hu)
            have hb := gainSum_rest (F := mixF H (viewF P L R) (viewF P L R') pre) (P := P) w (hc hB) hy hey
            have := hM y hy
            rw [← hok hB y hy g hg, hcost, mixF_new w hin hnot] at hb
            omega)
        refine Outcome.of_ok ⟨s', h1, _, h2, fun hB => ?_, fun u => ?_⟩
        · rw [mixF_snoc hin]
          have := GOK_addPins w h.hL (hok hB) hn (viewF P L R' n.id)
          rw [mixF_new w hin hnot] at this
          exact this
        · rw [addPins_none]; exact hnone u
      · have := updateGains_any w (s := s) ⟨G1, hI, hnone⟩ h.h01 h.hL hn (viewF P L R n.id)
          (viewF P L R' n.id)
        rcases this with ⟨s', h1, G2, h2, h3⟩ | ⟨-, h1⟩
        · exact Outcome.of_ok ⟨s', h1, G2, h2, fun hB' => absurd hB' hB, h3⟩
        · exact Or.inr ⟨hB, h1⟩
    · intro heq
      refine ⟨G1, hI, fun hB => ?_, hnone⟩
      have he : viewF P L R' n.id = viewF P L R n.id := by
        have h0 : (viewF P L R' n.id).c0 = (viewF P L R n.id).c0 := by
          by_contra hcon; exact heq hcon
        have h1 : (viewF P L R' n.id).c1 = (viewF P L R n.id).c1 := by rw [hsz, hsz', h0]
        generalize viewF P L R' n.id = A at h0 h1 ⊢
        generalize viewF P L R n.id = A' at h0 h1 ⊢
        cases A; cases A'; simp_all
      rw [mixF_snoc hin, he]
      have : upd (mixF H (viewF P L R) (viewF P L R') pre) n.id (viewF P L R n.id) =
          mixF H (viewF P L R) (viewF P L R') pre := by
        funext e
        by_cases hen : e = n.id
        · subst hen; rw [upd_same, mixF_new w hin hnot]
        · rw [upd_other _ _ hen]
      rw [this]
      exact hok hB
  · rintro s' ⟨G', hI, hok, hnone⟩
    refine ⟨G', ⟨hI.setC _, fun hB => ?_, h.h01, h.hL, h.hS, h.hLc⟩, hI.hH, hnone⟩
    intro y hy g hg
    rw [hok hB y hy g hg]
    exact gainSum_congr w P (fun n hn => mixF_all hn) hy

theorem setCounts_ok {H : Hypergraph} (w : WF H) {P : Nat → Int} {L : Nat → List Nat}
    (h01 : Parts01 H P) (hL : PinsPerm H L) {R : Nat → Cnt} (hz : RSize H R) :
    setCounts (conc H P L) (c0Of H (viewF P L R)) = .ok (cOf H (viewF P L R)) := by
  unfold setCounts
  rw [mapM_zipIdx_map (g := fun n => viewF P L R n.id)]
  · simp [conc, cOf, Function.comp_def]
  · intro i a ha
    simp only [conc, List.getElem?_map, Option.map_eq_some_iff] at ha
    obtain ⟨n, hin, rfl⟩ := ha
    rw [vget_ok (show (c0Of H (viewF P L R))[i]? = some (viewF P L R n.id).c0 by
      simp [c0Of, hin])]
    simp only [ok_bind, pure_eq_ok]
    rw [← viewF_size w h01 hL hz (List.mem_of_getElem? hin)]

end PMondriaan

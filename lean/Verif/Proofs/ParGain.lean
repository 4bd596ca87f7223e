import Verif.Model.KLFMPar
import Verif.Proofs.Pass

/-
`gain_structure` with possibly outdated gains. Every operation either succeeds and keeps the
buckets consistent with the stored gains, or leaves the buckets (undefined behaviour). With exact
gains the second case cannot occur.
-/

namespace PMondriaan

open Spec

/-! ### Outcomes -/

/-- The result is `ok` and satisfies `Q`, or it is undefined behaviour and `B` fails. -/
def Outcome {α : Type} (B : Prop) (r : Res α) (Q : α → Prop) : Prop :=
  (∃ a, r = .ok a ∧ Q a) ∨ (¬ B ∧ r = .error .ub)

namespace Outcome

variable {α β : Type} {B : Prop}

theorem of_ok {r : Res α} {Q : α → Prop} (h : ∃ a, r = .ok a ∧ Q a) : Outcome B r Q := Or.inl h

theorem pure' {a : α} {Q : α → Prop} (h : Q a) : Outcome B (.ok a) Q := Or.inl ⟨a, rfl, h⟩

theorem mono {r : Res α} {Q Q' : α → Prop} (h : Outcome B r Q) (hQ : ∀ a, Q a → Q' a) :
    Outcome B r Q' := by
  rcases h with ⟨a, h1, h2⟩ | h
  · exact Or.inl ⟨a, h1, hQ a h2⟩
  · exact Or.inr h

theorem bind {r : Res α} {f : α → Res β} {Q : α → Prop} {Q' : β → Prop} (h : Outcome B r Q)
    (hf : ∀ a, Q a → Outcome B (f a) Q') : Outcome B (r >>= f) Q' := by
  rcases h with ⟨a, rfl, h2⟩ | ⟨hB, rfl⟩
  · exact hf a h2
  · exact Or.inr ⟨hB, rfl⟩

theorem runIf {c : Prop} [Decidable c] {r : Res α} {s : α} {Q : α → Prop}
    (h1 : c → Outcome B r Q) (h2 : ¬ c → Q s) : Outcome B (PMondriaan.runIf c r s) Q := by
  unfold PMondriaan.runIf
  by_cases hc : c
  · rw [if_pos hc]; exact h1 hc
  · rw [if_neg hc]; exact pure' (h2 hc)

theorem foldlM {σ : Type} {f : σ → α → Res σ} (I : List α → List α → σ → Prop) (l : List α)
    (s : σ) (h0 : I [] l s)
    (hstep : ∀ pre a post s, I pre (a :: post) s → l = pre ++ a :: post →
      Outcome B (f s a) (I (pre ++ [a]) post)) : Outcome B (l.foldlM f s) (I l []) := by
  suffices h : ∀ post pre s, I pre post s → l = pre ++ post →
      Outcome B (post.foldlM f s) (I l []) from h l [] s h0 rfl
  intro post
  induction post with
  | nil =>
    intro pre s hI hl
    rw [List.append_nil] at hl
    subst hl
    exact pure' hI
  | cons a post ih =>
    intro pre s hI hl
    rw [List.foldlM_cons]
    refine (hstep pre a post s hI hl).bind (fun s' hI' => ?_)
    exact ih (pre ++ [a]) s' hI' (by rw [hl]; simp)

theorem mapM {f : α → Res β} (Q : α → β → Prop) (l : List α)
    (h : ∀ a ∈ l, Outcome B (f a) (Q a)) : Outcome B (l.mapM f) (List.Forall₂ Q l) := by
  induction l with
  | nil => exact pure' List.Forall₂.nil
  | cons a l ih =>
    rw [List.mapM_cons]
    refine (h a (by simp)).bind (fun b hb => ?_)
    refine (ih (fun x hx => h x (by simp [hx]))).bind (fun bs hbs => ?_)
    exact pure' (List.Forall₂.cons hb hbs)

/-- A list of results, one per processor. -/
theorem range {p : Nat} {f : Nat → Res β} (Q : Nat → β → Prop)
    (h : ∀ t, t < p → Outcome B (f t) (Q t)) :
    Outcome B ((List.range p).mapM f) (fun l => l.length = p ∧
      ∀ (t : Nat) (b : β), l[t]? = some b → Q t b) := by
  refine (mapM Q (List.range p) (fun t ht => h t (List.mem_range.1 ht))).mono (fun l hl => ?_)
  refine ⟨by rw [← hl.length_eq]; simp, ?_⟩
  intro t b hb
  have ht : t < p := by
    have := (List.getElem?_eq_some_iff.1 hb).1
    rw [← hl.length_eq] at this
    simpa using this
  have := List.forall₂_iff_get.1 hl
  have h2 := this.2 t (by simpa using ht) (List.getElem?_eq_some_iff.1 hb).1
  simp only [List.get_eq_getElem, List.getElem_range] at h2
  rw [(List.getElem?_eq_some_iff.1 hb).2] at h2
  exact h2

end Outcome

/-! ### Outdated gains -/

theorem insert_out {M : Nat} {b : Buckets} {R : Nat → Int → Prop} (h : BInv M b R) (id : Nat)
    {g : Int} (hg : ¬ (-(M : Int) ≤ g ∧ g ≤ M)) : b.insert id g = .error .ub := by
  have hlen := h.len
  unfold Buckets.insert Buckets.gainToIndex
  have hh : ((b.buckets.length / 2 : Nat) : Int) = M := by rw [hlen]; omega
  rw [hh]
  have : vgetI b.buckets (M + g) = .error .ub := by
    unfold vgetI
    by_cases hneg : (M : Int) + g < 0
    · rw [if_pos hneg]
    · rw [if_neg hneg]
      unfold vget
      rw [List.getElem?_eq_none (by omega)]
  simp only [this, error_bind]

/-- The buckets agree with some stored gains; the locked vertices are those in `Z`. -/
def GAny (H : Hypergraph) (M : Nat) (P : Nat → Int) (L : Nat → List Nat) (F : Nat → Cnt)
    (Z : Nat → Prop) (s : GainStructure) : Prop :=
  ∃ G, GInv H M P L F G s ∧ ∀ u, G u = none ↔ Z u

section
variable {H : Hypergraph} (w : WF H) {M : Nat} {P : Nat → Int} {L : Nat → List Nat}
  {F : Nat → Cnt} {Z : Nat → Prop} {s : GainStructure}
include w

theorem addGain_any (h : GAny H M P L F Z s) (h01 : Parts01 H P) {u : Nat} (hu : IsVertex H u)
    (d : Int) : Outcome False (s.addGain u d) (GAny H M P L F Z) := by
  obtain ⟨G, hI, hZ⟩ := h
  obtain ⟨x, hx, hxu⟩ := List.mem_map.1 hu
  have hxu : x.id = u := hxu
  subst hxu
  by_cases hb : ∀ g, G x.id = some g → -(M : Int) ≤ g + d ∧ g + d ≤ M
  · obtain ⟨s', h1, h2⟩ := addGain_ok w hI h01 hx d hb
    refine Outcome.of_ok ⟨s', h1, _, h2, ?_⟩
    intro u
    rw [← hZ u]
    unfold addSet
    by_cases hm : u ∈ [x.id]
    · simp only [hm, if_true, Option.map_eq_none_iff]
    · simp only [hm, if_false]
  · push Not at hb
    obtain ⟨g, hg, hb⟩ := hb
    refine Or.inr ⟨id, ?_⟩
    obtain ⟨i, hi, hloc⟩ := w.localId_mem hx
    unfold GainStructure.addGain
    rw [hI.hH, conc_localId, hloc]
    simp only [ok_bind]
    rw [hI.hg, vget_ok (gOf_get hi)]
    simp only [ok_bind, hg]
    rw [conc_vertexAt P L hi]
    simp only [ok_bind]
    obtain ⟨hbk, hbi, hbm⟩ := hI.bucket (h01 x hx)
    rw [hbk]
    simp only [ok_bind]
    have hR : InBucket H P G (P x.id) x.id g := ⟨List.mem_map_of_mem hx, rfl, hg⟩
    obtain ⟨f, b1, hb1, -, hb1i, hb1m⟩ := remove_ok hbi x.id (hbi.rng _ _ hR)
    rw [hb1]
    simp only [ok_bind]
    rw [insert_out hb1i x.id (by intro hc; have := hb hc.1; omega)]
    rfl

theorem addGainList_any (h : GAny H M P L F Z s) (h01 : Parts01 H P) (l : List Nat)
    (hl : ∀ u ∈ l, IsVertex H u) (d : Int) :
    Outcome False (l.foldlM (fun s u => s.addGain u d) s) (GAny H M P L F Z) := by
  refine Outcome.foldlM (fun _ _ s => GAny H M P L F Z s) l s h ?_
  intro pre a post s hI hl'
  exact addGain_any w hI h01 (hl a (by rw [hl']; simp)) d

end

theorem GAny.hH {H : Hypergraph} {M : Nat} {P : Nat → Int} {L : Nat → List Nat}
    {F : Nat → Cnt} {Z : Nat → Prop} {s : GainStructure} (h : GAny H M P L F Z s) :
    s.H = conc H P L := by obtain ⟨G, h, -⟩ := h; exact h.hH

theorem GAny.hC {H : Hypergraph} {M : Nat} {P : Nat → Int} {L : Nat → List Nat}
    {F : Nat → Cnt} {Z : Nat → Prop} {s : GainStructure} (h : GAny H M P L F Z s) :
    s.C = cOf H F := by obtain ⟨G, h, -⟩ := h; exact h.hC

theorem GAny.setC {H : Hypergraph} {M : Nat} {P : Nat → Int} {L : Nat → List Nat}
    {F : Nat → Cnt} {Z : Nat → Prop} {s : GainStructure} (h : GAny H M P L F Z s) (F' : Nat → Cnt) :
    GAny H M P L F' Z { s with C := cOf H F' } := by
  obtain ⟨G, h, hZ⟩ := h
  exact ⟨G, h.setC F', hZ⟩

theorem endVertex_any {n : Net} (h : n.vertices ≠ []) (p : Int) :
    ∃ u ∈ n.vertices, GainStructure.endVertex n p = .ok u := by
  unfold GainStructure.endVertex
  have hlen : 0 < n.vertices.length := List.length_pos_iff.2 h
  by_cases hp : p = 1
  · rw [if_pos hp]
    refine ⟨n.vertices[n.vertices.length - 1], List.getElem_mem _, ?_⟩
    unfold vgetI
    rw [if_neg (by omega)]
    apply vget_ok
    have : ((n.vertices.length : Int) - 1).toNat = n.vertices.length - 1 := by omega
    rw [this]
    exact List.getElem?_eq_getElem _
  · rw [if_neg hp]
    exact ⟨n.vertices[0], List.getElem_mem _, vget_ok (List.getElem?_eq_getElem _)⟩

section
variable {H : Hypergraph} (w : WF H) {M : Nat} {P : Nat → Int} {L : Nat → List Nat}
  {F : Nat → Cnt} {Z : Nat → Prop} {s : GainStructure}
include w

theorem addGainAll_any (h : GAny H M P L F Z s) (h01 : Parts01 H P) (hL : PinsPerm H L) {j : Nat}
    {n : Net} (hj : H.nets[j]? = some n) (d : Int) :
    Outcome False (s.addGainAll n.id d) (GAny H M P L F Z) := by
  have hn := List.mem_of_getElem? hj
  unfold GainStructure.addGainAll
  rw [h.hH, conc_netOf w _ _ hj]
  simp only [ok_bind]
  apply addGainList_any w h h01
  intro u hu
  obtain ⟨y, hy, rfl, -⟩ := w.inc_vtx n hn u ((hL n hn).mem_iff.1 hu)
  exact List.mem_map_of_mem hy

theorem addGainEnd_any (h : GAny H M P L F Z s) (h01 : Parts01 H P) (hL : PinsPerm H L) {j : Nat}
    {n : Net} (hj : H.nets[j]? = some n) (hne : L n.id ≠ []) (p d : Int) :
    Outcome False (s.addGainEnd n.id p d) (GAny H M P L F Z) := by
  have hn := List.mem_of_getElem? hj
  unfold GainStructure.addGainEnd
  rw [h.hH, conc_netOf w _ _ hj]
  simp only [ok_bind]
  obtain ⟨u, hu, he⟩ := endVertex_any (n := { n with vertices := L n.id }) hne p
  rw [he]
  simp only [ok_bind]
  apply addGain_any w h h01
  obtain ⟨y, hy, rfl, -⟩ := w.inc_vtx n hn u ((hL n hn).mem_iff.1 hu)
  exact List.mem_map_of_mem hy

theorem moveNetLoc_any {Fl : Nat → Cnt} (h : GAny H M P L F Z s) (h01 : Parts01 H P)
    (hL : PinsPerm H L) {j : Nat} {n : Net} (hj : H.nets[j]? = some n) (hne : L n.id ≠ [])
    {p : Int} (hp : p = 0 ∨ p = 1) :
    Outcome False (GainStructure.moveNetLoc p (other p) (s, cOf H Fl) n.id) (fun st =>
      GAny H M P L (upd F n.id (stepCnt p (F n.id))) Z st.1 ∧
      st.2 = cOf H (upd Fl n.id (stepCnt p (Fl n.id)))) := by
  have hop := other_01 hp
  have hloc : H.localIdNet n.id = .ok j := w.localIdNet_of_get hj
  have hFF : ∀ F : Nat → Cnt, upd (upd F n.id ((F n.id).bump (other p) 1)) n.id
      ((upd F n.id ((F n.id).bump (other p) 1) n.id).bump p (-1)) =
      upd F n.id (stepCnt p (F n.id)) := by
    intro F
    funext e
    by_cases he : e = n.id
    · subst he; simp [stepCnt]
    · simp [upd_other _ _ he]
  unfold GainStructure.moveNetLoc
  simp only
  rw [h.hH, conc_localIdNet, hloc]
  simp only [ok_bind]
  rw [conc_netOf w P L hj]
  simp only [ok_bind]
  rw [h.hC, cOf_cGet hj hop]
  simp only [ok_bind]
  refine (Outcome.runIf (Q := GAny H M P L F Z) (fun _ => addGainAll_any w h h01 hL hj _)
    (fun _ => h)).bind ?_
  intro s1 h1
  rw [cOf_cGet hj hop]
  simp only [ok_bind]
  refine (Outcome.runIf (Q := GAny H M P L F Z) (fun _ => addGainEnd_any w h1 h01 hL hj hne _ _)
    (fun _ => h1)).bind ?_
  intro s2 h2
  rw [h2.hC, cOf_cAdd w hj hop]
  simp only [ok_bind]
  rw [cOf_cAdd w hj hp]
  simp only [ok_bind]
  rw [cOf_cAdd w hj hop]
  simp only [ok_bind]
  rw [cOf_cAdd w hj hp]
  simp only [ok_bind]
  rw [hFF, hFF]
  have h3 := h2.setC (upd F n.id (stepCnt p (F n.id)))
  rw [cOf_cGet hj hp]
  simp only [ok_bind]
  refine (Outcome.runIf (Q := GAny H M P L _ Z) (fun _ => addGainAll_any w h3 h01 hL hj _)
    (fun _ => h3)).bind ?_
  intro s4 h4
  rw [cOf_cGet hj hp]
  simp only [ok_bind]
  refine (Outcome.runIf (Q := GAny H M P L _ Z) (fun _ => addGainEnd_any w h4 h01 hL hj hne _ _)
    (fun _ => h4)).bind ?_
  intro s5 h5
  exact Outcome.pure' ⟨h5, rfl⟩

/-- Moving an unlocked vertex with arbitrary stored gains. -/
theorem moveLoc_any {G : Nat → Option Int} (h : GInv H M P L F G s) (h01 : Parts01 H P)
    (hL : PinsPerm H L) (hS : AllSplit H P L) {x : Vertex} (hx : x ∈ H.vertices) {g : Int}
    (hG : G x.id = some g) :
    Outcome False (s.moveLoc x.id (cOf H (exactF P L))) (fun st => ∃ L',
      PinsPerm H L' ∧ AllSplit H (flip P x.id) L' ∧
      st.2 = cOf H (exactF (flip P x.id) L') ∧
      GAny H M (flip P x.id) L' (stepF x (P x.id) F) (fun u => u = x.id ∨ G u = none) st.1) := by
  obtain ⟨L', s1, hs1, hMP, h1⟩ := moveAndLock_ok w h h01 hL hS (exactF_zeroCounts H P L) hx hG
  have hL' := hMP.pinsPerm hL
  have hQ01 : Parts01 H (flip P x.id) := flip_01 h01 x.id (h01 x hx)
  have hp := h01 x hx
  unfold GainStructure.moveLoc
  rw [h.hH, conc_vertexOf w P L hx]
  simp only [ok_bind]
  rw [hs1]
  simp only [ok_bind]
  have hA0 : GAny H M (flip P x.id) L' F (fun u => u = x.id ∨ G u = none) s1 := by
    refine ⟨_, h1, fun u => ?_⟩
    exact upd_none_iff u
  have hloop := Outcome.foldlM (B := False)
    (f := GainStructure.moveNetLoc (P x.id) (other (P x.id)))
    (fun pre _ (st : GainStructure × List Cnt) => ∃ F' Fl', st.2 = cOf H Fl' ∧
      (∀ e, F' e = if e ∈ pre then stepCnt (P x.id) (F e) else F e) ∧
      (∀ e, Fl' e = if e ∈ pre then stepCnt (P x.id) (exactF P L e) else exactF P L e) ∧
      GAny H M (flip P x.id) L' F' (fun u => u = x.id ∨ G u = none) st.1)
    x.nets (s1, cOf H (exactF P L))
    ⟨F, exactF P L, rfl, by simp, by simp, hA0⟩ (by
      rintro pre e post ⟨s, C⟩ ⟨F', Fl', hC, hF', hFl', hI⟩ hl
      simp only at hC hI
      subst hC
      have he : e ∈ x.nets := by rw [hl]; simp
      have hnd := w.vnets x hx
      have hnot : e ∉ pre := by
        rw [hl] at hnd
        intro hm
        exact (List.nodup_append.1 hnd).2.2 _ hm _ (by simp) rfl
      obtain ⟨j, n, hj, hne, hxn, hlocn, -⟩ := w.net_of_vnet hx he
      subst hne
      have hn := List.mem_of_getElem? hj
      have hFe : F' n.id = F n.id := by rw [hF']; simp [hnot]
      have hFle : Fl' n.id = exactF P L n.id := by rw [hFl']; simp [hnot]
      have hnonempty : L' n.id ≠ [] := by
        intro hnil
        have := (hL' n hn).mem_iff.2 hxn
        rw [hnil] at this; cases this
      refine (moveNetLoc_any (Fl := Fl') w hI hQ01 hL' hj hnonempty hp).mono ?_
      rintro ⟨s2, C2⟩ ⟨h2, h3⟩
      refine ⟨_, _, h3, ?_, ?_, h2⟩
      · intro e'
        by_cases h : e' = n.id
        · subst h; simp [hFe]
        · simp [upd_other _ _ h, hF', h]
      · intro e'
        by_cases h : e' = n.id
        · subst h; simp [hFle]
        · simp [upd_other _ _ h, hFl', h])
  refine hloop.mono ?_
  rintro ⟨s', C'⟩ ⟨F', Fl', hC', hF', hFl', hI⟩
  have hstep : F' = stepF x (P x.id) F := by
    funext e; rw [hF' e]; rfl
  subst hstep
  refine ⟨L', hL', hMP.allSplit w hx hL hS, ?_, hI⟩
  simp only at hC' ⊢
  rw [hC']
  apply cOf_congr
  intro n hn
  rw [hFl', exactF_moved w hx hMP hL h01 hn]

end

/-! ### Local and remote counts -/

/-- The counts a processor works with: its own pins plus the pins elsewhere. -/
def viewF (P : Nat → Int) (L : Nat → List Nat) (R : Nat → Cnt) : Nat → Cnt :=
  fun e => ⟨(exactF P L e).c0 + (R e).c0, (exactF P L e).c1 + (R e).c1⟩

/-- Pins elsewhere are not negative. -/
def RNonneg (R : Nat → Cnt) : Prop := ∀ e, 0 ≤ (R e).c0 ∧ 0 ≤ (R e).c1

theorem exactF_flip {H : Hypergraph} (w : WF H) {P : Nat → Int} {L L' : Nat → List Nat}
    (h01 : Parts01 H P) (hL : PinsPerm H L) (hL' : PinsPerm H L') {x : Vertex}
    (hx : x ∈ H.vertices) {n : Net} (hn : n ∈ H.nets) :
    exactF (flip P x.id) L' n.id = stepF x (P x.id) (exactF P L) n.id := by
  have hp : (L' n.id).Perm (L n.id) := (hL' n hn).trans (hL n hn).symm
  have hnd : (L n.id).Nodup := (hL n hn).nodup_iff.2 (w.npins n hn)
  unfold stepF
  by_cases he : n.id ∈ x.nets
  · rw [if_pos he]
    have hmem : x.id ∈ L n.id := (hL n hn).mem_iff.2 ((mem_nets_iff w hx hn).1 he)
    unfold exactF
    rw [hp.countP_eq, hp.countP_eq,
      countP_flip_mem hnd hmem 0 (h01 x hx) (Or.inl rfl),
      countP_flip_mem hnd hmem 1 (h01 x hx) (Or.inr rfl)]
    rcases h01 x hx with hp | hp <;> simp [hp, stepCnt, Cnt.bump]
  · rw [if_neg he]
    have hnot : x.id ∉ L n.id := by
      intro hm
      exact he ((mem_nets_iff w hx hn).2 ((hL n hn).mem_iff.1 hm))
    unfold exactF
    rw [hp.countP_eq, hp.countP_eq, countP_flip_notMem hnot, countP_flip_notMem hnot]

theorem viewF_flip {H : Hypergraph} (w : WF H) {P : Nat → Int} {L L' : Nat → List Nat}
    {R : Nat → Cnt} (h01 : Parts01 H P) (hL : PinsPerm H L) (hL' : PinsPerm H L') {x : Vertex}
    (hx : x ∈ H.vertices) {n : Net} (hn : n ∈ H.nets) :
    stepF x (P x.id) (viewF P L R) n.id = viewF (flip P x.id) L' R n.id := by
  have h := exactF_flip w h01 hL hL' hx hn
  unfold viewF
  rw [h]
  unfold stepF
  by_cases he : n.id ∈ x.nets
  · simp only [he, if_true]
    rcases h01 x hx with hp | hp <;> simp [hp, stepCnt, Cnt.bump] <;> omega
  · simp only [he, if_false]

/-- State of a processor: `R` are the pins on other processors; if `B` holds the stored gains are
exact for the counts it works with. -/
structure LInv (B : Prop) (H : Hypergraph) (M : Nat) (R : Nat → Cnt) (P : Nat → Int)
    (L : Nat → List Nat) (G : Nat → Option Int) (s : GainStructure) (Lc : List Cnt) : Prop where
  inv : GInv H M P L (viewF P L R) G s
  ok : B → GOK H (viewF P L R) P G
  h01 : Parts01 H P
  hL : PinsPerm H L
  hS : AllSplit H P L
  hLc : Lc = cOf H (exactF P L)

theorem LInv.congrInv {B : Prop} {H : Hypergraph} {M : Nat} {R : Nat → Cnt} {P : Nat → Int}
    {L : Nat → List Nat} {G : Nat → Option Int} {s s' : GainStructure} {Lc : List Cnt}
    (h : LInv B H M R P L G s Lc) (hI : GInv H M P L (viewF P L R) G s') :
    LInv B H M R P L G s' Lc := ⟨hI, h.ok, h.h01, h.hL, h.hS, h.hLc⟩

/-- Moving an unlocked vertex. -/
theorem LInv.move {B : Prop} {H : Hypergraph} (w : WF H) (hc : B → CostsNonneg H) {M : Nat}
    (hM : MaxCost H M) {R : Nat → Cnt} (hR : RNonneg R) {P : Nat → Int} {L : Nat → List Nat}
    {G : Nat → Option Int} {s : GainStructure} {Lc : List Cnt} (h : LInv B H M R P L G s Lc)
    {x : Vertex} (hx : x ∈ H.vertices) {g : Int} (hG : G x.id = some g) :
    Outcome B (s.moveLoc x.id Lc) (fun st => ∃ L' G',
      LInv B H M R (flip P x.id) L' G' st.1 st.2 ∧
      ∀ u, G' u = none ↔ (u = x.id ∨ G u = none)) := by
  have h01' := flip_01 h.h01 _ (h.h01 x hx)
  rw [h.hLc]
  by_cases hB : B
  · obtain ⟨L', s', G', h1, h2, h3, h4, h5, -, h7⟩ := moveLoc_ok w (hc hB) hM h.inv (h.ok hB) h.h01 h.hL
      h.hS (fun n _ => ⟨by unfold viewF; have := hR n.id; simp only; omega,
        by unfold viewF; have := hR n.id; simp only; omega⟩) hx hG
    have hv := fun n hn => viewF_flip (R := R) w h.h01 h.hL h2 hx (n := n) hn
    refine Outcome.of_ok ⟨_, h1, L', G', ⟨h4.congrF hv, fun _ => ?_, h01', h2, h3, rfl⟩, h7⟩
    intro y hy g hg
    rw [h5 y hy g hg]
    exact gainSum_congr w _ hv hy
  · have := moveLoc_any w h.inv h.h01 h.hL h.hS hx hG
    rcases this with ⟨⟨s', C'⟩, h1, L', h2, h3, h4, G', h5, h6⟩ | ⟨-, h1⟩
    · have hv := fun n hn => viewF_flip (R := R) w h.h01 h.hL h2 hx (n := n) hn
      exact Outcome.of_ok ⟨_, h1, L', G', ⟨h5.congrF hv, fun hb => absurd hb hB, h01', h2, h3, h4⟩, h6⟩
    · exact Or.inr ⟨hB, h1⟩

theorem LInv.remove {B : Prop} {H : Hypergraph} (w : WF H) {M : Nat}
    {R : Nat → Cnt} {P : Nat → Int} {L : Nat → List Nat}
    {G : Nat → Option Int} {s : GainStructure} {Lc : List Cnt} (h : LInv B H M R P L G s Lc)
    {x : Vertex} (hx : x ∈ H.vertices) {g : Int} (hG : G x.id = some g) :
    ∃ s', s.remove x.id = .ok s' ∧ LInv B H M R P L (upd G x.id none) s' Lc := by
  obtain ⟨s', h1, h2⟩ := gremove_ok w h.inv h.h01 hx hG
  refine ⟨s', h1, h2, fun hB => ?_, h.h01, h.hL, h.hS, h.hLc⟩
  intro y hy g hg
  by_cases hyx : y.id = x.id
  · rw [hyx, upd_same] at hg; cases hg
  · rw [upd_other _ _ hyx] at hg
    exact h.ok hB y hy g hg

/-! ### Moving back -/

/-- `move(id, C, C_loc)` on the functional view. -/
theorem hmoveLoc_conc {H : Hypergraph} (w : WF H) {R : Nat → Cnt} {P : Nat → Int} {L : Nat → List Nat}
    (h01 : Parts01 H P) (hL : PinsPerm H L) (hS : AllSplit H P L) {x : Vertex}
    (hx : x ∈ H.vertices) :
    ∃ L', (conc H P L).moveLoc x.id (cOf H (viewF P L R)) (cOf H (exactF P L)) =
        .ok (conc H (flip P x.id) L', cOf H (viewF (flip P x.id) L' R),
          cOf H (exactF (flip P x.id) L')) ∧
      PinsPerm H L' ∧ AllSplit H (flip P x.id) L' := by
  obtain ⟨i, hi, hloc⟩ := w.localId_mem hx
  obtain ⟨L', hm, hM⟩ := moveSorted_conc w h01 hL hS (exactF_zeroCounts H P L) hx
  have hL' := hM.pinsPerm hL
  have hp := h01 x hx
  refine ⟨L', ?_, hL', hM.allSplit w hx hL hS⟩
  unfold Hypergraph.moveLoc
  rw [conc_localId, hloc]
  simp only [ok_bind]
  rw [vget_ok (conc_vget P L hi)]
  simp only [ok_bind]
  rw [hm]
  simp only [ok_bind]
  rw [vget_ok (conc_vget _ L' hi)]
  simp only [ok_bind]
  have hfp : flip P x.id x.id = other (P x.id) := by simp [flip]
  rw [hfp]
  obtain ⟨⟨C1, C2⟩, hC, F', Fl', rfl, rfl, hF', hFl'⟩ := foldlM_inv
    (f := fun (st : List Cnt × List Cnt) e => do
      let j ← (conc H (flip P x.id) L').localIdNet e
      let C ← cAdd st.1 j (P x.id) (-1)
      let C ← cAdd C j (other (P x.id)) 1
      let L ← cAdd st.2 j (P x.id) (-1)
      let L ← cAdd L j (other (P x.id)) 1
      pure (C, L))
    (fun pre _ (st : List Cnt × List Cnt) => ∃ F' Fl', st.1 = cOf H F' ∧ st.2 = cOf H Fl' ∧
      (∀ e, F' e = if e ∈ pre then stepCnt (P x.id) (viewF P L R e) else viewF P L R e) ∧
      (∀ e, Fl' e = if e ∈ pre then stepCnt (P x.id) (exactF P L e) else exactF P L e))
    x.nets (cOf H (viewF P L R), cOf H (exactF P L))
    ⟨viewF P L R, exactF P L, rfl, rfl, by simp, by simp⟩ (by
      rintro pre e post ⟨C1, C2⟩ ⟨F', Fl', h1, h2, hF', hFl'⟩ hl
      simp only at h1 h2
      subst h1; subst h2
      have he : e ∈ x.nets := by rw [hl]; simp
      have hnd := w.vnets x hx
      have hnot : e ∉ pre := by
        rw [hl] at hnd
        intro hm
        exact (List.nodup_append.1 hnd).2.2 _ hm _ (by simp) rfl
      obtain ⟨j, n, hj, hne, hxn, hlocn, -⟩ := w.net_of_vnet hx he
      subst hne
      rw [conc_localIdNet, hlocn]
      simp only [ok_bind]
      rw [cOf_cAdd w hj hp]
      simp only [ok_bind]
      rw [cOf_cAdd w hj (other_01 hp)]
      simp only [ok_bind]
      rw [cOf_cAdd w hj hp]
      simp only [ok_bind]
      rw [cOf_cAdd w hj (other_01 hp)]
      simp only [ok_bind]
      refine ⟨_, rfl, _, _, rfl, rfl, ?_, ?_⟩
      · intro e'
        by_cases h : e' = n.id
        · subst h
          simp only [upd_same, hF', hnot, if_false, List.mem_append, List.mem_singleton, or_true,
            if_true]
          rcases hp with hp | hp <;> simp [hp, stepCnt, Cnt.bump]
        · simp only [upd_other _ _ h, List.mem_append, List.mem_singleton, h, or_false, hF']
      · intro e'
        by_cases h : e' = n.id
        · subst h
          simp only [upd_same, hFl', hnot, if_false, List.mem_append, List.mem_singleton, or_true,
            if_true]
          rcases hp with hp | hp <;> simp [hp, stepCnt, Cnt.bump]
        · simp only [upd_other _ _ h, List.mem_append, List.mem_singleton, h, or_false, hFl'])
  have e1 : cOf H F' = cOf H (viewF (flip P x.id) L' R) := by
    apply cOf_congr
    intro n hn
    rw [hF' n.id, ← viewF_flip w h01 hL hL' hx hn]
    rfl
  have e2 : cOf H Fl' = cOf H (exactF (flip P x.id) L') := by
    apply cOf_congr
    intro n hn
    rw [hFl' n.id, exactF_flip w h01 hL hL' hx hn]
    rfl
  rw [e1, e2] at hC
  rw [hC]
  rfl

end PMondriaan

import Verif.Proofs.ParLocal

/-
`update_gains`: the gains follow the counts that changed on other processors.
-/

namespace PMondriaan

open Spec

/-- Add `d` to the gains of the pins in `l` for which `c` holds. -/
def addPins (G : Nat → Option Int) (l : List Nat) (δ : Nat → Int) : Nat → Option Int :=
  fun u => if u ∈ l then (G u).map (· + δ u) else G u

theorem addPins_none {G : Nat → Option Int} {l : List Nat} {δ : Nat → Int} (u : Nat) :
    addPins G l δ u = none ↔ G u = none := by
  unfold addPins
  split <;> simp

theorem endVertex_split {n : Net} {P : Nat → Int} (hS : Split P n.vertices) (hne : n.vertices ≠ [])
    {p : Int} (hp : p = 0 ∨ p = 1) (h1 : n.vertices.countP (fun u => P u = p) ≤ 1) :
    ∃ u ∈ n.vertices, GainStructure.endVertex n p = .ok u ∧
      (∀ u' ∈ n.vertices, P u' = p → u' = u) := by
  obtain ⟨z, o, hl, hz, ho⟩ := hS
  have hc := countP_zero_split hz ho
  rw [← hl] at hc
  rcases hp with rfl | rfl
  · cases z with
    | nil =>
      cases o with
      | nil => simp at hl; exact absurd hl hne
      | cons u o =>
        refine ⟨u, by rw [hl]; simp, ?_, ?_⟩
        · unfold GainStructure.endVertex
          rw [if_neg (by decide), hl]; rfl
        · intro u' hu' hp'
          rw [hl] at hu'
          have := ho u' (by simpa using hu')
          omega
    | cons u z =>
      have hz0 : z = [] := by
        rw [hc.1] at h1
        simpa using h1
      subst hz0
      refine ⟨u, by rw [hl]; simp, ?_, ?_⟩
      · unfold GainStructure.endVertex
        rw [if_neg (by decide), hl]; rfl
      · intro u' hu' hp'
        rw [hl] at hu'
        simp only [List.cons_append, List.nil_append, List.mem_cons] at hu'
        rcases hu' with h | h
        · exact h
        · have := ho u' h; omega
  · have hlen : 0 < n.vertices.length := List.length_pos_iff.2 hne
    rcases List.eq_nil_or_concat o with rfl | ⟨o', u, rfl⟩
    · refine ⟨n.vertices[n.vertices.length - 1], List.getElem_mem _, ?_, ?_⟩
      · unfold GainStructure.endVertex
        rw [if_pos rfl]
        apply vgetI_ok (k := n.vertices.length - 1)
        · omega
        · exact List.getElem?_eq_getElem _
      · intro u' hu' hp'
        rw [hl] at hu'
        have := hz u' (by simpa using hu')
        omega
    · have ho0 : o' = [] := by
        rw [hc.2] at h1
        simpa using h1
      subst ho0
      refine ⟨u, by rw [hl]; simp, ?_, ?_⟩
      · unfold GainStructure.endVertex
        rw [if_pos rfl, hl]
        apply vgetI_ok (k := z.length)
        · simp
        · simp
      · intro u' hu' hp'
        rw [hl] at hu'
        simp only [List.mem_append] at hu'
        rcases hu' with h | h
        · have := hz u' h; omega
        · simpa using h

section
variable {H : Hypergraph} (w : WF H) {M : Nat} {P : Nat → Int} {L : Nat → List Nat}
  {F : Nat → Cnt} {G : Nat → Option Int} {s : GainStructure}
include w

theorem addGainPins_ok (h : GInv H M P L F G s) (h01 : Parts01 H P) (hL : PinsPerm H L) {n : Net}
    (hn : n ∈ H.nets) (d : Int)
    (hb : ∀ u ∈ L n.id, ∀ g, G u = some g → -(M : Int) ≤ g + d ∧ g + d ≤ M) :
    ∃ s', (L n.id).foldlM (fun s u => s.addGain u d) s = .ok s' ∧
      GInv H M P L F (addPins G (L n.id) (fun _ => d)) s' := by
  obtain ⟨s', h1, h2⟩ := addGainList_ok w h h01 (L n.id) ((hL n hn).nodup_iff.2 (w.npins n hn)) (by
    intro u hu
    obtain ⟨y, hy, rfl, -⟩ := w.inc_vtx n hn u ((hL n hn).mem_iff.1 hu)
    exact List.mem_map_of_mem hy) d hb
  exact ⟨s', h1, h2.congrG (fun u _ => rfl)⟩

theorem addGainSide_ok (h : GInv H M P L F G s) (h01 : Parts01 H P) (hL : PinsPerm H L)
    (hS : AllSplit H P L) {n : Net} (hn : n ∈ H.nets) (hne : L n.id ≠ []) {p : Int}
    (hp : p = 0 ∨ p = 1) (h1 : (L n.id).countP (fun u => P u = p) ≤ 1) (d : Int)
    (hb : ∀ u ∈ L n.id, P u = p → ∀ g, G u = some g → -(M : Int) ≤ g + d ∧ g + d ≤ M) :
    ∃ s', addGainSide s { n with vertices := L n.id } p d = .ok s' ∧
      GInv H M P L F (addPins G (L n.id) (fun u => if P u = p then d else 0)) s' := by
  obtain ⟨u, hu, he, hall⟩ := endVertex_split (n := { n with vertices := L n.id }) (hS n hn) hne hp h1
  have hu : u ∈ L n.id := hu
  obtain ⟨y, hy, hyu, -⟩ := w.inc_vtx n hn u ((hL n hn).mem_iff.1 hu)
  have hyu : y.id = u := hyu
  subst hyu
  unfold addGainSide
  rw [he]; simp only [ok_bind]
  rw [h.hH, conc_vertexOf w P L hy]
  simp only [ok_bind]
  apply ite_step
  · intro hpy
    obtain ⟨s', h1, h2⟩ := addGain_ok w h h01 hy d (hb _ hu hpy)
    refine ⟨s', h1, h2.congrG ?_⟩
    intro v _
    unfold addSet addPins
    by_cases hv : v = y.id
    · subst hv; simp [hu, hpy]
    · simp only [List.mem_singleton, hv, if_false]
      split
      · rename_i hvl
        have : ¬ P v = p := fun hpv => hv (hall v hvl hpv)
        simp [this]
      · rfl
  · intro hpy
    refine h.congrG ?_
    intro v _
    unfold addPins
    split
    · rename_i hvl
      have : ¬ P v = p := fun hpv => hpy (by rw [← hall v hvl hpv]; exact hpv)
      simp [this]
    · rfl

end

theorem addPins_addPins {G : Nat → Option Int} {l : List Nat} {δ ε : Nat → Int} :
    addPins (addPins G l δ) l ε = addPins G l (fun u => δ u + ε u) := by
  funext u
  unfold addPins
  by_cases h : u ∈ l
  · simp only [h, if_true]
    cases G u with
    | none => rfl
    | some g => simp; omega
  · simp [h]

theorem addPins_zero {G : Nat → Option Int} {l : List Nat} : addPins G l (fun _ => 0) = G := by
  funext u
  unfold addPins
  split
  · cases G u <;> simp
  · rfl

theorem addPins_congr {G : Nat → Option Int} {l : List Nat} {δ ε : Nat → Int}
    (h : ∀ u ∈ l, δ u = ε u) : addPins G l δ = addPins G l ε := by
  funext u
  unfold addPins
  split
  · rename_i hu; rw [h u hu]
  · rfl

/-- The total change after the first `i` steps of `update_gains` for a pin in part `p`. -/
def stage (a b : Cnt) (k : Int) (i : Nat) (p : Int) : Int :=
  (if 1 ≤ i ∧ ((b.c0 = 0 ∧ a.c0 > 0) ∨ (b.c1 = 0 ∧ a.c1 > 0)) then -k else 0)
  + (if 2 ≤ i ∧ p = 0 ∧ b.c0 = 1 ∧ a.c0 > 1 then k else 0)
  + (if 3 ≤ i ∧ p = 1 ∧ b.c1 = 1 ∧ a.c1 > 1 then k else 0)
  + (if 4 ≤ i ∧ ((b.c0 > 0 ∧ a.c0 = 0) ∨ (b.c1 > 0 ∧ a.c1 = 0)) then k else 0)
  + (if 5 ≤ i ∧ p = 0 ∧ b.c0 > 1 ∧ a.c0 = 1 then -k else 0)
  + (if 6 ≤ i ∧ p = 1 ∧ b.c1 > 1 ∧ a.c1 = 1 then -k else 0)

/-- A pin in part `p` exists, so both counts of `p` are positive. -/
structure PinAt (a b : Cnt) (p : Int) : Prop where
  hp : p = 0 ∨ p = 1
  a0 : 0 ≤ a.c0
  a1 : 0 ≤ a.c1
  b0 : 0 ≤ b.c0
  b1 : 0 ≤ b.c1
  ap : 1 ≤ a.at p
  bp : 1 ≤ b.at p

theorem stage_bound {a b : Cnt} {k : Int} (hk : 0 ≤ k) {p : Int} (h : PinAt a b p) (i : Nat) :
    -k ≤ contrib a k p + stage a b k i p ∧ contrib a k p + stage a b k i p ≤ k := by
  obtain ⟨hp, a0, a1, b0, b1, ap, bp⟩ := h
  unfold contrib stage
  rcases hp with rfl | rfl
  · simp only [Cnt.at, other_zero, if_true, one_ne_zero, if_false, zero_ne_one, false_and,
      and_false, true_and] at ap bp ⊢
    have h1 : ¬ (b.c0 = 0 ∧ a.c0 > 0) := by omega
    have h2 : ¬ (b.c0 > 0 ∧ a.c0 = 0) := by omega
    simp only [h1, h2, false_or]
    split_ifs <;> omega
  · simp only [Cnt.at, other_one, if_true, one_ne_zero, if_false, false_and,
      and_false, true_and] at ap bp ⊢
    have h1 : ¬ (b.c1 = 0 ∧ a.c1 > 0) := by omega
    have h2 : ¬ (b.c1 > 0 ∧ a.c1 = 0) := by omega
    simp only [h1, h2, or_false]
    split_ifs <;> omega

theorem stage_last {a b : Cnt} {k : Int} {p : Int} (h : PinAt a b p) :
    contrib a k p + stage a b k 6 p = contrib b k p := by
  obtain ⟨hp, a0, a1, b0, b1, ap, bp⟩ := h
  unfold contrib stage
  rcases hp with rfl | rfl
  · simp only [Cnt.at, other_zero, if_true, one_ne_zero, if_false, zero_ne_one, false_and,
      and_false, true_and] at ap bp ⊢
    have h1 : ¬ (b.c0 = 0 ∧ a.c0 > 0) := by omega
    have h2 : ¬ (b.c0 > 0 ∧ a.c0 = 0) := by omega
    simp only [h1, h2, false_or]
    split_ifs <;> omega
  · simp only [Cnt.at, other_one, if_true, one_ne_zero, if_false, false_and,
      and_false, true_and] at ap bp ⊢
    have h1 : ¬ (b.c1 = 0 ∧ a.c1 > 0) := by omega
    have h2 : ¬ (b.c1 > 0 ∧ a.c1 = 0) := by omega
    simp only [h1, h2, or_false]
    split_ifs <;> omega

theorem stage_zero (a b : Cnt) (k : Int) (p : Int) : stage a b k 0 p = 0 := by
  simp [stage]

section
variable {H : Hypergraph} (w : WF H) {M : Nat} {P : Nat → Int} {L : Nat → List Nat}
  {F : Nat → Cnt} {G : Nat → Option Int} {s : GainStructure}
include w

/-- `update_gains` with exact counts before and after. -/
theorem updateGains_ok (h : GInv H M P L F G s) (h01 : Parts01 H P) (hL : PinsPerm H L)
    (hS : AllSplit H P L) {n : Net} (hn : n ∈ H.nets) (hne : L n.id ≠ []) {a b : Cnt}
    (ha0 : (exactF P L n.id).c0 ≤ a.c0) (ha1 : (exactF P L n.id).c1 ≤ a.c1)
    (hb0 : (exactF P L n.id).c0 ≤ b.c0) (hb1 : (exactF P L n.id).c1 ≤ b.c1)
    (hcost : 0 ≤ n.cost)
    (hbound : ∀ u ∈ L n.id, ∀ g, G u = some g →
      -((M : Int) - n.cost) ≤ g - contrib a n.cost (P u) ∧
      g - contrib a n.cost (P u) ≤ (M : Int) - n.cost) :
    ∃ s', updateGains s { n with vertices := L n.id } a b = .ok s' ∧
      GInv H M P L F (addPins G (L n.id)
        (fun u => contrib b n.cost (P u) - contrib a n.cost (P u))) s' := by
  have hx0 : 0 ≤ (exactF P L n.id).c0 := by simp [exactF]
  have hx1 : 0 ≤ (exactF P L n.id).c1 := by simp [exactF]
  have hpin : ∀ u ∈ L n.id, PinAt a b (P u) := by
    intro u hu
    have hp := h01.pin w hn ((hL n hn).mem_iff.1 hu)
    have hpos : 1 ≤ (exactF P L n.id).at (P u) := by
      rw [exactF_at hp]
      have : 0 < (L n.id).countP (fun v => P v = P u) := List.countP_pos_iff.2 ⟨u, hu, by simp⟩
      omega
    refine ⟨hp, by omega, by omega, by omega, by omega, ?_, ?_⟩
    · rcases hp with hp | hp <;> rw [hp] at hpos ⊢ <;> simp [Cnt.at] at hpos ⊢ <;> omega
    · rcases hp with hp | hp <;> rw [hp] at hpos ⊢ <;> simp [Cnt.at] at hpos ⊢ <;> omega
  -- bound for the change from stage i to a later one
  have hbd : ∀ i : Nat, ∀ u ∈ L n.id, ∀ g, addPins G (L n.id) (fun u => stage a b n.cost i (P u)) u = some g →
      ∀ d, stage a b n.cost i (P u) + d = stage a b n.cost (i + 1) (P u) →
      -(M : Int) ≤ g + d ∧ g + d ≤ M := by
    intro i u hu g hg d hd
    unfold addPins at hg
    rw [if_pos hu, Option.map_eq_some_iff] at hg
    obtain ⟨g0, hg0, rfl⟩ := hg
    have h1 := hbound u hu g0 hg0
    have h2 := stage_bound hcost (hpin u hu) (i + 1)
    dsimp only
    omega
  have hc0 : ∀ c : Int, (exactF P L n.id).c0 ≤ c → c = 1 →
      (L n.id).countP (fun u => P u = 0) ≤ 1 := by
    intro c h1 h2
    simp only [exactF] at h1
    omega
  have hc1 : ∀ c : Int, (exactF P L n.id).c1 ≤ c → c = 1 →
      (L n.id).countP (fun u => P u = 1) ≤ 1 := by
    intro c h1 h2
    simp only [exactF] at h1
    omega
  let GI : Nat → GainStructure → Prop := fun i s =>
    GInv H M P L F (addPins G (L n.id) (fun u => stage a b n.cost i (P u))) s
  have hnext : ∀ {i : Nat} {s : GainStructure}, GI i s →
      (∀ u ∈ L n.id, stage a b n.cost i (P u) = stage a b n.cost (i + 1) (P u)) → GI (i + 1) s := by
    intro i s hi he
    exact hi.congrG (fun u _ => by rw [addPins_congr he])
  have hadd : ∀ {i : Nat} {s : GainStructure} {δ : Nat → Int},
      GInv H M P L F (addPins (addPins G (L n.id) (fun u => stage a b n.cost i (P u))) (L n.id) δ) s →
      (∀ u ∈ L n.id, stage a b n.cost i (P u) + δ u = stage a b n.cost (i + 1) (P u)) →
      GI (i + 1) s := by
    intro i s δ hi he
    refine hi.congrG (fun u _ => ?_)
    rw [addPins_addPins, addPins_congr he]
  have hst : GI 0 s := by
    refine h.congrG (fun u _ => ?_)
    rw [addPins_congr (fun u _ => stage_zero a b n.cost (P u)), addPins_zero]
  unfold updateGains
  simp only
  -- step 1
  obtain ⟨s1, hs1, h1⟩ := ite_step (c := (b.c0 = 0 ∧ a.c0 > 0) ∨ (b.c1 = 0 ∧ a.c1 > 0)) (s := s)
    (f := (L n.id).foldlM (fun s u => s.addGain u (-1 * n.cost)) s) (Q := GI 1) (by
      intro hc
      have he : ∀ u ∈ L n.id, stage a b n.cost 0 (P u) + -1 * n.cost = stage a b n.cost (0 + 1) (P u) := by
        intro u hu; simp [stage, hc]
      obtain ⟨s', h1, h2⟩ := addGainPins_ok w hst h01 hL hn (-1 * n.cost)
        (fun u hu g hg => hbd 0 u hu g hg _ (he u hu))
      exact ⟨s', h1, hadd h2 he⟩) (by
      intro hc
      exact hnext hst (fun u hu => by simp [stage, hc]))
  rw [hs1]; simp only [ok_bind]
  -- step 2
  obtain ⟨s2, hs2, h2⟩ := ite_step (c := b.c0 = 1 ∧ a.c0 > 1) (s := s1)
    (f := addGainSide s1 { n with vertices := L n.id } 0 n.cost) (Q := GI 2) (by
      intro hc
      have he : ∀ u ∈ L n.id, stage a b n.cost 1 (P u) + (if P u = 0 then n.cost else 0) =
          stage a b n.cost (1 + 1) (P u) := by
        intro u hu; simp [stage, hc.1, hc.2]
      obtain ⟨s', h3, h4⟩ := addGainSide_ok w h1 h01 hL hS hn hne (Or.inl rfl) (hc0 _ hb0 hc.1) n.cost
        (fun u hu hp g hg => hbd 1 u hu g hg _ (by rw [← he u hu, if_pos hp]))
      exact ⟨s', h3, hadd h4 he⟩) (by
      intro hc
      exact hnext h1 (fun u hu => by simp [stage, hc]))
  rw [hs2]; simp only [ok_bind]
  -- step 3
  obtain ⟨s3, hs3, h3⟩ := ite_step (c := b.c1 = 1 ∧ a.c1 > 1) (s := s2)
    (f := addGainSide s2 { n with vertices := L n.id } 1 n.cost) (Q := GI 3) (by
      intro hc
      have he : ∀ u ∈ L n.id, stage a b n.cost 2 (P u) + (if P u = 1 then n.cost else 0) =
          stage a b n.cost (2 + 1) (P u) := by
        intro u hu; simp [stage, hc.1, hc.2]
      obtain ⟨s', h3, h4⟩ := addGainSide_ok w h2 h01 hL hS hn hne (Or.inr rfl) (hc1 _ hb1 hc.1) n.cost
        (fun u hu hp g hg => hbd 2 u hu g hg _ (by rw [← he u hu, if_pos hp]))
      exact ⟨s', h3, hadd h4 he⟩) (by
      intro hc
      exact hnext h2 (fun u hu => by simp [stage, hc]))
  rw [hs3]; simp only [ok_bind]
  -- step 4
  obtain ⟨s4, hs4, h4⟩ := ite_step (c := (b.c0 > 0 ∧ a.c0 = 0) ∨ (b.c1 > 0 ∧ a.c1 = 0)) (s := s3)
    (f := (L n.id).foldlM (fun s u => s.addGain u n.cost) s3) (Q := GI 4) (by
      intro hc
      have he : ∀ u ∈ L n.id, stage a b n.cost 3 (P u) + n.cost = stage a b n.cost (3 + 1) (P u) := by
        intro u hu; simp [stage, hc]
      obtain ⟨s', h5, h6⟩ := addGainPins_ok w h3 h01 hL hn n.cost
        (fun u hu g hg => hbd 3 u hu g hg _ (he u hu))
      exact ⟨s', h5, hadd h6 he⟩) (by
      intro hc
      exact hnext h3 (fun u hu => by simp [stage, hc]))
  rw [hs4]; simp only [ok_bind]
  -- step 5
  obtain ⟨s5, hs5, h5⟩ := ite_step (c := b.c0 > 1 ∧ a.c0 = 1) (s := s4)
    (f := addGainSide s4 { n with vertices := L n.id } 0 (-1 * n.cost)) (Q := GI 5) (by
      intro hc
      have he : ∀ u ∈ L n.id, stage a b n.cost 4 (P u) + (if P u = 0 then -1 * n.cost else 0) =
          stage a b n.cost (4 + 1) (P u) := by
        intro u hu; simp [stage, hc.1, hc.2]
      obtain ⟨s', h3, h4⟩ := addGainSide_ok w h4 h01 hL hS hn hne (Or.inl rfl) (hc0 _ ha0 hc.2)
        (-1 * n.cost)
        (fun u hu hp g hg => hbd 4 u hu g hg _ (by rw [← he u hu, if_pos hp]))
      exact ⟨s', h3, hadd h4 he⟩) (by
      intro hc
      exact hnext h4 (fun u hu => by simp [stage, hc]))
  rw [hs5]; simp only [ok_bind]
  -- step 6
  obtain ⟨s6, hs6, h6⟩ := ite_step (c := b.c1 > 1 ∧ a.c1 = 1) (s := s5)
    (f := addGainSide s5 { n with vertices := L n.id } 1 (-1 * n.cost)) (Q := GI 6) (by
      intro hc
      have he : ∀ u ∈ L n.id, stage a b n.cost 5 (P u) + (if P u = 1 then -1 * n.cost else 0) =
          stage a b n.cost (5 + 1) (P u) := by
        intro u hu; simp [stage, hc.1, hc.2]
      obtain ⟨s', h3, h4⟩ := addGainSide_ok w h5 h01 hL hS hn hne (Or.inr rfl) (hc1 _ ha1 hc.2)
        (-1 * n.cost)
        (fun u hu hp g hg => hbd 5 u hu g hg _ (by rw [← he u hu, if_pos hp]))
      exact ⟨s', h3, hadd h4 he⟩) (by
      intro hc
      exact hnext h5 (fun u hu => by simp [stage, hc]))
  refine ⟨s6, hs6, h6.congrG (fun u _ => ?_)⟩
  rw [addPins_congr (fun u hu => ?_)]
  have := stage_last (k := n.cost) (hpin u hu)
  omega

/-- `update_gains` with arbitrary stored gains. -/
theorem updateGains_any {Z : Nat → Prop} (h : GAny H M P L F Z s) (h01 : Parts01 H P)
    (hL : PinsPerm H L) {n : Net} (hn : n ∈ H.nets) (a b : Cnt) :
    Outcome False (updateGains s { n with vertices := L n.id } a b) (GAny H M P L F Z) := by
  have hall : ∀ {s : GainStructure} (d : Int), GAny H M P L F Z s →
      Outcome False ((L n.id).foldlM (fun s u => s.addGain u d) s) (GAny H M P L F Z) := by
    intro s d h
    apply addGainList_any w h h01
    intro u hu
    obtain ⟨y, hy, rfl, -⟩ := w.inc_vtx n hn u ((hL n hn).mem_iff.1 hu)
    exact List.mem_map_of_mem hy
  have hside : ∀ {s : GainStructure} (p d : Int), GAny H M P L F Z s →
      Outcome False (addGainSide s { n with vertices := L n.id } p d) (GAny H M P L F Z) := by
    intro s p d h
    unfold addGainSide
    by_cases hne : L n.id = []
    · refine Or.inr ⟨id, ?_⟩
      unfold GainStructure.endVertex
      simp only [hne]
      split <;> simp [vgetI, vget]
    · obtain ⟨u, hu, he⟩ := endVertex_any (n := { n with vertices := L n.id }) hne p
      obtain ⟨y, hy, hyu, -⟩ := w.inc_vtx n hn u ((hL n hn).mem_iff.1 hu)
      have hyu : y.id = u := hyu
      subst hyu
      rw [he]; simp only [ok_bind]
      rw [h.hH, conc_vertexOf w P L hy]
      simp only [ok_bind]
      exact Outcome.runIf (fun _ => addGain_any w h h01 (List.mem_map_of_mem hy) d) (fun _ => h)
  unfold updateGains
  refine (Outcome.runIf (fun _ => hall _ h) (fun _ => h)).bind (fun s h => ?_)
  refine (Outcome.runIf (fun _ => hside _ _ h) (fun _ => h)).bind (fun s h => ?_)
  refine (Outcome.runIf (fun _ => hside _ _ h) (fun _ => h)).bind (fun s h => ?_)
  refine (Outcome.runIf (fun _ => hall _ h) (fun _ => h)).bind (fun s h => ?_)
  refine (Outcome.runIf (fun _ => hside _ _ h) (fun _ => h)).bind (fun s h => ?_)
  exact Outcome.runIf (fun _ => hside _ _ h) (fun _ => h)

end

end PMondriaan

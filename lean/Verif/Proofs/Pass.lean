import Verif.Proofs.GainInit
import Verif.Spec.Trace

/-
`KLFM_pass`, `make_balanced` and `KLFM` on the functional view.
-/

namespace PMondriaan

open Spec

/-! ### Weights -/

/-- Weight of part `p` under `P`. -/
def pw (H : Hypergraph) (P : Nat → Int) (p : Int) : Int :=
  (H.vertices.map (fun v => if P v.id = p then v.weight else 0)).sum

theorem sum_map_key_point {α : Type} {l : List α} {key : α → Nat} (hnd : (l.map key).Nodup)
    {f f' : α → Int} {x : α} (hx : x ∈ l) (h : ∀ y ∈ l, key y ≠ key x → f' y = f y) :
    (l.map f').sum = (l.map f).sum + (f' x - f x) := by
  induction l with
  | nil => cases hx
  | cons a l ih =>
    simp only [List.map_cons, List.nodup_cons] at hnd
    simp only [List.map_cons, List.sum_cons]
    rcases List.mem_cons.1 hx with rfl | hx'
    · have : l.map f' = l.map f := by
        apply List.map_congr_left
        intro y hy
        apply h y (by simp [hy])
        intro hk
        exact hnd.1 (by rw [← hk]; exact List.mem_map_of_mem hy)
      rw [this]; omega
    · rw [ih hnd.2 hx' (fun y hy => h y (by simp [hy]))]
      rw [h a (by simp) (by
        intro hk
        exact hnd.1 (by rw [hk]; exact List.mem_map_of_mem hx'))]
      omega

theorem pw_flip {H : Hypergraph} (w : WF H) {P : Nat → Int} {x : Vertex} (hx : x ∈ H.vertices)
    (h01 : P x.id = 0 ∨ P x.id = 1) {p : Int} (hp : p = 0 ∨ p = 1) :
    pw H (flip P x.id) p = pw H P p + if P x.id = p then -x.weight else x.weight := by
  unfold pw
  rw [sum_map_key_point (key := (·.id)) w.vids hx
    (f := fun v => if P v.id = p then v.weight else 0) (by
      intro y hy hne
      simp [flip, upd_other _ _ hne])]
  have : flip P x.id x.id = other (P x.id) := by simp [flip]
  rw [this]
  rcases h01 with h | h <;> rcases hp with rfl | rfl <;> simp [h]

theorem partWeight_conc {H : Hypergraph} (P : Nat → Int) (L : Nat → List Nat) (p : Int) :
    partWeight (conc H P L) p = pw H P p := by
  unfold partWeight pw conc
  simp only
  rw [sum_filter_ite, List.map_map]
  rfl

/-- The pair of weights of the two parts. -/
def pw2 (H : Hypergraph) (P : Nat → Int) : W2 := ⟨pw H P 0, pw H P 1⟩

theorem pw2_get {H : Hypergraph} {P : Nat → Int} {p : Int} (hp : p = 0 ∨ p = 1) :
    (pw2 H P).get p = .ok (pw H P p) := by
  rcases hp with rfl | rfl <;> rfl

theorem pw2_move {H : Hypergraph} (w : WF H) {P : Nat → Int} {x : Vertex} (hx : x ∈ H.vertices)
    (h01 : P x.id = 0 ∨ P x.id = 1) :
    ∃ w1, (pw2 H P).add (P x.id) (-x.weight) = .ok w1 ∧
      w1.add (other (P x.id)) x.weight = .ok (pw2 H (flip P x.id)) := by
  have h0 := pw_flip w hx h01 (p := 0) (Or.inl rfl)
  have h1 := pw_flip w hx h01 (p := 1) (Or.inr rfl)
  unfold pw2
  rw [h0, h1]
  rcases h01 with h | h
  · rw [h]; exact ⟨_, rfl, rfl⟩
  · rw [h]; exact ⟨_, rfl, rfl⟩

/-! ### Flipping a list of vertices -/

/-- Flip the vertices of a list one after the other. -/
def flips (P : Nat → Int) (l : List Nat) : Nat → Int := l.foldl flip P

theorem flips_flip (P : Nat → Int) (l : List Nat) (v : Nat) :
    flips (flip P v) l = flip (flips P l) v := by
  unfold flips
  induction l generalizing P with
  | nil => rfl
  | cons a l ih =>
    simp only [List.foldl_cons]
    rw [flip_comm, ih]

theorem flips_append (P : Nat → Int) (l : List Nat) (v : Nat) :
    flips P (l ++ [v]) = flip (flips P l) v := by
  simp [flips, List.foldl_append]

theorem flips_01 {H : Hypergraph} {P : Nat → Int} (h01 : Parts01 H P) {l : List Nat}
    (hl : ∀ u ∈ l, IsVertex H u) : Parts01 H (flips P l) := by
  induction l generalizing P with
  | nil => exact h01
  | cons a l ih =>
    unfold flips
    simp only [List.foldl_cons]
    obtain ⟨x, hx, hxa⟩ := List.mem_map.1 (hl a (by simp))
    have hxa : x.id = a := hxa
    subst hxa
    exact ih (flip_01 h01 _ (h01 x hx)) (fun u hu => hl u (by simp [hu]))

/-! ### The unlocked vertices -/

/-- Number of unlocked vertices. -/
def unlocked (H : Hypergraph) (G : Nat → Option Int) : Nat :=
  H.vertices.countP (fun v => (G v.id).isSome)

theorem unlocked_lt {H : Hypergraph} {G G' : Nat → Option Int} {x : Vertex}
    (hx : x ∈ H.vertices) {g : Int} (hG : G x.id = some g)
    (h : ∀ u, G' u = none ↔ (u = x.id ∨ G u = none)) : unlocked H G' < unlocked H G := by
  unfold unlocked
  have hle : ∀ l : List Vertex, l.countP (fun v => (G' v.id).isSome) ≤
      l.countP (fun v => (G v.id).isSome) := by
    intro l
    apply List.countP_mono_left
    intro v _ hv
    rw [Option.isSome_iff_ne_none] at hv ⊢
    intro hn
    exact hv ((h v.id).2 (Or.inr hn))
  obtain ⟨a, b, hab⟩ := List.append_of_mem hx
  rw [hab, List.countP_append, List.countP_append, List.countP_cons, List.countP_cons]
  have h1 := hle a
  have h2 := hle b
  have h3 : G' x.id = none := (h x.id).2 (Or.inl rfl)
  simp only [h3, hG, Option.isSome_none, Option.isSome_some, if_true]
  simp only [Bool.false_eq_true, if_false]
  omega

theorem upd_none_iff {G : Nat → Option Int} {v : Nat} (u : Nat) :
    upd G v none u = none ↔ (u = v ∨ G u = none) := by
  by_cases hu : u = v
  · subst hu; simp
  · simp [upd_other _ _ hu, hu]

theorem unlocked_le {H : Hypergraph} (G : Nat → Option Int) : unlocked H G ≤ H.vertices.length :=
  List.countP_le_length

/-! ### The state of the search -/

/-- The functional state of the sequential search. -/
structure SInv (H : Hypergraph) (M : Nat) (P : Nat → Int) (L : Nat → List Nat)
    (G : Nat → Option Int) (s : GainStructure) : Prop where
  inv : GInv H M P L (exactF P L) G s
  ok : GOK H (exactF P L) P G
  h01 : Parts01 H P
  hL : PinsPerm H L
  hS : AllSplit H P L

section
variable {H : Hypergraph} (w : WF H) (hc : CostsNonneg H) {M : Nat} (hM : MaxCost H M)
  {P : Nat → Int} {L : Nat → List Nat} {G : Nat → Option Int} {s : GainStructure}
  (h : SInv H M P L G s)
include w h

/-- The vertex offered by `next` and its gain. -/
theorem SInv.next {p : Int} (hp : p = 0 ∨ p = 1) (hne : ∃ u g, InBucket H P G p u g) (r : Rng) :
    ∃ x s' r' g, s.next p r = .ok (some x.id, s', r') ∧ x ∈ H.vertices ∧ P x.id = p ∧
      G x.id = some g ∧ g = cutNet P H.nets - cutNet (flip P x.id) H.nets ∧
      TopOf H P G p x g ∧ SInv H M P L G s' ∧
      ∃ s'', s'.gainNext p = .ok (some g, s'') ∧ SInv H M P L G s'' := by
  obtain ⟨o, s1, r1, h1, hI1, ho⟩ := gnext_ok h.inv hp r
  cases o with
  | none => obtain ⟨u, g, hu⟩ := hne; exact absurd hu (ho u g)
  | some u =>
    obtain ⟨g, hg, hmax⟩ := ho
    obtain ⟨x, hx, hxu⟩ := List.mem_map.1 hg.1
    have hxu : x.id = u := hxu
    subst hxu
    obtain ⟨o2, s2, h2, hI2, ho2⟩ := ggainNext_ok hI1 hp
    have ho2' : o2 = some g := by
      cases o2 with
      | none => exact absurd hg (ho2 _ _)
      | some g2 =>
        obtain ⟨⟨u2, hu2⟩, hmax2⟩ := ho2
        have a1 := hmax _ _ hu2
        have a2 := hmax2 _ _ hg
        congr 1; omega
    subst ho2'
    refine ⟨x, s1, r1, g, h1, hx, hg.2.1, hg.2.2, ?_, ⟨hx, hg, hmax⟩, ⟨hI1, h.ok, h.h01, h.hL, h.hS⟩, s2, h2,
      ⟨hI2, h.ok, h.h01, h.hL, h.hS⟩⟩
    rw [h.ok x hx g hg.2.2]
    exact gainSum_cut w h.h01 h.hL hx

include hc hM in
theorem SInv.move {x : Vertex} (hx : x ∈ H.vertices) {g : Int} (hG : G x.id = some g) :
    ∃ L' s' G', s.move x.id = .ok s' ∧ SInv H M (flip P x.id) L' G' s' ∧
      (∀ u, G' u = none ↔ (u = x.id ∨ G u = none)) := by
  obtain ⟨L', s', G', h1, h2, h3, h4, h5, -, h7⟩ := gmove_ok w hc hM h.inv h.ok h.h01 h.hL h.hS hx hG
  exact ⟨L', s', G', h1, ⟨h4, h5, flip_01 h.h01 _ (h.h01 x hx), h2, h3⟩, h7⟩

theorem SInv.remove {x : Vertex} (hx : x ∈ H.vertices) {g : Int} (hG : G x.id = some g) :
    ∃ s', s.remove x.id = .ok s' ∧ SInv H M P L (upd G x.id none) s' := by
  obtain ⟨s', h1, h2⟩ := gremove_ok w h.inv h.h01 hx hG
  refine ⟨s', h1, h2, ?_, h.h01, h.hL, h.hS⟩
  intro y hy g hg
  by_cases hyx : y.id = x.id
  · rw [hyx, upd_same] at hg; cases hg
  · rw [upd_other _ _ hyx] at hg
    exact h.ok y hy g hg

/-! The course of the search, in the words of the specification. -/

omit w h in
theorem flip_flipped {P : Nat → Int} {v : Nat} (hv : P v = 0 ∨ P v = 1) :
    flipped P v = flip P v := by
  funext u
  unfold flip upd flipped
  by_cases hu : u = v
  · subst hu
    simp only [if_true]
    rcases hv with h | h <;> simp [h]
  · simp [hu]

omit w h in
theorem weightIn_pw (P : Nat → Int) (p : Int) : weightIn H P p = pw H P p := by
  unfold weightIn pw
  rw [sum_filter_ite]

omit w h in
theorem other_eq_sub {p : Int} (hp : p = 0 ∨ p = 1) : other p = 1 - p := by
  rcases hp with rfl | rfl <;> rfl

theorem SInv.gainAt_eq {x : Vertex} (hx : x ∈ H.vertices) {g : Int} (hG : G x.id = some g) :
    gainAt H P x.id = g := by
  rw [h.ok x hx g hG, gainSum_cut w h.h01 h.hL hx]
  unfold gainAt
  rw [flip_flipped (h.h01 x hx)]

theorem SInv.bestOfPart {l : List Nat} (hl : ∀ x ∈ H.vertices, (G x.id = none ↔ x.id ∈ l))
    {p : Int} {x : Vertex} {g : Int} (t : TopOf H P G p x g) :
    BestOfPart H P l x ∧ gainAt H P x.id = g ∧ P x.id = p := by
  obtain ⟨hx, hin, hmax⟩ := t
  have hg := h.gainAt_eq w hx hin.2.2
  refine ⟨⟨hx, ?_, ?_⟩, hg, hin.2.1⟩
  · intro hm
    have h3 := hin.2.2
    rw [(hl x hx).2 hm] at h3
    cases h3
  · intro y hy hyl hyp
    cases hG : G y.id with
    | none => exact absurd ((hl y hy).1 hG) hyl
    | some gy =>
      rw [hg, h.gainAt_eq w hy hG]
      exact hmax y.id gy ⟨List.mem_map_of_mem hy, by rw [hyp]; exact hin.2.1, hG⟩

theorem SInv.partRule {l : List Nat} (hl : ∀ x ∈ H.vertices, (G x.id = none ↔ x.id ∈ l))
    {p : Int} (hp : p = 0 ∨ p = 1) {max0 max1 : Int}
    (hr : (∀ u g, ¬ InBucket H P G (1 - p) u g) ∨
        ∃ y0 g0 y1 g1, TopOf H P G 0 y0 g0 ∧ TopOf H P G 1 y1 g1 ∧
          (p = 0 → (y0.weight < max0 - pw H P 0 ∧ (y1.weight < max1 - pw H P 1 → g1 ≤ g0)) ∨
            (max0 - pw H P 0 ≤ y0.weight ∧ max1 - pw H P 1 ≤ y1.weight)) ∧
          (p = 1 → (y1.weight < max1 - pw H P 1 ∧ (y0.weight < max0 - pw H P 0 → g0 ≤ g1)) ∨
            (max0 - pw H P 0 ≤ y0.weight ∧ max1 - pw H P 1 ≤ y1.weight))) :
    PartRule H P max0 max1 l p := by
  rcases hr with hr | ⟨y0, g0, y1, g1, t0, t1, r0, r1⟩
  · left
    intro z hz hzl hzp
    cases hG : G z.id with
    | none => exact hzl ((hl z hz).1 hG)
    | some g => exact hr z.id g ⟨List.mem_map_of_mem hz, hzp, hG⟩
  · right
    obtain ⟨b0, e0, p0⟩ := h.bestOfPart w hl t0
    obtain ⟨b1, e1, p1⟩ := h.bestOfPart w hl t1
    have hr0 : roomIn H P max0 max1 0 = max0 - pw H P 0 := by
      unfold roomIn; rw [weightIn_pw]; rfl
    have hr1 : roomIn H P max0 max1 1 = max1 - pw H P 1 := by
      unfold roomIn; rw [weightIn_pw]; rfl
    rcases hp with rfl | rfl
    · refine ⟨y0, y1, b0, p0, b1, by rw [p1]; rfl, ?_⟩
      rw [show (1 : Int) - 0 = 1 from rfl, hr0, hr1, e0, e1]
      exact r0 rfl
    · refine ⟨y1, y0, b1, p1, b0, by rw [p0]; rfl, ?_⟩
      rw [show (1 : Int) - 1 = 0 from rfl, hr0, hr1, e0, e1]
      have := r1 rfl
      omega

omit w h in
theorem fits_iff {x : Vertex} (hp : P x.id = 0 ∨ P x.id = 1) (max0 max1 : Int) :
    Fits H P max0 max1 x ↔
      (if other (P x.id) = 0 then max0 - pw H P 0 else max1 - pw H P 1) - x.weight ≥ 0 := by
  unfold Fits roomIn limitOf
  rw [← other_eq_sub hp, weightIn_pw]
  rcases hp with hp | hp <;> rw [hp] <;> simp

omit w h in
/-- Locked vertices after one more is locked. -/
theorem locked_cons {G' : Nat → Option Int} {l : List Nat} {x : Vertex}
    (hl : ∀ y ∈ H.vertices, (G y.id = none ↔ y.id ∈ l))
    (hn : ∀ u, G' u = none ↔ (u = x.id ∨ G u = none)) :
    ∀ y ∈ H.vertices, (G' y.id = none ↔ y.id ∈ x.id :: l) := by
  intro y hy
  rw [hn y.id, hl y hy, List.mem_cons]

end

/-! ### The pass -/

/-- Neither part is heavier than both its limit and its starting weight. -/
def NotWorse (H : Hypergraph) (P0 P : Nat → Int) (max0 max1 : Int) : Prop :=
  (pw H P 0 ≤ max0 ∨ pw H P 0 ≤ pw H P0 0) ∧ (pw H P 1 ≤ max1 ∨ pw H P 1 ≤ pw H P0 1)

/-- Invariant of the while loop of `KLFM_pass`. `δ` is the error of the given cut value. -/
structure PInv (H : Hypergraph) (M : Nat) (P0 : Nat → Int) (δ max0 max1 : Int) (limit : Nat)
    (vs : List (Nat → Int)) (l : List Nat) (P : Nat → Int) (L : Nat → List Nat) (G : Nat → Option Int) (st : PassState) : Prop where
  s : SInv H M P L G st.gs
  hw : st.w = pw2 H P
  hcut : st.cut = cutNet P H.nets + δ
  hno : ∀ u ∈ st.noImp, IsVertex H u
  hbest : st.best = cutNet (flips P st.noImp) H.nets + δ
  hle : st.best ≤ cutNet P0 H.nets + δ
  hbal : WeightsNonneg H → NotWorse H P0 P max0 max1
  hbalb : WeightsNonneg H → NotWorse H P0 (flips P st.noImp) max0 max1
  hl : ∀ x ∈ H.vertices, (G x.id = none ↔ x.id ∈ l)
  run : PassRun H max0 max1 limit P0 P (flips P st.noImp) vs l st.noImp.length

theorem passBody_ok {H : Hypergraph} (w : WF H) (hc : CostsNonneg H) {M : Nat} (hM : MaxCost H M)
    {P0 : Nat → Int} {δ max0 max1 : Int} {limit : Nat} {vs : List (Nat → Int)} {l : List Nat}
    {P : Nat → Int} {L : Nat → List Nat}
    {G : Nat → Option Int} {st : PassState} (h : PInv H M P0 δ max0 max1 limit vs l P L G st)
    (hlim : st.noImp.length < limit)
    (hne : ¬ ∀ p, p = 0 ∨ p = 1 → ∀ u g, ¬ InBucket H P G p u g) :
    ∃ st' vs' l' P' L' G', passBody max0 max1 st = .ok st' ∧
      PInv H M P0 δ max0 max1 limit vs' l' P' L' G' st' ∧
      unlocked H G' < unlocked H G := by
  unfold passBody
  simp only
  obtain ⟨p, s1, r1, h1, hp, hI1, hpne, hrule⟩ := gpartNext_ok h.s.inv w (max0 - st.w.w0)
    (max1 - st.w.w1) st.rng hne
  rw [h1]; simp only [ok_bind]
  have hS1 : SInv H M P L G s1 := ⟨hI1, h.s.ok, h.s.h01, h.s.hL, h.s.hS⟩
  obtain ⟨x, s2, r2, g, h2, hx, hpx, hGx, hg, htop, hS2, s3, h3, hS3⟩ := hS1.next w hp hpne r1
  rw [h2]; simp only [ok_bind]
  rw [hS2.inv.hH, conc_vertexOf w P L hx]
  simp only [ok_bind]
  have hget : ({ w0 := max0 - st.w.w0, w1 := max1 - st.w.w1 } : W2).get (other p) =
      .ok (if other p = 0 then max0 - pw H P 0 else max1 - pw H P 1) := by
    rw [h.hw]
    rcases hp with rfl | rfl <;> rfl
  rw [hget]; simp only [ok_bind]
  have hbest := (h.s.bestOfPart w h.hl htop).1
  rw [h.hw] at hrule
  have hpr : PartRule H P max0 max1 l (P x.id) := by
    rw [hpx]; exact h.s.partRule w h.hl hp hrule
  have hfit := fits_iff (H := H) (P := P) (x := x) (by rw [hpx]; exact hp) max0 max1
  rw [hpx] at hfit
  by_cases hroom : (if other p = 0 then max0 - pw H P 0 else max1 - pw H P 1) - x.weight ≥ 0
  · have hfits := hfit.2 hroom
    rw [if_pos hroom, h3]
    simp only [ok_bind]
    subst hpx
    have hff := flip_flipped hp
    obtain ⟨w1, hw1, hw2⟩ := pw2_move w hx hp
    rw [h.hw, hw1]; simp only [ok_bind]
    rw [hw2]; simp only [ok_bind]
    obtain ⟨L', s4, G', h4, hS4, hnone⟩ := hS3.move w hc hM hx hGx
    rw [h4]; simp only [ok_bind]
    have hcut' : st.cut - g = cutNet (flip P x.id) H.nets + δ := by rw [h.hcut]; omega
    have hlt := unlocked_lt hx hGx hnone
    have hbal' : WeightsNonneg H → NotWorse H P0 (flip P x.id) max0 max1 := by
      intro hwn
      have hb := h.hbal hwn
      have hx0 := hwn x hx
      have e0 := pw_flip w hx hp (p := 0) (Or.inl rfl)
      have e1 := pw_flip w hx hp (p := 1) (Or.inr rfl)
      unfold NotWorse at hb ⊢
      rw [e0, e1]
      rcases hp with hp | hp
      · rw [hp] at hroom ⊢
        simp only [other_zero, one_ne_zero, if_false] at hroom
        simp only [if_true, zero_ne_one, if_false]
        omega
      · rw [hp] at hroom ⊢
        simp only [other_one, if_true] at hroom
        simp only [if_true, one_ne_zero, if_false]
        omega
    by_cases hcmp : st.cut - g > st.best
    · rw [if_pos hcmp]
      have hfl : flips (flip P x.id) (st.noImp ++ [x.id]) = flips P st.noImp := by
        rw [flips_append, flips_flip, flip_flip]
        exact flips_01 h.s.h01 h.hno x hx
      refine ⟨_, flip P x.id :: vs, x.id :: l, flip P x.id, L', G', rfl,
        ⟨hS4, rfl, hcut', ?_, ?_, h.hle, hbal', ?_, locked_cons h.hl hnone, ?_⟩, hlt⟩
      · intro u hu
        simp only [List.mem_append, List.mem_singleton] at hu
        rcases hu with hu | rfl
        · exact h.hno u hu
        · exact List.mem_map_of_mem hx
      · simp only [hfl]; exact h.hbest
      · intro hwn; simp only [hfl]; exact h.hbalb hwn
      · simp only [hfl, List.length_append, List.length_singleton]
        have hb := h.hbest
        have := PassRun.worse h.run hlim hbest hpr hfits (by rw [hff]; omega)
        rw [hff] at this
        exact this
    · rw [if_neg hcmp]
      refine ⟨_, flip P x.id :: vs, x.id :: l, flip P x.id, L', G', rfl,
        ⟨hS4, rfl, hcut', by simp, hcut', ?_, hbal', hbal', locked_cons h.hl hnone, ?_⟩, hlt⟩
      · have := h.hle
        simp only
        omega
      · have hb := h.hbest
        have := PassRun.better h.run hlim hbest hpr hfits (by rw [hff]; omega)
        rw [hff] at this
        exact this
  · rw [if_neg hroom]
    obtain ⟨s4, h4, hS4⟩ := hS2.remove w hx hGx
    rw [h4]; simp only [ok_bind]
    exact ⟨_, vs, x.id :: l, P, L, upd G x.id none, rfl,
      ⟨hS4, h.hw, h.hcut, h.hno, h.hbest, h.hle, h.hbal, h.hbalb, locked_cons h.hl upd_none_iff,
        PassRun.lock h.run hlim hbest hpr (fun hf => hroom (hfit.1 hf))⟩,
      unlocked_lt hx hGx upd_none_iff⟩

theorem passLoop_ok {H : Hypergraph} (w : WF H) (hc : CostsNonneg H) {M : Nat} (hM : MaxCost H M)
    {P0 : Nat → Int} {δ max0 max1 : Int} (maxNoGain : Nat) (fuel : Nat) :
    ∀ {vs : List (Nat → Int)} {l : List Nat} {P : Nat → Int} {L : Nat → List Nat}
      {G : Nat → Option Int} {st : PassState},
      PInv H M P0 δ max0 max1 maxNoGain vs l P L G st → unlocked H G < fuel →
    ∃ st' vs' l' P' L' G', passLoop max0 max1 maxNoGain fuel st = .ok st' ∧
      PInv H M P0 δ max0 max1 maxNoGain vs' l' P' L' G' st' ∧
      ((∀ v, IsVertex H v → v ∈ l') ∨ maxNoGain ≤ st'.noImp.length) := by
  induction fuel with
  | zero => intro vs l P L G st h hf; omega
  | succ f ih =>
    intro vs l P L G st h hf
    unfold passLoop
    obtain ⟨d, s1, h1, hI1, hd⟩ := gdone_ok h.s.inv
    rw [h1]; simp only [ok_bind]
    have hP1 : PInv H M P0 δ max0 max1 maxNoGain vs l P L G { st with gs := s1 } :=
      ⟨⟨hI1, h.s.ok, h.s.h01, h.s.hL, h.s.hS⟩, h.hw, h.hcut, h.hno, h.hbest, h.hle, h.hbal, h.hbalb,
        h.hl, h.run⟩
    split
    · rename_i hcond
      have hdf : d = false := by simpa using hcond.1
      obtain ⟨st2, vs2, l2, P2, L2, G2, h2, hP2, hlt⟩ := passBody_ok w hc hM hP1 hcond.2 (by
        intro hall
        rw [hd.2 hall] at hdf; cases hdf)
      rw [h2]; simp only [ok_bind]
      exact ih hP2 (by omega)
    · rename_i hcond
      refine ⟨_, vs, l, P, L, G, rfl, hP1, ?_⟩
      by_cases hlen : st.noImp.length < maxNoGain
      · left
        have hdt : d = true := by
          cases d with
          | true => rfl
          | false => exact absurd ⟨rfl, hlen⟩ hcond
        have hall := hd.1 hdt
        intro v hv
        obtain ⟨x, hx, hxv⟩ := List.mem_map.1 hv
        have hxv : x.id = v := hxv
        subst hxv
        cases hG : G x.id with
        | none => exact (h.hl x hx).1 hG
        | some g => exact absurd ⟨hv, rfl, hG⟩ (hall (P x.id) (h.s.h01 x hx) x.id g)
      · right
        show maxNoGain ≤ st.noImp.length
        omega

theorem rollback_ok {H : Hypergraph} (w : WF H) (l : List Nat) :
    ∀ {P : Nat → Int} {L : Nat → List Nat}, Parts01 H P → PinsPerm H L → AllSplit H P L →
      (∀ u ∈ l, IsVertex H u) →
    ∃ L', l.foldlM rollbackStep (conc H P L, cOf H (exactF P L), pw2 H P) =
        .ok (conc H (flips P l) L', cOf H (exactF (flips P l) L'), pw2 H (flips P l)) ∧
      PinsPerm H L' ∧ AllSplit H (flips P l) L' := by
  induction l with
  | nil => intro P L h01 hL hS _; exact ⟨L, rfl, hL, hS⟩
  | cons a l ih =>
    intro P L h01 hL hS hv
    obtain ⟨x, hx, hxa⟩ := List.mem_map.1 (hv a (by simp))
    have hxa : x.id = a := hxa
    subst hxa
    obtain ⟨L1, hm, hL1, hS1⟩ := move_conc w h01 hL hS hx
    obtain ⟨w1, hw1, hw2⟩ := pw2_move w hx (h01 x hx)
    obtain ⟨L', hr, hL', hS'⟩ := ih (flip_01 h01 _ (h01 x hx)) hL1 hS1 (fun u hu => hv u (by simp [hu]))
    refine ⟨L', ?_, hL', hS'⟩
    rw [List.foldlM_cons]
    have : rollbackStep (conc H P L, cOf H (exactF P L), pw2 H P) x.id =
        .ok (conc H (flip P x.id) L1, cOf H (exactF (flip P x.id) L1), pw2 H (flip P x.id)) := by
      unfold rollbackStep
      simp only
      rw [conc_vertexOf w P L hx]; simp only [ok_bind]
      rw [hw1]; simp only [ok_bind]
      rw [hw2]; simp only [ok_bind]
      rw [hm]; rfl
    rw [this]
    exact hr

/-- What a pass leaves behind, on the functional view. -/
structure RInv (H : Hypergraph) (P : Nat → Int) (L : Nat → List Nat) (δ : Int) (r : PassResult) :
    Prop where
  hH : r.H = conc H P L
  hC : r.C = cOf H (exactF P L)
  hw : r.w = pw2 H P
  hcut : r.cut = cutNet P H.nets + δ
  h01 : Parts01 H P
  hL : PinsPerm H L
  hS : AllSplit H P L

theorem KLFMPass_ok {H : Hypergraph} (w : WF H) (hc : CostsNonneg H) {P : Nat → Int}
    {L : Nat → List Nat} (h01 : Parts01 H P) (hL : PinsPerm H L) (hS : AllSplit H P L)
    {fuel : Nat} (hf : H.vertices.length < fuel) {cut δ : Int} (hcut : cut = cutNet P H.nets + δ)
    (max0 max1 : Int) (maxNoGain : Nat) (rng : Rng) :
    ∃ r P' L', KLFMPass fuel (conc H P L) (cOf H (exactF P L)) cut (pw2 H P) max0 max1 maxNoGain rng
        = .ok r ∧ RInv H P' L' δ r ∧ cutNet P' H.nets ≤ cutNet P H.nets ∧
      (WeightsNonneg H → NotWorse H P P' max0 max1) ∧ PassKeeps H max0 max1 maxNoGain P P' := by
  obtain ⟨M, s, G, hs, hM, hI, hG⟩ := create_ok (L := L) w hc h01 (exactF P L)
  have hnw : WeightsNonneg H → NotWorse H P P max0 max1 := fun _ => ⟨Or.inr (le_refl _), Or.inr (le_refl _)⟩
  have hP : PInv H M P δ max0 max1 maxNoGain [P] [] P L G
      { gs := s, w := pw2 H P, cut, best := cut, noImp := [], rng } := by
    refine ⟨⟨hI, ?_, h01, hL, hS⟩, rfl, hcut, by simp, hcut, by simp [hcut], hnw, hnw, ?_, PassRun.start⟩
    · intro x hx g hg
      rw [hG x hx] at hg
      exact (Option.some.inj hg).symm
    · intro x hx
      rw [hG x hx]
      simp
  obtain ⟨st, vs1, l1, P1, L1, G1, hst, hP1, hend⟩ := passLoop_ok w hc hM maxNoGain fuel hP (by
    have := unlocked_le (H := H) G; omega)
  obtain ⟨L2, hr, hL2, hS2⟩ := rollback_ok w st.noImp hP1.s.h01 hP1.s.hL hP1.s.hS hP1.hno
  refine ⟨{ cut := st.best, H := conc H (flips P1 st.noImp) L2,
            C := cOf H (exactF (flips P1 st.noImp) L2), w := pw2 H (flips P1 st.noImp),
            rng := st.rng }, flips P1 st.noImp, L2, ?_,
    ⟨rfl, rfl, rfl, hP1.hbest, flips_01 hP1.s.h01 hP1.hno, hL2, hS2⟩, ?_, hP1.hbalb,
    P1, vs1, l1, st.noImp.length, hP1.run, hend⟩
  · unfold KLFMPass
    rw [hs]; simp only [ok_bind]
    rw [hst]; simp only [ok_bind]
    rw [hP1.s.inv.hH, hP1.s.inv.hC, hP1.hw, hr]
    rfl
  · have := hP1.hle
    have := hP1.hbest
    omega

/-! ### `make_balanced` -/

theorem balanceLoop_ok {H : Hypergraph} (w : WF H) (hc : CostsNonneg H) {M : Nat} (hM : MaxCost H M)
    (hwn : WeightsNonneg H) {part : Int} (hpart : part = 0 ∨ part = 1) (maxw : W2) {mp mo : Int}
    (hmp : maxw.get part = .ok mp) (hmo : maxw.get (other part) = .ok mo) {δ : Int}
    (P0 : Nat → Int) (fuel : Nat) :
    ∀ {l : List Nat} {P : Nat → Int} {L : Nat → List Nat} {G : Nat → Option Int}
      {s : GainStructure} {cut : Int} {rng : Rng}, SInv H M P L G s → unlocked H G < fuel → cut = cutNet P H.nets + δ →
      (∀ y ∈ H.vertices, G y.id = none → P y.id = part → pw H P (other part) + y.weight > mo) →
      pw H P part ≤ pw H P0 part →
      (pw H P (other part) ≤ mo ∨ P = P0) →
      (∀ y ∈ H.vertices, (G y.id = none ↔ y.id ∈ l)) →
      UnloadRun H maxw.w0 maxw.w1 part P0 P l →
    ∃ s' P' L' cut' rng', balanceLoop part maxw fuel (s, pw2 H P, cut, rng) =
        .ok (s', pw2 H P', cut', rng') ∧ s'.H = conc H P' L' ∧ s'.C = cOf H (exactF P' L') ∧
      cut' = cutNet P' H.nets + δ ∧ Parts01 H P' ∧ PinsPerm H L' ∧ AllSplit H P' L' ∧
      pw H P' part ≤ pw H P0 part ∧
      (pw H P' (other part) ≤ mo ∨ P' = P0) ∧
      (pw H P' part ≤ mp ∨
        ∀ y ∈ H.vertices, P' y.id = part → pw H P' (other part) + y.weight > mo) ∧
      Unloaded H maxw.w0 maxw.w1 part P0 P' := by
  have hlp : limitOf maxw.w0 maxw.w1 part = mp := by
    rcases hpart with rfl | rfl <;> exact Except.ok.inj hmp
  have hlo : limitOf maxw.w0 maxw.w1 (other part) = mo := by
    rcases hpart with rfl | rfl <;> exact Except.ok.inj hmo
  induction fuel with
  | zero => intro l P L G s cut rng _ hf; omega
  | succ f ih =>
    intro l P L G s cut rng h hf hcut hrej hle hoth hl hrun
    unfold balanceLoop
    rw [pw2_get hpart]; simp only [ok_bind]
    rw [hmp]; simp only [ok_bind]
    by_cases hover : pw H P part > mp
    · rw [if_pos hover]
      obtain ⟨d, s1, h1, hI1, hd⟩ := gbucketDone_ok h.inv hpart
      rw [h1]; simp only [ok_bind]
      cases d with
      | true =>
        simp only [if_true]
        have hnone : ∀ y ∈ H.vertices, P y.id = part → G y.id = none := by
          intro y hy hyp
          have hall := hd.1 rfl
          cases hG : G y.id with
          | none => rfl
          | some g => exact absurd ⟨List.mem_map_of_mem hy, hyp, hG⟩ (hall y.id g)
        refine ⟨s1, P, L, cut, rng, rfl, hI1.hH, hI1.hC, hcut, h.h01, h.hL, h.hS, hle, hoth,
          Or.inr ?_, l, hrun, Or.inr ?_⟩
        · intro y hy hyp
          exact hrej y hy (hnone y hy hyp) hyp
        · intro v hv hvp
          obtain ⟨y, hy, hyv⟩ := List.mem_map.1 hv
          have hyv : y.id = v := hyv
          subst hyv
          exact (hl y hy).1 (hnone y hy hvp)
      | false =>
        simp only [Bool.false_eq_true, if_false]
        have hne : ∃ u g, InBucket H P G part u g := by
          by_contra hcon
          have := hd.2 (fun u g hu => hcon ⟨u, g, hu⟩)
          cases this
        have hS1 : SInv H M P L G s1 := ⟨hI1, h.ok, h.h01, h.hL, h.hS⟩
        obtain ⟨x, s2, r2, g, h2, hx, hpx, hGx, hg, htop, hS2, s3, h3, hS3⟩ := hS1.next w hpart hne rng
        rw [h2]; simp only [ok_bind]
        rw [hS2.inv.hH, conc_vertexOf w P L hx]
        simp only [ok_bind]
        rw [pw2_get (other_01 hpart)]; simp only [ok_bind]
        rw [hmo]; simp only [ok_bind]
        have hbest := (h.bestOfPart w hl htop).1
        have hheavy : limitOf maxw.w0 maxw.w1 part < weightIn H P part := by
          rw [hlp, weightIn_pw]; exact hover
        have hfit : Fits H P maxw.w0 maxw.w1 x ↔ pw H P (other part) + x.weight ≤ mo := by
          unfold Fits roomIn
          rw [hpx, ← other_eq_sub hpart, hlo, weightIn_pw]
          omega
        by_cases hroom : pw H P (other part) + x.weight ≤ mo
        · have hrun' := UnloadRun.move hrun hheavy hbest hpx (hfit.2 hroom)
          rw [flip_flipped (by rw [hpx]; exact hpart)] at hrun'
          rw [if_pos hroom, h3]
          simp only [ok_bind]
          subst hpx
          obtain ⟨w1, hw1, hw2⟩ := pw2_move w hx hpart
          rw [hw1]; simp only [ok_bind]
          rw [hw2]; simp only [ok_bind]
          obtain ⟨L', s4, G', h4, hS4, hnone⟩ := hS3.move w hc hM hx hGx
          rw [h4]; simp only [ok_bind]
          have hlt := unlocked_lt hx hGx hnone
          have hx0 := hwn x hx
          have e0 := pw_flip w hx hpart (p := P x.id) hpart
          have e1 := pw_flip w hx hpart (p := other (P x.id)) (other_01 hpart)
          rw [if_pos rfl] at e0
          rw [if_neg (Ne.symm (other_ne hpart))] at e1
          apply ih hS4 (by omega) (by omega)
          · intro y hy hGy hPy
            rcases (hnone y.id).1 hGy with hyx | hGy'
            · rw [hyx] at hPy
              have hfl : flip P x.id x.id = other (P x.id) := by simp [flip]
              rw [hfl] at hPy
              exact absurd hPy (other_ne hpart)
            · have hyx : y.id ≠ x.id := by
                intro hyx; rw [hyx, hGx] at hGy'; cases hGy'
              have hPy' : P y.id = P x.id := by
                simpa [flip, upd_other _ _ hyx] using hPy
              have := hrej y hy hGy' hPy'
              omega
          · omega
          · left; omega
          · exact locked_cons hl hnone
          · exact hrun'
        · rw [if_neg hroom]
          obtain ⟨s4, h4, hS4⟩ := hS2.remove w hx hGx
          rw [h4]; simp only [ok_bind]
          apply ih hS4 (by have := unlocked_lt (H := H) hx hGx upd_none_iff; omega) hcut
          · intro y hy hGy hPy
            rcases (upd_none_iff y.id).1 hGy with hyx | hGy'
            · rw [w.vertex_inj hy hx hyx]; omega
            · exact hrej y hy hGy' hPy
          · exact hle
          · exact hoth
          · exact locked_cons hl upd_none_iff
          · exact UnloadRun.lock hrun hheavy hbest hpx (fun hf => hroom (hfit.1 hf))
    · rw [if_neg hover]
      exact ⟨s, P, L, cut, rng, rfl, h.inv.hH, h.inv.hC, hcut, h.h01, h.hL, h.hS, hle, hoth,
        Or.inl (by omega), l, hrun, Or.inl (by rw [hlp, weightIn_pw]; omega)⟩

/-- The part that `make_balanced` unloads. -/
def heavyPart (w : W2) (max1 : Int) : Int := if w.w1 > max1 then 1 else 0

/-- The limit of a part. -/
def lim (max0 max1 : Int) (p : Int) : Int := if p = 0 then max0 else max1

theorem makeBalanced_ok {H : Hypergraph} (w : WF H) (hc : CostsNonneg H) (hwn : WeightsNonneg H)
    {P : Nat → Int} {L : Nat → List Nat} (h01 : Parts01 H P) (hL : PinsPerm H L)
    (hS : AllSplit H P L) {fuel : Nat} (hf : H.vertices.length < fuel) {cut δ : Int}
    (hcut : cut = cutNet P H.nets + δ) (max0 max1 : Int) (rng : Rng) :
    ∃ r P' L', makeBalanced fuel (conc H P L) (cOf H (exactF P L)) cut (pw2 H P) max0 max1 rng
        = .ok r ∧ RInv H P' L' δ r ∧
      pw H P' (heavyPart (pw2 H P) max1) ≤ pw H P (heavyPart (pw2 H P) max1) ∧
      (pw H P' (other (heavyPart (pw2 H P) max1)) ≤ lim max0 max1 (other (heavyPart (pw2 H P) max1)) ∨
        P' = P) ∧
      (pw H P' (heavyPart (pw2 H P) max1) ≤ lim max0 max1 (heavyPart (pw2 H P) max1) ∨
        ∀ y ∈ H.vertices, P' y.id = heavyPart (pw2 H P) max1 →
          pw H P' (other (heavyPart (pw2 H P) max1)) + y.weight >
            lim max0 max1 (other (heavyPart (pw2 H P) max1))) ∧
      Unloaded H max0 max1 (heavyPart (pw2 H P) max1) P P' := by
  obtain ⟨M, s, G, hs, hM, hI, hG⟩ := create_ok (L := L) w hc h01 (exactF P L)
  have hpart : heavyPart (pw2 H P) max1 = 0 ∨ heavyPart (pw2 H P) max1 = 1 := by
    unfold heavyPart; split <;> simp
  generalize hq : heavyPart (pw2 H P) max1 = q at hpart
  have hget : ∀ p, p = 0 ∨ p = 1 → ({ w0 := max0, w1 := max1 } : W2).get p = .ok (lim max0 max1 p) := by
    rintro p (rfl | rfl) <;> rfl
  have hS0 : SInv H M P L G s := by
    refine ⟨hI, ?_, h01, hL, hS⟩
    intro x hx g hg
    rw [hG x hx] at hg
    exact (Option.some.inj hg).symm
  obtain ⟨s', P', L', cut', rng', h1, h2, h3, h4, h5, h6, h7, h8, h9, h10, h11⟩ :=
    balanceLoop_ok (δ := δ) w hc hM hwn hpart ⟨max0, max1⟩ (hget q hpart) (hget _ (other_01 hpart)) P fuel
      (rng := rng) hS0 (by have := unlocked_le (H := H) G; omega) hcut (by
        intro y hy hGy
        rw [hG y hy] at hGy; cases hGy) (le_refl _) (Or.inr rfl) (l := [])
      (by intro y hy; rw [hG y hy]; simp) UnloadRun.start
  refine ⟨{ cut := cut', H := s'.H, C := s'.C, w := pw2 H P', rng := rng' }, P', L', ?_,
    ⟨h2, h3, rfl, h4, h5, h6, h7⟩, h8, h9, h10, h11⟩
  unfold makeBalanced
  rw [hs]; simp only [ok_bind]
  have : (if (pw2 H P).w1 > max1 then (1 : Int) else 0) = q := hq
  rw [this, h1]
  rfl

/-! ### All passes -/

theorem NotWorse.trans {H : Hypergraph} {A B C : Nat → Int} {max0 max1 : Int}
    (h1 : NotWorse H A B max0 max1) (h2 : NotWorse H B C max0 max1) : NotWorse H A C max0 max1 := by
  unfold NotWorse at *
  omega

theorem klfmLoop_ok {H : Hypergraph} (w : WF H) (hc : CostsNonneg H) {fuel : Nat}
    (hf : H.vertices.length < fuel) (max0 max1 : Int) (maxNoGain : Nat) {δ : Int} (k : Nat) :
    ∀ {P : Nat → Int} {L : Nat → List Nat} {p : PassResult}, RInv H P L δ p →
    ∃ r P' L', klfmLoop fuel max0 max1 maxNoGain k p = .ok r ∧ RInv H P' L' δ r ∧
      cutNet P' H.nets ≤ cutNet P H.nets ∧ (WeightsNonneg H → NotWorse H P P' max0 max1) ∧
      Passes H max0 max1 maxNoGain k P P' := by
  induction k with
  | zero =>
    intro P L p h
    exact ⟨p, P, L, rfl, h, le_refl _, fun _ => ⟨Or.inr (le_refl _), Or.inr (le_refl _)⟩,
      Passes.none⟩
  | succ k ih =>
    intro P L p h
    unfold klfmLoop
    obtain ⟨r, P1, L1, h1, hR1, hle, hnw, hkeep⟩ := KLFMPass_ok w hc h.h01 h.hL h.hS hf h.hcut max0 max1
      maxNoGain p.rng
    rw [h.hH, h.hC, h.hw, h1]; simp only [ok_bind]
    split
    · rename_i hlt
      obtain ⟨r2, P2, L2, h2, hR2, hle2, hnw2, hps⟩ := ih hR1
      refine ⟨r2, P2, L2, h2, hR2, by omega, fun hw => (hnw hw).trans (hnw2 hw),
        Passes.more hkeep ?_ hps⟩
      have := hR1.hcut; have := h.hcut; omega
    · rename_i hn
      have he : r.cut = p.cut := by
        have := hR1.hcut; have := h.hcut; omega
      refine ⟨_, P1, L1, rfl, ⟨hR1.hH, hR1.hC, hR1.hw, ?_, hR1.h01, hR1.hL, hR1.hS⟩, hle, hnw,
        Passes.last hkeep ?_⟩
      · simp only [← he]; exact hR1.hcut
      · have := hR1.hcut; have := h.hcut; omega

/-- `KLFM` on the functional view. `P1` are the parts after `make_balanced`. -/
theorem KLFM_conc {H : Hypergraph} (w : WF H) (hc : CostsNonneg H) (hwn : WeightsNonneg H)
    {P : Nat → Int} {L : Nat → List Nat}
    (h01 : Parts01 H P) (hL : PinsPerm H L) {fuel : Nat} (hf : H.vertices.length < fuel)
    (max0 max1 : Int) (opts : Options) (rng : Rng) (cutSize : Option Int) {δ : Int}
    (hδ : match cutSize with | none => δ = 0 | some c => c = cutNet P H.nets + δ) :
    ∃ r P1 P' L', KLFM fuel (conc H P L) (cOf H (exactF P L)) (pw2 H P) max0 max1 opts rng cutSize
        = .ok r ∧ RInv H P' L' δ r ∧ cutNet P' H.nets ≤ cutNet P1 H.nets ∧
      NotWorse H P1 P' max0 max1 ∧ Parts01 H P1 ∧
      (¬ (pw H P 0 > max0 ∨ pw H P 1 > max1) → P1 = P) ∧
      ((pw H P 0 > max0 ∨ pw H P 1 > max1) →
        pw H P1 (heavyPart (pw2 H P) max1) ≤ pw H P (heavyPart (pw2 H P) max1) ∧
        (pw H P1 (other (heavyPart (pw2 H P) max1)) ≤
            lim max0 max1 (other (heavyPart (pw2 H P) max1)) ∨ P1 = P) ∧
        (pw H P1 (heavyPart (pw2 H P) max1) ≤ lim max0 max1 (heavyPart (pw2 H P) max1) ∨
          ∀ y ∈ H.vertices, P1 y.id = heavyPart (pw2 H P) max1 →
            pw H P1 (other (heavyPart (pw2 H P) max1)) + y.weight >
              lim max0 max1 (other (heavyPart (pw2 H P) max1))) ∧
        Unloaded H max0 max1 (heavyPart (pw2 H P) max1) P P1) ∧
      Passes H max0 max1 opts.klfmMaxNoGainMoves opts.klfmMaxPasses P1 P' := by
  unfold KLFM
  have hstart : ∃ c, startCut (conc H P L) (cOf H (exactF P L)) cutSize = .ok c ∧
      c = cutNet P H.nets + δ := by
    cases cutSize with
    | none =>
      simp only at hδ
      refine ⟨cutF H (exactF P L), ?_, ?_⟩
      · unfold startCut
        apply cutsizeC_cOf
        simp [conc, Function.comp_def]
      · rw [cutF_exact P L hL (fun n hn u hu => h01.pin w hn hu), hδ]; omega
    | some c => exact ⟨c, rfl, hδ⟩
  obtain ⟨c, hstart, hcut⟩ := hstart
  rw [hstart]; simp only [ok_bind]
  obtain ⟨L1, hsort, hL1, hS1⟩ := sortVerticesOnPart_conc w h01 hL
  have hexact : cOf H (exactF P L) = cOf H (exactF P L1) := by
    apply cOf_congr
    intro n hn
    unfold exactF
    rw [((hL n hn).trans (hL1 n hn).symm).countP_eq, ((hL n hn).trans (hL1 n hn).symm).countP_eq]
  rw [hsort]; simp only [ok_bind]
  rw [hexact]
  by_cases hbal : pw H P 0 > max0 ∨ pw H P 1 > max1
  · obtain ⟨r1, P1, L2, h1, hR1, hb⟩ := makeBalanced_ok w hc hwn h01 hL1 hS1 hf hcut max0 max1 rng
    obtain ⟨r2, P2, L3, h2, hR2, hle, hnw, hps⟩ := klfmLoop_ok w hc hf max0 max1 opts.klfmMaxNoGainMoves
      opts.klfmMaxPasses hR1
    refine ⟨r2, P1, P2, L3, ?_, hR2, hle, hnw hwn, hR1.h01, fun hn => absurd hbal hn, fun _ => hb, hps⟩
    unfold runIf
    rw [if_pos (show (pw2 H P).w0 > max0 ∨ (pw2 H P).w1 > max1 from hbal), h1]
    exact h2
  · have hR1 : RInv H P L1 δ { cut := c, H := conc H P L1, C := cOf H (exactF P L1), w := pw2 H P, rng } :=
      ⟨rfl, rfl, rfl, hcut, h01, hL1, hS1⟩
    obtain ⟨r2, P2, L3, h2, hR2, hle, hnw, hps⟩ := klfmLoop_ok w hc hf max0 max1 opts.klfmMaxNoGainMoves
      opts.klfmMaxPasses hR1
    refine ⟨r2, P, P2, L3, ?_, hR2, hle, hnw hwn, h01, fun _ => rfl, fun h => absurd h hbal,
      hps⟩
    unfold runIf
    rw [if_neg (show ¬ ((pw2 H P).w0 > max0 ∨ (pw2 H P).w1 > max1) from hbal)]
    exact h2

end PMondriaan

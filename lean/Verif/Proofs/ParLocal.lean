import Verif.Proofs.ParGain
import Verif.Spec.TracePar

/-
The local phases of a parallel round: `find_top_moves` and the reversal of rejected moves.
-/

namespace PMondriaan

open Spec

/-! ### `find_top_moves` -/

/-- Total weight change of a list of moves. -/
def moveSum (l : List MoveP) : Int := (l.map (·.change)).sum

/-- The weight change of part 0 when `x` leaves its part. -/
def leaveChange (P : Nat → Int) (x : Vertex) : Int := if P x.id = 0 then -x.weight else x.weight

/-- `Γ` are the gains in the whole hypergraph when vertices of `H` leave their part in `P0`. -/
def GainsOf (H : Hypergraph) (R : Nat → Cnt) (P0 : Nat → Int) (Γ : (Nat → Int) → Nat → Int) : Prop :=
  ∀ vs L, (∀ v ∈ vs, IsVertex H v) → PinsPerm H L → ∀ x ∈ H.vertices,
    gainSum H (viewF (flips P0 vs) L R) (flips P0 vs) x = Γ (flips P0 vs) x.id

/-- Invariant of `find_top_moves`; `P0`, `G0`, `w0`, `l0` describe the start. -/
structure TopInv (B : Prop) (Γ : (Nat → Int) → Nat → Int) (H : Hypergraph) (M : Nat) (R : Nat → Cnt)
    (max0 max1 : Int) (K : Nat) (P0 : Nat → Int) (G0 : Nat → Option Int) (w0 : W2) (l0 : List Nat)
    (P : Nat → Int) (L : Nat → List Nat) (G : Nat → Option Int) (l' : List Nat) (st : TopState) :
    Prop where
  l : LInv B H M R P L G st.gs st.L
  hP : P = flips P0 (st.moves.map (·.v))
  hv : ∀ m ∈ st.moves, ∃ x ∈ H.vertices, x.id = m.v ∧ m.change = leaveChange P0 x
  fresh : ∀ m ∈ st.moves, G0 m.v ≠ none
  hz : ∀ u, G0 u = none → G u = none
  hl : ∀ m ∈ st.moves, G m.v = none
  nd : (st.moves.map (·.v)).Nodup
  gain : ∀ m ∈ st.moves, 0 ≤ m.gain
  hw : st.w = ⟨w0.w0 + moveSum st.moves, w0.w1 - moveSum st.moves⟩
  hb : WeightsNonneg H → w0.w0 ≤ max0 → w0.w1 ≤ max1 →
    st.w.w0 ≤ max0 ∧ st.w.w1 ≤ max1 ∧
    ∀ m ∈ st.moves, |m.change| ≤ max0 + max1 - w0.w0 - w0.w1
  len : st.moves.length ≤ K
  cnt : unlocked H G + st.moves.length ≤ unlocked H G0
  lk : ∀ x ∈ H.vertices, (G x.id = none ↔ x.id ∈ l')
  run : B → TopRun Γ H max0 max1 K P0 w0 l0 P st.w st.moves l'

theorem TopInv.congrInv {B : Prop} {Γ : (Nat → Int) → Nat → Int} {H : Hypergraph} {M : Nat}
    {R : Nat → Cnt} {max0 max1 : Int} {K : Nat} {P0 : Nat → Int} {G0 : Nat → Option Int} {w0 : W2}
    {l0 : List Nat} {P : Nat → Int} {L : Nat → List Nat} {G : Nat → Option Int} {l' : List Nat}
    {st : TopState} (h : TopInv B Γ H M R max0 max1 K P0 G0 w0 l0 P L G l' st) {s' : GainStructure}
    (r' : Rng) (hI : GInv H M P L (viewF P L R) G s') :
    TopInv B Γ H M R max0 max1 K P0 G0 w0 l0 P L G l' { st with gs := s', rng := r' } :=
  ⟨h.l.congrInv hI, h.hP, h.hv, h.fresh, h.hz, h.hl, h.nd, h.gain, h.hw, h.hb, h.len, h.cnt, h.lk,
    h.run⟩

theorem moveSum_append (l : List MoveP) (m : MoveP) : moveSum (l ++ [m]) = moveSum l + m.change := by
  simp [moveSum]

/-- Flipping other vertices does not change the part of `v`. -/
theorem flips_notMem {P : Nat → Int} {l : List Nat} {v : Nat} (h : v ∉ l) : flips P l v = P v := by
  unfold flips
  induction l generalizing P with
  | nil => rfl
  | cons a l ih =>
    simp only [List.foldl_cons]
    rw [ih (fun hm => h (by simp [hm]))]
    have : v ≠ a := by rintro rfl; exact h (by simp)
    simp [flip, upd_other _ _ this]

section
variable {B : Prop} {Γ : (Nat → Int) → Nat → Int} {H : Hypergraph} (w : WF H)
  (hc : B → CostsNonneg H) {M : Nat}
  (hM : MaxCost H M) {R : Nat → Cnt} (hR : RNonneg R) {max0 max1 : Int} {K : Nat}
  {P0 : Nat → Int} (hΓ : B → GainsOf H R P0 Γ) {G0 : Nat → Option Int} {w0 : W2} {l0 : List Nat}

include hΓ in
theorem TopInv.gain_eq {P : Nat → Int} {L : Nat → List Nat} {G : Nat → Option Int} {l' : List Nat}
    {st : TopState} (h : TopInv B Γ H M R max0 max1 K P0 G0 w0 l0 P L G l' st) (hB : B) {x : Vertex}
    (hx : x ∈ H.vertices) {g : Int} (hG : G x.id = some g) : Γ P x.id = g := by
  have h1 := h.l.ok hB x hx g hG
  have h2 := hΓ hB (st.moves.map (·.v)) L (by
    intro v hv
    obtain ⟨m, hm, rfl⟩ := List.mem_map.1 hv
    obtain ⟨y, hy, hym, -⟩ := h.hv m hm
    rw [← hym]; exact List.mem_map_of_mem hy) h.l.hL x hx
  rw [← h.hP] at h2
  rw [h1, ← h2]

include hΓ in
theorem TopInv.bestHere {P : Nat → Int} {L : Nat → List Nat} {G : Nat → Option Int} {l' : List Nat}
    {st : TopState} (h : TopInv B Γ H M R max0 max1 K P0 G0 w0 l0 P L G l' st) (hB : B) {p : Int}
    {x : Vertex} {g : Int} (t : TopOf H P G p x g) :
    BestHere Γ H P l' x ∧ Γ P x.id = g ∧ P x.id = p := by
  obtain ⟨hx, hin, hmax⟩ := t
  have hg := h.gain_eq hΓ hB hx hin.2.2
  refine ⟨⟨hx, ?_, ?_⟩, hg, hin.2.1⟩
  · intro hm
    have h3 := hin.2.2
    rw [(h.lk x hx).2 hm] at h3
    cases h3
  · intro y hy hyl hyp
    cases hG : G y.id with
    | none => exact absurd ((h.lk y hy).1 hG) hyl
    | some gy =>
      rw [hg, h.gain_eq hΓ hB hy hG]
      exact hmax y.id gy ⟨List.mem_map_of_mem hy, by rw [hyp]; exact hin.2.1, hG⟩

include hΓ in
theorem TopInv.partRule {P : Nat → Int} {L : Nat → List Nat} {G : Nat → Option Int} {l' : List Nat}
    {st : TopState} (h : TopInv B Γ H M R max0 max1 K P0 G0 w0 l0 P L G l' st) (hB : B)
    {p : Int} (hp : p = 0 ∨ p = 1)
    (hr : (∀ u g, ¬ InBucket H P G (1 - p) u g) ∨
        ∃ y0 g0 y1 g1, TopOf H P G 0 y0 g0 ∧ TopOf H P G 1 y1 g1 ∧
          (p = 0 → (y0.weight < max0 - st.w.w0 ∧ (y1.weight < max1 - st.w.w1 → g1 ≤ g0)) ∨
            (max0 - st.w.w0 ≤ y0.weight ∧ max1 - st.w.w1 ≤ y1.weight)) ∧
          (p = 1 → (y1.weight < max1 - st.w.w1 ∧ (y0.weight < max0 - st.w.w0 → g0 ≤ g1)) ∨
            (max0 - st.w.w0 ≤ y0.weight ∧ max1 - st.w.w1 ≤ y1.weight))) :
    PartRuleHere Γ H P max0 max1 st.w l' p := by
  rcases hr with hr | ⟨y0, g0, y1, g1, t0, t1, r0, r1⟩
  · left
    intro z hz hzl hzp
    cases hG : G z.id with
    | none => exact hzl ((h.lk z hz).1 hG)
    | some g => exact hr z.id g ⟨List.mem_map_of_mem hz, hzp, hG⟩
  · right
    obtain ⟨b0, e0, p0⟩ := h.bestHere hΓ hB t0
    obtain ⟨b1, e1, p1⟩ := h.bestHere hΓ hB t1
    have hr0 : roomOf max0 max1 st.w 0 = max0 - st.w.w0 := rfl
    have hr1 : roomOf max0 max1 st.w 1 = max1 - st.w.w1 := rfl
    rcases hp with rfl | rfl
    · refine ⟨y0, y1, b0, p0, b1, by rw [p1]; rfl, ?_⟩
      rw [show (1 : Int) - 0 = 1 from rfl, hr0, hr1, e0, e1]
      exact r0 rfl
    · refine ⟨y1, y0, b1, p1, b0, by rw [p0]; rfl, ?_⟩
      rw [show (1 : Int) - 1 = 0 from rfl, hr0, hr1, e0, e1]
      have := r1 rfl
      omega

include w hc hM hR hΓ

theorem topBody_ok {P : Nat → Int} {L : Nat → List Nat} {G : Nat → Option Int} {l' : List Nat}
    {st : TopState} (h : TopInv B Γ H M R max0 max1 K P0 G0 w0 l0 P L G l' st)
    (hlen : st.moves.length < K)
    (hne : ¬ ∀ p, p = 0 ∨ p = 1 → ∀ u g, ¬ InBucket H P G p u g) :
    Outcome B (topBody max0 max1 st) (fun r => ∃ P' L' G' l'',
      TopInv B Γ H M R max0 max1 K P0 G0 w0 l0 P' L' G' l'' r.2 ∧
      (r.1 = true → unlocked H G' < unlocked H G) ∧
      (r.1 = false → B → TopOver Γ H max0 max1 K P' r.2.w r.2.moves l'')) := by
  unfold topBody
  obtain ⟨p, s1, r1, h1, hp, hI1, ⟨u, g, hug⟩, hrule⟩ := gpartNext_ok h.l.inv w (max0 - st.w.w0)
    (max1 - st.w.w1) st.rng hne
  rw [h1]; simp only [ok_bind]
  obtain ⟨o, s2, r2, h2, hI2, ho⟩ := gnext_ok hI1 hp r1
  rw [h2]; simp only [ok_bind]
  obtain ⟨o2, s3, h3, hI3, ho2⟩ := ggainNext_ok hI2 hp
  rw [h3]; simp only [ok_bind]
  cases o with
  | none => exact absurd hug (ho u g)
  | some v =>
    obtain ⟨gv, hgv, hmax⟩ := ho
    obtain ⟨x, hx, hxv⟩ := List.mem_map.1 hgv.1
    have hxv : x.id = v := hxv
    subst hxv
    have ho2' : o2 = some gv := by
      cases o2 with
      | none => exact absurd hgv (ho2 _ _)
      | some g2 =>
        obtain ⟨⟨u2, hu2⟩, hmax2⟩ := ho2
        have a1 := hmax _ _ hu2
        have a2 := hmax2 _ _ hgv
        congr 1; omega
    subst ho2'
    have hT := h.congrInv r2 hI3
    have hbest := fun hB => h.bestHere hΓ hB (x := x) ⟨hx, hgv, hmax⟩
    have hpr : B → PartRuleHere Γ H P max0 max1 st.w l' (P x.id) := by
      intro hB
      rw [hgv.2.1]
      exact h.partRule hΓ hB hp hrule
    by_cases hneg : gainNeg (some gv) = true
    · rw [if_pos hneg]
      refine Outcome.pure' ⟨P, L, G, l', hT, by simp, fun _ hB => Or.inr (Or.inr ⟨x, (hbest hB).1,
        hpr hB, ?_⟩)⟩
      rw [(hbest hB).2.1]
      simpa [gainNeg] using hneg
    · rw [if_neg hneg]
      have hgv0 : 0 ≤ gv := by
        have := hneg
        simp only [gainNeg, decide_eq_true_eq, not_lt] at this
        exact this
      unfold topMove
      simp only
      rw [hT.l.inv.hH, conc_vertexOf w P L hx]
      simp only [ok_bind]
      have hpx : P x.id = p := hgv.2.1
      have hGx : G x.id = some gv := hgv.2.2
      have hget : ({ w0 := max0 - st.w.w0, w1 := max1 - st.w.w1 } : W2).get (other p) =
          .ok (if other p = 0 then max0 - st.w.w0 else max1 - st.w.w1) := by
        rcases hp with rfl | rfl <;> rfl
      rw [hget]; simp only [ok_bind]
      by_cases hroom : (if other p = 0 then max0 - st.w.w0 else max1 - st.w.w1) - x.weight ≥ 0
      · rw [if_pos hroom]
        have hnot : x.id ∉ st.moves.map (·.v) := by
          intro hm
          obtain ⟨m, hm, hmv⟩ := List.mem_map.1 hm
          have hmv : m.v = x.id := hmv
          have := h.hl m hm
          rw [hmv, hGx] at this; cases this
        have hP0x : P0 x.id = p := by
          have : flips P0 (st.moves.map (·.v)) x.id = P0 x.id := flips_notMem hnot
          rw [← h.hP] at this
          rw [← this]; exact hpx
        have hadd : ∃ w1, st.w.add p (-x.weight) = .ok w1 ∧ w1.add (other p) x.weight =
            .ok ⟨st.w.w0 + (if p = 0 then -1 * x.weight else x.weight),
              st.w.w1 - (if p = 0 then -1 * x.weight else x.weight)⟩ := by
          rcases hp with rfl | rfl
          · refine ⟨_, rfl, ?_⟩
            simp [W2.add]
          · refine ⟨_, rfl, ?_⟩
            simp [W2.add]
            omega
        obtain ⟨w1, hw1, hw2⟩ := hadd
        rw [hw1]; simp only [ok_bind]
        rw [hw2]; simp only [ok_bind]
        rw [bind_assoc]
        refine (hT.l.move w hc hM hR hx hGx).bind ?_
        rintro ⟨s4, Lc4⟩ ⟨L', G', hL4, hnone⟩
        have hlt := unlocked_lt hx hGx hnone
        refine Outcome.pure' ⟨flip P x.id, L', G', x.id :: l', ?_, fun _ => hlt, by simp⟩
        refine ⟨hL4, ?_, ?_, ?_, ?_, ?_, ?_, ?_, ?_, ?_, ?_, ?_, locked_cons h.lk hnone, ?_⟩
        · simp only [List.map_append, List.map_cons, List.map_nil]
          rw [flips_append, ← h.hP]
        · intro m hm
          simp only [List.mem_append, List.mem_singleton] at hm
          rcases hm with hm | rfl
          · exact h.hv m hm
          · refine ⟨x, hx, rfl, ?_⟩
            simp only [leaveChange, hP0x]
            rcases hp with rfl | rfl <;> simp
        · intro m hm
          simp only [List.mem_append, List.mem_singleton] at hm
          rcases hm with hm | rfl
          · exact h.fresh m hm
          · intro h0
            have := h.hz x.id h0
            rw [hGx] at this; cases this
        · intro u hu
          exact (hnone u).2 (Or.inr (h.hz u hu))
        · intro m hm
          simp only [List.mem_append, List.mem_singleton] at hm
          rcases hm with hm | rfl
          · exact (hnone _).2 (Or.inr (h.hl m hm))
          · exact (hnone _).2 (Or.inl rfl)
        · simp only [List.map_append, List.map_cons, List.map_nil]
          rw [List.nodup_append]
          refine ⟨h.nd, by simp, ?_⟩
          intro a ha b hb
          simp only [List.mem_singleton] at hb
          subst hb
          rintro rfl
          exact hnot ha
        · intro m hm
          simp only [List.mem_append, List.mem_singleton] at hm
          rcases hm with hm | rfl
          · exact h.gain m hm
          · exact hgv0
        · simp only [moveSum_append, h.hw]
          congr 1 <;> omega
        · intro hwn hb0 hb1
          obtain ⟨c0, c1, c2⟩ := h.hb hwn hb0 hb1
          have hx0 := hwn x hx
          have hww := h.hw
          have e0 : st.w.w0 = w0.w0 + moveSum st.moves := by rw [hww]
          have e1 : st.w.w1 = w0.w1 - moveSum st.moves := by rw [hww]
          rcases hp with rfl | rfl
          · simp only [other_zero, one_ne_zero, if_false] at hroom
            simp only [if_true]
            refine ⟨by omega, by omega, ?_⟩
            intro m hm
            simp only [List.mem_append, List.mem_singleton] at hm
            rcases hm with hm | rfl
            · exact c2 m hm
            · simp only
              rw [abs_le]; omega
          · simp only [other_one, if_true] at hroom
            simp only [one_ne_zero, if_false]
            refine ⟨by omega, by omega, ?_⟩
            intro m hm
            simp only [List.mem_append, List.mem_singleton] at hm
            rcases hm with hm | rfl
            · exact c2 m hm
            · simp only
              rw [abs_le]; omega
        · simp only [List.length_append, List.length_singleton]; omega
        · simp only [List.length_append, List.length_singleton]
          have := h.cnt; omega
        · intro hB
          have := TopRun.move (h.run hB) hlen (hbest hB).1 (hpr hB) (by rw [(hbest hB).2.1]; exact hgv0)
            (by
              rw [hpx, ← other_eq_sub hp]
              unfold roomOf
              omega)
          rw [flip_flipped (by rw [hpx]; exact hp), (hbest hB).2.1] at this
          convert this using 1
          · unfold movedWeights
            rw [hpx]
            rcases hp with rfl | rfl <;> simp
            omega
          · rw [hpx]; simp
      · rw [if_neg hroom]
        rw [bind_assoc]
        obtain ⟨s4, h4, hL4⟩ := hT.l.remove w hx hGx
        simp only at h4
        rw [h4]; simp only [ok_bind]
        have hlt := unlocked_lt (H := H) hx hGx (G' := upd G x.id none) upd_none_iff
        refine Outcome.pure' ⟨P, L, upd G x.id none, x.id :: l', ?_, fun _ => hlt, by simp⟩
        refine ⟨hL4, h.hP, h.hv, h.fresh, ?_, ?_, h.nd, h.gain, h.hw, h.hb, h.len, ?_,
          locked_cons h.lk upd_none_iff, ?_⟩
        · intro u hu; exact (upd_none_iff u).2 (Or.inr (h.hz u hu))
        · intro m hm; exact (upd_none_iff _).2 (Or.inr (h.hl m hm))
        · have := h.cnt; simp only; omega
        · intro hB
          refine TopRun.lock (h.run hB) hlen (hbest hB).1 (hpr hB) (by rw [(hbest hB).2.1]; exact hgv0) ?_
          rw [hpx, ← other_eq_sub hp]
          unfold roomOf
          rcases hp with rfl | rfl
          · simp only [other_zero, one_ne_zero, if_false] at hroom ⊢
            omega
          · simp only [other_one, if_true] at hroom ⊢
            omega

theorem topLoop_ok (fuel : Nat) :
    ∀ {P : Nat → Int} {L : Nat → List Nat} {G : Nat → Option Int} {l' : List Nat} {st : TopState},
      TopInv B Γ H M R max0 max1 K P0 G0 w0 l0 P L G l' st → unlocked H G < fuel →
    Outcome B (topLoop max0 max1 K fuel st) (fun st' => ∃ P' L' G' l'',
      TopInv B Γ H M R max0 max1 K P0 G0 w0 l0 P' L' G' l'' st' ∧
      (B → TopOver Γ H max0 max1 K P' st'.w st'.moves l'')) := by
  induction fuel with
  | zero => intro P L G l' st _ hf; omega
  | succ f ih =>
    intro P L G l' st h hf
    unfold topLoop
    obtain ⟨d, s1, h1, hI1, hd⟩ := gdone_ok h.l.inv
    rw [h1]; simp only [ok_bind]
    have hT := h.congrInv st.rng hI1
    split
    · rename_i hcond
      have hdf : d = false := by simpa using hcond.1
      refine (topBody_ok w hc hM hR hΓ hT hcond.2 (by
        intro hall
        rw [hd.2 hall] at hdf; cases hdf)).bind ?_
      rintro ⟨go, st2⟩ ⟨P2, L2, G2, l2, hT2, hlt, hov⟩
      simp only
      split
      · rename_i hgo
        exact ih hT2 (by have := hlt hgo; omega)
      · rename_i hgo
        exact Outcome.pure' ⟨P2, L2, G2, l2, hT2, hov (by simpa using hgo)⟩
    · rename_i hcond
      refine Outcome.pure' ⟨P, L, G, l', hT, fun _ => ?_⟩
      by_cases hK : K ≤ st.moves.length
      · exact Or.inl hK
      · right; left
        have hdt : d = true := by
          cases d with
          | true => rfl
          | false => exact absurd ⟨by simp, by omega⟩ hcond
        intro v hv
        obtain ⟨x, hx, hxv⟩ := List.mem_map.1 hv
        have hxv : x.id = v := hxv
        subst hxv
        rw [← h.lk x hx]
        cases hG : G x.id with
        | none => rfl
        | some g => exact absurd ⟨hv, rfl, hG⟩ (hd.1 hdt _ (h.l.h01 x hx) x.id g)

end

/-- `find_top_moves` from a given state. -/
theorem findTop_ok {B : Prop} {Γ : (Nat → Int) → Nat → Int} {H : Hypergraph} (w : WF H)
    (hc : B → CostsNonneg H) {M : Nat}
    (hM : MaxCost H M) {R : Nat → Cnt} (hR : RNonneg R) {max0 max1 : Int} {K : Nat}
    {P : Nat → Int} (hΓ : B → GainsOf H R P Γ) {L : Nat → List Nat} {G : Nat → Option Int}
    {s : GainStructure} {Lc : List Cnt} (h : LInv B H M R P L G s Lc) {l0 : List Nat}
    (hl0 : ∀ x ∈ H.vertices, (G x.id = none ↔ x.id ∈ l0)) {fuel : Nat}
    (hf : H.vertices.length < fuel) (wt : W2) (r : Rng) :
    Outcome B (topLoop max0 max1 K fuel { gs := s, L := Lc, moves := [], w := wt, rng := r })
      (fun st' => ∃ P' L' G' l', TopInv B Γ H M R max0 max1 K P G wt l0 P' L' G' l' st' ∧
        (B → TopOver Γ H max0 max1 K P' st'.w st'.moves l')) := by
  apply topLoop_ok w hc hM hR hΓ fuel (P := P) (L := L) (G := G) (l' := l0)
  · refine ⟨h, rfl, by simp, by simp, fun _ h => h, by simp, by simp, by simp, ?_, ?_, by simp, by simp,
      hl0, fun _ => .start⟩
    · simp [moveSum]
    · intro _ h0 h1
      exact ⟨h0, h1, by simp⟩
  · have := unlocked_le (H := H) G; omega

/-! ### Undoing moves -/

/-- The reversal on the slots in reverse order: the slots afterwards and the moves undone. -/
def undoRev (pos : Bool) : Nat → List (Option MoveP) → List (Option MoveP) × List MoveP
  | 0, l => (l, [])
  | _ + 1, [] => ([], [])
  | k + 1, o :: l =>
    match o with
    | none => (none :: (undoRev pos (k + 1) l).1, (undoRev pos (k + 1) l).2)
    | some m =>
      if undoes pos (some m) then (none :: (undoRev pos k l).1, m :: (undoRev pos k l).2)
      else (some m :: (undoRev pos (k + 1) l).1, (undoRev pos (k + 1) l).2)

/-- The moves in the slots. -/
def kept (l : List (Option MoveP)) : List MoveP := l.filterMap id

theorem undoRev_perm (pos : Bool) (l : List (Option MoveP)) :
    ∀ k, (kept (undoRev pos k l).1 ++ (undoRev pos k l).2).Perm (kept l) := by
  induction l with
  | nil => intro k; cases k <;> simp [undoRev, kept]
  | cons o l ih =>
    intro k
    cases k with
    | zero => simp [undoRev]
    | succ k =>
      cases o with
      | none =>
        simp only [undoRev]
        simpa [kept] using ih (k + 1)
      | some m =>
        simp only [undoRev]
        by_cases hu : undoes pos (some m) = true
        · rw [if_pos hu]
          have := ih k
          simp only [kept, List.filterMap_cons, id_eq] at this ⊢
          exact List.perm_middle.trans (this.cons m)
        · rw [if_neg hu]
          have := ih (k + 1)
          simp only [kept, List.filterMap_cons, id_eq] at this ⊢
          exact this.cons m

/-- The moves undone are the last ones of the wanted sign. -/
theorem undoRev_take (pos : Bool) (l : List (Option MoveP)) :
    ∀ k, (undoRev pos k l).2 = ((kept l).filter (fun m => undoes pos (some m))).take k := by
  induction l with
  | nil => intro k; cases k <;> simp [undoRev, kept]
  | cons o l ih =>
    intro k
    cases k with
    | zero => simp [undoRev]
    | succ k =>
      cases o with
      | none =>
        simp only [undoRev]
        simpa [kept] using ih (k + 1)
      | some m =>
        simp only [undoRev]
        by_cases hu : undoes pos (some m) = true
        · rw [if_pos hu]
          have := ih k
          simp only [kept, List.filterMap_cons, id_eq] at this ⊢
          rw [List.filter_cons, if_pos hu, List.take_succ_cons, this]
        · rw [if_neg hu]
          have := ih (k + 1)
          simp only [kept, List.filterMap_cons, id_eq] at this ⊢
          rw [List.filter_cons, if_neg hu, this]

/-- The hypergraph and counts of the reversal on the functional view. -/
structure UInv (H : Hypergraph) (R : Nat → Cnt) (P : Nat → Int) (L : Nat → List Nat)
    (st : UndoState) : Prop where
  hH : st.H = conc H P L
  hC : st.C = cOf H (viewF P L R)
  hLc : st.L = cOf H (exactF P L)
  h01 : Parts01 H P
  hL : PinsPerm H L
  hS : AllSplit H P L

theorem undoOne_ok {H : Hypergraph} (w : WF H) {R : Nat → Cnt} {P : Nat → Int} {L : Nat → List Nat}
    {st : UndoState} (h : UInv H R P L st) {i : Nat} (hi : i < st.moves.length) {m : MoveP}
    (hm : IsVertex H m.v) :
    ∃ st' L', undoOne st i (some m) = .ok st' ∧ UInv H R (flip P m.v) L' st' ∧
      st'.moves = st.moves.set i none := by
  obtain ⟨x, hx, hxm⟩ := List.mem_map.1 hm
  have hxm : x.id = m.v := hxm
  obtain ⟨L', h1, h2, h3⟩ := hmoveLoc_conc (R := R) w h.h01 h.hL h.hS hx
  rw [← hxm]
  refine ⟨{ H := conc H (flip P x.id) L', C := cOf H (viewF (flip P x.id) L' R),
            L := cOf H (exactF (flip P x.id) L'), moves := st.moves.set i none }, L', ?_,
    ⟨rfl, rfl, rfl, flip_01 h.h01 _ (h.h01 x hx), h2, h3⟩, ?_⟩
  · unfold undoOne
    simp only
    rw [← hxm, h.hH, conc_vertexOf w P L hx]
    simp only [ok_bind]
    rw [h.hC, h.hLc, h1]
    simp only [ok_bind]
    rw [vset_ok hi]
    rfl
  · rfl

theorem undoLoop_ok {H : Hypergraph} (w : WF H) {R : Nat → Cnt} (pos : Bool)
    (A : List (Option MoveP)) :
    ∀ {P : Nat → Int} {L : Nat → List Nat} {st : UndoState} (T : List (Option MoveP)) (k : Nat),
      UInv H R P L st → st.moves = A.reverse ++ T → k ≤ A.countP (undoes pos) →
      (∀ m ∈ kept A, IsVertex H m.v) →
    ∃ st' L', undoLoop pos A.length k st = .ok st' ∧
      UInv H R (flips P ((undoRev pos k A).2.map (·.v))) L' st' ∧
      st'.moves = (undoRev pos k A).1.reverse ++ T := by
  induction A with
  | nil =>
    intro P L st T k h hm hk _
    have : k = 0 := by simpa using hk
    subst this
    exact ⟨st, L, rfl, h, hm⟩
  | cons o A ih =>
    intro P L st T k h hm hk hv
    cases k with
    | zero => exact ⟨st, L, by simp [undoLoop, pure_eq_ok], h, by simpa [undoRev] using hm⟩
    | succ k =>
      have hget : vget st.moves A.length = .ok o := by
        apply vget_ok
        rw [hm]
        simp
      have hlt : A.length < st.moves.length := by
        rw [hm]; simp only [List.length_append, List.length_reverse, List.length_cons]; omega
      simp only [List.length_cons, undoLoop]
      rw [hget]; simp only [ok_bind]
      cases o with
      | none =>
        have hno : ¬ undoes pos (none : Option MoveP) = true := by simp [undoes]
        rw [if_neg hno]
        obtain ⟨st', L', h1, h2, h3⟩ := ih (none :: T) (k + 1) h (by rw [hm]; simp) (by
          simpa [undoes] using hk) (by simpa [kept] using hv)
        refine ⟨st', L', h1, ?_, ?_⟩
        · simpa only [undoRev] using h2
        · simp only [undoRev]; rw [h3]; simp
      | some m =>
        by_cases hu : undoes pos (some m) = true
        · rw [if_pos hu]
          obtain ⟨st1, L1, h1, h2, h3⟩ := undoOne_ok w h hlt (m := m) (hv m (by simp [kept]))
          rw [h1]; simp only [ok_bind]
          obtain ⟨st', L', h4, h5, h6⟩ := ih (none :: T) k h2 (by
            rw [h3, hm]
            simp) (by
              rw [List.countP_cons, if_pos hu] at hk; omega)
            (fun m' hm' => hv m' (by simp only [kept, List.filterMap_cons, id_eq, List.mem_cons] at hm' ⊢; exact Or.inr hm'))
          refine ⟨st', L', h4, ?_, ?_⟩
          · simp only [undoRev, if_pos hu, List.map_cons]
            exact h5
          · simp only [undoRev, if_pos hu]
            rw [h6]; simp
        · rw [if_neg hu]
          obtain ⟨st', L', h1, h2, h3⟩ := ih (some m :: T) (k + 1) h (by rw [hm]; simp) (by
              rw [List.countP_cons, if_neg hu] at hk; omega)
            (fun m' hm' => hv m' (by simp only [kept, List.filterMap_cons, id_eq, List.mem_cons] at hm' ⊢; exact Or.inr hm'))
          refine ⟨st', L', h1, ?_, ?_⟩
          · simpa only [undoRev, if_neg hu] using h2
          · simp only [undoRev, if_neg hu]; rw [h3]; simp

end PMondriaan

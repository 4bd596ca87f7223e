import Verif.Model.InitPart
import Verif.Proofs.LabelProp
import Verif.Proofs.Recursive
import Verif.Proofs.Same
import Verif.Props.Refine

/-
Proofs about initial partitioning.
-/

namespace PMondriaan

open Spec

theorem setPartsFrom_ok {H : Hypergraph} {L : List Int} (hl : L.length = H.vertices.length) :
    setPartsFrom H L = .ok (withLabels H L) := by
  unfold setPartsFrom
  suffices h : ∀ (B A : List Vertex) (X : Hypergraph) (M : List Int), X.vertices = A ++ B →
      M.length = A.length → ∀ L', L'.length = B.length → L = M ++ L' →
      (List.range' A.length B.length).foldlM (fun (H : Hypergraph) i => do
        let p ← vget L i
        H.setPartAt i p) X =
      .ok (withVertices X (A ++ List.zipWith (fun (v : Vertex) (p : Int) => { v with part := p }) B L')) by
    have := h H.vertices [] H [] (by simp) rfl L hl (by simp)
    rw [List.range_eq_range']
    simpa [withVertices, withLabels] using this
  intro B
  induction B with
  | nil =>
    intro A X M hX hM L' hL' hL
    cases X
    simp only at hX
    simp [hX, withVertices]
  | cons v B ih =>
    intro A X M hX hM L' hL' hL
    cases L' with
    | nil => simp at hL'
    | cons p L' =>
      have hg : L[A.length]? = some p := by rw [hL, ← hM]; simp
      simp only [List.length_cons, List.range'_succ, List.foldlM_cons, vget_ok hg, ok_bind,
        setPartAt_append hX p]
      have := ih (A ++ [{ v with part := p }])
        { X with vertices := A ++ { v with part := p } :: B } (M ++ [p]) (by simp) (by simp [hM]) L'
        (by simpa using hL') (by simp [hL])
      simp only [List.length_append, List.length_singleton] at this
      rw [this]
      simp [withVertices]

theorem KLFM_none {H : Hypergraph} (w : WF H) (hc : CostsNonneg H) (hwn : WeightsNonneg H)
    (hb : Bipartitioned H) {C : List Cnt} (hC : CountsExact H C) {fuel : Nat}
    (hf : H.vertices.length < fuel) (max0 max1 : Int) (opts : Options) (rng : Rng) :
    ∃ r, KLFM fuel H C ⟨partWeight H 0, partWeight H 1⟩ max0 max1 opts rng none = .ok r ∧
      r.cut = cutValue .cutNet r.H ∧ GoodResult H r := by
  obtain ⟨r, P1, P', L', h, hR, -⟩ := KLFM_conc (δ := 0) w hc hwn
    (parts01_self w hb) (pinsPerm_self w) hf max0 max1 opts rng none rfl
  rw [conc_self w, ← counts_self w hC] at h
  have hg := hR.good w
  have hcut := hR.cut w
  refine ⟨r, ?_, by omega, hg⟩
  rw [partWeight_pw 0 w, partWeight_pw 1 w]; exact h

/-- What a round leaves behind. -/
structure RoundOk (H : Hypergraph) (r : PassResult) : Prop where
  cut : r.cut = cutValue .cutNet r.H
  same : SameUpToParts H r.H
  wf : WF r.H
  bip : Bipartitioned r.H

theorem ipRound_ok {shuf : Shuffle} (hsh : ∀ r l, (shuf r l).1.Perm l) {H : Hypergraph} (w : WF H)
    (hc : CostsNonneg H) (hwn : WeightsNonneg H) {fuel : Nat} (hf : H.vertices.length < fuel)
    (opts : Options) (max0 max1 : Int) (rng : Rng) :
    ∃ r, ipRound fuel shuf opts max0 max1 H rng = .ok r ∧ RoundOk H r := by
  obtain ⟨s0, s, -, h2, -, h4, -⟩ := lpBisect_ok hsh w opts.lpMaxIterations max0 max1 rng
  have hsame := withLabels_same w h4.len
  have hw' := withLabels_wf w h4.len
  obtain ⟨r, g1, g2, g3⟩ := KLFM_none hw' (hsame.costsNonneg hc) (hsame.weightsNonneg hwn)
    (withLabels_bip h4.labels) (h4.counts ▸ withLabels_counts w h4.len) (fuel := fuel)
    (by rw [hsame.vlen]; exact hf) max0 max1 opts s.rng
  refine ⟨r, ?_, g2, hsame.trans g3.same, g3.wf, g3.bip⟩
  unfold ipRound
  rw [h2, ok_bind, setPartsFrom_ok h4.len, ok_bind, weightPart_eq, weightPart_eq]
  exact g1

/-- Consecutive rounds. -/
def Rounds (round : Hypergraph → Rng → Res PassResult) : Hypergraph → Rng → List PassResult → Prop
  | _, _, [] => True
  | H, rng, r :: rs => round H rng = .ok r ∧ Rounds round r.H r.rng rs

/-- `b` is the best of the rounds `rs`: if some round is balanced, the smallest cut among balanced
rounds, then the smallest excess; otherwise the smallest excess. -/
structure BestRound (max0 max1 : Int) (rs : List PassResult) (b : PassResult) : Prop where
  mem : b ∈ rs
  balanced : (∃ r ∈ rs, Balanced r.H max0 max1) → Balanced b.H max0 max1
  least : ∀ r ∈ rs, Balanced r.H max0 max1 → b.cut < r.cut ∨
    (b.cut = r.cut ∧ excess b.H max0 max1 ≤ excess r.H max0 max1)
  unbalanced : (∀ r ∈ rs, ¬ Balanced r.H max0 max1) →
    ∀ r ∈ rs, excess b.H max0 max1 ≤ excess r.H max0 max1

theorem balanced_iff (H : Hypergraph) (max0 max1 : Int) :
    Balanced H max0 max1 ↔ excess H max0 max1 ≤ 0 := by
  unfold Balanced excess; omega

theorem ipAccept_some {cut imb c i : Int} : ipAccept cut imb (some c) (some i) = true ↔
    (cut < c ∧ imb ≤ 0) ∨ ((cut = c ∨ 0 < i) ∧ imb < i) := by
  unfold ipAccept ltMax
  simp only [Bool.or_eq_true, Bool.and_eq_true, decide_eq_true_eq, beq_iff_eq, Option.some.injEq]
  constructor
  · rintro (h | ⟨h | h, h'⟩)
    · exact Or.inl h
    · exact Or.inr ⟨Or.inl h.symm, h'⟩
    · exact Or.inr ⟨Or.inr h, h'⟩
  · rintro (h | ⟨h | h, h'⟩)
    · exact Or.inl h
    · exact Or.inr ⟨Or.inl h.symm, h'⟩
    · exact Or.inr ⟨Or.inr h, h'⟩

theorem best_snoc_take {max0 max1 : Int} {rs : List PassResult} {b r : PassResult}
    (h : BestRound max0 max1 rs b)
    (hacc : (r.cut < b.cut ∧ excess r.H max0 max1 ≤ 0) ∨
      ((r.cut = b.cut ∨ 0 < excess b.H max0 max1) ∧ excess r.H max0 max1 < excess b.H max0 max1)) :
    BestRound max0 max1 (rs ++ [r]) r := by
  obtain ⟨h1, h2, h3, h4⟩ := h
  simp only [balanced_iff] at h2 h3 h4
  constructor
  · simp
  · simp only [balanced_iff]
    rintro ⟨x, hx, hbx⟩
    rcases List.mem_append.1 hx with hx | hx
    · have := h2 ⟨x, hx, hbx⟩; omega
    · simp only [List.mem_singleton] at hx; rw [← hx]; exact hbx
  · simp only [balanced_iff]
    intro x hx hbx
    rcases List.mem_append.1 hx with hx | hx
    · have a := h2 ⟨x, hx, hbx⟩
      have := h3 x hx hbx
      omega
    · simp only [List.mem_singleton] at hx; rw [← hx]; right; exact ⟨rfl, le_refl _⟩
  · simp only [balanced_iff]
    intro hno x hx
    rcases List.mem_append.1 hx with hx | hx
    · have := h4 (fun y hy => hno y (by simp [hy])) x hx
      have := hno r (by simp)
      omega
    · simp only [List.mem_singleton] at hx; rw [← hx]

theorem best_snoc_keep {max0 max1 : Int} {rs : List PassResult} {b r : PassResult}
    (h : BestRound max0 max1 rs b)
    (hacc : ¬ ((r.cut < b.cut ∧ excess r.H max0 max1 ≤ 0) ∨
      ((r.cut = b.cut ∨ 0 < excess b.H max0 max1) ∧
        excess r.H max0 max1 < excess b.H max0 max1))) :
    BestRound max0 max1 (rs ++ [r]) b := by
  obtain ⟨h1, h2, h3, h4⟩ := h
  simp only [balanced_iff] at h2 h3 h4
  constructor
  · simp [h1]
  · simp only [balanced_iff]
    rintro ⟨x, hx, hbx⟩
    rcases List.mem_append.1 hx with hx | hx
    · exact h2 ⟨x, hx, hbx⟩
    · simp only [List.mem_singleton] at hx; rw [hx] at hbx; omega
  · simp only [balanced_iff]
    intro x hx hbx
    rcases List.mem_append.1 hx with hx | hx
    · exact h3 x hx hbx
    · simp only [List.mem_singleton] at hx; rw [hx] at hbx ⊢; omega
  · simp only [balanced_iff]
    intro hno x hx
    have hb := hno b (by simp [h1])
    rcases List.mem_append.1 hx with hx | hx
    · exact h4 (fun y hy => hno y (by simp [hy])) x hx
    · simp only [List.mem_singleton] at hx; rw [hx]; omega

/-- The variables of the loop describe the best round. -/
def IPBest (max0 max1 : Int) (rs : List PassResult) (s : IPState) : Prop :=
  (rs = [] ∧ s.cut = none ∧ s.imb = none) ∨
  ∃ b, BestRound max0 max1 rs b ∧ s.L = b.H.vertices.map (·.part) ∧ s.cut = some b.cut ∧
    s.imb = some (excess b.H max0 max1)

theorem ipLoop_ok {shuf : Shuffle} (hsh : ∀ r l, (shuf r l).1.Perm l) {H : Hypergraph}
    (hc : CostsNonneg H) (hwn : WeightsNonneg H) {fuel : Nat} (hf : H.vertices.length < fuel)
    (opts : Options) (max0 max1 : Int) : ∀ (l : List Nat) (s : IPState) (rs0 : List PassResult),
    WF s.H → SameUpToParts H s.H → IPBest max0 max1 rs0 s → (∀ r ∈ rs0, RoundOk H r) →
    ∃ s' rs, l.foldlM (ipStep fuel shuf opts max0 max1) s = .ok s' ∧ rs.length = l.length ∧
      Rounds (ipRound fuel shuf opts max0 max1) s.H s.rng rs ∧ IPBest max0 max1 (rs0 ++ rs) s' ∧
      (∀ r ∈ rs0 ++ rs, RoundOk H r) ∧ WF s'.H ∧ SameUpToParts H s'.H := by
  intro l
  induction l with
  | nil =>
    intro s rs0 w hs hb hr
    exact ⟨s, [], rfl, rfl, trivial, by simpa using hb, by simpa using hr, w, hs⟩
  | cons a l ih =>
    intro s rs0 w hs hb hr
    obtain ⟨r, h1, h2⟩ := ipRound_ok hsh w (hs.costsNonneg hc) (hs.weightsNonneg hwn) (fuel := fuel)
      (by rw [hs.vlen]; exact hf) opts max0 max1 s.rng
    have hrok : RoundOk H r := ⟨h2.cut, hs.trans h2.same, h2.wf, h2.bip⟩
    have hexc : max (r.H.weightPart 0 - max0) (r.H.weightPart 1 - max1) = excess r.H max0 max1 := by
      rw [weightPart_eq, weightPart_eq]; rfl
    have hstep : ∃ s1, ipStep fuel shuf opts max0 max1 s a = .ok s1 ∧ s1.H = r.H ∧ s1.rng = r.rng ∧
        IPBest max0 max1 (rs0 ++ [r]) s1 := by
      unfold ipStep
      simp only [h1, ok_bind, hexc]
      rcases hb with ⟨rfl, hn1, hn2⟩ | ⟨b, hbest, hL, hcut, himb⟩
      · rw [hn1, hn2, if_pos (by simp [ipAccept, ltMax])]
        refine ⟨_, rfl, rfl, rfl, Or.inr ⟨r, ?_, rfl, rfl, rfl⟩⟩
        constructor
        · simp
        · rintro ⟨x, hx, hbx⟩; simp at hx; rw [← hx]; exact hbx
        · intro x hx _; simp at hx; rw [hx]; right; exact ⟨rfl, le_refl _⟩
        · intro _ x hx; simp at hx; rw [hx]
      · rw [hcut, himb]
        by_cases hacc : ipAccept r.cut (excess r.H max0 max1) (some b.cut)
            (some (excess b.H max0 max1)) = true
        · rw [if_pos hacc]
          exact ⟨_, rfl, rfl, rfl, Or.inr ⟨r, best_snoc_take hbest (ipAccept_some.1 hacc), rfl, rfl,
            rfl⟩⟩
        · rw [if_neg hacc]
          refine ⟨_, rfl, rfl, rfl, Or.inr ⟨b, best_snoc_keep hbest ?_, hL, rfl, rfl⟩⟩
          rw [ipAccept_some] at hacc
          exact hacc
    obtain ⟨s1, e1, e2, e3, e4⟩ := hstep
    obtain ⟨s', rs, g1, g2, g3, g4, g5, g6, g7⟩ := ih s1 (rs0 ++ [r]) (by rw [e2]; exact h2.wf)
      (by rw [e2]; exact hrok.same) e4 (by
        intro x hx
        rcases List.mem_append.1 hx with hx | hx
        · exact hr x hx
        · simp only [List.mem_singleton] at hx; rw [hx]; exact hrok)
    refine ⟨s', r :: rs, ?_, by simp [g2], ⟨h1, ?_⟩, ?_, ?_, g6, g7⟩
    · rw [List.foldlM_cons, e1, ok_bind]; exact g1
    · rw [e2, e3] at g3; exact g3
    · simpa using g4
    · simpa using g5

end PMondriaan

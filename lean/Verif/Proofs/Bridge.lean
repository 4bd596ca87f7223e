import Verif.Proofs.Pass

/-
From the functional view back to the specification vocabulary.
-/

namespace PMondriaan

open Spec

theorem split_iff_pairwise {P : Nat → Int} {l : List Nat} (h : ∀ u ∈ l, P u = 0 ∨ P u = 1) :
    Split P l ↔ l.Pairwise (fun a b => P a ≤ P b) := by
  constructor
  · rintro ⟨z, o, rfl, hz, ho⟩
    rw [List.pairwise_append]
    refine ⟨?_, ?_, ?_⟩
    · rw [List.pairwise_iff_forall_sublist]
      intro a b hab
      have ha := hz a (hab.subset (by simp))
      have hb := hz b (hab.subset (by simp))
      omega
    · rw [List.pairwise_iff_forall_sublist]
      intro a b hab
      have ha := ho a (hab.subset (by simp))
      have hb := ho b (hab.subset (by simp))
      omega
    · intro a ha b hb
      have := hz a ha
      have := ho b hb
      omega
  · intro hp
    induction l with
    | nil => exact ⟨[], [], rfl, by simp, by simp⟩
    | cons a l ih =>
      rw [List.pairwise_cons] at hp
      obtain ⟨z, o, rfl, hz, ho⟩ := ih (fun u hu => h u (by simp [hu])) hp.2
      rcases h a (by simp) with ha | ha
      · refine ⟨a :: z, o, rfl, ?_, ho⟩
        intro u hu
        rcases List.mem_cons.1 hu with rfl | hu
        · exact ha
        · exact hz u hu
      · refine ⟨[], a :: (z ++ o), rfl, by simp, ?_⟩
        intro u hu
        rcases List.mem_cons.1 hu with rfl | hu
        · exact ha
        · have h1 := hp.1 u hu
          have h2 := h u (by simp only [List.mem_cons]; exact Or.inr hu)
          omega

theorem cutNet_congr {P Q : Nat → Int} {nets : List Net}
    (h : ∀ n ∈ nets, ∀ u ∈ n.vertices, P u = Q u) : cutNet P nets = cutNet Q nets := by
  unfold cutNet
  congr 1
  apply List.map_congr_left
  intro n hn
  have : IsCut P n ↔ IsCut Q n := by
    unfold IsCut
    constructor
    · rintro ⟨u, hu, v, hv, hne⟩
      exact ⟨u, hu, v, hv, by rw [← h n hn u hu, ← h n hn v hv]; exact hne⟩
    · rintro ⟨u, hu, v, hv, hne⟩
      exact ⟨u, hu, v, hv, by rw [h n hn u hu, h n hn v hv]; exact hne⟩
  simp [this]

section
variable {H : Hypergraph} (w : WF H) {P : Nat → Int} {L : Nat → List Nat}
include w

omit w in
theorem cutNet_conc (hL : PinsPerm H L) (Q : Nat → Int) :
    cutNet Q (conc H P L).nets = cutNet Q H.nets := by
  unfold cutNet conc
  simp only [List.map_map]
  congr 1
  apply List.map_congr_left
  intro n hn
  have : IsCut Q { n with vertices := L n.id } ↔ IsCut Q n := by
    unfold IsCut
    simp only [(hL n hn).mem_iff]
  simp [this]

theorem partOf_conc_pin {n : Net} (hn : n ∈ H.nets) {u : Nat} (hu : u ∈ n.vertices) :
    partOf (conc H P L) u = P u := by
  obtain ⟨v, hv, rfl, -⟩ := w.inc_vtx n hn u hu
  exact conc_partOf P L hv

/-- The cut of the concrete hypergraph. -/
theorem cutValue_conc (hL : PinsPerm H L) :
    cutValue .cutNet (conc H P L) = cutNet P H.nets := by
  unfold cutValue
  simp only
  rw [cutNet_conc hL]
  exact cutNet_congr (fun n hn u hu => partOf_conc_pin w hn hu)

theorem cutValue_self (H' : Hypergraph) (hH' : H' = H) :
    cutValue .cutNet H' = cutNet (partOf H) H.nets := by
  subst hH'; rfl

omit w in
theorem bipartitioned_conc (h01 : Parts01 H P) : Bipartitioned (conc H P L) := by
  intro v hv
  simp only [conc, List.mem_map] at hv
  obtain ⟨x, hx, rfl⟩ := hv
  exact h01 x hx

theorem sorted_conc (h01 : Parts01 H P) (hL : PinsPerm H L) (hS : AllSplit H P L) :
    SortedOnPart (conc H P L) := by
  intro n hn
  simp only [conc, List.mem_map] at hn
  obtain ⟨m, hm, rfl⟩ := hn
  have hpart : ∀ u ∈ L m.id, partOf (conc H P L) u = P u := fun u hu =>
    partOf_conc_pin w hm ((hL m hm).mem_iff.1 hu)
  have h := (split_iff_pairwise (P := P) (l := L m.id) (fun u hu =>
    h01.pin w hm ((hL m hm).mem_iff.1 hu))).1 (hS m hm)
  refine h.imp_of_mem ?_
  intro a b ha hb hab
  rw [hpart a ha, hpart b hb]; exact hab

theorem parts01_self (hb : Bipartitioned H) : Parts01 H (partOf H) := by
  intro v hv
  rw [w.partOf_eq hv]; exact hb v hv

theorem pinsPerm_self : PinsPerm H (pinsOf H) := by
  intro n hn
  rw [pinsOf_eq w hn]

theorem allSplit_self (hb : Bipartitioned H) (hs : SortedOnPart H) :
    AllSplit H (partOf H) (pinsOf H) := by
  intro n hn
  rw [pinsOf_eq w hn]
  exact (split_iff_pairwise (fun u hu => (parts01_self w hb).pin w hn hu)).2 (hs n hn)

theorem counts_self {C : List Cnt} (hC : CountsExact H C) :
    C = cOf H (exactF (partOf H) (pinsOf H)) := by
  rw [hC]
  unfold cOf exactF pinCount
  apply List.map_congr_left
  intro n hn
  rw [pinsOf_eq w hn]

omit w in
theorem partWeight_pw (p : Int) (w : WF H) : partWeight H p = pw H (partOf H) p := by
  conv_lhs => rw [← conc_self w]
  exact partWeight_conc _ _ _

theorem flip_eq_flipped {n : Net} (hn : n ∈ H.nets) (h01 : Parts01 H P) (v : Nat) {u : Nat}
    (hu : u ∈ n.vertices) : flip P v u = flipped P v u := by
  unfold flip upd flipped
  have := h01.pin w hn hu
  by_cases huv : u = v
  · subst huv
    simp only [if_true]
    rcases this with h | h <;> simp [h]
  · simp [huv]

end

/-- Everything the search leaves behind, in specification vocabulary. -/
structure GoodResult (H : Hypergraph) (r : PassResult) : Prop where
  same : SameUpToParts H r.H
  wf : WF r.H
  bip : Bipartitioned r.H
  sorted : SortedOnPart r.H
  counts : CountsExact r.H r.C
  weights : r.w = ⟨partWeight r.H 0, partWeight r.H 1⟩

theorem RInv.good {H : Hypergraph} (w : WF H) {P : Nat → Int} {L : Nat → List Nat} {δ : Int}
    {r : PassResult} (h : RInv H P L δ r) : GoodResult H r where
  same := by rw [h.hH]; exact conc_sameUpToParts P L h.hL
  wf := by rw [h.hH]; exact conc_wf w P L h.hL
  bip := by rw [h.hH]; exact bipartitioned_conc h.h01
  sorted := by rw [h.hH]; exact sorted_conc w h.h01 h.hL h.hS
  counts := by rw [h.hH, h.hC]; exact countsExact_conc w P L h.hL
  weights := by rw [h.hw, h.hH, partWeight_conc, partWeight_conc]; rfl

theorem RInv.cut {H : Hypergraph} (w : WF H) {P : Nat → Int} {L : Nat → List Nat} {δ : Int}
    {r : PassResult} (h : RInv H P L δ r) : r.cut = cutValue .cutNet r.H + δ := by
  rw [h.hcut, h.hH, cutValue_conc w h.hL]

/-! ### The bound on the iterations does not influence the result -/

theorem passLoop_mono {max0 max1 : Int} {k : Nat} : ∀ {f f' : Nat} {st r : PassState},
    passLoop max0 max1 k f st = .ok r → f ≤ f' → passLoop max0 max1 k f' st = .ok r := by
  intro f
  induction f with
  | zero => intro f' st r h _; cases h
  | succ f ih =>
    intro f' st r h hf
    cases f' with
    | zero => omega
    | succ f' =>
      unfold passLoop at h ⊢
      rw [bind_eq_ok] at h
      obtain ⟨⟨d, gs⟩, h1, h⟩ := h
      rw [h1]; simp only [ok_bind] at h ⊢
      split
      · rename_i hc
        rw [if_pos hc, bind_eq_ok] at h
        obtain ⟨st', h2, h3⟩ := h
        rw [h2]; simp only [ok_bind]
        exact ih h3 (by omega)
      · rename_i hc
        rw [if_neg hc] at h
        exact h

theorem balanceLoop_mono {part : Int} {maxw : W2} : ∀ {f f' : Nat}
    {st r : GainStructure × W2 × Int × Rng},
    balanceLoop part maxw f st = .ok r → f ≤ f' → balanceLoop part maxw f' st = .ok r := by
  intro f
  induction f with
  | zero => intro f' st r h _; cases h
  | succ f ih =>
    rintro f' ⟨gs, w, cut, rng⟩ r h hf
    cases f' with
    | zero => omega
    | succ f' =>
      unfold balanceLoop at h ⊢
      rw [bind_eq_ok] at h
      obtain ⟨wp, h1, h⟩ := h
      rw [h1]; simp only [ok_bind]
      rw [bind_eq_ok] at h
      obtain ⟨mp, h2, h⟩ := h
      rw [h2]; simp only [ok_bind]
      split
      · rename_i hc
        rw [if_pos hc, bind_eq_ok] at h
        obtain ⟨⟨d, gs1⟩, h3, h⟩ := h
        rw [h3]; simp only [ok_bind] at h ⊢
        split
        · rename_i hd; rw [if_pos hd] at h; exact h
        · rename_i hd
          rw [if_neg hd, bind_eq_ok] at h
          obtain ⟨⟨v, gs2, r2⟩, h4, h⟩ := h
          rw [h4]; simp only [ok_bind] at h ⊢
          cases v with
          | none => exact h
          | some v =>
            simp only at h ⊢
            rw [bind_eq_ok] at h
            obtain ⟨x, h5, h⟩ := h
            rw [h5]; simp only [ok_bind]
            rw [bind_eq_ok] at h
            obtain ⟨wo, h6, h⟩ := h
            rw [h6]; simp only [ok_bind]
            rw [bind_eq_ok] at h
            obtain ⟨mo, h7, h⟩ := h
            rw [h7]; simp only [ok_bind]
            split
            · rename_i hr
              rw [if_pos hr, bind_eq_ok] at h
              obtain ⟨⟨g, gs3⟩, h8, h⟩ := h
              rw [h8]; simp only [ok_bind] at h ⊢
              cases g with
              | none => exact h
              | some g =>
                simp only at h ⊢
                rw [bind_eq_ok] at h
                obtain ⟨w1, h9, h⟩ := h
                rw [h9]; simp only [ok_bind]
                rw [bind_eq_ok] at h
                obtain ⟨w2, h10, h⟩ := h
                rw [h10]; simp only [ok_bind]
                rw [bind_eq_ok] at h
                obtain ⟨gs4, h11, h⟩ := h
                rw [h11]; simp only [ok_bind]
                exact ih h (by omega)
            · rename_i hr
              rw [if_neg hr, bind_eq_ok] at h
              obtain ⟨gs3, h8, h⟩ := h
              rw [h8]; simp only [ok_bind]
              exact ih h (by omega)
      · rename_i hc
        rw [if_neg hc] at h
        exact h

theorem KLFMPass_mono {f f' : Nat} {H : Hypergraph} {C : List Cnt} {cut : Int} {w : W2}
    {max0 max1 : Int} {k : Nat} {rng : Rng} {r : PassResult}
    (h : KLFMPass f H C cut w max0 max1 k rng = .ok r) (hf : f ≤ f') :
    KLFMPass f' H C cut w max0 max1 k rng = .ok r := by
  unfold KLFMPass at h ⊢
  rw [bind_eq_ok] at h
  obtain ⟨gs, h1, h⟩ := h
  rw [h1]; simp only [ok_bind]
  rw [bind_eq_ok] at h
  obtain ⟨st, h2, h⟩ := h
  rw [passLoop_mono h2 hf]; simp only [ok_bind]
  exact h

theorem makeBalanced_mono {f f' : Nat} {H : Hypergraph} {C : List Cnt} {cut : Int} {w : W2}
    {max0 max1 : Int} {rng : Rng} {r : PassResult}
    (h : makeBalanced f H C cut w max0 max1 rng = .ok r) (hf : f ≤ f') :
    makeBalanced f' H C cut w max0 max1 rng = .ok r := by
  unfold makeBalanced at h ⊢
  rw [bind_eq_ok] at h
  obtain ⟨gs, h1, h⟩ := h
  rw [h1]; simp only [ok_bind] at h ⊢
  rw [bind_eq_ok] at h
  obtain ⟨⟨a, b, c, d⟩, h2, h⟩ := h
  rw [balanceLoop_mono h2 hf]; simp only [ok_bind]
  exact h

theorem klfmLoop_mono {f f' : Nat} {max0 max1 : Int} {k : Nat} (hf : f ≤ f') :
    ∀ {n : Nat} {p r : PassResult}, klfmLoop f max0 max1 k n p = .ok r →
      klfmLoop f' max0 max1 k n p = .ok r := by
  intro n
  induction n with
  | zero => intro p r h; exact h
  | succ n ih =>
    intro p r h
    unfold klfmLoop at h ⊢
    rw [bind_eq_ok] at h
    obtain ⟨q, h1, h⟩ := h
    rw [KLFMPass_mono h1 hf]; simp only [ok_bind]
    split
    · rename_i hc; rw [if_pos hc] at h; exact ih h
    · rename_i hc; rw [if_neg hc] at h; exact h

theorem KLFM_mono {f f' : Nat} {H : Hypergraph} {C : List Cnt} {w : W2} {max0 max1 : Int}
    {opts : Options} {rng : Rng} {c : Option Int} {r : PassResult}
    (h : KLFM f H C w max0 max1 opts rng c = .ok r) (hf : f ≤ f') :
    KLFM f' H C w max0 max1 opts rng c = .ok r := by
  unfold KLFM at h ⊢
  rw [bind_eq_ok] at h
  obtain ⟨prev, h1, h⟩ := h
  rw [h1]; simp only [ok_bind]
  rw [bind_eq_ok] at h
  obtain ⟨H1, h2, h⟩ := h
  rw [h2]; simp only [ok_bind]
  rw [bind_eq_ok] at h
  obtain ⟨p, h3, h⟩ := h
  have h3' : runIf (w.w0 > max0 ∨ w.w1 > max1) (makeBalanced f' H1 C prev w max0 max1 rng)
      { cut := prev, H := H1, C, w, rng } = .ok p := by
    unfold runIf at h3 ⊢
    split
    · rename_i hc; rw [if_pos hc] at h3; exact makeBalanced_mono h3 hf
    · rename_i hc; rw [if_neg hc] at h3; exact h3
  rw [h3']; simp only [ok_bind]
  exact klfmLoop_mono hf h

end PMondriaan

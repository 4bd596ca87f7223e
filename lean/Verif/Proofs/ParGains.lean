import Verif.Proofs.ParFull
import Verif.Props.Refine

/-
The gains kept by the processors are gains in the whole hypergraph.
-/

namespace PMondriaan

open Spec

section
variable {N : Nat} {Hs : List Hypergraph} (D : Distributed N Hs) {P : Nat → Int}
  {L : Nat → Nat → List Nat} (hL : ∀ t, t < Hs.length → PinsPerm (hAt Hs t) (L t))

include D hL in
theorem cutNet_concs {Q Q' : Nat → Int} (hQ : ∀ t, t < Hs.length → ∀ u, IsVertex (hAt Hs t) u → Q' u = Q u) :
    cutNet Q' (unionH N (concs Hs P L)).nets = cutNet Q (unionH N Hs).nets := by
  unfold cutNet
  have hn : ∀ Gs : List Hypergraph, (unionH N Gs).nets = (List.range N).map (unionNet Gs) := fun _ => rfl
  rw [hn, hn, List.map_map, List.map_map]
  congr 1
  apply List.map_congr_left
  intro e _
  simp only [Function.comp_apply]
  have hc : (unionNet (concs Hs P L) e).cost = (unionNet Hs e).cost := unionCost_concs D hL e
  have hp := unionPins_concs (P := P) hL e
  have hiff : IsCut Q' (unionNet (concs Hs P L) e) ↔ IsCut Q (unionNet Hs e) := by
    have hval : ∀ u, u ∈ unionPins Hs e → Q' u = Q u := by
      intro u hu
      obtain ⟨t, ht, hv⟩ := unionPins_vertex D hu
      exact hQ t ht u hv
    constructor
    · rintro ⟨a, ha, b, hb, hab⟩
      have ha : a ∈ unionPins Hs e := hp.mem_iff.1 ha
      have hb : b ∈ unionPins Hs e := hp.mem_iff.1 hb
      refine ⟨a, ha, b, hb, ?_⟩
      rwa [hval a ha, hval b hb] at hab
    · rintro ⟨a, ha, b, hb, hab⟩
      refine ⟨a, hp.mem_iff.2 ha, b, hp.mem_iff.2 hb, ?_⟩
      rwa [hval a ha, hval b hb]
  rw [hc]
  by_cases h : IsCut Q (unionNet Hs e)
  · rw [if_pos h, if_pos (hiff.2 h)]
  · rw [if_neg h, if_neg (fun h' => h (hiff.1 h'))]

include D hL in
/-- A gain computed from global counts is the drop of the global cut. -/
theorem gain_union (h01 : GParts01 Hs P) {t : Nat} (ht : t < Hs.length) {x : Vertex}
    (hx : x ∈ (hAt Hs t).vertices) :
    gainSum (hAt Hs t) (globF Hs P) P x = trueGain (unionH N (concs Hs P L)) x.id := by
  have wU : WF (unionH N Hs) := unionH_wf D
  have hxU : x ∈ (unionH N Hs).vertices := List.mem_flatMap.2 ⟨_, hAt_mem ht, hx⟩
  have hU01 : Parts01 (unionH N Hs) P := by
    intro y hy
    obtain ⟨H, hH, hy⟩ := List.mem_flatMap.1 (show y ∈ Hs.flatMap (·.vertices) from hy)
    exact h01 H hH y hy
  have e1 : gainSum (hAt Hs t) (globF Hs P) P x =
      gainSum (unionH N Hs) (exactF P (pinsOf (unionH N Hs))) P x := by
    unfold gainSum
    congr 1
    apply List.map_congr_left
    intro e he
    obtain ⟨n, hn, hne, -⟩ := (D.wf _ (hAt_mem ht)).inc_net x hx e he
    subst hne
    have hnU : unionNet Hs n.id ∈ (unionH N Hs).nets :=
      List.mem_map_of_mem (List.mem_range.2 (D.ids _ (hAt_mem ht) n hn))
    have h1 : costOf (unionH N Hs) n.id = unionCost Hs n.id := costOf_eq wU hnU
    have h2 : pinsOf (unionH N Hs) n.id = unionPins Hs n.id := pinsOf_eq wU hnU
    rw [costOf_eq (D.wf _ (hAt_mem ht)) hn, h1, unionCost_eq D (hAt_mem ht) hn]
    congr 1
    unfold globF exactF
    rw [h2]
  rw [e1, gainSum_cut wU hU01 (pinsPerm_self wU) hxU]
  unfold trueGain
  have hp : ∀ s, s < Hs.length → ∀ u, IsVertex (hAt Hs s) u →
      partOf (unionH N (concs Hs P L)) u = P u := fun s hs u hu => partOf_concs D hL hs hu
  rw [cutNet_concs D hL hp, cutNet_concs D hL (Q := flip P x.id)]
  intro s hs u hu
  unfold flipped flip upd
  by_cases h : u = x.id
  · subst h
    have h0 := h01 _ (hAt_mem ht) x hx
    have := hp s hs _ hu
    rw [if_pos rfl]
    rw [this]
    rcases h0 with h0 | h0 <;> simp [h0, other]
  · rw [if_neg h, hp s hs u hu]
    simp [h]

end

/-- Building the invariant between two passes from plain assumptions. -/
theorem passInv_of {B : Prop} {N : Nat} {ps : List ParResult}
    (D : Distributed N (ps.map (·.H))) (hb : ∀ q ∈ ps, Bipartitioned q.H)
    (hs : ∀ q ∈ ps, SortedOnPart q.H)
    (hC : ∀ q ∈ ps, GlobalCounts N (ps.map (·.H)) q.H q.C)
    (hL : ∀ q ∈ ps, CountsExact q.H q.L)
    (hcut : ∀ q ∈ ps, q.cut = cutValue .cutNet (unionH N (ps.map (·.H)))) {S : Int}
    (hS : ∀ q ∈ ps, q.w.w0 + q.w.w1 = S)
    (hw : B → ∀ q ∈ ps, q.w = ⟨partWeight (unionH N (ps.map (·.H))) 0,
      partWeight (unionH N (ps.map (·.H))) 1⟩) :
    PassInv B N (ps.map (·.H)) S (cutValue .cutNet (unionH N (ps.map (·.H))))
      (partOf (unionH N (ps.map (·.H)))) ps := by
  set Hs := ps.map (·.H) with hHs
  have hbs : ∀ H ∈ Hs, Bipartitioned H := by
    intro H hH
    obtain ⟨q, hq, rfl⟩ := List.mem_map.1 hH
    exact hb q hq
  have hlen : ps.length = Hs.length := by simp [hHs]
  have hget : ∀ t, t < Hs.length → ∃ a, ps[t]? = some a ∧ a ∈ ps ∧ a.H = hAt Hs t := by
    intro t ht
    have ht' : t < ps.length := by omega
    refine ⟨ps[t], List.getElem?_eq_getElem ht', List.getElem_mem _, ?_⟩
    have := hAt_get ht
    rw [hHs, List.getElem?_map, List.getElem?_eq_getElem ht'] at this
    exact Option.some.inj this
  have : Inhabited ParResult := ⟨⟨0, default, [], [], ⟨0, 0⟩, default⟩⟩
  choose! a hag ham haH using hget
  refine ⟨a, fun t => pinsOf (hAt Hs t), ?_, union_01 D hbs, rfl, ?_⟩
  · apply List.ext_getElem?
    intro k
    by_cases hk : k < Hs.length
    · rw [rangeMap_get hk, hag k hk]
    · simp [hk, hlen]
  · intro t ht
    have wt := D.wf _ (hAt_mem ht)
    have hbt := hbs _ (hAt_mem ht)
    refine ⟨by rw [haH t ht, conc_union D ht], pinsPerm_self wt, ?_, ?_, ?_, hcut _ (ham t ht),
      hS _ (ham t ht), ?_⟩
    · have := hs _ (ham t ht)
      rw [haH t ht] at this
      have h1 := allSplit_self wt hbt this
      intro n hn
      obtain ⟨z, o, hzo, hz, ho⟩ := h1 n hn
      have hag : ∀ u ∈ pinsOf (hAt Hs t) n.id, partOf (hAt Hs t) u = partOf (unionH N Hs) u := by
        intro u hu
        obtain ⟨v, hv, rfl, -⟩ := wt.inc_vtx n hn u (by rw [pinsOf_eq wt hn] at hu; exact hu)
        exact agree_union D ht _ (List.mem_map_of_mem hv)
      refine ⟨z, o, hzo, fun u hu => ?_, fun u hu => ?_⟩
      · rw [← hag u (by rw [hzo]; simp [hu])]; exact hz u hu
      · rw [← hag u (by rw [hzo]; simp [hu])]; exact ho u hu
    · have := hC _ (ham t ht)
      rw [haH t ht] at this
      rw [this]; rfl
    · have := hL _ (ham t ht)
      rw [haH t ht] at this
      rw [counts_self wt this]
      exact cOf_congr (fun n hn => exactF_congrP wt (pinsPerm_self wt) (agree_union D ht) hn)
    · intro hB
      rw [hw hB _ (ham t ht)]
      have e : ∀ q, partWeight (unionH N Hs) q = gw Hs (partOf (unionH N Hs)) q := by
        intro q
        have := partWeight_concs (N := N) (Hs := Hs) (P := partOf (unionH N Hs))
          (L := fun t => pinsOf (hAt Hs t)) q
        rwa [concs_union D] at this
      rw [e, e]

end PMondriaan

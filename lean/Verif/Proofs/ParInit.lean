import Verif.Proofs.ParUpdateC

/-
`init_cost_my_nets` and `init_previous_C`: what the owners know before the first round.
-/

namespace PMondriaan

open Spec

theorem loc_inj {np : NetPart} {p N : Nat} (hv : np.Valid p N) {a b : Nat} (ha : a < N) (hb : b < N)
    (ho : np.owner a = np.owner b) (hl : np.loc a = np.loc b) : a = b := by
  rw [← hv.glob_loc a ha, ← hv.glob_loc b hb, ho, hl]

theorem ownedL_congr {β : Type} {np : NetPart} {p N : Nat} (hv : np.Valid p N) {t : Nat} (ht : t < p)
    {f g : Nat → β} (h : ∀ e, e < N → np.owner e = t → f e = g e) : ownedL np t f = ownedL np t g := by
  unfold ownedL
  apply List.map_congr_left
  intro i hi
  have hi := List.mem_range.1 hi
  exact h _ (hv.glob_lt t ht i hi) (hv.owner_glob t ht i hi)

theorem ownedL_replicate {β : Type} (np : NetPart) (t : Nat) (z : β) :
    List.replicate (np.count t) z = ownedL np t (fun _ => z) := by
  unfold ownedL
  rw [List.map_const', List.length_range]

/-- A vector at the owner filled by puts. -/
theorem puts_fold {β : Type} {np : NetPart} {p N : Nat} (hv : np.Valid p N) {t : Nat} (ht : t < p)
    (val : Nat → β) (z : β) (msgs : List (Nat × β))
    (hm : ∀ m ∈ msgs, ∃ e, e < N ∧ np.owner e = t ∧ m = (np.loc e, val e))
    (hz : ∀ e, e < N → np.owner e = t → np.loc e ∉ msgs.map (·.1) → val e = z) :
    msgs.foldlM (fun (a : List β) (m : Nat × β) => vset a m.1 m.2) (List.replicate (np.count t) z) =
      .ok (ownedL np t val) := by
  obtain ⟨st, h1, h2⟩ := foldlM_inv (f := fun (a : List β) (m : Nat × β) => vset a m.1 m.2)
    (fun pre _ a => a = ownedL np t (fun e => if np.loc e ∈ pre.map (·.1) then val e else z)) msgs
    (List.replicate (np.count t) z) (by rw [ownedL_replicate]; simp) (by
      rintro pre m post a rfl hl
      obtain ⟨e, he, rfl, rfl⟩ := hm m (by rw [hl]; simp)
      rw [ownedL_vset hv _ he]
      refine ⟨_, rfl, ?_⟩
      apply ownedL_congr hv ht
      intro x hx hxo
      simp only [List.map_append, List.map_cons, List.map_nil, List.mem_append, List.mem_singleton]
      by_cases hxe : x = e
      · subst hxe
        simp
      · rw [upd_other _ _ hxe]
        have : np.loc x ≠ np.loc e := fun h => hxe (loc_inj hv hx he hxo h)
        simp only [this, or_false])
  rw [h1, h2]
  congr 1
  apply ownedL_congr hv ht
  intro e he ho
  split
  · rfl
  · rename_i hn
    exact (hz e he ho hn).symm

theorem conc_nets_map {β : Type} (H : Hypergraph) (P : Nat → Int) (L : Nat → List Nat)
    (f : Net → β) (hf : ∀ n : Net, ∀ l, f { n with vertices := l } = f n) :
    (conc H P L).nets.map f = H.nets.map f := by
  unfold conc
  simp only [List.map_map]
  apply List.map_congr_left
  intro n _
  exact hf n _

theorem unionCost_none {Hs : List Hypergraph} {e : Nat}
    (h : ∀ H ∈ Hs, e ∉ H.nets.map (·.id)) : unionCost Hs e = 0 := by
  unfold unionCost
  cases hf : (Hs.flatMap (·.nets)).find? (fun n => n.id == e) with
  | none => rfl
  | some n =>
    obtain ⟨H, hH, hn⟩ := List.mem_flatMap.1 (List.mem_of_find?_eq_some hf)
    have : n.id = e := by simpa using List.find?_some hf
    exact absurd (this ▸ List.mem_map_of_mem hn) (h H hH)

theorem unionPins_none {Hs : List Hypergraph} (w : ∀ H ∈ Hs, WF H) {e : Nat}
    (h : ∀ H ∈ Hs, e ∉ H.nets.map (·.id)) : unionPins Hs e = [] := by
  rw [unionPins_eq w, List.flatMap_eq_nil_iff]
  intro H hH
  exact pinsOf_absent (h H hH)

/-- The list of hypergraphs on the functional view. -/
def concs (Hs : List Hypergraph) (P : Nat → Int) (L : Nat → Nat → List Nat) : List Hypergraph :=
  (List.range Hs.length).map (fun t => conc (hAt Hs t) P (L t))

/-- `init_cost_my_nets`. -/
theorem initCostMyNets_ok {N : Nat} {Hs : List Hypergraph} {np : NetPart} (b : ParBase N Hs np)
    {dc : Delivery (Nat × Int)} {dp : Delivery (Nat × Nat)} (hdc : Fair dc) (hdp : Fair dp)
    (P : Nat → Int) (L : Nat → Nat → List Nat) :
    ∃ procs own, initCostMyNets dc dp np (concs Hs P L) = .ok own ∧ OwnSpec N Hs np procs own := by
  have hlen : (concs Hs P L).length = Hs.length := by simp [concs]
  have hid : ∀ s, s < Hs.length → ∀ n ∈ (hAt Hs s).nets, n.id < N := fun s hs n hn =>
    b.D.ids _ (hAt_mem hs) n hn
  -- what is sent
  let puts : Nat → List (Nat × (Nat × Int)) := fun s =>
    (hAt Hs s).nets.map (fun n => (np.owner n.id, (np.loc n.id, n.cost)))
  let outs : Nat → List (Nat × (Nat × Nat)) := fun s =>
    (hAt Hs s).nets.map (fun n => (np.owner n.id, (n.id, s)))
  have hputs : (concs Hs P L).mapM (costPuts Hs.length np) = .ok ((List.range Hs.length).map puts) := by
    unfold concs
    rw [List.mapM_map]
    apply mapM_ok
    intro s hs
    have hs := List.mem_range.1 hs
    simp only [Function.comp_apply]
    unfold costPuts
    rw [mapM_ok (g := fun n => (np.owner n.id, (np.loc n.id, n.cost)))]
    · rw [conc_nets_map]; intros; rfl
    · intro n hn
      obtain ⟨n', hn', rfl⟩ := List.mem_map.1 hn
      unfold send
      rw [if_pos (b.hv.owner_lt _ (hid s hs n' hn'))]
  have houts : ((concs Hs P L).zipIdx).mapM (fun x => procSends Hs.length np x.2 x.1) =
      .ok ((List.range Hs.length).map outs) := by
    have : (concs Hs P L).zipIdx = (List.range Hs.length).map (fun t => (conc (hAt Hs t) P (L t), t)) := by
      apply List.ext_getElem?
      intro k
      by_cases hk : k < Hs.length
      · rw [rangeMap_get hk, List.getElem?_zipIdx]
        unfold concs
        rw [rangeMap_get hk]; simp
      · simp [concs, hk]
    rw [this, List.mapM_map]
    apply mapM_ok
    intro s hs
    have hs := List.mem_range.1 hs
    simp only [Function.comp_apply]
    unfold procSends
    rw [mapM_ok (g := fun n => (np.owner n.id, (n.id, s)))]
    · rw [conc_nets_map]; intros; rfl
    · intro n hn
      obtain ⟨n', hn', rfl⟩ := List.mem_map.1 hn
      unfold send
      rw [if_pos (b.hv.owner_lt _ (hid s hs n' hn'))]
  let procs : Nat → List Nat := fun e =>
    ((inbox dp ((List.range Hs.length).map outs) (np.owner e)).filter (fun m => m.1 = e)).map (·.2)
  refine ⟨procs, (List.range Hs.length).map (fun t =>
    { costs := ownedL np t (unionCost Hs), procs := ownedL np t procs }), ?_, rfl, ?_⟩
  · unfold initCostMyNets
    simp only [hlen]
    rw [hputs]; simp only [ok_bind]
    rw [houts]; simp only [ok_bind]
    apply mapM_ok
    intro t ht
    have ht := List.mem_range.1 ht
    rw [puts_fold b.hv ht (unionCost Hs) 0]
    · simp only [ok_bind]
      obtain ⟨st, h1, h2⟩ := foldlM_inv (f := fun (a : List (List Nat)) (m : Nat × Nat) => do
          let l ← vget a (np.loc m.1)
          vset a (np.loc m.1) (l ++ [m.2]))
        (fun pre _ a => a = ownedL np t (fun e => (pre.filter (fun m => m.1 = e)).map (·.2)))
        (inbox dp ((List.range Hs.length).map outs) t) (List.replicate (np.count t) [])
        (by rw [ownedL_replicate]; rfl) (by
          rintro pre m post a rfl hl
          have hmem : m ∈ inbox dp ((List.range Hs.length).map outs) t := by rw [hl]; simp
          obtain ⟨o, ho, hmo⟩ := (mem_inbox hdp).1 hmem
          obtain ⟨s, hs, rfl⟩ := List.mem_map.1 ho
          have hs := List.mem_range.1 hs
          obtain ⟨n, hn, heq⟩ := List.mem_map.1 hmo
          simp only [Prod.mk.injEq] at heq
          obtain ⟨rfl, rfl⟩ := heq
          have he := hid s hs n hn
          simp only
          rw [ownedL_vget b.hv _ he]; simp only [ok_bind]
          rw [ownedL_vset b.hv _ he]
          refine ⟨_, rfl, ?_⟩
          congr 1
          funext e
          rw [List.filter_append, List.map_append]
          by_cases hee : e = n.id
          · subst hee
            simp
          · rw [upd_other _ _ hee]
            simp [Ne.symm hee])
      rw [h1, h2]; simp only [ok_bind, pure_eq_ok]
      congr 2
      apply ownedL_congr b.hv ht
      intro e he ho
      simp only [procs]
      rw [ho]
    · intro m hm
      obtain ⟨o, ho, hmo⟩ := (mem_inbox hdc).1 hm
      obtain ⟨s, hs, rfl⟩ := List.mem_map.1 ho
      have hs := List.mem_range.1 hs
      obtain ⟨n, hn, heq⟩ := List.mem_map.1 hmo
      simp only [Prod.mk.injEq] at heq
      obtain ⟨h1, rfl⟩ := heq
      exact ⟨n.id, hid s hs n hn, h1, by rw [unionCost_eq b.D (hAt_mem hs) hn]⟩
    · intro e he ho hn
      apply unionCost_none
      intro H hH hmem
      obtain ⟨s, hs, rfl⟩ := mem_hAt hH
      obtain ⟨n, hn', hne⟩ := List.mem_map.1 hmem
      have hne : n.id = e := hne
      subst hne
      apply hn
      refine List.mem_map.2 ⟨(np.loc n.id, n.cost), (mem_inbox hdc).2 ⟨_, List.mem_map_of_mem
        (List.mem_range.2 hs), ?_⟩, rfl⟩
      exact List.mem_map.2 ⟨n, hn', by rw [ho]⟩
  · intro e he r
    simp only [procs, List.mem_map, List.mem_filter, decide_eq_true_eq]
    constructor
    · rintro ⟨⟨e', r'⟩, ⟨hm, rfl⟩, rfl⟩
      obtain ⟨o, ho, hmo⟩ := (mem_inbox hdp).1 hm
      obtain ⟨s, hs, rfl⟩ := List.mem_map.1 ho
      have hs := List.mem_range.1 hs
      obtain ⟨n, hn, heq⟩ := List.mem_map.1 hmo
      simp only [Prod.mk.injEq] at heq
      obtain ⟨_, h2, rfl⟩ := heq
      exact ⟨hs, n, hn, h2⟩
    · rintro ⟨hr, n, hn, rfl⟩
      refine ⟨(n.id, r), ⟨(mem_inbox hdp).2 ⟨_, List.mem_map_of_mem (List.mem_range.2 hr), ?_⟩, rfl⟩, rfl⟩
      exact List.mem_map.2 ⟨n, hn, rfl⟩

/-- `init_previous_C`. -/
theorem initPreviousC_ok {N : Nat} {Hs : List Hypergraph} {np : NetPart} (b : ParBase N Hs np)
    {procs : Nat → List Nat} {own : List OwnerData} (ho : OwnSpec N Hs np procs own)
    {d : Delivery (Nat × Cnt)} (hd : Fair d) (P : Nat → Int) (L : Nat → Nat → List Nat) :
    initPreviousC d np ((List.range Hs.length).map (fun t =>
        (conc (hAt Hs t) P (L t), cOf (hAt Hs t) (globF Hs P)))) own =
      .ok ((List.range Hs.length).map (fun t =>
        (ownedL np t (globF Hs P), ownCut np t (globF Hs P) (unionCost Hs)))) := by
  have hid : ∀ s, s < Hs.length → ∀ n ∈ (hAt Hs s).nets, n.id < N := fun s hs n hn =>
    b.D.ids _ (hAt_mem hs) n hn
  let puts : Nat → List (Nat × (Nat × Cnt)) := fun s =>
    (hAt Hs s).nets.map (fun n => (np.owner n.id, (np.loc n.id, globF Hs P n.id)))
  unfold initPreviousC
  simp only [List.length_map, List.length_range]
  have hputs : ((List.range Hs.length).map (fun t =>
        (conc (hAt Hs t) P (L t), cOf (hAt Hs t) (globF Hs P)))).mapM
        (fun x => countPuts Hs.length np x.1 x.2) = .ok ((List.range Hs.length).map puts) := by
    rw [List.mapM_map]
    apply mapM_ok
    intro s hs
    have hs := List.mem_range.1 hs
    simp only [Function.comp_apply]
    unfold countPuts cOf
    have hz : ((hAt Hs s).nets.map (fun n => globF Hs P n.id)).zipIdx =
        (hAt Hs s).nets.zipIdx.map (fun x => (globF Hs P x.1.id, x.2)) := by
      rw [List.zipIdx_map]; rfl
    rw [hz, List.mapM_map]
    apply mapM_zipIdx_map (g := fun n : Net => (np.owner n.id, (np.loc n.id, globF Hs P n.id)))
    intro i n hi
    simp only [Function.comp_apply]
    rw [vget_ok (a := { n with vertices := L s n.id })]
    · simp only [ok_bind]
      unfold send
      rw [if_pos (b.hv.owner_lt _ (hid s hs n (List.mem_of_getElem? hi)))]
    · unfold conc
      simp [hi]
  rw [hputs]; simp only [ok_bind]
  apply mapM_ok
  intro t ht
  have ht := List.mem_range.1 ht
  rw [ho.eq, vget_ok (rangeMap_get ht _)]; simp only [ok_bind]
  rw [puts_fold b.hv ht (globF Hs P) ⟨0, 0⟩]
  · simp only [ok_bind, pure_eq_ok]
    rw [ownedCut_eq]
  · intro m hm
    obtain ⟨o, ho, hmo⟩ := (mem_inbox hd).1 hm
    obtain ⟨s, hs, rfl⟩ := List.mem_map.1 ho
    have hs := List.mem_range.1 hs
    obtain ⟨n, hn, heq⟩ := List.mem_map.1 hmo
    simp only [Prod.mk.injEq] at heq
    obtain ⟨h1, rfl⟩ := heq
    exact ⟨n.id, hid s hs n hn, h1, rfl⟩
  · intro e he hoe hn
    have : unionPins Hs e = [] := by
      apply unionPins_none b.D.wf
      intro H hH hmem
      obtain ⟨s, hs, rfl⟩ := mem_hAt hH
      obtain ⟨n, hn', hne⟩ := List.mem_map.1 hmem
      have hne : n.id = e := hne
      subst hne
      apply hn
      refine List.mem_map.2 ⟨(np.loc n.id, globF Hs P n.id), (mem_inbox hd).2 ⟨_, List.mem_map_of_mem
        (List.mem_range.2 hs), ?_⟩, rfl⟩
      exact List.mem_map.2 ⟨n, hn', by rw [hoe]⟩
    unfold globF exactF
    rw [this]; rfl

/-! ### The cut of the whole hypergraph -/

/-- The counts say whether the net is cut. -/
theorem globCut_iff {Hs : List Hypergraph} (w : ∀ H ∈ Hs, WF H) {P : Nat → Int}
    (h01 : GParts01 Hs P) (e : Nat) : (globF Hs P e).cut = true ↔ IsCut P (unionNet Hs e) := by
  have hpin : ∀ u ∈ unionPins Hs e, P u = 0 ∨ P u = 1 := by
    intro u hu
    rw [unionPins_eq w] at hu
    obtain ⟨H, hH, hu⟩ := List.mem_flatMap.1 hu
    by_cases he : e ∈ H.nets.map (·.id)
    · obtain ⟨n, hn, hne⟩ := List.mem_map.1 he
      have hne : n.id = e := hne
      subst hne
      rw [pinsOf_eq (w H hH) hn] at hu
      obtain ⟨x, hx, rfl, -⟩ := (w H hH).inc_vtx n hn u hu
      exact h01 H hH x hx
    · rw [pinsOf_absent he] at hu; cases hu
  unfold IsCut unionNet globF exactF Cnt.cut
  simp only [Bool.not_eq_true', decide_eq_false_iff_not, not_or, Nat.cast_eq_zero, ← ne_eq,
    ← Nat.pos_iff_ne_zero, List.countP_pos_iff, decide_eq_true_eq]
  constructor
  · rintro ⟨⟨a, ha, h0⟩, b, hb, h1⟩
    exact ⟨a, ha, b, hb, by omega⟩
  · rintro ⟨a, ha, b, hb, hab⟩
    rcases hpin a ha with h | h <;> rcases hpin b hb with h' | h'
    · omega
    · exact ⟨⟨a, ha, h⟩, b, hb, h'⟩
    · exact ⟨⟨b, hb, h'⟩, a, ha, h⟩
    · omega

/-- The owners' shares add up to the cut of the whole hypergraph. -/
theorem ownCut_sum {N : Nat} {Hs : List Hypergraph} {np : NetPart} (b : ParBase N Hs np)
    {P : Nat → Int} (h01 : GParts01 Hs P) :
    ((List.range Hs.length).map (fun t => ownCut np t (globF Hs P) (unionCost Hs))).sum =
      cutNet P (unionH N Hs).nets := by
  have h1 := b.hv.sum (fun e => if (globF Hs P e).cut then unionCost Hs e else 0)
  unfold ownCut
  rw [h1]
  unfold cutNet unionH Hypergraph.create
  simp only [List.map_map]
  congr 1
  apply List.map_congr_left
  intro e he
  simp only [Function.comp_apply]
  have := globCut_iff b.D.wf h01 e
  by_cases h : IsCut P (unionNet Hs e)
  · rw [if_pos (this.2 h), if_pos h]; rfl
  · rw [if_neg (fun hc => h (this.1 hc)), if_neg h]

end PMondriaan

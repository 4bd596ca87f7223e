import Verif.Proofs.ParPass
import Verif.Props.Container

/-
`KLFM_par` as a whole, and what its result means for the distributed hypergraph.
-/

namespace PMondriaan

open Spec

namespace Spec

/-- `C` holds, for every net of the processor, the number of pins in part 0 and in part 1 over all
processors. -/
def GlobalCounts (N : Nat) (Hs : List Hypergraph) (H : Hypergraph) (C : List Cnt) : Prop :=
  C = H.nets.map (fun n => ⟨pinCount (partOf (unionH N Hs)) (unionNet Hs n.id) 0,
    pinCount (partOf (unionH N Hs)) (unionNet Hs n.id) 1⟩)

end Spec

/-! ### The distributed hypergraph on the functional view -/

section
variable {N : Nat} {Hs : List Hypergraph} (D : Distributed N Hs) {P : Nat → Int}
  {L : Nat → Nat → List Nat} (hL : ∀ t, t < Hs.length → PinsPerm (hAt Hs t) (L t))

theorem mem_concs {H : Hypergraph} (h : H ∈ concs Hs P L) :
    ∃ t, t < Hs.length ∧ H = conc (hAt Hs t) P (L t) := by
  obtain ⟨t, ht, rfl⟩ := List.mem_map.1 h
  exact ⟨t, List.mem_range.1 ht, rfl⟩

theorem flatMap_hAt {β : Type} (Hs : List Hypergraph) (f : Hypergraph → List β) :
    Hs.flatMap f = (List.range Hs.length).flatMap (fun t => f (hAt Hs t)) := by
  rw [List.flatMap_def, List.flatMap_def, map_hAt]

include D hL in
theorem distributed_concs : Distributed N (concs Hs P L) where
  wf := by
    intro H hH
    obtain ⟨t, ht, rfl⟩ := mem_concs hH
    exact conc_wf (D.wf _ (hAt_mem ht)) P (L t) (hL t ht)
  disjoint := by
    have := D.disjoint
    rw [flatMap_hAt, List.map_flatMap] at this
    unfold concs
    rw [List.flatMap_map, List.map_flatMap]
    convert this using 2
    funext t
    rw [conc_vids]
  ids := by
    intro H hH n hn
    obtain ⟨t, ht, rfl⟩ := mem_concs hH
    simp only [conc, List.mem_map] at hn
    obtain ⟨m, hm, rfl⟩ := hn
    exact D.ids _ (hAt_mem ht) m hm
  costs := by
    intro H hH H' hH' n hn n' hn' he
    obtain ⟨t, ht, rfl⟩ := mem_concs hH
    obtain ⟨t', ht', rfl⟩ := mem_concs hH'
    simp only [conc, List.mem_map] at hn hn'
    obtain ⟨m, hm, rfl⟩ := hn
    obtain ⟨m', hm', rfl⟩ := hn'
    exact D.costs _ (hAt_mem ht) _ (hAt_mem ht') m hm m' hm' he

include hL in
theorem unionPins_concs (e : Nat) : (unionPins (concs Hs P L) e).Perm (unionPins Hs e) := by
  unfold unionPins
  rw [flatMap_hAt Hs]
  unfold concs
  rw [List.flatMap_map]
  apply List.Perm.flatMap_left
  intro t ht
  have ht := List.mem_range.1 ht
  have : ((conc (hAt Hs t) P (L t)).nets.filter (fun n => n.id = e)) =
      ((hAt Hs t).nets.filter (fun n => n.id = e)).map (fun n => { n with vertices := L t n.id }) := by
    unfold conc
    simp only [List.filter_map]
    rfl
  rw [this, List.flatMap_map]
  apply List.Perm.flatMap_left
  intro n hn
  exact hL t ht n (List.mem_of_mem_filter hn)

include D hL in
theorem unionCost_concs (e : Nat) : unionCost (concs Hs P L) e = unionCost Hs e := by
  by_cases h : ∃ t, t < Hs.length ∧ e ∈ (hAt Hs t).nets.map (·.id)
  · obtain ⟨t, ht, he⟩ := h
    obtain ⟨n, hn, hne⟩ := List.mem_map.1 he
    have hne : n.id = e := hne
    subst hne
    rw [unionCost_eq D (hAt_mem ht) hn]
    have hm : conc (hAt Hs t) P (L t) ∈ concs Hs P L := List.mem_map_of_mem (List.mem_range.2 ht)
    have hn' : { n with vertices := L t n.id } ∈ (conc (hAt Hs t) P (L t)).nets := by
      simp only [conc, List.mem_map]
      exact ⟨n, hn, rfl⟩
    have := unionCost_eq (distributed_concs D hL) hm hn'
    exact this
  · rw [unionCost_none, unionCost_none]
    · intro H hH he
      obtain ⟨t, ht, rfl⟩ := mem_hAt hH
      exact h ⟨t, ht, he⟩
    · intro H hH he
      obtain ⟨t, ht, rfl⟩ := mem_concs hH
      rw [conc_nids] at he
      exact h ⟨t, ht, he⟩

include D hL in
theorem partOf_concs {t : Nat} (ht : t < Hs.length) {u : Nat} (hu : IsVertex (hAt Hs t) u) :
    partOf (unionH N (concs Hs P L)) u = P u := by
  obtain ⟨x, hx, hxu⟩ := List.mem_map.1 hu
  have hxu : x.id = u := hxu
  subst hxu
  have hm : conc (hAt Hs t) P (L t) ∈ concs Hs P L := List.mem_map_of_mem (List.mem_range.2 ht)
  have hx' : { x with part := P x.id } ∈ (conc (hAt Hs t) P (L t)).vertices := by
    simp only [conc, List.mem_map]
    exact ⟨x, hx, rfl⟩
  have := partOf_union (distributed_concs D hL) hm hx'
  rw [(conc_wf (D.wf _ (hAt_mem ht)) P (L t) (hL t ht)).partOf_eq hx'] at this
  exact this

include D in
theorem unionPins_vertex {e u : Nat} (h : u ∈ unionPins Hs e) :
    ∃ t, t < Hs.length ∧ IsVertex (hAt Hs t) u := by
  obtain ⟨H, hH, n, hn, -, hu⟩ := mem_unionPins.1 h
  obtain ⟨t, ht, rfl⟩ := mem_hAt hH
  obtain ⟨v, hv, rfl, -⟩ := (D.wf _ hH).inc_vtx n hn u hu
  exact ⟨t, ht, List.mem_map_of_mem hv⟩

include D hL in
theorem cutValue_concs : cutValue .cutNet (unionH N (concs Hs P L)) = cutNet P (unionH N Hs).nets := by
  unfold cutValue cutNet
  simp only
  have hn : ∀ Gs : List Hypergraph, (unionH N Gs).nets = (List.range N).map (unionNet Gs) := fun _ => rfl
  rw [hn, hn, List.map_map, List.map_map]
  congr 1
  apply List.map_congr_left
  intro e _
  simp only [Function.comp_apply]
  have hc : (unionNet (concs Hs P L) e).cost = (unionNet Hs e).cost := unionCost_concs D hL e
  have hp := unionPins_concs (P := P) hL e
  have hiff : IsCut (partOf (unionH N (concs Hs P L))) (unionNet (concs Hs P L) e) ↔
      IsCut P (unionNet Hs e) := by
    have hval : ∀ u, u ∈ unionPins Hs e → partOf (unionH N (concs Hs P L)) u = P u := by
      intro u hu
      obtain ⟨t, ht, hv⟩ := unionPins_vertex D hu
      exact partOf_concs D hL ht hv
    constructor
    · rintro ⟨a, ha, b, hb, hab⟩
      have ha : a ∈ unionPins Hs e := hp.mem_iff.1 ha
      have hb : b ∈ unionPins Hs e := hp.mem_iff.1 hb
      refine ⟨a, ha, b, hb, ?_⟩
      rwa [hval a ha, hval b hb] at hab
    · rintro ⟨a, ha, b, hb, hab⟩
      refine ⟨a, hp.mem_iff.2 ha, b, hp.mem_iff.2 hb, ?_⟩
      rwa [hval a ha, hval b hb]
  rw [hc]
  by_cases h : IsCut P (unionNet Hs e)
  · rw [if_pos h, if_pos (hiff.2 h)]
  · rw [if_neg h, if_neg (fun h' => h (hiff.1 h'))]

include D hL in
theorem globalCounts_concs (t : Nat) :
    GlobalCounts N (concs Hs P L) (conc (hAt Hs t) P (L t)) (cOf (hAt Hs t) (globF Hs P)) := by
  unfold GlobalCounts cOf conc
  simp only [List.map_map]
  apply List.map_congr_left
  intro n _
  simp only [Function.comp_apply]
  have hp := unionPins_concs (P := P) hL n.id
  have : ∀ z : Int, pinCount (partOf (unionH N (concs Hs P L))) (unionNet (concs Hs P L) n.id) z =
      (unionPins Hs n.id).countP (fun u => P u = z) := by
    intro z
    unfold pinCount unionNet
    simp only
    rw [hp.countP_eq]
    apply List.countP_congr
    intro u hu
    obtain ⟨t, ht, hv⟩ := unionPins_vertex D hu
    rw [partOf_concs D hL ht hv]
  unfold globF exactF
  rw [this 0, this 1]

theorem partWeight_sum (N : Nat) (Hs : List Hypergraph) (q : Int) :
    partWeight (unionH N Hs) q = (Hs.map (fun H => partWeight H q)).sum := by
  unfold unionH partWeight Hypergraph.create
  simp only
  induction Hs with
  | nil => rfl
  | cons H Hs ih => simp [List.filter_append, ih]

theorem partWeight_concs (q : Int) : partWeight (unionH N (concs Hs P L)) q = gw Hs P q := by
  rw [partWeight_sum]
  unfold concs gw
  rw [List.map_map]
  congr 1
  apply List.map_congr_left
  intro t _
  exact partWeight_conc _ _ _

end

/-! ### The given hypergraph -/

theorem agree_union {N : Nat} {Hs : List Hypergraph} (D : Distributed N Hs) {t : Nat}
    (ht : t < Hs.length) : ∀ u, IsVertex (hAt Hs t) u → partOf (hAt Hs t) u = partOf (unionH N Hs) u := by
  intro u hu
  obtain ⟨x, hx, hxu⟩ := List.mem_map.1 hu
  have hxu : x.id = u := hxu
  subst hxu
  exact (partOf_union D (hAt_mem ht) hx).symm

theorem conc_union {N : Nat} {Hs : List Hypergraph} (D : Distributed N Hs) {t : Nat}
    (ht : t < Hs.length) :
    conc (hAt Hs t) (partOf (unionH N Hs)) (pinsOf (hAt Hs t)) = hAt Hs t := by
  rw [← conc_congrP _ (agree_union D ht)]
  exact conc_self (D.wf _ (hAt_mem ht))

theorem concs_union {N : Nat} {Hs : List Hypergraph} (D : Distributed N Hs) :
    concs Hs (partOf (unionH N Hs)) (fun t => pinsOf (hAt Hs t)) = Hs := by
  conv_rhs => rw [← List.map_id Hs, map_hAt]
  unfold concs
  apply List.map_congr_left
  intro t ht
  exact conc_union D (List.mem_range.1 ht)

theorem union_01 {N : Nat} {Hs : List Hypergraph} (D : Distributed N Hs)
    (hb : ∀ H ∈ Hs, Bipartitioned H) : GParts01 Hs (partOf (unionH N Hs)) := by
  intro H hH x hx
  rw [partOf_union D hH hx]
  exact parts01_self (D.wf H hH) (hb H hH) x hx

theorem metrics_union {N : Nat} {Hs : List Hypergraph} (D : Distributed N Hs)
    (hb : ∀ H ∈ Hs, Bipartitioned H) (m : Metric) :
    cutValue m (unionH N Hs) = cutValue .cutNet (unionH N Hs) := by
  cases m with
  | cutNet => rfl
  | lambdaMinusOne =>
    unfold cutValue lambdaMinusOne cutNet
    simp only
    congr 1
    apply List.map_congr_left
    intro n hn
    obtain ⟨e, -, rfl⟩ := List.mem_map.1 (show n ∈ (List.range N).map (unionNet Hs) from hn)
    apply metrics_agree
    intro u hu
    obtain ⟨t, ht, hv⟩ := unionPins_vertex D (show u ∈ unionPins Hs e from hu)
    obtain ⟨x, hx, hxu⟩ := List.mem_map.1 hv
    have hxu : x.id = u := hxu
    rw [← hxu]
    exact union_01 D hb _ (hAt_mem ht) x hx

/-! ### `KLFM_par` -/

/-- Every message of `KLFM_par` arrives exactly once; the sorts permute. -/
structure ParFair (e : ParEnv) : Prop where
  so : ∀ l, (e.so l).Perm l
  cut : Fair e.dCut
  cost : Fair e.dCost
  proc : Fair e.dProc
  pass : ∀ i, PassFair (e.pass i)

theorem KLFMPar_out {B E A : Prop} {N : Nat} {args : List ParArgs} {e : ParEnv} {max0 max1 : Int}
    {fuel rounds : Nat} (c : ParCtx B E A N (args.map (·.H)) e.np max0 max1 fuel rounds) (he : ParFair e)
    (hb : ∀ H ∈ args.map (·.H), Bipartitioned H)
    (hC : ∀ a ∈ args, GlobalCounts N (args.map (·.H)) a.H a.C) {S : Int}
    (hS : ∀ a ∈ args, a.w.w0 + a.w.w1 = S)
    (hE : E → Calm A (args.map (·.H)) max0 max1 ∨
      (SameWeights (args.map (·.H)) ∧ ∀ i, SameOrder (e.pass i)))
    (hw : E → ∀ a ∈ args, a.w = ⟨partWeight (unionH N (args.map (·.H))) 0,
      partWeight (unionH N (args.map (·.H))) 1⟩)
    (hbd : A → ∀ a ∈ args, a.w.w0 ≤ max0 ∧ a.w.w1 ≤ max1)
    (opts : Options) {cut : Option Int}
    (hcut : ∀ x, cut = some x → x = cutValue .cutNet (unionH N (args.map (·.H)))) :
    Outcome B (KLFMPar rounds fuel e args max0 max1 opts cut) (fun ps' => ∃ cut' P',
      PassInv E N (args.map (·.H)) S cut' P' ps' ∧
        cut' ≤ cutValue .cutNet (unionH N (args.map (·.H))) ∧
        (A → ∀ q ∈ ps', q.w.w0 ≤ max0 ∧ q.w.w1 ≤ max1) ∧
        (B → args ≠ [] → ParPassRun N (args.map (·.H)) max0 max1 opts.klfmParSendMoves
          opts.klfmMaxPasses (partOf (unionH N (args.map (·.H)))) P')) := by
  set Hs := args.map (·.H) with hHs
  set P := partOf (unionH N Hs) with hP
  have D := c.b.D
  have hlen : args.length = Hs.length := by simp [hHs]
  have h01 : GParts01 Hs P := union_01 D hb
  have hstart : startCutPar e Hs opts.metric cut =
      .ok (Hs.map (fun _ => cutValue .cutNet (unionH N Hs))) := by
    cases cut with
    | none =>
      unfold startCutPar
      rw [cutsizePar_ok D c.b.hv he.cut he.so, metrics_union D hb]
    | some x => rw [hcut x rfl]; rfl
  unfold KLFMPar
  rw [← hHs, hstart]; simp only [ok_bind]
  have : Inhabited ParArgs := ⟨⟨default, [], ⟨0, 0⟩, default⟩⟩
  have hget : ∀ t, t < Hs.length → ∃ a, args[t]? = some a ∧ a ∈ args ∧ a.H = hAt Hs t := by
    intro t ht
    have ht' : t < args.length := by omega
    refine ⟨args[t], List.getElem?_eq_getElem ht', List.getElem_mem _, ?_⟩
    have := hAt_get ht
    rw [hHs, List.getElem?_map, List.getElem?_eq_getElem ht'] at this
    exact Option.some.inj this
  choose! a hag ham haH using hget
  have hsort : ∀ t, t < Hs.length → ∃ L', (hAt Hs t).sortVerticesOnPart
      (cOf (hAt Hs t) (exactF P (pinsOf (hAt Hs t)))) = .ok (conc (hAt Hs t) P L') ∧
      PinsPerm (hAt Hs t) L' ∧ AllSplit (hAt Hs t) P L' := by
    intro t ht
    have := sortVerticesOnPart_conc (D.wf _ (hAt_mem ht)) (h01 _ (hAt_mem ht))
      (pinsPerm_self (D.wf _ (hAt_mem ht)))
    rwa [conc_union D ht] at this
  choose! L hLs hLp hLa using hsort
  rw [hlen, mapM_ok (g := fun t => ParResult.mk (cutValue .cutNet (unionH N Hs))
    (conc (hAt Hs t) P (L t)) (a t).C (cOf (hAt Hs t) (exactF P (L t))) (a t).w (a t).rng) _ (by
      intro t ht
      have ht := List.mem_range.1 ht
      rw [vget_ok (hag t ht)]; simp only [ok_bind]
      rw [vget_ok (a := cutValue .cutNet (unionH N Hs)) (by
        rw [List.getElem?_map, hAt_get ht]; rfl)]
      simp only [ok_bind]
      rw [haH t ht]
      obtain ⟨C, h1, h2⟩ := initCounts_ok (D.wf _ (hAt_mem ht)) (hb _ (hAt_mem ht))
      have h3 : C = cOf (hAt Hs t) (exactF P (pinsOf (hAt Hs t))) := by
        rw [counts_self (D.wf _ (hAt_mem ht)) h2]
        exact cOf_congr (fun n hn => exactF_congrP (D.wf _ (hAt_mem ht))
          (pinsPerm_self (D.wf _ (hAt_mem ht))) (agree_union D ht) hn)
      rw [h1]; simp only [ok_bind]
      rw [h3, hLs t ht]; simp only [ok_bind, pure_eq_ok]
      have : cOf (hAt Hs t) (exactF P (pinsOf (hAt Hs t))) = cOf (hAt Hs t) (exactF P (L t)) :=
        cOf_congr (fun n hn => (locF_exact (D.wf _ (hAt_mem ht)) (hLp t ht) hn))
      rw [this])]
  simp only [ok_bind]
  have hmapH : ((List.range Hs.length).map (fun t => ParResult.mk (cutValue .cutNet (unionH N Hs))
      (conc (hAt Hs t) P (L t)) (a t).C (cOf (hAt Hs t) (exactF P (L t))) (a t).w (a t).rng)).map (·.H) = concs Hs P L := by
    rw [List.map_map]; rfl
  obtain ⟨procs, own, ho1, ho2⟩ := initCostMyNets_ok c.b he.cost he.proc P L
  rw [hmapH, ho1]; simp only [ok_bind]
  have hconcs := concs_union D
  have hpin : ∀ t, t < Hs.length → PinsPerm (hAt Hs t) (pinsOf (hAt Hs t)) :=
    fun t ht => pinsPerm_self (D.wf _ (hAt_mem ht))
  have hcv : cutValue .cutNet (unionH N Hs) = cutNet P (unionH N Hs).nets := rfl
  obtain ⟨ps0, hps0⟩ : ∃ ps0 : List ParResult, ps0 = (List.range Hs.length).map (fun t =>
      ParResult.mk (cutValue .cutNet (unionH N Hs)) (conc (hAt Hs t) P (L t)) (a t).C
        (cOf (hAt Hs t) (exactF P (L t))) (a t).w (a t).rng) := ⟨_, rfl⟩
  have hbd0 : A → ∀ q ∈ ps0, q.w.w0 ≤ max0 ∧ q.w.w1 ≤ max1 := by
    intro h q hq
    rw [hps0] at hq
    obtain ⟨t, ht, rfl⟩ := List.mem_map.1 hq
    exact hbd h _ (ham t (List.mem_range.1 ht))
  have key : PassInv E N Hs S (cutValue .cutNet (unionH N Hs)) P ps0 → Outcome B
      (parPasses rounds fuel opts.klfmParSendMoves e.pass e.np max0 max1 own opts.klfmMaxPasses 0 ps0)
      (fun ps' => ∃ cut' P', PassInv E N Hs S cut' P' ps' ∧
        cut' ≤ cutValue .cutNet (unionH N Hs) ∧
        (A → ∀ q ∈ ps', q.w.w0 ≤ max0 ∧ q.w.w1 ≤ max1) ∧ (B → args ≠ [] →
          ParPassRun N Hs max0 max1 opts.klfmParSendMoves opts.klfmMaxPasses P P')) := by
    intro hP
    rcases parPasses_out c ho2 he.pass hE opts.klfmParSendMoves opts.klfmMaxPasses 0 hP
      hbd0 with ⟨ps', h0, cut', P', h1, h2, hb', h3⟩ | h
    · refine Or.inl ⟨ps', h0, cut', P', h1, h2, hb', fun hB hne => h3 hB ?_⟩
      rw [hHs]; simpa using hne
    · exact Or.inr h
  rw [← hps0]
  refine key ⟨_, L, hps0, h01, hcv, ?_⟩
  intro t ht
  refine ⟨rfl, hLp t ht, hLa t ht, ?_, rfl, rfl, hS _ (ham t ht), fun e => ?_⟩
  · simp only
    have h1 := hC _ (ham t ht)
    have h2 := globalCounts_concs (P := P) D hpin t
    rw [hconcs, conc_union D ht] at h2
    rw [haH t ht] at h1
    rw [h1, h2]
  · simp only
    rw [hw e _ (ham t ht)]
    have := fun q => partWeight_concs (N := N) (Hs := Hs) (P := P) (L := fun t => pinsOf (hAt Hs t)) q
    rw [hconcs] at this
    rw [this 0, this 1]

end PMondriaan

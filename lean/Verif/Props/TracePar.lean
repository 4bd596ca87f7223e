import Verif.Props.KLFMPar
import Verif.Spec.TracePar

/-
Property C78: the course of the parallel refinement.
-/

namespace PMondriaan

open Spec

/-! ### Facts about the runs of the specification -/

/-- What the rounds keep is the best of the assignments after the rounds, the latest of these if there
are several. -/
theorem parRun_best {N : Nat} {Hs : List Hypergraph} {max0 max1 : Int} {K : Nat} {A P B : Nat → Int}
    {vs : List (Nat → Int)} {ls : Nat → List Nat} {fin : Nat → Bool}
    (h : ParRun N Hs max0 max1 K A P B vs ls fin) :
    vs.head? = some P ∧ vs.getLast? = some A ∧
    (∀ V ∈ vs, cutNet B (unionH N Hs).nets ≤ cutNet V (unionH N Hs).nets) ∧
    ∃ n, vs[n]? = some B ∧
      ∀ V ∈ vs.take n, cutNet B (unionH N Hs).nets < cutNet V (unionH N Hs).nets := by
  induction h with
  | start => exact ⟨rfl, rfl, by simp, 0, by simp⟩
  | @round P B vs ls fin P' ls' fin' ms _ _ _ _ _ ih =>
    obtain ⟨h1, h2, h3, n, h4, h5⟩ := ih
    refine ⟨rfl, ?_, ?_, ?_⟩
    · rw [List.getLast?_cons, h2]; rfl
    · intro V hV
      rcases List.mem_cons.1 hV with rfl | hV
      · split <;> omega
      · have := h3 V hV
        split <;> omega
    · by_cases hlt : cutNet B (unionH N Hs).nets < cutNet P' (unionH N Hs).nets
      · rw [if_pos hlt]
        refine ⟨n + 1, by simpa using h4, ?_⟩
        intro V hV
        rw [List.take_succ_cons] at hV
        rcases List.mem_cons.1 hV with rfl | hV
        · exact hlt
        · exact h5 V hV
      · rw [if_neg hlt]
        exact ⟨0, by simp⟩

/-- A search proposes at most `K` moves, of distinct vertices of the processor that were not locked,
each with a gain that is not negative; moved vertices are locked. -/
theorem topRun_moves {gain : (Nat → Int) → Nat → Int} {H : Hypergraph} {max0 max1 : Int} {K : Nat}
    {A : Nat → Int} {a : W2} {l0 : List Nat} {P : Nat → Int} {w : W2} {ms : List MoveP}
    {l : List Nat} (h : TopRun gain H max0 max1 K A a l0 P w ms l) :
    ms.length ≤ K ∧ (ms.map (·.v)).Nodup ∧ (∀ v ∈ l0, v ∈ l) ∧
    ∀ m ∈ ms, IsVertex H m.v ∧ m.v ∉ l0 ∧ m.v ∈ l ∧ 0 ≤ m.gain := by
  induction h with
  | start => simp
  | @move P w ms l x _ hk hb _ hg _ ih =>
    obtain ⟨h1, h2, h3, h4⟩ := ih
    refine ⟨by simp; omega, ?_, fun v hv => by simp [h3 v hv], ?_⟩
    · rw [List.map_append]
      refine List.nodup_append.2 ⟨h2, by simp, ?_⟩
      intro u hu u' hu' he
      simp only [List.map_cons, List.map_nil, List.mem_singleton] at hu'
      obtain ⟨m, hm, rfl⟩ := List.mem_map.1 hu
      have := (h4 m hm).2.2.1
      rw [he, hu'] at this
      exact hb.2.1 this
    · intro m hm
      rcases List.mem_append.1 hm with hm | hm
      · obtain ⟨h5, h6, h7, h8⟩ := h4 m hm
        exact ⟨h5, h6, by simp [h7], h8⟩
      · rw [List.mem_singleton.1 hm]
        exact ⟨List.mem_map_of_mem hb.1, fun hx => hb.2.1 (h3 _ hx), by simp, hg⟩
  | @lock P w ms l x _ hk hb _ hg _ ih =>
    obtain ⟨h1, h2, h3, h4⟩ := ih
    refine ⟨h1, h2, fun v hv => by simp [h3 v hv], ?_⟩
    intro m hm
    obtain ⟨h5, h6, h7, h8⟩ := h4 m hm
    exact ⟨h5, h6, by simp [h7], h8⟩

/-! ### C78 -/

theorem gw_union {N : Nat} {Hs : List Hypergraph} (D : Distributed N Hs) (p : Int) :
    gw Hs (partOf (unionH N Hs)) p = partWeight (unionH N Hs) p := by
  have := partWeight_concs (N := N) (Hs := Hs) (P := partOf (unionH N Hs))
    (L := fun t => pinsOf (hAt Hs t)) p
  rw [concs_union D] at this
  exact this.symm

/-- C78, the search for moves in the first round of a pass, for all bounds on the weights: every
processor follows a complete search of the specification with the true gains in the whole
hypergraph. -/
theorem C78_search {N : Nat} {np : NetPart} {ps : List ParResult} (hi : PassInput N np ps)
    {fuel : Nat} (hf : ∀ q ∈ ps, q.H.vertices.length < fuel) (max0 max1 : Int) (K : Nat)
    {d : Delivery (Nat × Cnt)} (hd : Fair d)
    {dc : Delivery (Nat × Int)} (hdc : Fair dc) {dp : Delivery (Nat × Nat)} (hdp : Fair dp)
    {own : List OwnerData} (ho : initCostMyNets dc dp np (ps.map (·.H)) = .ok own) :
    ∃ qs, parStart d np own ps = .ok qs ∧ qs.length = ps.length ∧
      ∀ (t : Nat) (p : ParResult) (q : ProcState), ps[t]? = some p → qs[t]? = some q → ∀ r : Rng,
        ∃ st l, topLoop max0 max1 K fuel
            { gs := q.u.gs, L := q.L, moves := [], w := q.w, rng := r } = .ok st ∧
          TopFound (gainAt (unionH N (ps.map (·.H)))) p.H max0 max1 K
            (partOf (unionH N (ps.map (·.H))))
            ⟨partWeight (unionH N (ps.map (·.H))) 0, partWeight (unionH N (ps.map (·.H))) 1⟩ []
            st.moves l ∧
          ∀ v, IsVertex p.H v → partOf st.gs.H v =
            if v ∈ st.moves.map (·.v) then 1 - partOf (unionH N (ps.map (·.H))) v
            else partOf (unionH N (ps.map (·.H))) v := by
  set Hs := ps.map (·.H) with hHs
  have b := hi.base
  have D : Distributed N Hs := hi.dist
  obtain ⟨procs, own', h1, ho'⟩ := initCostMyNets_ok b hdc hdp (partOf (unionH N Hs))
    (fun t => pinsOf (hAt Hs t))
  rw [concs_union hi.dist, ho] at h1
  rw [← Except.ok.inj h1] at ho'
  have hP := passInv_of (B := True) hi.dist hi.bip hi.sorted hi.counts hi.localCounts hi.cut
    (passInput_total hi) (fun _ => hi.weights)
  have hc : ∀ H ∈ Hs, CostsNonneg H := List.forall_mem_map.2 hi.costs
  obtain ⟨M, q, n, hs, hM, hq, -⟩ := parStart_proc (B := True) (A := False) (max0 := max0) (max1 := max1) b hc ho'
    hd hP (fun a => a.elim)
  refine ⟨_, hs, by simp, ?_⟩
  intro t p q' hp hq' r
  have ht : t < Hs.length := by
    have := (List.getElem?_eq_some_iff.1 hp).1
    simpa [hHs] using this
  rw [rangeMap_get ht] at hq'
  rw [← Option.some.inj hq']
  have hpH : p.H = hAt Hs t := by
    have h1 := hAt_get ht
    rw [hHs, List.getElem?_map, hp] at h1
    exact Option.some.inj h1
  obtain ⟨L, G, hu, hl, -, -, -, -, -, -, hwB, -, hlk⟩ := hq t ht
  have h01 : GParts01 Hs (partOf (unionH N Hs)) := by
    obtain ⟨_, _, -, h, -⟩ := hP
    exact h
  have wt := D.wf _ (hAt_mem ht)
  rw [hpH]
  rcases findTop_ok (B := True) wt (fun _ => hc _ (hAt_mem ht)) (hM t ht)
    (remF_nonneg D.wf (hAt_mem ht) _) (max0 := max0) (max1 := max1) (K := K) (fun _ => gainsOf_union D h01 ht) hl
    (l0 := []) hlk (fuel := fuel) (by rw [← hpH]; exact hf p (List.mem_of_getElem? hp)) (q t).w r with
    ⟨st, h1, P', L', G', l', hT, hO⟩ | ⟨h, -⟩
  · have hw : (q t).w = ⟨partWeight (unionH N Hs) 0, partWeight (unionH N Hs) 1⟩ := by
      rw [hwB trivial, gw_union D, gw_union D]
    refine ⟨st, l', h1, ⟨P', st.w, ?_, hO trivial⟩, ?_⟩
    · rw [← hw]; exact hT.run trivial
    · intro v hv
      obtain ⟨x, hx, hxv⟩ := List.mem_map.1 hv
      have hxv : x.id = v := hxv
      subst hxv
      rw [hT.l.inv.hH, conc_partOf _ _ hx, hT.hP]
      exact flips_at_nodup hT.nd (h01 _ (hAt_mem ht) x hx)
  · exact absurd trivial h

theorem passInv_partOf {B : Prop} {N : Nat} {Hs : List Hypergraph} {S cut : Int} {P : Nat → Int}
    {ps : List ParResult} (h : PassInv B N Hs S cut P ps) :
    ps.length = Hs.length ∧ (∀ q ∈ ps, q.cut = cutNet P (unionH N Hs).nets) ∧
    ∀ (t : Nat) (H : Hypergraph) (q : ParResult), Hs[t]? = some H → ps[t]? = some q →
      ∀ v, IsVertex H v → partOf q.H v = P v := by
  obtain ⟨r, L, rfl, -, hcut, hr⟩ := h
  refine ⟨by simp, ?_, ?_⟩
  · intro q hq
    obtain ⟨t, ht, rfl⟩ := List.mem_map.1 hq
    rw [(hr t (List.mem_range.1 ht)).2.2.2.2.2.1, hcut]
  · intro t H q hH hq v hv
    have ht : t < Hs.length := (List.getElem?_eq_some_iff.1 hH).1
    rw [rangeMap_get ht] at hq
    rw [hAt_get ht] at hH
    rw [← Option.some.inj hq, (hr t ht).1]
    rw [← Option.some.inj hH] at hv
    obtain ⟨x, hx, hxv⟩ := List.mem_map.1 hv
    have hxv : x.id = v := hxv
    subst hxv
    exact conc_partOf _ _ hx

/-- C78 for one pass, when either part may hold all the weight or there is one processor that starts
within the bounds, and no processor has a net without pins: the pass follows a run of the specification to its end (in each round every processor searches
for moves with the gains in the whole hypergraph, then all the moves are made), and it leaves behind,
on all processors, what the run keeps, together with its cutsize; that is the smallest of all cutsizes
after a round, the latest of these.
Missing: rounds in which moves are rejected (`C78_false`). -/
theorem C78_pass_partial {N : Nat} {np : NetPart} {ps : List ParResult} (hi : PassInput N np ps)
    (hp : ps ≠ []) {fuel rounds : Nat} (hf : ∀ q ∈ ps, q.H.vertices.length < fuel)
    (hr : (ps.map (fun q => q.H.vertices.length)).sum < rounds) {max0 max1 : Int} {K : Nat}
    (hne : ∀ q ∈ ps, ∀ n ∈ q.H.nets, n.vertices ≠ []) (hw : ∀ q ∈ ps, WeightsNonneg q.H)
    (hb : (((unionH N (ps.map (·.H))).vertices.map (·.weight)).sum ≤ max0 ∧
        ((unionH N (ps.map (·.H))).vertices.map (·.weight)).sum ≤ max1) ∨
      (ps.length = 1 ∧ ∀ q ∈ ps, q.w.w0 ≤ max0 ∧ q.w.w1 ≤ max1))
    {pe : PassEnv} (hpe : PassFair pe)
    {dc : Delivery (Nat × Int)} (hdc : Fair dc) {dp : Delivery (Nat × Nat)} (hdp : Fair dp)
    {own : List OwnerData} (ho : initCostMyNets dc dp np (ps.map (·.H)) = .ok own) :
    ∃ qs P B vs ls fin, KLFMPassPar rounds fuel K pe np max0 max1 own ps = .ok qs ∧
      ParRun N (ps.map (·.H)) max0 max1 K (partOf (unionH N (ps.map (·.H)))) P B vs ls fin ∧
      (∀ t, t < ps.length → fin t = true) ∧ qs.length = ps.length ∧
      (∀ q ∈ qs, q.cut = cutNet B (unionH N (ps.map (·.H))).nets) ∧
      (∀ (t : Nat) (p q : ParResult), ps[t]? = some p → qs[t]? = some q →
        ∀ v, IsVertex p.H v → partOf q.H v = B v) ∧
      (∀ V ∈ vs, cutNet B (unionH N (ps.map (·.H))).nets ≤ cutNet V (unionH N (ps.map (·.H))).nets) ∧
      ∃ n, vs[n]? = some B ∧ ∀ V ∈ vs.take n,
        cutNet B (unionH N (ps.map (·.H))).nets < cutNet V (unionH N (ps.map (·.H))).nets := by
  set Hs := ps.map (·.H) with hHs
  have b := hi.base
  obtain ⟨procs, own', h2, ho'⟩ := initCostMyNets_ok b hdc hdp (partOf (unionH N Hs))
    (fun t => pinsOf (hAt Hs t))
  rw [concs_union hi.dist, ho] at h2
  rw [← Except.ok.inj h2] at ho'
  have hP := passInv_of (B := True) hi.dist hi.bip hi.sorted hi.counts hi.localCounts hi.cut
    (passInput_total hi) (fun _ => hi.weights)
  have hcalm := calm_of hw hb
  have c : ParCtx True True (ps.length = 1 ∧ ∀ q ∈ ps, q.w.w0 ≤ max0 ∧ q.w.w1 ≤ max1) N Hs np max0
      max1 fuel rounds :=
    ⟨b, List.forall_mem_map.2 hi.costs, fun _ => List.forall_mem_map.2 hne, id, fun _ => hcalm,
      fun _ => ⟨trivial, List.forall_mem_map.2 hw⟩,
      List.forall_mem_map.2 hf, by rw [hHs, List.map_map]; exact hr⟩
  rcases KLFMPassPar_out c ho' hpe (fun _ => Or.inl hcalm) K hP (fun a => a.2) with
    ⟨qs, h3, cut', P', h4, -, -, h5⟩ | ⟨h, -⟩
  · obtain ⟨P, vs, ls, fin, hrun, hfin⟩ := h5 trivial (by rw [hHs]; simpa using hp)
    obtain ⟨hl, hc, hv⟩ := passInv_partOf h4
    obtain ⟨-, -, hbest, hn⟩ := parRun_best hrun
    refine ⟨qs, P, P', vs, ls, fin, h3, hrun, fun t ht => hfin t (by rw [hHs, List.length_map]; exact ht),
      by rw [hl, hHs, List.length_map], hc, ?_, hbest, hn⟩
    intro t p q hp hq
    exact hv t p.H q (by rw [hHs, List.getElem?_map, hp]; rfl) hq
  · exact absurd trivial h

/-- C78 for `KLFM_par` under the same assumptions: at most `KLFM_max_passes` passes, each from what
the one before kept, and the first that does not lower the cutsize is the last; in every order of
arrival, for every outcome of the sorts and every stream of random numbers.
Missing: rounds in which moves are rejected (`C78_false`). -/
theorem C78_KLFM_par_partial {N : Nat} {e : ParEnv} (he : ParFair e) {args : List ParArgs}
    (hi : ParInput N e.np args) (hp : args ≠ []) {fuel rounds : Nat}
    (hf : ∀ a ∈ args, a.H.vertices.length < fuel)
    (hr : (args.map (fun a => a.H.vertices.length)).sum < rounds) {max0 max1 : Int} (opts : Options)
    {cut : Option Int}
    (hcut : ∀ x, cut = some x → x = cutValue .cutNet (unionH N (args.map (·.H))))
    (hne : ∀ a ∈ args, ∀ n ∈ a.H.nets, n.vertices ≠ []) (hw : ∀ a ∈ args, WeightsNonneg a.H)
    (hb : (((unionH N (args.map (·.H))).vertices.map (·.weight)).sum ≤ max0 ∧
        ((unionH N (args.map (·.H))).vertices.map (·.weight)).sum ≤ max1) ∨
      (args.length = 1 ∧ ∀ a ∈ args, a.w.w0 ≤ max0 ∧ a.w.w1 ≤ max1)) :
    ∃ ps B, KLFMPar rounds fuel e args max0 max1 opts cut = .ok ps ∧
      ParPassRun N (args.map (·.H)) max0 max1 opts.klfmParSendMoves opts.klfmMaxPasses
        (partOf (unionH N (args.map (·.H)))) B ∧ ps.length = args.length ∧
      (∀ q ∈ ps, q.cut = cutNet B (unionH N (args.map (·.H))).nets) ∧
      ∀ (t : Nat) (a : ParArgs) (q : ParResult), args[t]? = some a → ps[t]? = some q →
        ∀ v, IsVertex a.H v → partOf q.H v = B v := by
  have hcalm : Calm (args.length = 1 ∧ ∀ a ∈ args, a.w.w0 ≤ max0 ∧ a.w.w1 ≤ max1) (args.map (·.H))
      max0 max1 := by
    rcases hb with h | h
    · exact Or.inl ⟨List.forall_mem_map.2 hw, h.1, h.2⟩
    · exact Or.inr ⟨h, by rw [List.length_map]; exact h.1⟩
  have c : ParCtx True True (args.length = 1 ∧ ∀ a ∈ args, a.w.w0 ≤ max0 ∧ a.w.w1 ≤ max1) N
      (args.map (·.H)) e.np max0 max1 fuel rounds :=
    ⟨hi.base, List.forall_mem_map.2 hi.costs, fun _ => List.forall_mem_map.2 hne, id, fun _ => hcalm,
      fun _ => ⟨trivial, List.forall_mem_map.2 hw⟩,
      List.forall_mem_map.2 hf, by rw [List.map_map]; exact hr⟩
  have := KLFMPar_out c he (List.forall_mem_map.2 hi.bip) hi.counts (input_total hi)
    (fun _ => Or.inl hcalm) (fun _ => hi.weights) (fun a => a.2) opts hcut
  rcases this with ⟨ps, h1, cut', P', h2, h3, -, h4⟩ | ⟨h, -⟩
  · obtain ⟨hl, hc, hv⟩ := passInv_partOf h2
    refine ⟨ps, P', h1, h4 trivial hp, by rw [hl, List.length_map], hc, ?_⟩
    intro t a q ha hq
    exact hv t a.H q (by rw [List.getElem?_map, ha]; rfl) hq
  · exact absurd trivial h

/-- The searches of the tie example when part 0 may weigh 9 and part 1 may weigh 13: vertex 0 of
weight 5 does not fit, vertex 3 of weight 4 does. -/
example : PassInput 2 (blockPart 2 2) tiePass ∧ ((do
    let own ← initCostMyNets (revDelivery _) (revDelivery _) (blockPart 2 2) (tiePass.map (·.H))
    let qs ← parStart parPass.dInit (blockPart 2 2) own tiePass
    qs.mapM (fun q => topLoop 9 13 2 10
      { gs := q.u.gs, L := q.L, moves := [], w := q.w, rng := fun _ => 0 }) : Res _).toOption.map
        (fun l => l.map (fun st => st.moves))) = some [[], [⟨3, 1, -4⟩]] :=
  ⟨tiePass_input, by decide +kernel⟩

/-- The assumptions of `C78_pass_partial` hold for the tie example, and the pass lowers the cut from 2 to 0. -/
example : PassInput 2 (blockPart 2 2) tiePass ∧ tiePass ≠ [] ∧
    (∀ q ∈ tiePass, q.H.vertices.length < 10) ∧
    (tiePass.map (fun q => q.H.vertices.length)).sum < 10 ∧
    (∀ q ∈ tiePass, ∀ n ∈ q.H.nets, n.vertices ≠ []) ∧
    ((unionH 2 (tiePass.map (·.H))).vertices.map (·.weight)).sum ≤ 18 ∧
    cutValue .cutNet (unionH 2 (tiePass.map (·.H))) = 2 ∧ ((do
      let own ← initCostMyNets (revDelivery _) (revDelivery _) (blockPart 2 2) (tiePass.map (·.H))
      KLFMPassPar 10 10 1 parPass (blockPart 2 2) 18 18 own tiePass : Res _).toOption.map
        (fun l => l.map (fun q => q.cut))) = some [0, 0] := by
  refine ⟨tiePass_input, by simp [tiePass], by decide, by decide, by decide, by decide, by decide,
    by decide +kernel⟩

/-- Two processors with one vertex each, on either side of the only net. -/
def swapArgs : List ParArgs :=
  [⟨Hypergraph.create 2 1 [{ id := 0, nets := [0], weight := 1, part := 0 }]
      [{ id := 0, vertices := [0], cost := 1, globalSize := 2 }], [⟨1, 1⟩], ⟨1, 1⟩, fun _ => 0⟩,
   ⟨Hypergraph.create 2 1 [{ id := 1, nets := [0], weight := 1, part := 1 }]
      [{ id := 0, vertices := [1], cost := 1, globalSize := 2 }], [⟨1, 1⟩], ⟨1, 1⟩, fun _ => 0⟩]

theorem swap_input : ParInput 1 (blockPart 2 1) swapArgs where
  dist := by
    refine ⟨?_, by decide, by decide, by decide⟩
    intro H hH
    simp only [swapArgs, List.map_cons, List.map_nil, List.mem_cons, List.not_mem_nil, or_false] at hH
    rcases hH with rfl | rfl <;>
      exact WF_create (by decide) (by decide) (by decide) (by decide) (by decide) (by decide)
  owners := blockPart_valid 2 1 (by decide)
  sizes := by decide
  costs := by unfold CostsNonneg; decide
  bip := by unfold Bipartitioned; decide
  counts := by unfold GlobalCounts; decide
  weights := by decide

/-- Both processors move with gain 1, the net stays cut: the gains of a round do not add up. -/
example : ParInput 1 (parEnv 1).np swapArgs ∧ swapArgs ≠ [] ∧
    (∀ a ∈ swapArgs, ∀ n ∈ a.H.nets, n.vertices ≠ []) ∧
    ((unionH 1 (swapArgs.map (·.H))).vertices.map (·.weight)).sum ≤ 2 ∧
    gainAt (unionH 1 (swapArgs.map (·.H))) (partOf (unionH 1 (swapArgs.map (·.H)))) 0 = 1 ∧
    gainAt (unionH 1 (swapArgs.map (·.H))) (partOf (unionH 1 (swapArgs.map (·.H)))) 1 = 1 ∧
    cutValue .cutNet (unionH 1 (swapArgs.map (·.H))) = 1 ∧
    (KLFMPar 10 10 (parEnv 1) swapArgs 2 2 (parOpts 1) none).toOption.map
      (fun ps => ps.map (fun q => (q.cut, q.H.vertices.map (·.part)))) =
      some [(1, [1]), (1, [0])] := by
  refine ⟨swap_input, by simp [swapArgs], by decide, by decide, by decide, by decide, by decide,
    by decide +kernel⟩

/-- The example of `C51_ub_stale_gains` as the state before a pass. -/
def stalePass : List ParResult :=
  [⟨346, staleH, [⟨4, 0⟩, ⟨1, 1⟩, ⟨1, 1⟩, ⟨1, 1⟩, ⟨1, 1⟩], [⟨4, 0⟩, ⟨1, 1⟩, ⟨1, 1⟩, ⟨1, 1⟩, ⟨1, 1⟩],
      ⟨37, 250⟩, fun _ => 0⟩,
   ⟨346, staleH', [⟨1, 1⟩, ⟨1, 1⟩, ⟨1, 1⟩], [⟨1, 1⟩, ⟨1, 1⟩, ⟨1, 1⟩], ⟨37, 250⟩, fun _ => 0⟩]

theorem stalePass_input : PassInput 8 (blockPart 2 8) stalePass where
  dist := stale_input.dist
  owners := blockPart_valid 2 8 (by decide)
  sizes := by decide
  costs := by unfold CostsNonneg; decide
  bip := by unfold Bipartitioned; decide
  sorted := by unfold SortedOnPart; decide
  counts := by unfold GlobalCounts; decide
  localCounts := by unfold CountsExact; decide
  cut := by decide
  weights := by decide

/-- The first proposals of the processors after one round, each with the gain recorded and the true
gain. -/
def secondRound (fuel K : Nat) (max0 max1 : Int) (N : Nat)
    (qs : List ProcState) : Res (List (Option (Nat × Int × Int))) :=
  qs.mapM (fun q => do
    let st ← topLoop max0 max1 K fuel { gs := q.u.gs, L := q.L, moves := [], w := q.w, rng := q.rng }
    pure (st.moves.head?.map (fun m => (m.v, m.gain, trueGain (unionH N (qs.map (·.u.gs.H))) m.v))))

/-- C78 is false after a rejection: vertex 0 was proposed, rejected and moved back in the first round,
and in the second round processor 0 proposes vertex 1 with a gain of 12, although moving it lowers
the cut by 2. -/
theorem C78_false : ∃ (N : Nat) (np : NetPart) (ps : List ParResult) (pe : PassEnv) (max0 max1 : Int)
    (own : List OwnerData) (qs : List ProcState) (l : List (Option (Nat × Int × Int))),
    PassInput N np ps ∧ PassFair pe ∧ SortsMoves pe.srt ∧ (∀ q ∈ ps, WeightsNonneg q.H) ∧
    (∀ q ∈ ps, q.w.w0 ≤ max0 ∧ q.w.w1 ≤ max1) ∧
    initCostMyNets (revDelivery _) (revDelivery _) np (ps.map (·.H)) = .ok own ∧
    ParReach 10 1 pe np max0 max1 own ps qs ∧
    secondRound 10 1 max0 max1 N qs = .ok l ∧ l.head? = some (some (1, 12, 2)) := by
  have hd : ((do
      let own ← initCostMyNets (revDelivery _) (revDelivery _) (blockPart 2 8) (stalePass.map (·.H))
      let q0 ← parStart parPass.dInit (blockPart 2 8) own stalePass
      let qs ← parRound 10 1 0 parPass (blockPart 2 8) 40 260 own q0
      secondRound 10 1 40 260 8 qs : Res _).toOption.map (fun l => l.head?)) =
      some (some (some (1, 12, 2))) := by decide +kernel
  cases h1 : initCostMyNets (revDelivery _) (revDelivery _) (blockPart 2 8) (stalePass.map (·.H)) with
  | error e => rw [h1] at hd; simp [Except.toOption] at hd
  | ok own =>
    rw [h1, ok_bind] at hd
    cases h2 : parStart parPass.dInit (blockPart 2 8) own stalePass with
    | error e => rw [h2] at hd; simp [Except.toOption] at hd
    | ok q0 =>
      rw [h2, ok_bind] at hd
      cases h3 : parRound 10 1 0 parPass (blockPart 2 8) 40 260 own q0 with
      | error e => rw [h3] at hd; simp [Except.toOption] at hd
      | ok qs =>
        rw [h3, ok_bind] at hd
        cases h4 : secondRound 10 1 40 260 8 qs with
        | error e => rw [h4] at hd; simp [Except.toOption] at hd
        | ok l =>
          rw [h4] at hd
          exact ⟨8, blockPart 2 8, stalePass, parPass, 40, 260, own, qs, l, stalePass_input,
            parPass_fair, sortMoves_sorts, by unfold WeightsNonneg; decide, by decide, h1,
            .round 0 (.start h2) h3, h4, by simpa [Except.toOption] using hd⟩

end PMondriaan

import Mathlib.Algebra.Order.BigOperators.Group.List
import Verif.Props.BisectPar

/-
Proofs about the levels of the parallel multilevel bisection.
-/

namespace PMondriaan

open Spec

theorem mapM_error {α β : Type} {f : α → Res β} {e : Err} : ∀ {l : List α},
    (∀ x ∈ l, (∃ b, f x = .ok b) ∨ f x = .error e) → (∃ x ∈ l, f x = .error e) → l.mapM f = .error e := by
  intro l
  induction l with
  | nil => rintro _ ⟨x, hx, -⟩; cases hx
  | cons a l ih =>
    intro h ⟨x, hx, he⟩
    rw [List.mapM_cons]
    rcases h a (by simp) with ⟨b, hb⟩ | hb
    · rw [hb, ok_bind, ih (fun y hy => h y (by simp [hy])) ?_, error_bind]
      rcases List.mem_cons.1 hx with rfl | hx
      · rw [hb] at he; cases he
      · exact ⟨x, hx, he⟩
    · rw [hb, error_bind]

theorem agreed_ok {α : Type} [DecidableEq α] {l : List α} (hne : l ≠ []) {a : α} (h : ∀ b ∈ l, b = a) :
    agreed l = .ok a := by
  cases l with
  | nil => exact absurd rfl hne
  | cons b l =>
    obtain rfl := h b (by simp)
    have : l.all (fun x => x = b) = true := by
      rw [List.all_eq_true]
      intro x hx
      exact decide_eq_true (h x (by simp [hx]))
    exact if_pos this

/-- What is assumed of the undetermined parts. -/
structure ParBisectEnvOk {F : Type} (E : ParBisectEnv F) (p N T : Nat) : Prop where
  coarse : ∀ level, CoarseEnvOk (E.coarse level) p N
  accRandom : ∀ level d s, 0 < s → (E.coarse level).accRandom d s s = true
  uncoarse : ∀ level, UncoarseEnvOk (E.uncoarse level) p N
  fuel : ∀ level, T ≤ (E.uncoarse level).fuel
  rounds : ∀ level, T ≤ (E.uncoarse level).rounds
  seq : ∀ t, (E.seq t).Ok N
  seqFuel : ∀ t, T ≤ (E.seq t).fuel
  dVert : Fair E.dVert
  dCost : Fair E.dCost
  dLabel : Fair E.dLabel
  dCut : Fair E.dCut
  orderNets : ∀ l, (E.orderNets l).Perm l
  d1 : Fair E.d1
  d2 : Fair E.d2
  np : E.np.Valid p N
  srt : ∀ l, (E.srt l).Perm l

section

variable {F : Type} {N T : Nat} {Hs : List Hypergraph}

theorem unionH_length (N : Nat) (Hs : List Hypergraph) :
    (unionH N Hs).vertices.length = (Hs.map (fun H => H.vertices.length)).sum := by
  show (Hs.flatMap (·.vertices)).length = _
  rw [List.length_flatMap]

/-! ### One step of the coarsening -/

theorem parLevel_coarse (hL : ParLevel N T Hs) {S : List (List Nat)} {maxC : Nat} {R : List CProc}
    (hR : CoarsenedPar N Hs S maxC R) : ParLevel N T (R.map (·.2)) := by
  have wU := unionH_wf hL.dist
  have hposU : ∀ v ∈ (unionH N Hs).vertices, 0 < v.weight := by
    intro v hv
    obtain ⟨H, hH, hv⟩ := List.mem_flatMap.1 hv
    exact hL.pos H hH v hv
  have hsum : ((R.map (·.2)).map (fun H => H.vertices.length)) = R.map (fun c => c.2.vertices.length) := by
    rw [List.map_map]; rfl
  refine ⟨?_, hR.dist, ?_, ?_, ?_, ?_, ?_⟩
  · intro h
    have h1 := congrArg List.length h
    rw [List.length_map, hR.len] at h1
    exact hL.nonempty (List.length_eq_zero_iff.1 h1)
  · intro K hK n hn
    obtain ⟨c, hc, rfl⟩ := List.mem_map.1 hK
    obtain ⟨h1, -⟩ := hR.localNets c hc n hn
    obtain ⟨u, hu⟩ := List.exists_mem_of_ne_nil _ h1
    have hup : u ∈ unionPins (R.map (·.2)) n.id := mem_unionPins.2 ⟨c.2, hK, n, hn, rfl, hu⟩
    have hmem : unionNet (R.map (·.2)) n.id ∈ (dropEmpty (unionH N (R.map (·.2)))).nets := by
      refine List.mem_filter.2 ⟨List.mem_map.2 ⟨n.id, List.mem_range.2 (hR.dist.ids _ hK n hn), rfl⟩, ?_⟩
      exact decide_eq_true (List.ne_nil_of_mem hup)
    have h2 := hR.contraction.nets.nets.subset (List.mem_map.2 ⟨_, hmem, rfl⟩)
    obtain ⟨m, hm, he⟩ := List.mem_map.1 h2
    obtain ⟨hm1, hm2⟩ := List.mem_filter.1 hm
    have hm2 : 2 ≤ (touched (wholeContraction Hs (R.map (·.1))) m).length := by simpa using hm2
    obtain ⟨i, -, rfl⟩ := List.mem_map.1 hm1
    have hi : i = n.id := congrArg Prod.fst he
    have hcost : unionCost Hs i = unionCost (R.map (·.2)) n.id := congrArg Prod.snd he
    rw [← unionCost_eq hR.dist hK hn, ← hcost]
    obtain ⟨s, hs⟩ := List.exists_mem_of_ne_nil _ (List.ne_nil_of_length_pos (by omega : 0 < (touched
      (wholeContraction Hs (R.map (·.1))) (unionNet Hs i)).length))
    have hs2 := (List.mem_filter.1 hs).2
    obtain ⟨x, hx, -⟩ := of_decide_eq_true hs2
    obtain ⟨H, hH, k, hk, rfl, -⟩ := mem_unionPins.1 hx
    rw [unionCost_eq hL.dist hH hk]
    exact hL.costs H hH k hk
  · intro K hK n hn
    obtain ⟨c, hc, rfl⟩ := List.mem_map.1 hK
    exact (hR.localNets c hc n hn).2
  · intro K hK v hv
    have h1 : v ∈ (dropEmpty (unionH N (R.map (·.2)))).vertices := List.mem_flatMap.2 ⟨K, hK, hv⟩
    have := hR.contraction.vertices.subset (List.mem_append_left _ (List.mem_map.2 ⟨v, h1, rfl⟩))
    obtain ⟨s, hsm, he⟩ := List.mem_map.1 this
    have he2 : clusterWeight (unionH N Hs) (wholeContraction Hs (R.map (·.1))) s = v.weight :=
      congrArg Prod.snd he
    rw [← he2]
    exact clusterWeight_pos wU hR.star hposU hsm
  · intro K hK
    obtain ⟨c, hc, rfl⟩ := List.mem_map.1 hK
    rw [hR.size c hc, hsum]
  · have h1 := hR.contraction.vertices.length_eq
    unfold clusterWeights at h1
    rw [List.length_append, List.length_map, List.length_map] at h1
    have h2 := hR.star.cover.length_eq
    rw [List.length_append, List.length_map, List.length_map, unionH_length] at h2
    have h3 : (dropEmpty (unionH N (R.map (·.2)))).vertices.length =
        ((R.map (·.2)).map (fun H => H.vertices.length)).sum := unionH_length N (R.map (fun c : CProc => c.2))
    have := hL.total
    omega

theorem roomy_coarse (hL : ParLevel N T Hs) {S : List (List Nat)} {maxC : Nat} {R : List CProc}
    (hR : CoarsenedPar N Hs S maxC R) {max0 max1 : Int} (h : Roomy max0 max1 Hs) :
    Roomy max0 max1 (R.map (·.2)) := by
  have hfree : 0 ≤ totalFree R := by
    unfold totalFree
    apply sum_map_nonneg
    intro c hc
    apply sum_map_nonneg
    intro f hf
    have h1 : f ∈ (wholeContraction Hs (R.map (·.1))).free :=
      List.mem_flatMap.2 ⟨c.1, List.mem_map.2 ⟨c, hc, rfl⟩, hf⟩
    have := hR.contraction.vertices.subset (List.mem_append_right _ h1)
    obtain ⟨s, hsm, rfl⟩ := List.mem_map.1 this
    apply le_of_lt
    apply clusterWeight_pos (unionH_wf hL.dist) hR.star _ hsm
    intro v hv
    obtain ⟨H, hH, hv⟩ := List.mem_flatMap.1 hv
    exact hL.pos H hH v hv
  have hw := CoarsenedPar_weight hL.dist hR
  have e1 : (R.map (fun c => allWeight c.2)).sum = ((R.map (·.2)).map allWeight).sum := by
    rw [List.map_map]; rfl
  have h0 := h.le0
  have h1 := h.le1
  refine ⟨?_, by omega, by omega⟩
  intro K hK n hn
  obtain ⟨c, hc, rfl⟩ := List.mem_map.1 hK
  exact (hR.localNets c hc n hn).1

/-- With random sampling a processor without vertices stops the program. -/
theorem coarsenPar_empty {E : CoarseEnv F} {p : Nat} (hE : CoarseEnvOk E p N)
    (hacc : ∀ d s, 0 < s → E.accRandom d s s = true) {opts : Options} (hlp : opts.samplingLp = false)
    (hp : Hs.length = p) (hD : Distributed N Hs) {rngs : List Rng} (hr : rngs.length = p) {H : Hypergraph}
    (hH : H ∈ Hs) (hH0 : H.vertices = []) : coarsenPar E opts Hs rngs = .error .abort := by
  have hempty : ∀ (K : Hypergraph) r, K.vertices = [] → drawSamples E opts K r = .error .abort := by
    intro K r hK
    unfold drawSamples
    rw [hlp]
    exact C24_empty _ hK _ _
  have : (Hs.zip rngs).mapM (fun x => drawSamples E opts x.1 x.2) = .error .abort := by
    apply mapM_error
    · intro x hx
      by_cases hx0 : x.1.vertices = []
      · exact Or.inr (hempty _ _ hx0)
      · left
        obtain ⟨l, r, h1, -⟩ := drawSamples_ok E hE.shuf (hD.wf _ (List.of_mem_zip hx).1)
          (rng := x.2) (Or.inr ⟨hlp, hx0, fun i s hs => hacc _ s hs⟩)
        exact ⟨_, h1⟩
    · obtain ⟨i, hi⟩ := List.getElem?_of_mem hH
      have hil := (List.getElem?_eq_some_iff.1 hi).1
      have hir : i < rngs.length := by omega
      refine ⟨(H, rngs[i]), List.mem_of_getElem? (i := i) ?_, hempty _ _ hH0⟩
      exact List.getElem?_zip_eq_some.2 ⟨hi, List.getElem?_eq_getElem hir⟩
  unfold coarsenPar
  rw [this, error_bind]

/-- The parallel coarsening succeeds, or with random sampling stops because a processor has no vertices. -/
theorem coarsenPar_cases {E : CoarseEnv F} {p : Nat} (hE : CoarseEnvOk E p N)
    (hacc : ∀ d s, 0 < s → E.accRandom d s s = true) (opts : Options) (ho : opts.samplingLp = true → 1 ≤ opts.sampleSize)
    (hp : Hs.length = p) (hD : Distributed N Hs) {rngs : List Rng} (hr : rngs.length = p) :
    (∃ S R rngs', coarsenPar E opts Hs rngs = .ok (R, rngs') ∧ rngs'.length = p ∧
      CoarsenedPar N Hs S opts.maxClustersize R) ∨
    (opts.samplingLp = false ∧ coarsenPar E opts Hs rngs = .error .abort) := by
  cases hlp : opts.samplingLp with
  | true =>
    left
    obtain ⟨S, R, r, h1, h2, -, h3, -⟩ := C47_coarsen_par E hE opts hp hD hr
      (fun _ _ _ _ _ => Or.inl ⟨hlp, ho hlp⟩)
    exact ⟨S, R, r, h1, h2, h3⟩
  | false =>
    by_cases hv : ∀ H ∈ Hs, H.vertices ≠ []
    · left
      obtain ⟨S, R, r, h1, h2, -, h3, -⟩ := C47_coarsen_par E hE opts hp hD hr
        (fun t H r h1 _ => Or.inr ⟨hlp, hv H (List.mem_of_getElem? h1), fun i s hs => hacc _ s hs⟩)
      exact ⟨S, R, r, h1, h2, h3⟩
    · right
      simp only [not_forall, Classical.not_not] at hv
      obtain ⟨H, hH, hH0⟩ := hv
      exact ⟨rfl, coarsenPar_empty hE hacc hlp hp hD hr hH hH0⟩

/-! ### The coarsest level -/

theorem replica_ready (hL : ParLevel N T Hs) (hN : N < 2147483648) {fuel : Nat} (hf : T ≤ fuel)
    {H G : Hypergraph} (hG : Replica Hs H G) : LevelReady fuel G := by
  have hc : ∀ n ∈ G.nets, n.cost = 1 := fun n hn => (C57_costs hL.dist hL.costs hG n hn).1
  have hlen : G.vertices.length = (Hs.map (fun H => H.vertices.length)).sum := by
    have := hG.vertices.length_eq
    rw [List.length_map, List.length_map] at this
    rw [this]
    exact unionH_length N Hs
  have hnl : G.nets.length ≤ N := by
    rw [← List.length_map (f := (·.id)), ← List.length_range (n := N)]
    apply List.Subperm.length_le
    apply List.subperm_of_subset hG.wf.nids
    intro i hi
    obtain ⟨K, hK, hn⟩ := (hG.nets i).1 hi
    obtain ⟨n, hm, rfl⟩ := List.mem_map.1 hn
    exact List.mem_range.2 (hL.dist.ids K hK n hm)
  refine ⟨hG.wf, ?_, ?_, ?_, hG.dups, ?_⟩
  · intro n hn; rw [hc n hn]; omega
  · have : G.nets.map (·.cost) = List.replicate G.nets.length 1 := by
      rw [List.eq_replicate_iff]
      refine ⟨by simp, ?_⟩
      intro c hc'
      obtain ⟨n, hn, rfl⟩ := List.mem_map.1 hc'
      exact hc n hn
    rw [this, List.sum_replicate_int]
    omega
  · intro v hv
    have := hG.vertices.subset (List.mem_map.2 ⟨v, hv, rfl⟩)
    obtain ⟨x, hx, he⟩ := List.mem_map.1 this
    have he : x.weight = v.weight := congrArg (fun y => y.2.1) he
    obtain ⟨K, hK, hx⟩ := List.mem_flatMap.1 hx
    rw [← he]
    exact hL.pos K hK x hx
  · have := hL.total
    omega

theorem cutNet_le_costs (P : Nat → Int) (l : List Net) (h : ∀ n ∈ l, 0 ≤ n.cost) :
    cutNet P l ≤ (l.map (·.cost)).sum := by
  unfold cutNet
  induction l with
  | nil => simp
  | cons n l ih =>
    have h1 := h n (by simp)
    have h2 := ih (fun m hm => h m (by simp [hm]))
    rw [List.map_cons, List.map_cons, List.sum_cons, List.sum_cons]
    split <;> omega

theorem cut_lt_longMax {G R : Hypergraph} {fuel : Nat} (hG : LevelReady fuel G) (hs : SameContent G R) :
    cutValue .cutNet R < longMax := by
  have h1 : (R.nets.map (·.cost)).Perm (G.nets.map (·.cost)) := by
    have := hs.nets.map (·.2)
    rw [List.map_map, List.map_map] at this
    exact this
  have h2 : ∀ n ∈ R.nets, 0 ≤ n.cost := by
    intro n hn
    obtain ⟨m, hm, he⟩ := List.mem_map.1 (h1.subset (List.mem_map.2 ⟨n, hn, rfl⟩))
    have he : m.cost = n.cost := he
    rw [← he]
    exact hG.costs m hm
  have h3 : cutValue .cutNet R ≤ (R.nets.map (·.cost)).sum := cutNet_le_costs _ _ h2
  rw [h1.sum_eq] at h3
  have := hG.total
  unfold longMax
  omega

theorem initialPar_course {E : ParBisectEnv F} {p : Nat} (hp : Hs.length = p) (hE : ParBisectEnvOk E p N T)
    (hL : ParLevel N T Hs) (hN : N < 2147483648) (opts : Options) (max0 max1 : Int) (n : Nat) (rngs : List Rng) :
    ∃ L G, initialPar E opts max0 max1 n Hs rngs = .ok L ∧ LevelBisected N Hs L ∧
      BestCopy E opts max0 max1 n Hs rngs G ∧ cutValue .cutNet (unionH N (L.map (·.1))) = cutValue .cutNet G := by
  obtain ⟨Gs, g1, g2⟩ := C57_replicate_partial hL.dist hE.dVert hE.dCost
  have hrun : ∀ x ∈ Gs.zipIdx, ∃ r, (fun x : Hypergraph × Nat => mlLevel (E.seq x.2) x.2 opts max0 max1 n x.1
      (rngAt rngs x.2)) x = .ok r ∧ r.2.1 = some (cutValue .cutNet r.1) ∧ LevelDone x.1 r.1 := by
    intro x hx
    have hx1 : x.1 ∈ Gs := by
      have := List.mem_map_of_mem (f := Prod.fst) hx
      rwa [List.zipIdx_map_fst] at this
    obtain ⟨H, hH, hG⟩ := forall2_mem_right g2 hx1
    obtain ⟨R, r, h1, h2⟩ := mlLevel_ok (hE.seq x.2) x.2 opts max0 max1 n x.1 (rngAt rngs x.2)
      (replica_ready hL hN (hE.seqFuel x.2) hG)
    exact ⟨_, h1, rfl, h2⟩
  obtain ⟨Rs, r1, r2⟩ := mapM_choose hrun
  have r3 : List.Forall₂ (fun G (r : Hypergraph × Option Int × Rng) =>
      r.2.1 = some (cutValue .cutNet r.1) ∧ LevelDone G r.1) Gs Rs := by
    have := List.forall₂_map_left_iff (R := fun G (r : Hypergraph × Option Int × Rng) =>
      r.2.1 = some (cutValue .cutNet r.1) ∧ LevelDone G r.1) (f := Prod.fst) (l := Gs.zipIdx) (u := Rs)
    rw [List.zipIdx_map_fst] at this
    exact this.2 r2
  have hlenR : Rs.length = Hs.length := by rw [← r3.length_eq, ← g2.length_eq]
  have hB : List.Forall₂ (BisectedCopy Hs) Hs (Rs.map (fun r => (r.1, r.2.1))) := by
    rw [List.forall₂_map_right_iff, List.forall₂_iff_get]
    refine ⟨hlenR.symm, ?_⟩
    intro i h1 h2
    have a1 := (List.forall₂_iff_get.1 g2).2 i h1 (by rw [← g2.length_eq]; exact h1)
    have a2 := (List.forall₂_iff_get.1 r3).2 i (by rw [← g2.length_eq]; exact h1) h2
    exact ⟨⟨_, a1, a2.2.same⟩, a2.2.wf, a2.2.bip, a2.1⟩
  have hlt : ∀ g ∈ Rs.map (fun r => (r.1, r.2.1)), cutValue .cutNet g.1 < longMax := by
    intro g hg
    obtain ⟨r, hr, rfl⟩ := List.mem_map.1 hg
    obtain ⟨G, hG, -, hd⟩ := forall2_mem_right r3 hr
    obtain ⟨H, hH, hrep⟩ := forall2_mem_right g2 hG
    exact cut_lt_longMax (replica_ready hL hN (Nat.le_refl T) hrep) hd.same
  obtain ⟨G, Bs, b0, b1, b2, b3, b4⟩ := C58_choose_best hL.nonempty hL.dist hL.costs hE.dLabel hE.dCut max0 max1 hB hlt
  have hlenB : Bs.length = Hs.length := by
    have := b2.same.length_eq
    rw [List.length_map] at this
    exact this.symm
  have hmap : ((Bs.zip Rs).map (fun x => (x.1.1, x.1.2, x.2.2.2))).map (·.1) = Bs.map (·.1) := by
    rw [List.map_map]
    have : ((fun q : Hypergraph × Option Int × Rng => q.1) ∘ fun x : (Hypergraph × Option Int) ×
        (Hypergraph × Option Int × Rng) => (x.1.1, x.1.2, x.2.2.2)) = (·.1) ∘ (·.1) := rfl
    rw [this, ← List.map_map, List.map_fst_zip (by omega)]
  refine ⟨(Bs.zip Rs).map (fun x => (x.1.1, x.1.2, x.2.2.2)), G, ?_, ⟨?_, ?_, ?_, ?_⟩, ⟨Gs, Rs, g1, g2, r1, ?_, ?_⟩, ?_⟩
  · unfold initialPar
    rw [g1, ok_bind, r1, ok_bind, b1, ok_bind]
    rfl
  · rw [hmap]; exact b2.same
  · rw [hmap]; exact b2.dist
  · intro q hq
    obtain ⟨x, hx, rfl⟩ := List.mem_map.1 hq
    exact b2.bip _ (List.mem_map.2 ⟨x.1, (List.of_mem_zip hx).1, rfl⟩)
  · intro q hq
    obtain ⟨x, hx, rfl⟩ := List.mem_map.1 hq
    rw [hmap, b2.cut]
    exact b3 x.1 (List.of_mem_zip hx).1
  · obtain ⟨g, hg, rfl⟩ := b0
    obtain ⟨r, hr, rfl⟩ := List.mem_map.1 hg
    exact ⟨r, hr, rfl⟩
  · intro B hB'
    exact b4 (B.1, B.2.1) (List.mem_map.2 ⟨B, hB', rfl⟩)
  · rw [hmap, b2.cut]

/-! ### All levels -/

theorem goesOn_agreed (hL : ParLevel N T Hs) (opts : Options) (n : Nat) {g : Bool} {gos : List Bool}
    (hg : gos.length = Hs.length) (hgo : ∀ b ∈ gos, b = g) :
    ∃ go, agreed ((Hs.zip gos).map (fun x => goesOn opts Hs.length n x.1 x.2)) = .ok go ∧
      go = (decide (allSize Hs > max opts.coarseningNrvertices (Hs.length * opts.sampleSize * 3)) && decide (0 < n) && g) := by
  refine ⟨decide ((Hs.map (fun H => H.vertices.length)).sum > max opts.coarseningNrvertices
    (Hs.length * opts.sampleSize * 3)) && decide (0 < n) && g, ?_, rfl⟩
  apply agreed_ok
  · intro h
    have h1 := congrArg List.length h
    rw [List.length_map, List.length_zip, hg, Nat.min_self] at h1
    exact hL.nonempty (List.length_eq_zero_iff.1 h1)
  · intro b hb
    obtain ⟨x, hx, rfl⟩ := List.mem_map.1 hb
    obtain ⟨h1, h2⟩ := List.of_mem_zip hx
    unfold goesOn
    rw [hL.size _ h1, hgo _ h2]

theorem mlPar_course {E : ParBisectEnv F} {p : Nat} (hE : ParBisectEnvOk E p N T) (hN : N < 2147483648)
    (opts : Options) (ho : opts.samplingLp = true → 1 ≤ opts.sampleSize) (max0 max1 : Int) :
    ∀ (n level : Nat) (gos : List Bool) (g : Bool) (Hs : List Hypergraph) (rngs : List Rng), Hs.length = p →
      ParLevel N T Hs → gos.length = p → (∀ b ∈ gos, b = g) → rngs.length = p →
      (∃ L n' Ks rngs' G, mlPar E opts max0 max1 n level gos Hs rngs = .ok L ∧ LevelBisected N Hs L ∧
        DescendsPar E opts n level g Hs rngs n' Ks rngs' ∧ BestCopy E opts max0 max1 n' Ks rngs' G ∧
        cutValue .cutNet (unionH N (L.map (·.1))) ≤ cutValue .cutNet G) ∨
      (¬ Roomy max0 max1 Hs ∧ mlPar E opts max0 max1 n level gos Hs rngs = .error .ub) ∨
      (opts.samplingLp = false ∧ mlPar E opts max0 max1 n level gos Hs rngs = .error .abort) := by
  intro n
  induction n with
  | zero =>
    intro level gos g Hs rngs hp hL hg hgo hr
    left
    obtain ⟨go, h1, -⟩ := goesOn_agreed hL opts 0 (hg.trans hp.symm) hgo
    obtain ⟨L, G, l1, l2, l3, l4⟩ := initialPar_course hp hE hL hN opts max0 max1 0 rngs
    refine ⟨L, 0, Hs, rngs, G, ?_, l2, .stop (Or.inl rfl), l3, le_of_eq l4⟩
    unfold mlPar
    rw [h1, ok_bind, l1]
  | succ n ih =>
    intro level gos g Hs rngs hp hL hg hgo hr
    obtain ⟨go, h1, hgo'⟩ := goesOn_agreed hL opts (n + 1) (hg.trans hp.symm) hgo
    unfold mlPar
    rw [h1, ok_bind]
    cases go with
    | false =>
      left
      obtain ⟨L, G, l1, l2, l3, l4⟩ := initialPar_course hp hE hL hN opts max0 max1 (n + 1) rngs
      refine ⟨L, n + 1, Hs, rngs, G, l1, l2, .stop ?_, l3, le_of_eq l4⟩
      cases g with
      | false => exact Or.inr (Or.inr rfl)
      | true =>
        right; left
        by_contra hc
        have h2 : allSize Hs > max opts.coarseningNrvertices (Hs.length * opts.sampleSize * 3) := by omega
        rw [decide_eq_true h2, decide_eq_true (Nat.succ_pos n)] at hgo'
        cases hgo'
    | true =>
      rw [if_pos rfl]
      obtain ⟨hbig, rfl⟩ : max opts.coarseningNrvertices (Hs.length * opts.sampleSize * 3) < allSize Hs ∧ g = true := by
        simpa using hgo'
      rcases coarsenPar_cases (hE.coarse level) (hE.accRandom level) opts ho hp hL.dist hr with
        ⟨S, R, rngs', c1, c2, hR⟩ | ⟨a1, a2⟩
      swap
      · right; right
        exact ⟨a1, by rw [a2, error_bind]⟩
      simp only [c1, ok_bind]
      have hRl : R.length = Hs.length := hR.len
      have hL' := parLevel_coarse hL hR
      rcases ih (level + 1) ((Hs.zip R).map (fun x => E.ratio x.1.globalSize x.2.2.globalSize))
        (E.ratio (allSize Hs) (allSize (R.map (·.2)))) (R.map (·.2))
        rngs' (by rw [List.length_map, hRl, hp]) hL' (by rw [List.length_map, List.length_zip]; omega)
        (by
          intro b hb
          obtain ⟨x, hx, rfl⟩ := List.mem_map.1 hb
          obtain ⟨h2, h3⟩ := List.of_mem_zip hx
          rw [hL.size _ h2, hL'.size _ (List.mem_map.2 ⟨_, h3, rfl⟩)]
          rfl) c2 with ⟨L, n', Ks, rngs2, G, l1, l2, l3, l4, l5⟩ | ⟨l0, l1⟩ | ⟨l0, l1⟩
      · simp only [l1, ok_bind]
        have hLl : L.length = Hs.length := by
          have := l2.same.length_eq
          rw [List.length_map, List.length_map] at this
          omega
        have hag : agreed (L.map (fun q => q.2.1)) =
            .ok (some (cutValue .cutNet (unionH N (L.map (·.1))))) := by
          apply agreed_ok
          · intro h
            have h1 := congrArg List.length h
            rw [List.length_map, hLl] at h1
            exact hL.nonempty (List.length_eq_zero_iff.1 h1)
          · intro b hb
            obtain ⟨q, hq, rfl⟩ := List.mem_map.1 hb
            exact l2.cut q hq
        simp only [hag, ok_bind]
        have hB : BisectedCoarse N opts.maxClustersize Hs S R (L.map (·.1)) := by
          refine ⟨hL.nonempty, hL.dist, hR, ?_, l2.dist, ?_, hL.pos⟩
          · have := l2.same
            rwa [List.forall₂_map_left_iff] at this
          · intro G hG
            obtain ⟨q, hq, rfl⟩ := List.mem_map.1 hG
            exact l2.bip q hq
        have hT : TrueSizes Hs := ⟨hL.sizes, fun H hH n hn => by rw [hL.costs H hH n hn]; omega⟩
        have htot := hL.total
        rcases C56_step_partial (hp ▸ hE.uncoarse level) hB hT (by
            intro H hH
            have h1 : H.vertices.length ≤ (Hs.map (fun H => H.vertices.length)).sum :=
              List.single_le_sum (by simp) _ (List.mem_map.2 ⟨H, hH, rfl⟩)
            have := hE.fuel level
            omega) (by have := hE.rounds level; omega) max0 max1 opts
            (cut := some (cutValue .cutNet (unionH N (L.map (·.1)))))
            (by intro x hx; exact (Option.some.inj hx).symm) (L.map (fun q => q.2.2)) with ⟨ps, p1, p2, p3⟩ | ⟨p0, p1⟩
        · left
          have hmap : (ps.map (fun q => (q.H, some q.cut, q.rng))).map (·.1) = ps.map (·.H) := by
            rw [List.map_map]; rfl
          refine ⟨ps.map (fun q => (q.H, some q.cut, q.rng)), n', Ks, rngs2, G, by rw [p1, ok_bind]; rfl,
            ⟨?_, ?_, ?_, ?_⟩, .down hbig c1 l3, l4, ?_⟩
          · rw [hmap, List.forall₂_map_right_iff]; exact p2.same
          · rw [hmap]; exact p2.dist
          · intro q hq
            obtain ⟨x, hx, rfl⟩ := List.mem_map.1 hq
            exact p2.bip x hx
          · intro q hq
            obtain ⟨x, hx, rfl⟩ := List.mem_map.1 hq
            rw [hmap]
            exact congrArg some (p2.cut x hx)
          · rw [hmap]
            exact p3.trans l5
        · right; left
          exact ⟨p0, by rw [p1, error_bind]⟩
      · right; left
        exact ⟨fun h => l0 (roomy_coarse hL hR h), by rw [l1, error_bind]⟩
      · right; right
        exact ⟨l0, by rw [l1, error_bind]⟩

theorem mlPar_ok {E : ParBisectEnv F} {p : Nat} (hE : ParBisectEnvOk E p N T) (hN : N < 2147483648)
    (opts : Options) (ho : opts.samplingLp = true → 1 ≤ opts.sampleSize) (max0 max1 : Int)
    (n level : Nat) (gos : List Bool) (Hs : List Hypergraph) (rngs : List Rng) (hp : Hs.length = p)
    (hL : ParLevel N T Hs) (hg : gos.length = p) (hgo : ∃ g, ∀ b ∈ gos, b = g) (hr : rngs.length = p) :
    (∃ L, mlPar E opts max0 max1 n level gos Hs rngs = .ok L ∧ LevelBisected N Hs L) ∨
    (¬ Roomy max0 max1 Hs ∧ mlPar E opts max0 max1 n level gos Hs rngs = .error .ub) ∨
    (opts.samplingLp = false ∧ mlPar E opts max0 max1 n level gos Hs rngs = .error .abort) := by
  obtain ⟨g, hgo⟩ := hgo
  rcases mlPar_course hE hN opts ho max0 max1 n level gos g Hs rngs hp hL hg hgo hr with
    ⟨L, _, _, _, _, h1, h2, -⟩ | h | h
  · exact Or.inl ⟨L, h1, h2⟩
  · exact Or.inr (Or.inl h)
  · exact Or.inr (Or.inr h)

end

end PMondriaan

import Verif.Proofs.Uncoarsen
import Verif.Proofs.InitPart
import Verif.Props.LabelProp

/-
C26, C27: sequential coarsening and uncoarsening.
-/

namespace PMondriaan

open Spec

/-! ### C26 -/

/-- C26: for every hypergraph, every visiting order and whatever the floating-point scores are,
`coarsen_hypergraph_seq` produces a star clustering of the vertices with at most
`coarsening_max_clustersize` vertices matched to each sample; the coarse hypergraph together with
the vertices set aside as free is the contraction of `H` along it; and no weight is lost. -/
theorem C26_coarsen {F : Type} (O : ScoreOps F) {shuf : Shuffle}
    (hsh : ∀ r l, (shuf r l).1.Perm l) {order : List Nat → List Nat} (hord : ∀ l, (order l).Perm l)
    (rank : Nat) {H : Hypergraph} (w : WF H) (opts : Options) (rng : Rng) :
    ∃ HC C rng', coarsenSeq O shuf order rank H {} opts rng = .ok (HC, C, rng') ∧ WF HC ∧
      StarClustering H C opts.maxClustersize ∧ IsContraction H C HC ∧
      allWeight HC + (C.free.map (·.2)).sum = allWeight H ∧
      (∀ l ∈ C.matched, ∀ m ∈ l, m.2 = rank) ∧ (∀ v ∈ HC.vertices, v.part = -1 ∧ v.nets ≠ []) ∧
      HC.globalSize = HC.vertices.length ∧ HC.globalNumberNets = H.globalNumberNets ∧
      C.globalFree = (C.free.map (·.2)).sum ∧ HC.dups = [] := by
  obtain ⟨s, e1, hM, -⟩ := matching_ok O w opts.maxClustersize (hsh rng (List.range H.vertices.length))
  obtain ⟨HC, C, e2, h1, h2, h3, h4, h5, h6, h7, h8, h9, -, -⟩ := contractSeq_ok w hM rank hord
  refine ⟨HC, C, (shuf rng (List.range H.vertices.length)).2, ?_, h1, h2, h3, ?_, h4, h5, h6, h7, h8,
    h9⟩
  · unfold coarsenSeq
    simp only [e1, ok_bind, e2, pure_eq_ok]
  · rw [← clusterWeights_total w h2]
    have := (h3.vertices.map (·.2)).sum_eq
    rw [List.map_append, List.sum_append, List.map_map] at this
    rw [← this]
    rfl

/-- C26: every vertex matched to a sample has a net in common with it. -/
theorem C26_linked {F : Type} {O : ScoreOps F} {shuf : Shuffle}
    (hsh : ∀ r l, (shuf r l).1.Perm l) {order : List Nat → List Nat} (hord : ∀ l, (order l).Perm l)
    {rank : Nat} {H : Hypergraph} (w : WF H) {opts : Options} {rng : Rng} {HC : Hypergraph} {C : Contraction}
    {rng' : Rng} (h : coarsenSeq O shuf order rank H {} opts rng = .ok (HC, C, rng')) :
    ∀ z ∈ C.samples.zip C.matched, ∀ m ∈ z.2, ∃ n ∈ H.nets, z.1 ∈ n.vertices ∧ m.1 ∈ n.vertices := by
  obtain ⟨s, e1, hM, hS⟩ := matching_ok O w opts.maxClustersize (hsh rng (List.range H.vertices.length))
  obtain ⟨HC', C', e2, -, -, -, -, -, -, -, -, -, h3, h4⟩ := contractSeq_ok w hM rank hord
  unfold coarsenSeq at h
  simp only [e1, ok_bind, e2, pure_eq_ok] at h
  cases h
  rw [h3, h4]
  unfold recorded
  intro z hz m hm
  rw [List.zip_map', List.mem_map] at hz
  obtain ⟨v, hv, rfl⟩ := hz
  obtain ⟨x, hx, rfl⟩ := hM.copies v hv
  obtain ⟨j, hj⟩ := List.mem_iff_getElem?.1 hx
  have hvm : H.vmap x.id = some j := (w.vmap_iff _ _).2 ⟨x, hj, rfl⟩
  obtain ⟨y, hy, rfl⟩ := List.mem_map.1 hm
  have hid : (newVertex x).id = x.id := rfl
  rw [hid] at hy ⊢
  unfold msAt at hy
  rw [hvm] at hy
  simp only at hy
  cases hl : s.matchesL[j]? with
  | none => rw [hl] at hy; cases hy
  | some l =>
    rw [hl] at hy
    exact hS j x l hj hl y hy

/-- Scores for the examples: cost of the shared nets, without scaling. -/
def plainScores : ScoreOps Nat where
  zero := 0
  isZero := fun x => x == 0
  add := fun a b => a + b
  scale := fun _ x => x
  gt := fun a b => a > b
  cost := fun n => n.cost.toNat

example : WF exampleH := exampleH_wf

example :
    (coarsenSeq plainScores (fun r l => (l, r)) id 0 exampleH {}
      { exampleOpts with maxClustersize := 1 } (fun n => n)).toOption.map
      (fun x => (x.1.vertices.map (fun v => (v.id, v.weight, v.nets)),
        x.1.nets.map (fun n => (n.id, n.vertices, n.cost)))) =
    some ([(7, 4, [2, 0, 5]), (3, 6, [5, 2, 0])],
      [(5, [7, 3], 2), (2, [7, 3], 1), (0, [7, 3], 5)]) := by
  decide +kernel

example :
    (coarsenSeq plainScores (fun r l => (l, r)) id 0 exampleH {}
      { exampleOpts with maxClustersize := 1 } (fun n => n)).toOption.map
      (fun x => (x.2.1.samples, x.2.1.matched.map (fun l => l.map (fun m => m.1)))) =
    some ([7, 3], [[2], [1]]) := by
  decide +kernel

/-! ### C27 -/

/-- C27: for every star clustering `C` of `H` and every labelled coarse hypergraph `HC` that has one
vertex per cluster and the contracted nets, `uncoarsen_hypergraph` succeeds, gives every vertex of
`H` the label of its cluster, changes nothing else, and the result has the same cutsize (in both
metrics) and the same weight in every part as `HC`. -/
theorem C27_uncoarsen {H HC : Hypergraph} {C : Contraction} {maxC : Nat} (w : WF H) (wc : WF HC)
    (hs : StarClustering H C maxC)
    (hv : (HC.vertices.map (fun v => (v.id, v.weight))).Perm (clusterWeights H C))
    (hn : ContractedNets H C HC) :
    ∃ H', uncoarsen HC H C = .ok H' ∧ WF H' ∧ SameUpToParts H H' ∧
      Projected (partOf HC) C H' ∧ (∀ m, cutValue m H' = cutValue m HC) ∧
      ∀ p, partWeight H' p = partWeight HC p := by
  have hids : (HC.vertices.map (·.id)).Perm C.samples := by
    have := hv.map (·.1)
    unfold clusterWeights at this
    rw [List.map_map, List.map_map] at this
    simpa [Function.comp_def] using this
  obtain ⟨P, h1, h2⟩ := uncoarsen_ok w hs wc hids
  exact ⟨relabel H P, h1, relabel_wf w P, relabel_same H P, h2,
    projected_cut w hs hn (relabel_same H P) h2,
    projected_weight w hs wc (relabel_wf w P) hv (relabel_same H P) h2⟩

theorem sameContent_of_same {H H' : Hypergraph} (w : WF H) (h : SameUpToParts H H') :
    SameContent H H' := by
  refine ⟨?_, ?_, ?_⟩
  · have := congrArg (List.map (fun x : Nat × List Nat × Int => (x.1, x.2.2))) h.vertices
    rw [List.map_map, List.map_map] at this
    exact this
  · rw [forall2_map_eq' h.nets (fun n => (n.id, n.cost)) (fun n => (n.id, n.cost))
      (fun a _ b hab => by rw [hab.1, hab.2.1])]
  · intro n hn n' hn' hid
    obtain ⟨a, ha, h1, -, -, h4⟩ := forall2_mem_right h.nets hn'
    rw [w.net_inj ha hn (h1.symm.trans hid)] at h4
    exact h4

theorem ContractedNets_same {H HC HC' : Hypergraph} {C : Contraction} (h : ContractedNets H C HC)
    (hsame : SameContent HC HC') : ContractedNets H C HC' := by
  refine ⟨hsame.nets.trans h.nets, ?_⟩
  intro n' hn' n hn hid
  obtain ⟨a, ha, hae⟩ := List.mem_map.1 (hsame.nets.subset (List.mem_map.2 ⟨n', hn', rfl⟩))
  have hid2 : a.id = n'.id := congrArg Prod.fst hae
  exact (hsame.pins a ha n' hn' hid2.symm).trans (h.pins a ha n hn (hid.trans hid2.symm))

/-- The part of a vertex does not change when vertices are added at the end. -/
theorem partOf_append {H H' : Hypergraph} {l : List Vertex} (h : H'.vertices = H.vertices ++ l)
    {u : Nat} (hu : IsVertex H u) : partOf H' u = partOf H u := by
  unfold partOf
  rw [h, List.find?_append]
  obtain ⟨v, hv, rfl⟩ := List.mem_map.1 hu
  cases hf : H.vertices.find? (fun x => x.id == v.id) with
  | none =>
    rw [List.find?_eq_none] at hf
    exact absurd (beq_self_eq_true v.id) (by simpa using hf v hv)
  | some x => rfl

theorem cutValue_append {H H' : Hypergraph} (w : WF H) {l : List Vertex}
    (h : H'.vertices = H.vertices ++ l) (hn : H'.nets = H.nets) (m : Metric) :
    cutValue m H' = cutValue m H := by
  rw [cutValue_labels, cutValue_labels, hn]
  congr 1
  apply List.map_congr_left
  intro n hnn
  congr 3
  apply List.map_congr_left
  intro u hu
  obtain ⟨v, hv, hvu, -⟩ := w.inc_vtx n hnn u hu
  exact partOf_append h (List.mem_map.2 ⟨v, hv, hvu⟩)

/-- All free vertices are put back: either there are none, or their total weight is not zero. -/
def FreePlaced (C : Contraction) : Prop := C.free = [] ∨ (C.free.map (·.2)).sum ≠ 0

/-- The free vertices are put back next to a bisected coarse hypergraph. -/
theorem placed_ok {srt : List (Nat × Int) → List (Nat × Int)} (hsrt : ∀ l, (srt l).Perm l)
    {H HC HC' : Hypergraph} {C : Contraction} {maxC : Nat} (w : WF H)
    (hs : StarClustering H C maxC) (hc : IsContraction H C HC)
    (hfree : C.globalFree = (C.free.map (·.2)).sum) (hpl : FreePlaced C)
    (hsame : SameContent HC HC') (wc : WF HC') (hb : Bipartitioned HC') (max0 max1 : Int)
    (rng : Rng) :
    ∃ a, Contraction.assignFree srt C HC' max0 max1 rng = .ok a ∧ WF a.H ∧ Bipartitioned a.H ∧
      (a.H.vertices.map (fun v => (v.id, v.weight))).Perm (clusterWeights H C) ∧
      ContractedNets H C a.H ∧ (∀ m, cutValue m a.H = cutValue m HC') ∧
      (∃ l, GreedyPlaced (partWeight HC' 0) (partWeight HC' 1) max0 max1 l ∧
        a.H.vertices = HC'.vertices ++ l) ∧
      a.w0 = partWeight a.H 0 ∧ a.w1 = partWeight a.H 1 := by
  have hvm : HC'.vertices.map (fun v => (v.id, v.weight)) =
      HC.vertices.map (fun v => (v.id, v.weight)) := hsame.vertices
  have hp := hc.vertices
  rw [← hvm] at hp
  have hids : (HC'.vertices.map (·.id) ++ C.free.map (·.1)).Nodup := by
    have h1 := hp.map (·.1)
    rw [List.map_append, List.map_map] at h1
    refine h1.nodup_iff.2 ?_
    unfold clusterWeights
    rw [List.map_map]
    simpa [Function.comp_def] using hs.samples_nodup w
  have hnd := (List.nodup_append.1 hids).2.1
  have hfresh : ∀ f ∈ C.free, ¬ IsVertex HC' f.1 := by
    intro f hf hv
    exact (List.nodup_append.1 hids).2.2 f.1 hv f.1 (List.mem_map.2 ⟨f, hf, rfl⟩) rfl
  obtain ⟨a, l, a1, a2, a3, a4, a5, a6, a7, a8, a9⟩ := assignFree_ok hsrt wc hb max0 max1 rng hnd hfresh
  have hl : (l.map (fun v => (v.id, v.weight))).Perm C.free := by
    rw [a4.1]
    rcases hpl with h | h
    · rw [h]
      split
      · exact List.Perm.refl _
      · exact hsrt []
    · rw [if_neg (by rw [hfree]; exact h)]
      exact hsrt _
  refine ⟨a, a1, a2, ?_, ?_, ?_, cutValue_append wc a3 a5.nets, ⟨l, a7, a3⟩, a8, a9⟩
  · intro v hv
    rw [a3, List.mem_append] at hv
    rcases hv with hv | hv
    · exact hb v hv
    · exact greedy_parts a7 v hv
  · rw [a3, List.map_append]
    exact (hl.append_left _).trans hp
  · have h := ContractedNets_same hc.nets hsame
    refine ⟨by rw [a5.nets]; exact h.nets, by rw [a5.nets]; exact h.pins⟩

theorem projected_bip {H H' HC : Hypergraph} {C : Contraction} {maxC : Nat} (w : WF H) (w' : WF H')
    (hs : StarClustering H C maxC) (hsame : SameUpToParts H H') (hP : Projected (partOf HC) C H')
    (wc : WF HC) (hb : Bipartitioned HC) (hids : ∀ s ∈ C.samples, IsVertex HC s) :
    Bipartitioned H' := by
  intro v hv
  have hv2 : IsVertex H v.id := by
    unfold IsVertex
    rw [← hsame.vids]
    exact List.mem_map.2 ⟨v, hv, rfl⟩
  obtain ⟨s, hsm, hm⟩ := cluster_of w hs hv2
  obtain ⟨x, hx, hxs⟩ := List.mem_map.1 (hids s hsm)
  have hxs : x.id = s := hxs
  have := hP s hsm v.id hm
  rw [w'.partOf_eq hv, ← hxs, wc.partOf_eq hx] at this
  rw [this]
  exact hb x hx

/-- C27, the whole uncoarsening step `uncoarsen_hypergraph_seq` on the result of a coarsening step:
the free vertices are put back greedily, the labels are projected, and `KLFM` refines. The returned
value is the cutsize of the labels left in `H`. When the parts are within their bounds after the
free vertices have been put back, they stay so, and the cutsize is not larger than that of the
coarse labelling. -/
theorem C27_uncoarsen_seq {srt : List (Nat × Int) → List (Nat × Int)} (hsrt : ∀ l, (srt l).Perm l)
    {H HC HC' : Hypergraph} {C : Contraction} {maxC : Nat} (w : WF H) (hcost : CostsNonneg H)
    (hwn : WeightsNonneg H) (hs : StarClustering H C maxC) (hc : IsContraction H C HC)
    (hfree : C.globalFree = (C.free.map (·.2)).sum) (hpl : FreePlaced C)
    (hsame : SameContent HC HC') (wc : WF HC') (hb : Bipartitioned HC') {fuel : Nat}
    (hf : H.vertices.length < fuel) (opts : Options) (max0 max1 : Int) (rng : Rng) :
    ∃ r, uncoarsenSeq fuel srt HC' H C opts max0 max1 rng = .ok r ∧
      r.cut = cutValue .cutNet r.H ∧ SameUpToParts H r.H ∧ WF r.H ∧ Bipartitioned r.H ∧
      ∃ a, Contraction.assignFree srt C HC' max0 max1 rng = .ok a ∧
        (Balanced a.H max0 max1 → Balanced r.H max0 max1 ∧ r.cut ≤ cutValue .cutNet HC') := by
  obtain ⟨a, a1, a2, a3, a4, a5, a6, -, a8, a9⟩ :=
    placed_ok hsrt w hs hc hfree hpl hsame wc hb max0 max1 rng
  obtain ⟨H1, u1, u2, u3, u4, u5, u6⟩ := C27_uncoarsen w a2 hs a4 a5
  have hids : ∀ s ∈ C.samples, IsVertex a.H s := by
    intro s h
    have h1 := a4.map (·.1)
    rw [List.map_map] at h1
    apply h1.symm.subset
    unfold clusterWeights
    rw [List.map_map]
    exact List.mem_map.2 ⟨s, h, rfl⟩
  have hb1 : Bipartitioned H1 := projected_bip w u2 hs u3 u4 a2 a3 hids
  obtain ⟨C1, i1, i2⟩ := initCounts_ok u2 hb1
  have hw0 : a.w0 = partWeight H1 0 := by rw [a8, u6]
  have hw1 : a.w1 = partWeight H1 1 := by rw [a9, u6]
  have hlen : H1.vertices.length < fuel := by rw [u3.vlen]; exact hf
  obtain ⟨r, r1, r2, r3⟩ := KLFM_none u2 (u3.costsNonneg hcost) (u3.weightsNonneg hwn) hb1 i2 hlen
    max0 max1 opts a.rng
  refine ⟨r, ?_, r2, u3.trans r3.same, r3.wf, r3.bip, a, a1, ?_⟩
  · unfold uncoarsenSeq
    simp only [a1, ok_bind, u1, i1, hw0, hw1]
    exact r1
  · intro hbal
    obtain ⟨r', r1', -, c1, -, -, -, -, -, b0, b1⟩ := C17_KLFM u2 (u3.costsNonneg hcost)
      (u3.weightsNonneg hwn) hb1 i2 hlen max0 max1 opts a.rng none (by intro c hc; cases hc)
      (by rw [u6, u6]; exact hbal)
    rw [r1] at r1'
    cases r1'
    exact ⟨⟨b0, b1⟩, by rw [u5, a6] at c1; exact c1⟩

theorem sum_map_nonneg {α : Type} (l : List α) (f : α → Int) (h : ∀ x ∈ l, 0 ≤ f x) :
    0 ≤ (l.map f).sum := by
  induction l with
  | nil => simp
  | cons a l ih =>
    rw [List.map_cons, List.sum_cons]
    have h1 := h a (by simp)
    have h2 := ih (fun x hx => h x (by simp [hx]))
    omega

/-- The weight of a cluster is positive when all weights are. -/
theorem clusterWeight_pos {H : Hypergraph} {C : Contraction} {maxC : Nat} (w : WF H)
    (hs : StarClustering H C maxC) (hpos : ∀ v ∈ H.vertices, 0 < v.weight) {s : Nat}
    (hsm : s ∈ C.samples) : 0 < clusterWeight H C s := by
  obtain ⟨z, hz, hzs⟩ : ∃ z ∈ C.samples.zip C.matched, z.1 = s := by
    rw [← (zip_unzip hs).1] at hsm
    exact List.mem_map.1 hsm
  have hv : IsVertex H s := hs.cover.subset (List.mem_append_left _ hsm)
  obtain ⟨v, hvm, rfl⟩ := List.mem_map.1 hv
  unfold clusterWeight
  have hin : v ∈ H.vertices.filter (fun x => x.id ∈ members C v.id) := by
    rw [List.mem_filter]
    refine ⟨hvm, ?_⟩
    rw [← hzs, members_of_zip w hs hz, hzs]
    simp
  have hge : ∀ l : List Vertex, (∀ x ∈ l, 0 < x.weight) → v ∈ l → 0 < (l.map (·.weight)).sum := by
    intro l
    induction l with
    | nil => intro _ h; cases h
    | cons x l ih =>
      intro hx h
      have hnn : 0 ≤ (l.map (·.weight)).sum :=
        sum_map_nonneg _ _ (fun z hz => le_of_lt (hx z (by simp [hz])))
      rw [List.map_cons, List.sum_cons]
      have := hx x (by simp)
      omega
  exact hge _ (fun x hx => hpos x (List.mem_filter.1 hx).1) hin

/-- Free vertices of positive weight are put back. -/
theorem freePlaced_pos {C : Contraction} (hall : ∀ f ∈ C.free, 0 < f.2) : FreePlaced C := by
  by_cases hnil : C.free = []
  · exact Or.inl hnil
  · right
    rcases hfe : C.free with _ | ⟨f, l⟩
    · exact absurd hfe hnil
    · rw [hfe] at hall
      have h0 := hall f (by simp)
      have hnn : 0 ≤ (l.map (·.2)).sum :=
        sum_map_nonneg _ _ (fun z hz => le_of_lt (hall z (by simp [hz])))
      rw [List.map_cons, List.sum_cons]
      omega

/-- With positive weights the free vertices are always put back. -/
theorem freePlaced_of_pos {H HC : Hypergraph} {C : Contraction} {maxC : Nat} (w : WF H)
    (hs : StarClustering H C maxC) (hc : IsContraction H C HC)
    (hpos : ∀ v ∈ H.vertices, 0 < v.weight) : FreePlaced C := by
  apply freePlaced_pos
  intro f hf
  obtain ⟨s, hsm, rfl⟩ := List.mem_map.1 (hc.vertices.subset (List.mem_append_right _ hf))
  exact clusterWeight_pos w hs hpos hsm

/-- Two vertices of weight 0 joined by their only net, next to a pair that stays apart. -/
def zeroPair : Hypergraph :=
  Hypergraph.create 2 1
    [{ id := 0, nets := [0], weight := 0, part := -1 }, { id := 1, nets := [0], weight := 0, part := -1 }]
    [{ id := 0, vertices := [0, 1], cost := 1, globalSize := 2 }]

/-- C27 needs the free vertices to be put back: when a cluster becomes free and its weight is zero,
it is not put back, and `uncoarsen_hypergraph` fails its assertion `HC.local_id(sample)`. -/
theorem C27_zero_weight_aborts : WF zeroPair ∧ ∃ HC C rng',
    coarsenSeq plainScores (fun r l => (l, r)) id 0 zeroPair {} exampleOpts (fun n => n) =
      .ok (HC, C, rng') ∧ HC.vertices = [] ∧
    ∀ fuel max0 max1, uncoarsenSeq fuel id HC zeroPair C exampleOpts max0 max1 (fun n => n) =
      .error .abort := by
  refine ⟨WF_create (by decide) (by decide) (by decide) (by decide) (by decide) (by decide), ?_⟩
  refine ⟨_, _, _, rfl, rfl, ?_⟩
  intro fuel max0 max1
  rfl

/-- Coarsen `exampleH`, label the two clusters 1 and 0, and project back. -/
def exampleProjected : Res (Hypergraph × Hypergraph) := do
  let x ← coarsenSeq plainScores (fun r l => (l, r)) id 0 exampleH {}
    { exampleOpts with maxClustersize := 1 } (fun n => n)
  let HC ← x.1.setPartOf 7 1
  let HC ← HC.setPartOf 3 0
  let H ← uncoarsen HC exampleH x.2.1
  pure (H, HC)

example : exampleProjected.toOption.map (fun x => x.1.vertices.map (fun v => (v.id, v.part))) =
    some [(1, 0), (2, 1), (7, 1), (3, 0)] := by
  decide +kernel

example : exampleProjected.toOption.map (fun x => (cutValue .cutNet x.1, cutValue .cutNet x.2)) =
    some (8, 8) := by
  decide +kernel

end PMondriaan

import Verif.Model.Multilevel
import Verif.Props.Coarsen
import Verif.Props.Free
import Verif.Props.Recursive

/-
Proofs about the sequential multilevel bisection.
-/

namespace PMondriaan

open Spec

/-- What is assumed of the environment: shuffles and iteration orders are rearrangements, messages
arrive, the block partitioning of the `N` nets over one processor is a bijection. -/
structure Env.Ok {F : Type} (E : Env F) (N : Nat) : Prop where
  shuf : ∀ r l, (E.shuf r l).1.Perm l
  order : ∀ l, (E.order l).Perm l
  orderNets : ∀ l, (E.orderNets l).Perm l
  srt : ∀ l, (E.srt l).Perm l
  d1 : Fair E.d1
  d2 : Fair E.d2
  np : E.np.Valid 1 N

/-- What the levels need: consistent, costs small and not negative, positive weights, no
duplicates recorded, and few enough vertices. -/
structure LevelReady (fuel : Nat) (H : Hypergraph) : Prop where
  wf : WF H
  costs : CostsNonneg H
  total : (H.nets.map (·.cost)).sum < 2147483648
  pos : ∀ v ∈ H.vertices, 0 < v.weight
  dups : H.dups = []
  fuel : H.vertices.length < fuel

/-- What a level delivers. -/
structure LevelDone (H R : Hypergraph) : Prop where
  wf : WF R
  bip : Bipartitioned R
  same : SameContent H R

theorem groupCost_le_total {nets : List Net} (h : ∀ n ∈ nets, 0 ≤ n.cost) (k : List Nat) :
    groupCost nets k ≤ (nets.map (·.cost)).sum := by
  induction nets with
  | nil => simp [groupCost]
  | cons n nets ih =>
    rw [groupCost_cons, List.map_cons, List.sum_cons]
    have h1 := ih (fun x hx => h x (by simp [hx]))
    have h2 := h n (by simp)
    split <;> omega

theorem simplify_costs {H H' : Hypergraph} (w : WF H) (hc : CostsNonneg H)
    (ht : (H.nets.map (·.cost)).sum < 2147483648) (h : simplifyDuplicateNets H = .ok H') :
    CostsNonneg H' ∧ (H'.nets.map (·.cost)).sum = (H.nets.map (·.cost)).sum := by
  obtain ⟨H1, ds, h1, -, h3, -⟩ := simplify_ok w
  rw [h] at h1
  cases h1
  constructor
  · have hnn : ∀ n ∈ H.nets.map sortNet, 0 ≤ n.cost := by
      intro n hn
      obtain ⟨m, hm, rfl⟩ := List.mem_map.1 hn
      exact hc m hm
    intro n hn
    obtain ⟨m, -, rfl⟩ := List.mem_map.1 (h3.subset hn)
    have hsum : ((H.nets.map sortNet).map (·.cost)).sum = (H.nets.map (·.cost)).sum := by
      rw [List.map_map]; rfl
    have hlt : ∀ k, groupCost (H.nets.map sortNet) k < 2147483648 := fun k =>
      lt_of_le_of_lt (groupCost_le_total hnn k) (by rw [hsum]; exact ht)
    change 0 ≤ edgeCosts (H.nets.map sortNet) m.vertices
    rw [edgeCosts_eq hnn hlt]
    exact sum_map_nonneg _ _ (fun x hx => hnn x (List.mem_filter.1 hx).1)
  · have := simplify_sum w hc ht h3 (fun _ => 1) (fun _ _ _ => rfl)
    simpa using this

theorem sum_filter_le (l : List Net) (h : ∀ n ∈ l, 0 ≤ n.cost) (p : Net → Bool) :
    ((l.filter p).map (·.cost)).sum ≤ (l.map (·.cost)).sum := by
  induction l with
  | nil => simp
  | cons n l ih =>
    have h1 := ih (fun x hx => h x (by simp [hx]))
    have h2 := h n (by simp)
    rw [List.filter_cons]
    split
    · rw [List.map_cons, List.sum_cons, List.map_cons, List.sum_cons]; omega
    · rw [List.map_cons, List.sum_cons]; omega

/-- The coarse hypergraph is ready for the next level. -/
theorem coarse_ready {H HC : Hypergraph} {C : Contraction} {maxC fuel : Nat} (w : WF H)
    (hc : CostsNonneg H) (ht : (H.nets.map (·.cost)).sum < 2147483648)
    (hpos : ∀ v ∈ H.vertices, 0 < v.weight) (hf : H.vertices.length < fuel)
    (hs : StarClustering H C maxC) (hI : IsContraction H C HC) (wc : WF HC) (hd : HC.dups = []) :
    LevelReady fuel HC := by
  have hp := hI.nets.nets.map (·.2)
  rw [List.map_map, List.map_map] at hp
  refine ⟨wc, ?_, ?_, ?_, hd, ?_⟩
  · intro n hn
    have : n.cost ∈ (H.nets.filter (fun n => 2 ≤ (touched C n).length)).map (·.cost) :=
      hp.subset (List.mem_map.2 ⟨n, hn, rfl⟩)
    obtain ⟨m, hm, hmc⟩ := List.mem_map.1 this
    have hmc : m.cost = n.cost := hmc
    rw [← hmc]
    exact hc m (List.mem_filter.1 hm).1
  · have : (HC.nets.map (·.cost)).sum =
        ((H.nets.filter (fun n => 2 ≤ (touched C n).length)).map (·.cost)).sum := hp.sum_eq
    rw [this]
    exact lt_of_le_of_lt (sum_filter_le _ hc _) ht
  · intro v hv
    have := hI.vertices.subset (List.mem_append_left _ (List.mem_map.2 ⟨v, hv, rfl⟩))
    obtain ⟨s, hsm, he⟩ := List.mem_map.1 this
    have he2 : clusterWeight H C s = v.weight := congrArg Prod.snd he
    rw [← he2]
    exact clusterWeight_pos w hs hpos hsm
  · have h1 := hI.vertices.length_eq
    unfold clusterWeights at h1
    rw [List.length_append, List.length_map, List.length_map] at h1
    have h2 := hs.cover.length_eq
    rw [List.length_append, List.length_map, List.length_map] at h2
    omega

theorem mlBase_ok {F : Type} {E : Env F} {N : Nat} (hE : E.Ok N) (opts : Options) (max0 max1 : Int)
    {H : Hypergraph} (hR : LevelReady E.fuel H) (rng : Rng) :
    ∃ R rng', initialPartitioning E.fuel E.shuf H max0 max1 opts rng =
      .ok (R, some (cutValue .cutNet R), rng') ∧ LevelDone H R := by
  obtain ⟨R, c, rng', -, h1, h2, h3, h4, h5, -⟩ := C23_initial_partitioning hE.shuf hR.wf hR.costs
    (fun v hv => le_of_lt (hR.pos v hv)) hR.fuel opts max0 max1 rng
  exact ⟨R, rng', by rw [h1, h2], h4, h5, sameContent_of_same hR.wf h3⟩

/-- Equal labels and equal contents give equal cuts. -/
theorem cutValue_content {H R : Hypergraph} (w : WF H) (m : Metric) (h : SameContent H R) :
    cutValue m R = cutValue m { H with vertices := R.vertices } := by
  rw [cutValue_labels, cutValue_labels]
  have hP : partOf { H with vertices := R.vertices } = partOf R := rfl
  rw [hP]
  simp only
  set f : Nat × Int → Int := fun x => x.2 * (labelValue m
    ((match H.nets.find? (fun n : Net => n.id == x.1) with | some n => n.vertices | none => []).map
      (partOf R)) : Int) with hf
  have hfind : ∀ n ∈ H.nets, H.nets.find? (fun n' : Net => n'.id == n.id) = some n := by
    intro n hn
    cases hc : H.nets.find? (fun n' : Net => n'.id == n.id) with
    | none =>
      rw [List.find?_eq_none] at hc
      exact absurd (beq_self_eq_true n.id) (by simpa using hc n hn)
    | some n' =>
      have h1 := List.find?_some hc
      rw [w.net_inj (List.mem_of_find?_eq_some hc) hn (by simpa using h1)]
  have h1 : (H.nets.map (fun n => n.cost * (labelValue m (n.vertices.map (partOf R)) : Int))) =
      (H.nets.map (fun n => (n.id, n.cost))).map f := by
    rw [List.map_map]
    apply List.map_congr_left
    intro n hn
    simp only [hf, Function.comp_apply]
    rw [hfind n hn]
  have h2 : (R.nets.map (fun n => n.cost * (labelValue m (n.vertices.map (partOf R)) : Int))) =
      (R.nets.map (fun n => (n.id, n.cost))).map f := by
    rw [List.map_map]
    apply List.map_congr_left
    intro n' hn'
    obtain ⟨n, hn, he⟩ := List.mem_map.1 (h.nets.subset (List.mem_map.2 ⟨n', hn', rfl⟩))
    have hid : n.id = n'.id := congrArg Prod.fst he
    simp only [hf, Function.comp_apply]
    rw [← hid, hfind n hn]
    simp only
    rw [labelValue_congr m (l' := n.vertices.map (partOf R)) (fun x => by
      rw [((h.pins n hn n' hn' hid.symm).map (partOf R)).mem_iff])]
  rw [h1, h2]
  exact (h.nets.map f).sum_eq

theorem content_of_reset {H R : Hypergraph} (w : WF H) (wr : WF R)
    (h1 : (R.nets.map (·.id)).Perm (H.nets.map (·.id)))
    (h2 : ∀ n ∈ H.nets, ∃ m ∈ R.nets, m.id = n.id ∧ m.cost = n.cost ∧ m.vertices.Perm n.vertices)
    (h3 : R.vertices.map (fun v => (v.id, v.weight)) = H.vertices.map (fun v => (v.id, v.weight))) :
    SameContent H R := by
  refine ⟨h3, ?_, ?_⟩
  · have hnd : ∀ (K : Hypergraph), WF K → (K.nets.map (fun n => (n.id, n.cost))).Nodup := by
      intro K wk
      apply List.Nodup.of_map (·.1)
      rw [List.map_map]
      exact wk.nids
    rw [List.perm_ext_iff_of_nodup (hnd R wr) (hnd H w)]
    intro x
    constructor
    · intro hx
      obtain ⟨m, hm, rfl⟩ := List.mem_map.1 hx
      obtain ⟨n, hn, hne⟩ := List.mem_map.1 (h1.subset (List.mem_map.2 ⟨m, hm, rfl⟩))
      have hne : n.id = m.id := hne
      obtain ⟨m', hm', e1, e2, -⟩ := h2 n hn
      rw [wr.net_inj hm hm' (hne.symm.trans e1.symm)]
      exact List.mem_map.2 ⟨n, hn, by rw [e1, e2]⟩
    · intro hx
      obtain ⟨n, hn, rfl⟩ := List.mem_map.1 hx
      obtain ⟨m', hm', e1, e2, -⟩ := h2 n hn
      exact List.mem_map.2 ⟨m', hm', by rw [e1, e2]⟩
  · intro n hn n' hn' hid
    obtain ⟨m', hm', e1, -, e3⟩ := h2 n hn
    rw [wr.net_inj hn' hm' (hid.trans e1.symm)]
    exact e3

/-- The labelling is determined by the lists of ids and parts. -/
theorem partOf_of_lists {A B : Hypergraph} (h1 : A.vertices.map (·.id) = B.vertices.map (·.id))
    (h2 : A.vertices.map (·.part) = B.vertices.map (·.part)) (u : Nat) : partOf B u = partOf A u := by
  unfold partOf
  generalize A.vertices = l at h1 h2
  generalize B.vertices = k at h1 h2
  induction l generalizing k with
  | nil =>
    cases k with
    | nil => rfl
    | cons b k => simp at h1
  | cons a l ih =>
    cases k with
    | nil => simp at h1
    | cons b k =>
      rw [List.map_cons, List.map_cons] at h1 h2
      injection h1 with i1 i2
      injection h2 with j1 j2
      rw [List.find?_cons, List.find?_cons, i1]
      cases hb : b.id == u with
      | true => exact j1.symm
      | false => exact ih k i2 j2

/-- The levels of the multilevel method. -/
theorem mlLevel_ok {F : Type} {E : Env F} {N : Nat} (hE : E.Ok N) (rank : Nat) (opts : Options) (max0 max1 : Int)
    (n : Nat) : ∀ (H : Hypergraph) (rng : Rng), LevelReady E.fuel H →
    ∃ R rng', mlLevel E rank opts max0 max1 n H rng = .ok (R, some (cutValue .cutNet R), rng') ∧
      LevelDone H R := by
  induction n with
  | zero =>
    intro H rng hR
    exact mlBase_ok hE opts max0 max1 hR rng
  | succ n ih =>
    intro H rng hR
    unfold mlLevel
    by_cases hg : H.globalSize > opts.coarseningNrvertices
    swap
    · rw [if_neg hg]
      exact mlBase_ok hE opts max0 max1 hR rng
    rw [if_pos hg]
    obtain ⟨H1, s1, w1, s2, -, s4, -⟩ := C31_partial hR.wf hR.costs hR.total
    obtain ⟨c1, c2⟩ := simplify_costs hR.wf hR.costs hR.total s1
    have hlen1 : H1.vertices.length < E.fuel := by
      rw [s4.length_eq.symm]; exact hR.fuel
    have hpos1 : ∀ v ∈ H1.vertices, 0 < v.weight := by
      intro v hv
      obtain ⟨u, hu, h⟩ := forall2_mem_right s4 hv
      rw [h.2.1]
      exact hR.pos u hu
    have ht1 : (H1.nets.map (·.cost)).sum < 2147483648 := by rw [c2]; exact hR.total
    obtain ⟨HC, C, rng1, k1, wc, hs, hI, -, -, -, -, -, hfree, hd⟩ :=
      C26_coarsen E.scores hE.shuf hE.order rank w1 opts rng
    have hpl := freePlaced_of_pos w1 hs hI hpos1
    obtain ⟨HC', rng2, l1, l2⟩ := ih HC rng1 (coarse_ready w1 c1 ht1 hpos1 hlen1 hs hI wc hd)
    obtain ⟨r, u1, u2, u3, u4, u5, -⟩ := C27_uncoarsen_seq hE.srt w1 c1
      (fun v hv => le_of_lt (hpos1 v hv)) hs hI hfree hpl l2.same l2.wf l2.bip hlen1 opts max0 max1 rng2
    obtain ⟨R, t1, t2, t3, t4, t5, t6, -⟩ := C32_partial hR.wf hR.dups hR.costs hR.total s1 u4 u3
    have hcont := content_of_reset hR.wf t2 t3 t4 t5
    have hcut : r.cut = cutValue .cutNet R := by
      rw [u2, cutValue_content hR.wf .cutNet hcont, cutValue_content w1 .cutNet (sameContent_of_same w1 u3)]
      show cutNet (partOf r.H) H1.nets = cutNet (partOf R) H.nets
      rw [(s2 _).1]
      congr 1
      have hids : R.vertices.map (·.id) = r.H.vertices.map (·.id) := by
        have h1 := congrArg (List.map (·.1)) t5
        have h2 := congrArg (List.map (·.1)) u3.vertices
        rw [List.map_map, List.map_map] at h1 h2
        have h3 : H1.vertices.map (·.id) = H.vertices.map (·.id) :=
          forall2_map_eq s4 (fun a b hab => hab.1)
        exact (h1.trans h3.symm).trans h2.symm
      funext u
      exact partOf_of_lists hids t6 u
    refine ⟨R, r.rng, ?_, t2, ?_, hcont⟩
    · simp only [s1, k1, l1, u1, t1, ok_bind, pure_eq_ok, hcut]
    · intro v hv
      have : v.part ∈ r.H.vertices.map (fun v => v.part) := by
        rw [← t6]; exact List.mem_map.2 ⟨v, hv, rfl⟩
      obtain ⟨x, hx, he⟩ := List.mem_map.1 this
      have he : x.part = v.part := he
      rw [← he]
      exact u5 x hx

end PMondriaan

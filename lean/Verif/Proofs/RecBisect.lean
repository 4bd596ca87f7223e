import Verif.Proofs.Bounds
import Verif.Proofs.CutNets
import Verif.Props.Recursive
import Verif.Props.Reduce
import Verif.Spec.RecBisect

/-
Invariants of the sequential recursion.
-/

namespace PMondriaan

open Spec

/-! ### Fit hypergraphs -/

theorem relabels_forall2 {s e : Nat} {low high : Int} {H H' : Hypergraph}
    (h : Relabels s e low high H H') :
    List.Forall₂ (fun v v' => v'.id = v.id ∧ v'.nets = v.nets ∧ v'.weight = v.weight)
      H.vertices H'.vertices := by
  rw [List.forall₂_iff_get]
  refine ⟨h.length.symm, fun i h1 h2 => ?_⟩
  simp only [List.get_eq_getElem]
  by_cases hi : s ≤ i ∧ i < e
  · obtain ⟨p, -, hp⟩ := h.inside i _ hi.1 hi.2 (List.getElem?_eq_getElem h1)
    rw [List.getElem?_eq_getElem h2] at hp
    rw [Option.some.inj hp]
    exact ⟨rfl, rfl, rfl⟩
  · have := h.outside i (by omega)
    rw [List.getElem?_eq_getElem h1, List.getElem?_eq_getElem h2] at this
    rw [Option.some.inj this]
    exact ⟨rfl, rfl, rfl⟩

theorem relabels_fit {N f s e : Nat} {low high : Int} {H H' : Hypergraph}
    (h : Relabels s e low high H H') (hf : Fit N f H) : Fit N f H' := by
  have hF := relabels_forall2 h
  have w := hf.wf
  have hids : H'.vertices.map (·.id) = H.vertices.map (·.id) := by
    exact forall2_map_eq hF fun _ _ h => h.1
  have hnets : H'.nets = H.nets := by rw [h.rest]
  have hvm : H'.vmap = H.vmap := by rw [h.rest]
  have hnm : H'.nmap = H.nmap := by rw [h.rest]
  refine ⟨⟨?_, ?_, ?_, ?_, ?_, ?_, ?_, ?_⟩, ?_, ?_, ?_, ?_⟩
  · rw [hids]; exact w.vids
  · rw [hnets]; exact w.nids
  · rw [hvm, hids]; exact w.vmap
  · rw [hnm, hnets]; exact w.nmap
  · intro v' hv'
    obtain ⟨v, hv, h1⟩ := forall2_right hF hv'
    rw [h1.2.1]; exact w.vnets v hv
  · rw [hnets]; exact w.npins
  · intro v' hv' e' he'
    obtain ⟨v, hv, h1⟩ := forall2_right hF hv'
    rw [hnets, h1.1]
    rw [h1.2.1] at he'
    exact w.inc_net v hv e' he'
  · intro n hn u hu
    rw [hnets] at hn
    obtain ⟨v, hv, h1, h2⟩ := w.inc_vtx n hn u hu
    obtain ⟨v', hv', h3⟩ := forall2_right hF.flip hv
    exact ⟨v', hv', h3.1.trans h1, by rw [h3.2.1]; exact h2⟩
  · rw [hnets]; exact hf.ids
  · rw [hnets]; exact hf.nets
  · intro v' hv'
    obtain ⟨v, hv, h1⟩ := forall2_right hF hv'
    rw [h1.2.2]; exact hf.pos v hv
  · rw [h.length]; exact hf.size

theorem perm_fit {N f : Nat} {H H' : Hypergraph} (hf : Fit N f H) (w : WF H')
    (hp : H'.vertices.Perm H.vertices) (hn : H'.nets = H.nets) : Fit N f H' :=
  ⟨w, by rw [hn]; exact hf.ids, by rw [hn]; exact hf.nets,
    fun v hv => hf.pos v (hp.mem_iff.1 hv), by rw [hp.length_eq]; exact hf.size⟩

theorem setAside_fit {N f : Nat} {ids : List Nat} {H : Hypergraph} {cut : List Net}
    {x : Hypergraph × List Net} (h : SetAside ids H cut x) (hf : Fit N f H) : Fit N f x.1 := by
  refine ⟨h.wf, ?_, ?_, ?_, ?_⟩
  · intro n hn
    exact hf.ids n (List.mem_filter.1 (h.nets.mem_iff.1 hn)).1
  · rw [h.nets.length_eq]
    exact lt_of_le_of_lt (List.length_filter_le _ _) hf.nets
  · intro v' hv'
    obtain ⟨v, hv, h1⟩ := forall2_right h.vertices hv'
    rw [h1.2.1]; exact hf.pos v hv
  · rw [← h.vertices.length_eq]; exact hf.size

theorem splitAt_perm {s m e : Nat} {low high : Int} {H H' : Hypergraph}
    (h : SplitAt s m e low high H H') : H'.vertices.Perm H.vertices := by
  have hse : s ≤ e := h.start_le.trans h.le_end
  have hp := h.perm
  have t1 : H'.vertices.take s = H.vertices.take s := by
    apply List.ext_getElem?
    intro i
    rw [List.getElem?_take, List.getElem?_take]
    split
    · exact h.outside i (Or.inl (by assumption))
    · rfl
  have t2 : H'.vertices.drop e = H.vertices.drop e := by
    apply List.ext_getElem?
    intro i
    rw [List.getElem?_drop, List.getElem?_drop]
    exact h.outside _ (Or.inr (by omega))
  rw [split_slice H'.vertices hse, split_slice H.vertices hse, t1, t2]
  exact List.Perm.append_left _ (List.Perm.append_right _ hp)

/-! ### One split -/

/-- What setting aside keeps of the vertices. -/
def SameCore (v v' : Vertex) : Prop := v'.id = v.id ∧ v'.weight = v.weight ∧ v'.part = v.part

/-- The facts about one iteration of the inner loop. -/
structure SplitFacts (P : RecEnv) (M : Int) (cur : WorkItem) (s : RecState) (cur' : WorkItem)
    (s' : RecState) (S E : Nat) (H1 H2 : Hypergraph) (w0 w1 : Int) : Prop where
  relabels : Relabels S E cur.low cur.high s.H H1
  w0_eq : w0 = rangeWeight H1 S E cur.low
  w1_eq : w1 = rangeWeight H1 S E cur.high
  cur_start : cur'.start = cur.start
  cur_low : cur'.low = cur.low
  cur_high : cur'.high = cur.low + (((cur.high - cur.low + 1).toNat / 2 : Nat) : Int) - 1
  cur_weight : cur'.weight = w0
  reorder : ((cur.high - cur.low + 1).toNat - (cur.high - cur.low + 1).toNat / 2 > 1 ∧
      s'.jobs = { start := cur'.fin, fin := cur.fin,
                  low := cur.low + (((cur.high - cur.low + 1).toNat / 2 : Nat) : Int),
                  high := cur.high, weight := w1 } :: s.jobs ∧
      ((∃ m : Nat, cur'.fin = m ∧ SplitAt S m E cur.low cur.high H1 H2) ∨
        (cur'.fin = (E : Int) - 1 ∧ H2 = H1.updateMap ∧ w1 = 0))) ∨
    ((cur.high - cur.low + 1).toNat - (cur.high - cur.low + 1).toNat / 2 = 1 ∧
      s'.jobs = s.jobs ∧ H2 = H1)
  fit2 : WF H2
  aside : (P.cutMetric = true ∧ SetAside (manyPins H2) H2 s.cut (s'.H, s'.cut)) ∨
    (s'.H = H2 ∧ s'.cut = s.cut)
  calls : s'.calls = s.calls ++ [{
    start := cur.start, fin := cur.fin, low := cur.low, high := cur.high,
    max0 := boundFor P.rnd (cur.high - cur.low + 1).toNat ((cur.high - cur.low + 1).toNat / 2)
      cur.weight M,
    max1 := boundFor P.rnd (cur.high - cur.low + 1).toNat
      ((cur.high - cur.low + 1).toNat - (cur.high - cur.low + 1).toNat / 2) cur.weight M,
    w0 := w0, w1 := w1 }]
  splits : s'.splits = s.splits + 1
  ran : P.bis s.H
    (boundFor P.rnd (cur.high - cur.low + 1).toNat ((cur.high - cur.low + 1).toNat / 2) cur.weight M)
    (boundFor P.rnd (cur.high - cur.low + 1).toNat
      ((cur.high - cur.low + 1).toNat - (cur.high - cur.low + 1).toNat / 2) cur.weight M)
    S E ⟨cur.low, cur.high⟩ s.rng = .ok { H := H1, w0 := w0, w1 := w1, rng := s'.rng }
  removed : P.cutMetric = true → s'.jobs ≠ [] → SetAside (manyPins H2) H2 s.cut (s'.H, s'.cut)
  kept : s'.jobs = [] → s'.H = H2 ∧ s'.cut = s.cut

theorem maybeRemove_ok {P : RecEnv} (hd : Fair P.d1) (b : Bool) {H : Hypergraph} (w : WF H)
    (cut : List Net) (hne : P.cutMetric = true → ∀ n ∈ H.nets, n.vertices ≠ []) :
    ∃ x, maybeRemove P b H cut = .ok x ∧
      ((P.cutMetric = true ∧ SetAside (manyPins H) H cut x) ∨ x = (H, cut)) := by
  unfold maybeRemove
  by_cases hc : P.cutMetric = true ∧ b = true
  · rw [if_pos (by simp [hc.1, hc.2])]
    obtain ⟨ys, h1, h2⟩ := removeCutNetsAlone_ok hd (xs := [(H, cut)])
      (by intro x hx; rw [List.mem_singleton] at hx; rw [hx]; exact w)
      (by intro x hx; rw [List.mem_singleton] at hx; rw [hx]; exact hne hc.1)
    rw [h1, ok_bind]
    cases h2 with
    | cons h t =>
      cases t
      refine ⟨_, rfl, Or.inl ⟨hc.1, ?_⟩⟩
      have e : allManyPins [(H, cut)] = manyPins H := by simp [allManyPins]
      rwa [e] at h
  · rw [if_neg (by simpa using hc)]
    exact ⟨_, rfl, Or.inr rfl⟩

theorem maybeRemove_true {P : RecEnv} (hd : Fair P.d1) {H : Hypergraph} (w : WF H)
    {cut : List Net} (hne : P.cutMetric = true → ∀ n ∈ H.nets, n.vertices ≠ []) (hc : P.cutMetric = true)
    {x : Hypergraph × List Net} (h : maybeRemove P true H cut = .ok x) : SetAside (manyPins H) H cut x := by
  unfold maybeRemove at h
  rw [if_pos (by simp [hc])] at h
  obtain ⟨ys, h1, h2⟩ := removeCutNetsAlone_ok hd (xs := [(H, cut)])
    (by intro x hx; rw [List.mem_singleton] at hx; rw [hx]; exact w)
    (by intro x hx; rw [List.mem_singleton] at hx; rw [hx]; exact hne hc)
  rw [h1, ok_bind] at h
  cases h2 with
  | cons h3 t =>
    cases t
    have e : allManyPins [(H, cut)] = manyPins H := by simp [allManyPins]
    rw [e] at h3
    obtain rfl := Except.ok.inj h
    exact h3

theorem rangeWeight_zero {H : Hypergraph} {s e : Nat} {p : Int}
    (h : ∀ v ∈ slice H.vertices s e, v.part ≠ p) : rangeWeight H s e p = 0 := by
  unfold rangeWeight
  rw [List.filter_eq_nil_iff.2 (by intro v hv; simpa using h v hv)]
  rfl

/-- One iteration: either the weight is zero and the conversion of the bound is undefined, or the
iteration succeeds. -/
theorem splitStep_spec {P : RecEnv} {N f : Nat} (hbis : BisectsWell P.bis N f) (hd : Fair P.d1)
    (M : Int) {cur : WorkItem} {s : RecState} (hfit : Fit N f s.H)
    (hne : P.cutMetric = true → ∀ n ∈ s.H.nets, n.vertices ≠ []) (hlh : cur.low < cur.high)
    (hr : cur.weight ≠ 0 → 0 ≤ cur.start ∧ cur.start ≤ cur.fin ∧ cur.fin ≤ s.H.vertices.length) :
    (cur.weight = 0 ∧ splitStep P M cur s = .error .ub) ∨
    (cur.weight ≠ 0 ∧ ∃ cur' s', splitStep P M cur s = .ok (cur', s') ∧
      ∃ (S E : Nat) (H1 H2 : Hypergraph) (w0 w1 : Int), cur.start = S ∧ cur.fin = E ∧ S ≤ E ∧
        E ≤ s.H.vertices.length ∧ SplitFacts P M cur s cur' s' S E H1 H2 w0 w1) := by
  by_cases hw : cur.weight = 0
  · left
    refine ⟨hw, ?_⟩
    unfold splitStep computeMax
    simp only
    rw [if_pos hw]
    rfl
  right
  refine ⟨hw, ?_⟩
  obtain ⟨r1, r2, r3⟩ := hr hw
  obtain ⟨S, hS⟩ : ∃ S : Nat, cur.start = S := ⟨cur.start.toNat, by omega⟩
  obtain ⟨E, hE⟩ : ∃ E : Nat, cur.fin = E := ⟨cur.fin.toNat, by omega⟩
  have hSE : S ≤ E := by omega
  have hEl : E ≤ s.H.vertices.length := by omega
  set k_ := (cur.high - cur.low + 1).toNat with hk
  have hk2 : 2 ≤ k_ := by omega
  have hkc : (k_ : Int) = cur.high - cur.low + 1 := by omega
  set m0 := boundFor P.rnd k_ (k_ / 2) cur.weight M with hm0
  set m1 := boundFor P.rnd k_ (k_ - k_ / 2) cur.weight M with hm1
  obtain ⟨r, b1, b2, b3, b4⟩ := hbis s.H hfit S E hSE hEl ⟨cur.low, cur.high⟩ (by simp; omega)
    m0 m1 s.rng
  simp only at b2 b3 b4
  have hfit1 := relabels_fit b2 hfit
  have hlab : ∀ v ∈ slice r.H.vertices S E, v.part = cur.low ∨ v.part = cur.high := by
    intro v hv
    obtain ⟨i, i1, i2, i3⟩ := mem_slice.1 hv
    have hil : i < s.H.vertices.length := by omega
    obtain ⟨p, hp, hp2⟩ := b2.inside i _ i1 i2 (List.getElem?_eq_getElem hil)
    rw [i3] at hp2
    rw [Option.some.inj hp2]
    exact hp
  -- the push
  obtain ⟨H2, e, jobs, c1, c2, c3⟩ : ∃ H2 e jobs,
      pushHigh cur ⟨cur.low + ((k_ / 2 : Nat) : Int), cur.high⟩ r.w1 r.H s.jobs =
        .ok (H2, e, jobs) ∧ WF H2 ∧
      ((k_ - k_ / 2 > 1 ∧ jobs = { start := e, fin := cur.fin,
                                   low := cur.low + ((k_ / 2 : Nat) : Int),
                                   high := cur.high, weight := r.w1 } :: s.jobs ∧
        ((∃ m : Nat, e = m ∧ SplitAt S m E cur.low cur.high r.H H2) ∨
          (e = (E : Int) - 1 ∧ H2 = r.H.updateMap ∧ r.w1 = 0))) ∨
      (k_ - k_ / 2 = 1 ∧ jobs = s.jobs ∧ H2 = r.H ∧ e = cur.fin)) := by
    unfold pushHigh
    by_cases hL : k_ - k_ / 2 > 1
    · rw [if_pos (by simp only [Interval.length]; omega), hS, hE]
      simp only [Int.toNat_natCast]
      by_cases hex : ∃ v ∈ slice r.H.vertices S E, v.part = cur.high
      · obtain ⟨H2, m, d1, d2⟩ := reorder_splits hfit1.wf hSE (by rw [b2.length]; exact hEl) hlab hex
        rw [d1, ok_bind]
        exact ⟨H2, m, _, rfl, d2.wf, Or.inl ⟨hL, rfl, Or.inl ⟨m, rfl, d2⟩⟩⟩
      · push Not at hex
        rw [C36_no_high (by rw [b2.length]; exact hEl) hex, ok_bind]
        refine ⟨_, _, _, rfl, ?_, Or.inl ⟨hL, rfl, Or.inr ⟨rfl, rfl, ?_⟩⟩⟩
        · have := permuted_wf hfit1.wf (List.Perm.refl r.H.vertices)
          exact this
        · rw [b4]; exact rangeWeight_zero hex
    · rw [if_neg (by simp only [Interval.length]; omega)]
      exact ⟨_, _, _, rfl, hfit1.wf, Or.inr ⟨by omega, rfl, rfl, rfl⟩⟩
  have hnets2 : H2.nets = s.H.nets := by
    have h1 : r.H.nets = s.H.nets := by rw [b2.rest]
    rcases c3 with ⟨-, -, ⟨m, -, h⟩ | ⟨-, h, -⟩⟩ | ⟨-, -, h, -⟩
    · rw [h.nets, h1]
    · rw [h]; exact h1
    · rw [h, h1]
  obtain ⟨x, x1, x2⟩ := maybeRemove_ok hd (!jobs.isEmpty) c2 s.cut (by rw [hnets2]; exact hne)
  refine ⟨{ start := cur.start, fin := e, low := cur.low,
            high := cur.high - ((k_ - k_ / 2 : Nat) : Int), weight := r.w0 },
    { H := x.1, rng := r.rng, jobs := jobs, cut := x.2, splits := s.splits + 1,
      calls := s.calls ++ [{ start := cur.start, fin := cur.fin, low := cur.low, high := cur.high,
                             max0 := m0, max1 := m1, w0 := r.w0, w1 := r.w1 }] }, ?_,
    S, E, r.H, H2, r.w0, r.w1, hS, hE, hSE, hEl, ?_⟩
  · unfold splitStep computeMax
    simp only
    rw [if_neg hw, ok_bind]
    simp only [← hk, ← hm0, ← hm1]
    have hb : bisectRange P.bis s.H m0 m1 cur.start cur.fin ⟨cur.low, cur.high⟩ s.rng = .ok r := by
      unfold bisectRange
      rw [if_pos ⟨r1, r2⟩, hS, hE]
      simpa using b1
    rw [hb, ok_bind, c1, ok_bind]
    simp only
    rw [x1, ok_bind]
    rfl
  · refine ⟨b2, b3, b4, rfl, rfl, ?_, rfl, ?_, c2, ?_, rfl, rfl, b1, ?_, ?_⟩
    · simp only; omega
    · rcases c3 with ⟨a1, a2, a3⟩ | ⟨a1, a2, a3, a4⟩
      · exact Or.inl ⟨a1, a2, a3⟩
      · exact Or.inr ⟨a1, a2, a3⟩
    · rcases x2 with h | h
      · exact Or.inl h
      · right; rw [h]; exact ⟨rfl, rfl⟩
    · intro hc hj
      have hj' : (!jobs.isEmpty) = true := by
        cases hjs : jobs with
        | nil => exact absurd hjs hj
        | cons a l => rfl
      rw [hj'] at x1
      exact maybeRemove_true hd c2 (by rw [hnets2]; exact hne) hc x1
    · intro hj
      have hj : jobs = [] := hj
      rw [hj] at x1
      unfold maybeRemove at x1
      rw [if_neg (by simp)] at x1
      rw [← Except.ok.inj x1]
      exact ⟨rfl, rfl⟩

/-! ### What a split does to the positions -/

/-- The pins, cost and id of a net. -/
def netKey (n : Net) : Nat × List Nat × Int := (n.id, n.vertices, n.cost)

theorem SetAside.keeps {ids : List Nat} {H : Hypergraph} {cut : List Net}
    {x : Hypergraph × List Net} (h : SetAside ids H cut x) :
    ((x.1.nets ++ x.2).map netKey).Perm ((H.nets ++ cut).map netKey) := by
  obtain ⟨l, l1, l2⟩ := h.cut
  rw [l1, List.map_append, List.map_append, List.map_append]
  refine (List.Perm.append (h.nets.map netKey)
    (List.Perm.append_left _ (l2.map netKey))).trans ?_
  rw [List.map_map, show netKey ∘ asideCopy = netKey from rfl]
  have h1 := (List.filter_append_perm (fun n : Net => decide (n.id ∈ ids)) H.nets).map netKey
  rw [List.map_append] at h1
  have h2 : List.map netKey (List.filter (fun n => decide (n.id ∉ ids)) H.nets) =
      List.map netKey (List.filter (fun n => !decide (n.id ∈ ids)) H.nets) := by
    congr 1
    apply List.filter_congr
    intro n _; simp
  rw [h2]
  refine List.Perm.trans ?_ (List.Perm.append_right _ h1)
  generalize List.map netKey (List.filter (fun n => !decide (n.id ∈ ids)) H.nets) = A
  generalize List.map netKey (List.filter (fun n => decide (n.id ∈ ids)) H.nets) = B
  rw [List.perm_iff_count]
  intro a
  simp only [List.count_append]
  omega

section
variable {P : RecEnv} {M : Int} {cur cur' : WorkItem} {s s' : RecState} {S E : Nat}
  {H1 H2 : Hypergraph} {w0 w1 : Int}

theorem SplitFacts.perm2 (h : SplitFacts P M cur s cur' s' S E H1 H2 w0 w1) :
    H2.vertices.Perm H1.vertices := by
  rcases h.reorder with ⟨-, -, ⟨m, -, a⟩ | ⟨-, a, -⟩⟩ | ⟨-, -, a⟩
  · exact splitAt_perm a
  · rw [a]; exact List.Perm.refl _
  · rw [a]

theorem SplitFacts.nets2 (h : SplitFacts P M cur s cur' s' S E H1 H2 w0 w1) :
    H2.nets = s.H.nets := by
  have h1 : H1.nets = s.H.nets := by rw [h.relabels.rest]
  rcases h.reorder with ⟨-, -, ⟨m, -, a⟩ | ⟨-, a, -⟩⟩ | ⟨-, -, a⟩
  · rw [a.nets, h1]
  · rw [a]; exact h1
  · rw [a, h1]

theorem SplitFacts.sizes (h : SplitFacts P M cur s cur' s' S E H1 H2 w0 w1) : sizes s'.H = sizes s.H := by
  have h1 : Spec.sizes H1 = Spec.sizes s.H := by rw [h.relabels.rest]; rfl
  have h2 : Spec.sizes H2 = Spec.sizes H1 := by
    rcases h.reorder with ⟨-, -, ⟨m, -, a⟩ | ⟨-, a, -⟩⟩ | ⟨-, -, a⟩
    · exact a.sizes
    · rw [a]; rfl
    · rw [a]
  rw [← h1, ← h2]
  rcases h.aside with ⟨-, a⟩ | ⟨a, -⟩
  · unfold Spec.sizes
    rw [a.globalSize, a.globalNumberNets, a.nrNz]
  · rw [a]

theorem SplitFacts.core (h : SplitFacts P M cur s cur' s' S E H1 H2 w0 w1) :
    List.Forall₂ SameCore H2.vertices s'.H.vertices := by
  rcases h.aside with ⟨-, a⟩ | ⟨a, -⟩
  · exact a.vertices.imp fun v v' hv => ⟨hv.1, hv.2.1, hv.2.2.1⟩
  · rw [a, List.forall₂_same]
    intro v _; exact ⟨rfl, rfl, rfl⟩

theorem SplitFacts.fit (h : SplitFacts P M cur s cur' s' S E H1 H2 w0 w1) {N f : Nat}
    (hf : Fit N f s.H) : Fit N f s'.H := by
  have f1 := relabels_fit h.relabels hf
  have f2 : Fit N f H2 := perm_fit f1 h.fit2 h.perm2 (by
    rw [h.nets2, h.relabels.rest])
  rcases h.aside with ⟨-, a⟩ | ⟨a, -⟩
  · exact setAside_fit a f2
  · rw [a]; exact f2

theorem SplitFacts.len (h : SplitFacts P M cur s cur' s' S E H1 H2 w0 w1) :
    s'.H.vertices.length = s.H.vertices.length := by
  rw [← h.core.length_eq, h.perm2.length_eq, h.relabels.length]

/-- Positions outside the range keep their vertex. -/
theorem SplitFacts.outside2 (h : SplitFacts P M cur s cur' s' S E H1 H2 w0 w1) {i : Nat}
    (hi : i < S ∨ E ≤ i) : H2.vertices[i]? = s.H.vertices[i]? := by
  rw [← h.relabels.outside i hi]
  rcases h.reorder with ⟨-, -, ⟨m, -, a⟩ | ⟨-, a, -⟩⟩ | ⟨-, -, a⟩
  · exact a.outside i hi
  · rw [a]; rfl
  · rw [a]

theorem SplitFacts.labels1 (h : SplitFacts P M cur s cur' s' S E H1 H2 w0 w1)
    (hE : E ≤ s.H.vertices.length) :
    ∀ v ∈ slice H1.vertices S E, v.part = cur.low ∨ v.part = cur.high := by
  intro v hv
  obtain ⟨i, i1, i2, i3⟩ := mem_slice.1 hv
  have hil : i < s.H.vertices.length := by omega
  obtain ⟨p, hp, hp2⟩ := h.relabels.inside i _ i1 i2 (List.getElem?_eq_getElem hil)
  rw [i3] at hp2
  rw [Option.some.inj hp2]
  exact hp

theorem SplitFacts.inside2 (h : SplitFacts P M cur s cur' s' S E H1 H2 w0 w1)
    (hE : E ≤ s.H.vertices.length) {i : Nat} {v : Vertex} (h1 : S ≤ i) (h2 : i < E)
    (hv : H2.vertices[i]? = some v) : v.part = cur.low ∨ v.part = cur.high := by
  have hm : v ∈ slice H2.vertices S E := mem_slice.2 ⟨i, h1, h2, hv⟩
  refine h.labels1 hE v ?_
  rcases h.reorder with ⟨-, -, ⟨m, -, a⟩ | ⟨-, a, -⟩⟩ | ⟨-, -, a⟩
  · exact a.perm.mem_iff.1 hm
  · rw [a] at hm; exact hm
  · rw [a] at hm; exact hm

/-- The vertex at a position of the new state, in terms of `H2`. -/
theorem SplitFacts.get (h : SplitFacts P M cur s cur' s' S E H1 H2 w0 w1) {i : Nat} {v' : Vertex}
    (hv : s'.H.vertices[i]? = some v') : ∃ v, H2.vertices[i]? = some v ∧ SameCore v v' := by
  have hF := h.core
  rw [List.forall₂_iff_get] at hF
  obtain ⟨hi, hv⟩ := List.getElem?_eq_some_iff.1 hv
  refine ⟨_, List.getElem?_eq_getElem (by rw [hF.1]; exact hi), ?_⟩
  have := hF.2 i (by rw [hF.1]; exact hi) hi
  simpa [hv] using this

theorem rangeWeight_empty {H : Hypergraph} {s : Nat} {p : Int} : rangeWeight H s s p = 0 := by
  simp [rangeWeight, slice]

end

/-! ### The invariant -/

/-- Number of iterations that remain. -/
def work (cur : WorkItem) (jobs : List WorkItem) : Nat :=
  2 * (cur.high - cur.low).toNat + (jobs.map (fun j => 2 * (j.high - j.low).toNat + 1)).sum

/-- The invariant of the two loops. -/
structure RecInv (P : RecEnv) (N f k : Nat) (H0 : Hypergraph) (cur : WorkItem) (s : RecState) :
    Prop where
  fit : Fit N f s.H
  nonempty : P.cutMetric = true → ∀ n ∈ s.H.nets, n.vertices ≠ []
  verts : (s.H.vertices.map (fun v => (v.id, v.weight))).Perm
    (H0.vertices.map (fun v => (v.id, v.weight)))
  nets : ((s.H.nets ++ s.cut).map netKey).Perm (H0.nets.map netKey)
  lambda : P.cutMetric = false → s.cut = [] ∧ s.H.nets = H0.nets
  labelled : ∀ (i : Nat) (v : Vertex), s.H.vertices[i]? = some v →
    (0 ≤ v.part ∧ v.part < k) ∨ (cur.low < cur.high ∧ cur.start ≤ i ∧ i < cur.fin)
  labels : ∀ j ∈ cur :: s.jobs, 0 ≤ j.low ∧ j.low ≤ j.high ∧ j.high < k
  ranges : ∀ j ∈ cur :: s.jobs, j.weight ≠ 0 → j.low < j.high →
    0 ≤ j.start ∧ j.start ≤ j.fin ∧ j.fin ≤ s.H.vertices.length
  sizes : sizes s.H = sizes H0

theorem RecInv.step {P : RecEnv} {N f k : Nat} {H0 : Hypergraph} {M : Int} {cur cur' : WorkItem}
    {s s' : RecState} {S E : Nat} {H1 H2 : Hypergraph} {w0 w1 : Int}
    (hI : RecInv P N f k H0 cur s) (hlh : cur.low < cur.high) (hS : cur.start = S)
    (hE : cur.fin = E) (hSE : S ≤ E) (hEl : E ≤ s.H.vertices.length)
    (h : SplitFacts P M cur s cur' s' S E H1 H2 w0 w1) :
    RecInv P N f k H0 cur' s' ∧ work cur' s'.jobs < work cur s.jobs := by
  have hcl := hI.labels cur (List.mem_cons_self ..)
  have hlow := h.cur_low
  have hhigh := h.cur_high
  refine ⟨⟨h.fit hI.fit, ?_, ?_, ?_, ?_, ?_, ?_, ?_, h.sizes.trans hI.sizes⟩, ?_⟩
  · intro hc n hn
    have hne := hI.nonempty hc
    rw [← h.nets2] at hne
    rcases h.aside with ⟨-, a⟩ | ⟨a, -⟩
    · exact hne n (List.mem_filter.1 (a.nets.mem_iff.1 hn)).1
    · rw [a] at hn; exact hne n hn
  · refine List.Perm.trans ?_ hI.verts
    have e1 : s'.H.vertices.map (fun v => (v.id, v.weight)) =
        H2.vertices.map (fun v => (v.id, v.weight)) :=
      forall2_map_eq h.core fun a b hab => by rw [hab.1, hab.2.1]
    have e2 : H1.vertices.map (fun v => (v.id, v.weight)) =
        s.H.vertices.map (fun v => (v.id, v.weight)) :=
      forall2_map_eq (relabels_forall2 h.relabels) fun a b hab => by rw [hab.1, hab.2.2]
    rw [e1, ← e2]
    exact h.perm2.map _
  · refine List.Perm.trans ?_ hI.nets
    rcases h.aside with ⟨-, a⟩ | ⟨a, b⟩
    · have := a.keeps
      rw [h.nets2] at this
      exact this
    · rw [a, b, h.nets2]
  · intro hc
    obtain ⟨l1, l2⟩ := hI.lambda hc
    rcases h.aside with ⟨a, -⟩ | ⟨a, b⟩
    · rw [hc] at a; cases a
    · exact ⟨b.trans l1, by rw [a, h.nets2, l2]⟩
  · intro i v' hv'
    left
    obtain ⟨v, hv, -, -, hp⟩ := h.get hv'
    rw [hp]
    by_cases hi : S ≤ i ∧ i < E
    · rcases h.inside2 hEl hi.1 hi.2 hv with h1 | h1 <;> rw [h1] <;> omega
    · rw [h.outside2 (by omega)] at hv
      rcases hI.labelled i v hv with h1 | ⟨-, h2, h3⟩
      · exact h1
      · exfalso; omega
  · intro j hj
    rcases List.mem_cons.1 hj with rfl | hj
    · omega
    · rcases h.reorder with ⟨a, b, -⟩ | ⟨a, b, -⟩
      · rw [b] at hj
        rcases List.mem_cons.1 hj with rfl | hj
        · simp only; omega
        · exact hI.labels j (List.mem_cons_of_mem _ hj)
      · rw [b] at hj
        exact hI.labels j (List.mem_cons_of_mem _ hj)
  · rw [h.len]
    intro j hj hw hj2
    rcases List.mem_cons.1 hj with rfl | hj
    · rw [h.cur_start]
      rcases h.reorder with ⟨-, -, ⟨m, b, a⟩ | ⟨b, -, -⟩⟩ | ⟨a, -, -⟩
      · have := a.start_le
        have := a.le_end
        omega
      · have hne : S ≠ E := by
          rintro rfl
          apply hw
          rw [h.cur_weight, h.w0_eq, rangeWeight_empty]
        omega
      · exfalso; omega
    · rcases h.reorder with ⟨a, b, c⟩ | ⟨a, b, -⟩
      · rw [b] at hj
        rcases List.mem_cons.1 hj with rfl | hj
        · simp only at hw ⊢
          rcases c with ⟨m, c1, c2⟩ | ⟨-, -, c3⟩
          · have := c2.start_le
            have := c2.le_end
            omega
          · exact absurd c3 hw
        · exact hI.ranges j (List.mem_cons_of_mem _ hj) hw hj2
      · rw [b] at hj
        exact hI.ranges j (List.mem_cons_of_mem _ hj) hw hj2
  · unfold work
    rcases h.reorder with ⟨a, b, -⟩ | ⟨a, b, -⟩
    · rw [b, List.map_cons, List.sum_cons]
      simp only
      omega
    · rw [b]; omega

theorem RecInv.pop {P : RecEnv} {N f k : Nat} {H0 : Hypergraph} {cur j : WorkItem}
    {s : RecState} {js : List WorkItem} (hI : RecInv P N f k H0 cur s) (hlh : ¬ cur.low < cur.high)
    (hj : s.jobs = j :: js) : RecInv P N f k H0 j { s with jobs := js } ∧
      work j js < work cur s.jobs := by
  refine ⟨⟨hI.fit, hI.nonempty, hI.verts, hI.nets, hI.lambda, ?_, ?_, ?_, hI.sizes⟩, ?_⟩
  · intro i v hv
    rcases hI.labelled i v hv with h | h
    · exact Or.inl h
    · exact absurd h.1 hlh
  · intro j' hj'
    exact hI.labels j' (by rw [hj]; exact List.mem_cons_of_mem _ hj')
  · intro j' hj'
    exact hI.ranges j' (by rw [hj]; exact List.mem_cons_of_mem _ hj')
  · unfold work
    rw [hj, List.map_cons, List.sum_cons]
    omega

/-- The state at the end of the loops. -/
structure RecDone (P : RecEnv) (N f k : Nat) (H0 : Hypergraph) (s : RecState) : Prop where
  fit : Fit N f s.H
  nonempty : P.cutMetric = true → ∀ n ∈ s.H.nets, n.vertices ≠ []
  verts : (s.H.vertices.map (fun v => (v.id, v.weight))).Perm
    (H0.vertices.map (fun v => (v.id, v.weight)))
  nets : ((s.H.nets ++ s.cut).map netKey).Perm (H0.nets.map netKey)
  lambda : P.cutMetric = false → s.cut = [] ∧ s.H.nets = H0.nets
  labelled : ∀ v ∈ s.H.vertices, 0 ≤ v.part ∧ v.part < k
  sizes : sizes s.H = sizes H0

/-- The loops end within the fuel, either normally or with an undefined conversion. -/
theorem recLoop_outcome {P : RecEnv} {N f k : Nat} {H0 : Hypergraph} (hbis : BisectsWell P.bis N f)
    (hd : Fair P.d1) (M : Int) : ∀ (fuel : Nat) (cur : WorkItem) (s : RecState),
    RecInv P N f k H0 cur s → work cur s.jobs < fuel →
    recLoop P M fuel cur s = .error .ub ∨
      ∃ s', recLoop P M fuel cur s = .ok s' ∧ RecDone P N f k H0 s' := by
  intro fuel
  induction fuel with
  | zero => intro cur s _ h; omega
  | succ fuel ih =>
    intro cur s hI hfu
    unfold recLoop
    by_cases hlh : cur.low < cur.high
    · rw [if_pos (by omega)]
      rcases splitStep_spec hbis hd M hI.fit hI.nonempty hlh
        (fun hw => hI.ranges cur (List.mem_cons_self ..) hw hlh) with ⟨-, h⟩ |
        ⟨-, cur', s', h, S, E, H1, H2, w0, w1, a1, a2, a3, a4, a5⟩
      · left; rw [h]; rfl
      · obtain ⟨hI', hw'⟩ := hI.step hlh a1 a2 a3 a4 a5
        rw [h, ok_bind]
        exact ih cur' s' hI' (by omega)
    · rw [if_neg (by omega)]
      cases hj : s.jobs with
      | nil =>
        right
        refine ⟨s, rfl, hI.fit, hI.nonempty, hI.verts, hI.nets, hI.lambda, ?_, hI.sizes⟩
        intro v hv
        obtain ⟨i, hi⟩ := List.mem_iff_getElem?.1 hv
        rcases hI.labelled i v hi with h | h
        · exact h
        · exact absurd h.1 hlh
      | cons j js =>
        obtain ⟨hI', hw'⟩ := hI.pop hlh hj
        exact ih j _ hI' (by simp only; omega)

end PMondriaan

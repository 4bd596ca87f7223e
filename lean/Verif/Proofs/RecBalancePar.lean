import Verif.Proofs.RecBisectPar
import Verif.Proofs.RecBalance

/-
The weights of the parts after the recursion on several processors.
-/

namespace PMondriaan

open Spec

/-! ### One processor -/

/-- The labels stay between `lo` and `hi`. -/
structure LabInv (lo hi : Int) (cur : WorkItem) (s : RecState) : Prop where
  labelled : ∀ (i : Nat) (v : Vertex), s.H.vertices[i]? = some v →
    (lo ≤ v.part ∧ v.part ≤ hi) ∨ (cur.low < cur.high ∧ cur.start ≤ i ∧ i < cur.fin)
  labels : ∀ j ∈ cur :: s.jobs, lo ≤ j.low ∧ j.low ≤ j.high ∧ j.high ≤ hi

theorem recLoop_labels {P : RecEnv} {N f k : Nat} {H0 : Hypergraph} (hbis : BisectsWell P.bis N f)
    (hd : Fair P.d1) (M : Int) {lo hi : Int} : ∀ (fuel : Nat) (cur : WorkItem) (s : RecState),
    RecInv P N f k H0 cur s → LabInv lo hi cur s → ∀ s', recLoop P M fuel cur s = .ok s' →
    ∀ v ∈ s'.H.vertices, lo ≤ v.part ∧ v.part ≤ hi := by
  intro fuel
  induction fuel with
  | zero => intro cur s _ _ s' h; cases h
  | succ fuel ih =>
    intro cur s hI hL s' h
    unfold recLoop at h
    by_cases hlh : cur.low < cur.high
    · rw [if_pos (by omega)] at h
      rcases splitStep_spec hbis hd M hI.fit hI.nonempty hlh
        (fun hw => hI.ranges cur (List.mem_cons_self ..) hw hlh) with ⟨-, h1⟩ |
        ⟨hne, cur', s1, h1, S, E, H1, H2, w0, w1, a1, a2, a3, a4, a5⟩
      · rw [h1] at h; cases h
      · rw [h1, ok_bind] at h
        refine ih cur' s1 (hI.step hlh a1 a2 a3 a4 a5).1 ⟨?_, ?_⟩ s' h
        · intro i v' hv'
          left
          obtain ⟨v, hv, -, -, hp⟩ := a5.get hv'
          have hcl := hL.labels cur (List.mem_cons_self ..)
          rw [hp]
          by_cases hi : S ≤ i ∧ i < E
          · rcases a5.inside2 a4 hi.1 hi.2 hv with h1 | h1 <;> rw [h1] <;> omega
          · rw [a5.outside2 (by omega)] at hv
            rcases hL.labelled i v hv with h1 | ⟨-, h2, h3⟩
            · exact h1
            · exfalso; omega
        · have hcl := hL.labels cur (List.mem_cons_self ..)
          have hlow := a5.cur_low
          have hhigh := a5.cur_high
          intro j hj
          rcases List.mem_cons.1 hj with rfl | hj
          · omega
          · rcases a5.reorder with ⟨a, b, -⟩ | ⟨a, b, -⟩
            · rw [b] at hj
              rcases List.mem_cons.1 hj with rfl | hj
              · simp only; omega
              · exact hL.labels j (List.mem_cons_of_mem _ hj)
            · rw [b] at hj
              exact hL.labels j (List.mem_cons_of_mem _ hj)
    · rw [if_neg (by omega)] at h
      cases hj : s.jobs with
      | nil =>
        rw [hj] at h
        cases h
        intro v hv
        obtain ⟨i, hi⟩ := List.mem_iff_getElem?.1 hv
        rcases hL.labelled i v hi with h | h
        · exact h
        · exact absurd h.1 hlh
      | cons j js =>
        rw [hj] at h
        refine ih j _ (hI.pop hlh hj).1 ⟨?_, ?_⟩ s' h
        · intro i v hv
          rcases hL.labelled i v hv with h | h
          · exact Or.inl h
          · exact absurd h.1 hlh
        · intro j' hj'
          exact hL.labels j' (by rw [hj]; exact List.mem_cons_of_mem _ hj')

/-! ### Groups -/

/-- The total weight of a part. -/
def partOn (Hs : List Hypergraph) (q : Int) : Int := (Hs.map (fun H => partWeight H q)).sum

/-- The weight of the finished vertices of a part. -/
def restOn (xs : List RecProc) (q : Int) : Int := (xs.map (fun x => wt (x.H.vertices.drop x.fin) q)).sum

theorem partOn_append (A B : List Hypergraph) (q : Int) : partOn (A ++ B) q = partOn A q + partOn B q := by
  simp [partOn]

theorem partOn_none {Hs : List Hypergraph} {q : Int} (h : ∀ H ∈ Hs, ∀ v ∈ H.vertices, v.part ≠ q) :
    partOn Hs q = 0 := by
  unfold partOn
  apply List.sum_eq_zero
  intro x hx
  obtain ⟨H, hH, rfl⟩ := List.mem_map.1 hx
  rw [partWeight_eq_wt]
  exact wt_none (h H hH)

theorem restOn_none {xs : List RecProc} {q : Int} (h : ∀ x ∈ xs, ∀ (i : Nat) v, x.H.vertices[i]? = some v →
    x.fin ≤ i → v.part ≠ q) : restOn xs q = 0 := by
  unfold restOn
  apply List.sum_eq_zero
  intro y hy
  obtain ⟨x, hx, rfl⟩ := List.mem_map.1 hy
  apply wt_none
  intro v hv
  obtain ⟨i, hi⟩ := List.mem_iff_getElem?.1 hv
  rw [List.getElem?_drop] at hi
  exact h x hx _ v hi (by omega)

theorem restOn_nonneg {xs : List RecProc} (h : ∀ H ∈ xs.map (·.H), ∀ v ∈ H.vertices, 0 < v.weight) (q : Int) :
    0 ≤ restOn xs q := by
  unfold restOn
  apply List.sum_nonneg
  intro y hy
  obtain ⟨x, hx, rfl⟩ := List.mem_map.1 hy
  exact wt_nonneg (fun v hv => h x.H (List.mem_map_of_mem hx) v (List.mem_of_mem_drop hv)) q

theorem partOn_nonneg {Hs : List Hypergraph} (h : ∀ H ∈ Hs, ∀ v ∈ H.vertices, 0 < v.weight) (q : Int) :
    0 ≤ partOn Hs q := by
  unfold partOn
  apply List.sum_nonneg
  intro y hy
  obtain ⟨H, hH, rfl⟩ := List.mem_map.1 hy
  exact wt_nonneg (h H hH) q

theorem restOn_le {xs : List RecProc} (h : ∀ H ∈ xs.map (·.H), ∀ v ∈ H.vertices, 0 < v.weight) (q : Int) :
    restOn xs q ≤ partOn (xs.map (·.H)) q := by
  unfold restOn partOn
  induction xs with
  | nil => simp
  | cons x xs ih =>
    have h1 := ih (fun H hH => h H (by
      rw [List.map_cons]; exact List.mem_cons_of_mem _ hH))
    have h2 := wt_append (x.H.vertices.take x.fin) (x.H.vertices.drop x.fin) q
    rw [List.take_append_drop] at h2
    have h3 := wt_nonneg (a := x.H.vertices.take x.fin)
      (fun v hv => h x.H (by simp) v (List.mem_of_mem_take hv)) q
    simp only [List.map_cons, List.sum_cons]
    rw [partWeight_eq_wt]
    omega

theorem partOn_perm {Hs Hs' : List Hypergraph} (h : (Hs'.flatMap (·.vertices)).Perm (Hs.flatMap (·.vertices)))
    (q : Int) : partOn Hs' q = partOn Hs q := by
  have e : ∀ Hs : List Hypergraph, partOn Hs q = wt (Hs.flatMap (·.vertices)) q := by
    intro Hs
    unfold partOn
    induction Hs with
    | nil => rfl
    | cons H Hs ih => rw [List.map_cons, List.sum_cons, ih, List.flatMap_cons, wt_append, partWeight_eq_wt]
  rw [e, e, wt_perm h]

/-- Parts other than the two labels of a bisection: only finished vertices have them. -/
theorem BisectFacts.other {labels : Interval} {xs : List RecProc} {rs : List RState} (h : BisectFacts labels xs rs)
    {q : Int} (h0 : q ≠ labels.low) (h1 : q ≠ labels.high) : partOn (rs.map (·.H)) q = restOn xs q := by
  have hrel := h.relabels
  have hrest := h.rest
  clear h
  unfold partOn restOn
  induction hrel with
  | nil => rfl
  | @cons x r xs rs hx _ ih =>
    cases hrest with
    | cons hr1 hr2 =>
      simp only [List.map_cons, List.sum_cons]
      rw [ih hr2, partWeight_eq_wt]
      congr 1
      conv_lhs => rw [← List.take_append_drop x.fin r.H.vertices]
      rw [wt_append, wt_none (a := r.H.vertices.take x.fin), zero_add]
      · congr 1
        apply List.ext_getElem?
        intro i
        rw [List.getElem?_drop, List.getElem?_drop, hx.outside _ (by omega)]
      · intro v hv
        obtain ⟨i, hi⟩ := List.mem_iff_getElem?.1 hv
        rw [List.getElem?_take] at hi
        split at hi
        · rcases hr1 i v hi with ⟨-, h | h⟩ | h
          · rw [h]; exact h0.symm
          · rw [h]; exact h1.symm
          · omega
        · cases hi

/-- A round of a group with at least two processors, with the calls. -/
theorem recPar_round {P : ParRecEnv} {N T k : Nat} {Bad : Err → Prop} (hP : ParRecEnvOk P N T Bad) {eta : ℚ}
    (heta : 0 ≤ eta) {M : Int} {f : Nat} {path : List Bool} {labels : Interval} {weight : Int} {xs : List RecProc}
    (hI : GroupInv N T k labels xs) (h2 : 2 ≤ xs.length) {r : GroupResult}
    (h : recPar P eta M (f + 1) path labels weight xs = .ok r) :
    ∃ sp rs, SplitFactsPar P eta path N labels xs sp rs ∧
      computeMax P.rnd labels.count (labels.count / 2) (labels.count - labels.count / 2) weight M =
        .ok (sp.max0, sp.max1) ∧
      ((labels.count = 2 ∧ groupSplit P eta M path labels weight xs = .ok (sp, rs, none) ∧
          r = ⟨rs.map (·.H), [sp], []⟩) ∨
        (3 ≤ labels.count ∧ ∃ ys a b, redistribute (P.ord path) (P.dVert path) (P.dCost path) sp.plow labels.low
            labels.high (redistArgs P.rnd eta sp.w0 sp.w1 sp.plow rs) = .ok ys ∧
          groupSplit P eta M path labels weight xs = .ok (sp, rs, some (afterRedist rs ys)) ∧
          recPar P eta M f (path ++ [true]) (lowLabels labels) sp.w0 ((afterRedist rs ys).take sp.plow) = .ok a ∧
          recPar P eta M f (path ++ [false]) (highLabels labels) sp.w1 ((afterRedist rs ys).drop sp.plow) = .ok b ∧
          r = ⟨a.Hs ++ b.Hs, sp :: a.splits ++ b.splits, a.calls ++ b.calls⟩)) := by
  have hlh : labels.low < labels.high := by
    rcases hI.proper with h | h
    · rw [h] at h2; simp at h2
    · exact h
  have hu : recPar P eta M (f + 1) path labels weight xs = (do
      let (split, rs, next) ← groupSplit P eta M path labels weight xs
      match next with
      | none => pure ⟨rs.map (·.H), [split], []⟩
      | some zs => do
        let a ← recPar P eta M f (path ++ [true]) (lowLabels labels) split.w0 (zs.take split.plow)
        let b ← recPar P eta M f (path ++ [false]) (highLabels labels) split.w1 (zs.drop split.plow)
        pure ⟨a.Hs ++ b.Hs, split :: a.splits ++ b.splits, a.calls ++ b.calls⟩) := by
    rcases xs with _ | ⟨x, _ | ⟨y, l⟩⟩
    · simp at h2
    · simp at h2
    conv_lhs => unfold recPar
    rw [if_pos (show labels.length > 0 by unfold Interval.length; omega)]
    rfl
  rw [hu] at h
  rcases groupSplit_spec hP heta M path weight hI h2 hlh with ⟨sp, rs, hS, hm, h4⟩ | ⟨e, h3, -⟩
  swap
  · rw [h3] at h; cases h
  refine ⟨sp, rs, hS, hm, ?_⟩
  rcases h4 with ⟨hc, h5⟩ | ⟨hc, ys, h5, h6⟩
  · left
    rw [h5] at h
    exact ⟨hc, h5, (Except.ok.inj h).symm⟩
  · right
    rw [h6, ok_bind] at h
    dsimp only at h
    cases ha : recPar P eta M f (path ++ [true]) (lowLabels labels) sp.w0 ((afterRedist rs ys).take sp.plow) with
    | error e => rw [ha] at h; cases h
    | ok a =>
      rw [ha, ok_bind] at h
      cases hb : recPar P eta M f (path ++ [false]) (highLabels labels) sp.w1 ((afterRedist rs ys).drop sp.plow) with
      | error e => rw [hb] at h; cases h
      | ok b =>
        rw [hb] at h
        exact ⟨hc, ys, a, b, h5, h6, ha, hb, (Except.ok.inj h).symm⟩

/-- A round of a group with at least two processors. -/
theorem recPar_two {P : ParRecEnv} {N T k : Nat} {Bad : Err → Prop} (hP : ParRecEnvOk P N T Bad) {eta : ℚ}
    (heta : 0 ≤ eta) {M : Int} {f : Nat} {path : List Bool} {labels : Interval} {weight : Int} {xs : List RecProc}
    (hI : GroupInv N T k labels xs) (h2 : 2 ≤ xs.length) {r : GroupResult}
    (h : recPar P eta M (f + 1) path labels weight xs = .ok r) :
    ∃ sp rs, SplitFactsPar P eta path N labels xs sp rs ∧
      computeMax P.rnd labels.count (labels.count / 2) (labels.count - labels.count / 2) weight M =
        .ok (sp.max0, sp.max1) ∧
      ((labels.count = 2 ∧ r = ⟨rs.map (·.H), [sp], []⟩) ∨
        (3 ≤ labels.count ∧ ∃ zs a b, AfterFacts N labels sp.plow rs zs ∧
          recPar P eta M f (path ++ [true]) (lowLabels labels) sp.w0 (zs.take sp.plow) = .ok a ∧
          recPar P eta M f (path ++ [false]) (highLabels labels) sp.w1 (zs.drop sp.plow) = .ok b ∧
          r = ⟨a.Hs ++ b.Hs, sp :: a.splits ++ b.splits, a.calls ++ b.calls⟩)) := by
  obtain ⟨sp, rs, hS, hm, ⟨hc, -, h3⟩ | ⟨hc, ys, a, b, h3, -, ha, hb, h4⟩⟩ := recPar_round hP heta hI h2 h
  · exact ⟨sp, rs, hS, hm, Or.inl ⟨hc, h3⟩⟩
  · exact ⟨sp, rs, hS, hm, Or.inr ⟨hc, afterRedist rs ys, a, b, afterRedist_facts hP hS.input h3, ha, hb, h4⟩⟩

/-- What the recursion of a processor that is alone gives. -/
theorem aloneRun_ok {P : ParRecEnv} {N T k : Nat} (hN : N < 2147483648) {M : Int} {path : List Bool}
    {labels : Interval} {weight : Int} {x : RecProc} (hI : GroupInv N T k labels [x]) {r : GroupResult}
    (h : aloneRun P M path labels weight x = .ok r) :
    ∃ cur s s', RecInv (P.recEnv path) N T k x.H cur s ∧
      recLoop (P.recEnv path) M (2 * labels.count) cur s = .ok s' ∧ r = ⟨[s'.H], [], s'.calls⟩ ∧
      cur = { start := 0, fin := x.fin, low := labels.low, high := labels.high, weight := weight } ∧
      s = { H := x.H, rng := x.rng, jobs := [], cut := [], splits := 0, calls := [] } := by
  have hR := alone_recInv (P := P) hN path weight hI
  unfold aloneRun at h
  cases hl : recLoop (P.recEnv path) M (2 * labels.count)
    { start := 0, fin := x.fin, low := labels.low, high := labels.high, weight := weight }
    { H := x.H, rng := x.rng, jobs := [], cut := [], splits := 0, calls := [] } with
  | error e => rw [hl] at h; cases h
  | ok s' =>
    rw [hl] at h
    exact ⟨_, _, s', hR, hl, (Except.ok.inj h).symm, rfl, rfl⟩

/-- A group of one processor has no finished vertices. -/
def AloneFull (xs : List RecProc) : Prop := xs.length = 1 → ∀ x ∈ xs, x.fin = x.H.vertices.length

theorem alone_labels {P : ParRecEnv} {N T k : Nat} {Bad : Err → Prop} (hP : ParRecEnvOk P N T Bad)
    (hN : N < 2147483648) {M : Int} {path : List Bool} {labels : Interval} {weight : Int} {x : RecProc}
    (hI : GroupInv N T k labels [x]) (hx : x.fin = x.H.vertices.length) {r : GroupResult}
    (h : aloneRun P M path labels weight x = .ok r) :
    ∀ H ∈ r.Hs, ∀ v ∈ H.vertices, labels.low ≤ v.part ∧ v.part ≤ labels.high := by
  obtain ⟨cur, s, s', hR, hl, rfl, rfl, rfl⟩ := aloneRun_ok hN hI h
  have hlh : labels.low < labels.high := by
    rcases hI.proper with h | h
    · cases h
    · exact h
  intro H hH
  simp only [List.mem_singleton] at hH
  subst hH
  refine recLoop_labels (hP.alone path) (fun _ _ => .refl _) M _ _ _ hR ⟨?_, ?_⟩ s' hl
  · intro i v hv
    right
    have := (List.getElem?_eq_some_iff.1 hv).1
    dsimp only at this ⊢
    omega
  · intro j hj
    simp only [List.mem_singleton] at hj
    subst hj
    dsimp only
    omega

/-- The groups after a split: finished vertices. -/
theorem AfterFacts.restOn_pos {N : Nat} {labels : Interval} {plow : Nat} {rs : List RState} {zs : List RecProc}
    (hA : AfterFacts N labels plow rs zs) (hp : plow ≠ 0) {ys : List RecProc} (hy : ∀ y ∈ ys, y ∈ zs) (q : Int) :
    restOn ys q = 0 := by
  apply restOn_none
  intro x hx i v hv hi
  have h1 := hA.all hp x (hy x hx)
  have := (List.getElem?_eq_some_iff.1 hv).1
  omega

theorem AfterFacts.restOn_zero {N : Nat} {labels : Interval} {plow : Nat} {rs : List RState} {zs : List RecProc}
    (hA : AfterFacts N labels plow rs zs) (hp : plow = 0) {q : Int} (hq : q ≠ labels.low) :
    restOn zs q = 0 := by
  apply restOn_none
  intro x hx i v hv hi
  have h1 := hA.rest hp x hx i v hv
  have h2 : v.part = labels.low := by
    by_contra hne
    have := h1.2 hne
    omega
  rw [h2]
  exact hq.symm

theorem AfterFacts.alone {N : Nat} {labels : Interval} {plow : Nat} {rs : List RState} {zs : List RecProc}
    (hA : AfterFacts N labels plow rs zs) (h2 : 2 ≤ zs.length) :
    AloneFull (zs.take plow) ∧ AloneFull (zs.drop plow) := by
  by_cases hp : plow = 0
  · subst hp
    constructor
    · intro h; simp at h
    · intro h; rw [List.drop_zero] at h; omega
  · exact ⟨fun _ x hx => hA.all hp x (List.mem_of_mem_take hx), fun _ x hx => hA.all hp x (List.mem_of_mem_drop hx)⟩

/-- Parts outside the labels of a group: only finished vertices have them, and these lose them when the group has
three or more labels. -/
theorem recPar_outside {P : ParRecEnv} {N T k : Nat} {Bad : Err → Prop} (hP : ParRecEnvOk P N T Bad)
    (hN : N < 2147483648) {eta : ℚ} (heta : 0 ≤ eta) (M : Int) : ∀ (fuel : Nat) (path : List Bool)
    (labels : Interval) (weight : Int) (xs : List RecProc), GroupInv N T k labels xs → AloneFull xs →
    labels.count ≤ fuel → ∀ r, recPar P eta M fuel path labels weight xs = .ok r → ∀ q, q < labels.low ∨ labels.high < q →
      partOn r.Hs q ≤ restOn xs q ∧ (xs.length ≤ 1 ∨ 3 ≤ labels.count → partOn r.Hs q = 0) := by
  intro fuel
  induction fuel with
  | zero => intro _ _ _ _ _ _ _ r h; cases h
  | succ f ih =>
    intro path labels weight xs hI hX hf r h q hq
    have hnn := restOn_nonneg hI.pos q
    by_cases h2 : 2 ≤ xs.length
    · obtain ⟨sp, rs, hS, -, ⟨hc, rfl⟩ | ⟨hc, zs, a, b, hA, ha, hb, rfl⟩⟩ := recPar_two hP heta hI h2 h
      · have hlh := hI.le
        have := count_eq hI.le
        refine ⟨(hS.bis.other (by omega) (by omega)).le, ?_⟩
        intro h; omega
      · obtain ⟨hK, g0, g1⟩ := hI.split hc hS.three hS.bis hA
        have hlen : zs.length = xs.length := hA.length.trans hS.bis.relabels.length_eq.symm
        obtain ⟨f0, f1⟩ := hA.alone (by omega)
        have hle := hI.le
        have hcc := count_eq hle
        have l0 := lowLabels_length hle
        have l1 := highLabels_length hle
        unfold Interval.length at l0 l1
        have ll : (lowLabels labels).low = labels.low := rfl
        have lh : (highLabels labels).high = labels.high := rfl
        have i0 := ih _ _ _ _ g0 f0 (by unfold Interval.count Interval.length; omega) a ha q (by omega)
        have i1 := ih _ _ _ _ g1 f1 (by unfold Interval.count Interval.length; omega) b hb q (by omega)
        have p0 : 0 ≤ partOn (a.Hs ++ b.Hs) q := by
          rcases recPar_spec hP hN heta M (f + 1) path labels weight xs hI hf with ⟨r', h', hk, -⟩ | ⟨e, h', -⟩
          · rw [h] at h'
            injection h' with h'
            subst h'
            exact partOn_nonneg (hk.pos hI.pos) q
          · rw [h] at h'; cases h'
        have z : partOn (a.Hs ++ b.Hs) q ≤ 0 := by
          rw [partOn_append]
          by_cases hp : sp.plow = 0
          · have := hA.restOn_zero hp (q := q) (by omega)
            rw [hp, List.take_zero] at i0
            rw [hp, List.drop_zero] at i1
            have e : restOn [] q = 0 := rfl
            omega
          · have e0 := hA.restOn_pos hp (ys := zs.take sp.plow) (fun y hy => List.mem_of_mem_take hy) q
            have e1 := hA.restOn_pos hp (ys := zs.drop sp.plow) (fun y hy => List.mem_of_mem_drop hy) q
            omega
        dsimp only
        exact ⟨by omega, fun _ => by omega⟩
    · suffices hz : partOn r.Hs q = 0 from ⟨by omega, fun _ => hz⟩
      match xs, hI, h2, h with
      | [], hI, h2, h =>
        cases h
        rfl
      | [x], hI, h2, h =>
        apply partOn_none
        intro H hH v hv
        have := alone_labels hP hN hI (hX rfl x (by simp)) h H hH v hv
        omega
      | x :: y :: l, hI, h2, h => simp at h2

/-- The bounds of a bisection. -/
theorem bounds_le {rnd : ℚ → ℚ} (hr : RoundsWithin (1 / 2 ^ 53) rnd) {k c : Nat} {M W weight : Int} (hM : 0 ≤ M)
    (hu : 40 * (1 / 2 ^ 53) * (((M * k : Int) : ℚ) + W) < 1) (hc : 2 ≤ c) (hck : c ≤ k) (hw0 : 0 ≤ weight)
    (hw : weight ≤ W) (hwM : weight ≤ M * c) {m : Int × Int}
    (hm : computeMax rnd c (c / 2) (c - c / 2) weight M = .ok m) :
    0 < weight ∧ m.1 ≤ M * (c / 2 : Nat) ∧ m.2 ≤ M * (c - c / 2 : Nat) := by
  unfold computeMax at hm
  split at hm
  · cases hm
  · rename_i hne
    injection hm with hm
    subst hm
    have hpos : 0 < weight := by omega
    have small : ∀ ks : Nat, ks ≤ c → 40 * (1 / 2 ^ 53) * (((M * ks : Int) : ℚ) + weight) < 1 := by
      intro ks hks
      refine lt_of_le_of_lt ?_ hu
      have h1 : ((M * ks : Int) : ℚ) ≤ ((M * k : Int) : ℚ) := by
        have : M * ks ≤ M * k := mul_le_mul_of_nonneg_left (by omega) hM
        exact_mod_cast this
      have h2 : (weight : ℚ) ≤ W := by exact_mod_cast hw
      apply mul_le_mul_of_nonneg_left _ (by norm_num)
      linarith
    exact ⟨hpos, boundFor_side hr (by omega) (by omega) hpos hM hwM (small _ (by omega)),
      boundFor_side hr (by omega) (by omega) hpos hM hwM (small _ (by omega))⟩

/-- A side that gets no processor because of rounding is light. -/
theorem pLow_zero_le {rnd : ℚ → ℚ} (hk : KeepsInts rnd) (hr : RoundsWithin (1 / 2 ^ 53) rnd) {w0 w1 M : Int}
    (h0 : 0 ≤ w0) (h1 : 0 ≤ w1) (hW : 0 < w0 + w1) (hW' : w0 + w1 ≤ 2 ^ 53) {p : Nat} (hp2 : 2 ≤ p) (hp : p ≤ 2 ^ 50)
    (hM : w0 + w1 ≤ 4 * M) (h : pLow rnd w0 w1 p = 0) : w0 ≤ M := by
  by_contra hc
  have h2 := (C55_both_partial hk hr h0 h1 hW hW' hp).1 ?_
  · omega
  · have e1 : (w0 : ℚ) + w1 ≤ 4 * w0 - 4 := by
      have : w0 + w1 ≤ 4 * w0 - 4 := by omega
      exact_mod_cast this
    have e2 : (2 : ℚ) ≤ p := by exact_mod_cast hp2
    have e3 : (w0 : ℚ) ≤ 2 ^ 53 := by
      have : w0 ≤ 2 ^ 53 := by omega
      exact_mod_cast this
    have e4 : (0 : ℚ) ≤ w0 := by exact_mod_cast h0
    have e5 : 4 * (w0 : ℚ) ≤ 2 * p * w0 := by nlinarith
    have e6 : (1 - 2 / 2 ^ 53 : ℚ) * (4 * w0) ≤ (1 - 2 / 2 ^ 53) * (2 * p * w0) :=
      mul_le_mul_of_nonneg_left e5 (by norm_num)
    have e7 : (1 - 2 / 2 ^ 53 : ℚ) * (4 * w0) = 4 * w0 - 8 * (w0 / 2 ^ 53) := by ring
    have e8 : (w0 : ℚ) / 2 ^ 53 ≤ 1 := by rw [div_le_one (by norm_num)]; exact e3
    have e9 : (w0 : ℚ) + w1 ≤ 2 ^ 53 := by exact_mod_cast hW'
    have e10 : 0 ≤ (w0 : ℚ) / 2 ^ 53 := by positivity
    have e11 : (w0 : ℚ) / 2 ^ 53 ≤ 1 / 2 ∨ (1 / 2 : ℚ) < (w0 : ℚ) / 2 ^ 53 := le_or_gt _ _
    rcases e11 with e11 | e11
    · linarith
    · rw [lt_div_iff₀ (by norm_num)] at e11
      linarith

theorem recPar_balance {P : ParRecEnv} {N T k : Nat} {Bad : Err → Prop} (hP : ParRecEnvOk P N T Bad)
    (hN : N < 2147483648) {eta : ℚ} (heta : 0 ≤ eta) {M W : Int} (hM : 0 ≤ M)
    (hu : 40 * (1 / 2 ^ 53) * (((M * k : Int) : ℚ) + W) < 1) : ∀ (fuel : Nat) (path : List Bool)
    (labels : Interval) (weight : Int) (xs : List RecProc), GroupInv N T k labels xs → AloneFull xs →
    labels.count ≤ fuel → 0 ≤ weight → weight ≤ W → weight ≤ M * labels.count → weightOn (xs.map (·.H)) ≤ W →
    ∀ r, recPar P eta M fuel path labels weight xs = .ok r → (∀ c ∈ r.splits, ParSplit.Respects c) →
      (∀ c ∈ r.calls, BisectCall.Respects c) →
    ∀ q, labels.low ≤ q → q ≤ labels.high → partOn r.Hs q ≤ M := by
  intro fuel
  induction fuel with
  | zero => intro _ _ _ _ _ _ _ _ _ _ _ r h; cases h
  | succ f ih =>
    intro path labels weight xs hI hX hf hw0 hwW hwM hxW r h hs hcalls q hq0 hq1
    have hle := hI.le
    have hlo := hI.low
    have hhi := hI.high
    have hcc := count_eq hle
    have hck : labels.count ≤ k := by omega
    by_cases h2 : 2 ≤ xs.length
    · have hlh : labels.low < labels.high := by
        rcases hI.proper with h | h
        · rw [h] at h2; simp at h2
        · exact h
      obtain ⟨sp, rs, hS, hm, hcase⟩ := recPar_two hP heta hI h2 h
      obtain ⟨hpos, m0, m1⟩ := bounds_le hP.rounds hM hu (by omega) hck hw0 hwW hwM hm
      have hsp : ParSplit.Respects sp := by
        rcases hcase with ⟨-, rfl⟩ | ⟨-, zs, a, b, -, -, -, rfl⟩
        · exact hs sp (by simp)
        · exact hs sp (by simp)
      obtain ⟨r0, r1⟩ := hsp
      have hside := hS.sides
      have hk0 := (hS.bis.kept N hI.dist).weightOn
      have hsl := sides_le hS.bis.pos (low := labels.low) (high := labels.high) (by omega)
      rw [← hS.w0, ← hS.w1] at hsl
      dsimp only at m0 m1
      rcases hcase with ⟨hc, rfl⟩ | ⟨hc, zs, a, b, hA, ha, hb, rfl⟩
      · rw [hc] at m0 m1
        have hq : q = labels.low ∨ q = labels.high := by omega
        dsimp only
        rcases hq with rfl | rfl
        · have : partOn (rs.map (·.H)) labels.low = sp.w0 := hS.w0.symm
          norm_num at m0
          omega
        · have : partOn (rs.map (·.H)) labels.high = sp.w1 := hS.w1.symm
          norm_num at m1
          omega
      · obtain ⟨hK, g0, g1⟩ := hI.split hc hS.three hS.bis hA
        have hlen : zs.length = xs.length := hA.length.trans hS.bis.relabels.length_eq.symm
        obtain ⟨f0, f1⟩ := hA.alone (by omega)
        have l0 := lowLabels_length hle
        have l1 := highLabels_length hle
        have c0 : (lowLabels labels).count = labels.count / 2 := by
          show ((lowLabels labels).length + 1).toNat = _
          omega
        have c1 : (highLabels labels).count = labels.count - labels.count / 2 := by
          show ((highLabels labels).length + 1).toNat = _
          omega
        unfold Interval.length at l0 l1
        have ll : (lowLabels labels).low = labels.low := rfl
        have lh : (highLabels labels).high = labels.high := rfl
        have hz : weightOn (zs.map (·.H)) = weightOn (xs.map (·.H)) := hK.weightOn
        have hsplit : zs.map (·.H) = (zs.take sp.plow).map (·.H) ++ (zs.drop sp.plow).map (·.H) := by
          rw [← List.map_append, List.take_append_drop]
        rw [hsplit, weightOn_append] at hz
        have n0 := weightOn_nonneg g0.pos
        have n1 := weightOn_nonneg g1.pos
        have ia := ih _ _ _ _ g0 f0 (by omega) hside.1 (by omega) (by rw [c0]; omega) (by omega) a ha
          (fun c hc => hs c (by simp [hc])) (fun c hc => hcalls c (by simp [hc])) q
        have ib := ih _ _ _ _ g1 f1 (by omega) hside.2.1 (by omega) (by rw [c1]; omega) (by omega) b hb
          (fun c hc => hs c (by simp [hc])) (fun c hc => hcalls c (by simp [hc])) q
        have oa := recPar_outside hP hN heta M _ _ _ _ _ g0 f0 (by omega) a ha q
        have ob := recPar_outside hP hN heta M _ _ _ _ _ g1 f1 (by omega) b hb q
        dsimp only
        rw [partOn_append]
        by_cases hp : sp.plow = 0
        · have ea : partOn a.Hs q = 0 := by
            have : zs.take sp.plow = [] := by rw [hp, List.take_zero]
            rw [this] at ha
            cases f with
            | zero => cases ha
            | succ f => cases ha; rfl
          by_cases hqh : (highLabels labels).low ≤ q
          · have := ib hqh (by omega)
            omega
          · obtain ⟨o1, o2⟩ := ob (by omega)
            rw [hp, List.drop_zero] at o1
            by_cases hql : q = labels.low
            · by_cases h5 : 5 ≤ labels.count
              · have := o2 (Or.inr (by omega))
                omega
              · have e1 : restOn zs q ≤ sp.w0 := by
                  refine le_trans (restOn_le (hK.pos hI.pos) q) ?_
                  rw [partOn_perm hA.redist.vertices, hS.w0, hql]
                  exact le_refl _
                by_cases h3 : labels.count = 3
                · rw [h3] at m0
                  norm_num at m0
                  omega
                · have h4 : labels.count = 4 := by omega
                  have hpl : pLow P.rnd sp.w0 sp.w1 xs.length = 0 := by
                    rcases hS.rounded hp with h | h
                    · omega
                    · exact h
                  rw [h4] at m0 m1
                  norm_num at m0 m1
                  have := pLow_zero_le hP.keeps hP.rounds hside.1 hside.2.1 hside.2.2.1 hside.2.2.2.le h2 hI.procs
                    (M := M) (by omega) hpl
                  omega
            · have := hA.restOn_zero hp hql
              omega
        · have e0 := hA.restOn_pos hp (ys := zs.take sp.plow) (fun y hy => List.mem_of_mem_take hy) q
          have e1 := hA.restOn_pos hp (ys := zs.drop sp.plow) (fun y hy => List.mem_of_mem_drop hy) q
          by_cases hqh : (highLabels labels).low ≤ q
          · have h1 := ib hqh (by omega)
            have h2 := (oa (by omega)).1
            omega
          · have h1 := (ob (by omega)).1
            have h2 := ia (by omega) (by omega)
            omega
    · match xs, hI, hX, hxW, h2, h with
      | [], hI, hX, hxW, h2, h =>
        cases h
        exact hM
      | x :: y :: l, hI, hX, hxW, h2, h => simp at h2
      | [x], hI, hX, hxW, h2, h =>
        have hlh : labels.low < labels.high := by
          rcases hI.proper with h | h
          · cases h
          · exact h
        obtain ⟨cur, s, s', hR, hl, rfl, rfl, rfl⟩ := aloneRun_ok hN hI h
        have hfin := hX rfl x (by simp)
        have e : partOn [s'.H] q = partWeight s'.H q := by simp [partOn]
        dsimp only
        rw [e]
        refine recLoop_bounds (hP.alone path) (fun _ _ => .refl _) (lo := labels.low) (hi := labels.high) hP.rounds hM
          (W := W) ?_ ?_ _ _ _ hR ⟨?_, ?_, ?_, ?_⟩ s' hl hcalls q hq0 hq1
        · refine lt_of_le_of_lt ?_ hu
          have h1 : (M : ℚ) ≤ ((M * k : Int) : ℚ) := by
            have : M * 1 ≤ M * k := mul_le_mul_of_nonneg_left (by omega) hM
            rw [mul_one] at this
            exact_mod_cast this
          apply mul_le_mul_of_nonneg_left _ (by norm_num)
          linarith
        · simpa [weightOn] using hxW
        · intro j hj _ i v hv _ _
          simp only [List.mem_singleton] at hj
          subst hj
          have := (List.getElem?_eq_some_iff.1 hv).1
          dsimp only at this ⊢
          omega
        · simp
        · intro p h0 h1
          right
          exact ⟨_, List.mem_cons_self .., hlh, h0, h1⟩
        · intro j hj
          simp only [List.mem_singleton] at hj
          subst hj
          exact ⟨hw0, hwW⟩

theorem recPar_nonneg {P : ParRecEnv} {N T k : Nat} {Bad : Err → Prop} (hP : ParRecEnvOk P N T Bad)
    (hN : N < 2147483648) {eta : ℚ} (heta : 0 ≤ eta) {M : Int} {fuel : Nat} {path : List Bool}
    {labels : Interval} {weight : Int} {xs : List RecProc} (hI : GroupInv N T k labels xs)
    (hf : labels.count ≤ fuel) {r : GroupResult} (h : recPar P eta M fuel path labels weight xs = .ok r) (q : Int) :
    0 ≤ partOn r.Hs q := by
  rcases recPar_spec hP hN heta M fuel path labels weight xs hI hf with ⟨r', h', hk, -⟩ | ⟨e, h', -⟩
  · rw [h] at h'
    injection h' with h'
    subst h'
    exact partOn_nonneg (hk.pos hI.pos) q
  · rw [h] at h'; cases h'

theorem recPar_nil {P : ParRecEnv} {eta : ℚ} {M : Int} {fuel : Nat} {path : List Bool}
    {labels : Interval} {weight : Int} {r : GroupResult}
    (h : recPar P eta M fuel path labels weight [] = .ok r) : r = ⟨[], [], []⟩ := by
  cases fuel with
  | zero => cases h
  | succ f => exact (Except.ok.inj h).symm

/-- What is known of the parts after a split. -/
def SplitEmpty (c : ParSplit) (Hs : List Hypergraph) : Prop :=
  (c.plow = 0 → 4 ≤ c.high - c.low → ∀ q, c.low ≤ q → 2 * q < c.low + c.high → partOn Hs q = 0) ∧
  (c.plow = 0 → c.high - c.low = 3 → partOn Hs (c.low + 1) = 0) ∧
  (c.plow = c.p → 2 ≤ c.high - c.low → ∀ q, c.low + c.high ≤ 2 * q → q ≤ c.high → partOn Hs q = 0)

theorem SplitEmpty.more {c : ParSplit} {A B : List Hypergraph} (h : SplitEmpty c A)
    (hB : ∀ q, c.low ≤ q → q ≤ c.high → partOn B q = 0) : SplitEmpty c (A ++ B) ∧ SplitEmpty c (B ++ A) := by
  obtain ⟨h1, h2, h3⟩ := h
  refine ⟨⟨?_, ?_, ?_⟩, ?_, ?_, ?_⟩
  · intro a b q c d; rw [partOn_append, h1 a b q c d, hB q (by omega) (by omega)]; rfl
  · intro a b; rw [partOn_append, h2 a b, hB _ (by omega) (by omega)]; rfl
  · intro a b q c d; rw [partOn_append, h3 a b q c d, hB q (by omega) (by omega)]; rfl
  · intro a b q c d; rw [partOn_append, h1 a b q c d, hB q (by omega) (by omega)]; rfl
  · intro a b; rw [partOn_append, h2 a b, hB _ (by omega) (by omega)]; rfl
  · intro a b q c d; rw [partOn_append, h3 a b q c d, hB q (by omega) (by omega)]; rfl

/-- A split that leaves one side without processors: no vertex ends up with the labels of that side. -/
theorem recPar_empty {P : ParRecEnv} {N T k : Nat} {Bad : Err → Prop} (hP : ParRecEnvOk P N T Bad)
    (hN : N < 2147483648) {eta : ℚ} (heta : 0 ≤ eta) (M : Int) : ∀ (fuel : Nat) (path : List Bool)
    (labels : Interval) (weight : Int) (xs : List RecProc), GroupInv N T k labels xs → AloneFull xs →
    labels.count ≤ fuel → ∀ r, recPar P eta M fuel path labels weight xs = .ok r → ∀ c ∈ r.splits,
      (labels.low ≤ c.low ∧ c.low < c.high ∧ c.high ≤ labels.high) ∧ SplitEmpty c r.Hs := by
  intro fuel
  induction fuel with
  | zero => intro _ _ _ _ _ _ _ r h; cases h
  | succ f ih =>
    intro path labels weight xs hI hX hf r h c hc
    have hle := hI.le
    have hcc := count_eq hle
    by_cases h2 : 2 ≤ xs.length
    · have hlh : labels.low < labels.high := by
        rcases hI.proper with h | h
        · rw [h] at h2; simp at h2
        · exact h
      obtain ⟨sp, rs, hS, -, ⟨hcnt, rfl⟩ | ⟨hcnt, zs, a, b, hA, ha, hb, rfl⟩⟩ := recPar_two hP heta hI h2 h
      · have hlow := hS.low
        have hhigh := hS.high
        simp only [List.mem_singleton] at hc
        subst hc
        refine ⟨by omega, ?_, ?_, ?_⟩
        · intro _ _; omega
        · intro _ _; omega
        · intro _ _; omega
      · obtain ⟨hK, g0, g1⟩ := hI.split hcnt hS.three hS.bis hA
        have hlen : zs.length = xs.length := hA.length.trans hS.bis.relabels.length_eq.symm
        obtain ⟨f0, f1⟩ := hA.alone (by omega)
        have l0 := lowLabels_length hle
        have l1 := highLabels_length hle
        have c0 : (lowLabels labels).count = labels.count / 2 := by
          show ((lowLabels labels).length + 1).toNat = _
          omega
        have c1 : (highLabels labels).count = labels.count - labels.count / 2 := by
          show ((highLabels labels).length + 1).toNat = _
          omega
        unfold Interval.length at l0 l1
        have ll : (lowLabels labels).low = labels.low := rfl
        have lh : (highLabels labels).high = labels.high := rfl
        have oa := recPar_outside hP hN heta M _ _ _ _ _ g0 f0 (by omega) a ha
        have ob := recPar_outside hP hN heta M _ _ _ _ _ g1 f1 (by omega) b hb
        have na := recPar_nonneg hP hN heta g0 (by omega) ha
        have nb := recPar_nonneg hP hN heta g1 (by omega) hb
        have ea : sp.plow = 0 → a = ⟨[], [], []⟩ := by
          intro hp
          rw [hp, List.take_zero] at ha
          exact recPar_nil ha
        have eb : sp.plow = sp.p → b = ⟨[], [], []⟩ := by
          intro hp
          rw [hp, hS.p, ← hlen, List.drop_length] at hb
          exact recPar_nil hb
        have za : ∀ q, (highLabels labels).low ≤ q → q ≤ labels.high → partOn a.Hs q = 0 := by
          intro q h3 h4
          by_cases hp : sp.plow = 0
          · rw [ea hp]; rfl
          · have e0 := hA.restOn_pos hp (ys := zs.take sp.plow) (fun y hy => List.mem_of_mem_take hy) q
            have := (oa q (by omega)).1
            have := na q
            omega
        have zb : sp.plow ≠ 0 → ∀ q, labels.low ≤ q → q < (highLabels labels).low → partOn b.Hs q = 0 := by
          intro hp q h3 h4
          have e0 := hA.restOn_pos hp (ys := zs.drop sp.plow) (fun y hy => List.mem_of_mem_drop hy) q
          have := (ob q (by omega)).1
          have := nb q
          omega
        have hc : c = sp ∨ c ∈ a.splits ∨ c ∈ b.splits := by simpa [or_assoc] using hc
        have hlow := hS.low
        have hhigh := hS.high
        rcases hc with rfl | hc | hc
        · refine ⟨by omega, ?_, ?_, ?_⟩
          · intro hp h5 q h6 h7
            rw [partOn_append, ea hp, (ob q (by omega)).2 (Or.inr (by omega))]
            rfl
          · intro hp h5
            have h6 := ob (c.low + 1) (by omega)
            have e0 := hA.restOn_zero hp (q := c.low + 1) (by omega)
            have h7 := nb (c.low + 1)
            have h8 := h6.1
            rw [hp, List.drop_zero, e0] at h8
            rw [partOn_append, ea hp]
            show 0 + partOn b.Hs _ = 0
            omega
          · intro hp h5 q h6 h7
            rw [partOn_append, eb hp, za q (by omega) (by omega)]
            rfl
        · have hp : sp.plow ≠ 0 := by
            intro hp
            rw [ea hp] at hc
            cases hc
          obtain ⟨h3, h4⟩ := ih _ _ _ _ g0 f0 (by omega) a ha c hc
          exact ⟨by omega, (h4.more fun q h5 h6 => zb hp q (by omega) (by omega)).1⟩
        · obtain ⟨h3, h4⟩ := ih _ _ _ _ g1 f1 (by omega) b hb c hc
          exact ⟨by omega, (h4.more fun q h5 h6 => za q (by omega) (by omega)).2⟩
    · match xs, hI, h2, h with
      | [], hI, h2, h =>
        rw [recPar_nil h] at hc
        cases hc
      | [x], hI, h2, h =>
        obtain ⟨cur, s, s', hR, hl, rfl, rfl, rfl⟩ := aloneRun_ok hN hI h
        cases hc
      | x :: y :: l, hI, h2, h => simp at h2

/-- With three or four labels, the vertices of a side without processors keep their label. -/
theorem recPar_keep {P : ParRecEnv} {N T k : Nat} {Bad : Err → Prop} (hP : ParRecEnvOk P N T Bad)
    (hN : N < 2147483648) {eta : ℚ} (heta : 0 ≤ eta) (M : Int) : ∀ (fuel : Nat) (path : List Bool)
    (labels : Interval) (weight : Int) (xs : List RecProc), GroupInv N T k labels xs → AloneFull xs →
    labels.count ≤ fuel → ∀ r, recPar P eta M fuel path labels weight xs = .ok r → ∀ c ∈ r.splits,
      c.plow = 0 → 2 ≤ c.high - c.low → c.high - c.low ≤ 3 → partOn r.Hs c.low = c.w0 := by
  intro fuel
  induction fuel with
  | zero => intro _ _ _ _ _ _ _ r h; cases h
  | succ f ih =>
    intro path labels weight xs hI hX hf r h c hc hp0 hd2 hd3
    have hle := hI.le
    have hcc := count_eq hle
    by_cases h2 : 2 ≤ xs.length
    · obtain ⟨sp, rs, hS, -, ⟨hcnt, rfl⟩ | ⟨hcnt, zs, a, b, hA, ha, hb, rfl⟩⟩ := recPar_two hP heta hI h2 h
      · have hlow := hS.low
        have hhigh := hS.high
        simp only [List.mem_singleton] at hc
        subst hc
        omega
      · obtain ⟨hK, g0, g1⟩ := hI.split hcnt hS.three hS.bis hA
        have hlen : zs.length = xs.length := hA.length.trans hS.bis.relabels.length_eq.symm
        obtain ⟨f0, f1⟩ := hA.alone (by omega)
        have l0 := lowLabels_length hle
        have l1 := highLabels_length hle
        have c0 : (lowLabels labels).count = labels.count / 2 := by
          show ((lowLabels labels).length + 1).toNat = _
          omega
        have c1 : (highLabels labels).count = labels.count - labels.count / 2 := by
          show ((highLabels labels).length + 1).toNat = _
          omega
        unfold Interval.length at l0 l1
        have ll : (lowLabels labels).low = labels.low := rfl
        have lh : (highLabels labels).high = labels.high := rfl
        have ea : sp.plow = 0 → a = ⟨[], [], []⟩ := by
          intro hp
          rw [hp, List.take_zero] at ha
          exact recPar_nil ha
        have hc : c = sp ∨ c ∈ a.splits ∨ c ∈ b.splits := by simpa [or_assoc] using hc
        have hlow := hS.low
        have hhigh := hS.high
        rcases hc with rfl | hc | hc
        · rw [partOn_append, ea hp0]
          show 0 + partOn b.Hs _ = _
          rw [hp0, List.drop_zero] at hb g1
          cases f with
          | zero => cases hb
          | succ f =>
            obtain ⟨sp', rs', hS', -, ⟨-, rfl⟩ | ⟨hcnt', -⟩⟩ := recPar_two hP heta g1 (by omega) hb
            · dsimp only
              rw [hS'.bis.other (q := c.low) (by omega) (by omega), zero_add, hlow]
              have e1 := partOn_perm hA.redist.vertices labels.low
              rw [hS.w0]
              show _ = partOn (rs.map (·.H)) labels.low
              rw [← e1]
              unfold restOn partOn
              rw [List.map_map]
              congr 1
              apply List.map_congr_left
              intro z hz
              show _ = partWeight z.H labels.low
              rw [partWeight_eq_wt]
              conv_rhs => rw [← List.take_append_drop z.fin z.H.vertices]
              rw [wt_append, wt_none (a := z.H.vertices.take z.fin), zero_add]
              intro v hv
              obtain ⟨i, hi⟩ := List.mem_iff_getElem?.1 hv
              rw [List.getElem?_take] at hi
              split at hi
              · exact (hA.rest hp0 z hz i v hi).1 (by assumption)
              · cases hi
            · exfalso; omega
        · have hp : sp.plow ≠ 0 := by
            intro hp
            rw [ea hp] at hc
            cases hc
          have h3 := (recPar_empty hP hN heta M _ _ _ _ _ g0 f0 (by omega) a ha c hc).1
          have e0 := hA.restOn_pos hp (ys := zs.drop sp.plow) (fun y hy => List.mem_of_mem_drop hy) c.low
          have h4 := (recPar_outside hP hN heta M _ _ _ _ _ g1 f1 (by omega) b hb c.low (by omega)).1
          have h5 := recPar_nonneg hP hN heta g1 (by omega) hb c.low
          rw [partOn_append, ih _ _ _ _ g0 f0 (by omega) a ha c hc hp0 hd2 hd3]
          omega
        · have h3 := (recPar_empty hP hN heta M _ _ _ _ _ g1 f1 (by omega) b hb c hc).1
          rw [partOn_append, ih _ _ _ _ g1 f1 (by omega) b hb c hc hp0 hd2 hd3]
          by_cases hp : sp.plow = 0
          · rw [ea hp]
            show 0 + _ = _
            omega
          · have e0 := hA.restOn_pos hp (ys := zs.take sp.plow) (fun y hy => List.mem_of_mem_take hy) c.low
            have h4 := (recPar_outside hP hN heta M _ _ _ _ _ g0 f0 (by omega) a ha c.low (by omega)).1
            have h5 := recPar_nonneg hP hN heta g0 (by omega) ha c.low
            omega
    · match xs, hI, h2, h with
      | [], hI, h2, h =>
        rw [recPar_nil h] at hc
        cases hc
      | [x], hI, h2, h =>
        obtain ⟨cur, s, s', hR, hl, rfl, rfl, rfl⟩ := aloneRun_ok hN hI h
        cases hc
      | x :: y :: l, hI, h2, h => simp at h2

theorem partOn_zero {Hs : List Hypergraph} (h : ∀ H ∈ Hs, ∀ v ∈ H.vertices, 0 < v.weight) {q : Int}
    (hq : partOn Hs q = 0) : ∀ H ∈ Hs, ∀ v ∈ H.vertices, v.part ≠ q := by
  intro H hH v hv he
  have h1 : partWeight H q ≤ partOn Hs q := by
    apply List.single_le_sum
    · intro y hy
      obtain ⟨H', hH', rfl⟩ := List.mem_map.1 hy
      exact wt_nonneg (h H' hH') q
    · exact List.mem_map_of_mem (f := fun H => partWeight H q) hH
  have h2 : v.weight ≤ partWeight H q := by
    apply List.single_le_sum
    · intro y hy
      obtain ⟨u, hu, rfl⟩ := List.mem_map.1 hy
      exact (h H hH u (List.mem_filter.1 hu).1).le
    · exact List.mem_map_of_mem (List.mem_filter.2 ⟨hv, by simpa using he⟩)
  have := h H hH v hv
  omega

end PMondriaan

import Verif.Proofs.RecSumPar
import Verif.Props.RecBalancePar

/-
Property C91: on several processors, the cut size of the result and the cuts of the bisections.
-/

namespace PMondriaan

open Spec

/-- The processors at the start of the recursion. -/
def startProcs (Hs : List Hypergraph) (rngs : List Rng) : List RecProc :=
  (Hs.zip rngs).map (fun x => { H := x.1, fin := x.1.vertices.length, rng := x.2 })

theorem startProcs_run {P : ParRecEnv} {k : Nat} {Hs : List Hypergraph} (hne : Hs ≠ []) {epsilon eta : ℚ}
    {rngs : List Rng} {r : GroupResult} (h : recursiveBisectPar P k epsilon eta Hs rngs = .ok r) :
    recPar P eta (maxWeight P.rnd epsilon (weightOn Hs) k) (k + 1) [] ⟨0, (k : Int) - 1⟩ (weightOn Hs)
      (startProcs Hs rngs) = .ok r := by
  have hag : agreed (globalWeight Hs) = .ok (weightOn Hs) := by
    apply agreed_ok
    · unfold globalWeight bulkSum
      simpa using hne
    · intro b hb
      unfold globalWeight bulkSum at hb
      obtain ⟨-, -, rfl⟩ := List.mem_map.1 hb
      exact totalWeights_eq Hs
  unfold recursiveBisectPar at h
  rw [hag, ok_bind] at h
  exact h

/-- C91, net by net, partial: the recursion with the lambda metric on any number of processors, for every `k ≥ 2` and
distributed hypergraph with positive weights. When no group of five or more labels leaves its low side without
processors, a net has at most as many parts as there are bisections that cut it, plus one; the cut of a bisection by a group
counts the vertices in the ranges of all its processors. When also no group of three or more labels leaves its high side
without processors, there are exactly that many. What is missing: `C91_false`. -/
theorem C91_nets_partial {P : ParRecEnv} {N T k : Nat} {Bad : Err → Prop} (hP : ParRecEnvOk P N T Bad)
    (hN : N < 2147483648) (hk : 2 ≤ k) {Hs : List Hypergraph} (hne : Hs ≠ []) (hD : Distributed N Hs)
    (hpos : ∀ H ∈ Hs, ∀ v ∈ H.vertices, 0 < v.weight) (hT : (Hs.flatMap (·.vertices)).length < T)
    (hW : ((Hs.flatMap (·.vertices)).map (·.weight)).sum < 2 ^ 53) (hp : Hs.length ≤ 2 ^ 50) (epsilon : ℚ) {eta : ℚ}
    (heta : 0 ≤ eta) {rngs : List Rng} (hr : rngs.length = Hs.length) {r : GroupResult}
    (h : recursiveBisectPar P k epsilon eta Hs rngs = .ok r)
    (hlow : ∀ c ∈ r.splits, c.plow = 0 → c.high - c.low ≤ 3) :
    ∃ Bs, GroupBisections P eta (maxWeight P.rnd epsilon ((Hs.flatMap (·.vertices)).map (·.weight)).sum k) []
        ⟨0, (k : Int) - 1⟩ ((Hs.flatMap (·.vertices)).map (·.weight)).sum
        ((Hs.zip rngs).map (fun x => { H := x.1, fin := x.1.vertices.length, rng := x.2 })) Bs r.Hs ∧
      Bs.length ≤ k - 1 ∧
      (∀ B ∈ Bs, ∀ e, GroupCuts B e → unionCost (B.map (·.H)) e = unionCost r.Hs e) ∧
      ∀ e, connectivity (partOf (unionH N r.Hs)) (unionNet r.Hs e) - 1 ≤ Bs.countP (fun B => GroupCuts B e) ∧
        ((∀ c ∈ r.splits, c.plow = c.p → c.high - c.low ≤ 1) →
          connectivity (partOf (unionH N r.Hs)) (unionNet r.Hs e) - 1 = Bs.countP (fun B => GroupCuts B e)) := by
  obtain ⟨e0, hI⟩ := start_inv (k := k) hk hD hpos hT hW hp hr
  have hrun := startProcs_run hne h
  have hF : FullGroup (startProcs Hs rngs) := by
    intro x hx
    obtain ⟨y, -, rfl⟩ := List.mem_map.1 hx
    rfl
  have hcnt : (⟨0, (k : Int) - 1⟩ : Interval).count ≤ k + 1 := by
    unfold Interval.count Interval.length
    dsimp only
    omega
  have hin := recPar_labels_inside hP hN heta hI hF hcnt hrun
  have hK := recPar_kept hP hN heta hI hcnt hrun
  obtain ⟨Bs, b1, b2, b3, b4⟩ := recPar_count hP hN heta _ (k + 1) [] _ _ _ hI (fun _ => hF) hcnt (Or.inl hF) r hrun hlow
  refine ⟨Bs, b1, ?_, ?_, ?_⟩
  · dsimp only at b2
    omega
  · intro B hB e hc
    rw [(b3 B hB e hc).2, hK.costs]
  · intro e
    rw [netLabels_connectivity hK.dist, ← hin e]
    exact b4 e

theorem groupCutCost_sum (N : Nat) (c : Nat → Int) (Bs : List (List RangeOf))
    (h : ∀ B ∈ Bs, ∀ e, GroupCuts B e → unionCost (B.map (·.H)) e = c e) :
    (Bs.map (groupCutCost N)).sum = ((List.range N).map (fun e => ((Bs.countP (fun B => GroupCuts B e) : Nat) : Int) * c e)).sum := by
  induction Bs with
  | nil => simp
  | cons B Bs ih =>
    rw [List.map_cons, List.sum_cons, ih fun B hB => h B (List.mem_cons_of_mem _ hB)]
    unfold groupCutCost
    rw [← List.sum_map_add]
    congr 1
    apply List.map_congr_left
    intro e _
    rw [List.countP_cons]
    simp only [decide_eq_true_eq]
    split
    · rename_i hc
      rw [h B (List.mem_cons_self ..) e hc]
      push_cast; ring
    · simp

/-- C91, partial: what `cutsize` returns on every processor for the result is at most the sum of the costs of the
bisections when no group of five or more labels leaves its low side without processors, and it is equal to the sum when
also no group of three or more labels leaves its high side without processors. What is missing: `C91_false`. -/
theorem C91_partial {P : ParRecEnv} {N T k : Nat} {Bad : Err → Prop} (hP : ParRecEnvOk P N T Bad)
    (hN : N < 2147483648) (hk : 2 ≤ k) {Hs : List Hypergraph} (hne : Hs ≠ []) (hD : Distributed N Hs)
    (hpos : ∀ H ∈ Hs, ∀ v ∈ H.vertices, 0 < v.weight) (hT : (Hs.flatMap (·.vertices)).length < T)
    (hW : ((Hs.flatMap (·.vertices)).map (·.weight)).sum < 2 ^ 53) (hp : Hs.length ≤ 2 ^ 50) (epsilon : ℚ) {eta : ℚ}
    (heta : 0 ≤ eta) {rngs : List Rng} (hr : rngs.length = Hs.length) {r : GroupResult}
    (h : recursiveBisectPar P k epsilon eta Hs rngs = .ok r)
    (hlow : ∀ c ∈ r.splits, c.plow = 0 → c.high - c.low ≤ 3) {np : NetPart} (hv : np.Valid r.Hs.length N)
    {d : Delivery LabelMsg} (hd : Fair d) {so : List Int → List Int} (hso : ∀ l, (so l).Perm l) :
    ∃ Bs v, GroupBisections P eta (maxWeight P.rnd epsilon ((Hs.flatMap (·.vertices)).map (·.weight)).sum k) []
        ⟨0, (k : Int) - 1⟩ ((Hs.flatMap (·.vertices)).map (·.weight)).sum
        ((Hs.zip rngs).map (fun x => { H := x.1, fin := x.1.vertices.length, rng := x.2 })) Bs r.Hs ∧
      Bs.length ≤ k - 1 ∧ cutsizePar so d np r.Hs .lambdaMinusOne = .ok (r.Hs.map (fun _ => v)) ∧
      ((∀ H ∈ Hs, ∀ n ∈ H.nets, 0 ≤ n.cost) → v ≤ (Bs.map (groupCutCost N)).sum) ∧
      ((∀ c ∈ r.splits, c.plow = c.p → c.high - c.low ≤ 1) → v = (Bs.map (groupCutCost N)).sum) := by
  obtain ⟨Bs, b1, b2, b3, b4⟩ := C91_nets_partial hP hN hk hne hD hpos hT hW hp epsilon heta hr h hlow
  obtain ⟨e0, hI⟩ := start_inv (k := k) hk hD hpos hT hW hp hr
  have hcnt : (⟨0, (k : Int) - 1⟩ : Interval).count ≤ k + 1 := by
    unfold Interval.count Interval.length
    dsimp only
    omega
  have hK := recPar_kept hP hN heta hI hcnt (startProcs_run hne h)
  have e0' : ((startProcs Hs rngs).map (·.H)) = Hs := e0
  rw [e0] at hK
  refine ⟨Bs, _, b1, b2, cutsizePar_ok hK.dist hv hd hso .lambdaMinusOne, ?_, ?_⟩
  · intro hc
    rw [groupCutCost_sum N (unionCost r.Hs) Bs b3]
    show (((List.range N).map (unionNet r.Hs)).map _).sum ≤ _
    rw [List.map_map]
    apply List.sum_le_sum
    intro e _
    have hcost : 0 ≤ unionCost r.Hs e := by
      rw [hK.costs]
      unfold unionCost
      split
      · rename_i m hm
        obtain ⟨H, hH, hm⟩ := List.mem_flatMap.1 (List.mem_of_find?_eq_some hm)
        exact hc H hH m hm
      · exact le_refl 0
    have := (b4 e).1
    exact mul_le_mul_of_nonneg_right (by exact_mod_cast this) hcost
  · intro hall
    rw [groupCutCost_sum N (unionCost r.Hs) Bs b3]
    show (((List.range N).map (unionNet r.Hs)).map _).sum = _
    rw [List.map_map]
    congr 1
    apply List.map_congr_left
    intro e _
    have := (b4 e).2 hall
    show ((connectivity (partOf (unionH N r.Hs)) (unionNet r.Hs e) - 1 : Nat) : Int) * unionCost r.Hs e = _
    rw [this]

/-! ### At most four parts -/

/-- The recorded splits: labels, processors, and the side that gets none. -/
theorem recPar_splits {P : ParRecEnv} {N T k : Nat} {Bad : Err → Prop} (hP : ParRecEnvOk P N T Bad)
    {eta : ℚ} (heta : 0 ≤ eta) (M : Int) (hN : N < 2147483648) : ∀ (fuel : Nat) (path : List Bool)
    (labels : Interval) (weight : Int) (xs : List RecProc), GroupInv N T k labels xs →
    labels.count ≤ fuel → ∀ r, recPar P eta M fuel path labels weight xs = .ok r → ∀ c ∈ r.splits,
      labels.low ≤ c.low ∧ c.low < c.high ∧ c.high ≤ labels.high ∧ 2 ≤ c.p ∧ (c.high - c.low = 2 → c.plow = 0) := by
  intro fuel
  induction fuel with
  | zero => intro _ _ _ _ _ _ r h; cases h
  | succ f ih =>
    intro path labels weight xs hI hf r h c hc
    have hle := hI.le
    have hcc := count_eq hle
    by_cases h2 : 2 ≤ xs.length
    · have hlh : labels.low < labels.high := by
        rcases hI.proper with h | h
        · rw [h] at h2; simp at h2
        · exact h
      obtain ⟨sp, rs, hS, -, hcase⟩ := recPar_two hP heta hI h2 h
      have hlow := hS.low
      have hhigh := hS.high
      have hspp := hS.p
      have hsp : labels.low ≤ sp.low ∧ sp.low < sp.high ∧ sp.high ≤ labels.high ∧ 2 ≤ sp.p ∧
          (sp.high - sp.low = 2 → sp.plow = 0) := by
        refine ⟨by omega, by omega, by omega, by omega, ?_⟩
        intro h3
        exact hS.three (by omega)
      rcases hcase with ⟨-, rfl⟩ | ⟨hcnt, zs, a, b, hA, ha, hb, rfl⟩
      · rw [List.mem_singleton.1 hc]
        exact hsp
      · obtain ⟨hK, g0, g1⟩ := hI.split hcnt hS.three hS.bis hA
        have l0 := lowLabels_length hle
        have l1 := highLabels_length hle
        have c0 : (lowLabels labels).count = labels.count / 2 := by
          show ((lowLabels labels).length + 1).toNat = _
          omega
        have c1 : (highLabels labels).count = labels.count - labels.count / 2 := by
          show ((highLabels labels).length + 1).toNat = _
          omega
        unfold Interval.length at l0 l1
        have ll : (lowLabels labels).low = labels.low := rfl
        have lh : (highLabels labels).high = labels.high := rfl
        have hc : c = sp ∨ c ∈ a.splits ∨ c ∈ b.splits := by simpa [or_assoc] using hc
        rcases hc with rfl | hc | hc
        · exact hsp
        · have := ih _ _ _ _ g0 (by omega) a ha c hc
          refine ⟨by omega, by omega, by omega, this.2.2.2⟩
        · have := ih _ _ _ _ g1 (by omega) b hb c hc
          refine ⟨by omega, by omega, by omega, this.2.2.2⟩
    · match xs, hI, h2, h with
      | [], hI, h2, h =>
        rw [recPar_nil h] at hc
        cases hc
      | [x], hI, h2, h =>
        obtain ⟨cur, s, s', hR, hl, rfl, rfl, rfl⟩ := aloneRun_ok hN hI h
        cases hc
      | x :: y :: l, hI, h2, h => simp at h2

/-- For at most four parts the value is at most the sum of the costs of the bisections, and for two and three parts it is
equal to the sum, without conditions on the run. -/
theorem C91_small_partial {P : ParRecEnv} {N T k : Nat} {Bad : Err → Prop} (hP : ParRecEnvOk P N T Bad)
    (hN : N < 2147483648) (hk : 2 ≤ k) (hk4 : k ≤ 4) {Hs : List Hypergraph} (hne : Hs ≠ []) (hD : Distributed N Hs)
    (hpos : ∀ H ∈ Hs, ∀ v ∈ H.vertices, 0 < v.weight) (hT : (Hs.flatMap (·.vertices)).length < T)
    (hW : ((Hs.flatMap (·.vertices)).map (·.weight)).sum < 2 ^ 53) (hp : Hs.length ≤ 2 ^ 50) (epsilon : ℚ) {eta : ℚ}
    (heta : 0 ≤ eta) {rngs : List Rng} (hr : rngs.length = Hs.length) {r : GroupResult}
    (h : recursiveBisectPar P k epsilon eta Hs rngs = .ok r) {np : NetPart} (hv : np.Valid r.Hs.length N)
    {d : Delivery LabelMsg} (hd : Fair d) {so : List Int → List Int} (hso : ∀ l, (so l).Perm l) :
    ∃ Bs v, GroupBisections P eta (maxWeight P.rnd epsilon ((Hs.flatMap (·.vertices)).map (·.weight)).sum k) []
        ⟨0, (k : Int) - 1⟩ ((Hs.flatMap (·.vertices)).map (·.weight)).sum
        ((Hs.zip rngs).map (fun x => { H := x.1, fin := x.1.vertices.length, rng := x.2 })) Bs r.Hs ∧
      Bs.length ≤ k - 1 ∧ cutsizePar so d np r.Hs .lambdaMinusOne = .ok (r.Hs.map (fun _ => v)) ∧
      ((∀ H ∈ Hs, ∀ n ∈ H.nets, 0 ≤ n.cost) → v ≤ (Bs.map (groupCutCost N)).sum) ∧
      (k ≤ 3 → v = (Bs.map (groupCutCost N)).sum) := by
  obtain ⟨e0, hI⟩ := start_inv (k := k) hk hD hpos hT hW hp hr
  have hcnt : (⟨0, (k : Int) - 1⟩ : Interval).count ≤ k + 1 := by
    unfold Interval.count Interval.length
    dsimp only
    omega
  have hsp := recPar_splits hP heta _ hN _ _ _ _ _ hI hcnt r (startProcs_run hne h)
  dsimp only at hsp
  obtain ⟨Bs, v, b1, b2, b3, b4, b5⟩ := C91_partial hP hN hk hne hD hpos hT hW hp epsilon heta hr h (by
    intro c hc _
    have := hsp c hc
    omega) hv hd hso
  refine ⟨Bs, v, b1, b2, b3, b4, ?_⟩
  intro hk3
  apply b5
  intro c hc he
  have := hsp c hc
  by_contra hcon
  have := this.2.2.2.2 (by omega)
  omega

/-! ### More parts -/

/-- The bisections of a group, when no processor ever works alone. -/
def groupTrace (P : ParRecEnv) (eta : ℚ) (M : Int) :
    Nat → List Bool → Interval → Int → List RecProc → Res (List (List RangeOf) × List Hypergraph)
  | 0, _, _, _, _ => .error .fuel
  | _ + 1, _, _, _, [] => .ok ([], [])
  | _ + 1, _, _, _, [_] => .error .throw
  | f + 1, path, labels, weight, x :: y :: l =>
    if labels.length > 0 then do
      let t ← groupSplit P eta M path labels weight (x :: y :: l)
      match t.2.2 with
      | none => pure ([rangesOf (x :: y :: l) t.2.1], t.2.1.map (·.H))
      | some zs => do
        let a ← groupTrace P eta M f (path ++ [true]) (lowLabels labels) t.1.w0 (zs.take t.1.plow)
        let b ← groupTrace P eta M f (path ++ [false]) (highLabels labels) t.1.w1 (zs.drop t.1.plow)
        pure (rangesOf (x :: y :: l) t.2.1 :: a.1 ++ b.1, a.2 ++ b.2)
    else .error .throw

theorem groupTrace_bisections {P : ParRecEnv} {eta : ℚ} {M : Int} : ∀ (fuel : Nat) (path : List Bool)
    (labels : Interval) (weight : Int) (xs : List RecProc) (t : List (List RangeOf) × List Hypergraph),
    groupTrace P eta M fuel path labels weight xs = .ok t → GroupBisections P eta M path labels weight xs t.1 t.2 := by
  intro fuel
  induction fuel with
  | zero => intro _ _ _ _ t h; cases h
  | succ f ih =>
    intro path labels weight xs t h
    match xs, h with
    | [], h =>
      obtain rfl := Except.ok.inj h
      exact .nobody
    | [x], h => cases h
    | x :: y :: l, h =>
      unfold groupTrace at h
      split at h
      · obtain ⟨⟨sp, rs, nx⟩, h1, h2⟩ := bind_eq_ok.1 h
        cases nx with
        | none =>
          obtain rfl := Except.ok.inj h2
          exact .last (by simp) h1
        | some zs =>
          dsimp only at h2
          obtain ⟨a, ha, h3⟩ := bind_eq_ok.1 h2
          obtain ⟨b, hb, h4⟩ := bind_eq_ok.1 h3
          obtain rfl := Except.ok.inj h4
          exact .split (by simp) h1 (ih _ _ _ _ _ ha) (ih _ _ _ _ _ hb)
      · cases h

/-- The hypergraphs are the ones that the recursion returns. -/
theorem groupTrace_result {P : ParRecEnv} {eta : ℚ} {M : Int} : ∀ (fuel : Nat) (path : List Bool)
    (labels : Interval) (weight : Int) (xs : List RecProc) (t : List (List RangeOf) × List Hypergraph) (r : GroupResult),
    groupTrace P eta M fuel path labels weight xs = .ok t → recPar P eta M fuel path labels weight xs = .ok r →
    r.Hs = t.2 := by
  intro fuel
  induction fuel with
  | zero => intro _ _ _ _ t r h; cases h
  | succ f ih =>
    intro path labels weight xs t r h h'
    match xs, h, h' with
    | [], h, h' =>
      obtain rfl := Except.ok.inj h
      obtain rfl := Except.ok.inj h'
      rfl
    | [x], h, h' => cases h
    | x :: y :: l, h, h' =>
      unfold groupTrace at h
      unfold recPar at h'
      split at h
      · rename_i hl
        rw [if_pos hl] at h'
        obtain ⟨⟨sp, rs, nx⟩, h1, h2⟩ := bind_eq_ok.1 h
        rw [h1, ok_bind] at h'
        cases nx with
        | none =>
          obtain rfl := Except.ok.inj h2
          obtain rfl := Except.ok.inj h'
          rfl
        | some zs =>
          dsimp only at h2 h'
          obtain ⟨a, ha, h3⟩ := bind_eq_ok.1 h2
          obtain ⟨b, hb, h4⟩ := bind_eq_ok.1 h3
          obtain ⟨a', ha', h3'⟩ := bind_eq_ok.1 h'
          obtain ⟨b', hb', h4'⟩ := bind_eq_ok.1 h3'
          obtain rfl := Except.ok.inj h4
          obtain rfl := Except.ok.inj h4'
          dsimp only
          rw [ih _ _ _ _ _ _ ha ha', ih _ _ _ _ _ _ hb hb']
      · cases h

/-- Four processors, each with a vertex of weight 1 in net 0 and a vertex of weight 8. -/
def exampleLight : List Hypergraph :=
  [ Hypergraph.create 8 1 [⟨0, [0], 1, -1⟩, ⟨1, [], 8, -1⟩] [⟨0, [0], 3, 4⟩],
    Hypergraph.create 8 1 [⟨2, [0], 1, -1⟩, ⟨3, [], 8, -1⟩] [⟨0, [2], 3, 4⟩],
    Hypergraph.create 8 1 [⟨4, [0], 1, -1⟩, ⟨5, [], 8, -1⟩] [⟨0, [4], 3, 4⟩],
    Hypergraph.create 8 1 [⟨6, [0], 1, -1⟩, ⟨7, [], 8, -1⟩] [⟨0, [6], 3, 4⟩] ]

theorem exampleLight_dist : Distributed 1 exampleLight :=
  ⟨by
    intro H hH
    simp only [exampleLight, List.mem_cons, List.not_mem_nil, or_false] at hH
    rcases hH with rfl | rfl | rfl | rfl <;>
      exact WF_create (by decide) (by decide) (by decide) (by decide) (by decide) (by decide),
    by decide, by decide, by decide⟩

/-- The generators of the run. -/
def lightRngs : List Rng :=
  [fun n => [0, 1, 0, 1, 0].getD n 0, fun n => [0, 1, 0, 1, 0].getD n 0, fun n => [0, 1, 1, 1, 0].getD n 0,
    fun n => [0, 1, 1, 1, 0].getD n 0]

/-- C91 is false in general: seven parts on four processors, all bisections within their bounds. The first puts the four
light vertices on the low side, which gets no processor, the second puts the heavy vertices of the first two processors on
the low side and those of the others on the high side. Now both sides have two processors and the light vertices count as
not finished, so the last two bisections give them labels of both sides. No bisection cuts net 0, and its cost is
in the cut size. -/
theorem C91_false : ∃ r Bs, recursiveBisectPar exampleRecEnv 7 6 0 exampleLight lightRngs = .ok r ∧
    (∀ c ∈ r.splits, ParSplit.Respects c) ∧
    GroupBisections exampleRecEnv 0 (maxWeight nearest53 6 36 7) [] ⟨0, 6⟩ 36
      ((exampleLight.zip lightRngs).map (fun x => { H := x.1, fin := x.1.vertices.length, rng := x.2 })) Bs r.Hs ∧
    Bs.map (groupCutCost 1) = [0, 0, 0, 0] ∧ cutValue .lambdaMinusOne (unionH 1 r.Hs) = 3 ∧
    r.Hs.map (fun H => H.vertices.map (fun v => (v.id, v.part))) =
      [[(1, 4), (0, 3)], [(3, 4), (2, 3)], [(5, 6), (4, 5)], [(7, 6), (6, 5)]] := by
  have h : ((recursiveBisectPar exampleRecEnv 7 6 0 exampleLight lightRngs).toOption.bind (fun r =>
      (groupTrace exampleRecEnv 0 (maxWeight nearest53 6 36 7) 8 [] ⟨0, 6⟩ 36
        (startProcs exampleLight lightRngs)).toOption.map (fun t =>
        decide ((∀ c ∈ r.splits, ParSplit.Respects c) ∧ t.1.map (groupCutCost 1) = [0, 0, 0, 0] ∧
          cutValue .lambdaMinusOne (unionH 1 r.Hs) = 3 ∧
          r.Hs.map (fun H => H.vertices.map (fun v => (v.id, v.part))) =
            [[(1, 4), (0, 3)], [(3, 4), (2, 3)], [(5, 6), (4, 5)], [(7, 6), (6, 5)]])))) = some true := by
    decide +kernel
  cases hr : recursiveBisectPar exampleRecEnv 7 6 0 exampleLight lightRngs with
  | error e => rw [hr] at h; cases h
  | ok r =>
    cases ht : groupTrace exampleRecEnv 0 (maxWeight nearest53 6 36 7) 8 [] ⟨0, 6⟩ 36
        (startProcs exampleLight lightRngs) with
    | error e => rw [hr, ht] at h; cases h
    | ok t =>
      rw [hr, ht] at h
      have h' := of_decide_eq_true (Option.some.inj h)
      obtain ⟨h1, h3, h4, h5⟩ := h'
      refine ⟨r, t.1, rfl, h1, ?_, h3, h4, h5⟩
      have hW : weightOn exampleLight = 36 := by decide
      have hrun := startProcs_run (by decide) hr
      rw [hW] at hrun
      rw [groupTrace_result _ _ _ _ _ _ _ ht hrun]
      exact groupTrace_bisections _ _ _ _ _ _ ht

/-- Three parts on three processors: the first bisection cuts nets of cost 7, the second none, and the cut size is 7. -/
example : ((groupTrace exampleRecEnv 0 (maxWeight nearest53 1 13 3) 4 [] ⟨0, 2⟩ 13
      (startProcs exampleThree [fun n => n, fun n => n, fun n => n + 1])).toOption.map (fun t =>
        (t.1.map (groupCutCost 4), cutValue .lambdaMinusOne (unionH 4 t.2),
          t.2.map (fun H => H.vertices.map (fun v => (v.id, v.part)))))) =
    some ([7, 0], 7, [[(2, 1), (0, 0)], [(4, 2), (1, 1), (5, 0), (3, 0)], [(6, 2), (7, 0)]]) := by decide +kernel

end PMondriaan

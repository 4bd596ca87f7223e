import Verif.Model.SyncCount
import Verif.Props.RecBisect

/-
Property C49: numbers of synchronizations of the full world.

The model counts calls of `remove_cut_nets` only for the cut-net metric; for the lambda metric
there is one synchronization.
-/

namespace PMondriaan

open Spec

/-- Splits that remain to be done. -/
def leftSplits (n : Nat) (jobs : List Nat) : Nat := (n - 1) + (jobs.map (· - 1)).sum

/-- The sequential loops: every split but the last one is followed by `remove_cut_nets`. -/
theorem seqLoop_eq : ∀ (f n : Nat) (jobs : List Nat) (c : Counts), (∀ j ∈ jobs, 2 ≤ j) →
    2 * leftSplits n jobs + jobs.length < f →
    seqLoop f n jobs c = .ok ⟨c.splits + leftSplits n jobs, c.removals + (leftSplits n jobs - 1)⟩ := by
  intro f
  induction f with
  | zero => intro n jobs c _ h; omega
  | succ f ih =>
    intro n jobs c hj hf
    unfold seqLoop
    by_cases hn : n ≥ 2
    · rw [if_pos hn]
      simp only
      by_cases hk : n - n / 2 ≥ 2
      · rw [if_pos hk]
        have e : leftSplits (n / 2) ((n - n / 2) :: jobs) + 1 = leftSplits n jobs := by
          simp only [leftSplits, List.map_cons, List.sum_cons]; omega
        have e2 : 1 ≤ leftSplits (n / 2) ((n - n / 2) :: jobs) := by
          simp only [leftSplits, List.map_cons, List.sum_cons]; omega
        rw [ih _ _ _ (by
          intro j hj'
          rcases List.mem_cons.1 hj' with rfl | hj'
          · exact hk
          · exact hj j hj') (by simp only [List.length_cons]; omega)]
        simp only [List.isEmpty_cons, Bool.false_eq_true, if_false]
        rw [← e]
        congr 2 <;> omega
      · rw [if_neg hk]
        have h2 : n = 2 := by omega
        subst h2
        cases jobs with
        | nil =>
          rw [ih _ _ _ (by simp) (by simp [leftSplits] at hf ⊢; omega)]
          simp [leftSplits]
        | cons j js =>
          have hj2 := hj j (List.mem_cons_self ..)
          have e : leftSplits (2 / 2) (j :: js) + 1 = leftSplits 2 (j :: js) := by
            simp only [leftSplits, List.map_cons, List.sum_cons]; omega
          have e2 : 1 ≤ leftSplits (2 / 2) (j :: js) := by
            simp only [leftSplits, List.map_cons, List.sum_cons]; omega
          rw [ih _ _ _ hj (by omega)]
          simp only [List.isEmpty_cons, Bool.false_eq_true, if_false]
          rw [← e]
          congr 2 <;> omega
    · rw [if_neg hn]
      cases jobs with
      | nil => simp [leftSplits, show n - 1 = 0 by omega]
      | cons j js =>
        simp only
        have e : leftSplits n (j :: js) = leftSplits j js := by
          simp only [leftSplits, List.map_cons, List.sum_cons]; omega
        rw [ih j js c (fun x hx => hj x (List.mem_cons_of_mem _ hx))
          (by rw [e] at hf; simp only [List.length_cons] at hf; omega), e]

theorem seqLoop_alone (n : Nat) (c : Counts) :
    seqLoop (2 * n + 1) n [] c = .ok ⟨c.splits + (n - 1), c.removals + (n - 2)⟩ := by
  rw [seqLoop_eq _ _ _ _ (by simp) (by simp [leftSplits]; omega)]
  simp only [leftSplits, List.map_nil, List.sum_nil, Nat.add_zero]
  congr 2

/-- The counts agree with the model of the whole recursion: a normal end of `recLoop` has done the
number of splits computed by `seqLoop`. -/
theorem recLoop_splits {P : RecEnv} {N f k : Nat} {H0 : Hypergraph} (hbis : BisectsWell P.bis N f)
    (hd : Fair P.d1) (M : Int) : ∀ (fuel : Nat) (cur : WorkItem) (s : RecState) (c : Counts),
    RecInv P N f k H0 cur s → s.splits = c.splits → ∀ s', recLoop P M fuel cur s = .ok s' →
    ∃ c', seqLoop fuel (cur.high - cur.low + 1).toNat
      (s.jobs.map (fun j => (j.high - j.low + 1).toNat)) c = .ok c' ∧ s'.splits = c'.splits := by
  intro fuel
  induction fuel with
  | zero => intro cur s c _ _ s' h; cases h
  | succ fuel ih =>
    intro cur s c hI hc s' h
    unfold recLoop at h
    unfold seqLoop
    by_cases hlh : cur.low < cur.high
    · rw [if_pos (by omega)] at h
      rw [if_pos (by omega)]
      simp only
      rcases splitStep_spec hbis hd M hI.fit hI.nonempty hlh
        (fun hw => hI.ranges cur (List.mem_cons_self ..) hw hlh) with ⟨-, h1⟩ |
        ⟨hne, cur', s1, h1, S, E, H1, H2, w0, w1, a1, a2, a3, a4, a5⟩
      · rw [h1] at h; cases h
      · rw [h1, ok_bind] at h
        have hl := a5.cur_low
        have hh := a5.cur_high
        have e1 : (cur'.high - cur'.low + 1).toNat = (cur.high - cur.low + 1).toNat / 2 := by omega
        have e2 : s1.jobs.map (fun j => (j.high - j.low + 1).toNat) =
            if (cur.high - cur.low + 1).toNat - (cur.high - cur.low + 1).toNat / 2 ≥ 2 then
              ((cur.high - cur.low + 1).toNat - (cur.high - cur.low + 1).toNat / 2) ::
                s.jobs.map (fun j => (j.high - j.low + 1).toNat)
            else s.jobs.map (fun j => (j.high - j.low + 1).toNat) := by
          rcases a5.reorder with ⟨a, b, -⟩ | ⟨a, b, -⟩
          · rw [b, if_pos (by omega), List.map_cons]
            congr 1
            simp only; omega
          · rw [b, if_neg (by omega)]
        rw [← e2, ← e1]
        exact ih cur' s1 _ (hI.step hlh a1 a2 a3 a4 a5).1 (by rw [a5.splits, hc]) s' h
    · rw [if_neg (by omega)] at h
      rw [if_neg (by omega)]
      cases hjs : s.jobs with
      | nil => rw [hjs] at h; cases h; exact ⟨c, rfl, hc⟩
      | cons j js =>
        rw [hjs] at h
        exact ih j { s with jobs := js } c (hI.pop hlh hjs).1 hc s' h

/-- The parallel loop ends within the fuel. -/
theorem parLoop_ok (low : List Bool → Nat) : ∀ (f : Nat) (path : List Bool) (p s n : Nat) (c : Counts),
    n < f → ∃ c', parLoop low f path p s n c = .ok c' := by
  intro f
  induction f with
  | zero => intro path p s n c h; omega
  | succ f ih =>
    intro path p s n c h
    unfold parLoop
    by_cases h1 : n ≥ 2 ∧ p > 1
    · rw [if_pos h1]
      simp only
      generalize (if n / 2 = 1 ∧ n - n / 2 > 1 then 0 else low path) = pl
      by_cases hn' : (if decide (s < pl) = true then n / 2 else n - n / 2) ≥ 2
      · rw [if_pos hn']
        refine ih _ _ _ _ _ ?_
        split <;> omega
      · rw [if_neg hn']
        exact ⟨_, rfl⟩
    · rw [if_neg h1]
      split
      · exact ⟨_, seqLoop_alone n c⟩
      · exact ⟨_, rfl⟩

/-- C49 for the lambda metric: every processor synchronizes the full world the same number of
times, for every number of processors, of parts, and whatever the weights. -/
theorem C49_lambda (low : List Bool → Nat) (p k s s' : Nat) :
    worldSyncs false low p s k = worldSyncs false low p s' k ∧ worldSyncs false low p s k = .ok 1 := by
  have h : ∀ t, worldSyncs false low p t k = .ok 1 := by
    intro t
    unfold worldSyncs
    obtain ⟨c, hc⟩ := parLoop_ok low (k + 1) [] p t k ⟨0, 0⟩ (by omega)
    rw [hc, ok_bind]
    rfl
  rw [h, h]
  exact ⟨rfl, rfl⟩

/-- C49 for the cut-net metric and two processors: if the first split with at least four labels gives
one processor to each side, both synchronize equally often. -/
theorem C49_two {low : List Bool → Nat} {k : Nat} (h1 : 4 ≤ k → low [] = 1) :
    worldSyncs true low 2 0 k = worldSyncs true low 2 1 k := by
  have hseq : ∀ (f : Nat) (path : List Bool) (s n : Nat) (c : Counts), parLoop low (f + 1) path 1 s n c =
      .ok ⟨c.splits + (n - 1), c.removals + (n - 2)⟩ := by
    intro f path s n c
    rw [parLoop, if_neg (by omega), if_pos rfl, seqLoop_alone]
  by_cases hk : 4 ≤ k
  · obtain ⟨f, hf⟩ : ∃ f, k = f + 1 := ⟨k - 1, by omega⟩
    have hp : ∀ s, s < 2 → parLoop low (k + 1) [] 2 s k ⟨0, 0⟩ =
        if s < 1 then .ok ⟨1 + (k / 2 - 1), 1 + (k / 2 - 2)⟩
        else .ok ⟨1 + ((k - k / 2) - 1), 1 + ((k - k / 2) - 2)⟩ := by
      intro s hs
      rw [parLoop, if_pos (by omega)]
      simp only
      rw [if_neg (show ¬ (k / 2 = 1 ∧ k - k / 2 > 1) by omega), h1 hk]
      by_cases hs1 : s < 1
      · simp only [hs1, decide_true, if_true]
        rw [if_pos (show k / 2 ≥ 2 by omega), hf, hseq]
      · simp only [hs1, decide_false, if_false, Bool.false_eq_true]
        rw [if_pos (show k - k / 2 ≥ 2 by omega), hf, hseq]
    unfold worldSyncs
    rw [hp 0 (by omega), hp 1 (by omega)]
    simp only [Nat.zero_lt_one, if_true, lt_irrefl, if_false, ok_bind, pure_eq_ok]
    congr 1
    by_cases hpar : k / 2 + k / 2 = k
    · rw [show k - k / 2 = k / 2 by omega]
    · rw [if_pos (show (1 + (k / 2 - 1)) * 2 < k by omega),
        if_neg (show ¬ (1 + (k - k / 2 - 1)) * 2 < k by omega)]
      omega
  · have hc : k = 0 ∨ k = 1 ∨ k = 2 ∨ k = 3 := by omega
    have h2 : ∀ (path : List Bool) (f s : Nat) (c : Counts),
        parLoop low (f + 1) path 2 s 2 c = .ok ⟨c.splits + 1, c.removals⟩ := by
      intro path f s c
      rw [parLoop, if_pos (by omega)]
      simp
    have h3 : ∀ s, parLoop low 4 [] 2 s 3 ⟨0, 0⟩ = .ok ⟨2, 1⟩ := by
      intro s
      rw [parLoop, if_pos (by omega)]
      exact h2 [false] 2 s ⟨1, 1⟩
    unfold worldSyncs
    rcases hc with rfl | rfl | rfl | rfl
    · rfl
    · rfl
    · rw [h2, h2]
    · rw [h3, h3]

/-- C49 for the cut-net metric, `p = 2^a` processors and a multiple of `p` parts: if each group is
halved, all processors synchronize equally often. -/
theorem C49_partial {low : List Bool → Nat} {A m : Nat} (hm : 0 < m)
    (hlow : ∀ path, path.length < A → low path = 2 ^ (A - path.length - 1)) {s s' : Nat}
    (hs : s < 2 ^ A) (hs' : s' < 2 ^ A) :
    worldSyncs true low (2 ^ A) s (2 ^ A * m) = worldSyncs true low (2 ^ A) s' (2 ^ A * m) := by
  have key : ∀ (a : Nat), a ≤ A → ∀ (f : Nat) (c : Counts), 2 ^ a * m < f → ∃ r, ∀ (path : List Bool),
      path.length = A - a → ∀ t, t < 2 ^ a → parLoop low f path (2 ^ a) t (2 ^ a * m) c = .ok r := by
    intro a
    induction a with
    | zero =>
      intro _ f c hf
      obtain ⟨f, rfl⟩ : ∃ g, f = g + 1 := ⟨f - 1, by omega⟩
      refine ⟨⟨c.splits + (m - 1), c.removals + (m - 2)⟩, fun path _ t ht => ?_⟩
      rw [parLoop, if_neg (by simp), if_pos (by simp), seqLoop_alone]
      simp
    | succ a ih =>
      intro ha f c hf
      obtain ⟨f, rfl⟩ : ∃ g, f = g + 1 := ⟨f - 1, by omega⟩
      have hpow : 2 ^ (a + 1) = 2 ^ a + 2 ^ a := by rw [pow_succ]; omega
      have hpos : 0 < 2 ^ a := Nat.two_pow_pos a
      have hn : 2 ^ (a + 1) * m = 2 ^ a * m + 2 ^ a * m := by rw [hpow, Nat.add_mul]
      have hnp : 0 < 2 ^ a * m := Nat.mul_pos hpos hm
      set q := 2 ^ a * m with hq
      have hk1 : (q + q) / 2 = q := by omega
      have hk2 : q + q - q = q := by omega
      by_cases hq1 : q = 1
      · refine ⟨⟨c.splits + 1, c.removals⟩, fun path hp t ht => ?_⟩
        rw [parLoop, hn, if_pos (by omega)]
        simp only [hk1, hk2, ite_self]
        rw [if_neg (show ¬ q ≥ 2 by omega)]
      · obtain ⟨r, hr⟩ := ih (by omega) f ⟨c.splits + 1, c.removals + 1⟩ (by rw [hn] at hf; omega)
        refine ⟨r, fun path hp t ht => ?_⟩
        have hl : low path = 2 ^ a := by
          rw [hlow path (by omega)]
          congr 1; omega
        rw [parLoop, hn, if_pos (by omega)]
        simp only [hk1, hk2, ite_self]
        rw [if_pos (show q ≥ 2 by omega), if_neg (show ¬ (q = 1 ∧ q > 1) by omega), hl]
        by_cases hlt : t < 2 ^ a
        · simp only [hlt, decide_true, if_true]
          exact hr _ (by rw [List.length_append, List.length_singleton]; omega) t hlt
        · simp only [hlt, decide_false, Bool.false_eq_true, if_false]
          rw [show 2 ^ (a + 1) - 2 ^ a = 2 ^ a by omega]
          exact hr _ (by rw [List.length_append, List.length_singleton]; omega) _ (by omega)
  obtain ⟨r, hr⟩ := key A (le_refl _) (2 ^ A * m + 1) ⟨0, 0⟩ (by omega)
  unfold worldSyncs
  rw [hr [] (by simp) s hs, hr [] (by simp) s' hs']

/-- With at most eight parts: the synchronizations that a processor of a group with `n` labels still does only
depend on `n` and the number of splits. -/
theorem parLoop_small (low : List Bool → Nat) {k : Nat} (hk : k ≤ 8) : ∀ (f : Nat) (path : List Bool) (p s n : Nat)
    (c : Counts), n < f → s < p → c.splits = 1 ∧ 2 ≤ n ∧ (n = k / 2 ∨ n = k - k / 2) ∨ c.splits = 2 ∧ n = 2 →
    ∃ c', parLoop low f path p s n c = .ok c' ∧ c'.removals + (if c'.splits * 2 < k then 1 else 0) =
      c.removals + (n - 2) + if (c.splits + (n - 1)) * 2 < k then 1 else 0 := by
  intro f
  induction f with
  | zero => intro path p s n c h; omega
  | succ f ih =>
    intro path p s n c h hs hc
    unfold parLoop
    by_cases h1 : p > 1
    · rw [if_pos ⟨by omega, h1⟩]
      simp only
      obtain ⟨pl, hpl⟩ : ∃ pl, pl = (if n / 2 = 1 ∧ n - n / 2 > 1 then 0 else low path) := ⟨_, rfl⟩
      rw [← hpl]
      by_cases h2 : n = 2
      · have hn' : ¬ (if decide (s < pl) = true then n / 2 else n - n / 2) ≥ 2 := by split <;> omega
        rw [if_neg hn']
        refine ⟨_, rfl, ?_⟩
        subst h2
        rfl
      · have hc1 : c.splits = 1 ∧ 2 ≤ n ∧ (n = k / 2 ∨ n = k - k / 2) := by
          rcases hc with hc | hc
          · exact hc
          · omega
        have hn' : (if decide (s < pl) = true then n / 2 else n - n / 2) = 2 := by
          by_cases h3 : n = 3
          · have : pl = 0 := by rw [hpl, if_pos (by omega)]
            rw [this, if_neg (by simp)]
            omega
          · split <;> omega
        rw [hn', if_pos (by omega)]
        obtain ⟨c', e1, e2⟩ := ih (path ++ [decide (s < pl)]) (if decide (s < pl) = true then pl else p - pl)
          (if decide (s < pl) = true then s else s - pl) 2 ⟨c.splits + 1, c.removals + 1⟩ (by omega) (by
            by_cases h4 : s < pl
            · rw [if_pos (by simpa using h4), if_pos (by simpa using h4)]; exact h4
            · rw [if_neg (by simpa using h4), if_neg (by simpa using h4)]; omega)
          (Or.inr ⟨by simp only; omega, rfl⟩)
        refine ⟨c', e1, e2.trans ?_⟩
        obtain ⟨a, b, d⟩ := hc1
        rw [a]
        simp only
        split_ifs <;> omega
    · rw [if_neg (by omega), if_pos (by omega)]
      exact ⟨_, seqLoop_alone n c, rfl⟩

/-- C49 for the cut-net metric and at most eight parts: all processors synchronize equally often, whatever the weights
and for every number of processors. -/
theorem C49_eight (low : List Bool → Nat) {p k : Nat} (hk : k ≤ 8) {s s' : Nat} (hs : s < p) (hs' : s' < p) :
    worldSyncs true low p s k = worldSyncs true low p s' k := by
  by_cases hp : p = 1
  · have : s = s' := by omega
    rw [this]
  have key : ∃ m, ∀ t, t < p → worldSyncs true low p t k = .ok m := by
    by_cases hk2 : k ≤ 2
    · unfold worldSyncs
      by_cases h2 : k = 2
      · subst h2
        refine ⟨2, fun t ht => ?_⟩
        rw [parLoop, if_pos (by omega)]
        simp only [Nat.reduceDiv, Nat.reduceSub, ite_self]
        rfl
      · refine ⟨(if 0 * 2 < k then 1 else 0) + 1 + 1, fun t ht => ?_⟩
        rw [parLoop, if_neg (by omega), if_neg hp, ok_bind]
        simp only [if_true, Nat.zero_add]
        rfl
    · refine ⟨1 + (k - k / 2 - 2) + (if (1 + (k - k / 2 - 1)) * 2 < k then 1 else 0) + 1 + 1, fun t ht => ?_⟩
      unfold worldSyncs
      rw [parLoop, if_pos (by omega)]
      simp only
      obtain ⟨pl, hpl⟩ : ∃ pl, pl = (if k / 2 = 1 ∧ k - k / 2 > 1 then 0 else low []) := ⟨_, rfl⟩
      rw [← hpl]
      obtain ⟨n, hn⟩ : ∃ n, n = (if decide (t < pl) = true then k / 2 else k - k / 2) := ⟨_, rfl⟩
      have hn2 : 2 ≤ n ∧ (n = k / 2 ∨ n = k - k / 2) := by
        rw [hn]
        by_cases h3 : k = 3
        · have : pl = 0 := by rw [hpl, if_pos (by omega)]
          rw [this, if_neg (by simp)]
          omega
        · split <;> omega
      rw [← hn, if_pos hn2.1]
      obtain ⟨c', e1, e2⟩ := parLoop_small low hk k ([] ++ [decide (t < pl)])
        (if decide (t < pl) = true then pl else p - pl) (if decide (t < pl) = true then t else t - pl) n ⟨0 + 1, 0 + 1⟩
        (by omega) (by
          by_cases h4 : t < pl
          · rw [if_pos (by simpa using h4), if_pos (by simpa using h4)]; exact h4
          · rw [if_neg (by simpa using h4), if_neg (by simpa using h4)]; omega) (Or.inl ⟨rfl, hn2⟩)
      rw [e1, ok_bind]
      simp only [if_true]
      rw [e2]
      show Except.ok _ = Except.ok _
      congr 3
      simp only
      obtain ⟨a, b⟩ := hn2
      split_ifs <;> omega
  obtain ⟨m, h⟩ := key
  rw [h s hs, h s' hs']

/-- Five processors and seven parts, with an uneven choice of the groups. -/
example : (List.range 5).map (fun s => (worldSyncs true (fun path => if path = [] then 3 else 1) 5 s 7).toOption) =
    List.replicate 5 (some 5) := by decide +kernel

/-- The numbers of processors for nine unit weights on four processors and nine parts: the sides weigh
4 and 5, then 2 and 2 or 2 and 3. -/
def lowNine (rnd : ℚ → ℚ) : List Bool → Nat
  | [] => (pLow rnd 4 5 4).toNat
  | [true] => (pLow rnd 2 2 2).toNat
  | [false] => (pLow rnd 2 3 2).toNat
  | _ => 0

/-- C49 is false for the cut-net metric: with four processors, nine parts and perfectly balanced
bisections one processor synchronizes once more than the others. -/
theorem C49_false : (lowNine nearest53 [] = 2 ∧ lowNine nearest53 [true] = 1 ∧
      lowNine nearest53 [false] = 1) ∧
    ((List.range 4).map (fun s => (worldSyncs true (lowNine nearest53) 4 s 9).toOption)) =
      [some 5, some 5, some 5, some 6] := by
  refine ⟨by decide +kernel, by decide +kernel⟩

/-- Eight processors and sixteen parts: all equal. -/
example : (List.range 8).map (fun s =>
    (worldSyncs true (fun path => 2 ^ (3 - path.length - 1)) 8 s 16).toOption) =
    List.replicate 8 (some 6) := by decide +kernel

/-- Two processors and nine parts: the extra call of `remove_cut_nets` makes up for the odd split. -/
example : [0, 1].map (fun s => (parLoop (fun _ => 1) 10 [] 2 s 9 ⟨0, 0⟩).toOption) =
    [some ⟨4, 3⟩, some ⟨5, 4⟩] ∧
    [0, 1].map (fun s => (worldSyncs true (fun _ => 1) 2 s 9).toOption) = [some 6, some 6] := by
  decide +kernel

end PMondriaan

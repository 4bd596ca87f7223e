import Verif.Proofs.RecBisectPar
import Verif.Props.MlPar
import Verif.Props.RecBisect

/-
Property C61: the recursion on several processors, with the lambda metric.
-/

namespace PMondriaan

open Spec

/-- The bisection functions selected by the options, with `sample_size` divided by the number `p0` of processors
(recursive_bisection.cpp:61). `E` has what is undetermined in a group, for each number of processors. -/
def codeBis {F : Type} (E : List Bool → Nat → ParBisectEnv F) (opts : Options) (p0 : Nat) (path : List Bool) :
    ParBisector := fun xs =>
  bisectPar (E path xs.length) { opts with sampleSize := opts.sampleSize / p0 } xs

/-- Random bisection meets the requirement of the recursion and never fails. -/
theorem codeBis_random_well {F : Type} (E : List Bool → Nat → ParBisectEnv F) (N T : Nat) {opts : Options} (p0 : Nat)
    (hb : opts.bisectionRandom = true) (path : List Bool) :
    ParBisectsWell (codeBis E opts p0 path) N T (fun _ => False) := by
  intro xs _ _ hr _ _ labels hl max0 max1 rngs hrn
  unfold codeBis bisectPar
  rw [if_pos hb]
  left
  obtain ⟨rs, h3, h4⟩ := mapM_choose (l := xs.zip rngs) (f := fun x =>
      bisectRandom x.1.H (max0.tdiv xs.length) (max1.tdiv xs.length) x.1.s x.1.e labels x.2)
    (P := fun x r => Relabels x.1.s x.1.e labels.low labels.high x.1.H r.H ∧
      r.w0 = rangeWeight r.H x.1.s x.1.e labels.low ∧ r.w1 = rangeWeight r.H x.1.s x.1.e labels.high) (by
    intro x hx
    have hx1 := (List.of_mem_zip hx).1
    exact C35_bisect_random (hr _ hx1).1 (hr _ hx1).2 labels hl _ _ _)
  refine ⟨rs, h3, ?_⟩
  have : xs = (xs.zip rngs).map Prod.fst := by rw [List.map_fst_zip (by omega)]
  rw [this, List.forall₂_map_left_iff]
  exact h4

/-- The bisection on several processors meets the requirement of the recursion. With random bisection it never
fails. With multilevel bisection it fails only as in C59. -/
theorem codeBis_well {F : Type} {E : List Bool → Nat → ParBisectEnv F} {N T : Nat}
    (hE : ∀ path p, 2 ≤ p → ParBisectEnvOk (E path p) p N T) (hN : N < 2147483648) {opts : Options} {p0 : Nat}
    (ho : opts.samplingLp = true → 1 ≤ opts.sampleSize / p0) (path : List Bool) :
    ParBisectsWell (codeBis E opts p0 path) N T
      (fun e => opts.bisectionRandom = false ∧ (e = .ub ∨ opts.samplingLp = false ∧ e = .abort)) := by
  intro xs h2 hD hr hpos hT labels hl max0 max1 rngs hrn
  by_cases hb : opts.bisectionRandom = true
  · rcases codeBis_random_well E N T p0 hb path xs h2 hD hr hpos hT labels hl max0 max1 rngs hrn with h | ⟨_, _, h⟩
    · exact Or.inl h
    · exact h.elim
  · unfold codeBis bisectPar
    rw [if_neg hb]
    have hne : xs ≠ [] := by rintro rfl; simp at h2
    rcases C60_partial (hE path xs.length h2) hne hD hr hpos hN hT hl
      { opts with sampleSize := opts.sampleSize / p0 } ho max0 max1 hrn with h | ⟨-, h⟩ | ⟨h0, h⟩
    · exact Or.inl h
    · exact Or.inr ⟨_, h, by simpa using hb, Or.inl rfl⟩
    · exact Or.inr ⟨_, h, by simpa using hb, Or.inr ⟨h0, rfl⟩⟩

theorem totalWeights_eq (Hs : List Hypergraph) :
    (Hs.map (·.totalWeight)).foldl (· + ·) 0 = weightOn Hs := by
  rw [foldl_plus_sum]
  unfold weightOn
  induction Hs with
  | nil => rfl
  | cons H Hs ih =>
    rw [List.map_cons, List.sum_cons, ih, List.flatMap_cons, List.map_append, List.sum_append, totalWeight_eq]

theorem start_inv {N T k : Nat} (hk : 2 ≤ k) {Hs : List Hypergraph} (hD : Distributed N Hs)
    (hpos : ∀ H ∈ Hs, ∀ v ∈ H.vertices, 0 < v.weight) (hT : (Hs.flatMap (·.vertices)).length < T)
    (hW : weightOn Hs < 2 ^ 53) (hp : Hs.length ≤ 2 ^ 50) {rngs : List Rng} (hr : rngs.length = Hs.length) :
    ((Hs.zip rngs).map (fun x => (⟨x.1, x.1.vertices.length, x.2⟩ : RecProc))).map (·.H) = Hs ∧
    GroupInv N T k ⟨0, (k : Int) - 1⟩
      ((Hs.zip rngs).map (fun x => (⟨x.1, x.1.vertices.length, x.2⟩ : RecProc))) := by
  have e : ((Hs.zip rngs).map (fun x => (⟨x.1, x.1.vertices.length, x.2⟩ : RecProc))).map (·.H) = Hs := by
    rw [List.map_map]
    have : (Hs.zip rngs).map Prod.fst = Hs := List.map_fst_zip (by omega)
    conv_rhs => rw [← this]
    rfl
  refine ⟨e, ⟨by rw [e]; exact hD, ?_, by rw [e]; exact hpos, by rw [e]; exact hT, by rw [e]; exact hW, ?_, ?_,
    Or.inr (by dsimp only; omega), le_refl _, by dsimp only; omega, by dsimp only; omega⟩⟩
  · intro x hx
    obtain ⟨y, -, rfl⟩ := List.mem_map.1 hx
    exact le_refl _
  · rw [List.length_map, List.length_zip]; omega
  · intro x hx i v hv hi
    obtain ⟨y, -, rfl⟩ := List.mem_map.1 hx
    have := (List.getElem?_eq_some_iff.1 hv).1
    dsimp only at hi this
    omega

/-- C61, partial: for every number of processors, `k ≥ 2` and distributed hypergraph with positive weights, when the
recursion with the lambda metric ends normally, no vertex, net or pin is lost or duplicated, weights and costs are
kept, and every vertex has a part in `[0, k)`. The processors of a group always take the same branch, the
redistribution never fails, the loops end. What is missing: the recursion can convert a value that is not a number to
`long` (as on one processor, C38, and when a group has no weight), or the bisection fails (`Bad`); total
weights of `2^53` or more; more than `2^50` processors; the cut-net metric, for which the processors can lose step
(`C49_false`). -/
theorem C61_partial {P : ParRecEnv} {N T k : Nat} {Bad : Err → Prop} (hP : ParRecEnvOk P N T Bad)
    (hN : N < 2147483648) (hk : 2 ≤ k) {Hs : List Hypergraph} (hne : Hs ≠ []) (hD : Distributed N Hs)
    (hpos : ∀ H ∈ Hs, ∀ v ∈ H.vertices, 0 < v.weight) (hT : (Hs.flatMap (·.vertices)).length < T)
    (hW : ((Hs.flatMap (·.vertices)).map (·.weight)).sum < 2 ^ 53) (hp : Hs.length ≤ 2 ^ 50) (epsilon : ℚ) {eta : ℚ}
    (heta : 0 ≤ eta) {rngs : List Rng} (hr : rngs.length = Hs.length) :
    (∃ r, recursiveBisectPar P k epsilon eta Hs rngs = .ok r ∧ Kept N Hs r.Hs ∧
      ∀ H ∈ r.Hs, ∀ v ∈ H.vertices, 0 ≤ v.part ∧ v.part < k) ∨
    ∃ e, recursiveBisectPar P k epsilon eta Hs rngs = .error e ∧ (e = .ub ∨ Bad e) := by
  obtain ⟨e, hI⟩ := start_inv hk hD hpos hT hW hp hr
  have hag : agreed (globalWeight Hs) = .ok (weightOn Hs) := by
    apply agreed_ok
    · unfold globalWeight bulkSum
      simpa using hne
    · intro b hb
      unfold globalWeight bulkSum at hb
      obtain ⟨-, -, rfl⟩ := List.mem_map.1 hb
      exact totalWeights_eq Hs
  have hc := count_eq hI.le
  have := recPar_spec hP hN heta (maxWeight P.rnd epsilon (weightOn Hs) k) (k + 1) [] ⟨0, (k : Int) - 1⟩
    (weightOn Hs) _ hI (by dsimp only at hc; omega)
  unfold recursiveBisectPar
  rw [hag, ok_bind]
  rw [e] at this
  exact this

/-- C61 for the bisection functions of the program, with rounding to the nearest double. With random bisection the
only failure is the undefined conversion. -/
theorem C61_code_partial {F : Type} {E : List Bool → Nat → ParBisectEnv F} {E1 : List Bool → Env F} {N T : Nat}
    (hE : ∀ path p, 2 ≤ p → ParBisectEnvOk (E path p) p N T) (hE1 : ∀ path, (E1 path).Ok N)
    (hf : ∀ path, (E1 path).fuel = T) (hN : N < 2147483648) {opts : Options} {Hs : List Hypergraph}
    (ho : opts.samplingLp = true → 1 ≤ opts.sampleSize / Hs.length) {P : ParRecEnv} (hrnd : P.rnd = nearest53)
    (hbis : P.bis = codeBis E opts Hs.length)
    (halone : P.alone = fun path H m0 m1 s e l rng =>
      bisectOne (E1 path) H { opts with sampleSize := opts.sampleSize / Hs.length } m0 m1 s e l rng)
    (hord : ∀ path l, (P.ord path l).Perm l) (hdv : ∀ path, Fair (P.dVert path)) (hdc : ∀ path, Fair (P.dCost path))
    {k : Nat} (hk : 2 ≤ k) (hne : Hs ≠ []) (hD : Distributed N Hs)
    (hpos : ∀ H ∈ Hs, ∀ v ∈ H.vertices, 0 < v.weight) (hT : (Hs.flatMap (·.vertices)).length < T)
    (hW : ((Hs.flatMap (·.vertices)).map (·.weight)).sum < 2 ^ 53) (hp : Hs.length ≤ 2 ^ 50) (epsilon : ℚ) {eta : ℚ}
    (heta : 0 ≤ eta) {rngs : List Rng} (hr : rngs.length = Hs.length) :
    (∃ r, recursiveBisectPar P k epsilon eta Hs rngs = .ok r ∧ Kept N Hs r.Hs ∧
      ∀ H ∈ r.Hs, ∀ v ∈ H.vertices, 0 ≤ v.part ∧ v.part < k) ∨
    recursiveBisectPar P k epsilon eta Hs rngs = .error .ub ∨
    (opts.bisectionRandom = false ∧ opts.samplingLp = false ∧
      recursiveBisectPar P k epsilon eta Hs rngs = .error .abort) := by
  have hP : ParRecEnvOk P N T
      (fun e => opts.bisectionRandom = false ∧ (e = .ub ∨ opts.samplingLp = false ∧ e = .abort)) := by
    refine ⟨?_, ?_, hord, hdv, hdc, ?_, ?_⟩
    · rw [hbis]; exact codeBis_well hE hN ho
    · intro path
      rw [halone, ← hf path]
      exact bisectOne_well (hE1 path) _
    · rw [hrnd]; exact nearest53_keepsInts
    · rw [hrnd]; exact nearest53_rounds
  rcases C61_partial hP hN hk hne hD hpos hT hW hp epsilon heta hr with h | ⟨e, h, rfl | ⟨h1, rfl | ⟨h2, rfl⟩⟩⟩
  · exact Or.inl h
  · exact Or.inr (Or.inl h)
  · exact Or.inr (Or.inl h)
  · exact Or.inr (Or.inr ⟨h1, h2, h⟩)

/-- C61: on one processor the model is that of C37 and C38. -/
theorem C61_one_processor (P : ParRecEnv) {k : Nat} (hk : 1 ≤ k) (epsilon eta : ℚ) (H : Hypergraph) (rng : Rng) :
    recursiveBisectPar P k epsilon eta [H] [rng] =
      (recursiveBisect (P.recEnv []) H k epsilon rng).map (fun s => ⟨[s.H], [], s.calls⟩) := by
  have hag : agreed (globalWeight [H]) = .ok H.totalWeight := by
    simp [globalWeight, bulkSum, agreed]
  have hc : (⟨0, (k : Int) - 1⟩ : Interval).count = k := by
    unfold Interval.count Interval.length
    dsimp only
    omega
  unfold recursiveBisectPar
  rw [hag, ok_bind]
  simp only [List.zip_cons_cons, List.zip_nil_right, List.map_cons, List.map_nil, recPar, aloneRun, hc]
  unfold recursiveBisect
  dsimp only
  rw [show (P.recEnv []).rnd = P.rnd from rfl]
  cases recLoop (P.recEnv []) (maxWeight P.rnd epsilon H.totalWeight k) (2 * k)
      { start := 0, fin := (H.vertices.length : Int), low := 0, high := (k : Int) - 1, weight := H.totalWeight }
      { H := H, rng := rng, jobs := [], cut := [], splits := 0, calls := [] } with
  | error e => rfl
  | ok s => rfl

/-- When all vertices are in the range, the two sides together weigh as much as all vertices. -/
theorem sides_all {low high : Int} (hlh : low ≠ high) {Hs : List Hypergraph}
    (h : ∀ H ∈ Hs, ∀ v ∈ H.vertices, v.part = low ∨ v.part = high) :
    (Hs.map (fun H => partWeight H low)).sum + (Hs.map (fun H => partWeight H high)).sum = weightOn Hs := by
  have key : ∀ vs : List Vertex, (∀ v ∈ vs, v.part = low ∨ v.part = high) →
      ((vs.filter (fun v => v.part = low)).map (·.weight)).sum +
        ((vs.filter (fun v => v.part = high)).map (·.weight)).sum = (vs.map (·.weight)).sum := by
    intro vs hv
    induction vs with
    | nil => rfl
    | cons v vs ih =>
      have h1 := ih (fun v h => hv v (by simp [h]))
      rcases hv v (by simp) with ha | ha
      · have hb : v.part ≠ high := by rw [ha]; exact hlh
        rw [List.filter_cons_of_pos (by simpa using ha), List.filter_cons_of_neg (by simpa using hb)]
        simp only [List.map_cons, List.sum_cons]
        omega
      · have hb : v.part ≠ low := by rw [ha]; exact hlh.symm
        rw [List.filter_cons_of_neg (by simpa using hb), List.filter_cons_of_pos (by simpa using ha)]
        simp only [List.map_cons, List.sum_cons]
        omega
  induction Hs with
  | nil => rfl
  | cons H Hs ih =>
    have h1 := ih (fun H' h' => h H' (by simp [h']))
    have h2 := key H.vertices (h H (by simp))
    have e : weightOn (H :: Hs) = (H.vertices.map (·.weight)).sum + weightOn Hs := by simp [weightOn]
    rw [e, List.map_cons, List.map_cons, List.sum_cons, List.sum_cons]
    unfold partWeight at h1 ⊢
    omega

/-- C61 for two parts on at least two processors: the only failures are those of the bisection. -/
theorem C61_two {P : ParRecEnv} {N T : Nat} {Bad : Err → Prop} (hP : ParRecEnvOk P N T Bad)
    {Hs : List Hypergraph} (h2 : 2 ≤ Hs.length) (hD : Distributed N Hs)
    (hv : Hs.flatMap (·.vertices) ≠ []) (hpos : ∀ H ∈ Hs, ∀ v ∈ H.vertices, 0 < v.weight)
    (hT : (Hs.flatMap (·.vertices)).length < T) (hW : ((Hs.flatMap (·.vertices)).map (·.weight)).sum < 2 ^ 53)
    (hp : Hs.length ≤ 2 ^ 50) (epsilon eta : ℚ) {rngs : List Rng} (hr : rngs.length = Hs.length) :
    (∃ r, recursiveBisectPar P 2 epsilon eta Hs rngs = .ok r ∧ Kept N Hs r.Hs ∧
      ∀ H ∈ r.Hs, ∀ v ∈ H.vertices, v.part = 0 ∨ v.part = 1) ∨
    ∃ e, recursiveBisectPar P 2 epsilon eta Hs rngs = .error e ∧ Bad e := by
  obtain ⟨e, hI⟩ := start_inv (le_refl 2) hD hpos hT hW hp hr
  have hne : Hs ≠ [] := by rintro rfl; simp at h2
  have hag : agreed (globalWeight Hs) = .ok (weightOn Hs) := by
    apply agreed_ok
    · unfold globalWeight bulkSum
      simpa using hne
    · intro b hb
      unfold globalWeight bulkSum at hb
      obtain ⟨-, -, rfl⟩ := List.mem_map.1 hb
      exact totalWeights_eq Hs
  have hWpos : 0 < weightOn Hs := by
    obtain ⟨v, l, hvl⟩ := List.exists_cons_of_ne_nil hv
    have hvm : v ∈ Hs.flatMap (·.vertices) := by rw [hvl]; exact List.mem_cons_self ..
    obtain ⟨H, hH, hvH⟩ := List.mem_flatMap.1 hvm
    have h3 : v.weight ≤ weightOn Hs := by
      apply List.single_le_sum
      · intro x hx
        obtain ⟨u, hu, rfl⟩ := List.mem_map.1 hx
        obtain ⟨H', hH', hu⟩ := List.mem_flatMap.1 hu
        exact (hpos H' hH' u hu).le
      · exact List.mem_map.2 ⟨v, hvm, rfl⟩
    have := hpos H hH v hvH
    omega
  obtain ⟨xs, hxs⟩ : ∃ xs, xs = (Hs.zip rngs).map (fun x => (⟨x.1, x.1.vertices.length, x.2⟩ : RecProc)) := ⟨_, rfl⟩
  have hfin : ∀ x ∈ xs, x.fin = x.H.vertices.length := by
    intro x hx
    rw [hxs] at hx
    obtain ⟨y, -, rfl⟩ := List.mem_map.1 hx
    rfl
  rw [← hxs] at e hI
  have hlen : 2 ≤ xs.length := by
    rw [← List.length_map (f := fun x : RecProc => x.H), e]; exact h2
  have hbis := groupBisect_spec hP (maxWeight P.rnd epsilon (weightOn Hs) 2) [] (weightOn Hs) hI hlen (by decide)
  have hu : recursiveBisectPar P 2 epsilon eta Hs rngs =
      recPar P eta (maxWeight P.rnd epsilon (weightOn Hs) 2) 3 [] ⟨0, ((2 : Nat) : Int) - 1⟩ (weightOn Hs) xs := by
    unfold recursiveBisectPar
    rw [hag, ok_bind, hxs]
  rw [hu]
  rcases xs with _ | ⟨x, _ | ⟨y, l⟩⟩
  · simp at hlen
  · simp at hlen
  rcases hbis with ⟨m, rs, h3, -, hB⟩ | ⟨err, h3, h4⟩
  · left
    have hlab : ∀ H ∈ rs.map (·.H), ∀ v ∈ H.vertices, v.part = 0 ∨ v.part = 1 := by
      intro H hH v hv
      obtain ⟨r, hr', rfl⟩ := List.mem_map.1 hH
      obtain ⟨i, hi⟩ := List.mem_iff_getElem?.1 hv
      obtain ⟨z, hz, h5, h6⟩ := forall2_mem_right (R := fun (x : RecProc) (r : RState) =>
        Relabels 0 x.fin 0 1 x.H r.H ∧ ∀ (i : Nat) v, r.H.vertices[i]? = some v →
        (i < x.fin ∧ (v.part = 0 ∨ v.part = 1)) ∨ (x.fin ≤ i ∧ 0 ≤ v.part ∧ v.part < 0))
        (by
          have h5 := hB.relabels
          have h6 := hB.rest
          rw [List.forall₂_iff_get] at h5 h6 ⊢
          exact ⟨h5.1, fun i a b => ⟨h5.2 i a b, h6.2 i a b⟩⟩) hr'
      rcases h6 i v hi with h | h
      · exact h.2
      · omega
    have hsum := sides_all (by decide : (0 : Int) ≠ 1) hlab
    have hkept := hB.kept N hI.dist
    have hW' : weightOn (rs.map (·.H)) = weightOn Hs := by rw [hkept.weightOn, e]
    have e0 : (rs.map (·.w0)).foldl (· + ·) 0 = ((rs.map (·.H)).map (fun H => partWeight H 0)).sum := by
      rw [foldl_plus_sum, List.map_map]
      congr 1
      exact List.map_congr_left fun r hr => (hB.weights r hr).1
    have e1 : (rs.map (·.w1)).foldl (· + ·) 0 = ((rs.map (·.H)).map (fun H => partWeight H 1)).sum := by
      rw [foldl_plus_sum, List.map_map]
      congr 1
      exact List.map_congr_left fun r hr => (hB.weights r hr).2
    have hpl : ∃ plow, procsLow P.rnd ((rs.map (·.w0)).foldl (· + ·) 0) ((rs.map (·.w1)).foldl (· + ·) 0)
        (x :: y :: l).length (2 / 2) (2 - 2 / 2) = .ok plow := by
      unfold procsLow
      rw [if_neg (by rw [e0, e1]; omega)]
      exact ⟨_, rfl⟩
    obtain ⟨plow, hpl⟩ := hpl
    have hag2 : agreed ((List.range (x :: y :: l).length).map (fun s =>
        decide ((newLabels ⟨0, ((2 : Nat) : Int) - 1⟩ plow s).length > 0))) = .ok false := by
      apply agreed_ok
      · simp
      · intro b hb
        obtain ⟨s, -, rfl⟩ := List.mem_map.1 hb
        apply decide_eq_false
        unfold newLabels
        split <;> decide
    have hs : ∃ sp, groupSplit P eta (maxWeight P.rnd epsilon (weightOn Hs) 2) [] ⟨0, ((2 : Nat) : Int) - 1⟩
        (weightOn Hs) (x :: y :: l) = .ok (sp, rs, none) := by
      unfold groupSplit groupHead
      rw [h3, ok_bind]
      dsimp only
      rw [show (⟨0, ((2 : Nat) : Int) - 1⟩ : Interval).count = 2 from by decide, hpl, ok_bind, hag2, ok_bind]
      exact ⟨_, rfl⟩
    obtain ⟨sp, hs⟩ := hs
    refine ⟨⟨rs.map (·.H), [sp], []⟩, ?_, ?_, hlab⟩
    · unfold recPar
      rw [if_pos (by decide), hs]
      rfl
    · rw [e] at hkept; exact hkept
  · right
    refine ⟨err, ?_, ?_⟩
    · unfold recPar
      rw [if_pos (by decide)]
      unfold groupSplit groupHead
      rw [h3]
      rfl
    · rcases h4 with ⟨h4, -⟩ | h4
      · omega
      · exact h4

/-- Three processors, eight vertices of total weight 13. -/
def exampleThree : List Hypergraph :=
  [ Hypergraph.create 8 4
      [ ⟨0, [0, 1], 2, 0⟩, ⟨1, [0], 1, 0⟩, ⟨2, [1, 2], 3, 0⟩ ]
      [ ⟨0, [0, 1], 2, 3⟩, ⟨1, [0, 2], 1, 2⟩, ⟨2, [2], 1, 3⟩ ],
    Hypergraph.create 8 4
      [ ⟨3, [0, 2], 1, 0⟩, ⟨4, [3], 2, 0⟩, ⟨5, [2, 3], 1, 0⟩ ]
      [ ⟨0, [3], 2, 3⟩, ⟨2, [3, 5], 1, 3⟩, ⟨3, [4, 5], 3, 3⟩ ],
    Hypergraph.create 8 4
      [ ⟨6, [3], 2, 0⟩, ⟨7, [], 1, 0⟩ ]
      [ ⟨3, [6], 3, 3⟩ ] ]

theorem exampleThree_dist : Distributed 4 exampleThree :=
  ⟨by
    intro H hH
    simp only [exampleThree, List.mem_cons, List.not_mem_nil, or_false] at hH
    rcases hH with rfl | rfl | rfl <;>
      exact WF_create (by decide) (by decide) (by decide) (by decide) (by decide) (by decide),
    by decide, by decide, by decide⟩

/-- Random bisection, messages in reverse order. -/
def exampleRecEnv : ParRecEnv where
  rnd := nearest53
  bis := codeBis (fun _ _ => exampleParEnv) { exampleOpts with bisectionRandom := true } 1
  alone := fun _ => bisectRandom
  ord := fun _ l => l.reverse
  dVert := fun _ => revDelivery _
  dCost := fun _ => revDelivery _

theorem exampleRecEnv_ok : ParRecEnvOk exampleRecEnv 4 10 (fun _ => False) where
  bis := codeBis_random_well (fun _ _ => exampleParEnv) 4 10 (opts := { exampleOpts with bisectionRandom := true }) 1
    rfl
  alone := fun _ => randomEnv_well nearest53 false 4 10
  ord := fun _ l => l.reverse_perm
  dVert := fun _ => revDelivery_fair _
  dCost := fun _ => revDelivery_fair _
  keeps := nearest53_keepsInts
  rounds := nearest53_rounds

/-- Five parts: one processor for the labels 0 and 1 and two for the labels 2, 3 and 4. In the next round the low
side has one label and all processors stay with the high side; vertices 0 and 5 are finished. All assumptions
of C61 hold. -/
example : exampleThree ≠ [] ∧ Distributed 4 exampleThree ∧
    (∀ H ∈ exampleThree, ∀ v ∈ H.vertices, 0 < v.weight) ∧ (exampleThree.flatMap (·.vertices)).length < 10 ∧
    ((exampleThree.flatMap (·.vertices)).map (·.weight)).sum < 2 ^ 53 ∧
    (recursiveBisectPar exampleRecEnv 5 (1 / 4) 0 exampleThree [fun n => n, fun n => n, fun n => n + 1]).toOption.map
      (fun r => (r.Hs.map (fun H => H.vertices.map (fun v => (v.id, v.part))), r.splits.map (fun c => (c.p, c.plow)),
        r.calls.length)) =
      some ([[(1, 1), (7, 0), (3, 1)], [(4, 4), (6, 3), (0, 2), (5, 2)], [(2, 3)]], [(3, 1), (2, 0), (2, 1)], 1) :=
  ⟨by decide, exampleThree_dist, by decide, by decide, by decide, by decide +kernel⟩

/-- Two processors with one vertex each. -/
def exampleFew : List Hypergraph :=
  [ Hypergraph.create 2 4 [ ⟨0, [0], 1, 0⟩ ] [ ⟨0, [0], 1, 2⟩ ], Hypergraph.create 2 4 [ ⟨1, [0], 1, 0⟩ ] [ ⟨0, [1], 1, 2⟩ ] ]

/-- C61 does not hold: with five parts and two vertices there is a group whose vertices weigh nothing, and a
value that is not a number is converted to `long`. All assumptions of C61 hold. -/
theorem C61_false : exampleFew ≠ [] ∧ Distributed 4 exampleFew ∧
    (∀ H ∈ exampleFew, ∀ v ∈ H.vertices, 0 < v.weight) ∧ (exampleFew.flatMap (·.vertices)).length < 10 ∧
    ((exampleFew.flatMap (·.vertices)).map (·.weight)).sum < 2 ^ 53 ∧
    recursiveBisectPar exampleRecEnv 5 (1 / 4) 0 exampleFew [fun n => n, fun n => n] = .error .ub :=
  ⟨by decide, ⟨by
    intro H hH
    simp only [exampleFew, List.mem_cons, List.not_mem_nil, or_false] at hH
    rcases hH with rfl | rfl <;>
      exact WF_create (by decide) (by decide) (by decide) (by decide) (by decide) (by decide),
    by decide, by decide, by decide⟩, by decide, by decide, by decide, eq_of_failsWith (by decide +kernel)⟩

end PMondriaan

import Verif.Props.Balance
import Verif.Props.RecBalancePar

/-
Property C85: random bisection on several processors and the bounds. Every processor gets an equal share of the
bounds, whatever its load.
-/

namespace PMondriaan

open Spec

/-- Weights that are all within an equal share of `B` add up to at most `B`. -/
theorem sum_le_of_shares {xs : List Int} {p : Nat} {B : Int} (hp : xs.length = p) (hB : 0 ≤ B)
    (h : ∀ x ∈ xs, x ≤ B / p) : xs.sum ≤ B := by
  have key : ∀ l : List Int, (∀ x ∈ l, x ≤ B / p) → l.sum ≤ l.length * (B / p) := by
    intro l hl
    induction l with
    | nil => simp
    | cons a l ih =>
      have h1 := ih fun x hx => hl x (by simp [hx])
      have h2 := hl a (by simp)
      rw [List.sum_cons, List.length_cons]
      push_cast
      linarith
  have h1 := key xs h
  rw [hp] at h1
  have h2 : (p : Int) * (B / p) ≤ B := by
    rcases Nat.eq_zero_or_pos p with h0 | h0
    · rw [h0]; simpa using hB
    · exact Int.mul_ediv_self_le (by omega)
  linarith

/-- C85 for one call: with bounds that are not negative, when on every processor the weight of the range and one more
vertex (weight at most `om`) fit in the two shares of the bounds, random bisection ends normally, relabels only
the ranges, returns the weights of the two sides, and the weights of both sides over all processors are
within the bounds, for all random streams. -/
theorem C85_bisect {F : Type} (E : ParBisectEnv F) {opts : Options} (hb : opts.bisectionRandom = true)
    {xs : List RangeOf} (hx : ∀ x ∈ xs, x.s ≤ x.e ∧ x.e ≤ x.H.vertices.length) {labels : Interval}
    (hl : labels.low ≠ labels.high) {max0 max1 om : Int} (hm0 : 0 ≤ max0) (hm1 : 0 ≤ max1)
    (hw : ∀ x ∈ xs, ∀ v ∈ slice x.H.vertices x.s x.e, 0 ≤ v.weight ∧ v.weight ≤ om)
    (hload : ∀ x ∈ xs, ((slice x.H.vertices x.s x.e).map (·.weight)).sum + om ≤
      max0 / xs.length + max1 / xs.length + 1)
    {rngs : List Rng} (hr : rngs.length = xs.length) :
    ∃ rs, bisectPar E opts xs max0 max1 labels rngs = .ok rs ∧
      List.Forall₂ (fun x r => Relabels x.s x.e labels.low labels.high x.H r.H ∧
        r.w0 = rangeWeight r.H x.s x.e labels.low ∧ r.w1 = rangeWeight r.H x.s x.e labels.high) xs rs ∧
      (rs.map (·.w0)).sum ≤ max0 ∧ (rs.map (·.w1)).sum ≤ max1 := by
  unfold bisectPar
  rw [if_pos hb]
  have ht0 : max0.tdiv xs.length = max0 / (xs.length : Int) := Int.tdiv_eq_ediv_of_nonneg hm0
  have ht1 : max1.tdiv xs.length = max1 / (xs.length : Int) := Int.tdiv_eq_ediv_of_nonneg hm1
  rw [ht0, ht1]
  obtain ⟨rs, h3, h4⟩ := mapM_choose (l := xs.zip rngs) (f := fun x =>
      bisectRandom x.1.H (max0 / xs.length) (max1 / xs.length) x.1.s x.1.e labels x.2)
    (P := fun x r => (Relabels x.1.s x.1.e labels.low labels.high x.1.H r.H ∧
      r.w0 = rangeWeight r.H x.1.s x.1.e labels.low ∧ r.w1 = rangeWeight r.H x.1.s x.1.e labels.high) ∧
      r.w0 ≤ max0 / xs.length ∧ r.w1 ≤ max1 / xs.length) (by
    intro x hx1
    have hx1 := (List.of_mem_zip hx1).1
    obtain ⟨r, g1, g2⟩ := C35_bisect_random (hx _ hx1).1 (hx _ hx1).2 labels hl (max0 / xs.length)
      (max1 / xs.length) x.2
    obtain ⟨r', g3, g4⟩ := C35_balance (hx _ hx1).1 (hx _ hx1).2 labels hl x.2
      (Int.ediv_nonneg hm0 (by omega)) (Int.ediv_nonneg hm1 (by omega)) (hw _ hx1) (hload _ hx1)
    rw [g1] at g3
    obtain rfl := Except.ok.inj g3
    exact ⟨r, g1, g2, g4⟩)
  have e1 : xs = (xs.zip rngs).map Prod.fst := by rw [List.map_fst_zip (by omega)]
  have hlen : rs.length = xs.length := by
    rw [← h4.length_eq, List.length_zip]; omega
  refine ⟨rs, h3, ?_, ?_, ?_⟩
  · have : List.Forall₂ (fun (x : RangeOf) (r : RState) => Relabels x.s x.e labels.low labels.high x.H r.H ∧
        r.w0 = rangeWeight r.H x.s x.e labels.low ∧ r.w1 = rangeWeight r.H x.s x.e labels.high)
        ((xs.zip rngs).map Prod.fst) rs := by
      rw [List.forall₂_map_left_iff]
      exact h4.imp fun _ _ h => h.1
    rw [← e1] at this
    exact this
  · refine sum_le_of_shares (p := xs.length) (by rw [List.length_map, hlen]) hm0 ?_
    intro w hw'
    obtain ⟨r, hr', rfl⟩ := List.mem_map.1 hw'
    obtain ⟨x, -, h5⟩ := forall2_mem_right h4 hr'
    exact h5.2.1
  · refine sum_le_of_shares (p := xs.length) (by rw [List.length_map, hlen]) hm1 ?_
    intro w hw'
    obtain ⟨r, hr', rfl⟩ := List.mem_map.1 hw'
    obtain ⟨x, -, h5⟩ := forall2_mem_right h4 hr'
    exact h5.2.2

/-- Where the recorded bounds and weights of a round come from. -/
theorem groupSplit_inv {P : ParRecEnv} {eta : ℚ} {M : Int} {path : List Bool} {labels : Interval} {weight : Int}
    {xs : List RecProc} {sp : ParSplit} {rs : List RState} {nx : Option (List RecProc)}
    (h : groupSplit P eta M path labels weight xs = .ok (sp, rs, nx)) :
    ∃ m, computeMax P.rnd labels.count (labels.count / 2) (labels.count - labels.count / 2) weight M = .ok m ∧
      P.bis path (xs.map (fun x => ⟨x.H, 0, x.fin⟩)) m.1 m.2 labels (xs.map (·.rng)) = .ok rs ∧
      sp.max0 = m.1 ∧ sp.max1 = m.2 ∧ sp.w0 = (rs.map (·.w0)).sum ∧ sp.w1 = (rs.map (·.w1)).sum := by
  unfold groupSplit at h
  rw [bind_eq_ok] at h
  obtain ⟨⟨sp', rs', go⟩, h1, h2⟩ := h
  have e : sp' = sp ∧ rs' = rs := by
    dsimp only at h2
    split at h2
    · rw [bind_eq_ok] at h2
      obtain ⟨ys, -, h2⟩ := h2
      have := Except.ok.inj h2
      simp only [Prod.mk.injEq] at this
      exact ⟨this.1, this.2.1⟩
    · have := Except.ok.inj h2
      simp only [Prod.mk.injEq] at this
      exact ⟨this.1, this.2.1⟩
  obtain ⟨rfl, rfl⟩ := e
  unfold groupHead groupBisect at h1
  dsimp only at h1
  simp only [bind_eq_ok] at h1
  obtain ⟨⟨m, rs2⟩, ⟨m', hm, rs3, hrs, hpair⟩, plow, -, go', -, hfin⟩ := h1
  have hp := Except.ok.inj hpair
  simp only [Prod.mk.injEq] at hp
  obtain ⟨rfl, rfl⟩ := hp
  have hf := Except.ok.inj hfin
  simp only [Prod.mk.injEq] at hf
  obtain ⟨rfl, rfl, -⟩ := hf
  exact ⟨m', hm, hrs, rfl, rfl, foldl_plus_sum _, foldl_plus_sum _⟩

theorem slice_zero_le {l : List Vertex} (h : ∀ v ∈ l, 0 < v.weight) (e : Nat) :
    ((slice l 0 e).map (·.weight)).sum ≤ (l.map (·.weight)).sum := by
  have e1 : slice l 0 e = l.take e := by simp [slice]
  rw [e1]
  conv_rhs => rw [← List.take_append_drop e l, List.map_append, List.sum_append]
  have : 0 ≤ ((l.drop e).map (·.weight)).sum := by
    apply List.sum_nonneg
    intro x hx
    obtain ⟨v, hv, rfl⟩ := List.mem_map.1 hx
    exact (h v (List.mem_of_mem_drop hv)).le
  omega

/-- C85 for two parts on at least two processors: when every processor holds at most so much that one more vertex
fits in its share of the bound, up to one for rounding, random bisection ends normally for all random streams,
nothing is lost, and both parts weigh at most `maxweight`. -/
theorem C85_two {F : Type} {E : List Bool → Nat → ParBisectEnv F} {N T : Nat} {opts : Options} {p0 : Nat}
    (hb : opts.bisectionRandom = true) {P : ParRecEnv} (hbis : P.bis = codeBis E opts p0)
    (hP : ParRecEnvOk P N T (fun _ => False)) (hN : N < 2147483648)
    {Hs : List Hypergraph} (h2 : 2 ≤ Hs.length) (hD : Distributed N Hs)
    (hv : Hs.flatMap (·.vertices) ≠ []) {om : Int}
    (hpos : ∀ H ∈ Hs, ∀ v ∈ H.vertices, 0 < v.weight ∧ v.weight ≤ om)
    (hT : (Hs.flatMap (·.vertices)).length < T) (hp : Hs.length ≤ 2 ^ 50) {epsilon : ℚ} (heps : 0 ≤ epsilon)
    {eta : ℚ} (heta : 0 ≤ eta) {rngs : List Rng} (hr : rngs.length = Hs.length) {W M : Int}
    (hW : W = ((Hs.flatMap (·.vertices)).map (·.weight)).sum) (hM : M = maxWeight P.rnd epsilon W 2)
    (hWM : W ≤ M * 2) (hsmall : M * 2 + W < 2 ^ 47)
    (hload : ∀ H ∈ Hs, (H.vertices.map (·.weight)).sum + om ≤ 2 * ((M - 1) / Hs.length) + 1) :
    ∃ r, recursiveBisectPar P 2 epsilon eta Hs rngs = .ok r ∧ Kept N Hs r.Hs ∧
      (∀ H ∈ r.Hs, ∀ v ∈ H.vertices, v.part = 0 ∨ v.part = 1) ∧
      ∀ q : Int, 0 ≤ q → q < 2 → (r.Hs.map (fun H => partWeight H q)).sum ≤ M := by
  have hpos' : ∀ H ∈ Hs, ∀ v ∈ H.vertices, 0 < v.weight := fun H hH v hv => (hpos H hH v hv).1
  have hW0 : 0 ≤ W := by rw [hW]; exact weightOn_nonneg hpos'
  have hne : Hs ≠ [] := by rintro rfl; simp at h2
  obtain ⟨m1, -⟩ := maxWeight_le hP.rounds heps hW0 (by omega : 0 < 2)
  rw [← hM] at m1
  have hW53 : weightOn Hs < 2 ^ 53 := by
    have : weightOn Hs = W := hW.symm
    omega
  rcases C61_two hP h2 hD hv hpos' hT hW53 hp epsilon eta hr with ⟨r, h, hk, hlab⟩ | ⟨_, -, hf⟩
  swap
  · exact hf.elim
  refine ⟨r, h, hk, hlab, ?_⟩
  have hresp : (∀ c ∈ r.splits, ParSplit.Respects c) ∧ r.calls = [] := by
    obtain ⟨xs, e, hI, hX, hcnt, hrec⟩ := recPar_start (le_refl 2) hne hD hpos' hT hW53 hp hr h
    have hlen : xs.length = Hs.length := by rw [← e, List.length_map]
    have hWw : weightOn Hs = W := hW.symm
    rw [hWw, ← hM] at hrec
    rcases xs with _ | ⟨x, _ | ⟨y, l⟩⟩
    · simp at hlen; omega
    · simp at hlen; omega
    obtain ⟨xs, hxs⟩ : ∃ xs, xs = x :: y :: l := ⟨_, rfl⟩
    unfold recPar at hrec
    rw [if_pos (by decide), ← hxs, bind_eq_ok] at hrec
    rw [← hxs] at hlen hI e
    obtain ⟨⟨sp, rs, nx⟩, hs, hrec⟩ := hrec
    have hnx : nx = none := by
      rcases groupSplit_spec hP heta M [] W hI (by omega) (by decide) with
        ⟨sp', rs', -, -, ⟨-, h3⟩ | ⟨hc, -⟩⟩ | ⟨e', h3, -⟩
      · rw [hs] at h3
        have := Except.ok.inj h3
        simp only [Prod.mk.injEq] at this
        exact this.2.2
      · rw [hcnt] at hc; omega
      · rw [hs] at h3; cases h3
    subst hnx
    have hr' : r = ⟨rs.map (·.H), [sp], []⟩ := (Except.ok.inj hrec).symm
    subst hr'
    refine ⟨?_, rfl⟩
    intro c hc
    have hc : c = sp := by simpa using hc
    subst hc
    obtain ⟨m, hm, hbs, e0, e1, e2, e3⟩ := groupSplit_inv hs
    rw [hcnt] at hm
    have hWpos : 0 < W := by
      rcases lt_or_eq_of_le hW0 with h3 | h3
      · exact h3
      · rw [← h3] at hm; cases hm
    have hmv : m = (boundFor P.rnd 2 1 W M, boundFor P.rnd 2 1 W M) := by
      unfold computeMax at hm
      rw [if_neg (by omega)] at hm
      exact (Except.ok.inj hm).symm
    have hge : M - 1 ≤ boundFor P.rnd 2 1 W M := by
      have n0 := (boundFor_near hP.rounds (k_ := 2) (ks := 1) (by omega) hWpos m1 (by exact_mod_cast hWM)).1
      have hsq : (M : ℚ) * 2 + W < 2 ^ 47 := by exact_mod_cast hsmall
      have hWq : (0 : ℚ) ≤ W := by exact_mod_cast hW0
      have hl2 : Nat.log2 1 = 0 := by decide
      rw [hl2] at n0
      push_cast at n0
      have h5 : (M : ℚ) - 2 < boundFor P.rnd 2 1 W M := by
        have h6 : (20 : ℚ) * (1 / 2 ^ 53) * M < 1 := by
          have : (M : ℚ) < 2 ^ 47 := by
            have : (0 : ℚ) ≤ M := by exact_mod_cast m1
            linarith
          calc (20 : ℚ) * (1 / 2 ^ 53) * M ≤ 20 * (1 / 2 ^ 53) * 2 ^ 47 := by gcongr
            _ < 1 := by norm_num
        have h7 : (1 : ℚ) * ((W : ℚ) / 2 + ((M : ℚ) - W / 2) / 1) = M := by ring
        rw [h7] at n0
        linarith
      have h6 : M - 2 < boundFor P.rnd 2 1 W M := by exact_mod_cast h5
      omega
    have homp : 1 ≤ om := by
      obtain ⟨v, l', hvl⟩ := List.exists_cons_of_ne_nil hv
      have hvm : v ∈ Hs.flatMap (·.vertices) := by rw [hvl]; exact List.mem_cons_self ..
      obtain ⟨H, hH, hvH⟩ := List.mem_flatMap.1 hvm
      have := hpos H hH v hvH
      omega
    have hM1 : 0 ≤ M - 1 := by
      obtain ⟨H, hH⟩ := List.exists_mem_of_ne_nil _ hne
      have h5 := hload H hH
      have h6 : 0 ≤ (H.vertices.map (·.weight)).sum := by
        apply List.sum_nonneg
        intro x hx
        obtain ⟨v, hv, rfl⟩ := List.mem_map.1 hx
        exact (hpos' H hH v hv).le
      by_contra hneg
      have : M = 0 := by omega
      subst this
      have : (0 - 1 : Int) / (Hs.length : Int) < 0 := Int.ediv_neg_of_neg_of_pos (by omega) (by omega)
      omega
    rw [hbis] at hbs
    unfold codeBis at hbs
    rw [hmv] at hbs e0 e1
    dsimp only at hbs e0 e1
    have hdiv : (M - 1) / (Hs.length : Int) ≤ boundFor P.rnd 2 1 W M / (Hs.length : Int) :=
      Int.ediv_le_ediv (by omega) hge
    obtain ⟨rs', h5, -, h6, h7⟩ := C85_bisect (E [] (xs.map (fun x => (⟨x.H, 0, x.fin⟩ : RangeOf))).length)
      (opts := { opts with sampleSize := opts.sampleSize / p0 }) hb
      (xs := xs.map (fun x => ⟨x.H, 0, x.fin⟩)) (labels := ⟨0, ((2 : Nat) : Int) - 1⟩)
      (max0 := boundFor P.rnd 2 1 W M) (max1 := boundFor P.rnd 2 1 W M) (om := om)
      (by
        intro z hz
        obtain ⟨y, hy, rfl⟩ := List.mem_map.1 hz
        exact ⟨Nat.zero_le _, hI.fin y hy⟩)
      (by decide) (by omega) (by omega)
      (by
        intro z hz v hv
        obtain ⟨y, hy, rfl⟩ := List.mem_map.1 hz
        obtain ⟨i, -, -, hi⟩ := mem_slice.1 hv
        have hH : y.H ∈ Hs := by rw [← e]; exact List.mem_map_of_mem hy
        have := hpos y.H hH v (List.mem_iff_getElem?.2 ⟨i, hi⟩)
        exact ⟨this.1.le, this.2⟩)
      (by
        intro z hz
        obtain ⟨y, hy, rfl⟩ := List.mem_map.1 hz
        have hH : y.H ∈ Hs := by rw [← e]; exact List.mem_map_of_mem hy
        have h5 := hload y.H hH
        have h6 := slice_zero_le (hpos' y.H hH) y.fin
        dsimp only
        rw [List.length_map, hlen]
        omega)
      (rngs := xs.map (·.rng)) (by simp)
    rw [hbs] at h5
    obtain rfl := Except.ok.inj h5
    unfold ParSplit.Respects
    rw [e0, e1, e2, e3]
    exact ⟨h6, h7⟩
  intro q hq0 hq2
  have hsq : ((maxWeight P.rnd epsilon W 2 * (2 : Nat) : Int) : ℚ) + W < 2 ^ 47 := by
    rw [← hM]; exact_mod_cast hsmall
  rw [hM]
  exact (C62_balance hP hN (le_refl 2) hne hD hpos' hT hp heps heta hr hW (by rw [← hM]; exact_mod_cast hWM)
    hsq h hresp.1 (by rw [hresp.2]; simp) q hq0 (by exact_mod_cast hq2)).1

/-- Two processors with ten vertices of weight one, `a` of them on processor 0. -/
def tenOn (a : Nat) : List Hypergraph :=
  [ Hypergraph.create 10 1 ((List.range a).map (fun i => { id := i, nets := [], weight := 1, part := -1 })) [],
    Hypergraph.create 10 1 ((List.range (10 - a)).map (fun i => { id := a + i, nets := [], weight := 1, part := -1 })) [] ]

theorem tenOn_dist {a : Nat} (ha : a = 5 ∨ a = 10) : Distributed 4 (tenOn a) := by
  rcases ha with rfl | rfl <;>
  exact ⟨by
    intro H hH
    simp only [tenOn, List.mem_cons, List.not_mem_nil, or_false] at hH
    rcases hH with rfl | rfl <;>
      exact WF_create (by decide) (by decide) (by decide) (by decide) (by decide) (by decide),
    by decide, by decide, by decide⟩

theorem exampleRecEnv_fit (N T : Nat) : ParRecEnvOk exampleRecEnv N T (fun _ => False) where
  bis := codeBis_random_well (fun _ _ => exampleParEnv) N T (opts := { exampleOpts with bisectionRandom := true }) 1
    rfl
  alone := fun _ => randomEnv_well nearest53 false N T
  ord := fun _ l => l.reverse_perm
  dVert := fun _ => revDelivery_fair _
  dCost := fun _ => revDelivery_fair _
  keeps := nearest53_keepsInts
  rounds := nearest53_rounds

/-- Five vertices on each processor and ε = 2/5: for all random streams both parts have at most seven vertices. -/
example (rngs : List Rng) (hr : rngs.length = 2) :
    ∃ r, recursiveBisectPar exampleRecEnv 2 (2 / 5) 0 (tenOn 5) rngs = .ok r ∧ Kept 4 (tenOn 5) r.Hs ∧
      (∀ H ∈ r.Hs, ∀ v ∈ H.vertices, v.part = 0 ∨ v.part = 1) ∧
      ∀ q : Int, 0 ≤ q → q < 2 → (r.Hs.map (fun H => partWeight H q)).sum ≤ 7 :=
  C85_two (E := fun _ _ => exampleParEnv) (opts := { exampleOpts with bisectionRandom := true }) (p0 := 1) rfl rfl
    (exampleRecEnv_fit 4 20) (by decide) (by decide) (tenOn_dist (Or.inl rfl)) (by decide) (om := 1) (by decide)
    (by decide) (by decide) (by norm_num) (le_refl _) (by rw [hr]; rfl) (W := 10) (M := 7) (by decide)
    (show (7 : Int) = maxWeight nearest53 (2 / 5) 10 2 by decide +kernel) (by decide) (by decide) (by decide)

/-- C85 is false when the load is uneven: all ten vertices are on processor 0, ε = 1/5 and `maxweight` is 6. The total
weight and one more vertex fit in twice the bound (up to rounding), yet a part gets seven vertices: processor 0 fills its
share of the first side, 3, and all others go to the second. -/
theorem C85_false : Distributed 4 (tenOn 10) ∧ (∀ H ∈ tenOn 10, ∀ v ∈ H.vertices, 0 < v.weight ∧ v.weight ≤ 1) ∧
    maxWeight exampleRecEnv.rnd (1 / 5) 10 2 = 6 ∧
    (((tenOn 10).flatMap (·.vertices)).map (·.weight)).sum + 1 ≤ 2 * ((6 - 1) / (1 : Int)) + 1 ∧
    (recursiveBisectPar exampleRecEnv 2 (1 / 5) 0 (tenOn 10) [fun _ => 0, fun _ => 0]).toOption.map
      (fun r => (r.Hs.map (fun H => partWeight H 1)).sum) = some 7 :=
  ⟨tenOn_dist (Or.inr rfl), by decide, by decide +kernel, by decide, by decide +kernel⟩

end PMondriaan

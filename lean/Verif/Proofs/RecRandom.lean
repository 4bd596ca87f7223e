import Verif.Proofs.RecSlack
import Verif.Spec.Balance

/-
The recursion with a bisection function that balances: the invariant that carries the slack.
-/

namespace PMondriaan

open Spec

/-- The total weight of a range. -/
def sw (vs : List Vertex) (a b : Nat) : Int := ((slice vs a b).map (·.weight)).sum

theorem sw_eq (vs : List Vertex) (a b : Nat) :
    sw vs a b = (((vs.map (·.weight)).drop a).take (b - a)).sum := by
  unfold sw slice
  rw [List.map_take, List.map_drop]

/-- Two labels share the weight. -/
theorem sum_two_labels {l : List Vertex} {a b : Int} (hab : a ≠ b)
    (h : ∀ v ∈ l, v.part = a ∨ v.part = b) : (l.map (·.weight)).sum = wt l a + wt l b := by
  induction l with
  | nil => rfl
  | cons v l ih =>
    have h1 := ih (fun u hu => h u (List.mem_cons_of_mem _ hu))
    rw [← List.singleton_append, wt_append, wt_append, List.map_append, List.sum_append, h1]
    have h2 : ([v].map (·.weight)).sum = wt [v] a + wt [v] b := by
      unfold wt
      rcases h v (List.mem_cons_self ..) with h3 | h3
      · have h4 : ¬ v.part = b := by omega
        simp [h3, h3 ▸ h4]
      · have h4 : ¬ v.part = a := by omega
        simp [h3, h3 ▸ h4]
    rw [h2]; ring

theorem wt_all {l : List Vertex} {a : Int} (h : ∀ v ∈ l, v.part = a) :
    wt l a = (l.map (·.weight)).sum := by
  unfold wt
  rw [List.filter_eq_self.2 (by intro v hv; simpa using h v hv)]

/-- The jobs cover ranges one after the other and carry their true weights. -/
structure TrueJobs (cur : WorkItem) (s : RecState) : Prop where
  order : (cur :: s.jobs).Pairwise (fun a b => a.low < a.high → b.low < b.high → a.fin ≤ b.start)
  weight : ∀ j ∈ cur :: s.jobs, j.low < j.high →
    j.weight = sw s.H.vertices j.start.toNat j.fin.toNat

section
variable {P : RecEnv} {M : Int} {cur cur' : WorkItem} {s s' : RecState} {S E : Nat}
  {H1 H2 : Hypergraph} {w0 w1 : Int}

theorem SplitFacts.sw_after (h : SplitFacts P M cur s cur' s' S E H1 H2 w0 w1) {a b : Nat}
    (ha : E ≤ a) : sw s'.H.vertices a b = sw s.H.vertices a b := by
  rw [sw_eq, sw_eq]
  have e1 : s'.H.vertices.map (·.weight) = H2.vertices.map (·.weight) :=
    forall2_map_eq h.core fun a b hab => hab.2.1
  have e2 : H2.vertices.drop E = s.H.vertices.drop E :=
    drop_eq_of_outside (s := S) (fun i hi => h.outside2 hi)
  have e3 : ∀ l : List Int, l.drop a = (l.drop E).drop (a - E) := by
    intro l; rw [List.drop_drop]; congr 1; omega
  have e4 : (H2.vertices.map (·.weight)).drop E = (s.H.vertices.map (·.weight)).drop E := by
    rw [← List.map_drop, ← List.map_drop, e2]
  rw [e1, e3, e3 (s.H.vertices.map (·.weight)), e4]

theorem SplitFacts.total (h : SplitFacts P M cur s cur' s' S E H1 H2 w0 w1)
    (hlh : cur.low < cur.high) (hE : E ≤ s.H.vertices.length) :
    w0 + w1 = sw s.H.vertices S E := by
  have e1 : H1.vertices.map (·.weight) = s.H.vertices.map (·.weight) :=
    forall2_map_eq (relabels_forall2 h.relabels) fun a b hab => hab.2.2
  have e2 : sw s.H.vertices S E = sw H1.vertices S E := by rw [sw_eq, sw_eq, e1]
  rw [e2, h.w0_eq, h.w1_eq, rangeWeight_eq_wt, rangeWeight_eq_wt]
  exact (sum_two_labels (by omega) (h.labels1 hE)).symm

/-- The weights of the two ranges after the reordering. -/
theorem SplitFacts.sw_split (h : SplitFacts P M cur s cur' s' S E H1 H2 w0 w1)
    (hlh : cur.low < cur.high) {m : Nat} (a : SplitAt S m E cur.low cur.high H1 H2) :
    w0 = sw s'.H.vertices S m ∧ w1 = sw s'.H.vertices m E := by
  have e1 : s'.H.vertices.map (·.weight) = H2.vertices.map (·.weight) :=
    forall2_map_eq h.core fun a b hab => hab.2.1
  have e2 : ∀ x y, sw s'.H.vertices x y = sw H2.vertices x y := by
    intro x y; rw [sw_eq, sw_eq, e1]
  have hsp : slice H2.vertices S E = slice H2.vertices S m ++ slice H2.vertices m E := by
    unfold slice
    have := a.start_le
    have := a.le_end
    rw [show E - S = (m - S) + (E - m) by omega, List.take_add, List.drop_drop,
      show S + (m - S) = m by omega]
  rw [e2, e2, h.w0_eq, h.w1_eq, rangeWeight_eq_wt, rangeWeight_eq_wt, ← wt_perm a.perm,
    ← wt_perm a.perm, hsp, wt_append, wt_append,
    wt_none (a := slice H2.vertices m E) (p := cur.low)
      (fun v hv => by have := a.highs v hv; omega),
    wt_none (a := slice H2.vertices S m) (p := cur.high)
      (fun v hv => by have := a.lows v hv; omega),
    wt_all a.lows, wt_all a.highs]
  unfold sw
  constructor <;> ring

end

/-- The invariant: true weights, every bisection so far within its bounds, and slack. -/
structure SlackInv (M om : Int) (η C : ℚ) (cur : WorkItem) (s : RecState) : Prop where
  true : TrueJobs cur s
  calls : ∀ c ∈ s.calls, BisectCall.Respects c
  slack : ∀ j ∈ cur :: s.jobs, j.low < j.high → Margin M om η C (j.high - j.low + 1).toNat j.weight

theorem SlackInv.step {P : RecEnv} {N f k : Nat} {H0 : Hypergraph} {M om room : Int} {u C : ℚ}
    {cur cur' : WorkItem} {s s' : RecState} {S E : Nat} {H1 H2 : Hypergraph} {w0 w1 : Int}
    (hbal : Balances P.bis N f om room) (hr : RoundsWithin u P.rnd) (hM : 0 ≤ M) (hom : 0 ≤ room)
    (hC : C < M) (hmax : ∀ v ∈ H0.vertices, v.weight ≤ om)
    (hI : RecInv P N f k H0 cur s) (hJ : SlackInv M room (20 * u * (M * k)) C cur s)
    (hlh : cur.low < cur.high) (hS : cur.start = S) (hE : cur.fin = E) (hSE : S ≤ E)
    (hEl : E ≤ s.H.vertices.length)
    (h : SplitFacts P M cur s cur' s' S E H1 H2 w0 w1) :
    SlackInv M room (20 * u * (M * k)) C cur' s' := by
  obtain ⟨η, hη⟩ : ∃ η, η = 20 * u * ((M : ℚ) * k) := ⟨_, rfl⟩
  rw [← hη] at hJ ⊢
  obtain ⟨K, hK⟩ : ∃ K, K = (cur.high - cur.low + 1).toNat := ⟨_, rfl⟩
  have hu0 := hr.nonneg
  have hMq : (0 : ℚ) ≤ M := by exact_mod_cast hM
  have homq : (0 : ℚ) ≤ room := by exact_mod_cast hom
  have hη0 : 0 ≤ η := by rw [hη]; positivity
  have hlab := hI.labels cur (List.mem_cons_self ..)
  have hK2 : 2 ≤ K := by omega
  have hKk : K ≤ k := by omega
  have hsl := hJ.slack cur (List.mem_cons_self ..) hlh
  rw [← hK] at hsl
  have hwpos : 0 < cur.weight := hsl.pos hK2 homq hη0 hC
  have hroom0 := needed_ge homq hη0 (Nat.clog 2 K)
  have hroom := hsl.room
  have hK0 : (0 : ℚ) < K := by exact_mod_cast (by omega : 0 < K)
  have hwM : cur.weight ≤ M * K := by
    have h1 : (cur.weight : ℚ) / K ≤ M := by linarith
    rw [div_le_iff₀ hK0] at h1
    exact_mod_cast h1
  obtain ⟨klow, hkl⟩ : ∃ x, x = K / 2 := ⟨_, rfl⟩
  obtain ⟨khigh, hkh⟩ : ∃ x, x = K - klow := ⟨_, rfl⟩
  have hηs : ∀ ks : Nat, ks ≤ k → 20 * u * ((M : ℚ) * ks) ≤ η := by
    intro ks hks
    have : (ks : ℚ) ≤ k := by exact_mod_cast hks
    rw [hη]; gcongr
  have n0 := boundFor_near hr (k_ := K) (ks := klow) (by omega) hwpos hM hwM
  have n1 := boundFor_near hr (k_ := K) (ks := khigh) (by omega) hwpos hM hwM
  have e0 := hηs klow (by omega)
  have e1 := hηs khigh (by omega)
  obtain ⟨m0, hm0⟩ : ∃ x, x = boundFor P.rnd K klow cur.weight M := ⟨_, rfl⟩
  obtain ⟨m1, hm1⟩ : ∃ x, x = boundFor P.rnd K khigh cur.weight M := ⟨_, rfl⟩
  rw [← hm0] at n0
  rw [← hm1] at n1
  have hran := h.ran
  rw [← hK, ← hkl, ← hkh, ← hm0, ← hm1] at hran
  have htw : cur.weight = sw s.H.vertices S E := by
    have := hJ.true.weight cur (List.mem_cons_self ..) hlh
    rw [hS, hE] at this
    simpa using this
  have htot : w0 + w1 = cur.weight := by rw [htw]; exact h.total hlh hEl
  -- the bounds leave room
  have hs0 : (room : ℚ) / 2 + η ≤ M - cur.weight / K := le_trans hroom0 hroom
  have share : ∀ ks : Nat, 1 ≤ ks → (M : ℚ) - cur.weight / K ≤
      ks * ((M - cur.weight / K) / ((Nat.log2 ks + 1 : Nat) : ℚ)) := by
    intro ks hks
    have h1 : ((Nat.log2 ks + 1 : Nat) : ℚ) ≤ ks := by exact_mod_cast log2_succ_le hks
    have h2 : (0 : ℚ) < ((Nat.log2 ks + 1 : Nat) : ℚ) := by positivity
    rw [mul_div_assoc', le_div_iff₀ h2]
    have h3 : 0 ≤ (M : ℚ) - cur.weight / K := by linarith
    have := mul_le_mul_of_nonneg_left h1 h3
    linarith
  have sh0 := share klow (by omega)
  have sh1 := share khigh (by omega)
  have hsum : (klow : ℚ) * (cur.weight / K) + khigh * (cur.weight / K) = cur.weight := by
    have h1 : (klow : ℚ) + khigh = K := by
      have : klow + khigh = K := by omega
      exact_mod_cast this
    rw [← add_mul, h1]; field_simp
  have hl0 : (0 : ℚ) < cur.weight / K := by
    have : (0 : ℚ) < cur.weight := by exact_mod_cast hwpos
    positivity
  have hm0n : 0 ≤ m0 := by
    have h1 : (-1 : ℚ) < m0 := by
      have h2 : 0 ≤ (klow : ℚ) * (cur.weight / K) := by positivity
      have h3 := n0.1
      rw [mul_add] at h3
      linarith
    have : (-1 : Int) < m0 := by exact_mod_cast h1
    omega
  have hm1n : 0 ≤ m1 := by
    have h1 : (-1 : ℚ) < m1 := by
      have h2 : 0 ≤ (khigh : ℚ) * (cur.weight / K) := by positivity
      have h3 := n1.1
      rw [mul_add] at h3
      linarith
    have : (-1 : Int) < m1 := by exact_mod_cast h1
    omega
  have hfits : sw s.H.vertices S E + room ≤ m0 + m1 + 1 := by
    rw [← htw]
    have h3 := n0.1
    have h4 := n1.1
    rw [mul_add] at h3 h4
    have h5 : ((cur.weight + room : Int) : ℚ) < ((m0 + m1 + 2 : Int) : ℚ) := by
      push_cast
      linarith
    have : cur.weight + room < m0 + m1 + 2 := by exact_mod_cast h5
    omega
  have hmax' : ∀ v ∈ s.H.vertices, v.weight ≤ om := by
    intro v hv
    have h1 : (v.id, v.weight) ∈ s.H.vertices.map (fun v => (v.id, v.weight)) :=
      List.mem_map.2 ⟨v, hv, rfl⟩
    obtain ⟨v0, hv0, h2⟩ := List.mem_map.1 (hI.verts.mem_iff.1 h1)
    have h3 := congrArg Prod.snd h2
    simp only at h3
    rw [← h3]; exact hmax v0 hv0
  obtain ⟨r0, r1⟩ := hbal s.H hI.fit hmax' S E hSE hEl ⟨cur.low, cur.high⟩ (by simp only; omega) m0 m1
    hm0n hm1n hfits _ _ hran
  simp only at r0 r1
  have hcl := clog_half hK2
  rw [← hkl, ← hkh] at hcl
  -- the slack of the sides
  have up0 : (w0 : ℚ) ≤ klow * (cur.weight / K + (M - cur.weight / K) / ((Nat.log2 klow + 1 : Nat) : ℚ)) + η := by
    have : (w0 : ℚ) ≤ m0 := by exact_mod_cast r0
    linarith [n0.2]
  have up1 : (w1 : ℚ) ≤ khigh * (cur.weight / K + (M - cur.weight / K) / ((Nat.log2 khigh + 1 : Nat) : ℚ)) + η := by
    have : (w1 : ℚ) ≤ m1 := by exact_mod_cast r1
    linarith [n1.2]
  have slow : 2 ≤ klow → Margin M room η C klow w0 := by
    intro h2
    refine hsl.side homq hη0 (ko := khigh) (by omega) h2 (by omega) hcl
      (Nat.clog_mono_right 2 (by omega)) ?_ up0 ?_
    · have h3 : Nat.clog 2 khigh ≤ Nat.log2 khigh + 1 := clog_le_log2
      have h4 : khigh ≤ 2 * klow := by omega
      calc Nat.clog 2 khigh * khigh ≤ (Nat.log2 khigh + 1) * (2 * klow) := Nat.mul_le_mul h3 h4
        _ = 2 * klow * (Nat.log2 khigh + 1) := Nat.mul_comm _ _
    · rw [show cur.weight - w0 = w1 by omega]; exact up1
  have shigh : 2 ≤ khigh → Margin M room η C khigh w1 := by
    intro h2
    refine hsl.side homq hη0 (ko := klow) (by omega) h2 (by omega) hcl (le_refl _) ?_ up1 ?_
    · have h3 : Nat.clog 2 khigh ≤ Nat.log2 klow + 1 := by
        rw [hkh, hkl]; exact clog_le_log2_low (by omega)
      have h4 : klow ≤ 2 * khigh := by omega
      calc Nat.clog 2 khigh * klow ≤ (Nat.log2 klow + 1) * (2 * khigh) := Nat.mul_le_mul h3 h4
        _ = 2 * khigh * (Nat.log2 klow + 1) := Nat.mul_comm _ _
    · rw [show cur.weight - w1 = w0 by omega]; exact up0
  have hlow := h.cur_low
  have hhigh := h.cur_high
  rw [← hK, ← hkl] at hhigh
  have hord := List.pairwise_cons.1 hJ.true.order
  have hcalls : ∀ c ∈ s'.calls, BisectCall.Respects c := by
    intro c hc
    rw [h.calls] at hc
    rcases List.mem_append.1 hc with hc | hc
    · exact hJ.calls c hc
    · rw [List.mem_singleton.1 hc]
      simp only [BisectCall.Respects, ← hK, ← hkl, ← hkh, ← hm0, ← hm1]
      exact ⟨r0, r1⟩
  have hold : ∀ j ∈ s.jobs, j.low < j.high → (E : Int) ≤ j.start ∧
      j.weight = sw s'.H.vertices j.start.toNat j.fin.toNat := by
    intro j hj hj2
    have h1 := hord.1 j hj hlh hj2
    rw [hE] at h1
    refine ⟨h1, ?_⟩
    rw [h.sw_after (by omega)]
    exact hJ.true.weight j (List.mem_cons_of_mem _ hj) hj2
  have hslow : cur'.low < cur'.high → Margin M room η C (cur'.high - cur'.low + 1).toNat cur'.weight := by
    intro hc
    rw [h.cur_weight, show (cur'.high - cur'.low + 1).toNat = klow by omega]
    exact slow (by omega)
  rcases h.reorder with ⟨a, b, c⟩ | ⟨a, b, -⟩
  · rw [← hK, ← hkl, ← hkh] at a
    have hw1 : 0 < w1 := (shigh a).pos a homq hη0 hC
    rcases c with ⟨m, c1, c2⟩ | ⟨-, -, c3⟩
    swap
    · omega
    obtain ⟨t0, t1⟩ := h.sw_split hlh c2
    have hm1' := c2.start_le
    have hm2' := c2.le_end
    refine ⟨⟨?_, ?_⟩, hcalls, ?_⟩
    · rw [b, List.pairwise_cons, List.pairwise_cons]
      refine ⟨?_, ?_, hord.2⟩
      · intro j hj hc hj2
        rcases List.mem_cons.1 hj with hj | hj
        · rw [hj]
        · have := (hold j hj hj2).1
          omega
      · intro j hj _ hj2
        have := (hold j hj hj2).1
        simp only
        omega
    · rw [b]
      intro j hj hj2
      rcases List.mem_cons.1 hj with hj | hj
      · rw [hj, h.cur_weight, h.cur_start, hS, c1]
        exact t0
      · rcases List.mem_cons.1 hj with hj | hj
        · rw [hj]; simp only; rw [c1, hE]; exact t1
        · exact (hold j hj hj2).2
    · rw [b]
      intro j hj hj2
      rcases List.mem_cons.1 hj with hj | hj
      · rw [hj] at hj2 ⊢; exact hslow hj2
      · rcases List.mem_cons.1 hj with hj | hj
        · rw [hj]; simp only
          rw [← hK, ← hkl, show (cur.high - (cur.low + (klow : Int)) + 1).toNat = khigh by omega]
          exact shigh (by omega)
        · exact hJ.slack j (List.mem_cons_of_mem _ hj) hj2
  · rw [← hK, ← hkl, ← hkh] at a
    have hs1 : ¬ cur'.low < cur'.high := by omega
    refine ⟨⟨?_, ?_⟩, hcalls, ?_⟩
    · rw [b, List.pairwise_cons]
      exact ⟨fun j hj hc => absurd hc hs1, hord.2⟩
    · rw [b]
      intro j hj hj2
      rcases List.mem_cons.1 hj with hj | hj
      · rw [hj] at hj2; exact absurd hj2 hs1
      · exact (hold j hj hj2).2
    · rw [b]
      intro j hj hj2
      rcases List.mem_cons.1 hj with hj | hj
      · rw [hj] at hj2; exact absurd hj2 hs1
      · exact hJ.slack j (List.mem_cons_of_mem _ hj) hj2

end PMondriaan

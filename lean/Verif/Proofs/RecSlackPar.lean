import Verif.Proofs.SlackSplit
import Verif.Proofs.RecSumPar
import Verif.Proofs.RecRandom
import Verif.Props.RecBisect
import Verif.Props.BalancePar

/-
The recursion on several processors with enough slack: every bisection stays within its bounds.
-/

namespace PMondriaan

open Spec

theorem Margin.mono {M : Int} {om om' η C : ℚ} {K : Nat} {w : Int} (h : Margin M om η C K w) (hK : 2 ≤ K)
    (ho : om' ≤ om) : Margin M om' η C K w := by
  refine ⟨le_trans ?_ h.room, h.tight⟩
  have hb : (1 : ℚ) ≤ (Nat.clog 2 K : ℚ) := by exact_mod_cast clog_pos' hK
  unfold needed
  split
  · linarith
  · apply mul_le_mul_of_nonneg_left _ (by linarith)
    linarith

/-- The weight that a processor of a group works on. -/
def loadOf (x : RecProc) : Int := ((slice x.H.vertices 0 x.fin).map (·.weight)).sum

/-- The two sides of a bisection have together the weight that the group works on. -/
theorem BisectFacts.total {labels : Interval} {xs : List RecProc} {rs : List RState} (h : BisectFacts labels xs rs)
    (hlh : labels.low < labels.high) (hfin : ∀ x ∈ xs, x.fin ≤ x.H.vertices.length) :
    partOn (rs.map (·.H)) labels.low + partOn (rs.map (·.H)) labels.high = (xs.map loadOf).sum := by
  have hrel := h.relabels
  have hrest := h.rest
  clear h
  unfold partOn
  induction hrel with
  | nil => rfl
  | @cons x r xs rs hx _ ih =>
    cases hrest with
    | cons hr1 hr2 =>
      have h1 := ih (fun x hx => hfin x (by simp [hx])) hr2
      simp only [List.map_cons, List.sum_cons]
      have h2 : partWeight r.H labels.low + partWeight r.H labels.high = loadOf x := by
        have e1 : ∀ q, labels.low ≤ q → partWeight r.H q = wt (r.H.vertices.take x.fin) q := by
          intro q hq
          rw [partWeight_eq_wt]
          conv_lhs => rw [← List.take_append_drop x.fin r.H.vertices]
          rw [wt_append, wt_none (a := r.H.vertices.drop x.fin), add_zero]
          intro v hv
          obtain ⟨i, hi⟩ := List.mem_iff_getElem?.1 hv
          rw [List.getElem?_drop] at hi
          rcases hr1 _ v hi with h | h <;> omega
        rw [e1 _ (le_refl _), e1 _ hlh.le, ← sum_two_labels (by omega)]
        · unfold loadOf slice
          have e2 : r.H.vertices.map (·.weight) = x.H.vertices.map (·.weight) :=
            forall2_map_eq (relabels_forall2 hx) fun _ _ hab => hab.2.2
          rw [List.drop_zero, Nat.sub_zero, List.map_take, List.map_take, e2]
        · intro v hv
          obtain ⟨i, hi⟩ := List.mem_iff_getElem?.1 hv
          rw [List.getElem?_take] at hi
          split at hi
          · rcases hr1 i v hi with h | h
            · exact h.2
            · omega
          · cases hi
      omega

/-- The loads after a redistribution. -/
theorem afterRedist_load {P : ParRecEnv} {N T k : Nat} {Bad : Err → Prop} (hP : ParRecEnvOk P N T Bad) {eta : ℚ}
    (heta : 0 ≤ eta) {path : List Bool} {labels : Interval} {xs : List RecProc} (hI : GroupInv N T k labels xs)
    {sp : ParSplit} {rs : List RState} (hS : SplitFactsPar P eta path N labels xs sp rs) {ys : List (Hypergraph × Int)}
    (hy : redistribute (P.ord path) (P.dVert path) (P.dCost path) sp.plow labels.low
      labels.high (redistArgs P.rnd eta sp.w0 sp.w1 sp.plow rs) = .ok ys) (h1 : sp.plow < xs.length) {om : Int}
    (hom : 1 ≤ om) (hmax : ∀ H ∈ rs.map (·.H), ∀ v ∈ H.vertices, v.weight ≤ om) :
    (∀ z ∈ (afterRedist rs ys).take sp.plow, partWeight z.H labels.low ≤
      newMaxLocal P.rnd sp.w0 sp.plow eta + ((xs.length - 1 : Nat) : Int) * (om - 1)) ∧
    ∀ z ∈ (afterRedist rs ys).drop sp.plow, partWeight z.H labels.high ≤
      newMaxLocal P.rnd sp.w1 (xs.length - sp.plow) eta + ((xs.length - 1 : Nat) : Int) * (om - 1) := by
  have hlen : rs.length = xs.length := hS.bis.relabels.length_eq.symm
  have e0 := redistArgs_total P.rnd eta sp.w0 sp.w1 sp.plow rs labels.low
  have e1 := redistArgs_total P.rnd eta sp.w0 sp.w1 sp.plow rs labels.high
  rw [← hS.w0] at e0
  rw [← hS.w1] at e1
  have hs := hS.sides
  have hpr := hI.procs
  obtain ⟨res, hr, hload⟩ := C54_load hS.input (hP.ord path) (hP.dVert path) (hP.dCost path) (plow := sp.plow)
    (by rw [redistArgs_length]; omega) (M0 := newMaxLocal P.rnd sp.w0 sp.plow eta)
    (M1 := newMaxLocal P.rnd sp.w1 (xs.length - sp.plow) eta) (by
      intro t a ht
      obtain ⟨r, -, rfl⟩ := redistArgs_get ht
      rw [hlen])
    (by
      intro hp
      rw [e0]
      exact (newMaxLocal_ge hP.keeps hP.rounds hs.1 (by omega) hp (by omega) heta).1)
    (by
      rw [e1, redistArgs_length, hlen]
      exact (newMaxLocal_ge hP.keeps hP.rounds hs.2.1 (by omega) (by omega) (by omega) heta).1) hom (by
      intro a ha v hv
      refine hmax a.H ?_ v hv
      rw [← redistArgs_H P.rnd eta sp.w0 sp.w1 sp.plow rs]
      exact List.mem_map_of_mem ha)
  rw [hy] at hr
  obtain rfl := Except.ok.inj hr
  have hget : ∀ (t : Nat) z, (afterRedist rs ys)[t]? = some z → ∃ y r, ys[t]? = some y ∧ z.H = y.1 ∧
      (redistArgs P.rnd eta sp.w0 sp.w1 sp.plow rs)[t]? = some r := by
    intro t z hz
    unfold afterRedist at hz
    rw [List.getElem?_map] at hz
    obtain ⟨⟨r, y⟩, hx, rfl⟩ := Option.map_eq_some_iff.1 hz
    have h2 := List.getElem?_zip_eq_some.1 hx
    have h3 : t < (redistArgs P.rnd eta sp.w0 sp.w1 sp.plow rs).length := by
      rw [redistArgs_length]; exact (List.getElem?_eq_some_iff.1 h2.1).1
    exact ⟨y, _, h2.2, rfl, List.getElem?_eq_getElem h3⟩
  rw [redistArgs_length, hlen] at hload
  constructor
  · intro z hz
    obtain ⟨t, ht⟩ := List.mem_iff_getElem?.1 hz
    rw [List.getElem?_take] at ht
    split at ht
    · rename_i htp
      obtain ⟨y, a, hy', hH, ha⟩ := hget t z ht
      rw [hH]
      exact ((hload t y a hy' ha).1 htp).1
    · cases ht
  · intro z hz
    obtain ⟨t, ht⟩ := List.mem_iff_getElem?.1 hz
    rw [List.getElem?_drop] at ht
    obtain ⟨y, a, hy', hH, ha⟩ := hget _ z ht
    rw [hH]
    exact ((hload _ y a hy' ha).2 (by omega)).1

/-- A round of a group with at least two processors, unfolded. -/
theorem recPar_step {P : ParRecEnv} {eta : ℚ} {M : Int} {f : Nat} {path : List Bool} {labels : Interval} {weight : Int}
    {xs : List RecProc} (h2 : 2 ≤ xs.length) (hlh : labels.low < labels.high) :
    recPar P eta M (f + 1) path labels weight xs = (do
      let (split, rs, next) ← groupSplit P eta M path labels weight xs
      match next with
      | none => pure ⟨rs.map (·.H), [split], []⟩
      | some zs => do
        let a ← recPar P eta M f (path ++ [true]) (lowLabels labels) split.w0 (zs.take split.plow)
        let b ← recPar P eta M f (path ++ [false]) (highLabels labels) split.w1 (zs.drop split.plow)
        pure ⟨a.Hs ++ b.Hs, split :: a.splits ++ b.splits, a.calls ++ b.calls⟩) := by
  rcases xs with _ | ⟨x, _ | ⟨y, l⟩⟩
  · simp at h2
  · simp at h2
  conv_lhs => unfold recPar
  rw [if_pos (show labels.length > 0 by unfold Interval.length; omega)]
  rfl

/-- A processor that is alone and has enough slack. -/
theorem aloneRun_fits {P : ParRecEnv} {N T k : Nat} {Bad : Err → Prop} (hP : ParRecEnvOk P N T Bad)
    (hN : N < 2147483648) {M om : Int} (hM : 0 ≤ M) (hom : 0 ≤ om) {C : ℚ} (hC : C < M) (path : List Bool)
    (hal : Balances (P.alone path) N T om om)
    {labels : Interval} {weight : Int} {x : RecProc} (hI : GroupInv N T k labels [x])
    (hmax : ∀ v ∈ x.H.vertices, v.weight ≤ om) (hw : weight = loadOf x)
    (hm : Margin M om (20 * (1 / 2 ^ 53) * (M * k)) C labels.count weight) :
    ∃ r, aloneRun P M path labels weight x = .ok r ∧ r.splits = [] ∧ ∀ c ∈ r.calls, BisectCall.Respects c := by
  have hle := hI.le
  have hc := count_eq hle
  have hRI := alone_recInv (P := P) hN path weight hI
  have homq : (0 : ℚ) ≤ om := by exact_mod_cast hom
  have hMq : (0 : ℚ) ≤ M := by exact_mod_cast hM
  have hη0 : 0 ≤ 20 * (1 / 2 ^ 53) * ((M : ℚ) * k) := by positivity
  obtain ⟨s, h, cur1, hJ1, -⟩ := recLoop_total (hP.alone path) (fun _ _ => .refl _) M
    (SlackInv M om (20 * (1 / 2 ^ 53) * (M * k)) C)
    (fun cur s hJ hlh => by
      have := (hJ.slack cur (List.mem_cons_self ..) hlh).pos (by omega) homq hη0 hC
      omega)
    (fun cur s cur' s' S E H1 H2 w0 w1 hJ hI' hlh a1 a2 a3 a4 a5 =>
      SlackInv.step hal hP.rounds hM hom hC hmax hI' hJ hlh a1 a2 a3 a4 a5)
    (fun cur s j js hJ hlh hj => by
      refine ⟨⟨?_, ?_⟩, hJ.calls, ?_⟩
      · have := hJ.true.order
        rw [hj] at this
        exact (List.pairwise_cons.1 this).2
      · intro j' hj'
        exact hJ.true.weight j' (by rw [hj]; exact List.mem_cons_of_mem _ hj')
      · intro j' hj'
        exact hJ.slack j' (by rw [hj]; exact List.mem_cons_of_mem _ hj'))
    (2 * labels.count) _ _ (by
      refine ⟨⟨?_, ?_⟩, ?_, ?_⟩
      · simp
      · intro j hj _
        simp only [List.mem_singleton] at hj
        rw [hj]
        dsimp only
        rw [hw]
        rfl
      · intro c hc; simp at hc
      · intro j hj _
        simp only [List.mem_singleton] at hj
        rw [hj]
        exact hm) hRI (by
      unfold work
      simp only [List.map_nil, List.sum_nil]
      omega)
  unfold aloneRun
  exact ⟨⟨[s.H], [], s.calls⟩, by rw [h]; rfl, rfl, hJ1.calls⟩

theorem loadOf_full {z : RecProc} (hf : z.fin = z.H.vertices.length) {a : Int}
    (h : ∀ v ∈ z.H.vertices, v.part = a) : loadOf z = partWeight z.H a := by
  unfold loadOf slice
  rw [hf, List.drop_zero, Nat.sub_zero, List.take_length, partWeight_eq_wt, wt_all h]

/-- When the finished vertices of the range's tail have the label of the low side. -/
theorem loadOf_rest {z : RecProc} {a b : Int} (hab : a ≠ b)
    (hr : ∀ (i : Nat) v, z.H.vertices[i]? = some v → (i < z.fin ↔ v.part ≠ a))
    (h : ∀ v ∈ z.H.vertices, v.part = a ∨ v.part = b) : loadOf z = partWeight z.H b := by
  unfold loadOf slice
  rw [List.drop_zero, Nat.sub_zero, partWeight_eq_wt]
  conv_rhs => rw [← List.take_append_drop z.fin z.H.vertices]
  rw [wt_append, wt_all, wt_none, add_zero]
  · intro v hv
    obtain ⟨i, hi⟩ := List.mem_iff_getElem?.1 hv
    rw [List.getElem?_drop] at hi
    have h1 := hr _ v hi
    have h2 : v.part = a := by
      by_contra hne
      have := h1.2 hne
      omega
    rw [h2]; exact hab
  · intro v hv
    obtain ⟨i, hi⟩ := List.mem_iff_getElem?.1 hv
    rw [List.getElem?_take] at hi
    split at hi
    · rename_i hlt
      rcases h v (List.mem_of_getElem? hi) with h1 | h1
      · exact absurd h1 ((hr i v hi).1 hlt)
      · exact h1
    · cases hi

/-- The load of a processor after a redistribution is small enough for the next bisection. -/
theorem load_next {eta R : ℚ} {M om w L mx : Int} {p p' q K : Nat} (heta : 0 ≤ eta) (heta1 : eta ≤ 1) (hom : 1 ≤ om)
    (hp : 2 ≤ p) (hp' : p' ≤ p) (hp1 : 1 ≤ p') (hq : q ≤ p) (hq0 : 0 < q) (hK : 2 ≤ K) (hw : w ≤ M * K)
    (hM : 0 ≤ M) (hR : 2 * eta * M + 2 * p + (p : ℚ) ^ 2 * om ≤ R) (hL : L ≤ mx + ((p' - 1 : Nat) : Int) * (om - 1))
    (hmx : (mx : ℚ) ≤ ((w : ℚ) / q + 1) * (1 + eta) + 1) :
    (q : ℚ) * (L + om) ≤ w + K * R / 2 := by
  have hqq : (0 : ℚ) < q := by exact_mod_cast hq0
  have hqp : (q : ℚ) ≤ p := by exact_mod_cast hq
  have hpq : (2 : ℚ) ≤ p := by exact_mod_cast hp
  have homq : (1 : ℚ) ≤ om := by exact_mod_cast hom
  have hMq : (0 : ℚ) ≤ M := by exact_mod_cast hM
  have hKq : (2 : ℚ) ≤ K := by exact_mod_cast hK
  have hwq : (w : ℚ) ≤ M * K := by exact_mod_cast hw
  have hLq : (L : ℚ) ≤ mx + ((p : ℚ) - 1) * (om - 1) := by
    have h1 : ((L : Int) : ℚ) ≤ ((mx + ((p' - 1 : Nat) : Int) * (om - 1) : Int) : ℚ) := by exact_mod_cast hL
    push_cast at h1
    have h2 : ((p' - 1 : Nat) : ℚ) ≤ (p : ℚ) - 1 := by
      have : ((p' - 1 : Nat) : ℚ) = (p' : ℚ) - 1 := by
        rw [Nat.cast_sub hp1]; simp
      rw [this]
      have : (p' : ℚ) ≤ p := by exact_mod_cast hp'
      linarith
    have h3 := mul_le_mul_of_nonneg_right h2 (by linarith : (0 : ℚ) ≤ (om : ℚ) - 1)
    linarith
  have h1 : (q : ℚ) * (L + om) ≤ q * (((w : ℚ) / q + 1) * (1 + eta) + 1 + ((p : ℚ) - 1) * (om - 1) + om) :=
    mul_le_mul_of_nonneg_left (by linarith) hqq.le
  have h2 : (q : ℚ) * (((w : ℚ) / q + 1) * (1 + eta) + 1 + ((p : ℚ) - 1) * (om - 1) + om) =
      w + eta * w + q * (3 + eta - p + p * om) := by
    field_simp
    ring
  have h3 : (q : ℚ) * (3 + eta - p + p * om) ≤ p * (2 + p * om) := by
    have h4 : 3 + eta - (p : ℚ) + p * om ≤ 2 + p * om := by linarith
    have h5 : (0 : ℚ) ≤ 2 + p * om := by positivity
    calc (q : ℚ) * (3 + eta - p + p * om) ≤ q * (2 + p * om) := mul_le_mul_of_nonneg_left h4 hqq.le
      _ ≤ p * (2 + p * om) := mul_le_mul_of_nonneg_right hqp h5
  have h4 : eta * (w : ℚ) ≤ eta * (M * K) := mul_le_mul_of_nonneg_left hwq heta
  have h5 : (K : ℚ) * (2 * eta * M + 2 * p + (p : ℚ) ^ 2 * om) / 2 ≤ K * R / 2 := by
    have := mul_le_mul_of_nonneg_left hR (by linarith : (0 : ℚ) ≤ K)
    linarith
  have h6 : 2 * (2 * (p : ℚ) + (p : ℚ) ^ 2 * om) ≤ K * (2 * p + (p : ℚ) ^ 2 * om) :=
    mul_le_mul_of_nonneg_right hKq (by positivity)
  have h7 : (K : ℚ) * (2 * eta * M + 2 * p + (p : ℚ) ^ 2 * om) / 2 =
      eta * (M * K) + K * (2 * p + (p : ℚ) ^ 2 * om) / 2 := by ring
  have h8 : (p : ℚ) * (2 + p * om) = 2 * p + (p : ℚ) ^ 2 * om := by ring
  linarith

/-- The sides of a split that gives both sides processors, when all vertices take part. -/
theorem sides_full {P : ParRecEnv} {N T k : Nat} {Bad : Err → Prop} (hP : ParRecEnvOk P N T Bad) {eta : ℚ}
    (heta : 0 ≤ eta) {path : List Bool} {labels : Interval} {xs : List RecProc} (hI : GroupInv N T k labels xs)
    (hF : FullGroup xs)
    {sp : ParSplit} {rs : List RState} (hS : SplitFactsPar P eta path N labels xs sp rs) {ys : List (Hypergraph × Int)}
    (hy : redistribute (P.ord path) (P.dVert path) (P.dCost path) sp.plow labels.low
      labels.high (redistArgs P.rnd eta sp.w0 sp.w1 sp.plow rs) = .ok ys) (h0 : sp.plow ≠ 0) (h1 : sp.plow < xs.length) :
    (∀ z ∈ (afterRedist rs ys).take sp.plow, loadOf z = partWeight z.H labels.low) ∧
    (∀ z ∈ (afterRedist rs ys).drop sp.plow, loadOf z = partWeight z.H labels.high) ∧
    sp.w0 = (((afterRedist rs ys).take sp.plow).map loadOf).sum ∧
    sp.w1 = (((afterRedist rs ys).drop sp.plow).map loadOf).sum := by
  have hA := afterRedist_facts hP hS.input hy
  have hsep := afterRedist_separated hP heta hI hS hy h0 h1
  obtain ⟨zs, hz⟩ : ∃ zs, zs = afterRedist rs ys := ⟨_, rfl⟩
  rw [← hz] at hA hsep ⊢
  have hpart : ∀ z ∈ zs, ∀ v ∈ z.H.vertices, v.part = labels.low ∨ v.part = labels.high := by
    intro z hz v hv
    refine hS.bis.full hF v (hA.redist.vertices.mem_iff.1 ?_)
    exact List.mem_flatMap.2 ⟨_, List.mem_map_of_mem hz, hv⟩
  have hpos : ∀ z ∈ zs, ∀ v ∈ z.H.vertices, 0 < v.weight := by
    intro z hz v hv
    have : v ∈ (rs.map (·.H)).flatMap (·.vertices) :=
      hA.redist.vertices.mem_iff.1 (List.mem_flatMap.2 ⟨_, List.mem_map_of_mem hz, hv⟩)
    obtain ⟨H, hH, hv⟩ := List.mem_flatMap.1 this
    exact hS.bis.pos H hH v hv
  have lo : ∀ z ∈ zs.take sp.plow, ∀ v ∈ z.H.vertices, v.part = labels.low := by
    intro z hz v hv
    have hz' := List.mem_of_mem_take hz
    exact (hpart z hz' v hv).resolve_right (hsep.1 z hz v hv (hpos z hz' v hv))
  have hi : ∀ z ∈ zs.drop sp.plow, ∀ v ∈ z.H.vertices, v.part = labels.high := by
    intro z hz v hv
    have hz' := List.mem_of_mem_drop hz
    exact (hpart z hz' v hv).resolve_left (hsep.2 z hz v hv (hpos z hz' v hv))
  have llo : ∀ z ∈ zs.take sp.plow, loadOf z = partWeight z.H labels.low := fun z hz =>
    loadOf_full (hA.all h0 z (List.mem_of_mem_take hz)) (lo z hz)
  have lhi : ∀ z ∈ zs.drop sp.plow, loadOf z = partWeight z.H labels.high := fun z hz =>
    loadOf_full (hA.all h0 z (List.mem_of_mem_drop hz)) (hi z hz)
  have hne : labels.low ≠ labels.high := by
    rcases hI.proper with h | h
    · rw [h] at h1; simp at h1
    · omega
  have hsplit : ∀ q, partOn (rs.map (·.H)) q = partOn ((zs.take sp.plow).map (·.H)) q +
      partOn ((zs.drop sp.plow).map (·.H)) q := by
    intro q
    rw [← partOn_append, ← List.map_append, List.take_append_drop, partOn_perm hA.redist.vertices]
  have hsum : ∀ (l : List RecProc) (q : Int), (∀ z ∈ l, loadOf z = partWeight z.H q) →
      (l.map loadOf).sum = partOn (l.map (·.H)) q := by
    intro l q h
    unfold partOn
    rw [List.map_map]
    congr 1
    exact List.map_congr_left h
  refine ⟨llo, lhi, ?_, ?_⟩
  · have e := hsplit labels.low
    rw [hsum _ _ llo, hS.w0, show ((rs.map (·.H)).map (fun H => partWeight H labels.low)).sum =
      partOn (rs.map (·.H)) labels.low from rfl, e, partOn_none (Hs := (zs.drop sp.plow).map (·.H)), add_zero]
    intro H hH v hv
    obtain ⟨z, hz, rfl⟩ := List.mem_map.1 hH
    rw [hi z hz v hv]
    exact hne.symm
  · have e := hsplit labels.high
    rw [hsum _ _ lhi, hS.w1, show ((rs.map (·.H)).map (fun H => partWeight H labels.high)).sum =
      partOn (rs.map (·.H)) labels.high from rfl, e, partOn_none (Hs := (zs.take sp.plow).map (·.H)), zero_add]
    intro H hH v hv
    obtain ⟨z, hz, rfl⟩ := List.mem_map.1 hH
    rw [lo z hz v hv]
    exact hne

/-- The high side of a split that gives the low side no processors, when all vertices take part. -/
theorem sides_three {P : ParRecEnv} {N T : Nat} {Bad : Err → Prop} (hP : ParRecEnvOk P N T Bad) {eta : ℚ}
    {path : List Bool} {labels : Interval} {xs : List RecProc} (hlh : labels.low < labels.high)
    (hF : FullGroup xs)
    {sp : ParSplit} {rs : List RState} (hS : SplitFactsPar P eta path N labels xs sp rs) {ys : List (Hypergraph × Int)}
    (hy : redistribute (P.ord path) (P.dVert path) (P.dCost path) sp.plow labels.low
      labels.high (redistArgs P.rnd eta sp.w0 sp.w1 sp.plow rs) = .ok ys) (h0 : sp.plow = 0) :
    (∀ z ∈ afterRedist rs ys, loadOf z = partWeight z.H labels.high) ∧
    sp.w1 = ((afterRedist rs ys).map loadOf).sum := by
  have hA := afterRedist_facts hP hS.input hy
  obtain ⟨zs, hz⟩ : ∃ zs, zs = afterRedist rs ys := ⟨_, rfl⟩
  rw [← hz] at hA ⊢
  have hpart : ∀ z ∈ zs, ∀ v ∈ z.H.vertices, v.part = labels.low ∨ v.part = labels.high := by
    intro z hz v hv
    refine hS.bis.full hF v (hA.redist.vertices.mem_iff.1 ?_)
    exact List.mem_flatMap.2 ⟨_, List.mem_map_of_mem hz, hv⟩
  have l1 : ∀ z ∈ zs, loadOf z = partWeight z.H labels.high := fun z hz =>
    loadOf_rest (by omega) (hA.rest h0 z hz) (hpart z hz)
  refine ⟨l1, ?_⟩
  rw [hS.w1, show ((rs.map (·.H)).map (fun H => partWeight H labels.high)).sum =
      partOn (rs.map (·.H)) labels.high from rfl, ← partOn_perm hA.redist.vertices]
  unfold partOn
  rw [List.map_map]
  congr 1
  exact (List.map_congr_left l1).symm

/-- With enough slack the recursion ends, every bisection stays within its bounds, and with at least four labels both
sides get processors. -/
theorem recPar_fits {P : ParRecEnv} {N T k p : Nat} (hP : ParRecEnvOk P N T (fun _ => False)) (hN : N < 2147483648)
    {eta : ℚ} (heta : 0 ≤ eta) (heta1 : eta ≤ 1) {M om : Int} (hM : 0 ≤ M) (hom : 1 ≤ om) {R C : ℚ} (hC : C < M)
    (hpar : ∀ path, ParBalances (P.bis path) om) (hal : ∀ path, Balances (P.alone path) N T om om) (hp : 2 ≤ p)
    (hR : 2 * eta * M + 2 * p + (p : ℚ) ^ 2 * om ≤ R) (hMk : M * k ≤ 2 ^ 47) :
    ∀ (fuel : Nat) (path : List Bool) (labels : Interval) (weight : Int) (xs : List RecProc),
    GroupInv N T k labels xs → labels.count ≤ fuel → xs ≠ [] → xs.length ≤ p →
    (FullGroup xs ∨ (labels.count = 2 ∧ 2 ≤ xs.length)) → (∀ H ∈ xs.map (·.H), ∀ v ∈ H.vertices, v.weight ≤ om) →
    weight = (xs.map loadOf).sum → (∀ x ∈ xs, (xs.length : ℚ) * (loadOf x + om) ≤ weight + labels.count * R / 2) →
    Margin M R (20 * (1 / 2 ^ 53) * (M * k)) C labels.count weight →
    ∃ r, recPar P eta M fuel path labels weight xs = .ok r ∧
      (∀ c ∈ r.splits, ParSplit.Respects c ∧ (3 ≤ c.high - c.low → 0 < c.plow) ∧
        (2 ≤ c.high - c.low → c.plow < c.p)) ∧
      ∀ c ∈ r.calls, BisectCall.Respects c := by
  have hMq : (0 : ℚ) ≤ M := by exact_mod_cast hM
  have homq : (1 : ℚ) ≤ om := by exact_mod_cast hom
  have hpq : (2 : ℚ) ≤ p := by exact_mod_cast hp
  have hR0 : (0 : ℚ) ≤ R := le_trans (by positivity) hR
  have homR : (om : ℚ) ≤ R := by
    have h1 : (om : ℚ) ≤ (p : ℚ) ^ 2 * om := le_mul_of_one_le_left (by linarith) (one_le_pow₀ (by linarith))
    have h2 : 0 ≤ 2 * eta * M := by positivity
    linarith
  intro fuel
  induction fuel with
  | zero =>
    intro path labels weight xs hI hf
    have := count_eq hI.le
    have := hI.le
    omega
  | succ f ih =>
    intro path labels weight xs hI hf hne hlp hF hmax hw hload hm
    have hle := hI.le
    have hcc := count_eq hle
    have hlh : labels.low < labels.high := hI.proper.resolve_left hne
    have hK2 : 2 ≤ labels.count := by omega
    have hKk : labels.count ≤ k := by
      have := hI.low
      have := hI.high
      omega
    by_cases h2 : 2 ≤ xs.length
    swap
    · have hlen1 : xs.length = 1 := by
        have : 0 < xs.length := List.length_pos_of_ne_nil hne
        omega
      obtain ⟨x, rfl⟩ := List.length_eq_one_iff.1 hlen1
      obtain ⟨r, h, hs, hc⟩ := aloneRun_fits hP hN hM (by omega) hC path (hal path) hI (hmax x.H (by simp))
        (by rw [hw]; simp) (hm.mono hK2 homR)
      exact ⟨r, h, by rw [hs]; simp, hc⟩
    obtain ⟨hwpos, hwM, b0, b1, hgain, hsides⟩ := hm.bounds hP.rounds hM hR0 hC hK2 hKk
    have htotal : ∀ rs, BisectFacts labels xs rs →
        partOn (rs.map (·.H)) labels.low + partOn (rs.map (·.H)) labels.high = weight := by
      intro rs hB
      rw [hw]; exact hB.total hlh hI.fin
    rw [recPar_step h2 hlh]
    rcases groupSplit_why hP heta M path weight hI h2 hlh with ⟨sp, rs, hS, hmx, hcase⟩ | ⟨e, -, he⟩
    swap
    · exfalso
      rcases he with ⟨-, h | ⟨rs, hB, h⟩⟩ | h
      · omega
      · have := htotal rs hB
        unfold partOn at this
        omega
      · exact h
    have hsum : sp.w0 + sp.w1 = weight := by
      rw [hS.w0, hS.w1]; exact htotal rs hS.bis
    have hmax0 : sp.max0 = boundFor P.rnd labels.count (labels.count / 2) weight M ∧
        sp.max1 = boundFor P.rnd labels.count (labels.count - labels.count / 2) weight M := by
      unfold computeMax at hmx
      rw [if_neg (by omega)] at hmx
      have := Except.ok.inj hmx
      simp only [Prod.mk.injEq] at this
      exact ⟨this.1.symm, this.2.symm⟩
    rw [← hmax0.1] at b0
    rw [← hmax0.2] at b1
    rw [← hmax0.1, ← hmax0.2] at hgain hsides
    have hresp : ParSplit.Respects sp := by
      obtain ⟨nx, hg⟩ : ∃ nx, groupSplit P eta M path labels weight xs = .ok (sp, rs, nx) := by
        rcases hcase with ⟨-, h⟩ | ⟨-, ys, -, h⟩
        · exact ⟨_, h⟩
        · exact ⟨_, h⟩
      obtain ⟨m, -, hbs, e0, e1, e2, e3⟩ := groupSplit_inv hg
      rw [← e0, ← e1] at hbs
      have hq0 : (0 : Int) < xs.length := by omega
      obtain ⟨r0, r1⟩ := hpar path (xs.map (fun x => ⟨x.H, 0, x.fin⟩))
        (by
          intro z hz
          obtain ⟨y, hy, rfl⟩ := List.mem_map.1 hz
          exact ⟨Nat.zero_le _, hI.fin y hy⟩)
        (by
          intro z hz v hv
          obtain ⟨y, hy, rfl⟩ := List.mem_map.1 hz
          exact ⟨hI.pos _ (List.mem_map_of_mem hy) v hv, hmax _ (List.mem_map_of_mem hy) v hv⟩)
        labels (by omega) sp.max0 sp.max1 b0 b1
        (by
          intro z hz
          obtain ⟨y, hy, rfl⟩ := List.mem_map.1 hz
          rw [List.length_map]
          show loadOf y + om ≤ _
          have h5 := hload y hy
          have h6 : ((xs.length * (loadOf y + om) : Int) : ℚ) < ((sp.max0 + sp.max1 + 2 : Int) : ℚ) := by
            push_cast
            linarith
          have h7 : (xs.length : Int) * (loadOf y + om) < sp.max0 + sp.max1 + 2 := by exact_mod_cast h6
          have d0 := Int.mul_ediv_add_emod sp.max0 (xs.length : Int)
          have d1 := Int.mul_ediv_add_emod sp.max1 (xs.length : Int)
          have m0 := Int.emod_lt_of_pos sp.max0 hq0
          have m1 := Int.emod_lt_of_pos sp.max1 hq0
          have h8 : (xs.length : Int) * (loadOf y + om) <
              xs.length * (sp.max0 / xs.length + sp.max1 / xs.length + 2) := by
            have : (xs.length : Int) * (sp.max0 / xs.length + sp.max1 / xs.length + 2) =
              xs.length * (sp.max0 / xs.length) + xs.length * (sp.max1 / xs.length) + 2 * xs.length := by ring
            omega
          have h9 := lt_of_mul_lt_mul_left h8 hq0.le
          omega)
        (xs.map (·.rng)) (by simp) rs hbs
      unfold ParSplit.Respects
      rw [e2, e3]
      exact ⟨r0, r1⟩
    obtain ⟨s0, s1, sh⟩ := hsides sp.w0 sp.w1 hsum hresp.1 hresp.2
    have hw53 : weight ≤ 2 ^ 47 := by
      have h5 : M * labels.count ≤ M * k := by
        apply mul_le_mul_of_nonneg_left _ hM
        exact_mod_cast hKk
      omega
    have hsd := hS.sides
    have hprocs : 4 ≤ labels.count → 0 < sp.plow ∧ sp.plow < xs.length := by
      intro h4
      obtain ⟨t0, t1⟩ := sh h4
      obtain ⟨q0, q1⟩ := share_procs hP.keeps hP.rounds hwpos (by omega) hsum h2 hI.procs t0 t1
      rw [hS.four h4]
      omega
    have hplt : 3 ≤ labels.count → sp.plow < xs.length := by
      intro h
      by_cases h3 : labels.count = 3
      · rw [hS.three h3]; omega
      · exact (hprocs (by omega)).2
    have hthis : ParSplit.Respects sp ∧ (3 ≤ sp.high - sp.low → 0 < sp.plow) ∧
        (2 ≤ sp.high - sp.low → sp.plow < sp.p) := by
      refine ⟨hresp, ?_, ?_⟩ <;> intro h <;> rw [hS.high, hS.low] at h
      · exact (hprocs (by omega)).1
      · rw [hS.p]
        exact hplt (by omega)
    rcases hcase with ⟨hc, hg⟩ | ⟨hc, ys, hr, hg⟩
    · rw [hg]
      refine ⟨⟨rs.map (·.H), [sp], []⟩, rfl, ?_, by simp⟩
      intro c hc
      rw [List.mem_singleton.1 hc]
      exact hthis
    · have hA := afterRedist_facts hP hS.input hr
      obtain ⟨hK, g0, g1⟩ := hI.split hc hS.three hS.bis hA
      have hlen := hS.bis.relabels.length_eq
      have hzlen : (afterRedist rs ys).length = xs.length := hA.length.trans hlen.symm
      have hFull : FullGroup xs := by
        rcases hF with h | h
        · exact h
        · omega
      have l0 := lowLabels_length hle
      have l1 := highLabels_length hle
      have c0 : (lowLabels labels).count = labels.count / 2 := by
        show ((lowLabels labels).length + 1).toNat = _
        omega
      have c1 : (highLabels labels).count = labels.count - labels.count / 2 := by
        show ((highLabels labels).length + 1).toNat = _
        omega
      have hmaxr : ∀ Hs : List Hypergraph, ((Hs.flatMap (·.vertices)).map (fun v => (v.id, v.weight))).Perm
          (((xs.map (·.H)).flatMap (·.vertices)).map (fun v => (v.id, v.weight))) →
          ∀ H ∈ Hs, ∀ v ∈ H.vertices, v.weight ≤ om := by
        intro Hs hperm H hH v hv
        have h1 : (v.id, v.weight) ∈ ((Hs.flatMap (·.vertices)).map (fun v => (v.id, v.weight))) :=
          List.mem_map.2 ⟨v, List.mem_flatMap.2 ⟨H, hH, hv⟩, rfl⟩
        rw [hperm.mem_iff] at h1
        obtain ⟨u, hu, he⟩ := List.mem_map.1 h1
        obtain ⟨H0, h0, hu⟩ := List.mem_flatMap.1 hu
        have := hmax H0 h0 u hu
        simp only [Prod.mk.injEq] at he
        omega
      have hmaxz := hmaxr _ hK.verts
      have hmaxrs := hmaxr _ (hS.bis.kept N hI.dist).verts
      have hplt := hplt hc
      obtain ⟨u0, u1⟩ := afterRedist_load hP heta hI hS hr hplt hom hmaxrs
      have hpp := hI.procs
      -- the high side
      have hw1M : sp.w1 ≤ M * ((labels.count - labels.count / 2 : Nat) : Int) := (s1 (by omega)).bounds hP.rounds hM hR0
        hC (by omega) (by omega) |>.2.1
      have hhigh : ∀ z ∈ (afterRedist rs ys).drop sp.plow, loadOf z = partWeight z.H labels.high →
          (((afterRedist rs ys).drop sp.plow).length : ℚ) * (loadOf z + om) ≤
            sp.w1 + (highLabels labels).count * R / 2 := by
        intro z hz hl
        rw [c1, List.length_drop, hzlen]
        refine load_next heta heta1 hom hp hlp (by omega) (by omega) (by omega) (by omega) hw1M hM hR ?_
          (newMaxLocal_le hP.keeps hP.rounds hsd.2.1 (by omega) (by omega) (by omega) heta heta1)
        rw [hl]
        exact u1 z hz
      have hdne : (afterRedist rs ys).drop sp.plow ≠ [] := by
        intro h
        have := congrArg List.length h
        rw [List.length_drop, hzlen] at this
        simp at this
        omega
      have hmaxd : ∀ H ∈ ((afterRedist rs ys).drop sp.plow).map (·.H), ∀ v ∈ H.vertices, v.weight ≤ om := by
        intro H hH
        obtain ⟨z, hz, rfl⟩ := List.mem_map.1 hH
        exact hmaxz _ (List.mem_map_of_mem (List.mem_of_mem_drop hz))
      rw [hg, ok_bind]
      dsimp only
      by_cases h3 : labels.count = 3
      · have hp0 := hS.three h3
        obtain ⟨v0, v1⟩ := sides_three hP hlh hFull hS hr hp0
        rw [hp0, List.drop_zero] at g1 hdne hmaxd hhigh
        obtain ⟨b, hb, sb, cb⟩ := ih (path ++ [false]) (highLabels labels) sp.w1 (afterRedist rs ys) g1 (by omega) hdne
          (by omega) (Or.inr ⟨by omega, by omega⟩) hmaxd v1 (fun z hz => hhigh z hz (v0 z hz)) (by
            rw [c1]; exact s1 (by omega))
        obtain ⟨f', rfl⟩ : ∃ f', f = f' + 1 := ⟨f - 1, by omega⟩
        rw [hp0, List.take_zero, List.drop_zero]
        have ea : recPar P eta M (f' + 1) (path ++ [true]) (lowLabels labels) sp.w0 [] = .ok ⟨[], [], []⟩ := rfl
        rw [ea, ok_bind, hb]
        refine ⟨⟨[] ++ b.Hs, sp :: [] ++ b.splits, [] ++ b.calls⟩, rfl, ?_, ?_⟩
        · intro c hc
          dsimp only at hc
          rcases List.mem_append.1 hc with hc | hc
          · rw [List.mem_singleton.1 hc]; exact hthis
          · exact sb c hc
        · intro c hc
          exact cb c (by simpa using hc)
      · obtain ⟨hp0, hp1⟩ := hprocs (by omega)
        obtain ⟨v0, v1, v2, v3⟩ := sides_full hP heta hI hFull hS hr (by omega) hp1
        have hw0M : sp.w0 ≤ M * ((labels.count / 2 : Nat) : Int) := (s0 (by omega)).bounds hP.rounds hM hR0
          hC (by omega) (by omega) |>.2.1
        obtain ⟨a, ha, sa, ca⟩ := ih (path ++ [true]) (lowLabels labels) sp.w0 _ g0 (by omega)
          (by
            intro h
            have := congrArg List.length h
            rw [List.length_take, hzlen, List.length_nil] at this
            omega)
          (by rw [List.length_take]; omega)
          (Or.inl fun z hz => hA.all (by omega) z (List.mem_of_mem_take hz))
          (by
            intro H hH
            obtain ⟨z, hz, rfl⟩ := List.mem_map.1 hH
            exact hmaxz _ (List.mem_map_of_mem (List.mem_of_mem_take hz)))
          v2
          (by
            intro z hz
            rw [c0, List.length_take, hzlen, min_eq_left (by omega)]
            refine load_next heta heta1 hom hp hlp (by omega) (by omega) (by omega) (by omega) hw0M hM hR ?_
              (newMaxLocal_le hP.keeps hP.rounds hsd.1 (by omega) (by omega) (by omega) heta heta1)
            rw [v0 z hz]
            exact u0 z hz)
          (by rw [c0]; exact s0 (by omega))
        obtain ⟨b, hb, sb, cb⟩ := ih (path ++ [false]) (highLabels labels) sp.w1 _ g1 (by omega) hdne
          (by rw [List.length_drop]; omega)
          (Or.inl fun z hz => hA.all (by omega) z (List.mem_of_mem_drop hz))
          hmaxd v3 (fun z hz => hhigh z hz (v1 z hz)) (by rw [c1]; exact s1 (by omega))
        rw [ha, ok_bind, hb]
        refine ⟨⟨a.Hs ++ b.Hs, sp :: a.splits ++ b.splits, a.calls ++ b.calls⟩, rfl, ?_, ?_⟩
        · intro c hc
          dsimp only at hc
          rcases List.mem_append.1 hc with hc | hc
          · rcases List.mem_cons.1 hc with rfl | hc
            · exact hthis
            · exact sa c hc
          · exact sb c hc
        · intro c hc
          rcases List.mem_append.1 hc with hc | hc
          · exact ca c hc
          · exact cb c hc

end PMondriaan

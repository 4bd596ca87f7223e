import Verif.Model.MachineRecPar
import Verif.Proofs.MachineRec
import Verif.Proofs.MachineMain
import Verif.Proofs.MachineCoarsenPar
import Verif.Proofs.RecBisectPar
import Verif.Proofs.RecSlack

/-
Lemmas for C111: the redistribution and the recursion on several processors in 64 bits.
-/

namespace PMondriaan

open Spec

/-! ### Redistribution -/

/-- All weights between 0 and `X`. -/
def WeightsUpTo (X : Int) (H : Hypergraph) : Prop := ∀ v ∈ H.vertices, 0 ≤ v.weight ∧ v.weight ≤ X

theorem takeOut_sub (H : Hypergraph) (i id : Nat) : ∀ v ∈ (H.takeOut i id).vertices, v ∈ H.vertices := by
  intro v hv
  exact (List.eraseIdx_sublist ..).subset hv

theorem sendUntil64_eq {X : Int} (hX : X + X < 2 ^ 63) {p t : Nat} {label max : Int} (hm : max ≤ X) :
    ∀ (f : Nat) (x : SendState), WeightsUpTo X x.H → 0 ≤ x.sent →
      sendUntil64 p t label max f x = sendUntil p t label max f x ∧
      (x.sent ≤ X + X → ∀ y, sendUntil p t label max f x = .ok y → WeightsUpTo X y.H ∧ 0 ≤ y.sent ∧ y.sent ≤ X + X) := by
  intro f
  induction f with
  | zero =>
    intro x hx h0
    refine ⟨rfl, ?_⟩
    intro h1 y hy
    unfold sendUntil at hy
    split at hy
    · cases hy
    · cases hy; exact ⟨hx, h0, h1⟩
  | succ f ih =>
    intro x hx h0
    unfold sendUntil64 sendUntil
    by_cases hlt : x.sent < max
    · rw [if_pos hlt, if_pos hlt]
      cases hi : x.H.nextLabel label x.index with
      | error e => exact ⟨rfl, fun _ y hy => by cases hy⟩
      | ok i =>
        simp only [ok_bind]
        cases hv : x.H.vertexAt i with
        | error e => exact ⟨rfl, fun _ y hy => by cases hy⟩
        | ok v =>
          simp only [ok_bind]
          obtain ⟨w0, w1⟩ := hx v (vertexAt_mem' hv)
          have hl : long (x.sent + v.weight) = .ok (x.sent + v.weight) := by
            unfold long
            rw [if_pos ⟨by omega, by omega⟩]
          rw [hl, ok_bind]
          cases hs : send p t v with
          | error e => exact ⟨rfl, fun _ y hy => by cases hy⟩
          | ok m =>
            simp only [ok_bind]
            obtain ⟨e1, e2⟩ := ih { H := x.H.takeOut i v.id, index := i, sent := x.sent + v.weight
                                    nets := v.nets.foldl setInsert x.nets, out := x.out ++ [m] }
              (fun u hu => hx u (takeOut_sub _ _ _ u hu)) (by dsimp only; omega)
            exact ⟨e1, fun _ y hy => e2 (by dsimp only; omega) y hy⟩
    · rw [if_neg hlt, if_neg hlt]
      exact ⟨rfl, fun h1 y hy => by cases hy; exact ⟨hx, h0, h1⟩⟩

theorem sendTo64_eq {X : Int} (hX : X + X < 2 ^ 63) {ord : List Nat → List Nat} {p : Nat} {label : Int} {x : SurplusState}
    (hx : WeightsUpTo X x.H) (h0 : -X ≤ x.own) (h1 : x.own < 0) :
    sendTo64 ord p label x = sendTo ord p label x ∧
    ∀ y, sendTo ord p label x = .ok y → WeightsUpTo X y.H ∧ -X ≤ y.own ∧ y.others = 0 := by
  unfold sendTo64 sendTo
  have hl : long (-1 * x.own) = .ok (-1 * x.own) := by
    unfold long
    rw [if_pos ⟨by omega, by omega⟩]
  rw [hl, ok_bind]
  dsimp only
  obtain ⟨e1, e2⟩ := sendUntil64_eq hX (p := p) (t := x.t) (label := label) (max := min x.others (-1 * x.own)) (by omega)
    (x.H.size + 1) { H := x.H, index := x.index, sent := 0, nets := [], out := x.verts } hx (by dsimp only; omega)
  rw [e1]
  cases hy : sendUntil p x.t label (min x.others (-1 * x.own)) (x.H.size + 1)
      { H := x.H, index := x.index, sent := 0, nets := [], out := x.verts } with
  | error e => exact ⟨rfl, fun y hy => by cases hy⟩
  | ok y =>
    obtain ⟨k1, k2, k3⟩ := e2 (by dsimp only; omega) y hy
    simp only [ok_bind]
    have hl2 : long (x.own + y.sent) = .ok (x.own + y.sent) := by
      unfold long
      rw [if_pos ⟨by omega, by omega⟩]
    rw [hl2]
    cases hc : (ord y.nets).mapM (fun n => do
        let net ← y.H.netOf n
        send p x.t (n, net.cost)) with
    | error e => exact ⟨rfl, fun y hy => by cases hy⟩
    | ok cs =>
      refine ⟨rfl, ?_⟩
      intro z hz
      cases hz
      exact ⟨k1, by dsimp only; omega, rfl⟩

theorem surplusLoop64_eq {X : Int} (hX : X + X < 2 ^ 63) {ord : List Nat → List Nat} {p s : Nat} {label : Int}
    {surplus : List Int} (hs : ∀ z ∈ surplus, -X ≤ z ∧ z ≤ X) {B : Int} (hB : B < 2 ^ 63) :
    ∀ (f : Nat) (x : SurplusState), WeightsUpTo X x.H → -X ≤ x.own → -(B - f * X) ≤ x.others → x.others ≤ B - f * X →
      0 ≤ X → f * X ≤ B →
      surplusLoop64 ord p s label surplus f x = surplusLoop ord p s label surplus f x ∧
      ∀ y, surplusLoop ord p s label surplus f x = .ok y → WeightsUpTo X y.1.H := by
  intro f
  induction f with
  | zero => intro x _ _ _ _ _ _; exact ⟨rfl, fun y hy => by cases hy⟩
  | succ f ih =>
    intro x hx h0 ho1 ho2 hX0 hfB
    have hf : ((f + 1 : Nat) : Int) * X = f * X + X := by push_cast; ring
    rw [hf] at ho1 ho2 hfB
    have hfX : 0 ≤ (f : Int) * X := Int.mul_nonneg (by omega) hX0
    unfold surplusLoop64 surplusLoop
    by_cases hneg : x.own < 0
    · rw [if_pos hneg, if_pos hneg]
      dsimp only
      generalize (if x.t ≥ p then 0 else x.t) = t
      by_cases hts : t = s
      · rw [if_pos hts, if_pos hts]
        exact ⟨rfl, fun y hy => by cases hy; exact hx⟩
      · rw [if_neg hts, if_neg hts]
        cases hst : vget surplus t with
        | error e => exact ⟨rfl, fun y hy => by cases hy⟩
        | ok st =>
          simp only [ok_bind]
          obtain ⟨s0, s1⟩ := hs st (List.mem_of_getElem? (vget_eq_ok.1 hst))
          have hl : long (x.others + st) = .ok (x.others + st) := by
            unfold long
            rw [if_pos ⟨by omega, by omega⟩]
          rw [hl, ok_bind]
          unfold runIf
          by_cases hr : st > 0 ∧ x.others + st > 0
          · rw [if_pos hr, if_pos hr]
            obtain ⟨e1, e2⟩ := sendTo64_eq hX (ord := ord) (p := p) (label := label)
              (x := { x with t := t, others := x.others + st }) hx h0 hneg
            rw [e1]
            cases hy : sendTo ord p label { x with t := t, others := x.others + st } with
            | error e => exact ⟨rfl, fun y hy => by cases hy⟩
            | ok y =>
              simp only [ok_bind]
              obtain ⟨k1, k2, k3⟩ := e2 y hy
              exact ih { y with t := t + 1 } k1 k2 (by dsimp only; rw [k3]; omega) (by dsimp only; rw [k3]; omega) hX0
                (by omega)
          · rw [if_neg hr, if_neg hr]
            simp only [ok_bind]
            exact ih _ hx h0 (by dsimp only; omega) (by dsimp only; omega) hX0 (by omega)
    · rw [if_neg hneg, if_neg hneg]
      exact ⟨rfl, fun y hy => by cases hy; exact hx⟩

theorem reduceSurplus64_eq {X : Int} (hX0 : 0 ≤ X) {ord : List Nat → List Nat} {p s : Nat} (hX : (p + 2 : Int) * X < 2 ^ 62)
    {label : Int} {surplus : List Int} (hs : ∀ z ∈ surplus, -X ≤ z ∧ z ≤ X) {o : Outgoing} (ho : WeightsUpTo X o.H) :
    reduceSurplus64 ord p s label surplus o = reduceSurplus ord p s label surplus o ∧
    ∀ y, reduceSurplus ord p s label surplus o = .ok y → WeightsUpTo X y.1.H := by
  have hpX : 0 ≤ (p : Int) * X := Int.mul_nonneg (by omega) hX0
  have he : (p + 2 : Int) * X = p * X + 2 * X := by ring
  rw [he] at hX
  unfold reduceSurplus64 reduceSurplus
  cases hst : vget surplus s with
  | error e => exact ⟨rfl, fun y hy => by cases hy⟩
  | ok own =>
    simp only [ok_bind]
    obtain ⟨s0, s1⟩ := hs own (List.mem_of_getElem? (vget_eq_ok.1 hst))
    by_cases hown : own ≥ 0
    · rw [if_pos hown, if_pos hown]
      exact ⟨rfl, fun y hy => by cases hy; exact ho⟩
    · rw [if_neg hown, if_neg hown]
      obtain ⟨e1, e2⟩ := surplusLoop64_eq (X := X) (by omega) (ord := ord) (p := p) (s := s) (label := label) hs
        (B := ((p + 1 : Nat) : Int) * X) (by push_cast; rw [Int.add_mul]; omega) (p + 1)
        { H := o.H, index := 0, own := own, others := 0, t := s + 1, verts := o.verts, costs := o.costs } ho s0
        (by dsimp only; omega) (by dsimp only; omega) hX0 (le_refl _)
      rw [e1]
      cases hy : surplusLoop ord p s label surplus (p + 1)
          { H := o.H, index := 0, own := own, others := 0, t := s + 1, verts := o.verts, costs := o.costs } with
      | error e => exact ⟨rfl, fun y hy => by cases hy⟩
      | ok y =>
        refine ⟨rfl, ?_⟩
        intro z hz
        cases hz
        exact e2 y hy

theorem redistSend64_eq {X : Int} (hX0 : 0 ≤ X) {ord : List Nat → List Nat} {p s : Nat} (hX : (p + 2 : Int) * X < 2 ^ 62)
    {plow : Nat} {low high : Int} {sur0 sur1 : List Int} (h0 : ∀ z ∈ sur0, -X ≤ z ∧ z ≤ X)
    (h1 : ∀ z ∈ sur1, -X ≤ z ∧ z ≤ X) {H : Hypergraph} (hH : WeightsUpTo X H) :
    redistSend64 ord p s plow low high sur0 sur1 H = redistSend ord p s plow low high sur0 sur1 H := by
  unfold redistSend64 redistSend
  obtain ⟨e1, e2⟩ := reduceSurplus64_eq hX0 (ord := ord) (s := s) hX (label := high) h1 (o := ⟨H, [], []⟩) hH
  rw [e1]
  cases hy : reduceSurplus ord p s high sur1 ⟨H, [], []⟩ with
  | error e => rfl
  | ok y =>
    simp only [ok_bind]
    rw [(reduceSurplus64_eq hX0 (ord := ord) (s := s) hX (label := low) h0 (o := y.1) (e2 y hy)).1]

/-- The arguments of the redistribution are between 0 and `X`. -/
structure ArgUpTo (X : Int) (a : RedistArgs) : Prop where
  H : WeightsUpTo X a.H
  m : 0 ≤ a.maxLocal ∧ a.maxLocal ≤ X
  w0 : 0 ≤ a.w0 ∧ a.w0 ≤ X
  w1 : 0 ≤ a.w1 ∧ a.w1 ≤ X

theorem redistribute64_eq {X : Int} (hX0 : 0 ≤ X) {args : List RedistArgs} (hX : (args.length + 2 : Int) * X < 2 ^ 62)
    (ha : ∀ a ∈ args, ArgUpTo X a) (ord : List Nat → List Nat) (dv : Delivery Vertex) (dc : Delivery (Nat × Int))
    (plow : Nat) (low high : Int) :
    redistribute64 ord dv dc plow low high args = redistribute ord dv dc plow low high args := by
  have hpX : 0 ≤ (args.length : Int) * X := Int.mul_nonneg (by omega) hX0
  have he : (args.length + 2 : Int) * X = args.length * X + 2 * X := by ring
  have hX2 := hX
  rw [he] at hX2
  have hmem : ∀ x ∈ args.zipIdx, x.1 ∈ args := by
    intro x hx
    have := List.mem_map_of_mem (f := Prod.fst) hx
    rwa [List.zipIdx_map_fst] at this
  have hsur : ∀ x ∈ args.zipIdx, surplusOf64 plow x.2 x.1 = .ok (surplusOf plow x.2 x.1) ∧
      (-X ≤ (surplusOf plow x.2 x.1).1 ∧ (surplusOf plow x.2 x.1).1 ≤ X) ∧
      (-X ≤ (surplusOf plow x.2 x.1).2 ∧ (surplusOf plow x.2 x.1).2 ≤ X) := by
    intro x hx
    have h := ha _ (hmem x hx)
    obtain ⟨m0, m1⟩ := h.m
    obtain ⟨a0, a1⟩ := h.w0
    obtain ⟨b0, b1⟩ := h.w1
    unfold surplusOf64 surplusOf
    by_cases hp : x.2 < plow
    · simp only [if_pos hp]
      rw [long_ok (by omega) (by omega), ok_bind, long_ok (by omega) (by omega), ok_bind]
      exact ⟨rfl, by omega, by omega⟩
    · simp only [if_neg hp]
      rw [long_ok (by omega) (by omega), ok_bind, long_ok (by omega) (by omega), ok_bind]
      exact ⟨rfl, by omega, by omega⟩
  unfold redistribute64 redistribute
  dsimp only
  have h1 : args.zipIdx.mapM (fun x => surplusOf64 plow x.2 x.1) = .ok (args.zipIdx.map (fun x => surplusOf plow x.2 x.1)) := by
    exact mapM_ok _ (fun x hx => (hsur x hx).1)
  rw [h1, ok_bind]
  have h2 : args.zipIdx.mapM (fun x : RedistArgs × Nat => redistSend64 ord args.length x.2 plow low high
      ((args.zipIdx.map (fun x => surplusOf plow x.2 x.1)).map (·.1))
      ((args.zipIdx.map (fun x => surplusOf plow x.2 x.1)).map (·.2)) x.1.H) =
      args.zipIdx.mapM (fun x : RedistArgs × Nat => redistSend ord args.length x.2 plow low high
      ((args.zipIdx.map (fun x => surplusOf plow x.2 x.1)).map (·.1))
      ((args.zipIdx.map (fun x => surplusOf plow x.2 x.1)).map (·.2)) x.1.H) := by
    apply mapM_congr_mem
    intro x hx
    refine redistSend64_eq hX0 hX ?_ ?_ (ha _ (hmem x hx)).H
    · intro z hz
      obtain ⟨y, hy, rfl⟩ := List.mem_map.1 hz
      obtain ⟨w, hw, rfl⟩ := List.mem_map.1 hy
      exact (hsur w hw).2.1
    · intro z hz
      obtain ⟨y, hy, rfl⟩ := List.mem_map.1 hz
      obtain ⟨w, hw, rfl⟩ := List.mem_map.1 hy
      exact (hsur w hw).2.2
  exact congrArg (fun r => r >>= _) h2

/-! ### One round -/

/-- Two bisections by several processors agree, in the sense that `B` does what `A` does when `A` has a result, on distributed
hypergraphs of total weight at most `L` on at most `p0` processors, for bounds up to `L`. -/
def ParAgreeSmall (L : Int) (p0 : Nat) (A B : ParBisector) (N T : Nat) : Prop :=
  ∀ xs, 2 ≤ xs.length → xs.length ≤ p0 → Distributed N (xs.map (·.H)) →
    (∀ x ∈ xs, x.s ≤ x.e ∧ x.e ≤ x.H.vertices.length) → (∀ x ∈ xs, ∀ v ∈ x.H.vertices, 0 < v.weight) →
    (xs.map (fun x => x.H.vertices.length)).sum < T → weightOn (xs.map (·.H)) ≤ L →
    ∀ labels : Interval, labels.low ≠ labels.high → ∀ max0 max1 : Int, 0 ≤ max0 ∧ max0 ≤ L → 0 ≤ max1 ∧ max1 ≤ L →
    ∀ rngs, rngs.length = xs.length → ∀ rs, A xs max0 max1 labels rngs = .ok rs → B xs max0 max1 labels rngs = .ok rs

/-- What is assumed of the 64-bit bisections `B` and `Al` and of the sizes. -/
structure Small (P : ParRecEnv) (B : List Bool → ParBisector) (Al : List Bool → Bisector) (N T p0 : Nat) (L X : Int)
    (eta : ℚ) : Prop where
  size : L ≤ 100000000000000
  etas : 0 ≤ eta
  bis : ∀ path, ParAgreeSmall L p0 (P.bis path) (B path) N T
  alone : ∀ path, AgreeSmall L (Al path) (P.alone path) N T
  big : 2 * (1 + eta) * L ≤ X
  room : (p0 + 2 : Int) * X < 2 ^ 62
  nonneg : 0 ≤ L

theorem newMaxLocal_le_room {rnd : ℚ → ℚ} (hk : KeepsInts rnd) (hr : RoundsWithin (1 / 2 ^ 53) rnd) {w L X : Int}
    (h0 : 0 ≤ w) (hwL : w ≤ L) (h1 : w < 2 ^ 53) {q : Nat} (hq : 0 < q) (hq1 : q ≤ 2 ^ 53) {eta : ℚ} (heta : 0 ≤ eta)
    (hX : 2 * (1 + eta) * L ≤ X) : newMaxLocal rnd w q eta ≤ X := by
  have hwq : (0 : ℚ) ≤ w := by exact_mod_cast h0
  have hwL' : (w : ℚ) ≤ L := by exact_mod_cast hwL
  have hqq : (0 : ℚ) < q := by exact_mod_cast hq
  have hq1' : (1 : ℚ) ≤ q := by exact_mod_cast hq
  have e1 : rnd (w : ℚ) = w := hk.exact h0 (by omega)
  have e2 : rnd (q : ℚ) = q := by
    have := hk.exact (n := (q : Int)) (by omega) (by exact_mod_cast hq1)
    exact_mod_cast this
  have hxn : (0 : ℚ) ≤ w / q := div_nonneg hwq hqq.le
  have hxw : (w : ℚ) / q ≤ w := by
    rw [div_le_iff₀ hqq]
    nlinarith
  have hc0 : 0 ≤ ⌈rnd ((w : ℚ) / q)⌉ := Int.ceil_nonneg (hr.nonneg_of_nonneg hxn)
  have hcw : ⌈rnd ((w : ℚ) / q)⌉ ≤ w := by
    rw [Int.ceil_le]
    exact hk.le w _ h0 (by omega) hxw
  unfold newMaxLocal
  rw [e1, e2]
  generalize ⌈rnd ((w : ℚ) / q)⌉ = c at hc0 hcw
  have hcq : (0 : ℚ) ≤ c := by exact_mod_cast hc0
  have hcw' : (c : ℚ) ≤ w := by exact_mod_cast hcw
  have h3 : rnd (1 + eta) ≤ (1 + 1 / 2 ^ 53) * (1 + eta) := hr.le_of_le (le_refl _) (by linarith)
  have h4 : (c : ℚ) * rnd (1 + eta) ≤ L * ((1 + 1 / 2 ^ 53) * (1 + eta)) := by
    apply mul_le_mul (le_trans hcw' hwL') h3 (hr.nonneg_of_nonneg (by linarith)) (by linarith)
  have hp : (0 : ℚ) ≤ L * (1 + eta) := mul_nonneg (by linarith) (by linarith)
  have h5 := hr.le_of_le h4 (by
    have : (L : ℚ) * ((1 + 1 / 2 ^ 53) * (1 + eta)) = (1 + 1 / 2 ^ 53) * (L * (1 + eta)) := by ring
    rw [this]
    positivity)
  have h6 : (1 + 1 / 2 ^ 53 : ℚ) * (L * ((1 + 1 / 2 ^ 53) * (1 + eta))) ≤ 2 * (1 + eta) * L := by
    have e : (1 + 1 / 2 ^ 53 : ℚ) * (L * ((1 + 1 / 2 ^ 53) * (1 + eta))) = ((1 + 1 / 2 ^ 53) * (1 + 1 / 2 ^ 53)) * (L * (1 + eta)) := by
      ring
    have e' : 2 * (1 + eta) * (L : ℚ) = 2 * (L * (1 + eta)) := by ring
    rw [e, e']
    apply mul_le_mul_of_nonneg_right _ hp
    norm_num
  have hX0 : (0 : ℚ) ≤ X := by
    have e' : 2 * (1 + eta) * (L : ℚ) = 2 * (L * (1 + eta)) := by ring
    rw [e'] at hX
    linarith
  have h7 := truncQ_le_add (le_trans h5 (le_trans h6 hX)) hX0
  exact_mod_cast h7

theorem Small.le {P : ParRecEnv} {B : List Bool → ParBisector} {Al : List Bool → Bisector} {N T p0 : Nat} {L X : Int}
    {eta : ℚ} (h : Small P B Al N T p0 L X eta) : L ≤ X := by
  have h1 := h.big
  have h2 := h.etas
  have h3 : (0 : ℚ) ≤ L := by exact_mod_cast h.nonneg
  have h4 : (L : ℚ) ≤ X := by nlinarith
  exact_mod_cast h4

theorem Small.lt {P : ParRecEnv} {B : List Bool → ParBisector} {Al : List Bool → Bisector} {N T p0 : Nat} {L X : Int}
    {eta : ℚ} (h : Small P B Al N T p0 L X eta) : X < 2 ^ 62 := by
  have h1 := h.room
  have h2 := h.le
  have h3 := h.nonneg
  have e : (p0 + 2 : Int) * X = p0 * X + 2 * X := by ring
  have : 0 ≤ (p0 : Int) * X := Int.mul_nonneg (by omega) (by omega)
  omega

theorem weight_le_on {Hs : List Hypergraph} (hp : ∀ H ∈ Hs, ∀ v ∈ H.vertices, 0 < v.weight) {H : Hypergraph} (hH : H ∈ Hs)
    {v : Vertex} (hv : v ∈ H.vertices) : v.weight ≤ weightOn Hs := by
  unfold weightOn
  apply entry_le_sum
  · intro x hx
    obtain ⟨u, hu, rfl⟩ := List.mem_map.1 hx
    obtain ⟨H', hH', hu'⟩ := List.mem_flatMap.1 hu
    exact (hp H' hH' u hu').le
  · exact List.mem_map_of_mem (List.mem_flatMap.2 ⟨H, hH, hv⟩)

theorem partWeight_le_on {Hs : List Hypergraph} (hp : ∀ H ∈ Hs, ∀ v ∈ H.vertices, 0 < v.weight) {low high : Int}
    (hlh : low ≠ high) {H : Hypergraph} (hH : H ∈ Hs) :
    (0 ≤ partWeight H low ∧ partWeight H low ≤ weightOn Hs) ∧ (0 ≤ partWeight H high ∧ partWeight H high ≤ weightOn Hs) := by
  have h1 := partWeight_le_total (hp H hH) hlh
  have hs := sides_le hp hlh
  have a : partWeight H low ≤ (Hs.map (fun H => partWeight H low)).sum := by
    apply entry_le_sum _ (List.mem_map_of_mem (f := fun H => partWeight H low) hH)
    intro x hx
    obtain ⟨H', hH', rfl⟩ := List.mem_map.1 hx
    exact (partWeight_le_total (hp H' hH') hlh).1
  have b : partWeight H high ≤ (Hs.map (fun H => partWeight H high)).sum := by
    apply entry_le_sum _ (List.mem_map_of_mem (f := fun H => partWeight H high) hH)
    intro x hx
    obtain ⟨H', hH', rfl⟩ := List.mem_map.1 hx
    exact (partWeight_le_total (hp H' hH') hlh).2.1
  omega

theorem sumLongs_eq {ws : List Int} (h : ∀ w ∈ ws, 0 ≤ w) (hs : ws.sum < 2 ^ 63) :
    sumLongs ws = .ok (ws.foldl (· + ·) 0) := by
  unfold sumLongs
  rw [sumLong_eq ws 0 (le_refl _) h (by omega), foldl_plus_sum, Int.zero_add]

theorem procsLow64_eq {rnd : ℚ → ℚ} (hk : KeepsInts rnd) (hr : RoundsWithin (1 / 2 ^ 53) rnd) {w0 w1 : Int} (h0 : 0 ≤ w0)
    (h1 : 0 ≤ w1) (hW : w0 + w1 < 2 ^ 53) {p : Nat} (hp : p ≤ 2 ^ 50) (klow khigh : Nat) :
    procsLow64 rnd w0 w1 p klow khigh = procsLow rnd w0 w1 p klow khigh := by
  unfold procsLow64 procsLow
  rw [long_ok (by omega) (by omega), ok_bind]
  by_cases hz : w0 + w1 = 0
  · rw [if_pos hz, if_pos hz]
  · rw [if_neg hz, if_neg hz]
    obtain ⟨a, b⟩ := C55_range hk hr h0 h1 (by omega) (by omega) hp
    have : toLong (rnd (rnd (rnd (rnd (w0 : ℚ) / rnd ((w0 + w1 : Int) : ℚ)) * rnd (p : ℚ)) + 1 / 2)) =
        .ok (pLow rnd w0 w1 p) := long_ok (by unfold pLow at a; omega) (by unfold pLow at b; omega)
    rw [this]
    rfl

theorem redistArgs64_eq {rnd : ℚ → ℚ} (hk : KeepsInts rnd) (hr : RoundsWithin (1 / 2 ^ 53) rnd) {w0 w1 L X : Int}
    (h0 : 0 ≤ w0) (h1 : 0 ≤ w1) (a0 : w0 ≤ L) (a1 : w1 ≤ L) (hL : L < 2 ^ 53) {rs : List RState} (hp : rs.length ≤ 2 ^ 50)
    {plow : Nat} (hpl : plow ≤ rs.length) {eta : ℚ} (heta : 0 ≤ eta) (hX : 2 * (1 + eta) * L ≤ X) (hX2 : X < 2 ^ 62) :
    redistArgs64 rnd eta w0 w1 plow rs = .ok (redistArgs rnd eta w0 w1 plow rs) ∧
    ∀ a ∈ redistArgs rnd eta w0 w1 plow rs, 0 ≤ a.maxLocal ∧ a.maxLocal ≤ X := by
  have key : ∀ x ∈ rs.zipIdx, (if x.2 < plow then newMaxLocal64 rnd w0 plow eta
        else newMaxLocal64 rnd w1 (rs.length - plow) eta) = .ok (if x.2 < plow then newMaxLocal rnd w0 plow eta
        else newMaxLocal rnd w1 (rs.length - plow) eta) ∧
      0 ≤ (if x.2 < plow then newMaxLocal rnd w0 plow eta else newMaxLocal rnd w1 (rs.length - plow) eta) ∧
      (if x.2 < plow then newMaxLocal rnd w0 plow eta else newMaxLocal rnd w1 (rs.length - plow) eta) ≤ X := by
    intro x hx
    have hlt : x.2 < rs.length := by
      obtain ⟨i, hi⟩ := List.mem_iff_getElem?.1 hx
      rw [List.getElem?_zipIdx] at hi
      obtain ⟨r, hr', rfl⟩ := Option.map_eq_some_iff.1 hi
      have := (List.getElem?_eq_some_iff.1 hr').1
      dsimp only
      omega
    by_cases hs : x.2 < plow
    · rw [if_pos hs, if_pos hs]
      have g := (newMaxLocal_ge hk hr h0 (by omega) (q := plow) (by omega) (by omega) heta).2
      have l := newMaxLocal_le_room hk hr h0 a0 (by omega) (q := plow) (by omega) (by omega) heta hX
      exact ⟨long_ok (by unfold newMaxLocal at g; omega) (by unfold newMaxLocal at l; omega), g, l⟩
    · rw [if_neg hs, if_neg hs]
      have g := (newMaxLocal_ge hk hr h1 (by omega) (q := rs.length - plow) (by omega) (by omega) heta).2
      have l := newMaxLocal_le_room hk hr h1 a1 (by omega) (q := rs.length - plow) (by omega) (by omega) heta hX
      exact ⟨long_ok (by unfold newMaxLocal at g; omega) (by unfold newMaxLocal at l; omega), g, l⟩
  constructor
  · unfold redistArgs64 redistArgs
    apply mapM_ok
    intro x hx
    have hk := (key x hx).1
    by_cases hs : x.2 < plow
    · simp only [if_pos hs] at hk ⊢
      rw [hk]
      rfl
    · simp only [if_neg hs] at hk ⊢
      rw [hk]
      rfl
  · intro a ha
    unfold redistArgs at ha
    obtain ⟨x, hx, rfl⟩ := List.mem_map.1 ha
    exact (key x hx).2

theorem groupBisect64_of {P : ParRecEnv} {N T k : Nat} {Bad : Err → Prop} (hP : ParRecEnvOk P N T Bad)
    {B : List Bool → ParBisector} {Al : List Bool → Bisector} {p0 : Nat} {L X : Int} {eta : ℚ}
    (hS : Small P B Al N T p0 L X eta) {M : Int} (hM : 0 ≤ M) (path : List Bool) {labels : Interval} {weight : Int}
    {xs : List RecProc} (hI : GroupInv N T k labels xs) (h2 : 2 ≤ xs.length) (hlh : labels.low < labels.high)
    (hp : xs.length ≤ p0) (hw0 : 0 ≤ weight) (hw1 : weight ≤ L) (hMk : M * k ≤ L) (hL : weightOn (xs.map (·.H)) ≤ L)
    {r : (Int × Int) × List RState} (h : groupBisect P M path labels weight xs = .ok r) :
    groupBisect64 { P with bis := B, alone := Al } M path labels weight xs = .ok r := by
  unfold groupBisect at h
  unfold groupBisect64
  dsimp only at h ⊢
  obtain ⟨m, hm, h⟩ := bind_eq_ok.1 h
  obtain ⟨rs, hb, h⟩ := bind_eq_ok.1 h
  cases h
  have hz : weight ≠ 0 := by
    intro hz
    unfold computeMax at hm
    rw [if_pos hz] at hm
    cases hm
  have hc := count_eq hlh.le
  have hlo := hI.low
  have hhi := hI.high
  obtain ⟨e1, e2, e3⟩ := computeMax64_eq hS.size hP.rounds (k_ := labels.count) (klow := labels.count / 2)
    (khigh := labels.count - labels.count / 2) (w := weight) (M := M) (by omega) (by omega) (by omega) (by omega) hw1 hM
    (le_trans (mul_le_mul_of_nonneg_left (by omega) hM) hMk)
  rw [e1, hm, ok_bind]
  unfold computeMax at hm
  rw [if_neg hz] at hm
  cases hm
  have := hS.bis path (xs.map (fun x => ⟨x.H, 0, x.fin⟩)) (by simpa using h2) (by simpa using hp)
      (by rw [List.map_map]; exact hI.dist)
      (by
        intro x hx
        obtain ⟨y, hy, rfl⟩ := List.mem_map.1 hx
        exact ⟨Nat.zero_le _, hI.fin y hy⟩)
      (by
        intro x hx
        obtain ⟨y, hy, rfl⟩ := List.mem_map.1 hx
        exact hI.pos _ (List.mem_map_of_mem hy))
      (by
        have := hI.size
        rw [List.length_flatMap, List.map_map] at this
        rw [List.map_map]
        exact this)
      (by rw [List.map_map]; exact hL)
      labels (by omega) _ _ e2 e3 (xs.map (·.rng)) (by simp) rs hb
  rw [this]
  rfl

theorem groupHead64_of {P : ParRecEnv} {N T k : Nat} {Bad : Err → Prop} (hP : ParRecEnvOk P N T Bad)
    {B : List Bool → ParBisector} {Al : List Bool → Bisector} {p0 : Nat} {L X : Int} {eta : ℚ}
    (hS : Small P B Al N T p0 L X eta) {M : Int} (hM : 0 ≤ M) (path : List Bool) {labels : Interval} {weight : Int}
    {xs : List RecProc} (hI : GroupInv N T k labels xs) (h2 : 2 ≤ xs.length) (hlh : labels.low < labels.high)
    (hp : xs.length ≤ p0) (hw0 : 0 ≤ weight) (hw1 : weight ≤ L) (hMk : M * k ≤ L) (hL : weightOn (xs.map (·.H)) ≤ L)
    {r : ParSplit × List RState × Bool} (h : groupHead P M path labels weight xs = .ok r) :
    groupHead64 { P with bis := B, alone := Al } M path labels weight xs = .ok r := by
  unfold groupHead at h
  unfold groupHead64
  dsimp only at h ⊢
  obtain ⟨⟨m, rs⟩, hb, h⟩ := bind_eq_ok.1 h
  rw [groupBisect64_of hP hS hM path hI h2 hlh hp hw0 hw1 hMk hL hb, ok_bind]
  rcases groupBisect_spec hP M path weight hI h2 hlh with ⟨m', rs', h3, -, hB⟩ | ⟨e, h3, -⟩
  swap
  · rw [hb] at h3; cases h3
  rw [hb] at h3
  cases h3
  dsimp only at h ⊢
  have hLL := hS.size
  have hW : weightOn (rs.map (·.H)) ≤ L := by rw [(hB.kept N hI.dist).weightOn]; exact hL
  have hs := sides_le hB.pos (low := labels.low) (high := labels.high) (by omega)
  have e0 : (rs.map (·.w0)).sum = ((rs.map (·.H)).map (fun H => partWeight H labels.low)).sum := by
    rw [List.map_map]
    congr 1
    exact List.map_congr_left fun r hr => (hB.weights r hr).1
  have e1 : (rs.map (·.w1)).sum = ((rs.map (·.H)).map (fun H => partWeight H labels.high)).sum := by
    rw [List.map_map]
    congr 1
    exact List.map_congr_left fun r hr => (hB.weights r hr).2
  have hn : ∀ r ∈ rs, 0 ≤ r.w0 ∧ 0 ≤ r.w1 := by
    intro r hr
    have := partWeight_le_total (hB.pos _ (List.mem_map_of_mem hr)) (low := labels.low) (high := labels.high) (by omega)
    have hw := hB.weights r hr
    omega
  rw [sumLongs_eq (ws := rs.map (·.w0)) (by
      intro w hw
      obtain ⟨r, hr, rfl⟩ := List.mem_map.1 hw
      exact (hn r hr).1) (by omega), ok_bind,
    sumLongs_eq (ws := rs.map (·.w1)) (by
      intro w hw
      obtain ⟨r, hr, rfl⟩ := List.mem_map.1 hw
      exact (hn r hr).2) (by omega), ok_bind,
    procsLow64_eq hP.keeps hP.rounds (by rw [foldl_plus_sum]; omega) (by rw [foldl_plus_sum]; omega)
      (by rw [foldl_plus_sum, foldl_plus_sum]; omega) hI.procs]
  exact h

/-- One round in 64 bits. -/
theorem groupSplit64_of {P : ParRecEnv} {N T k : Nat} {Bad : Err → Prop} (hP : ParRecEnvOk P N T Bad)
    {B : List Bool → ParBisector} {Al : List Bool → Bisector} {p0 : Nat} {L X : Int} {eta : ℚ}
    (hS : Small P B Al N T p0 L X eta) {M : Int} (hM : 0 ≤ M) (path : List Bool) {labels : Interval} {weight : Int}
    {xs : List RecProc} (hI : GroupInv N T k labels xs) (h2 : 2 ≤ xs.length) (hlh : labels.low < labels.high)
    (hp : xs.length ≤ p0) (hw0 : 0 ≤ weight) (hw1 : weight ≤ L) (hMk : M * k ≤ L) (hL : weightOn (xs.map (·.H)) ≤ L)
    {r : ParSplit × List RState × Option (List RecProc)} (h : groupSplit P eta M path labels weight xs = .ok r) :
    groupSplit64 { P with bis := B, alone := Al } eta M path labels weight xs = .ok r := by
  unfold groupSplit at h
  unfold groupSplit64
  obtain ⟨⟨sp, rs, go⟩, hb, h⟩ := bind_eq_ok.1 h
  rw [groupHead64_of hP hS hM path hI h2 hlh hp hw0 hw1 hMk hL hb, ok_bind]
  rcases groupHead_spec hP hS.etas M path weight hI h2 hlh with ⟨sp', rs', hF, -, -, h3⟩ | ⟨e, h3, -⟩
  swap
  · rw [hb] at h3; cases h3
  rw [hb] at h3
  cases h3
  dsimp only at h ⊢
  by_cases hg : decide (3 ≤ labels.count) = true
  · rw [if_pos hg] at h ⊢
    have hW : weightOn (rs.map (·.H)) ≤ L := by rw [(hF.bis.kept N hI.dist).weightOn]; exact hL
    have hs := sides_le hF.bis.pos (low := labels.low) (high := labels.high) (by omega)
    have f0 := hF.w0
    have f1 := hF.w1
    have hlen : rs.length = xs.length := hF.bis.relabels.length_eq.symm
    have hLL := hS.size
    have hXX := hS.le
    have hL0 := hS.nonneg
    obtain ⟨e1, e2⟩ := redistArgs64_eq hP.keeps hP.rounds (w0 := sp.w0) (w1 := sp.w1) (L := L) (X := X) (by omega) (by omega)
      (by omega) (by omega) (by omega) (rs := rs) (by rw [hlen]; exact hI.procs) (plow := sp.plow)
      (by rw [hlen]; exact hF.plow_le) hS.etas hS.big hS.lt
    rw [e1, ok_bind]
    have := redistribute64_eq (X := X) (by omega) (args := redistArgs P.rnd eta sp.w0 sp.w1 sp.plow rs) (by
        rw [redistArgs_length, hlen]
        refine lt_of_le_of_lt (mul_le_mul_of_nonneg_right ?_ ?_) hS.room <;> omega) (by
        intro a ha
        obtain ⟨t, ht⟩ := List.mem_iff_getElem?.1 ha
        have hm := e2 a ha
        obtain ⟨r, hr, rfl⟩ := redistArgs_get ht
        have hrm := List.mem_of_getElem? hr
        have hw := hF.bis.weights r hrm
        have hl := partWeight_le_on hF.bis.pos (low := labels.low) (high := labels.high) (by omega)
          (List.mem_map_of_mem (f := fun r : RState => r.H) hrm)
        refine ⟨?_, hm, by dsimp only; omega, by dsimp only; omega⟩
        intro v hv
        have h5 := hF.bis.pos _ (List.mem_map_of_mem hrm) v hv
        have h6 := weight_le_on hF.bis.pos (List.mem_map_of_mem (f := fun r : RState => r.H) hrm) hv
        omega) (P.ord path) (P.dVert path) (P.dCost path) sp.plow labels.low labels.high
    rw [this]
    exact h
  · rw [if_neg hg] at h ⊢
    exact h

/-! ### The recursion -/

theorem aloneRun64_eq {P : ParRecEnv} {N T k : Nat} {Bad : Err → Prop} (hP : ParRecEnvOk P N T Bad) (hN : N < 2147483648)
    {B : List Bool → ParBisector} {Al : List Bool → Bisector} {p0 : Nat} {L X : Int} {eta : ℚ}
    (hS : Small P B Al N T p0 L X eta) {M : Int} (hM : 0 ≤ M) (hMk : M * k ≤ L) (path : List Bool) {labels : Interval}
    {weight : Int} (hw0 : 0 ≤ weight) (hw1 : weight ≤ L) {x : RecProc} (hI : GroupInv N T k labels [x])
    (hL : weightOn ([x].map (·.H)) ≤ L) :
    aloneRun64 { P with bis := B, alone := Al } M path labels weight x = aloneRun P M path labels weight x := by
  have hRI := alone_recInv (P := P) hN path weight hI
  unfold aloneRun64 aloneRun
  have := recLoop64_eq hS.size (P := P.recEnv path) hP.rounds (B := Al path) (hP.alone path) (hS.alone path)
    (fun _ _ => .refl _) hM hMk (by simpa [weightOn] using hL) (2 * labels.count) _ _ hRI (by
      intro j hj
      simp only [List.mem_singleton] at hj
      subst hj
      exact ⟨hw0, hw1⟩)
  exact congrArg (fun r => r >>= _) this

theorem recPar64_of {P : ParRecEnv} {N T k : Nat} {Bad : Err → Prop} (hP : ParRecEnvOk P N T Bad) (hN : N < 2147483648)
    {B : List Bool → ParBisector} {Al : List Bool → Bisector} {p0 : Nat} {L X : Int} {eta : ℚ}
    (hS : Small P B Al N T p0 L X eta) {M : Int} (hM : 0 ≤ M) (hMk : M * k ≤ L) : ∀ (fuel : Nat) (path : List Bool)
    (labels : Interval) (weight : Int) (xs : List RecProc), GroupInv N T k labels xs → xs.length ≤ p0 → 0 ≤ weight →
    weight ≤ L → weightOn (xs.map (·.H)) ≤ L → ∀ r, recPar P eta M fuel path labels weight xs = .ok r →
    recPar64 { P with bis := B, alone := Al } eta M fuel path labels weight xs = .ok r := by
  intro fuel
  induction fuel with
  | zero =>
    intro path labels weight xs _ _ _ _ _ r h
    cases h
  | succ f ih =>
    intro path labels weight xs hI hp hw0 hw1 hL r hr
    match xs, hI with
    | [], hI => exact hr
    | [x], hI =>
      have e : recPar P eta M (f + 1) path labels weight [x] = aloneRun P M path labels weight x := rfl
      have e' : recPar64 { P with bis := B, alone := Al } eta M (f + 1) path labels weight [x] =
        aloneRun64 { P with bis := B, alone := Al } M path labels weight x := rfl
      rw [e', aloneRun64_eq hP hN hS hM hMk path hw0 hw1 hI hL, ← e]
      exact hr
    | x :: y :: l, hI =>
      have hlh : labels.low < labels.high := by
        rcases hI.proper with h | h
        · cases h
        · exact h
      obtain ⟨xs, hxs⟩ : ∃ xs, xs = x :: y :: l := ⟨_, rfl⟩
      have hu : recPar P eta M (f + 1) path labels weight (x :: y :: l) = (do
          let (split, rs, next) ← groupSplit P eta M path labels weight xs
          match next with
          | none => pure ⟨rs.map (·.H), [split], []⟩
          | some zs => do
            let a ← recPar P eta M f (path ++ [true]) (lowLabels labels) split.w0 (zs.take split.plow)
            let b ← recPar P eta M f (path ++ [false]) (highLabels labels) split.w1 (zs.drop split.plow)
            pure ⟨a.Hs ++ b.Hs, split :: a.splits ++ b.splits, a.calls ++ b.calls⟩) := by
        rw [hxs]
        conv_lhs => unfold recPar
        rw [if_pos (show labels.length > 0 by unfold Interval.length; omega)]
        rfl
      have hu' : recPar64 { P with bis := B, alone := Al } eta M (f + 1) path labels weight (x :: y :: l) = (do
          let (split, rs, next) ← groupSplit64 { P with bis := B, alone := Al } eta M path labels weight xs
          match next with
          | none => pure ⟨rs.map (·.H), [split], []⟩
          | some zs => do
            let a ← recPar64 { P with bis := B, alone := Al } eta M f (path ++ [true]) (lowLabels labels) split.w0
              (zs.take split.plow)
            let b ← recPar64 { P with bis := B, alone := Al } eta M f (path ++ [false]) (highLabels labels) split.w1
              (zs.drop split.plow)
            pure ⟨a.Hs ++ b.Hs, split :: a.splits ++ b.splits, a.calls ++ b.calls⟩) := by
        rw [hxs]
        conv_lhs => unfold recPar64
        rw [if_pos (show labels.length > 0 by unfold Interval.length; omega)]
        rfl
      rw [hu] at hr
      rw [hu']
      rw [← hxs] at hI hp hL
      have h2 : 2 ≤ xs.length := by rw [hxs]; simp
      clear hu hu' hxs x y l
      obtain ⟨⟨sp, rs, next⟩, hg, hr⟩ := bind_eq_ok.1 hr
      rw [groupSplit64_of hP hS hM path hI h2 hlh hp hw0 hw1 hMk hL hg, ok_bind]
      rcases groupSplit_spec hP hS.etas M path weight hI h2 hlh with ⟨sp', rs', hF, -, h4⟩ | ⟨e, h3, h4⟩
      swap
      · rw [hg] at h3; cases h3
      rcases h4 with ⟨hc, h5⟩ | ⟨hc, ys, h5, h6⟩
      · rw [hg] at h5
        cases h5
        exact hr
      · rw [hg] at h6
        cases h6
        have hA := afterRedist_facts hP hF.input h5
        obtain ⟨zs, hz⟩ : ∃ zs, zs = afterRedist rs ys := ⟨_, rfl⟩
        rw [← hz] at hA hr ⊢
        obtain ⟨hK, g0, g1⟩ := hI.split hc hF.three hF.bis hA
        dsimp only at hr ⊢
        obtain ⟨a, ha, hr⟩ := bind_eq_ok.1 hr
        obtain ⟨b, hb, hr⟩ := bind_eq_ok.1 hr
        have hlen : zs.length = xs.length := hA.length.trans hF.bis.relabels.length_eq.symm
        have hW : weightOn (rs.map (·.H)) ≤ L := by rw [(hF.bis.kept N hI.dist).weightOn]; exact hL
        have hs := sides_le hF.bis.pos (low := labels.low) (high := labels.high) (by omega)
        have f0 := hF.w0
        have f1 := hF.w1
        have hsplit : zs.map (·.H) = (zs.take sp.plow).map (·.H) ++ (zs.drop sp.plow).map (·.H) := by
          rw [← List.map_append, List.take_append_drop]
        have hzw := hK.weightOn
        rw [hsplit, weightOn_append] at hzw
        have z0 := weightOn_nonneg g0.pos
        have z1 := weightOn_nonneg g1.pos
        rw [ih (path ++ [true]) _ sp.w0 _ g0 (by rw [List.length_take]; omega) (by omega) (by omega) (by omega) a ha, ok_bind,
          ih (path ++ [false]) _ sp.w1 _ g1 (by rw [List.length_drop]; omega) (by omega) (by omega) (by omega) b hb, ok_bind]
        exact hr

end PMondriaan

import Verif.Model.Checks
import Verif.Proofs.Nearest
import Verif.Props.Dist
import Verif.Proofs.MlPar

/-
Properties C64, C65 and C66: `load_balance`, `check_maps` and `check_C`.
-/

namespace PMondriaan

open Spec

/-! ### C64 -/

theorem foldl_max (l : List Int) : ∀ x : Int, l.foldl max x ∈ x :: l ∧ ∀ y ∈ x :: l, y ≤ l.foldl max x := by
  induction l with
  | nil => intro x; simp
  | cons a l ih =>
    intro x
    rw [List.foldl_cons]
    obtain ⟨h1, h2⟩ := ih (max x a)
    refine ⟨?_, ?_⟩
    · rcases List.mem_cons.1 h1 with h | h
      · rw [h]
        rcases max_choice x a with h' | h' <;> rw [h'] <;> simp
      · exact List.mem_cons_of_mem _ (List.mem_cons_of_mem _ h)
    · intro y hy
      rcases List.mem_cons.1 hy with rfl | hy
      · exact le_trans (le_max_left ..) (h2 _ (List.mem_cons_self ..))
      · rcases List.mem_cons.1 hy with rfl | hy
        · exact le_trans (le_max_right ..) (h2 _ (List.mem_cons_self ..))
        · exact h2 y (List.mem_cons_of_mem _ hy)

theorem maxElement_ok {l : List Int} (hl : l ≠ []) :
    ∃ m, maxElement l = .ok m ∧ m ∈ l ∧ ∀ y ∈ l, y ≤ m := by
  cases l with
  | nil => exact absurd rfl hl
  | cons x l => exact ⟨_, rfl, foldl_max l x⟩

/-- The largest part weight, from the vector of part weights. -/
theorem maxElement_parts {k : Nat} (hk : 1 ≤ k) (w : Nat → Int) :
    ∃ q, q < k ∧ maxElement ((List.range k).map w) = .ok (w q) ∧ ∀ p < k, w p ≤ w q := by
  obtain ⟨m, h1, h2, h3⟩ := maxElement_ok (l := (List.range k).map w) (by
    intro h; rw [List.map_eq_nil_iff, List.range_eq_nil] at h; omega)
  obtain ⟨q, hq, rfl⟩ := List.mem_map.1 h2
  exact ⟨q, List.mem_range.1 hq, h1, fun p hp => h3 _ (List.mem_map_of_mem (List.mem_range.2 hp))⟩

/-- The rounding error of the computed imbalance. -/
theorem imbalance_err {u : ℚ} {rnd : ℚ → ℚ} (h : RoundsWithin u rnd) {a b : ℚ} (ha : 0 ≤ a) (hb : 0 < b) :
    |rnd (rnd (rnd a / rnd b) - 1) - (a / b - 1)| ≤ u * (6 * (a / b) + 1) := by
  have h0 := h.nonneg
  have h3 := h.small
  have hx : 0 ≤ a / b := by positivity
  have hup := h.div_le ha hb
  have hlow : (1 - 4 * u) * (a / b) ≤ rnd (rnd a / rnd b) := by
    have hra := h.ge_of_nonneg ha
    have hrb := h.le_of_le (le_refl b) hb.le
    have hrbp := h.pos_of_pos hb
    have hq : (1 - u) / (1 + u) * (a / b) ≤ rnd a / rnd b := by
      rw [div_mul_div_comm]
      have : 0 ≤ (1 - u) * a := by apply mul_nonneg <;> linarith
      gcongr
      exact le_trans this hra
    have hc : 1 - 2 * u ≤ (1 - u) / (1 + u) := by
      rw [le_div_iff₀ (by linarith)]
      nlinarith
    have hq2 : (1 - 2 * u) * (a / b) ≤ rnd a / rnd b := by
      refine le_trans ?_ hq
      gcongr
    have hn : 0 ≤ rnd a / rnd b := div_nonneg (h.nonneg_of_nonneg ha) hrbp.le
    have := h.ge_of_nonneg hn
    refine le_trans ?_ this
    have h5 : (1 - u) * ((1 - 2 * u) * (a / b)) ≤ (1 - u) * (rnd a / rnd b) := by
      apply mul_le_mul_of_nonneg_left hq2; linarith
    refine le_trans ?_ h5
    rw [← mul_assoc]
    gcongr
    nlinarith
  generalize rnd (rnd a / rnd b) = q at hup hlow ⊢
  generalize a / b = x at hx hup hlow ⊢
  have herr := h.err (q - 1)
  have h1 : |q - x| ≤ 4 * u * x := by rw [abs_le]; constructor <;> linarith
  have h2 : |q - 1| ≤ (1 + 4 * u) * x + 1 := by
    rw [abs_le]
    constructor
    · have : 0 ≤ (1 - 4 * u) * x := by apply mul_nonneg <;> linarith
      have : 0 ≤ (1 + 4 * u) * x := by apply mul_nonneg <;> linarith
      linarith
    · linarith
  have h4 : rnd (q - 1) - (x - 1) = (rnd (q - 1) - (q - 1)) + (q - x) := by ring
  rw [h4]
  refine le_trans (abs_add_le _ _) ?_
  have h5 : u * |q - 1| ≤ u * ((1 + 4 * u) * x + 1) := mul_le_mul_of_nonneg_left h2 h0
  have h6 : u * (u * x) ≤ 1 / 1000 * (u * x) := mul_le_mul_of_nonneg_right h3 (by positivity)
  nlinarith

/-- What `load_balance` has to return for `k` parts of weight `w p` and total weight `W`: the relative
excess of the heaviest part over the average, up to the relative rounding errors `u` of the operations. -/
def TrueImbalance (u : ℚ) (k : Nat) (w : Nat → Int) (W : Int) (e : ℚ) : Prop :=
  ∃ q < k, (∀ p < k, w p ≤ w q) ∧ |e - ((w q : ℚ) * k / W - 1)| ≤ u * (6 * ((w q : ℚ) * k / W) + 1)

theorem imbalance_true {u : ℚ} {rnd : ℚ → ℚ} (h : RoundsWithin u rnd) {k q : Nat} {w : Nat → Int} {W : Int}
    (hW : 0 < W) (hs : ((List.range k).map w).sum = W) (hq : q < k) (hm : ∀ p < k, w p ≤ w q) :
    ∃ e, imbalance rnd (w q) W k = some e ∧ TrueImbalance u k w W e := by
  unfold imbalance
  rw [if_neg (by omega)]
  refine ⟨_, rfl, q, hq, hm, ?_⟩
  have hwq : 0 ≤ w q := by
    by_contra hneg
    have : ∀ l : List Nat, (∀ p ∈ l, p < k) → (l.map w).sum ≤ 0 := by
      intro l
      induction l with
      | nil => intro _; simp
      | cons a l ih =>
        intro hl
        have h1 := ih (fun p hp => hl p (List.mem_cons_of_mem _ hp))
        have h2 := hm a (hl a (List.mem_cons_self ..))
        rw [List.map_cons, List.sum_cons]
        omega
    have := this (List.range k) (fun p hp => List.mem_range.1 hp)
    omega
  have := imbalance_err h (a := ((w q * k : Int) : ℚ)) (b := (W : ℚ)) (by exact_mod_cast Int.mul_nonneg hwq (by omega))
    (by exact_mod_cast hW)
  push_cast at this ⊢
  exact this

/-- C64: on one processor, `load_balance` returns the relative excess of the heaviest part over the average. -/
theorem C64_load_balance {u : ℚ} {rnd : ℚ → ℚ} (h : RoundsWithin u rnd) (H : Hypergraph) {k : Nat} (hk : 1 ≤ k)
    (hp : ∀ v ∈ H.vertices, 0 ≤ v.part ∧ v.part < k) (hW : 0 < (H.vertices.map (·.weight)).sum) :
    ∃ e, loadBalance rnd H k = .ok (some e) ∧
      TrueImbalance u k (fun p => partWeight H p) (H.vertices.map (·.weight)).sum e := by
  obtain ⟨t, h1, h2, h3⟩ := C08_weight_all_parts H k hp
  rw [h2] at h3
  obtain ⟨q, q1, q2, q3⟩ := maxElement_parts hk (fun p => partWeight H p)
  obtain ⟨e, e1, e2⟩ := imbalance_true h (by rw [totalWeight_eq]; exact hW) h3 q1 q3
  refine ⟨e, ?_, by rw [← totalWeight_eq]; exact e2⟩
  unfold loadBalance
  rw [h1, ok_bind, h2, q2, ok_bind, e1]
  rfl

/-- C64: in exact arithmetic, the returned value is at most `ε` exactly when every part is within `(1 + ε) W / k`. -/
theorem C64_bound {k : Nat} {w : Nat → Int} {W : Int} (hW : 0 < W) {e : ℚ}
    (h : TrueImbalance 0 k w W e) (ε : ℚ) :
    e ≤ ε ↔ ∀ p < k, (w p : ℚ) ≤ (1 + ε) * W / k := by
  obtain ⟨q, hq, hm, he⟩ := h
  rw [zero_mul] at he
  have he := sub_eq_zero.1 (abs_eq_zero.1 (le_antisymm he (abs_nonneg _)))
  have hW' : (0 : ℚ) < W := by exact_mod_cast hW
  have hk' : (0 : ℚ) < k := by exact_mod_cast (by omega : 0 < k)
  rw [he, sub_le_iff_le_add, div_le_iff₀ hW']
  constructor
  · intro h p hp
    rw [le_div_iff₀ hk']
    have : (w p : ℚ) ≤ w q := by exact_mod_cast hm p hp
    nlinarith
  · intro h
    have := h q hq
    rw [le_div_iff₀ hk'] at this
    linarith

/-- C64: on several processors all return the value of the whole hypergraph, and no message is printed. -/
theorem C64_distributed {u : ℚ} {rnd : ℚ → ℚ} (h : RoundsWithin u rnd) (N : Nat) (Hs : List Hypergraph) {k : Nat}
    (hk : 1 ≤ k) (hp : ∀ H ∈ Hs, ∀ v ∈ H.vertices, 0 ≤ v.part ∧ v.part < k)
    (hW : 0 < ((unionH N Hs).vertices.map (·.weight)).sum) :
    ∃ e, loadBalancePar rnd Hs k = .ok (Hs.map (fun _ => (some e, false))) ∧
      loadBalance rnd (unionH N Hs) k = .ok (some e) ∧
      TrueImbalance u k (fun p => partWeight (unionH N Hs) p) ((unionH N Hs).vertices.map (·.weight)).sum e := by
  have hpu : ∀ v ∈ (unionH N Hs).vertices, 0 ≤ v.part ∧ v.part < k := by
    intro v hv
    simp only [unionH, Hypergraph.create] at hv
    obtain ⟨H, hH, hv⟩ := List.mem_flatMap.1 hv
    exact hp H hH v hv
  obtain ⟨e, e1, e2⟩ := C64_load_balance h (unionH N Hs) hk hpu hW
  refine ⟨e, ?_, e1, e2⟩
  obtain ⟨t, t1, t2, t3⟩ := C08_global_weight_parts N k Hs hp
  obtain ⟨t', t1', t2', -⟩ := C08_weight_all_parts (unionH N Hs) k hpu
  unfold loadBalance at e1
  rw [t1', ok_bind, t2'] at e1
  obtain ⟨q, q1, q2, -⟩ := maxElement_parts hk (fun p => partWeight (unionH N Hs) p)
  rw [q2, ok_bind, totalWeight_eq] at e1
  have e1' : imbalance rnd (partWeight (unionH N Hs) q) ((unionH N Hs).vertices.map (·.weight)).sum k = some e := by
    injection e1
  unfold loadBalancePar
  rw [t1, ok_bind, C08_global_weight N Hs, List.zip_map', mapM_ok (g := fun _ => (some e, false)) _ (by
    intro x hx
    obtain ⟨H, -, rfl⟩ := List.mem_map.1 hx
    dsimp only
    rw [t2, q2, ok_bind, e1', ← t2, foldl_add_sum, t3]
    simp), List.map_map]
  rfl

/-- C64: without parts, the past-the-end element is read. -/
theorem C64_no_parts (rnd : ℚ → ℚ) (H : Hypergraph) (hH : H.vertices = []) : loadBalance rnd H 0 = .error .ub := by
  unfold loadBalance Hypergraph.weightAllParts
  rw [hH]
  rfl

example : loadBalance id exampleH 2 = .ok (some (1 / 5)) := by decide +kernel

example : loadBalancePar id exampleD 2 = .ok [(some (7 / 11), false), (some (7 / 11), false)] := by decide +kernel

/-! ### C65 -/

theorem mapM_flatten_nil {α β : Type} {f : α → Res (List β)} (l : List α) :
    (∃ r, l.mapM f = .ok r ∧ r.flatten = []) ↔ ∀ x ∈ l, f x = .ok [] := by
  induction l with
  | nil => simp [List.mapM_nil]
  | cons a l ih =>
    rw [List.mapM_cons]
    cases ha : f a with
    | error e =>
      simp only [error_bind, List.forall_mem_cons, ha]
      constructor
      · rintro ⟨r, hr, -⟩; cases hr
      · rintro ⟨h, -⟩; cases h
    | ok y =>
      rw [ok_bind, List.forall_mem_cons, ← ih, ha]
      cases hm : l.mapM f with
      | error e =>
        constructor
        · rintro ⟨r, hr, -⟩; cases hr
        · rintro ⟨-, r, hr, -⟩; cases hr
      | ok r =>
        constructor
        · rintro ⟨r', hr, hf⟩
          cases hr
          rw [List.flatten_cons, List.append_eq_nil_iff] at hf
          exact ⟨by rw [hf.1], r, rfl, hf.2⟩
        · rintro ⟨h, r', hr, hf⟩
          cases hr
          cases h
          exact ⟨_, rfl, by rw [List.flatten_cons, hf]; rfl⟩

/-- The id map leads to a stored vertex with this id. -/
def VertexFound (H : Hypergraph) (u : Nat) : Prop :=
  ∃ i v, H.vmap u = some i ∧ H.vertices[i]? = some v ∧ v.id = u

/-- The id map leads to a stored net with this id. -/
def NetFound (H : Hypergraph) (e : Nat) : Prop :=
  ∃ j n, H.nmap e = some j ∧ H.nets[j]? = some n ∧ n.id = e

theorem checkVertex_iff (H : Hypergraph) (u : Nat) : checkVertex H u = .ok [] ↔ VertexFound H u := by
  unfold checkVertex VertexFound Hypergraph.vertexOf Hypergraph.localId Hypergraph.isLocal
  cases hm : H.vmap u with
  | none => simp [pure_eq_ok]
  | some i =>
    by_cases hi : i < H.vertices.length
    · simp only [Option.isSome_some, if_true, hi, ok_bind, Hypergraph.vertexAt, List.getElem?_eq_getElem hi, pure_eq_ok]
      by_cases hv : H.vertices[i].id = u
      · simp [hv, List.getElem?_eq_getElem hi]
      · simp [hv, List.getElem?_eq_getElem hi]
    · simp only [Option.isSome_some, if_true, hi, if_false, error_bind]
      constructor
      · intro h; cases h
      · rintro ⟨i', v, h, hv, -⟩
        cases h
        exact absurd (List.getElem?_eq_some_iff.1 hv).1 hi

theorem checkNet_iff (H : Hypergraph) (e : Nat) : checkNet H e = .ok [] ↔ NetFound H e := by
  unfold checkNet NetFound Hypergraph.localIdNet Hypergraph.isLocalNet
  cases hm : H.nmap e with
  | none => simp [pure_eq_ok]
  | some i =>
    by_cases hi : i < H.nets.length
    · simp only [Option.isSome_some, if_true, ok_bind, vget_ok (List.getElem?_eq_getElem hi), pure_eq_ok]
      by_cases hv : H.nets[i].id = e
      · simp [hv, List.getElem?_eq_getElem hi]
      · simp [hv, List.getElem?_eq_getElem hi]
    · simp only [Option.isSome_some, if_true, ok_bind]
      constructor
      · intro h
        cases hg : vget H.nets i with
        | error e => rw [hg] at h; cases h
        | ok n => exact absurd (List.getElem?_eq_some_iff.1 (vget_eq_ok.1 hg)).1 hi
      · rintro ⟨i', v, h, hv, -⟩
        cases h
        exact absurd (List.getElem?_eq_some_iff.1 hv).1 hi

theorem bind_nil_iff {α β : Type} {a : Res α} {f : α → Res (List β)} :
    (a >>= f) = .ok [] ↔ ∃ x, a = .ok x ∧ f x = .ok [] := by
  cases a with
  | error e =>
    constructor
    · intro h; cases h
    · rintro ⟨x, h, -⟩; cases h
  | ok x => simp

theorem append_nil_iff {β : Type} {x y : List β} : (pure (x ++ y) : Res (List β)) = .ok [] ↔ x = [] ∧ y = [] := by
  rw [pure_eq_ok, Except.ok.injEq, List.append_eq_nil_iff]

/-- C65: `check_maps` prints nothing exactly when the id maps lead every vertex, every net, every net of a vertex
and every pin of a net to the object with that id. -/
theorem C65_check_maps (H : Hypergraph) :
    checkMaps H = .ok [] ↔
      (∀ v ∈ H.vertices, VertexFound H v.id ∧ ∀ e ∈ v.nets, NetFound H e) ∧
      (∀ n ∈ H.nets, (∀ u ∈ n.vertices, VertexFound H u) ∧ NetFound H n.id) := by
  have hv : ∀ v : Vertex, (do
      let m ← checkVertex H v.id
      let ms ← v.nets.mapM (checkNet H)
      pure (m ++ ms.flatten) : Res (List MapMsg)) = .ok [] ↔ VertexFound H v.id ∧ ∀ e ∈ v.nets, NetFound H e := by
    intro v
    simp only [bind_nil_iff, append_nil_iff, ← checkVertex_iff, ← checkNet_iff, ← mapM_flatten_nil]
    constructor
    · rintro ⟨m, hm, ms, hms, rfl, hf⟩; exact ⟨hm, ms, hms, hf⟩
    · rintro ⟨hm, ms, hms, hf⟩; exact ⟨[], hm, ms, hms, rfl, hf⟩
  have hn : ∀ n : Net, (do
      let ms ← n.vertices.mapM (checkVertex H)
      let m ← checkNet H n.id
      pure (ms.flatten ++ m) : Res (List MapMsg)) = .ok [] ↔ (∀ u ∈ n.vertices, VertexFound H u) ∧ NetFound H n.id := by
    intro n
    simp only [bind_nil_iff, append_nil_iff, ← checkVertex_iff, ← checkNet_iff, ← mapM_flatten_nil]
    constructor
    · rintro ⟨ms, hms, m, hm, hf, rfl⟩; exact ⟨⟨ms, hms, hf⟩, hm⟩
    · rintro ⟨⟨ms, hms, hf⟩, hm⟩; exact ⟨ms, hms, [], hm, hf, rfl⟩
  unfold checkMaps
  simp only [← hv, ← hn]
  rw [← mapM_flatten_nil, ← mapM_flatten_nil]
  simp only [bind_nil_iff, append_nil_iff]
  constructor
  · rintro ⟨a, ha, b, hb, h1, h2⟩; exact ⟨⟨a, ha, h1⟩, b, hb, h2⟩
  · rintro ⟨⟨a, ha, h1⟩, b, hb, h2⟩; exact ⟨a, ha, b, hb, h1, h2⟩

/-- C65: nothing is printed for a consistent hypergraph. -/
theorem C65_consistent {H : Hypergraph} (w : WF H) : checkMaps H = .ok [] := by
  have hv : ∀ v ∈ H.vertices, VertexFound H v.id := by
    intro v hv
    obtain ⟨i, hi, rfl⟩ := List.getElem_of_mem hv
    exact ⟨i, H.vertices[i], (w.vmap _ _).2 (by simp [hi]), List.getElem?_eq_getElem hi, rfl⟩
  have hn : ∀ n ∈ H.nets, NetFound H n.id := by
    intro n hn
    obtain ⟨i, hi, rfl⟩ := List.getElem_of_mem hn
    exact ⟨i, H.nets[i], (w.nmap _ _).2 (by simp [hi]), List.getElem?_eq_getElem hi, rfl⟩
  rw [C65_check_maps]
  refine ⟨fun v h => ⟨hv v h, ?_⟩, fun n h => ⟨?_, hn n h⟩⟩
  · intro e he
    obtain ⟨n, h1, rfl, -⟩ := w.inc_net v h e he
    exact hn n h1
  · intro u hu
    obtain ⟨v, h1, rfl, -⟩ := w.inc_vtx n h u hu
    exact hv v h1

/-- C65: on a map entry that points outside the vertices, `check_maps` does not report: it fails in `local_id`. -/
theorem C65_entry_outside : ∃ H : Hypergraph, checkMaps H = .error .abort :=
  ⟨{ exampleH with vmap := fun _ => some 9 }, by decide⟩

example : checkMaps exampleH = .ok [] := C65_consistent exampleH_wf

example : checkMaps { exampleH with vmap := fun u => if u = 1 then some 0 else if u = 3 then some 1 else some 2 } =
    .ok [.vertexIncorrect, .vertexIncorrect, .vertexIncorrect, .vertexIncorrect, .vertexIncorrect,
      .vertexIncorrect, .vertexIncorrect] := by decide

/-! ### C66 -/

theorem vgetNone {α : Type} {l : List α} {i : Nat} (h : l.length ≤ i) : vget l i = .error .ub := by
  unfold vget
  rw [List.getElem?_eq_none h]

/-- The messages for position `j`. -/
def cntMsgs (c g : Cnt) (j : Nat) : List (Nat × Nat) :=
  (if c.c0 ≠ g.c0 then [(j, 0)] else []) ++ (if c.c1 ≠ g.c1 then [(j, 1)] else [])

theorem compareCounts_step {H : Hypergraph} {good : List Cnt} (hg : good.length = H.nets.length) (c : Cnt) {j : Nat} :
    (do
      let g ← vget good j
      let a ← runIf (c.c0 ≠ g.c0) (do let _ ← vget H.nets j; pure [(j, 0)]) []
      let b ← runIf (c.c1 ≠ g.c1) (do let _ ← vget H.nets j; pure [(j, 1)]) []
      pure (a ++ b) : Res (List (Nat × Nat))) =
    if h : j < good.length then .ok (cntMsgs c good[j] j) else .error .ub := by
  by_cases h : j < good.length
  · rw [dif_pos h, vget_ok (List.getElem?_eq_getElem h), ok_bind,
      vget_ok (List.getElem?_eq_getElem (by omega : j < H.nets.length))]
    unfold runIf cntMsgs
    split_ifs <;> rfl
  · rw [dif_neg h, vgetNone (by omega)]
    rfl

theorem compareCounts_ok {H : Hypergraph} {C good : List Cnt} (hg : good.length = H.nets.length)
    (hC : C.length ≤ H.nets.length) :
    ∃ ms, compareCounts H C good = .ok ms ∧ ∀ j p, (j, p) ∈ ms ↔
      ∃ c g, C[j]? = some c ∧ good[j]? = some g ∧ ((p = 0 ∧ c.c0 ≠ g.c0) ∨ (p = 1 ∧ c.c1 ≠ g.c1)) := by
  unfold compareCounts
  simp only [compareCounts_step hg]
  rw [mapM_ok (g := fun x => cntMsgs x.1 (good[x.2]?.getD ⟨0, 0⟩) x.2) _ (by
    rintro ⟨c, j⟩ hx
    obtain ⟨-, hj, -⟩ := List.mem_zipIdx hx
    have hj : j < good.length := by omega
    dsimp only
    rw [dif_pos hj, List.getElem?_eq_getElem hj]
    rfl), ok_bind]
  refine ⟨_, rfl, fun j p => ?_⟩
  simp only [List.mem_flatten, List.mem_map]
  constructor
  · rintro ⟨_, ⟨⟨c, i⟩, hx, rfl⟩, hm⟩
    have hci := List.mem_zipIdx' hx
    have hi : i < good.length := by omega
    rw [List.getElem?_eq_getElem hi] at hm
    unfold cntMsgs at hm
    dsimp only [Option.getD_some] at hm
    have hj : j = i ∧ ((p = 0 ∧ c.c0 ≠ good[i].c0) ∨ (p = 1 ∧ c.c1 ≠ good[i].c1)) := by
      rcases List.mem_append.1 hm with h | h
      · split_ifs at h with hne
        · simp at h; exact ⟨h.1, Or.inl ⟨h.2, hne⟩⟩
        · cases h
      · split_ifs at h with hne
        · simp at h; exact ⟨h.1, Or.inr ⟨h.2, hne⟩⟩
        · cases h
    obtain ⟨rfl, hj⟩ := hj
    exact ⟨c, _, (by rw [List.getElem?_eq_getElem hci.1]; exact congrArg some hci.2.symm), List.getElem?_eq_getElem hi, hj⟩
  · rintro ⟨c, g, hc, hgj, h⟩
    refine ⟨_, ⟨(c, j), List.mem_zipIdx_iff_getElem?.2 hc, rfl⟩, ?_⟩
    dsimp only
    rw [hgj]
    unfold cntMsgs
    dsimp only [Option.getD_some]
    rcases h with ⟨rfl, h⟩ | ⟨rfl, h⟩
    · rw [if_pos h]; simp
    · rw [if_pos h]; simp

/-- C66: `check_C` names exactly the wrong counters, when there is at most one entry per net. -/
theorem C66_check_C {H : Hypergraph} (w : WF H) (hb : Bipartitioned H) {C : List Cnt}
    (hC : C.length ≤ H.nets.length) :
    ∃ ms, checkC H C = .ok ms ∧ ∀ j p, (j, p) ∈ ms ↔
      ∃ c n, C[j]? = some c ∧ H.nets[j]? = some n ∧
        ((p = 0 ∧ c.c0 ≠ pinCount (partOf H) n 0) ∨ (p = 1 ∧ c.c1 ≠ pinCount (partOf H) n 1)) := by
  obtain ⟨G, h1, h2⟩ := C11_init_counts w hb
  unfold CountsExact at h2
  obtain ⟨ms, m1, m2⟩ := compareCounts_ok (H := H) (C := C) (good := G) (by rw [h2, List.length_map]) hC
  refine ⟨ms, ?_, fun j p => ?_⟩
  · unfold checkC
    rw [h1, ok_bind, m1]
  · rw [m2, h2]
    constructor
    · rintro ⟨c, g, hc, hg, h⟩
      rw [List.getElem?_map, Option.map_eq_some_iff] at hg
      obtain ⟨n, hn, rfl⟩ := hg
      exact ⟨c, n, hc, hn, h⟩
    · rintro ⟨c, n, hc, hn, h⟩
      exact ⟨c, _, hc, by rw [List.getElem?_map, hn]; rfl, h⟩

theorem countsExact_iff {H : Hypergraph} {C : List Cnt} {f0 f1 : Net → Int} (hC : C.length = H.nets.length)
    {ms : List (Nat × Nat)} (hm : ∀ j p, (j, p) ∈ ms ↔
      ∃ c n, C[j]? = some c ∧ H.nets[j]? = some n ∧ ((p = 0 ∧ c.c0 ≠ f0 n) ∨ (p = 1 ∧ c.c1 ≠ f1 n))) :
    ms = [] ↔ C = H.nets.map (fun n => ⟨f0 n, f1 n⟩) := by
  constructor
  · intro h
    rw [h] at hm
    apply List.ext_getElem (by rw [hC, List.length_map])
    intro j h1 h2
    rw [List.getElem_map]
    have hj : j < H.nets.length := by omega
    have e0 : C[j].c0 = f0 H.nets[j] := by
      by_contra hne
      exact absurd ((hm j 0).2 ⟨_, _, List.getElem?_eq_getElem h1, List.getElem?_eq_getElem hj, Or.inl ⟨rfl, hne⟩⟩)
        List.not_mem_nil
    have e1 : C[j].c1 = f1 H.nets[j] := by
      by_contra hne
      exact absurd ((hm j 1).2 ⟨_, _, List.getElem?_eq_getElem h1, List.getElem?_eq_getElem hj, Or.inr ⟨rfl, hne⟩⟩)
        List.not_mem_nil
    rw [← e0, ← e1]
  · intro h
    rw [List.eq_nil_iff_forall_not_mem]
    rintro ⟨j, p⟩ hmem
    obtain ⟨c, n, hc, hn, hne⟩ := (hm j p).1 hmem
    rw [h, List.getElem?_map, hn] at hc
    cases hc
    rcases hne with ⟨-, hne⟩ | ⟨-, hne⟩ <;> exact hne rfl

/-- C66: with one entry per net, `check_C` prints nothing exactly when all counts are exact. -/
theorem C66_silent_iff_exact {H : Hypergraph} (w : WF H) (hb : Bipartitioned H) {C : List Cnt}
    (hC : C.length = H.nets.length) : checkC H C = .ok [] ↔ CountsExact H C := by
  obtain ⟨ms, h1, h2⟩ := C66_check_C w hb (by omega : C.length ≤ H.nets.length)
  rw [h1, Except.ok.injEq]
  exact countsExact_iff hC h2

/-- C66: with more entries than nets, memory behind the recomputed counts is read. -/
theorem C66_too_long {H : Hypergraph} (w : WF H) (hb : Bipartitioned H) {C : List Cnt}
    (hC : H.nets.length < C.length) : checkC H C = .error .ub := by
  obtain ⟨G, h1, h2⟩ := C11_init_counts w hb
  have hg : G.length = H.nets.length := by rw [h2, List.length_map]
  unfold checkC
  rw [h1, ok_bind]
  unfold compareCounts
  simp only [compareCounts_step hg]
  rw [mapM_error (e := .ub)]
  · rfl
  · rintro ⟨c, j⟩ -
    dsimp only
    by_cases h : j < G.length
    · rw [dif_pos h]; exact Or.inl ⟨_, rfl⟩
    · rw [dif_neg h]; exact Or.inr rfl
  · refine ⟨(C[H.nets.length], H.nets.length), List.mem_zipIdx_iff_getElem?.2 (List.getElem?_eq_getElem hC), ?_⟩
    dsimp only
    rw [dif_neg (by omega)]

/-- C66: with fewer entries than nets the missing ones are not reported. -/
theorem C66_too_short : checkC exampleH [] = .ok [] := by decide

/-- C66: on several processors, with one entry per local net, all print nothing exactly when every processor holds
the counts of the whole hypergraph for each of its nets. -/
theorem C66_distributed {N : Nat} {xs : List (Hypergraph × List Cnt)} (hD : Distributed N (xs.map (·.1)))
    {np : NetPart} (hv : np.Valid (xs.map (·.1)).length N) {d : Delivery (Nat × Int)} (hd : Fair d)
    (hb : ∀ x ∈ xs, Bipartitioned x.1)
    (hs : ∀ x ∈ xs, ∀ n ∈ x.1.nets, n.globalSize = (unionPins (xs.map (·.1)) n.id).length)
    (hC : ∀ x ∈ xs, x.2.length = x.1.nets.length) :
    checkCPar d np xs = .ok (xs.map (fun _ => [])) ↔
      ∀ x ∈ xs, x.2 = x.1.nets.map (fun n =>
        ⟨pinCount (partOf (unionH N (xs.map (·.1)))) (unionNet (xs.map (·.1)) n.id) 0,
         pinCount (partOf (unionH N (xs.map (·.1)))) (unionNet (xs.map (·.1)) n.id) 1⟩) := by
  obtain ⟨f, hf⟩ : ∃ f : Net → Cnt, f = fun n =>
    ⟨pinCount (partOf (unionH N (xs.map (·.1)))) (unionNet (xs.map (·.1)) n.id) 0,
     pinCount (partOf (unionH N (xs.map (·.1)))) (unionNet (xs.map (·.1)) n.id) 1⟩ := ⟨_, rfl⟩
  have hi := C11_init_counts_par hD hv hd (fun H h => by
    obtain ⟨x, hx, rfl⟩ := List.mem_map.1 h
    exact hb x hx) (fun H h => by
    obtain ⟨x, hx, rfl⟩ := List.mem_map.1 h
    exact hs x hx)
  rw [← hf] at hi ⊢
  have hx : ∀ x ∈ xs, ∃ ms, compareCounts x.1 x.2 (x.1.nets.map f) = .ok ms ∧ (ms = [] ↔ x.2 = x.1.nets.map f) := by
    intro x hx
    obtain ⟨ms, m1, m2⟩ := compareCounts_ok (H := x.1) (C := x.2) (good := x.1.nets.map f) (by simp) (by rw [hC x hx])
    refine ⟨ms, m1, ?_⟩
    refine countsExact_iff (f0 := fun n => (f n).c0) (f1 := fun n => (f n).c1) (hC x hx) (fun j p => ?_)
    rw [m2]
    constructor
    · rintro ⟨c, g, hc, hg, h⟩
      rw [List.getElem?_map, Option.map_eq_some_iff] at hg
      obtain ⟨n, hn, rfl⟩ := hg
      exact ⟨c, n, hc, hn, h⟩
    · rintro ⟨c, n, hc, hn, h⟩
      exact ⟨c, _, hc, by rw [List.getElem?_map, hn]; rfl, h⟩
  obtain ⟨g, hg⟩ : ∃ g : (Hypergraph × List Cnt) → List (Nat × Nat), g = fun x =>
    match compareCounts x.1 x.2 (x.1.nets.map f) with
    | .ok ms => ms
    | .error _ => [] := ⟨_, rfl⟩
  have hz : xs.zip ((xs.map (·.1)).map (fun H => H.nets.map f)) = xs.map (fun x => (x, x.1.nets.map f)) := by
    rw [List.map_map]
    conv_lhs => rw [← List.map_id xs]
    rw [List.map_map, List.zip_map']
    rfl
  unfold checkCPar
  rw [hi, ok_bind, hz, mapM_ok (g := fun y => g y.1) _ (by
    intro y hy
    obtain ⟨x, hx', rfl⟩ := List.mem_map.1 hy
    obtain ⟨ms, m1, -⟩ := hx x hx'
    dsimp only
    rw [hg]
    dsimp only
    rw [m1]), List.map_map, Except.ok.injEq, List.map_inj_left]
  refine forall₂_congr (fun x h => ?_)
  obtain ⟨ms, m1, m2⟩ := hx x h
  rw [← m2, Function.comp_apply, hg]
  dsimp only
  rw [m1]

example : ∃ C, checkC exampleH C = .ok [] ∧ checkC exampleH (C.set 1 ⟨1, 2⟩) = .ok [(1, 0), (1, 1)] :=
  ⟨[⟨2, 1⟩, ⟨2, 1⟩, ⟨1, 2⟩], by decide, by decide⟩

example : checkCPar (revDelivery _) (blockPart 2 3)
    (exampleD.map (fun H => (H, H.nets.map (fun n => ⟨0, n.vertices.length⟩)))) ≠
    .ok (exampleD.map (fun _ => [])) := by decide

end PMondriaan

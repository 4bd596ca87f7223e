import Verif.Props.Dist
import Verif.Proofs.UncoarsenPar

/-
Property C90: how the two metrics are related, and what the names of the parts do to them.
-/

namespace PMondriaan

open Spec

/-- A net touches at most as many parts as there are, and at most as many as it has pins. -/
theorem connectivity_le {P : Nat → Int} {n : Net} {k : Nat} (h : ∀ u ∈ n.vertices, 0 ≤ P u ∧ P u < k) :
    connectivity P n ≤ k ∧ connectivity P n ≤ n.vertices.length := by
  unfold connectivity
  constructor
  · have h1 : ((n.vertices.map P).dedup).Subperm ((List.range k).map (fun q : Nat => (q : Int))) := by
      apply List.subperm_of_subset (List.nodup_dedup _)
      intro x hx
      obtain ⟨u, hu, rfl⟩ := List.mem_map.1 (List.mem_dedup.1 hx)
      have := h u hu
      exact List.mem_map.2 ⟨(P u).toNat, List.mem_range.2 (by omega), by omega⟩
    simpa using h1.length_le
  · have := (List.dedup_sublist (n.vertices.map P)).length_le
    simpa using this

/-- Giving parts other names, or the same name, does not make a net touch more parts. -/
theorem connectivity_image (P : Nat → Int) (f : Int → Int) (n : Net) : connectivity (fun u => f (P u)) n ≤ connectivity P n := by
  unfold connectivity
  have h1 : ((n.vertices.map (fun u => f (P u))).dedup).Subperm (((n.vertices.map P).dedup).map f) := by
    apply List.subperm_of_subset (List.nodup_dedup _)
    intro x hx
    obtain ⟨u, hu, rfl⟩ := List.mem_map.1 (List.mem_dedup.1 hx)
    exact List.mem_map.2 ⟨P u, List.mem_dedup.2 (List.mem_map_of_mem hu), rfl⟩
  simpa using h1.length_le

theorem metrics_bounds {P : Nat → Int} {k : Nat} : ∀ {nets : List Net}, (∀ n ∈ nets, 0 ≤ n.cost) →
    (∀ n ∈ nets, ∀ u ∈ n.vertices, 0 ≤ P u ∧ P u < k) →
    0 ≤ cutNet P nets ∧ cutNet P nets ≤ lambdaMinusOne P nets ∧ lambdaMinusOne P nets ≤ ((k - 1 : Nat) : Int) * cutNet P nets ∧
    lambdaMinusOne P nets ≤ (nets.map (fun n => ((min k n.vertices.length - 1 : Nat) : Int) * n.cost)).sum := by
  intro nets
  induction nets with
  | nil => intro _ _; simp [cutNet, lambdaMinusOne]
  | cons n l ih =>
    intro hc hP
    obtain ⟨i1, i2, i3, i4⟩ := ih (fun m hm => hc m (List.mem_cons_of_mem _ hm)) (fun m hm => hP m (List.mem_cons_of_mem _ hm))
    have h0 := hc n (List.mem_cons_self ..)
    obtain ⟨h1, h2⟩ := connectivity_le (hP n (List.mem_cons_self ..))
    have hcut := connectivity_gt_one P n
    unfold cutNet lambdaMinusOne at *
    simp only [List.map_cons, List.sum_cons]
    have h4 : ((connectivity P n - 1 : Nat) : Int) * n.cost ≤ ((min k n.vertices.length - 1 : Nat) : Int) * n.cost :=
      mul_le_mul_of_nonneg_right (by omega) h0
    by_cases hi : IsCut P n
    · have hi' := hcut.2 hi
      rw [if_pos hi]
      have h5 : (1 : Int) * n.cost ≤ ((connectivity P n - 1 : Nat) : Int) * n.cost :=
        mul_le_mul_of_nonneg_right (by omega) h0
      have h6 : ((connectivity P n - 1 : Nat) : Int) * n.cost ≤ ((k - 1 : Nat) : Int) * n.cost :=
        mul_le_mul_of_nonneg_right (by omega) h0
      refine ⟨by omega, by omega, ?_, by omega⟩
      rw [mul_add]
      omega
    · have hi' : connectivity P n - 1 = 0 := by
        have := mt hcut.1 hi
        omega
      rw [if_neg hi, hi']
      rw [hi'] at h4
      simp only [Nat.cast_zero, zero_mul, zero_add] at h4 ⊢
      exact ⟨i1, i2, i3, by omega⟩

/-- C90: with nonnegative costs and parts in `[0, k)` the cut-net value that `cutsize` returns is at most the `λ-1` value
that it returns, which is at most `k - 1` times as large, and at most what all nets cost when each touches as many parts as
it can. -/
theorem C90_cutsize {H : Hypergraph} (w : WF H) (hc : ∀ n ∈ H.nets, 0 ≤ n.cost) {k : Nat}
    (hp : ∀ v ∈ H.vertices, 0 ≤ v.part ∧ v.part < k) :
    ∃ a b, cutsize H .cutNet = .ok a ∧ cutsize H .lambdaMinusOne = .ok b ∧ 0 ≤ a ∧ a ≤ b ∧ b ≤ ((k - 1 : Nat) : Int) * a ∧
      b ≤ (H.nets.map (fun n => ((min k n.vertices.length - 1 : Nat) : Int) * n.cost)).sum := by
  refine ⟨_, _, C09_cutsize w .cutNet, C09_cutsize w .lambdaMinusOne, metrics_bounds hc ?_⟩
  intro n hn u hu
  obtain ⟨v, hv, rfl, -⟩ := w.inc_vtx n hn u hu
  rw [w.partOf_eq hv]
  exact hp v hv

/-- C90 on several processors: the values that all of them return. -/
theorem C90_distributed {N : Nat} {Hs : List Hypergraph} (hD : Distributed N Hs) (hc : ∀ H ∈ Hs, ∀ n ∈ H.nets, 0 ≤ n.cost)
    {k : Nat} (hp : ∀ H ∈ Hs, ∀ v ∈ H.vertices, 0 ≤ v.part ∧ v.part < k) {np : NetPart} (hv : np.Valid Hs.length N)
    {d : Delivery LabelMsg} (hd : Fair d) {so : List Int → List Int} (hso : ∀ l, (so l).Perm l) :
    ∃ a b, cutsizePar so d np Hs .cutNet = .ok (Hs.map (fun _ => a)) ∧
      cutsizePar so d np Hs .lambdaMinusOne = .ok (Hs.map (fun _ => b)) ∧ 0 ≤ a ∧ a ≤ b ∧ b ≤ ((k - 1 : Nat) : Int) * a ∧
      b ≤ ((List.range N).map (fun e => ((min k (unionPins Hs e).length - 1 : Nat) : Int) * unionCost Hs e)).sum := by
  have w := unionH_wf hD
  obtain ⟨a, b, h1, h2, h3, h4, h5, h6⟩ := C90_cutsize (k := k) w (by
      intro n hn
      obtain ⟨e, he, rfl⟩ := List.mem_map.1 hn
      show 0 ≤ unionCost Hs e
      unfold unionCost
      split
      · rename_i m hm
        obtain ⟨H, hH, hm⟩ := List.mem_flatMap.1 (List.mem_of_find?_eq_some hm)
        exact hc H hH m hm
      · exact le_refl 0) (by
      intro v hv
      obtain ⟨H, hH, hv⟩ := List.mem_flatMap.1 hv
      exact hp H hH v hv)
  obtain ⟨a', ha, ha'⟩ := C10_equals_sequential hD hv hd hso .cutNet
  obtain ⟨b', hb, hb'⟩ := C10_equals_sequential hD hv hd hso .lambdaMinusOne
  rw [ha] at h1
  rw [hb] at h2
  obtain rfl := Except.ok.inj h1
  obtain rfl := Except.ok.inj h2
  refine ⟨a', b', ha', hb', h3, h4, h5, le_trans h6 (le_of_eq ?_)⟩
  show (((List.range N).map (unionNet Hs)).map _).sum = _
  rw [List.map_map]
  rfl

/-- The hypergraph in which part `q` is called `f q`. -/
def renameParts (f : Int → Int) (H : Hypergraph) : Hypergraph :=
  { H with vertices := H.vertices.map (fun v => { v with part := f v.part }) }

theorem renameParts_eq {f : Int → Int} {H : Hypergraph} {P : Nat → Int} (h : ∀ v ∈ H.vertices, P v.id = v.part) :
    renameParts f H = relabel H (fun u => f (P u)) := by
  unfold renameParts relabel
  congr 1
  apply List.map_congr_left
  intro v hv
  dsimp only
  rw [h v hv]

theorem renameParts_wf (f : Int → Int) {H : Hypergraph} (w : WF H) : WF (renameParts f H) := by
  rw [renameParts_eq (fun v hv => w.partOf_eq hv)]
  exact relabel_wf w _

theorem cutValue_renameParts {H : Hypergraph} (w : WF H) (f : Int → Int) (m : Metric) :
    cutValue m (renameParts f H) = match m with
      | .cutNet => cutNet (fun u => f (partOf H u)) H.nets
      | .lambdaMinusOne => lambdaMinusOne (fun u => f (partOf H u)) H.nets := by
  have hp : ∀ n ∈ H.nets, ∀ u ∈ n.vertices, partOf (renameParts f H) u = f (partOf H u) := by
    intro n hn u hu
    obtain ⟨v, hv, rfl, -⟩ := w.inc_vtx n hn u hu
    rw [renameParts_eq (fun v hv => w.partOf_eq hv)]
    exact relabel_partOf w _ (List.mem_map_of_mem hv)
  cases m with
  | cutNet =>
    unfold cutValue cutNet
    dsimp only
    show (H.nets.map _).sum = _
    congr 1
    apply List.map_congr_left
    intro n hn
    have : IsCut (partOf (renameParts f H)) n ↔ IsCut (fun u => f (partOf H u)) n := by
      unfold IsCut
      constructor
      · rintro ⟨u, hu, x, hx, h⟩
        rw [hp n hn u hu, hp n hn x hx] at h
        exact ⟨u, hu, x, hx, h⟩
      · rintro ⟨u, hu, x, hx, h⟩
        refine ⟨u, hu, x, hx, ?_⟩
        rw [hp n hn u hu, hp n hn x hx]
        exact h
    by_cases h : IsCut (fun u => f (partOf H u)) n
    · rw [if_pos h, if_pos (this.2 h)]
    · rw [if_neg h, if_neg (fun x => h (this.1 x))]
  | lambdaMinusOne =>
    unfold cutValue lambdaMinusOne
    dsimp only
    show (H.nets.map _).sum = _
    congr 1
    apply List.map_congr_left
    intro n hn
    unfold connectivity
    rw [List.map_congr_left (hp n hn)]

theorem metrics_image {P : Nat → Int} (f : Int → Int) : ∀ {nets : List Net}, (∀ n ∈ nets, 0 ≤ n.cost) →
    cutNet (fun u => f (P u)) nets ≤ cutNet P nets ∧ lambdaMinusOne (fun u => f (P u)) nets ≤ lambdaMinusOne P nets := by
  intro nets
  induction nets with
  | nil => intro _; simp [cutNet, lambdaMinusOne]
  | cons n l ih =>
    intro hc
    obtain ⟨i1, i2⟩ := ih (fun m hm => hc m (List.mem_cons_of_mem _ hm))
    have h0 := hc n (List.mem_cons_self ..)
    have h1 := connectivity_image P f n
    unfold cutNet lambdaMinusOne at *
    simp only [List.map_cons, List.sum_cons]
    have h2 : ((connectivity (fun u => f (P u)) n - 1 : Nat) : Int) * n.cost ≤ ((connectivity P n - 1 : Nat) : Int) * n.cost :=
      mul_le_mul_of_nonneg_right (by omega) h0
    refine ⟨?_, by omega⟩
    by_cases hi : IsCut (fun u => f (P u)) n
    · have hi' : IsCut P n := by
        obtain ⟨u, hu, x, hx, h⟩ := hi
        exact ⟨u, hu, x, hx, fun e => h (by dsimp only; rw [e])⟩
      rw [if_pos hi, if_pos hi']
      omega
    · rw [if_neg hi]
      split <;> omega

/-- C90: putting parts together does not increase the cut size, for both metrics. -/
theorem C90_merge {H : Hypergraph} (w : WF H) (hc : ∀ n ∈ H.nets, 0 ≤ n.cost) (f : Int → Int) (m : Metric) :
    ∃ a b, cutsize (renameParts f H) m = .ok a ∧ cutsize H m = .ok b ∧ a ≤ b := by
  refine ⟨_, _, C09_cutsize (renameParts_wf f w) m, C09_cutsize w m, ?_⟩
  rw [cutValue_renameParts w]
  cases m with
  | cutNet => exact (metrics_image f hc).1
  | lambdaMinusOne => exact (metrics_image f hc).2

/-- C90: the names of the parts do not matter. -/
theorem C90_rename {H : Hypergraph} (w : WF H) {f : Int → Int} (hf : Function.Injective f) (m : Metric) :
    cutsize (renameParts f H) m = cutsize H m := by
  rw [C09_cutsize (renameParts_wf f w) m, C09_cutsize w m, cutValue_renameParts w]
  congr 1
  cases m with
  | cutNet =>
    unfold cutValue cutNet
    dsimp only
    congr 1
    apply List.map_congr_left
    intro n hn
    have : IsCut (fun u => f (partOf H u)) n ↔ IsCut (partOf H) n := by
      unfold IsCut
      simp only [hf.ne_iff]
    by_cases h : IsCut (partOf H) n
    · rw [if_pos h, if_pos (this.2 h)]
    · rw [if_neg h, if_neg (fun x => h (this.1 x))]
  | lambdaMinusOne =>
    unfold cutValue lambdaMinusOne
    dsimp only
    congr 1
    apply List.map_congr_left
    intro n hn
    have : connectivity (fun u => f (partOf H u)) n = connectivity (partOf H) n := by
      apply le_antisymm (connectivity_image _ f n)
      obtain ⟨g, hg⟩ := hf.hasLeftInverse
      have h1 := connectivity_image (fun u => f (partOf H u)) g n
      simpa only [hg (partOf H _)] using h1
    rw [this]

/-- C90 on several processors: putting parts together does not increase the cut size, and their names do not matter. -/
theorem C90_merge_distributed {N : Nat} {Hs : List Hypergraph} (hD : Distributed N Hs)
    (hc : ∀ H ∈ Hs, ∀ n ∈ H.nets, 0 ≤ n.cost) (f : Int → Int) {np : NetPart} (hv : np.Valid Hs.length N)
    {d : Delivery LabelMsg} (hd : Fair d) {so : List Int → List Int} (hso : ∀ l, (so l).Perm l) (m : Metric) :
    ∃ a b, cutsizePar so d np (Hs.map (renameParts f)) m = .ok (Hs.map (fun _ => a)) ∧
      cutsizePar so d np Hs m = .ok (Hs.map (fun _ => b)) ∧ a ≤ b ∧ (Function.Injective f → a = b) := by
  have w := unionH_wf hD
  have hP : ∀ H ∈ Hs, ∀ v ∈ H.vertices, partOf (unionH N Hs) v.id = v.part := by
    intro H hH v hv
    exact w.partOf_eq (List.mem_flatMap.2 ⟨H, hH, hv⟩)
  have e1 : Hs.map (renameParts f) = Hs.map (fun H => relabel H (fun u => f (partOf (unionH N Hs) u))) := by
    apply List.map_congr_left
    intro H hH
    exact renameParts_eq (hP H hH)
  have hD' := relabel_distributed hD (fun u => f (partOf (unionH N Hs) u))
  obtain ⟨a, a1, a2⟩ := C10_equals_sequential hD' (np := np) (by rw [List.length_map]; exact hv) hd hso m
  rw [unionH_relabel, ← renameParts_eq (fun v hv => w.partOf_eq hv)] at a1
  obtain ⟨b, b1, b2⟩ := C10_equals_sequential hD hv hd hso m
  refine ⟨a, b, ?_, b2, ?_, ?_⟩
  · rw [e1, a2, List.map_map]
    rfl
  · obtain ⟨a', b', h1, h2, h3⟩ := C90_merge w (by
      intro n hn
      obtain ⟨e, he, rfl⟩ := List.mem_map.1 hn
      show 0 ≤ unionCost Hs e
      unfold unionCost
      split
      · rename_i m hm
        obtain ⟨H, hH, hm⟩ := List.mem_flatMap.1 (List.mem_of_find?_eq_some hm)
        exact hc H hH m hm
      · exact le_refl 0) f m
    rw [a1] at h1
    rw [b1] at h2
    obtain rfl := Except.ok.inj h1
    obtain rfl := Except.ok.inj h2
    exact h3
  · intro hf
    have := C90_rename w hf m
    rw [a1, b1] at this
    exact Except.ok.inj this

/-- Three parts; a net with three parts counts once or twice. -/
def exampleMetric : Hypergraph :=
  Hypergraph.create 4 2 [ ⟨0, [0], 1, 0⟩, ⟨1, [0, 1], 1, 1⟩, ⟨2, [0], 1, 2⟩, ⟨3, [1], 1, 1⟩ ]
    [ ⟨0, [0, 1, 2], 5, 3⟩, ⟨1, [1, 3], 7, 2⟩ ]

example : WF exampleMetric ∧ cutsize exampleMetric .cutNet = .ok 5 ∧ cutsize exampleMetric .lambdaMinusOne = .ok 10 ∧
    cutsize (renameParts (fun q => if q = 2 then 1 else q) exampleMetric) .lambdaMinusOne = .ok 5 ∧
    cutsize (renameParts (fun q => 2 - q) exampleMetric) .lambdaMinusOne = .ok 10 :=
  ⟨WF_create (by decide) (by decide) (by decide) (by decide) (by decide) (by decide), by decide, by decide, by decide, by decide⟩

end PMondriaan

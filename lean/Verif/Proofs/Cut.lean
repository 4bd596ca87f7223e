import Verif.Proofs.WF
import Mathlib.Tactic.Ring
import Mathlib.Tactic.Linarith

/-
Cut size, part weights and counts.
-/

namespace PMondriaan

open Spec

theorem setInsert_spec {α : Type} [DecidableEq α] (s : List α) (x y : α) :
    y ∈ setInsert s x ↔ y ∈ s ∨ y = x := by
  unfold setInsert
  split
  · rename_i h
    constructor
    · exact Or.inl
    · rintro (h1 | rfl)
      · exact h1
      · exact h
  · simp

theorem setInsert_nodup {α : Type} [DecidableEq α] {s : List α} (x : α) (h : s.Nodup) :
    (setInsert s x).Nodup := by
  unfold setInsert
  split
  · exact h
  · rename_i hx
    rw [List.nodup_append]
    refine ⟨h, by simp, ?_⟩
    intro a ha b hb
    simp at hb
    subst hb
    rintro rfl
    exact hx ha

/-- The set of labels built by the loop over the pins. -/
theorem labelsNet_ok {H : Hypergraph} (w : WF H) {n : Net} (hn : n ∈ H.nets) :
    ∃ s, labelsNet H n = .ok s ∧ s.length = connectivity (partOf H) n := by
  obtain ⟨s, hs, hI⟩ := foldlM_inv (f := fun s u => do
      let p ← H.partOfV u
      pure (setInsert s p))
    (fun pre _ s => s.Nodup ∧ ∀ x, x ∈ s ↔ x ∈ pre.map (partOf H)) n.vertices ([] : List Int)
    (by simp) (by
      intro pre a post s hI hl
      have ha : a ∈ n.vertices := by rw [hl]; simp
      refine ⟨setInsert s (partOf H a), by simp [w.partOfV_pin hn ha], setInsert_nodup _ hI.1, ?_⟩
      intro x
      rw [setInsert_spec, hI.2]
      simp [eq_comm])
  refine ⟨s, hs, ?_⟩
  unfold connectivity
  apply List.Perm.length_eq
  rw [List.perm_ext_iff_of_nodup hI.1 (List.nodup_dedup _)]
  intro x
  rw [hI.2, List.mem_dedup]

theorem connectivity_gt_one (P : Nat → Int) (n : Net) :
    1 < connectivity P n ↔ IsCut P n := by
  unfold connectivity IsCut
  constructor
  · intro h
    have hnd := List.nodup_dedup (n.vertices.map P)
    rcases hd : (n.vertices.map P).dedup with _ | ⟨a, _ | ⟨b, t⟩⟩
    · rw [hd] at h; simp at h
    · rw [hd] at h; simp at h
    · have ha : a ∈ (n.vertices.map P) := by rw [← List.mem_dedup, hd]; simp
      have hb : b ∈ (n.vertices.map P) := by rw [← List.mem_dedup, hd]; simp
      rw [hd] at hnd
      rw [List.mem_map] at ha hb
      obtain ⟨u, hu, rfl⟩ := ha
      obtain ⟨x, hx, rfl⟩ := hb
      refine ⟨u, hu, x, hx, ?_⟩
      intro he
      simp [he] at hnd
  · rintro ⟨u, hu, x, hx, hne⟩
    by_contra hlt
    have h1 : P u ∈ (n.vertices.map P).dedup := by
      rw [List.mem_dedup]; exact List.mem_map_of_mem hu
    have h2 : P x ∈ (n.vertices.map P).dedup := by
      rw [List.mem_dedup]; exact List.mem_map_of_mem hx
    rcases hd : (n.vertices.map P).dedup with _ | ⟨a, _ | ⟨b, t⟩⟩
    · rw [hd] at h1; simp at h1
    · rw [hd] at h1 h2
      simp at h1 h2
      exact hne (h1.trans h2.symm)
    · rw [hd] at hlt; simp at hlt

theorem cutsize_ok {H : Hypergraph} (w : WF H) (m : Metric) :
    cutsize H m = .ok (cutValue m H) := by
  have key : ∀ (term : Net → Int),
      (∀ n ∈ H.nets, ∀ r : Int, cutStep H m r n = .ok (r + term n)) →
      cutsize H m = .ok ((H.nets.map term).sum) := by
    intro term hterm
    obtain ⟨r, hr, hI⟩ := foldlM_inv (f := cutStep H m)
      (fun pre _ r => r = (pre.map term).sum) H.nets (0 : Int) (by simp) (by
        intro pre a post s hI hl
        refine ⟨_, hterm a (by rw [hl]; simp) s, ?_⟩
        simp [hI])
    unfold cutsize
    rw [hr, hI]
  cases m with
  | cutNet =>
    apply key
    intro n hn r
    obtain ⟨s, hs, hlen⟩ := labelsNet_ok w hn
    have := connectivity_gt_one (partOf H) n
    rw [cutStep, hs]
    simp only [ok_bind, hlen]
    by_cases hc : IsCut (partOf H) n
    · rw [if_pos (this.2 hc), if_pos hc]; rfl
    · rw [if_neg (fun h => hc (this.1 h)), if_neg hc]; simp
  | lambdaMinusOne =>
    apply key
    intro n hn r
    obtain ⟨s, hs, hlen⟩ := labelsNet_ok w hn
    rw [cutStep, hs]
    simp only [ok_bind, hlen]
    by_cases hc : 1 < connectivity (partOf H) n
    · rw [if_pos hc]
      simp only [pure_eq_ok, Except.ok.injEq]
      rw [Nat.cast_sub (by omega)]
      simp
    · rw [if_neg hc]
      have : connectivity (partOf H) n - 1 = 0 := by omega
      rw [this]; simp

/-! ### Weights -/

theorem foldl_add_eq_sum {α : Type} (f : α → Int) (l : List α) (a : Int) :
    l.foldl (fun t v => t + f v) a = a + (l.map f).sum := by
  induction l generalizing a with
  | nil => simp
  | cons x l ih => simp [ih]; ring

theorem totalWeight_eq (H : Hypergraph) : H.totalWeight = (H.vertices.map (·.weight)).sum := by
  unfold Hypergraph.totalWeight
  rw [foldl_add_eq_sum]; simp

theorem weightPart_eq (H : Hypergraph) (p : Int) : H.weightPart p = partWeight H p := by
  unfold Hypergraph.weightPart partWeight
  suffices h : ∀ (l : List Vertex) (a : Int),
      l.foldl (fun t v => if v.part = p then t + v.weight else t) a =
        a + ((l.filter (fun v => v.part = p)).map (·.weight)).sum by
    rw [h]; simp
  intro l
  induction l with
  | nil => simp
  | cons x l ih =>
    intro a
    by_cases hx : x.part = p
    · simp [ih, hx]; ring
    · simp [ih, hx]

theorem partWeight_append (l : List Vertex) (x : Vertex) (p : Int) :
    (((l ++ [x]).filter (fun v => v.part = p)).map (·.weight)).sum =
      ((l.filter (fun v => v.part = p)).map (·.weight)).sum + if x.part = p then x.weight else 0 := by
  rw [List.filter_append, List.map_append, List.sum_append]
  by_cases h : x.part = p <;> simp [h]

theorem weightAllParts_ok (H : Hypergraph) (k : Nat)
    (hp : ∀ v ∈ H.vertices, 0 ≤ v.part ∧ v.part < k) :
    H.weightAllParts k = .ok ((List.range k).map (fun (p : Nat) => partWeight H p)) := by
  unfold Hypergraph.weightAllParts
  obtain ⟨t, ht, hI⟩ := foldlM_inv (f := fun t v => do
      let x ← vgetI t v.part
      vsetI t v.part (x + v.weight))
    (fun pre _ t => t = (List.range k).map (fun (p : Nat) =>
      ((pre.filter (fun (v : Vertex) => v.part = (p : Int))).map (·.weight)).sum))
    H.vertices (List.replicate k (0 : Int)) (by
      apply List.ext_getElem <;> simp) (by
      intro pre a post t hI hl
      have ha := hp a (by rw [hl]; simp)
      obtain ⟨q, hq⟩ := Int.eq_ofNat_of_zero_le ha.1
      have hqk : q < k := by omega
      subst hI
      refine ⟨_, ?_, rfl⟩
      have hneg : ¬ a.part < 0 := by omega
      have hget : vgetI ((List.range k).map (fun (p : Nat) =>
          ((pre.filter (fun (v : Vertex) => v.part = (p : Int))).map (·.weight)).sum)) a.part =
          .ok (((pre.filter (fun (v : Vertex) => v.part = (q : Int))).map (·.weight)).sum) := by
        unfold vgetI
        rw [if_neg hneg]
        apply vget_ok
        simp [hq, hqk]
      simp only [hget, ok_bind]
      unfold vsetI
      rw [if_neg hneg, vset_ok (by simp [hq, hqk])]
      congr 1
      apply List.ext_getElem
      · simp
      · intro i h1 h2
        simp only [List.length_map, List.length_range] at h2
        rw [List.getElem_set]
        simp only [List.getElem_map, List.getElem_range, partWeight_append]
        simp only [hq, Int.toNat_natCast]
        by_cases hi : q = i
        · subst hi; simp
        · have : ¬ ((q : Int) = (i : Int)) := by exact_mod_cast hi
          simp [hi, this])
  rw [ht, hI]
  rfl

end PMondriaan

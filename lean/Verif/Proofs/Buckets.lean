import Verif.Proofs.Move
import Verif.Model.KLFM

/-
The gain buckets: contents as a relation between ids and gains.
-/

namespace PMondriaan

open Spec

/-- The buckets hold exactly the pairs (id, gain) of `R`; gains range over `[-M, M]`. -/
structure BInv (M : Nat) (b : Buckets) (R : Nat → Int → Prop) : Prop where
  len : b.buckets.length = 2 * M + 1
  nd : ∀ l ∈ b.buckets, l.Nodup
  mem : ∀ (i : Nat) (l : List Nat) (u : Nat), b.buckets[i]? = some l → (u ∈ l ↔ R u ((i : Int) - M))
  rng : ∀ u g, R u g → -(M : Int) ≤ g ∧ g ≤ M
  min_lo : -(M : Int) ≤ b.minValue
  min_hi : b.minValue ≤ M
  low : ∀ u g, R u g → b.minValue ≤ g

/-- The upper pointer is valid. -/
structure BMax (M : Nat) (b : Buckets) (R : Nat → Int → Prop) : Prop where
  lo : -1 ≤ b.maxIndex
  hi : b.maxIndex ≤ 2 * M
  high : ∀ u g, R u g → (M : Int) + g ≤ b.maxIndex

theorem BInv.congr {M : Nat} {b : Buckets} {R R' : Nat → Int → Prop} (h : BInv M b R)
    (hR : ∀ u g, R u g ↔ R' u g) : BInv M b R' := by
  have : R = R' := by funext u g; exact propext (hR u g)
  exact this ▸ h

theorem BMax.congr {M : Nat} {b : Buckets} {R R' : Nat → Int → Prop} (h : BMax M b R)
    (hR : ∀ u g, R u g ↔ R' u g) : BMax M b R' := by
  have : R = R' := by funext u g; exact propext (hR u g)
  exact this ▸ h

theorem BInv.gainToIndex {M : Nat} {b : Buckets} {R : Nat → Int → Prop} (h : BInv M b R) (g : Int) :
    b.gainToIndex g = M + g := by
  unfold Buckets.gainToIndex
  rw [h.len]
  omega

theorem BInv.indexToGain {M : Nat} {b : Buckets} {R : Nat → Int → Prop} (h : BInv M b R) (g : Int) :
    b.indexToGain g = g - M := by
  unfold Buckets.indexToGain
  rw [h.len]
  omega

theorem vgetI_ok {α : Type} {l : List α} {i : Int} {k : Nat} {a : α} (hk : i = k)
    (h : l[k]? = some a) : vgetI l i = .ok a := by
  subst hk
  simp [vgetI, vget, h]

theorem vsetI_ok {α : Type} {l : List α} {i : Int} {k : Nat} {a : α} (hk : i = k)
    (h : k < l.length) : vsetI l i a = .ok (l.set k a) := by
  subst hk
  simp [vsetI, vset, h]

/-- Position of gain `g` and the bucket there. -/
theorem BInv.pos {M : Nat} {b : Buckets} {R : Nat → Int → Prop} (h : BInv M b R) {g : Int}
    (hg : -(M : Int) ≤ g ∧ g ≤ M) :
    ∃ k l, b.gainToIndex g = ((k : Nat) : Int) ∧ k < b.buckets.length ∧ b.buckets[k]? = some l ∧
      ((k : Int) - M = g) := by
  obtain ⟨k, hk⟩ := Int.eq_ofNat_of_zero_le (show 0 ≤ (M : Int) + g by omega)
  have hlt : k < b.buckets.length := by rw [h.len]; omega
  exact ⟨k, b.buckets[k], by rw [h.gainToIndex, hk], hlt, by simp [hlt], by omega⟩

theorem insert_ok {M : Nat} {b : Buckets} {R : Nat → Int → Prop} (h : BInv M b R) (id : Nat)
    {g : Int} (hg : -(M : Int) ≤ g ∧ g ≤ M) :
    ∃ b', b.insert id g = .ok b' ∧ BInv M b' (fun u g' => R u g' ∨ (u = id ∧ g' = g)) ∧
      (BMax M b R → BMax M b' (fun u g' => R u g' ∨ (u = id ∧ g' = g))) ∧
      (b.maxIndex = 2 * M + 1 → b'.maxIndex = 2 * M + 1) := by
  obtain ⟨k, l, hk, hlt, hl, hkg⟩ := h.pos hg
  unfold Buckets.insert
  simp only [vgetI_ok hk hl, ok_bind]
  have hmem : ∀ (i : Nat) (l' : List Nat) (u : Nat),
      (b.buckets.set k (setInsert l id))[i]? = some l' →
      (u ∈ l' ↔ (R u ((i : Int) - M) ∨ (u = id ∧ (i : Int) - M = g))) := by
    intro i l' u hl'
    rw [List.getElem?_set] at hl'
    by_cases hki : k = i
    · subst hki
      simp only [if_true, hlt] at hl'
      cases hl'
      rw [setInsert_spec, h.mem k l u hl]
      simp [hkg]
    · simp only [hki, if_false] at hl'
      rw [h.mem i l' u hl']
      have : ¬ ((i : Int) - M = g) := by omega
      simp [this]
  have hnd : ∀ l' ∈ b.buckets.set k (setInsert l id), l'.Nodup := by
    intro l' hl'
    rcases List.mem_or_eq_of_mem_set hl' with h' | h'
    · exact h.nd _ h'
    · subst h'
      exact setInsert_nodup _ (h.nd _ (List.mem_of_getElem? hl))
  have hrng : ∀ u g', (R u g' ∨ (u = id ∧ g' = g)) → -(M : Int) ≤ g' ∧ g' ≤ M := by
    rintro u g' (h' | ⟨_, rfl⟩)
    · exact h.rng u g' h'
    · exact hg
  by_cases he : l.isEmpty
  · simp only [he, if_true]
    rw [vsetI_ok hk hlt]
    refine ⟨_, rfl, ⟨by simpa using h.len, hnd, hmem, hrng, ?_, ?_, ?_⟩, ?_, ?_⟩
    · simp only; split
      · exact hg.1
      · exact h.min_lo
    · simp only; split
      · exact hg.2
      · exact h.min_hi
    · rintro u g' (h' | ⟨_, rfl⟩)
      · have := h.low u g' h'
        simp only; split <;> omega
      · simp only; split <;> omega
    · intro hm
      have hlo := hm.lo
      have hhi := hm.hi
      rw [h.gainToIndex]
      refine ⟨?_, ?_, ?_⟩
      · simp only; split <;> omega
      · simp only; split <;> omega
      · rintro u g' (h' | ⟨_, rfl⟩)
        · have := hm.high u g' h'
          simp only; split <;> omega
        · simp only; split <;> omega
    · intro hmx
      simp only
      rw [h.gainToIndex, if_neg (by omega)]
      exact hmx
  · simp only [he]
    rw [if_neg (by simp)]
    rw [vsetI_ok hk hlt]
    obtain ⟨y, hy⟩ : ∃ y, y ∈ l := by
      cases l with
      | nil => simp at he
      | cons y t => exact ⟨y, by simp⟩
    have hRy : R y g := by
      have := (h.mem k l y hl).1 hy
      rwa [hkg] at this
    refine ⟨_, rfl, ⟨by simpa using h.len, hnd, hmem, hrng, h.min_lo, h.min_hi, ?_⟩, ?_, ?_⟩
    · rintro u g' (h' | ⟨_, rfl⟩)
      · exact h.low u g' h'
      · exact h.low y _ hRy
    · intro hm
      refine ⟨hm.lo, hm.hi, ?_⟩
      rintro u g' (h' | ⟨_, rfl⟩)
      · exact hm.high u g' h'
      · exact hm.high y _ hRy
    · intro hmx; exact hmx

theorem remove_ok {M : Nat} {b : Buckets} {R : Nat → Int → Prop} (h : BInv M b R) (id : Nat)
    {g : Int} (hg : -(M : Int) ≤ g ∧ g ≤ M) :
    ∃ f b', b.remove id g = .ok (f, b') ∧ (f = true ↔ R id g) ∧
      BInv M b' (fun u g' => R u g' ∧ ¬ (u = id ∧ g' = g)) ∧
      (BMax M b R → BMax M b' (fun u g' => R u g' ∧ ¬ (u = id ∧ g' = g))) := by
  obtain ⟨k, l, hk, hlt, hl, hkg⟩ := h.pos hg
  unfold Buckets.remove
  simp only [vgetI_ok hk hl, ok_bind, vsetI_ok hk hlt]
  have hlnd := h.nd _ (List.mem_of_getElem? hl)
  refine ⟨_, _, rfl, ?_, ⟨by simpa using h.len, ?_, ?_, ?_, h.min_lo, h.min_hi, ?_⟩, ?_⟩
  · have := h.mem k l id hl
    rw [hkg] at this
    simp [this]
  · intro l' hl'
    rcases List.mem_or_eq_of_mem_set hl' with h' | h'
    · exact h.nd _ h'
    · subst h'
      exact hlnd.erase _
  · intro i l' u hl'
    simp only at hl'
    rw [List.getElem?_set] at hl'
    by_cases hki : k = i
    · subst hki
      simp only [if_true, hlt] at hl'
      cases hl'
      rw [hlnd.mem_erase_iff, h.mem k l u hl]
      simp [hkg, and_comm]
    · simp only [hki, if_false] at hl'
      rw [h.mem i l' u hl']
      have : ¬ ((i : Int) - M = g) := by omega
      simp [this]
  · intro u g' h'
    exact h.rng u g' h'.1
  · intro u g' h'
    exact h.low u g' h'.1
  · intro hm
    exact ⟨hm.lo, hm.hi, fun u g' h' => hm.high u g' h'.1⟩

/-- The scan for the highest non-empty bucket. -/
theorem descend_ok (l : List (List Nat)) (minIndex : Int) (hmin : 0 ≤ minIndex) :
    ∀ e, e ≤ l.length →
    ∃ r : Int, Buckets.descend l minIndex e = .ok r ∧ -1 ≤ r ∧ r < e ∧
      (∀ (k : Nat) s, r < (k : Int) → k < e → minIndex ≤ k → l[k]? = some s → s = []) ∧
      (minIndex ≤ r → ∃ s, l[r.toNat]? = some s ∧ s ≠ []) := by
  intro e
  induction e with
  | zero =>
    intro _
    refine ⟨-1, ?_, by omega, by omega, by intro k s _ hk; omega, by intro h; omega⟩
    unfold Buckets.descend
    rw [if_neg (by omega)]
  | succ e ih =>
    intro he
    have hlt : e < l.length := by omega
    unfold Buckets.descend
    by_cases hge : (e : Int) ≥ minIndex
    · rw [if_pos hge, vget_ok (a := l[e]) (by simp [hlt])]
      simp only [ok_bind]
      by_cases hemp : l[e].isEmpty
      · rw [if_pos hemp]
        obtain ⟨r, hr, h1, h2, h3, h4⟩ := ih (by omega)
        refine ⟨r, hr, h1, by omega, ?_, h4⟩
        intro k s hk hke hmk hs
        rcases Nat.lt_or_ge k e with h | h
        · exact h3 k s hk h hmk hs
        · have : k = e := by omega
          subst this
          simp only [hlt, List.getElem?_eq_getElem, Option.some.injEq] at hs
          rw [← hs]
          simpa using hemp
      · rw [if_neg hemp]
        refine ⟨e, rfl, by omega, by omega, ?_, ?_⟩
        · intro k s hk hke; omega
        · intro _
          refine ⟨l[e], by simp [hlt], ?_⟩
          intro h; apply hemp; simp [h]
    · rw [if_neg hge]
      refine ⟨e, rfl, by omega, by omega, ?_, ?_⟩
      · intro k s hk hke; omega
      · intro h; omega

/-- Outcome of `find_next_index`: the index of the highest gain present, or nothing when the
buckets are empty. -/
theorem findNextIndex_ok {M : Nat} {b : Buckets} {R : Nat → Int → Prop} (h : BInv M b R)
    (hm : BMax M b R) :
    ∃ o b', b.findNextIndex = .ok (o, b') ∧ b'.buckets = b.buckets ∧ BInv M b' R ∧ BMax M b' R ∧
      (match o with
       | none => ∀ u g, ¬ R u g
       | some i => ∃ s, b.buckets[i]? = some s ∧ s ≠ [] ∧
          (∀ u, u ∈ s ↔ R u ((i : Int) - M)) ∧ ∀ u g, R u g → g ≤ (i : Int) - M) := by
  have hlo := hm.lo
  have hhi := hm.hi
  unfold Buckets.findNextIndex
  by_cases h1 : b.maxIndex = -1
  · rw [if_pos h1]
    refine ⟨none, b, rfl, rfl, h, hm, ?_⟩
    intro u g hR
    have := hm.high u g hR
    have := h.rng u g hR
    omega
  · rw [if_neg h1, if_neg (by omega)]
    have hmi : b.gainToIndex b.minValue = M + b.minValue := h.gainToIndex _
    have hminlo := h.min_lo
    obtain ⟨r, hr, hr1, hr2, hr3, hr4⟩ := descend_ok b.buckets (b.gainToIndex b.minValue)
      (by omega) (b.maxIndex + 1).toNat (by rw [h.len]; omega)
    simp only [hr, ok_bind]
    have hnone : ∀ u g, R u g → g ≤ r - M := by
      intro u g hR
      by_contra hgt
      have hrg := h.rng u g hR
      have hhigh := hm.high u g hR
      have hlow := h.low u g hR
      obtain ⟨k, s, hk, hlt, hs, hkg⟩ := h.pos hrg
      have := hr3 k s (by omega) (by omega) (by omega) hs
      have hu := (h.mem k s u hs).2 (by rw [hkg]; exact hR)
      rw [this] at hu
      simp at hu
    have hinv : BInv M { b with maxIndex := r } R :=
      ⟨h.len, h.nd, h.mem, h.rng, h.min_lo, h.min_hi, h.low⟩
    have hmax : BMax M { b with maxIndex := r } R := by
      refine ⟨hr1, by simp only; omega, ?_⟩
      intro u g hR
      have := hnone u g hR
      simp only; omega
    by_cases hge : r ≥ b.gainToIndex b.minValue
    · rw [if_pos hge]
      obtain ⟨s, hs, hne⟩ := hr4 hge
      refine ⟨some r.toNat, _, rfl, rfl, hinv, hmax, s, hs, hne, ?_, ?_⟩
      · intro u
        exact h.mem _ _ _ hs
      · intro u g hR
        have := hnone u g hR
        omega
    · rw [if_neg hge]
      refine ⟨none, _, rfl, rfl, hinv, hmax, ?_⟩
      intro u g hR
      have := hnone u g hR
      have := h.low u g hR
      omega

theorem draw_mod_get {s : List Nat} (hne : s ≠ []) (x : Nat) : ∃ u, u ∈ s ∧ vget s (x % s.length) = .ok u := by
  have hpos : 0 < s.length := List.length_pos_iff.2 hne
  have hlt : x % s.length < s.length := Nat.mod_lt _ hpos
  exact ⟨s[x % s.length], List.getElem_mem hlt, vget_ok (by simp [hlt])⟩

/-- `next` returns an element of highest gain. -/
theorem bnext_ok {M : Nat} {b : Buckets} {R : Nat → Int → Prop} (h : BInv M b R)
    (hm : BMax M b R) (r : Rng) :
    ∃ o b' r', b.next r = .ok (o, b', r') ∧ BInv M b' R ∧ BMax M b' R ∧
      (match o with
       | none => ∀ u g, ¬ R u g
       | some u => ∃ g, R u g ∧ ∀ u' g', R u' g' → g' ≤ g) := by
  obtain ⟨o, b', hf, hbb, hi, hmx, ho⟩ := findNextIndex_ok h hm
  unfold Buckets.next
  rw [hf]
  simp only [ok_bind]
  cases o with
  | none => exact ⟨none, b', r, rfl, hi, hmx, ho⟩
  | some i =>
    obtain ⟨s, hs, hne, hmem, hhi⟩ := ho
    simp only
    rw [hbb, vget_ok hs]
    simp only [ok_bind]
    obtain ⟨u, hu, hget⟩ := draw_mod_get hne r.draw.1
    rw [hget]
    exact ⟨some u, b', _, rfl, hi, hmx, (i : Int) - M, (hmem u).1 hu, hhi⟩

/-- `gain_next` returns the highest gain. -/
theorem bgainNext_ok {M : Nat} {b : Buckets} {R : Nat → Int → Prop} (h : BInv M b R)
    (hm : BMax M b R) :
    ∃ o b', b.gainNext = .ok (o, b') ∧ BInv M b' R ∧ BMax M b' R ∧
      (match o with
       | none => ∀ u g, ¬ R u g
       | some g => (∃ u, R u g) ∧ ∀ u' g', R u' g' → g' ≤ g) := by
  obtain ⟨o, b', hf, hbb, hi, hmx, ho⟩ := findNextIndex_ok h hm
  unfold Buckets.gainNext
  rw [hf]
  simp only [ok_bind]
  cases o with
  | none => exact ⟨none, b', rfl, hi, hmx, ho⟩
  | some i =>
    obtain ⟨s, hs, hne, hmem, hhi⟩ := ho
    obtain ⟨y, hy⟩ := List.exists_mem_of_ne_nil s hne
    refine ⟨_, b', rfl, hi, hmx, ?_, ?_⟩
    · rw [hi.indexToGain]
      exact ⟨y, (hmem y).1 hy⟩
    · rw [hi.indexToGain]
      exact hhi

end PMondriaan

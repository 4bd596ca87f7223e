import Verif.Model.InitPart
import Verif.Proofs.LabelProp

/-
Proofs about sampling.
-/

namespace PMondriaan

open Spec

theorem draw_le {rng : Rng} {M : Nat} (h : ∀ i, rng i ≤ M) :
    rng.draw.1 ≤ M ∧ ∀ i, rng.draw.2 i ≤ M := by
  unfold Rng.draw
  exact ⟨h _, fun i => h _⟩

theorem sampleLoop_ok {acc : Nat → Nat → Nat → Bool} :
    ∀ (size left cur : Nat) (rng : Rng), left ≤ size →
    (∀ i s, 0 < s → acc (rng i) s s = true) →
    ∃ l r, sampleLoop acc size left cur rng = .ok (l, r) ∧ l.length = left ∧
      l.Pairwise (· < ·) ∧ ∀ x ∈ l, cur ≤ x ∧ x < cur + size := by
  intro size
  induction size with
  | zero =>
    intro left cur rng hle _
    have : left = 0 := by omega
    subst this
    refine ⟨[], rng, ?_, rfl, by simp, by simp⟩
    unfold sampleLoop
    rw [if_pos rfl]
  | succ n ih =>
    intro left cur rng hle hr
    have hd : ∀ s, 0 < s → acc rng.draw.1 s s = true := hr _
    have hr' : ∀ i s, 0 < s → acc (rng.draw.2 i) s s = true := fun i => hr _
    unfold sampleLoop
    by_cases h0 : left = 0
    · rw [if_pos h0]
      exact ⟨[], rng, rfl, by simp [h0], by simp, by simp⟩
    · rw [if_neg h0]
      simp only
      by_cases ha : acc rng.draw.1 left (n + 1) = true
      · rw [if_pos ha]
        obtain ⟨l, r, h1, h2, h3, h4⟩ := ih (left - 1) (cur + 1) rng.draw.2 (by omega) hr'
        refine ⟨cur :: l, r, by rw [h1]; rfl, by simp [h2]; omega, ?_, ?_⟩
        · rw [List.pairwise_cons]
          exact ⟨fun x hx => by have := h4 x hx; omega, h3⟩
        · intro x hx
          rcases List.mem_cons.1 hx with rfl | hx
          · omega
          · have := h4 x hx; omega
      · rw [if_neg ha]
        have hlt : left ≤ n := by
          by_contra hgt
          have : left = n + 1 := by omega
          rw [this] at ha
          exact ha (hd _ (by omega))
        obtain ⟨l, r, h1, h2, h3, h4⟩ := ih left (cur + 1) rng.draw.2 hlt hr'
        exact ⟨l, r, h1, h2, h3, fun x hx => by have := h4 x hx; omega⟩

/-! ### sample_lp -/

theorem countLabels_ok {k : Nat} {labels : List Nat} (h : ∀ x ∈ labels, x < k) :
    countLabels k labels = .ok ((List.range k).map (fun a => labels.count a)) := by
  unfold countLabels
  obtain ⟨s, h1, h2⟩ := foldlM_inv (f := fun (c : List Nat) (l : Nat) => do
      let x ← vget c l
      pure (c.set l (x + 1)))
    (fun pre _ (s : List Nat) => s = (List.range k).map (fun a => pre.count a)) labels
    (List.replicate k 0) (by simp) (by
      rintro pre l post s rfl hl
      have hlk : l < k := h l (by rw [hl]; simp)
      refine ⟨_, by rw [vget_ok (a := pre.count l) (by simp [hlk])]; rfl, ?_⟩
      apply List.ext_getElem?
      intro i
      rw [List.getElem?_set]
      by_cases hik : i < k
      · by_cases hli : l = i
        · subst hli; simp [hik]
        · simp [hli, hik]
      · simp [hik]; intro hli; omega)
  rw [h1, h2]

/-- The label of a position. -/
def labelAt (labels : List Nat) (x : Nat) : Nat := labels.getD x 0

/-- Invariant of the loop of `sample_lp`. -/
structure SLInv (labels : List Nat) (k cur : Nat) (forced : Prop) (s : SLState) : Prop where
  sorted : s.samples.Pairwise (· < ·)
  below : ∀ x ∈ s.samples, x < cur
  distinct : (s.samples.map (labelAt labels)).Nodup
  foundLen : s.found.length = k
  found : ∀ l, s.found[l]? = some true ↔ l ∈ s.samples.map (labelAt labels)
  nr : s.nr = s.samples.length
  count : s.count = tab k (fun a => ((labels.drop cur).count a : Int))
  pending : forced → ∀ l, l ∈ labels.take cur → l ∈ s.samples.map (labelAt labels) ∨
    l ∈ labels.drop cur

theorem sampleLpStep_ok {acc : Nat → Int → Bool} {labels : List Nat} {k cur : Nat} {M : Nat}
    (hk : ∀ x ∈ labels, x < k) (hcur : cur < labels.length) {forced : Prop}
    (hf : forced → ∀ d, d ≤ M → acc d 1 = true) {s : SLState} (hI : SLInv labels k cur forced s)
    (hr : forced → ∀ i, s.rng i ≤ M) :
    ∃ s', sampleLpStep acc labels s cur = .ok s' ∧ SLInv labels k (cur + 1) forced s' ∧
      (forced → ∀ i, s'.rng i ≤ M) := by
  have hgl : labels[cur]? = some labels[cur] := by simp [hcur]
  set l := labels[cur] with hl
  have hlk : l < k := hk l (List.getElem_mem hcur)
  have hat : labelAt labels cur = l := by unfold labelAt; simp [hl, hcur]
  have hdrop : labels.drop cur = l :: labels.drop (cur + 1) := List.drop_eq_getElem_cons hcur
  have htake : labels.take (cur + 1) = labels.take cur ++ [l] := by
    rw [List.take_add_one, hgl]; rfl
  have hgc : s.count[l]? = some ((labels.drop cur).count l : Int) := by
    rw [hI.count]; exact tab_get hlk
  have hfl : l < s.found.length := by rw [hI.foundLen]; exact hlk
  have hgf : s.found[l]? = some s.found[l] := by simp [hfl]
  have hcount : s.count.set l (((labels.drop cur).count l : Int) - 1) =
      tab k (fun a => ((labels.drop (cur + 1)).count a : Int)) := by
    rw [hI.count]
    apply tab_set
    · rw [hdrop]; simp
    · intro a ha; rw [hdrop]; simp [Ne.symm ha]
  have hr' : forced → ∀ i, s.rng.draw.2 i ≤ M := fun h => (draw_le (hr h)).2
  have hd : forced → s.rng.draw.1 ≤ M := fun h => (draw_le (hr h)).1
  cases hfv : s.found[l] with
  | true =>
    rw [hfv] at hgf
    have hin := (hI.found l).1 hgf
    refine ⟨{ s with count := tab k (fun a => ((labels.drop (cur + 1)).count a : Int)) }, ?_,
      ⟨hI.sorted, fun x hx => by have := hI.below x hx; omega, hI.distinct, hI.foundLen, hI.found,
        hI.nr, rfl, ?_⟩, hr⟩
    · unfold sampleLpStep
      simp only [vget_ok hgl, ok_bind, vget_ok hgf, vget_ok hgc, if_true, hcount, pure_eq_ok]
    · intro hF a ha
      rw [htake, List.mem_append] at ha
      by_cases hal : a = l
      · left; rw [hal]; exact hin
      · rcases hI.pending hF a (ha.resolve_right (by simpa using hal)) with h | h
        · exact Or.inl h
        · right; rw [hdrop] at h; simpa [hal] using h
  | false =>
    rw [hfv] at hgf
    have hnin : l ∉ s.samples.map (labelAt labels) := fun h => by
      have := (hI.found l).2 h
      rw [hgf] at this; simp at this
    by_cases ha : acc s.rng.draw.1 ((labels.drop cur).count l : Int) = true
    · refine ⟨{ samples := s.samples ++ [cur], found := s.found.set l true, nr := s.nr + 1,
                count := tab k (fun a => ((labels.drop (cur + 1)).count a : Int)),
                rng := s.rng.draw.2 }, ?_, ⟨?_, ?_, ?_, ?_, ?_, ?_, rfl, ?_⟩, hr'⟩
      · unfold sampleLpStep
        simp only [vget_ok hgl, ok_bind, vget_ok hgf, vget_ok hgc, Bool.false_eq_true, if_false,
          if_pos ha, hcount, pure_eq_ok]
      · rw [List.pairwise_append]
        refine ⟨hI.sorted, by simp, ?_⟩
        intro a ha' b hb
        simp only [List.mem_singleton] at hb
        rw [hb]; exact hI.below a ha'
      · intro x hx
        rcases List.mem_append.1 hx with h | h
        · have := hI.below x h; omega
        · simp only [List.mem_singleton] at h; omega
      · simp only [List.map_append, List.map_cons, List.map_nil, hat]
        rw [List.nodup_append]
        refine ⟨hI.distinct, by simp, ?_⟩
        rintro a ha' b hb rfl
        simp only [List.mem_singleton] at hb
        rw [hb] at ha'
        exact hnin ha'
      · simp [hI.foundLen]
      · intro a
        simp only [List.map_append, List.map_cons, List.map_nil, hat, List.mem_append,
          List.mem_singleton, ← hI.found a, List.getElem?_set]
        by_cases hal : l = a
        · subst hal; simp [hfl]
        · simp [hal, Ne.symm hal]
      · simp [hI.nr]
      · intro hF a ha'
        simp only [List.map_append, List.map_cons, List.map_nil, hat, List.mem_append,
          List.mem_singleton]
        rw [htake, List.mem_append] at ha'
        by_cases hal : a = l
        · exact Or.inl (Or.inr hal)
        · rcases hI.pending hF a (ha'.resolve_right (by simpa using hal)) with h | h
          · exact Or.inl (Or.inl h)
          · right; rw [hdrop] at h; simpa [hal] using h
    · refine ⟨{ s with count := tab k (fun a => ((labels.drop (cur + 1)).count a : Int)),
                       rng := s.rng.draw.2 }, ?_,
        ⟨hI.sorted, fun x hx => by have := hI.below x hx; omega, hI.distinct, hI.foundLen, hI.found,
          hI.nr, rfl, ?_⟩, hr'⟩
      · unfold sampleLpStep
        simp only [vget_ok hgl, ok_bind, vget_ok hgf, vget_ok hgc, Bool.false_eq_true, if_false,
          if_neg ha, hcount, pure_eq_ok]
      · intro hF a ha'
        rw [htake, List.mem_append] at ha'
        by_cases hal : a = l
        · right
          subst hal
          by_contra hno
          apply ha
          rw [hdrop, List.count_cons_self, List.count_eq_zero_of_not_mem hno]
          exact hf hF _ (hd hF)
        · rcases hI.pending hF a (ha'.resolve_right (by simpa using hal)) with h | h
          · exact Or.inl h
          · right; rw [hdrop] at h; simpa [hal] using h

theorem sampleLpLoop_ok {acc : Nat → Int → Bool} {labels : List Nat} {k : Nat} {M : Nat}
    (hk : ∀ x ∈ labels, x < k) {forced : Prop} (hf : forced → ∀ d, d ≤ M → acc d 1 = true)
    (target : Int) : ∀ (n cur : Nat) (s : SLState), cur + n = labels.length →
    SLInv labels k cur forced s → (forced → ∀ i, s.rng i ≤ M) → (s.nr : Int) ≤ max target 0 →
    ∃ s' cur', sampleLpLoop acc labels target n cur s = .ok s' ∧ cur' ≤ labels.length ∧
      SLInv labels k cur' forced s' ∧ (s'.nr : Int) ≤ max target 0 ∧
      (cur' = labels.length ∨ target ≤ s'.nr) := by
  intro n
  induction n with
  | zero =>
    intro cur s hc hI _ ht
    exact ⟨s, cur, rfl, by omega, hI, ht, Or.inl (by omega)⟩
  | succ n ih =>
    intro cur s hc hI hr ht
    unfold sampleLpLoop
    by_cases h : (s.nr : Int) < target
    · rw [if_pos h]
      obtain ⟨s1, h1, h2, h3⟩ := sampleLpStep_ok (acc := acc) (M := M) hk
        (show cur < labels.length by omega) hf hI hr
      have hnr : (s1.nr : Int) ≤ max target 0 := by
        have : s1.nr ≤ s.nr + 1 := by
          unfold sampleLpStep at h1
          simp only [bind_eq_ok] at h1
          obtain ⟨_, _, _, _, _, _, h1⟩ := h1
          split at h1
          · cases h1; simp
          · split at h1
            · cases h1; simp
            · cases h1; simp
        omega
      obtain ⟨s2, c2, g⟩ := ih (cur + 1) s1 (by omega) h2 h3 hnr
      exact ⟨s2, c2, by rw [h1, ok_bind]; exact g.1, g.2⟩
    · rw [if_neg h]
      exact ⟨s, cur, rfl, by omega, hI, ht, Or.inr (by omega)⟩

end PMondriaan

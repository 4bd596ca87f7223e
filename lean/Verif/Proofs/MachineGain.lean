import Verif.Model.MachineKLFM
import Verif.Proofs.Machine
import Verif.Proofs.Pass

/-
The gain structure in 64-bit arithmetic: as long as the bucket arrays are not too long, every operation that succeeds in
the rest of the model succeeds here with the same result.
-/

namespace PMondriaan

open Spec

/-- The bucket array and the smallest gain in it fit well. -/
def SmallB (b : Buckets) : Prop := b.buckets.length < 2 ^ 62 ∧ -2 ^ 62 ≤ b.minValue ∧ b.minValue ≤ 2 ^ 62

/-- Both bucket arrays fit. -/
def SmallG (s : GainStructure) : Prop := SmallB s.b0 ∧ SmallB s.b1

theorem vgetI_range {α : Type} {l : List α} {i : Int} {a : α} (h : vgetI l i = .ok a) : 0 ≤ i ∧ i < l.length := by
  unfold vgetI at h
  split at h
  · cases h
  · unfold vget at h
    split at h
    · rename_i h1
      have := (List.getElem?_eq_some_iff.1 h1).1
      omega
    · cases h

theorem vsetI_length {α : Type} {l r : List α} {i : Int} {a : α} (h : vsetI l i a = .ok r) : r.length = l.length := by
  unfold vsetI at h
  split at h
  · cases h
  · unfold vset at h
    split at h
    · cases h; rw [List.length_set]
    · cases h

theorem longGain_ok {x : Int} (h1 : -2 ^ 62 ≤ x) (h2 : x ≤ 2 ^ 62) : longGain x = .ok x := by
  unfold longGain
  rw [if_pos ⟨by omega, by omega⟩]

theorem index64 {b : Buckets} (hb : b.buckets.length < 2 ^ 62) {g : Int} (h0 : -2 ^ 62 ≤ g) (h1 : g ≤ 2 ^ 62) :
    b.gainToIndex64 g = b.gainToIndex g := by
  unfold Buckets.gainToIndex64 Buckets.gainToIndex
  exact wrap64_id (by omega) (by omega)

theorem gain64 {b : Buckets} (hb : b.buckets.length < 2 ^ 62) {i : Int} (h0 : 0 ≤ i) (h1 : i ≤ 2 ^ 62) :
    b.indexToGain64 i = b.indexToGain i := by
  unfold Buckets.indexToGain64 Buckets.indexToGain
  exact wrap64_id (by omega) (by omega)

theorem gain_range {b : Buckets} (hb : b.buckets.length < 2 ^ 62) {g : Int} {s : List Nat}
    (h : vgetI b.buckets (b.gainToIndex g) = .ok s) : -2 ^ 62 ≤ g ∧ g ≤ 2 ^ 62 := by
  have := vgetI_range h
  unfold Buckets.gainToIndex at this
  omega

theorem insert_sim {b b' : Buckets} (hb : SmallB b) {id : Nat} {g : Int} (h : b.insert id g = .ok b') :
    b.insert64 id g = .ok b' ∧ SmallB b' ∧ -2 ^ 62 ≤ g ∧ g ≤ 2 ^ 62 := by
  unfold Buckets.insert at h
  simp only [bind_eq_ok] at h
  obtain ⟨s, hs, bs, hbs, h⟩ := h
  cases h
  have hg := gain_range hb.1 hs
  have hi := index64 hb.1 hg.1 hg.2
  refine ⟨?_, ?_, hg⟩
  · unfold Buckets.insert64
    simp only
    rw [hi, hs]
    simp only [ok_bind]
    rw [hbs]
    rfl
  · have hl := vsetI_length hbs
    obtain ⟨h1, h2, h3⟩ := hb
    unfold SmallB
    dsimp only
    split at hl
    · rename_i he
      rw [if_pos he]
      dsimp only at hl ⊢
      refine ⟨by omega, ?_⟩
      split <;> omega
    · rename_i he
      rw [if_neg he]
      exact ⟨by omega, h2, h3⟩

theorem remove_sim {b : Buckets} (hb : SmallB b) {id : Nat} {g : Int} {r : Bool × Buckets}
    (h : b.remove id g = .ok r) : b.remove64 id g = .ok r ∧ SmallB r.2 := by
  unfold Buckets.remove at h
  simp only [bind_eq_ok] at h
  obtain ⟨s, hs, bs, hbs, h⟩ := h
  cases h
  have hg := gain_range hb.1 hs
  have hi := index64 hb.1 hg.1 hg.2
  constructor
  · unfold Buckets.remove64
    simp only
    rw [hi, hs]
    simp only [ok_bind]
    rw [hbs]
    rfl
  · have hl := vsetI_length hbs
    exact ⟨by show bs.length < _; rw [hl]; exact hb.1, hb.2⟩

theorem findNextIndex_sim {b : Buckets} (hb : SmallB b) : b.findNextIndex64 = b.findNextIndex := by
  unfold Buckets.findNextIndex64 Buckets.findNextIndex
  simp only [index64 hb.1 hb.2.1 hb.2.2]

theorem descend_range {l : List (List Nat)} {m : Int} {k : Nat} {i : Int} (h : Buckets.descend l m k = .ok i) :
    i < m ∨ (0 ≤ i ∧ i < l.length) := by
  induction k with
  | zero =>
    unfold Buckets.descend at h
    split at h
    · cases h
    · cases h; omega
  | succ k ih =>
    unfold Buckets.descend at h
    split at h
    · rw [bind_eq_ok] at h
      obtain ⟨s, hs, h⟩ := h
      split at h
      · exact ih h
      · cases h
        unfold vget at hs
        split at hs
        · rename_i h1
          have := (List.getElem?_eq_some_iff.1 h1).1
          omega
        · cases hs
    · cases h
      omega

theorem findNextIndex_small {b : Buckets} (hb : SmallB b) {r : Option Nat × Buckets} (h : b.findNextIndex = .ok r) :
    SmallB r.2 ∧ ∀ i, r.1 = some i → i < r.2.buckets.length := by
  unfold Buckets.findNextIndex at h
  split at h
  · cases h
    exact ⟨hb, fun i hi => by cases hi⟩
  · split at h
    · cases h
    · simp only [bind_eq_ok] at h
      obtain ⟨i, hi, h⟩ := h
      have hr := descend_range hi
      split at h
      · rename_i hm
        cases h
        refine ⟨hb, fun j hj => ?_⟩
        obtain rfl := Option.some.inj hj
        show i.toNat < b.buckets.length
        omega
      · cases h
        exact ⟨hb, fun j hj => by cases hj⟩

theorem bnext_sim {b : Buckets} (hb : SmallB b) {r : Rng} {x : Option Nat × Buckets × Rng} (h : b.next r = .ok x) :
    b.next64 r = .ok x ∧ SmallB x.2.1 := by
  unfold Buckets.next at h
  unfold Buckets.next64
  rw [findNextIndex_sim hb]
  refine ⟨h, ?_⟩
  simp only [bind_eq_ok] at h
  obtain ⟨⟨i, b1⟩, h1, h⟩ := h
  have h2 := (findNextIndex_small hb h1).1
  cases i with
  | none => cases h; exact h2
  | some i =>
    simp only [bind_eq_ok] at h
    obtain ⟨s, -, u, -, h⟩ := h
    cases h
    exact h2

theorem bgainNext_sim {b : Buckets} (hb : SmallB b) {x : Option Int × Buckets} (h : b.gainNext = .ok x) :
    b.gainNext64 = .ok x ∧ SmallB x.2 := by
  unfold Buckets.gainNext at h
  unfold Buckets.gainNext64
  rw [findNextIndex_sim hb]
  rw [bind_eq_ok] at h
  obtain ⟨⟨i, b1⟩, h1, h⟩ := h
  have h2 := findNextIndex_small hb h1
  rw [h1]
  simp only [ok_bind]
  cases i with
  | none => cases h; exact ⟨rfl, h2.1⟩
  | some i =>
    cases h
    have h3 := h2.2 i rfl
    have h4 := h2.1.1
    dsimp only at h3 h4 ⊢
    rw [gain64 h4 (by omega) (by omega)]
    exact ⟨rfl, h2.1⟩

theorem bucket_small {s : GainStructure} (hs : SmallG s) {p : Int} {b : Buckets} (h : s.bucket p = .ok b) : SmallB b := by
  unfold GainStructure.bucket at h
  split at h
  · cases h; exact hs.1
  · split at h
    · cases h; exact hs.2
    · cases h

theorem setBucket_small {s s' : GainStructure} (hs : SmallG s) {p : Int} {b : Buckets} (hb : SmallB b)
    (h : s.setBucket p b = .ok s') : SmallG s' := by
  unfold GainStructure.setBucket at h
  split at h
  · cases h; exact ⟨hb, hs.2⟩
  · split at h
    · cases h; exact ⟨hs.1, hb⟩
    · cases h

theorem next_sim {s : GainStructure} (hs : SmallG s) {p : Int} {r : Rng} {x : Option Nat × GainStructure × Rng}
    (h : s.next p r = .ok x) : s.next64 p r = .ok x ∧ SmallG x.2.1 := by
  unfold GainStructure.next at h
  simp only [bind_eq_ok] at h
  obtain ⟨b, hb, ⟨u, b', r'⟩, h1, s', h2, h⟩ := h
  cases h
  have h3 := bnext_sim (bucket_small hs hb) h1
  refine ⟨?_, setBucket_small hs h3.2 h2⟩
  unfold GainStructure.next64
  rw [hb]; simp only [ok_bind]
  rw [h3.1]; simp only [ok_bind]
  rw [h2]; rfl

theorem gainNext_sim {s : GainStructure} (hs : SmallG s) {p : Int} {x : Option Int × GainStructure}
    (h : s.gainNext p = .ok x) : s.gainNext64 p = .ok x ∧ SmallG x.2 := by
  unfold GainStructure.gainNext at h
  simp only [bind_eq_ok] at h
  obtain ⟨b, hb, ⟨u, b'⟩, h1, s', h2, h⟩ := h
  cases h
  have h3 := bgainNext_sim (bucket_small hs hb) h1
  refine ⟨?_, setBucket_small hs h3.2 h2⟩
  unfold GainStructure.gainNext64
  rw [hb]; simp only [ok_bind]
  rw [h3.1]; simp only [ok_bind]
  rw [h2]; rfl

theorem bucketDone_sim {s : GainStructure} (hs : SmallG s) {p : Int} {x : Bool × GainStructure}
    (h : s.bucketDone p = .ok x) : s.bucketDone64 p = .ok x ∧ SmallG x.2 := by
  unfold GainStructure.bucketDone at h
  simp only [bind_eq_ok] at h
  obtain ⟨b, hb, ⟨u, b'⟩, h1, s', h2, h⟩ := h
  cases h
  have h3 := findNextIndex_small (bucket_small hs hb) h1
  refine ⟨?_, setBucket_small hs h3.1 h2⟩
  unfold GainStructure.bucketDone64
  rw [hb]; simp only [ok_bind]
  rw [findNextIndex_sim (bucket_small hs hb), h1]; simp only [ok_bind]
  rw [h2]; rfl

theorem done_sim {s : GainStructure} (hs : SmallG s) {x : Bool × GainStructure}
    (h : s.done = .ok x) : s.done64 = .ok x ∧ SmallG x.2 := by
  unfold GainStructure.done at h
  unfold GainStructure.done64
  rw [findNextIndex_sim hs.1]
  rw [bind_eq_ok] at h
  obtain ⟨⟨i, b0⟩, h1, h⟩ := h
  have h2 := (findNextIndex_small hs.1 h1).1
  rw [h1]
  simp only [ok_bind]
  cases i with
  | some i => cases h; exact ⟨rfl, h2, hs.2⟩
  | none =>
    rw [bind_eq_ok] at h
    obtain ⟨⟨j, b1⟩, h3, h⟩ := h
    cases h
    dsimp only at h3 ⊢
    rw [findNextIndex_sim hs.2, h3]
    exact ⟨rfl, h2, (findNextIndex_small hs.2 h3).1⟩

theorem addGain_sim {s s' : GainStructure} (hs : SmallG s) {u : Nat} {d : Int} (h : s.addGain u d = .ok s') :
    s.addGain64 u d = .ok s' ∧ SmallG s' := by
  unfold GainStructure.addGain at h
  unfold GainStructure.addGain64
  rw [bind_eq_ok] at h
  obtain ⟨i, hi, h⟩ := h
  rw [hi]; simp only [ok_bind]
  rw [bind_eq_ok] at h
  obtain ⟨old, ho, h⟩ := h
  rw [ho]; simp only [ok_bind]
  cases old with
  | none => cases h; exact ⟨rfl, hs⟩
  | some g =>
    simp only [bind_eq_ok] at h
    obtain ⟨v, hv, b, hb, ⟨f, b1⟩, h1, b2, h2, s1, h3, gs, h4, h⟩ := h
    cases h
    have hr := remove_sim (bucket_small hs hb) h1
    have hi := insert_sim hr.2 h2
    dsimp only
    rw [hv]; simp only [ok_bind]
    rw [hb]; simp only [ok_bind]
    rw [hr.1]; simp only [ok_bind]
    rw [longGain_ok hi.2.2.1 hi.2.2.2]; simp only [ok_bind]
    rw [hi.1]; simp only [ok_bind]
    rw [h3]; simp only [ok_bind]
    rw [h4]
    have h5 := setBucket_small hs hi.2.1 h3
    exact ⟨rfl, h5.1, h5.2⟩

theorem addGainList_sim {l : List Nat} {d : Int} {s s' : GainStructure} (hs : SmallG s)
    (h : l.foldlM (fun s u => s.addGain u d) s = .ok s') :
    l.foldlM (fun s u => s.addGain64 u d) s = .ok s' ∧ SmallG s' := by
  induction l generalizing s with
  | nil => cases h; exact ⟨rfl, hs⟩
  | cons a l ih =>
    rw [List.foldlM_cons, bind_eq_ok] at h
    obtain ⟨s1, h1, h2⟩ := h
    have h3 := addGain_sim hs h1
    rw [List.foldlM_cons, h3.1]
    exact ih h3.2 h2

theorem addGainAll_sim {s s' : GainStructure} (hs : SmallG s) {e : Nat} {d : Int} (h : s.addGainAll e d = .ok s') :
    s.addGainAll64 e d = .ok s' ∧ SmallG s' := by
  unfold GainStructure.addGainAll at h
  rw [bind_eq_ok] at h
  obtain ⟨n, hn, h⟩ := h
  unfold GainStructure.addGainAll64
  rw [hn]
  exact addGainList_sim hs h

theorem addGainEnd_sim {s s' : GainStructure} (hs : SmallG s) {e : Nat} {p d : Int} (h : s.addGainEnd e p d = .ok s') :
    s.addGainEnd64 e p d = .ok s' ∧ SmallG s' := by
  unfold GainStructure.addGainEnd at h
  simp only [bind_eq_ok] at h
  obtain ⟨n, hn, u, hu, h⟩ := h
  unfold GainStructure.addGainEnd64
  rw [hn]; simp only [ok_bind]
  rw [hu]
  exact addGain_sim hs h

theorem moveAndLock_sim {s s' : GainStructure} (hs : SmallG s) {v : Nat} {Cs : List Cnt}
    (h : s.moveAndLock v Cs = .ok s') : s.moveAndLock64 v Cs = .ok s' ∧ SmallG s' := by
  unfold GainStructure.moveAndLock at h
  rw [bind_eq_ok] at h
  obtain ⟨x, hx, h⟩ := h
  rw [bind_eq_ok] at h
  obtain ⟨H1, hH, h⟩ := h
  simp only [bind_eq_ok] at h
  obtain ⟨i, hi, g, hg, h⟩ := h
  unfold GainStructure.moveAndLock64
  rw [hx]; simp only [ok_bind]
  rw [hH]; simp only [ok_bind]
  rw [hi]; simp only [ok_bind]
  rw [hg]; simp only [ok_bind]
  cases g with
  | none => cases h
  | some g =>
    simp only [bind_eq_ok] at h
    obtain ⟨b, hb, ⟨f, b'⟩, h1, s1, h2, gs, h3, h⟩ := h
    cases h
    have hs' : SmallG { s with H := H1 } := hs
    have hr := remove_sim (bucket_small hs' hb) h1
    dsimp only
    rw [hb]; simp only [ok_bind]
    rw [hr.1]; simp only [ok_bind]
    rw [h2]; simp only [ok_bind]
    rw [h3]
    have h5 := setBucket_small hs' hr.2 h2
    exact ⟨rfl, h5.1, h5.2⟩

theorem gremove_sim {s s' : GainStructure} (hs : SmallG s) {v : Nat} (h : s.remove v = .ok s') :
    s.remove64 v = .ok s' ∧ SmallG s' := by
  unfold GainStructure.remove at h
  simp only [bind_eq_ok] at h
  obtain ⟨i, hi, x, hx, g, hg, h⟩ := h
  unfold GainStructure.remove64
  rw [hi]; simp only [ok_bind]
  rw [hx]; simp only [ok_bind]
  rw [hg]; simp only [ok_bind]
  cases g with
  | none => cases h
  | some g =>
    simp only [bind_eq_ok] at h
    obtain ⟨b, hb, ⟨f, b'⟩, h1, s1, h2, gs, h3, h⟩ := h
    cases h
    have hr := remove_sim (bucket_small hs hb) h1
    dsimp only
    rw [hb]; simp only [ok_bind]
    rw [hr.1]; simp only [ok_bind]
    rw [h2]; simp only [ok_bind]
    rw [h3]
    have h5 := setBucket_small hs hr.2 h2
    exact ⟨rfl, h5.1, h5.2⟩

theorem runIf_sim {c : Prop} [Decidable c] {s s' : GainStructure} {a a' : Res GainStructure} (hs : SmallG s)
    (h : runIf c a s = .ok s') (ha : ∀ s', a = .ok s' → a' = .ok s' ∧ SmallG s') :
    runIf c a' s = .ok s' ∧ SmallG s' := by
  unfold runIf at h ⊢
  split at h
  · rename_i hc
    rw [if_pos hc]
    exact ha _ h
  · rename_i hc
    rw [if_neg hc]
    cases h
    exact ⟨rfl, hs⟩

/-- The costs are not negative and fit. -/
def CostsFit (H : Hypergraph) : Prop := ∀ e n, H.netOf e = .ok n → 0 ≤ n.cost ∧ n.cost < 2 ^ 62

theorem moveNet_sim {p q : Int} {s s' : GainStructure} (hs : SmallG s) (hf : CostsFit s.H) {e : Nat}
    (h : GainStructure.moveNet p q s e = .ok s') :
    GainStructure.moveNet64 p q s e = .ok s' ∧ SmallG s' ∧ s'.H = s.H := by
  unfold GainStructure.moveNet at h
  simp only [bind_eq_ok] at h
  obtain ⟨j, hj, n, hn, t, ht, s1, h1, s2, h2, C1, hC1, C2, hC2, f, hff, s3, h3, h4⟩ := h
  obtain ⟨hc0, hc1⟩ := hf e n hn
  have hneg : long (-1 * n.cost) = .ok (-1 * n.cost) := long_ok (by omega) (by omega)
  have e1 := runIf_C h1 (fun _ => addGainAll_C)
  have e2 := runIf_C h2 (fun _ => addGainEnd_C)
  have e3 := runIf_C h3 (fun _ => addGainAll_C)
  have e4 := runIf_C h4 (fun _ => addGainEnd_C)
  have k1 := runIf_sim hs h1 (fun _ => addGainAll_sim hs)
  have k2 := runIf_sim k1.2 h2 (fun _ => addGainEnd_sim k1.2)
  have hs2 : SmallG { s2 with C := C2 } := k2.2
  have k3 := runIf_sim hs2 h3 (fun _ => addGainAll_sim hs2)
  have k4 := runIf_sim k3.2 h4 (fun _ => addGainEnd_sim k3.2)
  refine ⟨?_, k4.2, ?_⟩
  · unfold GainStructure.moveNet64
    rw [hj]; simp only [ok_bind]
    rw [hn]; simp only [ok_bind]
    rw [ht]; simp only [ok_bind]
    rw [k1.1]; simp only [ok_bind]
    rw [hneg]; simp only [ok_bind]
    rw [k2.1]; simp only [ok_bind]
    rw [hC1]; simp only [ok_bind]
    rw [hC2]; simp only [ok_bind]
    rw [hff]; simp only [ok_bind]
    rw [k3.1]; simp only [ok_bind]
    exact k4.1
  · rw [e4.2, e3.2]
    show s2.H = s.H
    rw [e2.2, e1.2]

theorem moveNetLoop_sim {p q : Int} {l : List Nat} {s s' : GainStructure} (hs : SmallG s) (hf : CostsFit s.H)
    (h : l.foldlM (GainStructure.moveNet p q) s = .ok s') :
    l.foldlM (GainStructure.moveNet64 p q) s = .ok s' ∧ SmallG s' := by
  induction l generalizing s with
  | nil => cases h; exact ⟨rfl, hs⟩
  | cons a l ih =>
    rw [List.foldlM_cons, bind_eq_ok] at h
    obtain ⟨s1, h1, h2⟩ := h
    obtain ⟨h3, h4, h5⟩ := moveNet_sim hs hf h1
    rw [List.foldlM_cons, h3]
    exact ih h4 (by rw [h5]; exact hf) h2

theorem move_sim {s s' : GainStructure} (hs : SmallG s) {v : Nat}
    (hf : ∀ s1, s.moveAndLock v s.C = .ok s1 → CostsFit s1.H) (h : s.move v = .ok s') :
    s.move64 v = .ok s' ∧ SmallG s' := by
  unfold GainStructure.move at h
  simp only [bind_eq_ok] at h
  obtain ⟨x, hx, s1, h1, h⟩ := h
  have k1 := moveAndLock_sim hs h1
  unfold GainStructure.move64
  rw [hx]; simp only [ok_bind]
  rw [k1.1]; simp only [ok_bind]
  exact moveNetLoop_sim k1.2 (hf _ h1) h

theorem next_H {s : GainStructure} {p : Int} {r : Rng} {x : Option Nat × GainStructure × Rng}
    (h : s.next p r = .ok x) : x.2.1.H = s.H := by
  unfold GainStructure.next at h
  simp only [bind_eq_ok] at h
  obtain ⟨b, -, ⟨u, b', r'⟩, -, s', h2, h⟩ := h
  cases h
  exact (setBucket_C h2).2

theorem gainNext_H {s : GainStructure} {p : Int} {x : Option Int × GainStructure}
    (h : s.gainNext p = .ok x) : x.2.H = s.H := by
  unfold GainStructure.gainNext at h
  simp only [bind_eq_ok] at h
  obtain ⟨b, -, ⟨u, b'⟩, -, s', h2, h⟩ := h
  cases h
  exact (setBucket_C h2).2

theorem runGain_sim {c : Prop} [Decidable c] {s : GainStructure} {p : Int} {x : Option Int × GainStructure} (hs : SmallG s)
    (h : runIf c (s.gainNext p) (none, s) = .ok x) :
    runIf c (s.gainNext64 p) (none, s) = .ok x ∧ SmallG x.2 ∧ x.2.H = s.H := by
  unfold runIf at h ⊢
  split at h
  · rename_i hc
    rw [if_pos hc]
    have := gainNext_sim hs h
    exact ⟨this.1, this.2, gainNext_H h⟩
  · rename_i hc
    rw [if_neg hc]
    cases h
    exact ⟨rfl, hs, rfl⟩

/-- The weights are not negative and fit. -/
def WeightsFit (H : Hypergraph) : Prop := ∀ u y, H.vertexOf u = .ok y → 0 ≤ y.weight ∧ y.weight < 2 ^ 61

theorem partNext_sim {s : GainStructure} (hs : SmallG s) {e0 e1 : Int} {r : Rng} {x : Int × GainStructure × Rng}
    (h0 : -2 ^ 62 ≤ e0 ∧ e0 ≤ 2 ^ 62) (h1 : -2 ^ 62 ≤ e1 ∧ e1 ≤ 2 ^ 62) (hw : WeightsFit s.H)
    (h : s.partNext e0 e1 r = .ok x) : s.partNext64 e0 e1 r = .ok x ∧ SmallG x.2.1 ∧ x.2.1.H = s.H := by
  unfold GainStructure.partNext at h
  rw [bind_eq_ok] at h
  obtain ⟨⟨v0, s1, r1⟩, k1, h⟩ := h
  rw [bind_eq_ok] at h
  obtain ⟨⟨v1, s2, r2⟩, k2, h⟩ := h
  have j1 := next_sim hs k1
  have j2 := next_sim j1.2 k2
  have q1 : s1.H = s.H := next_H k1
  have q2 : s2.H = s1.H := next_H k2
  unfold GainStructure.partNext64
  rw [j1.1]; simp only [ok_bind]
  dsimp only at j1 j2
  rw [j2.1]; simp only [ok_bind]
  have q3 : s2.H = s.H := q2.trans q1
  cases v0 with
  | none => cases h; exact ⟨rfl, j2.2, q3⟩
  | some v0 =>
    cases v1 with
    | none => cases h; exact ⟨rfl, j2.2, q3⟩
    | some v1 =>
      dsimp only at h ⊢
      rw [bind_eq_ok] at h
      obtain ⟨x0, hx0, h⟩ := h
      rw [bind_eq_ok] at h
      obtain ⟨⟨g0, s3⟩, k3, h⟩ := h
      rw [bind_eq_ok] at h
      obtain ⟨x1, hx1, h⟩ := h
      rw [bind_eq_ok] at h
      obtain ⟨⟨g1, s4⟩, k4, h⟩ := h
      obtain ⟨j3, j3', q4⟩ := runGain_sim j2.2 k3
      obtain ⟨j4, j4', q5⟩ := runGain_sim j3' k4
      dsimp only at q4 q5 hx1
      have w0 := hw v0 x0 (by rw [← q3]; exact hx0)
      have w1 := hw v1 x1 (by rw [← q3, ← q4]; exact hx1)
      rw [hx0]; simp only [ok_bind]
      rw [long_ok (by omega) (by omega)]; simp only [ok_bind]
      rw [j3]; simp only [ok_bind]
      rw [hx1]; simp only [ok_bind]
      rw [long_ok (by omega) (by omega)]; simp only [ok_bind]
      rw [j4]; simp only [ok_bind]
      have q6 : s4.H = s.H := q5.trans (q4.trans q3)
      refine ⟨h, ?_⟩
      dsimp only at h
      split at h
      · cases h; exact ⟨j4', q6⟩
      · split at h
        · cases h; exact ⟨j4', q6⟩
        · cases h; exact ⟨j4', q6⟩

/-- `c` gives the costs of the nets, which are not negative, and the costs at one vertex together fit. -/
structure CostBound (H : Hypergraph) (c : Nat → Int) : Prop where
  cost : ∀ e n, H.netOf e = .ok n → n.cost = c e
  nonneg : ∀ e, 0 ≤ c e
  sum : ∀ v ∈ H.vertices, (v.nets.map c).sum ≤ 2 ^ 60

theorem sumC_nonneg {c : Nat → Int} (h : ∀ e, 0 ≤ c e) (l : List Nat) : 0 ≤ (l.map c).sum := by
  induction l with
  | nil => exact Int.le_refl _
  | cons a l ih =>
    rw [List.map_cons, List.sum_cons]
    have := h a
    omega

theorem gainStep_sim {H : Hypergraph} {C : List Cnt} {c : Nat → Int} (hc : CostBound H c) {v : Vertex} {l : List Nat} :
    ∀ {g r : Int}, -2 ^ 61 ≤ g - (l.map c).sum → g + (l.map c).sum ≤ 2 ^ 61 →
      l.foldlM (fun g e => do
        let j ← H.localIdNet e
        let cf ← cGet C j v.part
        let n ← H.netOf e
        let g := if cf = 1 then g + n.cost else g
        let ct ← cGet C j (other v.part)
        pure (if ct = 0 then g - n.cost else g)) g = .ok r →
      l.foldlM (GainStructure.gainStep64 H C v) g = .ok r := by
  induction l with
  | nil => intro g r _ _ h; exact h
  | cons e l ih =>
    intro g r h1 h2 h
    rw [List.foldlM_cons, bind_eq_ok] at h
    obtain ⟨g', hg', h⟩ := h
    simp only [bind_eq_ok] at hg'
    obtain ⟨j, hj, cf, hcf, n, hn, ct, hct, hg'⟩ := hg'
    have hn1 := hc.cost e n hn
    have hn2 := hc.nonneg e
    have hn3 := sumC_nonneg hc.nonneg l
    rw [List.map_cons, List.sum_cons] at h1 h2
    rw [List.foldlM_cons]
    unfold GainStructure.gainStep64
    rw [hj]; simp only [ok_bind]
    rw [hcf]; simp only [ok_bind]
    rw [hn]; simp only [ok_bind]
    have e1 : runIf (cf = 1) (longGain (g + n.cost)) g = .ok (if cf = 1 then g + n.cost else g) := by
      unfold runIf
      split
      · exact longGain_ok (by omega) (by omega)
      · rfl
    rw [e1]; simp only [ok_bind]
    rw [hct]; simp only [ok_bind]
    obtain ⟨g1, hg1⟩ : ∃ x, x = if cf = 1 then g + n.cost else g := ⟨_, rfl⟩
    rw [← hg1] at hg' ⊢
    have hb : g1 = g ∨ g1 = g + n.cost := by
      rw [hg1]
      split
      · exact Or.inr rfl
      · exact Or.inl rfl
    have e2 : runIf (ct = 0) (longGain (g1 - n.cost)) g1 = .ok (if ct = 0 then g1 - n.cost else g1) := by
      unfold runIf
      split
      · exact longGain_ok (by omega) (by omega)
      · rfl
    have e3 : (if ct = 0 then g1 - n.cost else g1) = g' := Except.ok.inj hg'
    rw [e2, e3]
    simp only [ok_bind]
    have hb' : g' = g1 ∨ g' = g1 - n.cost := by
      rw [← e3]
      split
      · exact Or.inr rfl
      · exact Or.inl rfl
    exact ih (by omega) (by omega) h

theorem gainOf_sim {H : Hypergraph} {C : List Cnt} {c : Nat → Int} (hc : CostBound H c) {v : Vertex} (hv : v ∈ H.vertices)
    {r : Int} (h : GainStructure.gainOf H C v = .ok r) : GainStructure.gainOf64 H C v = .ok r := by
  have h1 := hc.sum v hv
  have h2 := sumC_nonneg hc.nonneg v.nets
  exact gainStep_sim hc (by omega) (by omega) h

theorem costs_sim {H : Hypergraph} {c : Nat → Int} (hc : CostBound H c) {l : List Nat} :
    ∀ {s r : Int}, 0 ≤ s → s + (l.map c).sum ≤ 2 ^ 61 →
      l.foldlM (fun sum e => do
        let n ← H.netOf e
        pure (sum + n.cost)) s = .ok r →
      l.foldlM (fun sum e => do
        let n ← H.netOf e
        long (sum + n.cost)) s = .ok r ∧ r = s + (l.map c).sum := by
  induction l with
  | nil =>
    intro s r _ _ h
    cases h
    exact ⟨rfl, by simp⟩
  | cons e l ih =>
    intro s r h1 h2 h
    rw [List.foldlM_cons, bind_eq_ok] at h
    obtain ⟨s', hs', h⟩ := h
    simp only [bind_eq_ok] at hs'
    obtain ⟨n, hn, hs'⟩ := hs'
    have hn1 := hc.cost e n hn
    have hn2 := hc.nonneg e
    have hn3 := sumC_nonneg hc.nonneg l
    rw [List.map_cons, List.sum_cons] at h2 ⊢
    have e3 : s + n.cost = s' := Except.ok.inj hs'
    rw [List.foldlM_cons, hn]
    simp only [ok_bind]
    rw [long_ok (by omega) (by omega), e3]
    simp only [ok_bind]
    obtain ⟨k1, k2⟩ := ih (by omega) (by omega) h
    exact ⟨k1, by omega⟩

theorem sizeBuckets_sim {H : Hypergraph} {c : Nat → Int} (hc : CostBound H c) {r : Int}
    (h : GainStructure.computeSizeBuckets H = .ok r) :
    GainStructure.computeSizeBuckets64 H = .ok r ∧ 1 ≤ r ∧ r ≤ 2 ^ 61 + 1 := by
  unfold GainStructure.computeSizeBuckets at h
  rw [bind_eq_ok] at h
  obtain ⟨m, hm, h⟩ := h
  have key : ∀ (l : List Vertex) (a m : Int), (∀ v ∈ l, v ∈ H.vertices) → 0 ≤ a → a ≤ 2 ^ 60 →
      l.foldlM (fun maxv v => do
        let sum ← v.nets.foldlM (fun sum e => do
          let n ← H.netOf e
          pure (sum + n.cost)) (0 : Int)
        pure (if sum > maxv then sum else maxv)) a = .ok m →
      l.foldlM (fun maxv v => do
        let sum ← GainStructure.costs64 H v
        pure (if sum > maxv then sum else maxv)) a = .ok m ∧ 0 ≤ m ∧ m ≤ 2 ^ 60 := by
    intro l
    induction l with
    | nil => intro a m _ h1 h2 h; cases h; exact ⟨rfl, h1, h2⟩
    | cons v l ih =>
      intro a m hl h1 h2 h
      rw [List.foldlM_cons, bind_eq_ok] at h
      obtain ⟨a', ha', h⟩ := h
      rw [bind_eq_ok] at ha'
      obtain ⟨sum, hsum, ha'⟩ := ha'
      have hv := hl v (List.mem_cons_self ..)
      have hs := hc.sum v hv
      have hs0 := sumC_nonneg hc.nonneg v.nets
      obtain ⟨k1, k2⟩ := costs_sim hc (Int.le_refl 0) (by omega) hsum
      have e3 : (if sum > a then sum else a) = a' := Except.ok.inj ha'
      rw [List.foldlM_cons]
      unfold GainStructure.costs64
      rw [k1]
      simp only [ok_bind, pure_eq_ok]
      rw [e3]
      have hb : 0 ≤ a' ∧ a' ≤ 2 ^ 60 := by
        rw [← e3]
        split <;> omega
      exact ih a' m (fun v hv => hl v (List.mem_cons_of_mem _ hv)) hb.1 hb.2 h
  obtain ⟨k1, k2, k3⟩ := key H.vertices 0 m (fun _ h => h) (Int.le_refl 0) (by omega) hm
  have e3 : 2 * m + 1 = r := Except.ok.inj h
  unfold GainStructure.computeSizeBuckets64
  rw [k1]
  simp only [ok_bind]
  rw [long_ok (by omega) (by omega)]
  simp only [ok_bind]
  rw [long_ok (by omega) (by omega), e3]
  exact ⟨rfl, by omega, by omega⟩

/-- A gain that fits. -/
def FitsGain (g : Int) : Prop := -2 ^ 62 ≤ g ∧ g ≤ 2 ^ 62

theorem initLoop_sim {H : Hypergraph} {c : Nat → Int} (hc : CostBound H c) {l : List (Vertex × Nat)} :
    ∀ {st r : GainStructure × Int × Int}, (∀ x ∈ l, x.1 ∈ H.vertices) → st.1.H = H → SmallG st.1 → FitsGain st.2.1 →
      FitsGain st.2.2 → l.foldlM GainStructure.initStep st = .ok r →
      l.foldlM GainStructure.initStep64 st = .ok r ∧ SmallG r.1 ∧ FitsGain r.2.1 ∧ FitsGain r.2.2 := by
  induction l with
  | nil => intro st r _ _ h2 h3 h4 h; cases h; exact ⟨rfl, h2, h3, h4⟩
  | cons x l ih =>
    rintro ⟨s, m0, m1⟩ r hl h1 h2 h3 h4 h
    obtain ⟨v, i⟩ := x
    dsimp only at h1 h2 h3 h4
    rw [List.foldlM_cons, bind_eq_ok] at h
    obtain ⟨st', hst', h⟩ := h
    unfold GainStructure.initStep at hst'
    simp only [bind_eq_ok] at hst'
    obtain ⟨g, hg, b, hb, b', hb', s1, hs1, gs, hgs, hst'⟩ := hst'
    obtain rfl := Except.ok.inj hst'
    have hg64 : GainStructure.gainOf64 s.H s.C v = .ok g := by
      rw [h1] at hg ⊢
      exact gainOf_sim hc (hl (v, i) (List.mem_cons_self ..)) hg
    have hi := insert_sim (bucket_small h2 hb) hb'
    have hs := setBucket_small h2 hi.2.1 hs1
    rw [List.foldlM_cons]
    have e1 : GainStructure.initStep64 (s, m0, m1) (v, i) = .ok ({ s1 with gains := gs },
        if v.part = 0 ∧ g > m0 then g else m0, if v.part = 1 ∧ g > m1 then g else m1) := by
      unfold GainStructure.initStep64
      dsimp only
      rw [hg64]; simp only [ok_bind]
      rw [hb]; simp only [ok_bind]
      rw [hi.1]; simp only [ok_bind]
      rw [hs1]; simp only [ok_bind]
      rw [hgs]; rfl
    rw [e1]
    simp only [ok_bind]
    refine ih (fun x hx => hl x (List.mem_cons_of_mem _ hx)) ?_ ⟨hs.1, hs.2⟩ ?_ ?_ h
    · exact (setBucket_C hs1).2.trans h1
    · dsimp only
      split
      · exact hi.2.2
      · exact h3
    · dsimp only
      split
      · exact hi.2.2
      · exact h4

theorem create_sim {H : Hypergraph} {C : List Cnt} {c : Nat → Int} (hc : CostBound H c) {s : GainStructure}
    (h : GainStructure.create H C = .ok s) : GainStructure.create64 H C = .ok s ∧ SmallG s := by
  unfold GainStructure.create at h
  rw [bind_eq_ok] at h
  obtain ⟨size, hsize, h⟩ := h
  rw [bind_eq_ok] at h
  obtain ⟨⟨s1, m0, m1⟩, h1, h⟩ := h
  obtain ⟨k1, k2, k3⟩ := sizeBuckets_sim hc hsize
  obtain rfl := Except.ok.inj h
  have hlen : (List.replicate size.toNat ([] : List Nat)).length = size.toNat := List.length_replicate
  have hcr : Buckets.create64 size = .ok (Buckets.create size) := by
    unfold Buckets.create64 Buckets.create
    dsimp only
    rw [long_ok (by omega) (by omega)]
    simp only [ok_bind]
    rw [wrap64_id (by rw [hlen]; omega) (by rw [hlen]; omega)]
    rfl
  have hsm : SmallB (Buckets.create size) := by
    unfold SmallB Buckets.create
    dsimp only
    rw [hlen]
    omega
  have hlen' : (Buckets.create size).buckets.length = size.toNat := hlen
  have hg0 : (Buckets.create size).indexToGain64 0 = (Buckets.create size).indexToGain 0 :=
    gain64 hsm.1 (Int.le_refl 0) (by omega)
  have hf0 : FitsGain ((Buckets.create size).indexToGain 0) := by
    unfold FitsGain Buckets.indexToGain
    rw [hlen']
    omega
  obtain ⟨j1, j2, j3, j4⟩ := initLoop_sim hc (fun x hx => by
    obtain ⟨v, i⟩ := x
    exact (List.mem_zipIdx' hx).2 ▸ List.getElem_mem _) rfl ⟨hsm, hsm⟩ hf0 hf0 h1
  dsimp only at j2 j3 j4
  unfold GainStructure.create64
  rw [k1]; simp only [ok_bind]
  rw [hcr]; simp only [ok_bind]
  rw [hg0, j1]; simp only [ok_bind]
  rw [index64 j2.1.1 j3.1 j3.2, index64 j2.2.1 j4.1 j4.2]
  exact ⟨rfl, j2.1, j2.2⟩

end PMondriaan

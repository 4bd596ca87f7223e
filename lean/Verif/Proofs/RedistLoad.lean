import Verif.Proofs.RedistMain

/-
Redistribution: how much a processor receives.
-/

namespace PMondriaan

open Spec

/-- The smallest sum of a suffix of `pre`, plus `c`. -/
def low0 : List Int → Int → Int
  | [], c => c
  | x :: pre, c => min (low0 pre c) (x + pre.sum + c)

theorem record_eq (pre : List Int) (c : Int) : record pre = pre.sum + c - low0 pre c := by
  induction pre with
  | nil => simp [record, low0]
  | cons x pre ih =>
    simp only [record, low0, List.sum_cons]
    rw [ih]
    omega

theorem share_le (x : Int) (pre : List Int) (c : Int) :
    share (-x) pre c ≤ max (low0 pre c) 0 - max (low0 (x :: pre) c) 0 := by
  have h := record_eq pre c
  unfold share
  rw [record_snoc, List.sum_append, List.sum_singleton]
  simp only [low0]
  omega

theorem low0_cons_le (x : Int) (pre : List Int) (c : Int) : low0 (x :: pre) c ≤ low0 pre c := by
  simp only [low0]; omega

/-- The ring of `s`, seen from `t`. -/
theorem ring_rotate {p s t : Nat} (hs : s < p) (ht : t < p) (hst : s ≠ t) :
    ∃ u a, ringFrom p t (t + 1) = u ++ s :: a ∧ ringFrom p s (s + 1) = a ++ t :: u := by
  have split : ∀ {a b c : Nat}, a ≤ b → b < c →
      List.range' a (c - a) = List.range' a (b - a) ++ b :: List.range' (b + 1) (c - b - 1) := by
    intro a b c h1 h2
    have e1 : c - a = (b - a) + ((c - b - 1) + 1) := by omega
    rw [e1, ← List.range'_append_1, List.range'_succ]
    have e2 : a + (b - a) = b := by omega
    rw [e2]
  unfold ringFrom
  rw [if_pos (Nat.lt_succ_self t), if_pos (Nat.lt_succ_self s)]
  rcases Nat.lt_or_gt_of_ne hst with h | h
  · refine ⟨List.range' (t + 1) (p - (t + 1)) ++ List.range' 0 s, List.range' (s + 1) (t - s - 1), ?_, ?_⟩
    · have := split (a := 0) (b := s) (c := t) (Nat.zero_le _) h
      simp only [Nat.sub_zero] at this
      rw [this]; simp
    · have := split (a := s + 1) (b := t) (c := p) h ht
      rw [this]
      have e : t - (s + 1) = t - s - 1 := by omega
      have e' : p - t - 1 = p - (t + 1) := by omega
      rw [e, e']; simp
  · refine ⟨List.range' (t + 1) (s - (t + 1)), List.range' (s + 1) (p - s - 1) ++ List.range' 0 t, ?_, ?_⟩
    · have := split (a := t + 1) (b := s) (c := p) h hs
      rw [this]; simp
    · have := split (a := 0) (b := t) (c := s) (Nat.zero_le _) h
      simp only [Nat.sub_zero] at this
      rw [this]
      have e : s - t - 1 = s - (t + 1) := by omega
      have e' : p - s - 1 = p - (s + 1) := by omega
      rw [e, e']; simp

/-- The number of processors that must send. -/
def senders (p : Nat) (sur : Nat → Int) : Nat := ((List.range p).filter (fun s => sur s < 0)).length

theorem received_le {p : Nat} {sur : Nat → Int} {new : Nat → List (Nat × Vertex)} {W : Int} (hW : 1 ≤ W)
    (hamt : ∀ s, s < p → ∀ (a : List Nat) t b, ringFrom p s (s + 1) = a ++ t :: b →
      amount (new s) t ≤ share (-sur s) (a.map sur) (sur t) + (W - 1))
    (hk : ∀ s, s < p → 0 ≤ sur s → new s = []) (hself : ∀ s, s < p → ∀ m ∈ new s, m.1 ≠ s)
    {t : Nat} (ht : t < p) :
    ((List.range p).map (fun s => amount (new s) t)).sum ≤
      max (sur t) 0 + (senders p sur : Int) * (W - 1) := by
  have key : ∀ (u a : List Nat), ringFrom p t (t + 1) = u ++ a →
      (a.map (fun s => amount (new s) t)).sum ≤
        max (sur t) 0 - max (low0 (a.map sur) (sur t)) 0 +
          ((a.filter (fun s => sur s < 0)).length : Int) * (W - 1) := by
    intro u a
    induction a generalizing u with
    | nil => intro _; simp [low0]
    | cons s a ih =>
      intro hu
      have ih := ih (u ++ [s]) (by rw [hu]; simp)
      have hmem : s ∈ ringFrom p t (t + 1) := by rw [hu]; simp
      obtain ⟨hsp, hst⟩ : s < p ∧ s ≠ t := by rw [mem_ring] at hmem; omega
      obtain ⟨u', a', h1, h2⟩ := ring_rotate hsp ht hst
      have haa : a' = a := by
        have hnd : (u ++ s :: a).Nodup := hu ▸ ring_nodup p t
        have hnd' : (u' ++ s :: a').Nodup := h1 ▸ ring_nodup p t
        have heq : u ++ s :: a = u' ++ s :: a' := hu.symm.trans h1
        have i1 : (u ++ s :: a).idxOf s = u.length := by
          rw [List.idxOf_append_of_notMem]
          · simp
          · intro h
            exact (List.nodup_append.1 hnd).2.2 s h s (by simp) rfl
        have i2 : (u' ++ s :: a').idxOf s = u'.length := by
          rw [List.idxOf_append_of_notMem]
          · simp
          · intro h
            exact (List.nodup_append.1 hnd').2.2 s h s (by simp) rfl
        have hl : u.length = u'.length := by rw [← i1, ← i2, heq]
        have := (List.append_inj heq hl).2
        injection this with _ h
        exact h.symm
      subst haa
      rw [List.map_cons, List.sum_cons, List.map_cons]
      by_cases hs : sur s < 0
      · have h3 := hamt s hsp a' t u' h2
        have h4 := share_le (sur s) (a'.map sur) (sur t)
        rw [List.filter_cons_of_pos (by simpa using hs), List.length_cons]
        push_cast
        rw [Int.add_mul]
        omega
      · have h3 : amount (new s) t = 0 := by
          rw [hk s hsp (by omega)]; rfl
        rw [List.filter_cons_of_neg (by simpa using hs), h3]
        have := low0_cons_le (sur s) (a'.map sur) (sur t)
        omega
  have h0 := key [] (ringFrom p t (t + 1)) rfl
  have hperm : (t :: ringFrom p t (t + 1)).Perm (List.range p) := ring_perm ht
  have hsum : ((List.range p).map (fun s => amount (new s) t)).sum =
      ((ringFrom p t (t + 1)).map (fun s => amount (new s) t)).sum := by
    rw [← (hperm.map _).sum_eq, List.map_cons, List.sum_cons, amount_none (hself t ht)]
    omega
  have hlen : ((ringFrom p t (t + 1)).filter (fun s => sur s < 0)).length ≤ senders p sur := by
    unfold senders
    rw [← (hperm.filter _).length_eq]
    exact (((List.sublist_cons_self _ _).filter _)).length_le
  have hmul : (((ringFrom p t (t + 1)).filter (fun s => sur s < 0)).length : Int) * (W - 1) ≤
      (senders p sur : Int) * (W - 1) :=
    Int.mul_le_mul_of_nonneg_right (by exact_mod_cast hlen) (by omega)
  rw [hsum]
  omega

theorem partSum_sent_self (ms : List (Nat × Vertex)) (t : Nat) (l : Int) (h : ∀ m ∈ ms, m.2.part = l) :
    partSum ((ms.filter (fun m => m.1 = t)).map (·.2)) l = amount ms t := by
  rw [partSum_all, List.map_map]
  · rfl
  · intro v hv
    obtain ⟨m, hm, rfl⟩ := List.mem_map.1 hv
    exact h m (List.mem_filter.1 hm).1

theorem partSum_sent_other (ms : List (Nat × Vertex)) (t : Nat) (l : Int) (h : ∀ m ∈ ms, m.2.part ≠ l) :
    partSum ((ms.filter (fun m => m.1 = t)).map (·.2)) l = 0 := by
  apply partSum_none
  intro v hv
  obtain ⟨m, hm, rfl⟩ := List.mem_map.1 hv
  exact h m (List.mem_filter.1 hm).1

theorem partSum_gotAt (new0 new1 : Nat → List (Nat × Vertex)) (t : Nat) (l : Int) (p : Nat) :
    partSum (gotAt p (fun s => new1 s ++ new0 s) t) l =
      ((List.range p).map (fun s => partSum (((new1 s).filter (fun m => m.1 = t)).map (·.2)) l +
        partSum (((new0 s).filter (fun m => m.1 = t)).map (·.2)) l)).sum := by
  unfold gotAt
  generalize List.range p = ps
  induction ps with
  | nil => simp [partSum]
  | cons s ps ih =>
    rw [List.flatMap_cons, List.filter_append, List.map_append, partSum_append, ih, List.map_cons,
      List.sum_cons, List.filter_append, List.map_append, partSum_append]

section
variable {N plow : Nat} {low high W : Int} {args : List RedistArgs}
  {res : Nat → Hypergraph × Int} {o : Nat → Outgoing} {vs0 : Nat → List Vertex}
  {new0 new1 : Nat → List (Nat × Vertex)} {R : Nat → List Vertex}

/-- Which vertices a processor has at the end. -/
theorem RedistOut.mem (h : RedistOut plow low high W args res o vs0 new0 new1 R) {t : Nat} (ht : t < args.length)
    {v : Vertex} (hv : v ∈ (res t).1.vertices) :
    v ∈ (argAt args t).H.vertices ∨ (v.part = low ∧ 0 < sur0 plow args t) ∨
      (v.part = high ∧ 0 < sur1 plow args t) := by
  rw [h.verts t ht] at hv
  have hS := h.sent t ht
  have hkeep : ∀ u, u ∈ (o t).H.vertices ++ vs0 t → u ∈ (argAt args t).H.vertices := fun u hu => hS.left.mem hu
  rcases List.mem_append.1 hv with hv | hv
  · rcases List.mem_append.1 hv with hv | hv
    · exact Or.inl (hkeep v (by simp [hv]))
    · rw [(h.got t ht).mem_iff] at hv
      obtain ⟨m, hm, rfl⟩ := List.mem_map.1 hv
      obtain ⟨hm, hmt⟩ := List.mem_filter.1 hm
      have hmt : m.1 = t := by simpa using hmt
      obtain ⟨s, hs, hm⟩ := List.mem_flatMap.1 hm
      have hs := List.mem_range.1 hs
      rcases List.mem_append.1 hm with hm | hm
      · have := (h.sent s hs).mem1 m hm
        exact Or.inr (Or.inr ⟨this.1, hmt ▸ this.2.2.2⟩)
      · have := (h.sent s hs).mem0 m hm
        exact Or.inr (Or.inl ⟨this.1, hmt ▸ this.2.2.2⟩)
  · exact Or.inl (hkeep v (by simp [hv]))

theorem RedistOut.weight0 (h : RedistOut plow low high W args res o vs0 new0 new1 R) (hlh : low ≠ high)
    {t : Nat} (ht : t < args.length) :
    partWeight (res t).1 low = partWeight (argAt args t).H low - ((new0 t).map (·.2.weight)).sum +
      ((List.range args.length).map (fun s => amount (new0 s) t)).sum := by
  have hS := h.sent t ht
  have h1 : partWeight (res t).1 low = partSum ((o t).H.vertices ++ R t ++ vs0 t) low := by
    show partSum (res t).1.vertices low = _
    rw [h.verts t ht]
  have h2 := partSum_perm hS.left.perm low
  rw [h1, partSum_append, partSum_append, partSum_perm (h.got t ht), partSum_gotAt]
  have h3 : (List.range args.length).map (fun s => partSum (((new1 s).filter (fun m => m.1 = t)).map (·.2)) low +
        partSum (((new0 s).filter (fun m => m.1 = t)).map (·.2)) low) =
      (List.range args.length).map (fun s => amount (new0 s) t) := by
    apply List.map_congr_left
    intro s hs
    have hs := List.mem_range.1 hs
    rw [partSum_sent_self _ _ _ (fun m hm => ((h.sent s hs).mem0 m hm).1),
      partSum_sent_other _ _ _ (fun m hm => by rw [((h.sent s hs).mem1 m hm).1]; exact hlh.symm)]
    omega
  rw [h3]
  rw [List.map_append, partSum_append, partSum_append] at h2
  have h4 : partSum ((new1 t).map (·.2)) low = 0 := by
    apply partSum_none
    intro v hv
    obtain ⟨m, hm, rfl⟩ := List.mem_map.1 hv
    rw [(hS.mem1 m hm).1]; exact hlh.symm
  have h5 : partSum ((new0 t).map (·.2)) low = ((new0 t).map (·.2.weight)).sum := by
    rw [partSum_all, List.map_map]
    · rfl
    · intro v hv
      obtain ⟨m, hm, rfl⟩ := List.mem_map.1 hv
      exact (hS.mem0 m hm).1
  have h6 : partSum (withBack (o t).H (vs0 t)).vertices low =
      partSum (o t).H.vertices low + partSum (vs0 t) low := partSum_append _ _ _
  have h7 : partSum (argAt args t).H.vertices low = partWeight (argAt args t).H low := rfl
  omega

theorem RedistOut.weight1 (h : RedistOut plow low high W args res o vs0 new0 new1 R) (hlh : low ≠ high)
    {t : Nat} (ht : t < args.length) :
    partWeight (res t).1 high = partWeight (argAt args t).H high - ((new1 t).map (·.2.weight)).sum +
      ((List.range args.length).map (fun s => amount (new1 s) t)).sum := by
  have hS := h.sent t ht
  have h1 : partWeight (res t).1 high = partSum ((o t).H.vertices ++ R t ++ vs0 t) high := by
    show partSum (res t).1.vertices high = _
    rw [h.verts t ht]
  have h2 := partSum_perm hS.left.perm high
  rw [h1, partSum_append, partSum_append, partSum_perm (h.got t ht), partSum_gotAt]
  have h3 : (List.range args.length).map (fun s => partSum (((new1 s).filter (fun m => m.1 = t)).map (·.2)) high +
        partSum (((new0 s).filter (fun m => m.1 = t)).map (·.2)) high) =
      (List.range args.length).map (fun s => amount (new1 s) t) := by
    apply List.map_congr_left
    intro s hs
    have hs := List.mem_range.1 hs
    rw [partSum_sent_self _ _ _ (fun m hm => ((h.sent s hs).mem1 m hm).1),
      partSum_sent_other _ _ _ (fun m hm => by rw [((h.sent s hs).mem0 m hm).1]; exact hlh)]
    omega
  rw [h3]
  rw [List.map_append, partSum_append, partSum_append] at h2
  have h4 : partSum ((new0 t).map (·.2)) high = 0 := by
    apply partSum_none
    intro v hv
    obtain ⟨m, hm, rfl⟩ := List.mem_map.1 hv
    rw [(hS.mem0 m hm).1]; exact hlh
  have h5 : partSum ((new1 t).map (·.2)) high = ((new1 t).map (·.2.weight)).sum := by
    rw [partSum_all, List.map_map]
    · rfl
    · intro v hv
      obtain ⟨m, hm, rfl⟩ := List.mem_map.1 hv
      exact (hS.mem1 m hm).1
  have h6 : partSum (withBack (o t).H (vs0 t)).vertices high =
      partSum (o t).H.vertices high + partSum (vs0 t) high := partSum_append _ _ _
  have h7 : partSum (argAt args t).H.vertices high = partWeight (argAt args t).H high := rfl
  omega

theorem amount_sum_zero {p : Nat} {sur : Nat → Int} {new : Nat → List (Nat × Vertex)}
    (hpos : ∀ s, s < p → ∀ m ∈ new s, 0 < sur m.1) {t : Nat} (ht : sur t ≤ 0) :
    ((List.range p).map (fun s => amount (new s) t)).sum = 0 := by
  rw [List.map_congr_left (g := fun _ => (0 : Int))]
  · simp
  · intro s hs
    apply amount_none
    rintro m hm rfl
    have := hpos s (List.mem_range.1 hs) m hm
    omega

/-- The load of the low label. -/
theorem RedistOut.load0 (h : RedistOut plow low high W args res o vs0 new0 new1 R) (hlh : low ≠ high)
    (hp : 0 < plow) (htot : 0 ≤ ((List.range args.length).map (sur0 plow args)).sum)
    {t : Nat} (ht : t < args.length) :
    (sur0 plow args t ≤ 0 →
      partWeight (res t).1 low ≤ partWeight (argAt args t).H low + sur0 plow args t) ∧
    ((∀ a ∈ args, ∀ v ∈ a.H.vertices, v.weight ≤ W) → 1 ≤ W → 0 ≤ sur0 plow args t →
      partWeight (res t).1 low ≤ partWeight (argAt args t).H low + sur0 plow args t +
        (senders args.length (sur0 plow args) : Int) * (W - 1)) := by
  have hS := h.sent t ht
  have hw := h.weight0 hlh ht
  refine ⟨fun hs => ?_, fun hW h1 hs => ?_⟩
  · have h1 := amount_sum_zero (fun s hs m hm => ((h.sent s hs).mem0 m hm).2.2.2) hs
    have h2 := hS.enough0 hp htot
    rw [List.map_map] at h2
    have e : ((·.weight) ∘ (·.2) : Nat × Vertex → Int) = (·.2.weight) := rfl
    rw [e] at h2
    omega
  · have h2 := received_le h1 (sur := sur0 plow args) (new := new0)
      (fun s hs => (h.sent s hs).amt0 (hW _ (argAt_mem hs)) h1) (fun s hs h0 => (h.sent s hs).keeps0 (Or.inl h0))
      (fun s hs m hm => ((h.sent s hs).mem0 m hm).2.2.1) ht
    rw [hS.keeps0 (Or.inl hs)] at hw
    simp only [List.map_nil, List.sum_nil] at hw
    omega

/-- The load of the high label. -/
theorem RedistOut.load1 (h : RedistOut plow low high W args res o vs0 new0 new1 R) (hlh : low ≠ high)
    (htot : 0 ≤ ((List.range args.length).map (sur1 plow args)).sum) {t : Nat} (ht : t < args.length) :
    (sur1 plow args t ≤ 0 →
      partWeight (res t).1 high ≤ partWeight (argAt args t).H high + sur1 plow args t) ∧
    ((∀ a ∈ args, ∀ v ∈ a.H.vertices, v.weight ≤ W) → 1 ≤ W → 0 ≤ sur1 plow args t →
      partWeight (res t).1 high ≤ partWeight (argAt args t).H high + sur1 plow args t +
        (senders args.length (sur1 plow args) : Int) * (W - 1)) := by
  have hS := h.sent t ht
  have hw := h.weight1 hlh ht
  refine ⟨fun hs => ?_, fun hW h1 hs => ?_⟩
  · have h1 := amount_sum_zero (fun s hs m hm => ((h.sent s hs).mem1 m hm).2.2.2) hs
    have h2 := hS.enough1 htot
    rw [List.map_map] at h2
    have e : ((·.weight) ∘ (·.2) : Nat × Vertex → Int) = (·.2.weight) := rfl
    rw [e] at h2
    omega
  · have h2 := received_le h1 (sur := sur1 plow args) (new := new1)
      (fun s hs => (h.sent s hs).amt1 (hW _ (argAt_mem hs)) h1) (fun s hs h0 => (h.sent s hs).keeps1 h0)
      (fun s hs m hm => ((h.sent s hs).mem1 m hm).2.2.1) ht
    rw [hS.keeps1 hs] at hw
    simp only [List.map_nil, List.sum_nil] at hw
    omega

end

theorem sum_surplus0 (plow : Nat) (M0 M1 : Int) (args : List RedistArgs) (low : Int)
    (hw : ∀ a ∈ args, a.w0 = partWeight a.H low)
    (hm : ∀ t a, args[t]? = some a → a.maxLocal = if t < plow then M0 else M1) (hp : plow ≤ args.length) :
    ((List.range args.length).map (sur0 plow args)).sum =
      (plow : Int) * M0 - (args.map (fun a => partWeight a.H low)).sum := by
  suffices H : ∀ k, k ≤ args.length → ((List.range k).map (sur0 plow args)).sum =
      ((min k plow : Nat) : Int) * M0 - ((args.take k).map (fun a => partWeight a.H low)).sum by
    have := H args.length (Nat.le_refl _)
    rw [List.take_length] at this
    rw [this, Nat.min_eq_right hp]
  intro k
  induction k with
  | zero => simp
  | succ k ih =>
    intro hk
    have ih := ih (by omega)
    rw [List.range_succ, List.map_append, List.sum_append, ih, List.take_add_one]
    have hg : args[k]? = some (argAt args k) := by
      unfold argAt; rw [List.getD_eq_getElem?_getD, List.getElem?_eq_getElem (by omega)]; rfl
    rw [hg]
    have ha := argAt_mem (args := args) (t := k) (by omega)
    have h1 := hm k _ hg
    have h2 := hw _ ha
    have e : [k].map (sur0 plow args) = [(surplusOf plow k (argAt args k)).1] := rfl
    rw [e]
    simp only [Option.toList_some, List.map_append, List.map_cons, List.map_nil, List.sum_append,
      List.sum_cons, List.sum_nil]
    unfold surplusOf
    by_cases h : k < plow
    · rw [if_pos h] at h1 ⊢
      rw [Nat.min_eq_left (by omega : k ≤ plow), Nat.min_eq_left (by omega : k + 1 ≤ plow)]
      push_cast
      rw [Int.add_mul]
      omega
    · rw [if_neg h] at h1 ⊢
      rw [Nat.min_eq_right (by omega : plow ≤ k), Nat.min_eq_right (by omega : plow ≤ k + 1)]
      omega

theorem sum_surplus1 (plow : Nat) (M0 M1 : Int) (args : List RedistArgs) (high : Int)
    (hw : ∀ a ∈ args, a.w1 = partWeight a.H high)
    (hm : ∀ t a, args[t]? = some a → a.maxLocal = if t < plow then M0 else M1) :
    ((List.range args.length).map (sur1 plow args)).sum =
      ((args.length - plow : Nat) : Int) * M1 - (args.map (fun a => partWeight a.H high)).sum := by
  suffices H : ∀ k, k ≤ args.length → ((List.range k).map (sur1 plow args)).sum =
      ((k - plow : Nat) : Int) * M1 - ((args.take k).map (fun a => partWeight a.H high)).sum by
    have := H args.length (Nat.le_refl _)
    rw [List.take_length] at this
    rw [this]
  intro k
  induction k with
  | zero => simp
  | succ k ih =>
    intro hk
    have ih := ih (by omega)
    rw [List.range_succ, List.map_append, List.sum_append, ih, List.take_add_one]
    have hg : args[k]? = some (argAt args k) := by
      unfold argAt; rw [List.getD_eq_getElem?_getD, List.getElem?_eq_getElem (by omega)]; rfl
    rw [hg]
    have ha := argAt_mem (args := args) (t := k) (by omega)
    have h1 := hm k _ hg
    have h2 := hw _ ha
    have e : [k].map (sur1 plow args) = [(surplusOf plow k (argAt args k)).2] := rfl
    rw [e]
    simp only [Option.toList_some, List.map_append, List.map_cons, List.map_nil, List.sum_append,
      List.sum_cons, List.sum_nil]
    unfold surplusOf
    by_cases h : k < plow
    · rw [if_pos h] at h1 ⊢
      have e1 : k - plow = 0 := by omega
      have e2 : k + 1 - plow = 0 := by omega
      rw [e1, e2]
      omega
    · rw [if_neg h] at h1 ⊢
      have e1 : k + 1 - plow = (k - plow) + 1 := by omega
      rw [e1]
      push_cast
      rw [Int.add_mul]
      omega

end PMondriaan

import Verif.Proofs.GainMove

/-
Construction of the gain structure and its queries on the functional view.
-/

namespace PMondriaan

open Spec

theorem foldlM_sum {α : Type} (l : List α) (f : Int → α → Res Int) (g : α → Int)
    (h : ∀ a ∈ l, ∀ s, f s a = .ok (s + g a)) (s : Int) :
    l.foldlM f s = .ok (s + (l.map g).sum) := by
  induction l generalizing s with
  | nil => simp
  | cons a l ih =>
    rw [List.foldlM_cons, h a (by simp) s]
    simp only [ok_bind]
    rw [ih (fun b hb => h b (by simp [hb]))]
    simp [Int.add_assoc]

theorem gainOf_conc {H : Hypergraph} (w : WF H) {P : Nat → Int} {L : Nat → List Nat}
    {F : Nat → Cnt} {x : Vertex} (hx : x ∈ H.vertices) (hp : P x.id = 0 ∨ P x.id = 1) :
    GainStructure.gainOf (conc H P L) (cOf H F) { x with part := P x.id } =
      .ok (gainSum H F P x) := by
  unfold GainStructure.gainOf gainSum
  simp only
  rw [foldlM_sum x.nets _ (fun e => contrib (F e) (costOf H e) (P x.id))]
  · simp
  · intro e he s
    obtain ⟨j, n, hj, rfl, -, hlocn, -⟩ := w.net_of_vnet hx he
    rw [conc_localIdNet, hlocn]
    simp only [ok_bind]
    rw [cOf_cGet hj hp]
    simp only [ok_bind]
    rw [conc_netOf w P L hj]
    simp only [ok_bind]
    rw [cOf_cGet hj (other_01 hp)]
    simp only [ok_bind, pure_eq_ok, contrib, costOf_eq w (List.mem_of_getElem? hj)]
    congr 1
    split_ifs <;> omega

theorem computeSizeBuckets_conc {H : Hypergraph} (w : WF H) (P : Nat → Int) (L : Nat → List Nat) :
    ∃ M : Nat, GainStructure.computeSizeBuckets (conc H P L) = .ok (2 * (M : Int) + 1) ∧
      MaxCost H M := by
  unfold GainStructure.computeSizeBuckets
  obtain ⟨m, hm, hm0, hmax⟩ := foldlM_inv (f := fun (maxv : Int) (v : Vertex) => do
    let sum ← v.nets.foldlM (fun sum e => do
      let n ← (conc H P L).netOf e
      pure (sum + n.cost)) (0 : Int)
    pure (if sum > maxv then sum else maxv))
    (fun pre _ m => 0 ≤ m ∧ ∀ x ∈ H.vertices, { x with part := P x.id } ∈ pre → costSum H x ≤ m)
    (conc H P L).vertices 0 (by simp) (by
      rintro pre a post m ⟨h0, hI⟩ hl
      have ha : a ∈ (conc H P L).vertices := by rw [hl]; simp
      simp only [conc, List.mem_map] at ha
      obtain ⟨x, hx, rfl⟩ := ha
      rw [foldlM_sum x.nets _ (fun e => costOf H e) (by
        intro e he s
        obtain ⟨j, n, hj, rfl, -, -, -⟩ := w.net_of_vnet hx he
        rw [conc_netOf w P L hj]
        simp [costOf_eq w (List.mem_of_getElem? hj)])]
      have hcs : (x.nets.map (fun e => costOf H e)).sum = costSum H x := rfl
      simp only [ok_bind, pure_eq_ok, Int.zero_add, hcs]
      refine ⟨_, rfl, by split <;> omega, ?_⟩
      intro y hy hmem
      simp only [List.mem_append, List.mem_singleton] at hmem
      rcases hmem with hmem | hmem
      · have := hI y hy hmem
        split <;> omega
      · have hid : y.id = x.id := by injection hmem
        rw [w.vertex_inj hy hx hid]
        split <;> omega)
  refine ⟨m.toNat, ?_, ?_⟩
  · rw [hm]
    simp only [ok_bind, pure_eq_ok, Int.toNat_of_nonneg hm0]
  · intro x hx
    have := hmax x hx (by simp only [conc]; exact List.mem_map_of_mem (f := fun v : Vertex => { v with part := P v.id }) hx)
    omega

theorem bcreate_inv (M : Nat) (R : Nat → Int → Prop) (hR : ∀ u g, ¬ R u g) :
    BInv M (Buckets.create (2 * (M : Int) + 1)) R ∧
      (Buckets.create (2 * (M : Int) + 1)).maxIndex = 2 * M + 1 ∧
      (Buckets.create (2 * (M : Int) + 1)).indexToGain 0 = -(M : Int) := by
  have hlen : (2 * (M : Int) + 1).toNat = 2 * M + 1 := by omega
  unfold Buckets.create Buckets.indexToGain
  simp only [hlen, List.length_replicate]
  refine ⟨⟨?_, ?_, ?_, ?_, ?_, ?_, ?_⟩, ?_, ?_⟩
  · simp
  · intro l hl
    simp only [List.mem_replicate] at hl
    rw [hl.2]; exact List.nodup_nil
  · intro i l u hi
    simp only [List.getElem?_replicate] at hi
    split at hi
    · cases hi; simp [hR]
    · cases hi
  · intro u g h; exact absurd h (hR u g)
  · simp only; omega
  · simp only; omega
  · intro u g h; exact absurd h (hR u g)
  · simp
  · omega

theorem create_ok {H : Hypergraph} (w : WF H) (hc : CostsNonneg H) {P : Nat → Int}
    {L : Nat → List Nat} (h01 : Parts01 H P) (F : Nat → Cnt) :
    ∃ (M : Nat) (s : GainStructure) (G : Nat → Option Int),
      GainStructure.create (conc H P L) (cOf H F) = .ok s ∧ MaxCost H M ∧
      GInv H M P L F G s ∧ ∀ x ∈ H.vertices, G x.id = some (gainSum H F P x) := by
  obtain ⟨M, hsize, hM⟩ := computeSizeBuckets_conc w P L
  have hbound : ∀ x ∈ H.vertices, -(M : Int) ≤ gainSum H F P x ∧ gainSum H F P x ≤ M := by
    intro x hx
    have := gainSum_bound hc F P x
    have := hM x hx
    omega
  -- gains by id
  let gv : Nat → Int := fun u => match H.vertices.find? (fun v => v.id == u) with
    | some x => gainSum H F P x
    | none => 0
  have hgv : ∀ x ∈ H.vertices, gv x.id = gainSum H F P x := by
    intro x hx
    simp only [gv]
    cases hf : H.vertices.find? (fun v => v.id == x.id) with
    | none =>
      rw [List.find?_eq_none] at hf
      exact absurd (by simp) (hf x hx)
    | some y =>
      have hy : y ∈ H.vertices := List.mem_of_find?_eq_some hf
      have hid : y.id = x.id := by simpa using List.find?_some hf
      simp [w.vertex_inj hy hx hid]
  let R : List (Vertex × Nat) → Int → Nat → Int → Prop := fun pre p u g =>
    (∃ v i, (v, i) ∈ pre ∧ v.id = u) ∧ P u = p ∧ g = gv u
  let b := Buckets.create (2 * (M : Int) + 1)
  obtain ⟨hb1, hb2, hb3⟩ := bcreate_inv M (R [] 0) (by simp [R])
  obtain ⟨hb1', -, -⟩ := bcreate_inv M (R [] 1) (by simp [R])
  obtain ⟨⟨s, m0, m1⟩, hs, hI⟩ := foldlM_inv (f := GainStructure.initStep)
    (fun pre _ (st : GainStructure × Int × Int) =>
      st.1.H = conc H P L ∧ st.1.C = cOf H F ∧ (∃ G, st.1.gains = gOf H G ∧
        ∀ v i, (v, i) ∈ pre → G v.id = some (gv v.id)) ∧
      BInv M st.1.b0 (R pre 0) ∧ BInv M st.1.b1 (R pre 1) ∧
      st.1.b0.maxIndex = 2 * M + 1 ∧ st.1.b1.maxIndex = 2 * M + 1 ∧
      (-(M : Int) ≤ st.2.1 ∧ st.2.1 ≤ M ∧ ∀ u g, R pre 0 u g → g ≤ st.2.1) ∧
      (-(M : Int) ≤ st.2.2 ∧ st.2.2 ≤ M ∧ ∀ u g, R pre 1 u g → g ≤ st.2.2))
    ((conc H P L).vertices.zipIdx)
    ({ H := conc H P L, C := cOf H F, b0 := b, b1 := b,
       gains := List.replicate (conc H P L).size (some 0) }, -(M : Int), -(M : Int))
    (by
      refine ⟨rfl, rfl, ⟨fun _ => some 0, ?_, by simp⟩, hb1, hb1', hb2, hb2, ?_, ?_⟩
      · simp only [Hypergraph.size, conc_vlen, gOf]
        rw [List.map_const']
      · refine ⟨le_refl _, by simp only; omega, ?_⟩
        rintro u g ⟨⟨v, i, h, -⟩, -⟩; cases h
      · refine ⟨le_refl _, by simp only; omega, ?_⟩
        rintro u g ⟨⟨v, i, h, -⟩, -⟩; cases h)
    (by
      rintro pre ⟨v, i⟩ post ⟨s, m0, m1⟩ ⟨hH, hC, ⟨G, hg, hG⟩, hi0, hi1, hx0, hx1, hm0, hm1⟩ hl
      simp only at hH hC hg hi0 hi1 hx0 hx1 hm0 hm1
      have hmem : (v, i) ∈ (conc H P L).vertices.zipIdx := by rw [hl]; simp
      rw [List.mem_zipIdx_iff_getElem?] at hmem
      simp only [conc, List.getElem?_map, Option.map_eq_some_iff] at hmem
      obtain ⟨x, hxi, rfl⟩ := hmem
      have hx := List.mem_of_getElem? hxi
      have hp := h01 x hx
      have hlen : i < s.gains.length := by
        rw [hg]
        rw [List.getElem?_eq_some_iff] at hxi
        simpa [gOf] using hxi.1
      unfold GainStructure.initStep
      simp only
      rw [hH, hC, gainOf_conc w hx hp]
      simp only [ok_bind]
      have hRpre : ∀ p u g, (R (pre ++ [({ x with part := P x.id }, i)]) p u g ↔
          (R pre p u g ∨ (P x.id = p ∧ u = x.id ∧ g = gainSum H F P x))) := by
        intro p u g
        simp only [R, List.mem_append, List.mem_singleton]
        constructor
        · rintro ⟨⟨v, k, h | h, hid⟩, h2, h3⟩
          · exact Or.inl ⟨⟨v, k, h, hid⟩, h2, h3⟩
          · have hv : v.id = x.id := by rw [Prod.mk.injEq] at h; rw [h.1]
            rw [hv] at hid
            subst hid
            exact Or.inr ⟨h2, rfl, by rw [h3, hgv x hx]⟩
        · rintro (⟨⟨v, k, h, hid⟩, h2, h3⟩ | ⟨h1, h2, h3⟩)
          · exact ⟨⟨v, k, Or.inl h, hid⟩, h2, h3⟩
          · subst h2
            exact ⟨⟨_, i, Or.inr rfl, rfl⟩, h1, by rw [h3, hgv x hx]⟩
      have hgains : s.gains.set i (some (gainSum H F P x)) =
          gOf H (upd G x.id (some (gainSum H F P x))) := by
        rw [hg, gOf_set w hxi]
      have hGnew : ∀ v k, (v, k) ∈ pre ++ [(({ x with part := P x.id } : Vertex), i)] →
          upd G x.id (some (gainSum H F P x)) v.id = some (gv v.id) := by
        intro v k hvk
        by_cases hv : v.id = x.id
        · rw [hv, upd_same, hgv x hx]
        · rw [upd_other _ _ hv]
          simp only [List.mem_append, List.mem_singleton] at hvk
          rcases hvk with h | h
          · exact hG v k h
          · exact absurd (by rw [Prod.mk.injEq] at h; rw [h.1]) hv
      have hbd := hbound x hx
      rcases hp with hp | hp
      · obtain ⟨b', hb', hbi', -, hbx⟩ := insert_ok hi0 x.id hbd
        simp only [hp, GainStructure.bucket, GainStructure.setBucket, if_true, ok_bind]
        rw [hb']
        simp only [ok_bind]
        rw [vset_ok hlen]
        simp only [ok_bind, pure_eq_ok]
        refine ⟨_, rfl, hH, hC, ⟨_, hgains, by rw [hp] at hGnew; exact hGnew⟩, ?_, ?_, hbx hx0, hx1, ?_, ?_⟩
        · refine hbi'.congr ?_
          intro u g
          have := hRpre 0 u g
          rw [hp] at this
          rw [this]; simp
        · refine hi1.congr ?_
          intro u g
          have := hRpre 1 u g
          rw [hp] at this
          rw [this]; simp
        · simp only
          refine ⟨by split <;> omega, by split <;> omega, ?_⟩
          intro u g h
          have := hRpre 0 u g
          rw [hp] at this
          rw [this] at h
          rcases h with h | ⟨-, -, h⟩
          · have := hm0.2.2 u g h
            split <;> omega
          · subst h
            simp only [true_and]
            generalize gainSum H F P x = gg
            split <;> omega
        · simp only [zero_ne_one, false_and, if_false]
          refine ⟨hm1.1, hm1.2.1, ?_⟩
          intro u g h
          have := hRpre 1 u g
          rw [hp] at this
          rw [this] at h
          rcases h with h | ⟨h, -, -⟩
          · exact hm1.2.2 u g h
          · exact absurd h (by decide)
      · obtain ⟨b', hb', hbi', -, hbx⟩ := insert_ok hi1 x.id hbd
        simp only [hp, GainStructure.bucket, GainStructure.setBucket, one_ne_zero, if_false, if_true, ok_bind]
        rw [hb']
        simp only [ok_bind]
        rw [vset_ok hlen]
        simp only [ok_bind, pure_eq_ok]
        refine ⟨_, rfl, hH, hC, ⟨_, hgains, by rw [hp] at hGnew; exact hGnew⟩, ?_, ?_, hx0, hbx hx1, ?_, ?_⟩
        · refine hi0.congr ?_
          intro u g
          have := hRpre 0 u g
          rw [hp] at this
          rw [this]; simp
        · refine hbi'.congr ?_
          intro u g
          have := hRpre 1 u g
          rw [hp] at this
          rw [this]; simp
        · simp only [false_and, if_false]
          refine ⟨hm0.1, hm0.2.1, ?_⟩
          intro u g h
          have := hRpre 0 u g
          rw [hp] at this
          rw [this] at h
          rcases h with h | ⟨h, -, -⟩
          · exact hm0.2.2 u g h
          · exact absurd h (by decide)
        · simp only
          refine ⟨by split <;> omega, by split <;> omega, ?_⟩
          intro u g h
          have := hRpre 1 u g
          rw [hp] at this
          rw [this] at h
          rcases h with h | ⟨-, -, h⟩
          · have := hm1.2.2 u g h
            split <;> omega
          · subst h
            simp only [true_and]
            generalize gainSum H F P x = gg
            split <;> omega)
  obtain ⟨hH, hC, ⟨G, hg, hG⟩, hi0, hi1, hx0, hx1, hm0, hm1⟩ := hI
  simp only at hH hC hg hi0 hi1 hx0 hx1 hm0 hm1
  have hGall : ∀ x ∈ H.vertices, G x.id = some (gainSum H F P x) := by
    intro x hx
    obtain ⟨i, hi, -⟩ := w.localId_mem hx
    have := hG { x with part := P x.id } i (by
      rw [List.mem_zipIdx_iff_getElem?]
      exact conc_vget P L hi)
    rw [← hgv x hx]; exact this
  have hRall : ∀ p u g, R ((conc H P L).vertices.zipIdx) p u g ↔ InBucket H P G p u g := by
    intro p u g
    unfold InBucket
    simp only [R]
    constructor
    · rintro ⟨⟨v, i, h, rfl⟩, h2, h3⟩
      rw [List.mem_zipIdx_iff_getElem?] at h
      have hv : v.id ∈ (conc H P L).vertices.map (·.id) :=
        List.mem_map_of_mem (List.mem_of_getElem? h)
      rw [conc_vids] at hv
      refine ⟨hv, h2, ?_⟩
      obtain ⟨x, hx, hxv⟩ := List.mem_map.1 hv
      rw [h3, ← hxv, hGall x hx, hgv x hx]
    · rintro ⟨h1, h2, h3⟩
      obtain ⟨x, hx, rfl⟩ := List.mem_map.1 h1
      obtain ⟨i, hi, -⟩ := w.localId_mem hx
      refine ⟨⟨{ x with part := P x.id }, i, ?_, rfl⟩, h2, ?_⟩
      · rw [List.mem_zipIdx_iff_getElem?]
        exact conc_vget P L hi
      · rw [hGall x hx] at h3
        rw [hgv x hx]
        exact (Option.some.inj h3).symm
  have hi0' := hi0.congr (hRall 0)
  have hi1' := hi1.congr (hRall 1)
  refine ⟨M, { s with b0 := s.b0.setMaxPresent (s.b0.gainToIndex m0),
                      b1 := s.b1.setMaxPresent (s.b1.gainToIndex m1) }, G, ?_, hM,
    ⟨hH, hC, hg, ?_, ?_, ?_, ?_⟩, hGall⟩
  · unfold GainStructure.create
    rw [hsize]
    simp only [ok_bind]
    rw [hb3]
    rw [hs]
    rfl
  · exact ⟨hi0'.len, hi0'.nd, hi0'.mem, hi0'.rng, hi0'.min_lo, hi0'.min_hi, hi0'.low⟩
  · exact ⟨hi1'.len, hi1'.nd, hi1'.mem, hi1'.rng, hi1'.min_lo, hi1'.min_hi, hi1'.low⟩
  · rw [hi0'.gainToIndex]
    refine ⟨?_, ?_, ?_⟩
    · simp only [Buckets.setMaxPresent]; omega
    · simp only [Buckets.setMaxPresent]; omega
    · intro u g h
      have := hm0.2.2 u g ((hRall 0 u g).2 h)
      simp only [Buckets.setMaxPresent]; omega
  · rw [hi1'.gainToIndex]
    refine ⟨?_, ?_, ?_⟩
    · simp only [Buckets.setMaxPresent]; omega
    · simp only [Buckets.setMaxPresent]; omega
    · intro u g h
      have := hm1.2.2 u g ((hRall 1 u g).2 h)
      simp only [Buckets.setMaxPresent]; omega

/-! ### Queries -/

section
variable {H : Hypergraph} {M : Nat} {P : Nat → Int} {L : Nat → List Nat}
  {F : Nat → Cnt} {G : Nat → Option Int} {s : GainStructure} (h : GInv H M P L F G s)
include h

theorem GInv.replace {p : Int} (hp : p = 0 ∨ p = 1) {b : Buckets}
    (hb : BInv M b (InBucket H P G p)) (hm : BMax M b (InBucket H P G p)) :
    ∃ s', s.setBucket p b = .ok s' ∧ GInv H M P L F G s' := by
  rcases hp with rfl | rfl
  · exact ⟨_, rfl, h.hH, h.hC, h.hg, hb, h.i1, hm, h.m1⟩
  · exact ⟨_, rfl, h.hH, h.hC, h.hg, h.i0, hb, h.m0, hm⟩

theorem gnext_ok {p : Int} (hp : p = 0 ∨ p = 1) (r : Rng) :
    ∃ o s' r', s.next p r = .ok (o, s', r') ∧ GInv H M P L F G s' ∧
      (match o with
       | none => ∀ u g, ¬ InBucket H P G p u g
       | some u => ∃ g, InBucket H P G p u g ∧ ∀ u' g', InBucket H P G p u' g' → g' ≤ g) := by
  obtain ⟨hbk, hbi, hbm⟩ := h.bucket hp
  obtain ⟨o, b', r', hn, hbi', hbm', ho⟩ := bnext_ok hbi hbm r
  obtain ⟨s', hs', hI'⟩ := h.replace hp hbi' hbm'
  refine ⟨o, s', r', ?_, hI', ho⟩
  unfold GainStructure.next
  rw [hbk]; simp only [ok_bind]
  rw [hn]; simp only [ok_bind]
  rw [hs']; rfl

theorem ggainNext_ok {p : Int} (hp : p = 0 ∨ p = 1) :
    ∃ o s', s.gainNext p = .ok (o, s') ∧ GInv H M P L F G s' ∧
      (match o with
       | none => ∀ u g, ¬ InBucket H P G p u g
       | some g => (∃ u, InBucket H P G p u g) ∧ ∀ u' g', InBucket H P G p u' g' → g' ≤ g) := by
  obtain ⟨hbk, hbi, hbm⟩ := h.bucket hp
  obtain ⟨o, b', hn, hbi', hbm', ho⟩ := bgainNext_ok hbi hbm
  obtain ⟨s', hs', hI'⟩ := h.replace hp hbi' hbm'
  refine ⟨o, s', ?_, hI', ho⟩
  unfold GainStructure.gainNext
  rw [hbk]; simp only [ok_bind]
  rw [hn]; simp only [ok_bind]
  rw [hs']; rfl

theorem gbucketDone_ok {p : Int} (hp : p = 0 ∨ p = 1) :
    ∃ d s', s.bucketDone p = .ok (d, s') ∧ GInv H M P L F G s' ∧
      (d = true ↔ ∀ u g, ¬ InBucket H P G p u g) := by
  obtain ⟨hbk, hbi, hbm⟩ := h.bucket hp
  obtain ⟨o, b', hn, -, hbi', hbm', ho⟩ := findNextIndex_ok hbi hbm
  obtain ⟨s', hs', hI'⟩ := h.replace hp hbi' hbm'
  refine ⟨o.isNone, s', ?_, hI', ?_⟩
  · unfold GainStructure.bucketDone
    rw [hbk]; simp only [ok_bind]
    rw [hn]; simp only [ok_bind]
    rw [hs']; rfl
  · cases o with
    | none => simpa using ho
    | some i =>
      obtain ⟨l, -, hne, hl, -⟩ := ho
      obtain ⟨u, hu⟩ := List.exists_mem_of_ne_nil l hne
      simp only [Option.isNone_some, Bool.false_eq_true, false_iff]
      intro hall
      exact hall _ _ ((hl u).1 hu)

theorem gdone_ok :
    ∃ d s', s.done = .ok (d, s') ∧ GInv H M P L F G s' ∧
      (d = true ↔ ∀ p, p = 0 ∨ p = 1 → ∀ u g, ¬ InBucket H P G p u g) := by
  obtain ⟨o, b', hn, -, hbi', hbm', ho⟩ := findNextIndex_ok h.i0 h.m0
  obtain ⟨o2, b2, hn2, -, hbi2, hbm2, ho2⟩ := findNextIndex_ok h.i1 h.m1
  unfold GainStructure.done
  rw [hn]; simp only [ok_bind]
  cases o with
  | some i =>
    refine ⟨false, _, rfl, ⟨h.hH, h.hC, h.hg, hbi', h.i1, hbm', h.m1⟩, ?_⟩
    obtain ⟨l, -, hne, hl, -⟩ := ho
    obtain ⟨u, hu⟩ := List.exists_mem_of_ne_nil l hne
    simp only [Bool.false_eq_true, false_iff]
    intro hall
    exact hall 0 (Or.inl rfl) _ _ ((hl u).1 hu)
  | none =>
    simp only
    rw [hn2]; simp only [ok_bind]
    refine ⟨o2.isNone, _, rfl, ⟨h.hH, h.hC, h.hg, hbi', hbi2, hbm', hbm2⟩, ?_⟩
    cases o2 with
    | none =>
      simp only [Option.isNone_none, true_iff]
      rintro p (rfl | rfl)
      · exact ho
      · exact ho2
    | some i =>
      obtain ⟨l, -, hne, hl, -⟩ := ho2
      obtain ⟨u, hu⟩ := List.exists_mem_of_ne_nil l hne
      simp only [Option.isNone_some, Bool.false_eq_true, false_iff]
      intro hall
      exact hall 1 (Or.inr rfl) _ _ ((hl u).1 hu)

/-- `part_next` returns a part that still has a vertex, unless everything is locked. -/
theorem gpartNext_ok (w : WF H) (x0 x1 : Int) (r : Rng)
    (hne : ¬ ∀ p, p = 0 ∨ p = 1 → ∀ u g, ¬ InBucket H P G p u g) :
    ∃ p s' r', s.partNext x0 x1 r = .ok (p, s', r') ∧ (p = 0 ∨ p = 1) ∧ GInv H M P L F G s' ∧
      (∃ u g, InBucket H P G p u g) ∧
      ((∀ u g, ¬ InBucket H P G (1 - p) u g) ∨
        ∃ y0 g0 y1 g1, TopOf H P G 0 y0 g0 ∧ TopOf H P G 1 y1 g1 ∧
          (p = 0 → (y0.weight < x0 ∧ (y1.weight < x1 → g1 ≤ g0)) ∨
            (x0 ≤ y0.weight ∧ x1 ≤ y1.weight)) ∧
          (p = 1 → (y1.weight < x1 ∧ (y0.weight < x0 → g0 ≤ g1)) ∨
            (x0 ≤ y0.weight ∧ x1 ≤ y1.weight))) := by
  obtain ⟨v0, s1, r1, h1, hI1, hv0⟩ := gnext_ok h (Or.inl rfl) r
  obtain ⟨v1, s2, r2, h2, hI2, hv1⟩ := gnext_ok hI1 (Or.inr rfl) r1
  unfold GainStructure.partNext
  rw [h1]; simp only [ok_bind]
  rw [h2]; simp only [ok_bind]
  cases v0 with
  | none =>
    refine ⟨1, s2, r2, rfl, Or.inr rfl, hI2, ?_, Or.inl (by simpa using hv0)⟩
    cases v1 with
    | none =>
      exfalso
      apply hne
      rintro p (rfl | rfl)
      · exact hv0
      · exact hv1
    | some u => obtain ⟨g, hg, -⟩ := hv1; exact ⟨u, g, hg⟩
  | some u0 =>
    obtain ⟨g0, hg0, hm0⟩ := hv0
    cases v1 with
    | none => exact ⟨0, s2, r2, rfl, Or.inl rfl, hI2, ⟨u0, g0, hg0⟩, Or.inl (by simpa using hv1)⟩
    | some u1 =>
      obtain ⟨g1, hg1, hm1⟩ := hv1
      simp only
      obtain ⟨y0, hy0, hyu0⟩ := List.mem_map.1 hg0.1
      obtain ⟨y1, hy1, hyu1⟩ := List.mem_map.1 hg1.1
      have hyu0 : y0.id = u0 := hyu0
      have hyu1 : y1.id = u1 := hyu1
      subst hyu0 hyu1
      have ht0 : TopOf H P G 0 y0 g0 := ⟨hy0, hg0, hm0⟩
      have ht1 : TopOf H P G 1 y1 g1 := ⟨hy1, hg1, hm1⟩
      rw [hI2.hH, conc_vertexOf w P L hy0]
      simp only [ok_bind]
      obtain ⟨s3, h3, hI3⟩ : ∃ s', runIf (x0 - y0.weight > 0) (s2.gainNext 0) (none, s2) =
          .ok (if y0.weight < x0 then some g0 else none, s') ∧ GInv H M P L F G s' := by
        unfold runIf
        by_cases hx : y0.weight < x0
        · rw [if_pos (show x0 - y0.weight > 0 by omega), if_pos hx]
          obtain ⟨o, s', ho, hI, hog⟩ := ggainNext_ok hI2 (Or.inl rfl)
          cases o with
          | none => exact absurd hg0 (hog _ _)
          | some g =>
            obtain ⟨⟨u, hu⟩, hmax⟩ := hog
            have a1 := hm0 _ _ hu
            have a2 := hmax _ _ hg0
            have : g = g0 := by omega
            subst this
            exact ⟨s', ho, hI⟩
        · rw [if_neg (show ¬ x0 - y0.weight > 0 by omega), if_neg hx]
          exact ⟨_, rfl, hI2⟩
      rw [h3]; simp only [ok_bind]
      rw [hI3.hH, conc_vertexOf w P L hy1]
      simp only [ok_bind]
      obtain ⟨s4, h4, hI4⟩ : ∃ s', runIf (x1 - y1.weight > 0) (s3.gainNext 1) (none, s3) =
          .ok (if y1.weight < x1 then some g1 else none, s') ∧ GInv H M P L F G s' := by
        unfold runIf
        by_cases hx : y1.weight < x1
        · rw [if_pos (show x1 - y1.weight > 0 by omega), if_pos hx]
          obtain ⟨o, s', ho, hI, hog⟩ := ggainNext_ok hI3 (Or.inr rfl)
          cases o with
          | none => exact absurd hg1 (hog _ _)
          | some g =>
            obtain ⟨⟨u, hu⟩, hmax⟩ := hog
            have a1 := hm1 _ _ hu
            have a2 := hmax _ _ hg1
            have : g = g1 := by omega
            subst this
            exact ⟨s', ho, hI⟩
        · rw [if_neg (show ¬ x1 - y1.weight > 0 by omega), if_neg hx]
          exact ⟨_, rfl, hI3⟩
      rw [h4]; simp only [ok_bind]
      -- what the comparison says
      have key0 : GainStructure.gainGt (if y0.weight < x0 then some g0 else none)
          (if y1.weight < x1 then some g1 else none) = true →
          y0.weight < x0 ∧ (y1.weight < x1 → g1 < g0) := by
        by_cases a : y0.weight < x0 <;> by_cases b : y1.weight < x1 <;>
          simp [a, b, GainStructure.gainGt]
      have key1 : GainStructure.gainGt (if y1.weight < x1 then some g1 else none)
          (if y0.weight < x0 then some g0 else none) = true →
          y1.weight < x1 ∧ (y0.weight < x0 → g0 < g1) := by
        by_cases a : y0.weight < x0 <;> by_cases b : y1.weight < x1 <;>
          simp [a, b, GainStructure.gainGt]
      have key2 : ¬ GainStructure.gainGt (if y0.weight < x0 then some g0 else none)
          (if y1.weight < x1 then some g1 else none) = true →
          ¬ GainStructure.gainGt (if y1.weight < x1 then some g1 else none)
          (if y0.weight < x0 then some g0 else none) = true →
          (y0.weight < x0 ∧ y1.weight < x1 ∧ g0 = g1) ∨ (x0 ≤ y0.weight ∧ x1 ≤ y1.weight) := by
        by_cases a : y0.weight < x0 <;> by_cases b : y1.weight < x1 <;>
          simp [a, b, GainStructure.gainGt] <;> omega
      generalize (if y0.weight < x0 then some g0 else none) = o0 at key0 key1 key2 ⊢
      generalize (if y1.weight < x1 then some g1 else none) = o1 at key0 key1 key2 ⊢
      split
      · rename_i hc
        have := key0 hc
        refine ⟨0, s4, r2, rfl, Or.inl rfl, hI4, ⟨_, g0, hg0⟩, Or.inr ⟨y0, g0, y1, g1, ht0, ht1,
          fun _ => Or.inl ⟨this.1, fun hb => le_of_lt (this.2 hb)⟩, fun h => by omega⟩⟩
      · rename_i hc0
        split
        · rename_i hc
          have := key1 hc
          refine ⟨1, s4, r2, rfl, Or.inr rfl, hI4, ⟨_, g1, hg1⟩, Or.inr ⟨y0, g0, y1, g1, ht0, ht1,
            fun h => by omega, fun _ => Or.inl ⟨this.1, fun hb => le_of_lt (this.2 hb)⟩⟩⟩
        · rename_i hc1
          have hk := key2 hc0 hc1
          have hrule : ∀ p : Int, (∀ u g, ¬ InBucket H P G (1 - p) u g) ∨
              ∃ y0 g0 y1 g1, TopOf H P G 0 y0 g0 ∧ TopOf H P G 1 y1 g1 ∧
              (p = 0 → (y0.weight < x0 ∧ (y1.weight < x1 → g1 ≤ g0)) ∨
                (x0 ≤ y0.weight ∧ x1 ≤ y1.weight)) ∧
              (p = 1 → (y1.weight < x1 ∧ (y0.weight < x0 → g0 ≤ g1)) ∨
                (x0 ≤ y0.weight ∧ x1 ≤ y1.weight)) := by
            intro p
            refine Or.inr ⟨y0, g0, y1, g1, ht0, ht1, fun _ => ?_, fun _ => ?_⟩
            · omega
            · omega
          rcases Nat.mod_two_eq_zero_or_one r2.draw.1 with hd | hd
          · exact ⟨_, s4, _, rfl, by rw [hd]; simp, hI4, by rw [hd]; exact ⟨_, g0, hg0⟩, hrule _⟩
          · exact ⟨_, s4, _, rfl, by rw [hd]; simp, hI4, by rw [hd]; exact ⟨_, g1, hg1⟩, hrule _⟩

end

end PMondriaan

import Verif.Model.MachineMlPar
import Verif.Proofs.MachineMl
import Verif.Proofs.MachineMain
import Verif.Proofs.MlPar
import Verif.Proofs.MachineParRound

/-
The parallel coarsening in 64-bit arithmetic gives what the coarsening without bounds gives when the weights are
nonnegative and their total over all processors is at most `2^61`.
-/

namespace PMondriaan

open Spec Contraction

variable {F : Type} {N p : Nat} {h : Nat → Hypergraph} {σ : Nat → List Nat}

/-- A loop that succeeds also succeeds with bodies that give the same results. -/
theorem mapM_sim {α β : Type} {f g : α → Res β} : ∀ {l : List α} {r : List β}, l.mapM f = .ok r →
    (∀ a ∈ l, ∀ b ∈ r, f a = .ok b → g a = .ok b) → l.mapM g = .ok r := by
  intro l
  induction l with
  | nil => intro r h _; exact h
  | cons a l ih =>
    intro r h hg
    rw [List.mapM_cons] at h ⊢
    cases hf : f a with
    | error x => rw [hf] at h; cases h
    | ok b =>
      rw [hf, ok_bind] at h
      cases hl : l.mapM f with
      | error x => rw [hl] at h; cases h
      | ok bs =>
        rw [hl, ok_bind] at h
        cases h
        rw [hg a (by simp) b (by simp) hf, ok_bind,
          ih hl (fun x hx y hy => hg x (by simp [hx]) y (by simp [hy])), ok_bind]
        rfl

/-! ### Free vertices -/

theorem removeFreeVertices64_eq {C : Contraction} {H : Hypergraph} {r : Contraction × Hypergraph × Int}
    (h : C.removeFreeVertices H = .ok r) (hf : ∀ f ∈ r.1.free, 0 ≤ f.2) (hb : r.2.2 < 2 ^ 63) :
    C.removeFreeVertices64 H = .ok r := by
  unfold Contraction.removeFreeVertices at h
  unfold Contraction.removeFreeVertices64
  cases hm : (H.vertices.foldl collectFree (C.free, 0)).1.foldlM
      (fun (H : Hypergraph) f => H.removeFreeVertex f.1) H with
  | error x =>
    simp only [hm, error_bind] at h
    cases h
  | ok H' =>
    simp only [hm, ok_bind, pure_eq_ok] at h
    cases h
    rw [collectFree64_eq _ _ (le_refl _) hf hb]
    simp only [ok_bind, hm, pure_eq_ok]

theorem mergeFreePar64_eq {S R : List CProc} (h : mergeFreePar S = .ok R) (hf : ∀ c ∈ R, ∀ f ∈ c.1.free, 0 ≤ f.2)
    (h0 : ∀ c ∈ R, 0 ≤ c.1.localFree) (hb : (R.map (fun c => c.1.localFree)).sum < 2 ^ 63) :
    mergeFreePar64 S = .ok R := by
  unfold mergeFreePar at h
  unfold mergeFreePar64
  cases hm : S.mapM (fun s => s.1.removeFreeVertices s.2) with
  | error x => rw [hm] at h; cases h
  | ok rs =>
    rw [hm] at h
    simp only [ok_bind, pure_eq_ok] at h
    cases h
    rw [List.map_map] at hb
    have h0' : ∀ r ∈ rs, 0 ≤ r.2.2 := fun r hr => h0 _ (List.mem_map.2 ⟨r, hr, rfl⟩)
    have hle : ∀ r ∈ rs, r.2.2 < 2 ^ 63 := by
      intro r hr
      refine lt_of_le_of_lt ?_ hb
      exact entry_le_sum (fun x hx => by
        obtain ⟨y, hy, rfl⟩ := List.mem_map.1 hx
        exact h0' y hy) (List.mem_map.2 ⟨r, hr, rfl⟩)
    rw [mapM_sim hm (fun a _ b hb' he => removeFreeVertices64_eq he
      (hf _ (List.mem_map.2 ⟨b, hb', rfl⟩)) (hle b hb')), ok_bind]
    have hs := sumLong_eq (rs.map (fun r => r.2.2)) 0 (le_refl _) (by
      intro x hx
      obtain ⟨y, hy, rfl⟩ := List.mem_map.1 hx
      exact h0' y hy) (by rw [zero_add]; exact hb)
    rw [hs]
    simp only [ok_bind, pure_eq_ok, foldl_add_sum, zero_add]

/-! ### Information about the matches -/

theorem vertexAt_get' {H : Hypergraph} {i : Nat} {v : Vertex} (h : H.vertexAt i = .ok v) : H.vertices[i]? = some v := by
  unfold Hypergraph.vertexAt at h
  split at h
  · rename_i e; cases h; exact e
  · cases h

theorem vertexAt_mem' {H : Hypergraph} {i : Nat} {v : Vertex} (h : H.vertexAt i = .ok v) : v ∈ H.vertices :=
  List.mem_of_getElem? (vertexAt_get' h)

theorem infoFlush_out {order : List Nat → List Nat} {p ss : Nat} {H : Hypergraph} {st : InfoState} {g : Nat}
    {out : List (Nat × InfoMsg)} (h : infoFlush order p ss H st g = .ok out) :
    ∃ o, out = st.out ++ [o] ∧ o.2.weight = st.weight := by
  unfold infoFlush at h
  split at h
  · cases h
  · obtain ⟨costs, -, h⟩ := bind_eq_ok.1 h
    obtain ⟨o, ho, h⟩ := bind_eq_ok.1 h
    cases h
    refine ⟨o, rfl, ?_⟩
    unfold send at ho
    split at ho
    · cases ho; rfl
    · cases ho

/-- The weight in messages and the weight that is still to be sent. -/
def toldSoFar (st : InfoState) : Int := (st.out.map (fun x => x.2.weight)).sum + st.weight

theorem infoNext_out {order : List Nat → List Nat} {p ss : Nat} {H : Hypergraph} {st st' : InfoState} {g : Nat}
    (h : infoNext order p ss H st g = .ok st') (h0 : 0 ≤ st.weight) (ho : ∀ x ∈ st.out, 0 ≤ x.2.weight) :
    0 ≤ st'.weight ∧ (∀ x ∈ st'.out, 0 ≤ x.2.weight) ∧ toldSoFar st' = toldSoFar st := by
  unfold infoNext at h
  split at h
  · cases h; exact ⟨h0, ho, rfl⟩
  · split at h
    · obtain ⟨out, he, h⟩ := bind_eq_ok.1 h
      cases h
      obtain ⟨o, rfl, hw⟩ := infoFlush_out he
      refine ⟨le_refl _, ?_, ?_⟩
      · intro x hx
        rcases List.mem_append.1 hx with hx | hx
        · exact ho x hx
        · rw [List.mem_singleton] at hx; subst hx; rw [hw]; exact h0
      · unfold toldSoFar
        simp only [List.map_append, List.sum_append, List.map_cons, List.map_nil, List.sum_cons, List.sum_nil, hw]
        omega
    · cases h; exact ⟨h0, ho, rfl⟩

theorem infoSteps64 {order : List Nat → List Nat} {p ss : Nat} {H : Hypergraph} (w : WF H) (hw : WeightsNonneg H) :
    ∀ (l : List (Nat × Nat)) (st st' : InfoState), l.foldlM (infoStep order p ss H) st = .ok st' → 0 ≤ st.weight →
      (∀ x ∈ st.out, 0 ≤ x.2.weight) →
      toldSoFar st + (l.map (fun y => (vtxOf H.vertices y.2).weight)).sum < 2 ^ 63 →
      l.foldlM (infoStep64 order p ss H) st = .ok st' ∧ 0 ≤ st'.weight ∧ (∀ x ∈ st'.out, 0 ≤ x.2.weight) ∧
      toldSoFar st' = toldSoFar st + (l.map (fun y => (vtxOf H.vertices y.2).weight)).sum := by
  intro l
  induction l with
  | nil =>
    intro st st' h h0 ho hb
    cases h
    exact ⟨rfl, h0, ho, by simp⟩
  | cons y l ih =>
    intro st st' h h0 ho hb
    have hnn : ∀ z ∈ l, 0 ≤ (vtxOf H.vertices z.2).weight := by
      intro z _
      unfold vtxOf
      cases hf : H.vertices.find? (fun v => v.id == z.2) with
      | none => exact le_refl _
      | some v => exact hw v (List.mem_of_find?_eq_some hf)
    rw [List.foldlM_cons] at h ⊢
    cases hs : infoStep order p ss H st y with
    | error x => rw [hs] at h; cases h
    | ok s1 =>
      rw [hs, ok_bind] at h
      have hs2 := hs
      unfold infoStep at hs2
      obtain ⟨s0, k1, hs2⟩ := bind_eq_ok.1 hs2
      obtain ⟨i, k2, hs2⟩ := bind_eq_ok.1 hs2
      obtain ⟨mt, k3, hs2⟩ := bind_eq_ok.1 hs2
      obtain ⟨v, k4, hs2⟩ := bind_eq_ok.1 hs2
      cases hs2
      obtain ⟨a1, a2, a3⟩ := infoNext_out k1 h0 ho
      have hid : v.id = y.2 := by
        unfold Hypergraph.localId at k2
        split at k2
        · cases k2
        · rename_i i' hi'
          split at k2
          · cases k2
            obtain ⟨v', hv', hid⟩ := (w.vmap_iff _ _).1 hi'
            have := vertexAt_get' k4
            rw [hv'] at this
            cases this
            exact hid
          · cases k2
      have hvm := vertexAt_mem' k4
      have hv : vtxOf H.vertices y.2 = v := by rw [← hid]; exact vtxOf_eq w.vids hvm
      have hv0 := hw v hvm
      rw [List.map_cons, List.sum_cons, hv] at hb ⊢
      have hrest := sum_map_nonneg l (fun z => (vtxOf H.vertices z.2).weight) hnn
      have hout0 : 0 ≤ (s0.out.map (fun x => x.2.weight)).sum := sum_map_nonneg _ _ a2
      have hle : s0.weight + v.weight < 2 ^ 63 := by unfold toldSoFar at a3 hb; omega
      have e64 : infoStep64 order p ss H st y = infoStep order p ss H st y := by
        rw [hs]
        unfold infoStep64
        rw [k1, ok_bind, k2, ok_bind, k3, ok_bind, k4, ok_bind, long_nat (by omega) hle, ok_bind]
        rfl
      rw [e64, hs, ok_bind]
      have hts : toldSoFar ⟨some y.1, s0.weight + v.weight, v.nets.foldl setInsert s0.nets, s0.out, mt⟩ = toldSoFar st + v.weight := by
        unfold toldSoFar at a3 ⊢
        dsimp only
        omega
      obtain ⟨b1, b2, b3, b4⟩ := ih _ st' h (by dsimp only; omega) a2 (by rw [hts]; omega)
      exact ⟨b1, b2, b3, by rw [b4, hts]; omega⟩

theorem infoSends64_eq {order : List Nat → List Nat} {p ss : Nat} {H : Hypergraph} (w : WF H) (hw : WeightsNonneg H)
    {acc : List (Nat × Nat)} (hnd : (acc.map (·.2)).Nodup) (hin : ∀ y ∈ acc, IsVertex H y.2)
    (hT : (H.vertices.map (·.weight)).sum < 2 ^ 63) {r : List Bool × List (Nat × InfoMsg)}
    (h : infoSends order p ss H acc = .ok r) :
    infoSends64 order p ss H acc = .ok r ∧ (∀ x ∈ r.2, 0 ≤ x.2.weight) ∧
      (r.2.map (fun x => x.2.weight)).sum ≤ (H.vertices.map (·.weight)).sum := by
  have hperm : (acc.mergeSort pairLe).Perm acc := List.mergeSort_perm _ _
  have hsum : ((acc.mergeSort pairLe).map (fun y => (vtxOf H.vertices y.2).weight)).sum ≤
      (H.vertices.map (·.weight)).sum := by
    rw [(hperm.map _).sum_eq]
    have e1 : acc.map (fun y => (vtxOf H.vertices y.2).weight) =
        (acc.map (·.2)).map (fun u => (vtxOf H.vertices u).weight) := by rw [List.map_map]; rfl
    have e2 : H.vertices.map (·.weight) =
        (H.vertices.map (·.id)).map (fun u => (vtxOf H.vertices u).weight) := by
      rw [List.map_map]
      apply List.map_congr_left
      intro v hv
      simp only [Function.comp_apply, vtxOf_eq w.vids hv]
    rw [e1, e2]
    have hsp : (acc.map (·.2)).Subperm (H.vertices.map (·.id)) := by
      apply List.subperm_of_subset hnd
      intro u hu
      obtain ⟨y, hy, rfl⟩ := List.mem_map.1 hu
      exact hin y hy
    obtain ⟨l, hl, hsub⟩ := hsp
    rw [← (hl.map _).sum_eq]
    have hnn : ∀ x ∈ (H.vertices.map (·.id)).map (fun u => (vtxOf H.vertices u).weight), 0 ≤ x := by
      rw [← e2]
      intro x hx
      obtain ⟨v, hv, rfl⟩ := List.mem_map.1 hx
      exact hw v hv
    exact List.Sublist.sum_le_sum (hsub.map _) hnn
  unfold infoSends at h
  obtain ⟨st, hs, h⟩ := bind_eq_ok.1 h
  obtain ⟨out, ho, h⟩ := bind_eq_ok.1 h
  cases h
  obtain ⟨a1, a2, a3, a4⟩ := infoSteps64 w hw _ _ st hs (le_refl _) (by simp) (by
    unfold toldSoFar
    simp only [List.map_nil, List.sum_nil]
    omega)
  have a4' : toldSoFar st ≤ (H.vertices.map (·.weight)).sum := by
    rw [a4]
    unfold toldSoFar
    simp only [List.map_nil, List.sum_nil]
    omega
  refine ⟨?_, ?_⟩
  · unfold infoSends64
    rw [a1, ok_bind, ho, ok_bind]
    rfl
  · unfold infoLast at ho
    unfold toldSoFar at a4'
    split at ho
    · cases ho
      exact ⟨a3, by dsimp only; omega⟩
    · obtain ⟨o, rfl, hwo⟩ := infoFlush_out ho
      refine ⟨?_, ?_⟩
      · intro x hx
        rcases List.mem_append.1 hx with hx | hx
        · exact a3 x hx
        · rw [List.mem_singleton] at hx; subst hx; rw [hwo]; exact a2
      · simp only [List.map_append, List.sum_append, List.map_cons, List.map_nil, List.sum_cons, List.sum_nil, hwo]
        omega

/-! ### The samples grow -/

theorem infoReceives64 : ∀ (msgs : List InfoMsg) (st st' : GrowState), msgs.foldlM infoReceive st = .ok st' →
    (∀ m ∈ msgs, 0 ≤ m.weight) → (∀ x ∈ st.weights, 0 ≤ x) →
    st.weights.sum + (msgs.map (·.weight)).sum < 2 ^ 63 →
    msgs.foldlM infoReceive64 st = .ok st' ∧ (∀ x ∈ st'.weights, 0 ≤ x) ∧
      st'.weights.sum = st.weights.sum + (msgs.map (·.weight)).sum := by
  intro msgs
  induction msgs with
  | nil => intro st st' h _ h0 _; cases h; exact ⟨rfl, h0, by simp⟩
  | cons m msgs ih =>
    intro st st' h hm h0 hb
    rw [List.foldlM_cons] at h ⊢
    cases hs : infoReceive st m with
    | error x => rw [hs] at h; cases h
    | ok s1 =>
      rw [hs, ok_bind] at h
      have hs2 := hs
      unfold infoReceive at hs2
      obtain ⟨x, k1, hs2⟩ := bind_eq_ok.1 hs2
      obtain ⟨l, k2, hs2⟩ := bind_eq_ok.1 hs2
      obtain ⟨nets, k3, hs2⟩ := bind_eq_ok.1 hs2
      cases hs2
      have hx := vget_eq_ok.1 k1
      have hx0 := h0 x (List.mem_of_getElem? hx)
      have hxs := entry_le_sum h0 (List.mem_of_getElem? hx)
      have hm0 := hm m (by simp)
      rw [List.map_cons, List.sum_cons] at hb ⊢
      have hrest := sum_map_nonneg msgs (·.weight) (fun m hm' => hm m (by simp [hm']))
      have e64 : infoReceive64 st m = infoReceive st m := by
        rw [hs]
        unfold infoReceive64
        rw [k1, ok_bind, long_nat (by omega) (by omega), ok_bind, k2, ok_bind, k3, ok_bind]
        rfl
      rw [e64, hs, ok_bind]
      obtain ⟨b1, b2, b3⟩ := ih _ st' h (fun m hm' => hm m (by simp [hm'])) (by
        intro z hz
        rcases List.mem_or_eq_of_mem_set hz with hz | rfl
        · exact h0 z hz
        · omega) (by dsimp only; rw [sum_set_add hx]; omega)
      refine ⟨b1, b2, ?_⟩
      rw [b3]
      dsimp only
      rw [sum_set_add hx]
      omega

theorem contractLocal64_eq {H : Hypergraph} {samples : List Nat} {matched : List Bool} {msgs : List InfoMsg}
    {r : List Vertex × GrowState} (h : contractLocal H samples matched msgs = .ok r) (hm : ∀ m ∈ msgs, 0 ≤ m.weight)
    (hT : (msgs.map (·.weight)).sum < 2 ^ 63) :
    contractLocal64 H samples matched msgs = .ok r ∧ (∀ x ∈ r.2.weights, 0 ≤ x) ∧
      r.2.weights.sum = (msgs.map (·.weight)).sum := by
  unfold contractLocal at h
  obtain ⟨vn, hk, h⟩ := bind_eq_ok.1 h
  obtain ⟨st, hs, h⟩ := bind_eq_ok.1 h
  cases h
  have hrep : (List.replicate samples.length (0 : Int)).sum = 0 := by simp
  obtain ⟨b1, b2, b3⟩ := infoReceives64 msgs _ st hs hm (by
    intro x hx; rw [List.eq_of_mem_replicate hx]) (by dsimp only; rw [hrep]; omega)
  refine ⟨?_, b2, by rw [b3]; dsimp only; rw [hrep, zero_add]⟩
  unfold contractLocal64
  rw [hk, ok_bind]
  dsimp only at b1 ⊢
  rw [b1, ok_bind]
  rfl

theorem growSamples64 {order : List Nat → List Nat} {H : Hypergraph} {st : GrowState} (h0 : ∀ x ∈ st.weights, 0 ≤ x) :
    ∀ (l : List (Nat × Nat)) (B : Int) (HC HC' : Hypergraph), l.foldlM (growSample order H st) HC = .ok HC' →
      (∀ v ∈ HC.vertices, 0 ≤ v.weight ∧ v.weight ≤ B) → 0 ≤ B →
      B + (l.map (fun x => st.weights.getD x.2 0)).sum < 2 ^ 63 →
      l.foldlM (growSample64 order H st) HC = .ok HC' := by
  have hg : ∀ j, 0 ≤ st.weights.getD j 0 := by
    intro j
    rw [List.getD_eq_getElem?_getD]
    cases hj : st.weights[j]? with
    | none => exact le_refl _
    | some x => exact h0 x (List.mem_of_getElem? hj)
  intro l
  induction l with
  | nil => intro B HC HC' h _ _ _; exact h
  | cons x l ih =>
    intro B HC HC' h hv hB hb
    rw [List.foldlM_cons] at h ⊢
    cases hs : growSample order H st HC x with
    | error x => rw [hs] at h; cases h
    | ok H1 =>
      rw [hs, ok_bind] at h
      have hs2 := hs
      unfold growSample at hs2
      obtain ⟨v0, k1, hs2⟩ := bind_eq_ok.1 hs2
      obtain ⟨i, k2, hs2⟩ := bind_eq_ok.1 hs2
      obtain ⟨v, k3, hs2⟩ := bind_eq_ok.1 hs2
      obtain ⟨w, k4, hs2⟩ := bind_eq_ok.1 hs2
      obtain ⟨lst, k5, hs2⟩ := bind_eq_ok.1 hs2
      obtain ⟨q, k6, hs2⟩ := bind_eq_ok.1 hs2
      cases hs2
      have hwv := hv v (vertexAt_mem' k3)
      have hwj : st.weights.getD x.2 0 = w := by
        rw [List.getD_eq_getElem?_getD, vget_eq_ok.1 k4]; rfl
      have hw0 := h0 w (List.mem_of_getElem? (vget_eq_ok.1 k4))
      rw [List.map_cons, List.sum_cons, hwj] at hb
      have hrest := sum_map_nonneg l (fun x => st.weights.getD x.2 0) (fun x _ => hg x.2)
      have e64 : growSample64 order H st HC x = growSample order H st HC x := by
        rw [hs]
        unfold growSample64
        rw [k1, ok_bind, k2, ok_bind, k3, ok_bind, k4, ok_bind, long_nat (by omega) (by omega), ok_bind, k5, ok_bind,
          k6, ok_bind]
        rfl
      rw [e64, hs, ok_bind]
      obtain ⟨c1, c2⟩ := contractNets_keep _ _ _ k6
      refine ih (B + w) _ HC' h ?_ (by omega) (by omega)
      intro z hz
      rw [Hypergraph.setVertex] at hz
      rcases List.mem_or_eq_of_mem_set hz with hz | rfl
      · rw [c2] at hz
        have := hv z hz
        omega
      · rw [c1]
        dsimp only
        omega

theorem getD_range_sum : ∀ (l : List Int), (∀ x ∈ l, 0 ≤ x) → ∀ n,
    ((List.range n).map (fun j => l.getD j 0)).sum ≤ l.sum := by
  intro l
  induction l with
  | nil => intro _ n; simp
  | cons a l ih =>
    intro h n
    have ha := h a (by simp)
    have hl : ∀ x ∈ l, 0 ≤ x := fun x hx => h x (by simp [hx])
    cases n with
    | zero =>
      have := sum_nonneg' hl
      rw [List.sum_cons]
      simp
      omega
    | succ n =>
      rw [List.range_succ_eq_map, List.map_cons, List.map_map, List.sum_cons, List.sum_cons]
      have := ih hl n
      have e : (List.range n).map ((fun j => (a :: l).getD j 0) ∘ Nat.succ) = (List.range n).map (fun j => l.getD j 0) := by
        apply List.map_congr_left
        intro j _
        simp
      rw [e]
      simp only [List.getD_cons_zero]
      omega

theorem growAll64_eq {order : List Nat → List Nat} {size : Nat} {H : Hypergraph} {samples : List Nat}
    {r : List Vertex × GrowState} {HC : Hypergraph} (h : growAll order size H samples r = .ok HC) {B : Int}
    (hv : ∀ v ∈ r.1, 0 ≤ v.weight ∧ v.weight ≤ B) (hB : 0 ≤ B) (h0 : ∀ x ∈ r.2.weights, 0 ≤ x)
    (hb : B + r.2.weights.sum < 2 ^ 63) : growAll64 order size H samples r = .ok HC := by
  unfold growAll at h
  unfold growAll64
  refine growSamples64 h0 _ B _ HC h hv hB ?_
  have e : samples.zipIdx.map (fun x => r.2.weights.getD x.2 0) =
      (List.range samples.length).map (fun j => r.2.weights.getD j 0) := by
    have : samples.zipIdx.map (fun x => r.2.weights.getD x.2 0) =
        (samples.zipIdx.map (·.2)).map (fun j => r.2.weights.getD j 0) := by rw [List.map_map]; rfl
    rw [this, List.zipIdx_map_snd, List.range_eq_range']
  rw [e]
  have := getD_range_sum _ h0 samples.length
  omega

/-! ### The whole coarsening -/

theorem Matching.accNodup {ss maxC : Nat} {m : Nat → List (List (Nat × Nat))} {acc : Nat → List (Nat × Nat)}
    (hM : Matching ss maxC p h σ m acc) {s : Nat} (hs : s < p) : ((acc s).map (·.2)).Nodup := by
  have hnd := hM.nodup
  rw [List.nodup_flatMap] at hnd
  obtain ⟨hn1, hn2⟩ := hnd
  -- a vertex is matched to one sample only
  have hone : ∀ (t j : Nat) (l : List (Nat × Nat)) (t' j' : Nat) (l' : List (Nat × Nat)) (u x x' : Nat), t < p → t' < p → (m t)[j]? = some l → (m t')[j']? = some l' →
      (u, x) ∈ l → (u, x') ∈ l' → t = t' ∧ j = j' := by
    intro t j l t' j' l' u x x' ht ht' hl hl' hu hu'
    have htt : t = t' := by
      by_contra hne
      have : Std.Symm (Function.onFun List.Disjoint fun t => (m t).flatten.map (·.1)) :=
        ⟨fun _ _ hab => List.Disjoint.symm hab⟩
      have hd := hn2.forall (List.mem_range.2 ht) (List.mem_range.2 ht') hne
      refine hd (a := u) ?_ ?_
      · exact List.mem_map.2 ⟨(u, x), List.mem_flatten.2 ⟨l, List.mem_of_getElem? hl, hu⟩, rfl⟩
      · exact List.mem_map.2 ⟨(u, x'), List.mem_flatten.2 ⟨l', List.mem_of_getElem? hl', hu'⟩, rfl⟩
    subst htt
    refine ⟨rfl, ?_⟩
    have h1 := hn1 t (List.mem_range.2 ht)
    rw [List.map_flatten, List.nodup_flatten] at h1
    have h2 := List.pairwise_iff_getElem.1 h1.2
    obtain ⟨b1, c1⟩ := List.getElem?_eq_some_iff.1 hl
    obtain ⟨b2, c2⟩ := List.getElem?_eq_some_iff.1 hl'
    by_contra hne
    rcases Nat.lt_or_gt_of_ne hne with hlt | hlt
    · have hd := h2 j j' (by rw [List.length_map]; exact b1) (by rw [List.length_map]; exact b2) hlt
      rw [List.getElem_map, List.getElem_map, c1, c2] at hd
      exact hd (List.mem_map.2 ⟨(u, x), hu, rfl⟩) (List.mem_map.2 ⟨(u, x'), hu', rfl⟩)
    · have hd := h2 j' j (by rw [List.length_map]; exact b2) (by rw [List.length_map]; exact b1) hlt
      rw [List.getElem_map, List.getElem_map, c1, c2] at hd
      exact hd (List.mem_map.2 ⟨(u, x'), hu', rfl⟩) (List.mem_map.2 ⟨(u, x), hu, rfl⟩)
  rw [List.nodup_iff_count_le_one]
  intro u
  by_cases hu : u ∈ (acc s).map (·.2)
  swap
  · rw [List.count_eq_zero_of_not_mem hu]; omega
  obtain ⟨y, hy, rfl⟩ := List.mem_map.1 hu
  obtain ⟨t, j, l, ht, hl, hyl, hy1⟩ := (hM.accMem s hs y).1 hy
  have hS := hM.accSum (fun v => if v = y.2 then 1 else 0) t j l ht hl
  -- the right-hand side is at most one
  have hr : (l.map (fun z => if z.1 = y.2 then (1 : Int) else 0)).sum ≤ 1 := by
    have hln : (l.map (·.1)).Nodup := by
      have h1 := hn1 t (List.mem_range.2 ht)
      rw [List.map_flatten, List.nodup_flatten] at h1
      exact h1.1 _ (List.mem_map.2 ⟨l, List.mem_of_getElem? hl, rfl⟩)
    have hc := List.nodup_iff_count_le_one.1 hln y.2
    have : ∀ l : List (Nat × Nat), (l.map (fun z => if z.1 = y.2 then (1 : Int) else 0)).sum =
        ((l.map (·.1)).count y.2 : Int) := by
      intro l
      induction l with
      | nil => rfl
      | cons z l ih =>
        rw [List.map_cons, List.sum_cons, ih, List.map_cons, List.count_cons]
        by_cases hz : z.1 = y.2 <;> simp [hz]
        omega
    rw [this]
    omega
  -- the left-hand side counts the vertex
  have hle : ((acc s).map (·.2)).count y.2 ≤
      ((((List.range p).flatMap acc).filter (fun z => z.1 = t * ss + j)).map (·.2)).count y.2 := by
    have e1 : ((acc s).map (·.2)).count y.2 = (((acc s).filter (fun z => z.1 = t * ss + j)).map (·.2)).count y.2 := by
      have : ∀ L : List (Nat × Nat), (∀ z ∈ L, z ∈ acc s) →
          (L.map (·.2)).count y.2 = ((L.filter (fun z => z.1 = t * ss + j)).map (·.2)).count y.2 := by
        intro L
        induction L with
        | nil => intro _; rfl
        | cons z L ih =>
          intro hL
          have ih := ih (fun z hz => hL z (by simp [hz]))
          by_cases hz : z.1 = t * ss + j
          · rw [List.filter_cons_of_pos (by simpa using hz), List.map_cons, List.map_cons, List.count_cons,
              List.count_cons, ih]
          · rw [List.filter_cons_of_neg (by simpa using hz), List.map_cons, List.count_cons, ← ih]
            have hzu : z.2 ≠ y.2 := by
              intro he
              obtain ⟨t', j', l', ht', hl', hzl, hz1⟩ := (hM.accMem s hs z).1 (hL z (by simp))
              rw [he] at hzl
              obtain ⟨rfl, rfl⟩ := hone t j l t' j' l' y.2 s s ht ht' hl hl' hyl hzl
              exact hz hz1
            simp [hzu]
      exact this _ (fun z hz => hz)
    rw [e1]
    apply List.Sublist.count_le
    apply List.Sublist.map
    apply List.Sublist.filter
    rw [List.flatMap_def]
    exact List.sublist_flatten_of_mem (List.mem_map.2 ⟨s, List.mem_range.2 hs, rfl⟩)
  have hcount : ∀ L : List (Nat × Nat), (L.map (fun z => if z.2 = y.2 then (1 : Int) else 0)).sum =
      ((L.map (·.2)).count y.2 : Int) := by
    intro L
    induction L with
    | nil => rfl
    | cons z L ih =>
      rw [List.map_cons, List.sum_cons, ih, List.map_cons, List.count_cons]
      by_cases hz : z.2 = y.2 <;> simp [hz]
      omega
  rw [hcount] at hS
  omega

theorem coarsenFrom64_range (E : CoarseEnv F) (ho : ∀ l, (E.order l).Perm l)
    (hn : ∀ k l, (E.nthLocal k l).Perm l) (hn2 : ∀ k l, (E.nthOwner k l).Perm l)
    (hdS : Fair E.dSample) (hdR : Fair E.dReq) (hdA : Fair E.dAcc) (hdI : Fair E.dInfo)
    (hd1 : Fair E.d1) (hd2 : Fair E.d2) (opts : Options) (hD : Distributed N ((List.range p).map h))
    (hv : E.np.Valid p N) (hσ : SamplesOk opts.sampleSize p h σ) (hpos : ∀ t, t < p → WeightsNonneg (h t))
    (hT : ((List.range p).map (fun t => allWeight (h t))).sum ≤ 2 ^ 61) :
    coarsenFrom64 E opts ((List.range p).map h) ((List.range p).map σ) =
      coarsenFrom E opts ((List.range p).map h) ((List.range p).map σ) := by
  have hw : ∀ t, t < p → WF (h t) := fun t ht =>
    hD.wf _ (List.mem_map.2 ⟨t, List.mem_range.2 ht, rfl⟩)
  have hc : ∀ t, t < p → ∀ n ∈ (h t).nets, n.cost = unionCost ((List.range p).map h) n.id :=
    fun t ht n hn => (unionCost_eq hD (List.mem_map.2 ⟨t, List.mem_range.2 ht, rfl⟩) hn).symm
  have hW0 : ∀ t, t < p → 0 ≤ allWeight (h t) := fun t ht => sum_map_nonneg _ _ (hpos t ht)
  have hWt : ∀ t, t < p → allWeight (h t) ≤ 2 ^ 61 := fun t ht => le_trans (rangeSum_entry hW0 ht) hT
  obtain ⟨outs, reqs, m, out2, g1, g2, g3, hM⟩ :=
    matchPhase_ok E ho hn hn2 hdS hdR hdA opts hw hD.disjoint hσ
  obtain ⟨fl, out, st, k1, k2, k3, k4⟩ := contractPhase_ok ho hdI hw hD.disjoint hσ hM hc
  obtain ⟨HC, k5⟩ := k4 (((List.range p).map (fun t => (st t).1.length)).foldl (· + ·) 0)
  obtain ⟨Rs, R, f1, f2, f3, f4⟩ := coarsenFinish_ok hD hσ hM (fun t ht => (k5 t ht).2) hv hd1 hd2 ho
  -- the messages about the matches
  have q1 : ∀ t, t < p → infoSends64 E.order p opts.sampleSize (h t)
        (inbox E.dAcc ((List.range p).map out2) t) = .ok (fl t, out t) ∧
      (∀ x ∈ out t, 0 ≤ x.2.weight) ∧ ((out t).map (fun x => x.2.weight)).sum ≤ allWeight (h t) := by
    intro t ht
    refine infoSends64_eq (hw t ht) (hpos t ht) (hM.accNodup ht) ?_ ?_ (k1 t ht)
    · intro y hy
      obtain ⟨t', j, l, ht', hl, hyl, -⟩ := (hM.accMem t ht y).1 hy
      obtain ⟨-, i, v, hv, hid, -⟩ := hM.vtx t' ht' l (List.mem_of_getElem? hl) _ hyl
      exact List.mem_map.2 ⟨v, List.mem_of_getElem? hv, hid⟩
    · have := hWt t ht
      unfold allWeight at this
      omega
  have q2 : ∀ t, t < p → (∀ x ∈ inbox E.dInfo ((List.range p).map out) t, 0 ≤ x.weight) ∧
      ((inbox E.dInfo ((List.range p).map out) t).map (·.weight)).sum ≤ 2 ^ 61 := by
    intro t ht
    constructor
    · intro x hx
      obtain ⟨o, ho', hx⟩ := (mem_inbox hdI).1 hx
      obtain ⟨s, hs, rfl⟩ := List.mem_map.1 ho'
      exact (q1 s (List.mem_range.1 hs)).2.1 _ hx
    · rw [((inbox_perm hdI ((List.range p).map out) t).map (·.weight)).sum_eq, List.map_map]
      have hnn : ∀ x ∈ ((List.range p).map out).flatten.map (fun x => x.2.weight), 0 ≤ x := by
        intro x hx
        obtain ⟨y, hy, rfl⟩ := List.mem_map.1 hx
        obtain ⟨o, ho', hy⟩ := List.mem_flatten.1 hy
        obtain ⟨s, hs, rfl⟩ := List.mem_map.1 ho'
        exact (q1 s (List.mem_range.1 hs)).2.1 _ hy
      have hsub : (List.map ((fun x : InfoMsg => x.weight) ∘ fun x => x.2)
          (((List.range p).map out).flatten.filter (fun x => x.1 = t))).Sublist
          (((List.range p).map out).flatten.map (fun x => x.2.weight)) := (List.filter_sublist).map _
      refine le_trans (List.Sublist.sum_le_sum hsub hnn) (le_trans ?_ hT)
      rw [List.map_flatten, List.map_map]
      have hfl : ∀ L : List (List Int), L.flatten.sum = (L.map List.sum).sum := fun L => List.sum_flatten
      rw [hfl, List.map_map]
      exact rangeSum_le (fun s hs => (q1 s hs).2.2)
  have q3 : ∀ t, t < p → contractLocal64 (h t) (σ t) (fl t) (inbox E.dInfo ((List.range p).map out) t) = .ok (st t) ∧
      (∀ x ∈ (st t).2.weights, 0 ≤ x) ∧ (st t).2.weights.sum ≤ 2 ^ 61 := by
    intro t ht
    have hq := q2 t ht
    obtain ⟨b1, b2, b3⟩ := contractLocal64_eq (k2 t ht) hq.1 (by omega)
    exact ⟨b1, b2, by rw [b3]; exact hq.2⟩
  have q4 : ∀ t, t < p → growAll64 E.order (((List.range p).map (fun t => (st t).1.length)).foldl (· + ·) 0) (h t)
      (σ t) (st t) = .ok (HC t) := by
    intro t ht
    obtain ⟨-, b2, b3⟩ := q3 t ht
    refine growAll64_eq (k5 t ht).1 (B := 2 ^ 61) ?_ (by omega) b2 (by omega)
    rw [k3 t ht]
    intro v hv
    obtain ⟨u, hu, rfl⟩ := List.mem_map.1 hv
    have hu := (List.mem_filter.1 hu).1
    have h0 := hpos t ht u hu
    have hle : u.weight ≤ allWeight (h t) :=
      entry_le_sum (fun x hx => by obtain ⟨z, hz, rfl⟩ := List.mem_map.1 hx; exact hpos t ht z hz)
        (List.mem_map.2 ⟨u, hu, rfl⟩)
    exact ⟨h0, le_trans hle (hWt t ht)⟩
  -- the free vertices
  have q5 : mergeFreePar64 (((List.range p).map (fun t => contractionOf (h t) (σ t) (m t))).zip Rs) = .ok R := by
    have hU : WeightsNonneg (unionH N ((List.range p).map h)) := by
      intro v hv
      obtain ⟨H, hH, hv⟩ := List.mem_flatMap.1 hv
      obtain ⟨t, ht, rfl⟩ := List.mem_map.1 hH
      exact hpos t (List.mem_range.1 ht) v hv
    obtain ⟨hf0, hv0⟩ := free_nonneg hU f3.contraction
    have hfree : ∀ c ∈ R, ∀ f ∈ c.1.free, 0 ≤ f.2 := fun c hc f hf =>
      hf0 f (List.mem_flatMap.2 ⟨c.1, List.mem_map.2 ⟨c, hc, rfl⟩, hf⟩)
    have htot := CoarsenedPar_weight hD f3
    have hR0 : 0 ≤ (R.map (fun c => allWeight c.2)).sum := by
      apply sum_map_nonneg
      intro c hc
      apply sum_map_nonneg
      intro v hv
      refine hv0 v ?_
      exact List.mem_flatMap.2 ⟨c.2, List.mem_map.2 ⟨c, hc, rfl⟩, hv⟩
    have hsum : (R.map (fun c => c.1.localFree)).sum = totalFree R := by
      unfold totalFree
      congr 1
      apply List.map_congr_left
      intro c hc
      exact (f3.free c hc).1
    refine mergeFreePar64_eq f2 hfree ?_ ?_
    · intro c hc
      rw [(f3.free c hc).1]
      exact sum_map_nonneg _ _ (hfree c hc)
    · rw [hsum]
      rw [List.map_map] at htot
      have : (List.range p).map (allWeight ∘ h) = (List.range p).map (fun t => allWeight (h t)) := rfl
      rw [this] at htot
      omega
  have hlen : ((List.range p).map h).length = p := by simp
  have hz : ((List.range p).map h).zip ((List.range p).map σ) =
      (List.range p).map (fun t => (h t, σ t)) := List.zip_map'
  have hz2 : ((List.range p).map (fun t => (freshC (h t) (σ t), reqs t))).zip
      ((List.range p).map σ) = (List.range p).map (fun t => ((freshC (h t) (σ t), reqs t), σ t)) := List.zip_map'
  have hr1 : ((List.range p).map (fun t => (freshC (h t) (σ t), reqs t))).map (·.2) =
      (List.range p).map reqs := by rw [List.map_map]; rfl
  have hr2 : ((List.range p).map (fun t => (contractionOf (h t) (σ t) (m t), out2 t))).map (·.2) =
      (List.range p).map out2 := by rw [List.map_map]; rfl
  have hr2' : ((List.range p).map (fun t => (contractionOf (h t) (σ t) (m t), out2 t))).map (·.1) =
      (List.range p).map (fun t => contractionOf (h t) (σ t) (m t)) := by rw [List.map_map]; rfl
  have hr3 : ((List.range p).map (fun t => (fl t, out t))).map (·.2) = (List.range p).map out := by
    rw [List.map_map]; rfl
  have hz3 : ((List.range p).map (fun t => (h t, σ t))).zip
      ((List.range p).map (fun t => (fl t, out t))) =
      (List.range p).map (fun t => ((h t, σ t), (fl t, out t))) := List.zip_map'
  have hz4 : ((List.range p).map (fun t => (h t, σ t))).zip ((List.range p).map st) =
      (List.range p).map (fun t => ((h t, σ t), st t)) := List.zip_map'
  have hr4 : ((List.range p).map st).map (fun r => r.1.length) =
      (List.range p).map (fun t => (st t).1.length) := by rw [List.map_map]; rfl
  have hreq : ∀ t, t < p → requestStep E opts p ((List.range p).map outs) ((h t, σ t), t) =
      .ok (freshC (h t) (σ t), reqs t) := by
    intro t ht
    unfold requestStep
    simp only
    rw [addSamples_eq (hσ t ht).2.1, ok_bind, g2 t ht]
    rfl
  unfold coarsenFrom coarsenFrom64
  simp only [hlen]
  rw [hz, zipIdx_rangeMap, mapM_rangeMap (g := outs) (fun t ht => g1 t ht), ok_bind, ok_bind,
    mapM_rangeMap (g := fun t => (freshC (h t) (σ t), reqs t)) hreq, ok_bind, ok_bind, hz2, zipIdx_rangeMap, hr1,
    mapM_rangeMap (g := fun t => (contractionOf (h t) (σ t) (m t), out2 t)) (fun t ht => g3 t ht), ok_bind, ok_bind,
    zipIdx_rangeMap, hr2, hr2', mapM_rangeMap (g := fun t => (fl t, out t)) (fun t ht => (q1 t ht).1),
    mapM_rangeMap (g := fun t => (fl t, out t)) (fun t ht => k1 t ht), ok_bind, ok_bind,
    hz3, zipIdx_rangeMap, hr3, mapM_rangeMap (g := st) (fun t ht => (q3 t ht).1),
    mapM_rangeMap (g := st) (fun t ht => k2 t ht), ok_bind, ok_bind,
    hz4, hr4, mapM_rangeMap (g := HC) (fun t ht => q4 t ht), mapM_rangeMap (g := HC) (fun t ht => (k5 t ht).1), ok_bind,
    ok_bind, f1, ok_bind, ok_bind, f2, q5]

theorem coarsenFrom64_eq (E : CoarseEnv F) (hE : CoarseEnvOk E p N) (opts : Options)
    {Hs : List Hypergraph} (hp : Hs.length = p) (hD : Distributed N Hs) {S : List (List Nat)}
    (hS : S.length = p) (hnd : ∀ l ∈ S, l.Nodup ∧ l.length ≤ opts.sampleSize)
    (hin : ∀ (t : Nat) H l, Hs[t]? = some H → S[t]? = some l → ∀ x ∈ l, x < H.vertices.length)
    (hpos : ∀ H ∈ Hs, WeightsNonneg H) (hT : (Hs.map allWeight).sum ≤ 2 ^ 61) :
    coarsenFrom64 E opts Hs S = coarsenFrom E opts Hs S := by
  have e1 : Hs = (List.range p).map (hAt Hs) := by
    apply List.ext_getElem?
    intro i
    by_cases hi : i < p
    · rw [rangeMap_get hi, hAt_get (by omega)]
    · rw [List.getElem?_eq_none (by omega), List.getElem?_eq_none (by simp; omega)]
  have e2 : S = (List.range p).map (fun t => S.getD t []) := by
    apply List.ext_getElem?
    intro i
    by_cases hi : i < p
    · rw [rangeMap_get hi, List.getD_eq_getElem?_getD, List.getElem?_eq_getElem (by omega)]
      rfl
    · rw [List.getElem?_eq_none (by omega), List.getElem?_eq_none (by simp; omega)]
  have hσ : SamplesOk opts.sampleSize p (hAt Hs) (fun t => S.getD t []) := by
    intro t ht
    have hg : S[t]? = some (S.getD t []) := by
      rw [List.getD_eq_getElem?_getD, List.getElem?_eq_getElem (by omega)]
      rfl
    have hgH : Hs[t]? = some (hAt Hs t) := hAt_get (by omega)
    exact ⟨(hnd _ (List.mem_of_getElem? hg)).1, hin t _ _ hgH hg, (hnd _ (List.mem_of_getElem? hg)).2⟩
  have hpos' : ∀ t, t < p → WeightsNonneg (hAt Hs t) := fun t ht =>
    hpos _ (List.mem_of_getElem? (hAt_get (by omega)))
  have hT' : ((List.range p).map (fun t => allWeight (hAt Hs t))).sum ≤ 2 ^ 61 := by
    rw [e1, List.map_map] at hT
    exact hT
  rw [e1] at hD
  have := coarsenFrom64_range E hE.order hE.nthLocal hE.nthOwner hE.dSample hE.dReq hE.dAcc hE.dInfo
    hE.d1 hE.d2 opts hD hE.np hσ hpos' hT'
  rw [← e1, ← e2] at this
  exact this

theorem coarsenPar64_eq {E : CoarseEnv F} (hE : CoarseEnvOk E p N)
    (hacc : ∀ d s, 0 < s → E.accRandom d s s = true) (opts : Options) (ho : opts.samplingLp = true → 1 ≤ opts.sampleSize)
    {Hs : List Hypergraph} (hp : Hs.length = p) (hD : Distributed N Hs) {rngs : List Rng} (hr : rngs.length = p)
    (hpos : ∀ H ∈ Hs, WeightsNonneg H) (hT : (Hs.map allWeight).sum ≤ 2 ^ 61) :
    coarsenPar64 E opts Hs rngs = coarsenPar E opts Hs rngs := by
  unfold coarsenPar64 coarsenPar
  cases hm : (Hs.zip rngs).mapM (fun x => drawSamples E opts x.1 x.2) with
  | error x => simp only [error_bind]
  | ok ss =>
    simp only [ok_bind]
    have hz : ∀ x ∈ Hs.zip rngs, ∃ b, (fun x => drawSamples E opts x.1 x.2) x = .ok b ∧
        (fun (x : Hypergraph × Rng) (b : List Nat × Rng) => b.1.Nodup ∧
          (∀ y ∈ b.1, y < x.1.vertices.length) ∧ b.1.length ≤ opts.sampleSize) x b := by
      intro x hx
      obtain ⟨b, hb⟩ := (mapM_ok_mem hm).1 x hx
      have hxH := (List.of_mem_zip hx).1
      have hs : SamplingOk E opts x.1 x.2 := by
        cases hlp : opts.samplingLp with
        | true => exact Or.inl ⟨hlp, ho hlp⟩
        | false =>
          refine Or.inr ⟨hlp, ?_, fun i s hs => hacc _ s hs⟩
          intro h0
          unfold drawSamples at hb
          rw [hlp] at hb
          have := C24_empty E.accRandom h0 opts.sampleSize x.2
          simp only [Bool.false_eq_true, if_false, this] at hb
          cases hb
      obtain ⟨l, r, g1, g2, g3, g4⟩ := drawSamples_ok E hE.shuf (hD.wf _ hxH) hs
      exact ⟨(l, r), g1, g2, g3, g4⟩
    obtain ⟨ss', e1, hF⟩ := mapM_choose hz
    have hss : ss' = ss := by
      have := e1.symm.trans hm
      exact Except.ok.inj this
    subst hss
    have hlen : ss'.length = p := by
      rw [← hF.length_eq, List.length_zip]; omega
    rw [coarsenFrom64_eq E hE opts hp hD (S := ss'.map (·.1)) (by simpa using hlen) (by
      intro l hl
      obtain ⟨b, hb, rfl⟩ := List.mem_map.1 hl
      obtain ⟨a, -, hab⟩ := forall2_mem_right hF hb
      exact ⟨hab.1, hab.2.2⟩) (by
      intro t H l hH hl
      rw [List.getElem?_map] at hl
      obtain ⟨b, hb, rfl⟩ := Option.map_eq_some_iff.1 hl
      have htp : t < p := by
        have := (List.getElem?_eq_some_iff.1 hb).1; omega
      have hzt : (Hs.zip rngs)[t]? = some (H, rngs[t]'(by omega)) := by
        rw [List.getElem?_zip_eq_some]
        exact ⟨hH, List.getElem?_eq_getElem _⟩
      have hg := (List.forall₂_iff_get.1 hF).2 t (by rw [List.length_zip]; omega) (by omega)
      simp only [List.get_eq_getElem] at hg
      have h1 := (List.getElem?_eq_some_iff.1 hzt).2
      have h2 := (List.getElem?_eq_some_iff.1 hb).2
      rw [h1, h2] at hg
      exact hg.2.1) hpos hT]

end PMondriaan

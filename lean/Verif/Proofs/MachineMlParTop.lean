import Verif.Proofs.MachineMlPar
import Verif.Proofs.MlParTop

/-
The beginning and the end of the multilevel bisection on several processors in 64-bit arithmetic.
-/

namespace PMondriaan

open Spec Contraction

section

variable {N : Nat} {xs : List RangeOf} {M : List CProc} {W max0 max1 : Int}

theorem started_free_pos (hpos : ∀ x ∈ xs, ∀ v ∈ x.H.vertices, 0 < v.weight) (h : List.Forall₂ (Started N xs) xs M) :
    ∀ m ∈ M, ∀ f ∈ m.1.free, 0 < f.2 := by
  intro m hm f hf
  obtain ⟨x, hx, hst⟩ := forall2_mem_right h hm
  have := hst.verts.subset (List.mem_append_right _ hf)
  obtain ⟨u, hu, he⟩ := List.mem_map.1 this
  rw [← he]
  exact hpos x hx u ((inRange_sub x).subset hu)

theorem Started.total {x : RangeOf} {m : CProc} (h : Started N xs x m) :
    allWeight m.2 + (m.1.free.map (·.2)).sum = ((inRange x).map (·.weight)).sum := by
  have := (h.verts.map (·.2)).sum_eq
  rw [List.map_append, List.sum_append, List.map_map, List.map_map] at this
  exact this

/-- The weights of the started processors together are those of the ranges. -/
theorem started_total (h : List.Forall₂ (Started N xs) xs M) :
    ((M.map (·.2)).map allWeight).sum + totalFree M = (xs.map (fun x => ((inRange x).map (·.weight)).sum)).sum := by
  have h' : List.Forall₂ (fun (x : RangeOf) (m : CProc) =>
      allWeight m.2 + (m.1.free.map (·.2)).sum = ((inRange x).map (·.weight)).sum) xs M := by
    refine h.imp ?_
    intro x m hst
    exact hst.total
  unfold totalFree
  clear h
  induction h' with
  | nil => simp
  | cons hx _ ih =>
    rw [List.map_cons, List.map_cons, List.map_cons, List.map_cons, List.sum_cons, List.sum_cons, List.sum_cons]
    omega

theorem totalFree_nonneg (hpos : ∀ x ∈ xs, ∀ v ∈ x.H.vertices, 0 < v.weight) (h : List.Forall₂ (Started N xs) xs M) :
    0 ≤ totalFree M := by
  unfold totalFree
  apply sum_map_nonneg
  intro m hm
  exact sum_map_nonneg _ _ (fun f hf => le_of_lt (started_free_pos hpos h m hm f hf))

/-- What is needed to put the free vertices back at the end. -/
theorem finish_ready (hD : Distributed N (xs.map (·.H))) (hne : xs ≠ [])
    (h : List.Forall₂ (Started N xs) xs M) (hg : ∀ m ∈ M, m.1.globalFree = totalFree M)
    {L : List (Hypergraph × Option Int × Rng)} (hL : LevelBisected N (M.map (·.2)) L) :
    FreeReady ((M.map (·.1)).zip (L.map (·.1))) ∧ totalFree ((M.map (·.1)).zip (L.map (·.1))) = totalFree M ∧
    worldWeight ((M.map (·.1)).zip (L.map (·.1))) = ((M.map (·.2)).map allWeight).sum + totalFree M ∧
    ∀ (i : Nat) s, ((M.map (·.1)).zip (L.map (·.1)))[i]? = some s → ∃ x m q, xs[i]? = some x ∧ m ∈ M ∧ q ∈ L ∧
      s = (m.1, q.1) ∧ Started N xs x m ∧ SameUpToParts m.2 q.1 := by
  have hlM : M.length = xs.length := h.length_eq.symm
  have hlL : L.length = xs.length := by
    have := hL.same.length_eq
    rw [List.length_map, List.length_map] at this
    omega
  set S := (M.map (·.1)).zip (L.map (·.1)) with hS
  have hSl : S.length = xs.length := by rw [hS, List.length_zip, List.length_map, List.length_map]; omega
  have hget : ∀ (i : Nat) s, S[i]? = some s → ∃ x m q, xs[i]? = some x ∧ m ∈ M ∧ q ∈ L ∧
      s = (m.1, q.1) ∧ Started N xs x m ∧ SameUpToParts m.2 q.1 := by
    intro i s hi
    obtain ⟨i1, i2⟩ := List.getElem?_zip_eq_some.1 hi
    rw [List.getElem?_map] at i1 i2
    obtain ⟨m, hm1, hm2⟩ := Option.map_eq_some_iff.1 i1
    obtain ⟨q, hq1, hq2⟩ := Option.map_eq_some_iff.1 i2
    have hil := (List.getElem?_eq_some_iff.1 hm1).1
    have hix : i < xs.length := by omega
    refine ⟨xs[i], m, q, List.getElem?_eq_getElem hix, List.mem_of_getElem? hm1, List.mem_of_getElem? hq1, ?_, ?_, ?_⟩
    · rw [hm2, hq2]
    · have := (List.forall₂_iff_get.1 h).2 i hix hil
      simp only [List.get_eq_getElem] at this
      rw [List.getElem?_eq_getElem hil] at hm1
      rw [← Option.some.inj hm1]
      exact this
    · have hiq := (List.getElem?_eq_some_iff.1 hq1).1
      have := (List.forall₂_iff_get.1 hL.same).2 i (by rw [List.length_map]; exact hil)
        (by rw [List.length_map]; exact hiq)
      simp only [List.get_eq_getElem, List.getElem_map] at this
      rw [List.getElem?_eq_getElem hil] at hm1
      rw [List.getElem?_eq_getElem hiq] at hq1
      rw [← Option.some.inj hm1, ← Option.some.inj hq1]
      exact this
  have hmemS : ∀ s ∈ S, ∃ x m q, x ∈ xs ∧ m ∈ M ∧ q ∈ L ∧ s = (m.1, q.1) ∧ Started N xs x m ∧
      SameUpToParts m.2 q.1 := by
    intro s hs
    obtain ⟨i, hi⟩ := List.getElem?_of_mem hs
    obtain ⟨x, m, q, a1, a2, a3, a4⟩ := hget i s hi
    exact ⟨x, m, q, List.mem_of_getElem? a1, a2, a3, a4⟩
  have htf : totalFree S = totalFree M := by
    unfold totalFree
    have e1 : S.map (fun s => (s.1.free.map (·.2)).sum) =
        (S.map (·.1)).map (fun c => (c.free.map (·.2)).sum) := by rw [List.map_map]; rfl
    rw [e1, hS, List.map_fst_zip (by rw [List.length_map, List.length_map]; omega), List.map_map]
    rfl
  refine ⟨?_, htf, ?_, hget⟩
  swap
  · unfold worldWeight
    have e1 : S.map (fun s => (s.2.vertices.map (·.weight)).sum) = (S.map (·.2)).map allWeight := by
      rw [List.map_map]; rfl
    rw [htf, e1, hS, List.map_snd_zip (by rw [List.length_map, List.length_map]; omega)]
    congr 2
    exact (forall2_map_eq hL.same (fun a b hab => by unfold allWeight; rw [hab.weights]))
  refine ⟨?_, ?_, ?_, ?_, ?_, ?_, ?_⟩
  · intro h0
    rw [h0] at hSl
    exact hne (List.length_eq_zero_iff.1 hSl.symm)
  · intro s hs
    obtain ⟨x, m, q, hx, hm, hq, rfl, hst, hsm⟩ := hmemS s hs
    exact hL.dist.wf _ (List.mem_map.2 ⟨q, hq, rfl⟩)
  · intro s hs
    obtain ⟨x, m, q, hx, hm, hq, rfl, hst, hsm⟩ := hmemS s hs
    exact hL.bip q hq
  · intro s hs
    obtain ⟨x, m, q, hx, hm, hq, rfl, hst, hsm⟩ := hmemS s hs
    have hnd : (x.H.vertices.map (·.id)).Nodup := (hD.wf _ (List.mem_map.2 ⟨x, hx, rfl⟩)).vids
    have := hst.sub
    exact subperm_nodup ((List.sublist_append_right _ _).subperm.trans this) hnd
  · intro s hs f hf hv
    obtain ⟨x, m, q, hx, hm, hq, rfl, hst, hsm⟩ := hmemS s hs
    have hnd : (x.H.vertices.map (·.id)).Nodup := (hD.wf _ (List.mem_map.2 ⟨x, hx, rfl⟩)).vids
    have h1 := subperm_nodup hst.sub hnd
    unfold IsVertex at hv
    rw [hsm.vids] at hv
    exact (List.nodup_append.1 h1).2.2 _ hv _ (List.mem_map.2 ⟨f, hf, rfl⟩) rfl
  · intro s hs
    obtain ⟨x, m, q, hx, hm, hq, rfl, hst, hsm⟩ := hmemS s hs
    exact hst.localFree
  · intro s hs
    obtain ⟨x, m, q, hx, hm, hq, rfl, hst, hsm⟩ := hmemS s hs
    rw [htf]
    exact hg m hm

theorem finishPar64_sim (hD : Distributed N (xs.map (·.H))) (hne : xs ≠ [])
    (hpos : ∀ x ∈ xs, ∀ v ∈ x.H.vertices, 0 < v.weight)
    (h : List.Forall₂ (Started N xs) xs M) (hg : ∀ m ∈ M, m.1.globalFree = totalFree M)
    {L : List (Hypergraph × Option Int × Rng)} (hL : LevelBisected N (M.map (·.2)) L)
    {srt : List (Nat × Int) → List (Nat × Int)} (hsrt : ∀ l, (srt l).Perm l)
    (hb : ModerateBounds max0 max1) (hW : (xs.map (fun x => ((inRange x).map (·.weight)).sum)).sum ≤ W)
    (hW60 : W ≤ 2 ^ 60) (hw0 : W * max0 < 2 ^ 63) (hw1 : W * max1 < 2 ^ 63)
    {labels : Interval} (rngs : Nat → Rng) {as : List AState} {rs : List RState}
    (ha : assignFreePar srt ((M.map (·.1)).zip (L.map (·.1))) max0 max1 rngs = .ok as)
    (hf : (xs.zip as).mapM (fun x => do
        let H ← x.2.H.vertices.foldlM (copyLabel labels) x.1.H
        pure ({ H := H, w0 := x.2.H.weightPart 0, w1 := x.2.H.weightPart 1, rng := x.2.rng } : RState)) = .ok rs) :
    assignFreePar64 srt ((M.map (·.1)).zip (L.map (·.1))) max0 max1 rngs = .ok as ∧
    (xs.zip as).mapM (finishOne64 labels) = .ok rs := by
  obtain ⟨hfr, htf, hww, hget⟩ := finish_ready hD hne h hg hL
  have hfpos := started_free_pos hpos h
  have htot := started_total h
  rw [htot] at hww
  have n0 := hb.n0
  have n1 := hb.n1
  have l0 := hb.l0
  have l1 := hb.l1
  have hvn : ∀ m ∈ M, WeightsNonneg m.2 := by
    intro m hm v hv
    obtain ⟨x, hx, hst⟩ := forall2_mem_right h hm
    have := hst.verts.subset (List.mem_append_left _ (List.mem_map.2 ⟨v, hv, rfl⟩))
    obtain ⟨u, hu, he⟩ := List.mem_map.1 this
    have he2 : u.weight = v.weight := congrArg Prod.snd he
    rw [← he2]
    exact le_of_lt (hpos x hx u ((inRange_sub x).subset hu))
  have hmem : ∀ s ∈ (M.map (·.1)).zip (L.map (·.1)), ∃ m ∈ M, ∃ q ∈ L, s = (m.1, q.1) ∧ SameUpToParts m.2 q.1 := by
    intro s hs
    obtain ⟨i, hi⟩ := List.getElem?_of_mem hs
    obtain ⟨x, m, q, -, hm, hq, he, -, hsm⟩ := hget i s hi
    exact ⟨m, hm, q, hq, he, hsm⟩
  constructor
  · rw [assignFreePar64_eq hsrt hfr ?_ ?_ n0 n1 hb.prod (by omega) (by rw [hww]; omega)
      (by rw [hww]; exact mul_mono_lt hW n0 hw0) (by rw [hww]; exact mul_mono_lt hW n1 hw1) rngs]
    · exact ha
    · intro s hs f hf
      obtain ⟨m, hm, q, hq, rfl, -⟩ := hmem s hs
      exact le_of_lt (hfpos m hm f hf)
    · intro s hs
      obtain ⟨m, hm, q, hq, rfl, hsm⟩ := hmem s hs
      exact hsm.weightsNonneg (hvn m hm)
  · have hm0 : totalFree ((M.map (·.1)).zip (L.map (·.1))) ≠ 0 → max0 + max1 ≠ 0 := by
      intro h1 h2
      rw [C30_zero_bounds hfr h1 max0 max1 h2] at ha
      cases ha
    obtain ⟨as', a1, a2, a3, -⟩ := assignFreePar_ok hsrt hfr max0 max1 hm0 rngs
    rw [ha] at a1
    cases a1
    refine mapM_sim hf ?_
    intro y hy b _ hyb
    obtain ⟨i, hi⟩ := List.getElem?_of_mem hy
    obtain ⟨i1, i2⟩ := List.getElem?_zip_eq_some.1 hi
    have hil := (List.getElem?_eq_some_iff.1 i2).1
    rw [a2] at hil
    have hsi := List.getElem?_eq_getElem hil
    obtain ⟨a, l, f, b1, b2, b3⟩ := a3 i _ hsi
    obtain ⟨x, m, q, c1, hm, hq, c4, hst, hsm⟩ := hget i _ hsi
    rw [i2] at b1
    cases b1
    rw [i1] at c1
    cases c1
    have hx : y.1 ∈ xs := List.mem_of_getElem? i1
    have hff : ∀ g ∈ f, g ∈ m.1.free := by
      intro g hg
      rw [c4] at b3
      split at b3
      · subst b3; cases hg
      · exact b3.subset hg
    have hfs : (f.map (·.2)).sum ≤ (m.1.free.map (·.2)).sum := by
      rw [c4] at b3
      split at b3
      · subst b3
        exact sum_map_nonneg _ _ (fun g hg => le_of_lt (hfpos m hm g hg))
      · exact le_of_eq (b3.map _).sum_eq
    have hlw : l.map (·.weight) = f.map (·.2) := by
      have := congrArg (List.map (fun z : Nat × Int => z.2)) b2.free.1
      rw [List.map_map] at this
      exact this
    have hwn : WeightsNonneg y.2.H := by
      intro v hv
      rw [b2.verts, c4, List.mem_append] at hv
      rcases hv with hv | hv
      · exact hsm.weightsNonneg (hvn m hm) v hv
      · have h1 : v.weight ∈ f.map (·.2) := by rw [← hlw]; exact List.mem_map.2 ⟨v, hv, rfl⟩
        obtain ⟨g, hg, he⟩ := List.mem_map.1 h1
        rw [← he]
        exact le_of_lt (hfpos m hm g (hff g hg))
    have hsum : (y.2.H.vertices.map (·.weight)).sum < 2 ^ 63 := by
      rw [b2.verts, c4, List.map_append, List.sum_append, hlw]
      have h1 := hst.total
      have h2 : (q.1.vertices.map (·.weight)).sum = allWeight m.2 := by unfold allWeight; rw [← hsm.weights]
      have h3 : ((inRange y.1).map (·.weight)).sum ≤ (xs.map (fun x => ((inRange x).map (·.weight)).sum)).sum := by
        apply entry_le_sum ?_ (List.mem_map.2 ⟨y.1, hx, rfl⟩)
        intro z hz
        obtain ⟨x', hx', rfl⟩ := List.mem_map.1 hz
        exact sum_map_nonneg _ _ (fun v hv => le_of_lt (hpos x' hx' v ((inRange_sub x').subset hv)))
      dsimp only
      omega
    unfold finishOne64
    rw [bind_eq_ok] at hyb
    obtain ⟨H, h1, h2⟩ := hyb
    rw [h1, ok_bind, weightPart64_eq hwn hsum, ok_bind, weightPart64_eq hwn hsum, ok_bind]
    simpa only [weightPart_eq] using h2

end

end PMondriaan

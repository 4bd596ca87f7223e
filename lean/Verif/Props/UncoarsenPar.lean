import Mathlib.Algebra.Order.BigOperators.Group.List
import Verif.Proofs.UncoarsenStep

/-
C56: uncoarsening on several processors.
-/

namespace PMondriaan

open Spec

/-- What is assumed of the undetermined parts: the sort permutes, no message is lost or invented, every
net has a processor. -/
structure UncoarseEnvOk (E : UncoarseEnv) (p N : Nat) : Prop where
  srt : ∀ l, (E.srt l).Perm l
  dPart : Fair E.dPart
  dCount : Fair E.dCount
  refine : ParFair E.refine
  np : E.refine.np.Valid p N

namespace Spec

/-- The state in which a step of the parallel uncoarsening starts: `R` are the contractions and coarse
hypergraphs that the parallel coarsening of `Hs` made, and `Gs` are the coarse hypergraphs, bisected. -/
structure BisectedCoarse (N maxC : Nat) (Hs : List Hypergraph) (S : List (List Nat)) (R : List CProc)
    (Gs : List Hypergraph) : Prop where
  nonempty : Hs ≠ []
  dist : Distributed N Hs
  coarse : CoarsenedPar N Hs S maxC R
  same : List.Forall₂ (fun c G => SameUpToParts c.2 G) R Gs
  labelled : Distributed N Gs
  bip : ∀ G ∈ Gs, Bipartitioned G
  pos : ∀ H ∈ Hs, ∀ v ∈ H.vertices, 0 < v.weight

/-- The bisection of the coarse hypergraphs `As`, to which the free vertices have been added, has been
carried over to the hypergraphs `Hs`, giving `Hs'`. -/
structure Uncoarsened (N : Nat) (Hs : List Hypergraph) (R : List CProc) (Gs As Hs' : List Hypergraph) :
    Prop where
  same : List.Forall₂ SameUpToParts Hs Hs'
  dist : Distributed N Hs'
  bip : ∀ H ∈ Hs', Bipartitioned H
  cluster : Projected (partOf (unionH N As)) (wholeContraction Hs (R.map (·.1))) (unionH N Hs')
  cut : ∀ m, cutValue m (unionH N Hs') = cutValue m (unionH N Gs)
  weight : ∀ q, partWeight (unionH N Hs') q = partWeight (unionH N As) q

/-- What holds on the processors after one step of the parallel uncoarsening of `Hs`. -/
structure StepDone (N : Nat) (Hs : List Hypergraph) (ps : List ParResult) : Prop where
  same : List.Forall₂ (fun H q => SameUpToParts H q.H) Hs ps
  dist : Distributed N (ps.map (·.H))
  bip : ∀ q ∈ ps, Bipartitioned q.H
  cut : ∀ q ∈ ps, q.cut = cutValue .cutNet (unionH N (ps.map (·.H)))

/-- Global sizes are the true sizes of the nets, and no net has a negative cost. -/
structure TrueSizes (Hs : List Hypergraph) : Prop where
  sizes : ∀ H ∈ Hs, ∀ n ∈ H.nets, n.globalSize = (unionPins Hs n.id).length
  costs : ∀ H ∈ Hs, CostsNonneg H

/-- Either part may hold all the weight, and no processor has a net without pins. -/
structure Roomy (max0 max1 : Int) (Hs : List Hypergraph) : Prop where
  pins : ∀ H ∈ Hs, ∀ n ∈ H.nets, n.vertices ≠ []
  le0 : (Hs.map allWeight).sum ≤ max0
  le1 : (Hs.map allWeight).sum ≤ max1

end Spec

section

variable {N maxC p : Nat} {Hs : List Hypergraph} {S : List (List Nat)} {R : List CProc}
  {Gs : List Hypergraph}

theorem getD_rangeMap {α : Type} (l : List α) (d : α) :
    l = (List.range l.length).map (fun t => l.getD t d) := by
  apply List.ext_getElem?
  intro i
  by_cases hi : i < l.length
  · rw [rangeMap_get hi, List.getD_eq_getElem?_getD, List.getElem?_eq_getElem hi]
    rfl
  · rw [List.getElem?_eq_none (by omega), List.getElem?_eq_none (by simp; omega)]

theorem Spec.BisectedCoarse.functional (hB : BisectedCoarse N maxC Hs S R Gs) :
    ∃ (h k g : Nat → Hypergraph) (c : Nat → Contraction), Hs = (List.range Hs.length).map h ∧
      R = (List.range Hs.length).map (fun t => (c t, k t)) ∧ Gs = (List.range Hs.length).map g ∧
      StepReady N maxC Hs.length S h k g c := by
  set H0 := Hypergraph.create 0 0 [] []
  set p := Hs.length with hp
  have e1 : Hs = (List.range p).map (fun t => Hs.getD t H0) := getD_rangeMap Hs H0
  have e2 : R = (List.range p).map (fun t => ((R.getD t ({}, H0)).1, (R.getD t ({}, H0)).2)) := by
    have := getD_rangeMap R (({}, H0) : CProc)
    rw [hB.coarse.len] at this
    exact this
  have e3 : Gs = (List.range p).map (fun t => Gs.getD t H0) := by
    have := getD_rangeMap Gs H0
    rw [← hB.same.length_eq, hB.coarse.len] at this
    exact this
  refine ⟨_, _, _, _, e1, e2, e3, ?_, ?_, ?_, ?_, ?_, ?_, ?_⟩
  · exact List.length_pos_iff.2 hB.nonempty
  · rw [← e1]; exact hB.dist
  · rw [← e1, ← e2]; exact hB.coarse
  · intro t ht
    have h1 := (List.forall₂_iff_get.1 hB.same).2 t (by rw [hB.coarse.len]; exact ht)
      (by rw [← hB.same.length_eq, hB.coarse.len]; exact ht)
    simp only [List.get_eq_getElem] at h1
    rw [List.getD_eq_getElem?_getD, List.getD_eq_getElem?_getD,
      List.getElem?_eq_getElem (by rw [hB.coarse.len]; exact ht),
      List.getElem?_eq_getElem (by rw [← hB.same.length_eq, hB.coarse.len]; exact ht)]
    exact h1
  · rw [← e3]; exact hB.labelled
  · intro t ht
    apply hB.bip
    rw [e3]
    exact List.mem_map.2 ⟨t, List.mem_range.2 ht, by rw [← e3]⟩
  · intro t ht
    apply hB.pos
    rw [e1]
    exact List.mem_map.2 ⟨t, List.mem_range.2 ht, by rw [← e1]⟩

theorem forall2_range {α β : Type} {P : α → β → Prop} {p : Nat} {f : Nat → α} {g : Nat → β}
    (h : ∀ t, t < p → P (f t) (g t)) :
    List.Forall₂ P ((List.range p).map f) ((List.range p).map g) := by
  rw [List.forall₂_map_left_iff, List.forall₂_map_right_iff]
  exact List.forall₂_same.2 (fun t ht => h t (List.mem_range.1 ht))

theorem Spec.BisectedCoarse.freeReady (hB : BisectedCoarse N maxC Hs S R Gs) :
    FreeReady ((R.map (·.1)).zip Gs) := by
  obtain ⟨h, k, g, c, e1, e2, e3, I⟩ := hB.functional
  rw [e2, e3, I.coarse1, List.zip_map']
  exact I.freeReady

/-- When there is room and there are free vertices, the bounds are not both zero. -/
theorem Spec.BisectedCoarse.room (hB : BisectedCoarse N maxC Hs S R Gs)
    (hf : totalFree ((R.map (·.1)).zip Gs) ≠ 0) {max0 max1 : Int} (hr : Roomy max0 max1 Hs) :
    max0 + max1 ≠ 0 := by
  have hpos : 0 < (Hs.map allWeight).sum := by
    have hnn : ∀ x ∈ Hs.map allWeight, 0 ≤ x := by
      intro x hx
      obtain ⟨H, hH, rfl⟩ := List.mem_map.1 hx
      exact sum_map_nonneg _ _ (fun v hv => le_of_lt (hB.pos H hH v hv))
    rcases lt_or_eq_of_le (List.sum_nonneg hnn) with h | h
    · exact h
    · exfalso
      apply hf
      obtain ⟨h', k, g, c, e1, e2, e3, I⟩ := hB.functional
      rw [e2, e3, I.coarse1, List.zip_map']
      unfold totalFree
      rw [List.map_map]
      apply List.sum_eq_zero
      intro x hx
      obtain ⟨t, ht, rfl⟩ := List.mem_map.1 hx
      have ht := List.mem_range.1 ht
      have hH : h' t ∈ Hs := by rw [e1]; exact List.mem_map.2 ⟨t, List.mem_range.2 ht, rfl⟩
      have hz : allWeight (h' t) = 0 := sum_zero_all hnn h.symm _ (List.mem_map.2 ⟨_, hH, rfl⟩)
      have hv0 : (h' t).vertices = [] := by
        rw [List.eq_nil_iff_forall_not_mem]
        intro v hv
        have h1 := hB.pos _ hH v hv
        have h2 := sum_zero_all (by
          intro y hy
          obtain ⟨u, hu, rfl⟩ := List.mem_map.1 hy
          exact le_of_lt (hB.pos _ hH u hu)) hz _ (List.mem_map.2 ⟨v, hv, rfl⟩)
        omega
      have hs := I.stays ht
      rw [hv0] at hs
      have h3 := hs.length_eq
      simp only [List.map_nil, List.filter_nil, List.length_nil, List.length_append, List.length_map] at h3
      have h4 : (c t).free = [] := List.length_eq_zero_iff.1 (by omega)
      simp [h4]
  have := hr.le0
  have := hr.le1
  omega

/-- C56: for every number of processors, distribution and order of arrival, putting the free vertices back
and `uncoarsen_hypergraph` succeed and give every vertex the label of its cluster, wherever the centre of
the cluster is stored. The cutsize in both metrics is that of the bisection of the coarse hypergraph, and the
weights that are handed on to `KLFM_par` are the weights of the two parts. -/
theorem C56_uncoarsen_par {srt : List (Nat × Int) → List (Nat × Int)} (hsrt : ∀ l, (srt l).Perm l)
    {d : Delivery (Nat × Int)} (hd : Fair d) (hB : BisectedCoarse N maxC Hs S R Gs) {max0 max1 : Int}
    (hm : totalFree ((R.map (·.1)).zip Gs) ≠ 0 → max0 + max1 ≠ 0) (rngs : Nat → Rng) :
    ∃ as Hs', assignFreePar srt ((R.map (·.1)).zip Gs) max0 max1 rngs = .ok as ∧
      uncoarsenPar d ((R.map (·.1)).zip (as.map (·.H))) Hs = .ok Hs' ∧ as.length = Hs.length ∧
      Uncoarsened N Hs R Gs (as.map (·.H)) Hs' ∧
      ∀ a ∈ as, a.w0 = partWeight (unionH N Hs') 0 ∧ a.w1 = partWeight (unionH N Hs') 1 := by
  obtain ⟨h, k, g, c, e1, e2, e3, I⟩ := hB.functional
  set p := Hs.length with hp
  clear_value p
  subst e1 e2 e3
  obtain ⟨a, a1, a2, a3⟩ := I.placed hsrt max0 max1 (by rwa [I.coarse1, List.zip_map'] at hm) rngs
  obtain ⟨P, u1, u2, u3⟩ := I.uncoarsened a2 hd
  have hc1 : ((List.range p).map (fun t => (c t, k t))).map (·.1) = (List.range p).map c := I.coarse1
  have hz1 : ((List.range p).map c).zip ((List.range p).map g) =
      (List.range p).map (fun t => (c t, g t)) := List.zip_map'
  have hz2 : ((List.range p).map c).zip (((List.range p).map a).map (·.H)) =
      (List.range p).map (fun t => (c t, (a t).H)) := by
    rw [List.map_map, List.zip_map']
    rfl
  have hA : ((List.range p).map a).map (·.H) = (List.range p).map (fun t => (a t).H) := by
    rw [List.map_map]; rfl
  have hr : ((List.range p).map h).map (fun H => relabel H P) =
      (List.range p).map (fun t => relabel (h t) P) := by rw [List.map_map]; rfl
  have wU : WF (unionH N ((List.range p).map h)) := unionH_wf I.dist
  refine ⟨(List.range p).map a, _, ?_, ?_, by simp, ⟨?_, u2.dist, ?_, ?_, u3, ?_⟩, ?_⟩
  · rw [hc1, hz1]; exact a1
  · rw [hc1, hz2]; exact u1
  · rw [hr]
    exact forall2_range (fun t _ => relabel_same (h t) P)
  · intro H hH
    rw [hr] at hH
    obtain ⟨t, ht, rfl⟩ := List.mem_map.1 hH
    exact u2.bip t (List.mem_range.1 ht)
  · intro s hs u hu
    rw [hc1] at hs hu
    have hv := members_isVertex (I.coarseState a2).star hu
    rw [unionH_relabel, relabel_partOf wU P hv, hA]
    exact u2.cluster s hs u hu
  · intro q
    rw [hA]
    exact u2.weight q
  · intro x hx
    obtain ⟨t, ht, rfl⟩ := List.mem_map.1 hx
    rw [u2.weight, u2.weight]
    exact a3 t (List.mem_range.1 ht)

/-- C56, the whole of `uncoarsen_hypergraph_par`: it ends in an access out of bounds, or all processors
have the true cutsize of a bisection of the same hypergraph that is no worse than the bisection of the
coarse hypergraph. Missing: the absence of accesses out of bounds in `KLFM_par` (`C51_ub_stale_gains`), unless
the bounds on the weights have slack. -/
theorem C56_step_partial {E : UncoarseEnv} (hE : UncoarseEnvOk E Hs.length N)
    (hB : BisectedCoarse N maxC Hs S R Gs) (hT : TrueSizes Hs)
    (hf : ∀ H ∈ Hs, H.vertices.length < E.fuel)
    (hr : (Hs.map (fun H => H.vertices.length)).sum < E.rounds) (max0 max1 : Int)
    (opts : Options) {cut : Option Int}
    (hcut : ∀ x, cut = some x → x = cutValue .cutNet (unionH N Gs)) (rngs : List Rng) :
    (∃ ps, uncoarsenStepPar E opts max0 max1 cut ((R.map (·.1)).zip Gs) Hs rngs = .ok ps ∧
      StepDone N Hs ps ∧
      cutValue .cutNet (unionH N (ps.map (·.H))) ≤ cutValue .cutNet (unionH N Gs)) ∨
    (¬ Roomy max0 max1 Hs ∧
      uncoarsenStepPar E opts max0 max1 cut ((R.map (·.1)).zip Gs) Hs rngs = .error .ub) := by
  by_cases hbad : totalFree ((R.map (·.1)).zip Gs) ≠ 0 ∧ max0 + max1 = 0
  · right
    refine ⟨fun h => hB.room hbad.1 h hbad.2, ?_⟩
    unfold uncoarsenStepPar
    rw [C30_zero_bounds hB.freeReady hbad.1 max0 max1 hbad.2, error_bind]
  have hm : totalFree ((R.map (·.1)).zip Gs) ≠ 0 → max0 + max1 ≠ 0 := fun h1 h2 => hbad ⟨h1, h2⟩
  obtain ⟨as, Hs', a1, a2, a3, u, a4⟩ := C56_uncoarsen_par hE.srt hE.dPart hB hm (rngAt rngs)
  have hlen : Hs'.length = Hs.length := u.same.length_eq.symm
  have hpins : ∀ e, (unionPins Hs' e).length = (unionPins Hs e).length := by
    intro e
    unfold unionPins
    have hs := u.same
    clear u a1 a2 a3 a4 hE hB hT hf hr hlen
    induction hs with
    | nil => rfl
    | cons hx _ ih =>
      rw [List.flatMap_cons, List.flatMap_cons, List.length_append, List.length_append, ih,
        (filter_pins_agree (agree_of_same hx) e).length_eq]
  have hsz : ∀ H' ∈ Hs', ∀ n ∈ H'.nets, n.globalSize = (unionPins Hs' n.id).length := by
    intro H' hH' n hn
    obtain ⟨H, hH, hs⟩ := forall2_mem_right u.same hH'
    obtain ⟨n0, hn0, h1, -, h3, -⟩ := forall2_mem_right hs.nets hn
    rw [hpins, h1, h3]
    exact hT.sizes H hH n0 hn0
  have hcounts := initCountsPar_ok u.dist (np := E.refine.np) (by rw [hlen]; exact hE.np) hE.dCount u.bip hsz
  set cs := Hs'.map (fun H => H.nets.map (fun n => (⟨pinCount (partOf (unionH N Hs')) (unionNet Hs' n.id) 0,
       pinCount (partOf (unionH N Hs')) (unionNet Hs' n.id) 1⟩ : Cnt))) with hcs
  set args := refineArgs Hs' cs as with hargs
  have hargsH : args.map (·.H) = Hs' := by
    rw [hargs]
    unfold refineArgs
    rw [List.map_map]
    have : ((fun a : ParArgs => a.H) ∘ fun x : (Hypergraph × List Cnt) × Contraction.AState =>
        ({ H := x.1.1, C := x.1.2, w := ⟨x.2.w0, x.2.w1⟩, rng := x.2.rng } : ParArgs)) =
        (fun x => x.1.1) := rfl
    rw [this]
    have h2 : ((Hs'.zip cs).zip as).map (fun x => x.1.1) =
        (((Hs'.zip cs).zip as).map (·.1)).map (·.1) := by rw [List.map_map]; rfl
    have hcl : cs.length = Hs'.length := by rw [hcs]; simp
    rw [h2, List.map_fst_zip (by rw [List.length_zip]; omega), List.map_fst_zip (by omega)]
  have hal : args.length = Hs.length := by
    have := congrArg List.length hargsH
    rw [List.length_map] at this
    omega
  have hmem : ∀ x ∈ args, x.H ∈ Hs' ∧ (∃ y ∈ as, x.w = ⟨y.w0, y.w1⟩) ∧
      x.C = x.H.nets.map (fun n => (⟨pinCount (partOf (unionH N Hs')) (unionNet Hs' n.id) 0,
       pinCount (partOf (unionH N Hs')) (unionNet Hs' n.id) 1⟩ : Cnt)) := by
    intro x hx
    obtain ⟨z, hz, rfl⟩ := List.mem_map.1 hx
    have h1 := List.of_mem_zip hz
    have h2 := List.of_mem_zip h1.1
    refine ⟨h2.1, ⟨z.2, h1.2, rfl⟩, ?_⟩
    have h3 := h1.1
    rw [hcs] at h3
    obtain ⟨i, hi⟩ := List.getElem?_of_mem h3
    obtain ⟨i1, i2⟩ := List.getElem?_zip_eq_some.1 hi
    rw [List.getElem?_map, i1] at i2
    simp only [Option.map_some, Option.some.injEq] at i2
    exact i2.symm
  have hin : ParInput N E.refine.np args := by
    refine ⟨?_, ?_, ?_, ?_, ?_, ?_, ?_⟩
    · rw [hargsH]; exact u.dist
    · rw [hal]; exact hE.np
    · rw [hargsH]
      intro x hx
      exact hsz _ (hmem x hx).1
    · intro x hx
      obtain ⟨H, hH, hs⟩ := forall2_mem_right u.same (hmem x hx).1
      exact hs.costsNonneg (hT.costs H hH)
    · intro x hx
      exact u.bip _ (hmem x hx).1
    · intro x hx
      rw [hargsH]
      exact (hmem x hx).2.2
    · intro x hx
      rw [hargsH]
      obtain ⟨y, hy, he⟩ := (hmem x hx).2.1
      rw [he, (a4 y hy).1, (a4 y hy).2]
  have hlens : Hs'.map (fun H => H.vertices.length) = Hs.map (fun H => H.vertices.length) := by
    have hs := u.same
    clear u a1 a2 a3 a4 hE hB hT hf hr hlen hcs hargs hargsH hal hmem hin hsz hpins hcounts
    induction hs with
    | nil => rfl
    | cons hx _ ih => rw [List.map_cons, List.map_cons, ih, hx.vlen]
  have hstep : uncoarsenStepPar E opts max0 max1 cut ((R.map (·.1)).zip Gs) Hs rngs =
      KLFMPar E.rounds E.fuel E.refine args max0 max1 opts cut := by
    unfold uncoarsenStepPar
    have hz : (((R.map (·.1)).zip Gs).map (·.1)) = R.map (·.1) :=
      List.map_fst_zip (by rw [List.length_map, hB.same.length_eq])
    rw [a1, ok_bind, hz, a2, ok_bind, hcounts, ok_bind]
  rw [hstep]
  have hfuel : ∀ x ∈ args, x.H.vertices.length < E.fuel := by
    intro x hx
    obtain ⟨H, hH, hs⟩ := forall2_mem_right u.same (hmem x hx).1
    rw [hs.vlen]
    exact hf H hH
  have hrounds : (args.map (fun a => a.H.vertices.length)).sum < E.rounds := by
    have : args.map (fun a => a.H.vertices.length) = (args.map (·.H)).map (fun H => H.vertices.length) := by
      rw [List.map_map]; rfl
    rw [this, hargsH, hlens]
    exact hr
  have hcut' : ∀ x, cut = some x → x = cutValue .cutNet (unionH N (args.map (·.H))) := by
    intro x hx
    rw [hargsH, u.cut]
    exact hcut x hx
  have hout : (∃ ps, KLFMPar E.rounds E.fuel E.refine args max0 max1 opts cut = .ok ps ∧ ParOutput N args ps) ∨
      (¬ Roomy max0 max1 Hs ∧ KLFMPar E.rounds E.fuel E.refine args max0 max1 opts cut = .error .ub) := by
    by_cases hsl : Roomy max0 max1 Hs
    · left
      have hwt : ((unionH N (args.map (·.H))).vertices.map (·.weight)).sum = (Hs.map allWeight).sum := by
        rw [hargsH]
        have h1 : ((unionH N Hs').vertices.map (·.weight)).sum = (Hs'.map allWeight).sum := unionH_weight N Hs'
        rw [h1]
        congr 1
        exact forall2_map_eq u.same (fun a b hab => by unfold allWeight; rw [hab.weights])
      obtain ⟨ps, k1, k2, -⟩ := C51_refine_par_slack hE.refine hin hfuel hrounds (max0 := max0) (max1 := max1)
        opts hcut' (by
          intro x hx n hn
          obtain ⟨H, hH, hs⟩ := forall2_mem_right u.same (hmem x hx).1
          obtain ⟨n0, hn0, -, -, -, hp⟩ := forall2_mem_right hs.nets hn
          intro h0
          rw [h0] at hp
          exact hsl.pins H hH n0 hn0 (List.nil_perm.1 hp)) (by
          intro x hx
          obtain ⟨H, hH, hs⟩ := forall2_mem_right u.same (hmem x hx).1
          exact hs.weightsNonneg (fun v hv => le_of_lt (hB.pos H hH v hv)))
        (by rw [hwt]; exact hsl.le0) (by rw [hwt]; exact hsl.le1)
      exact ⟨ps, k1, k2⟩
    · rcases C51_refine_par_partial hE.refine hin hfuel hrounds max0 max1 opts hcut' with h1 | h1
      · exact Or.inl h1
      · exact Or.inr ⟨hsl, h1⟩
  rcases hout with ⟨ps, k1, k2⟩ | k1
  · left
    refine ⟨ps, k1, ⟨?_, k2.dist, k2.bip, k2.cut⟩, ?_⟩
    · rw [List.forall₂_iff_get]
      refine ⟨by rw [k2.length, hal], ?_⟩
      intro i h1 h2
      simp only [List.get_eq_getElem]
      have h3 : i < args.length := by omega
      have h4 : i < Hs'.length := by omega
      have hg := (List.forall₂_iff_get.1 u.same).2 i h1 h4
      simp only [List.get_eq_getElem] at hg
      have hs := k2.same i (args[i]) (ps[i]) (List.getElem?_eq_getElem h3) (List.getElem?_eq_getElem h2)
      have he : args[i].H = Hs'[i] := by
        have : (args.map (·.H))[i]'(by rw [List.length_map]; exact h3) = Hs'[i] := by
          simp only [hargsH]
        rw [List.getElem_map] at this
        exact this
      rw [he] at hs
      exact hg.trans hs
    · have := k2.le
      rw [hargsH, u.cut] at this
      exact this
  · exact Or.inr k1

end

/-- The environment of the examples. -/
def exampleUncoarse : UncoarseEnv where
  srt := sortDesc
  dPart := revDelivery _
  dCount := revDelivery _
  refine := parEnv 3
  rounds := 10
  fuel := 10

example : UncoarseEnvOk exampleUncoarse 2 3 :=
  ⟨sortDesc_perm, revDelivery_fair _, revDelivery_fair _, parEnv_fair 3, blockPart_valid 2 3 (by decide)⟩

/-- The coarse hypergraphs of the example of C47, with the centre on processor 0 in part 0 and the one on
processor 1 in part 1. -/
def exampleBisected : Res (List CProc) := do
  let R ← coarsenFrom exampleCoarseEnv exampleOpts exampleD [[0], [0]]
  let Gs := (R.map (·.2)).map (fun H => relabel H (fun u => if u = 0 then 1 else 0))
  pure ((R.map (·.1)).zip Gs)

/-- Vertex 3 of processor 1 gets its label from vertex 1 of processor 0. -/
example :
    (do
      let X ← exampleBisected
      let as ← assignFreePar exampleUncoarse.srt X 12 12 (fun _ n => n)
      uncoarsenPar exampleUncoarse.dPart ((X.map (·.1)).zip (as.map (·.H))) exampleD :
        Res (List Hypergraph)).toOption.map (fun Hs => Hs.map (fun H => H.vertices.map (fun v => (v.id, v.part)))) =
    some [[(1, 0), (4, 0)], [(0, 1), (3, 0)]] := by
  decide +kernel

/-- With the refinement, vertex 0 follows and no net is cut. -/
example :
    (do
      let X ← exampleBisected
      uncoarsenStepPar exampleUncoarse (parOpts 1) 12 12 (some 1) X exampleD [fun n => n, fun n => n] :
        Res (List ParResult)).toOption.map (fun ps => ps.map (fun q => (q.cut, q.H.vertices.map (·.part)))) =
    some [(0, [0, 0]), (0, [0, 0])] := by
  decide +kernel

end PMondriaan

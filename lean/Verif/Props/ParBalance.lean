import Verif.Props.KLFMPar

/-
C98, C99: when the refinement on several processors keeps the parts within their bounds.
-/

namespace PMondriaan

open Spec

/-! ### C98: one processor -/

/-- C98: on one processor that starts within the bounds, with weights that are not negative and nets
that are not empty, `KLFM_par` ends normally, gives the true cutsize of a bipartition that is no worse
than the initial one with exact counts, reports the true weights of both parts, and both are within the
bounds; whatever the order in which messages arrive, the outcome of the sorts and the random numbers. -/
theorem C98_single {N : Nat} {e : ParEnv} (he : ParFair e) {args : List ParArgs}
    (hi : ParInput N e.np args) (hp : args.length = 1) {fuel rounds : Nat}
    (hf : ∀ a ∈ args, a.H.vertices.length < fuel)
    (hr : (args.map (fun a => a.H.vertices.length)).sum < rounds) {max0 max1 : Int} (opts : Options)
    {cut : Option Int}
    (hcut : ∀ x, cut = some x → x = cutValue .cutNet (unionH N (args.map (·.H))))
    (hne : ∀ a ∈ args, ∀ n ∈ a.H.nets, n.vertices ≠ []) (hw : ∀ a ∈ args, WeightsNonneg a.H)
    (hb : ∀ a ∈ args, a.w.w0 ≤ max0 ∧ a.w.w1 ≤ max1) :
    ∃ ps, KLFMPar rounds fuel e args max0 max1 opts cut = .ok ps ∧ ParOutput N args ps ∧
      ∀ q ∈ ps, q.w = ⟨partWeight (unionH N (ps.map (·.H))) 0,
        partWeight (unionH N (ps.map (·.H))) 1⟩ ∧
        partWeight (unionH N (ps.map (·.H))) 0 ≤ max0 ∧
        partWeight (unionH N (ps.map (·.H))) 1 ≤ max1 := by
  have hcalm : Calm True (args.map (·.H)) max0 max1 :=
    Or.inr ⟨trivial, by rw [List.length_map]; exact hp⟩
  have c : ParCtx True True True N (args.map (·.H)) e.np max0 max1 fuel rounds :=
    ⟨hi.base, List.forall_mem_map.2 hi.costs, fun _ => List.forall_mem_map.2 hne, id, fun _ => hcalm,
      fun _ => ⟨trivial, List.forall_mem_map.2 hw⟩, List.forall_mem_map.2 hf,
      by rw [List.map_map]; exact hr⟩
  have := KLFMPar_out c he (List.forall_mem_map.2 hi.bip) hi.counts (input_total hi)
    (fun _ => Or.inl hcalm) (fun _ => hi.weights) (fun _ => hb) opts hcut
  rcases this with ⟨ps, h1, cut', P', h2, h3, h4, -⟩ | ⟨h, -⟩
  · have h5 := output_of hi rfl h2 h3
    refine ⟨ps, h1, h5.1, fun q hq => ?_⟩
    have e1 := h5.2 trivial q hq
    have e2 := h4 trivial q hq
    rw [e1] at e2
    exact ⟨e1, e2⟩
  · exact absurd trivial h

/-! ### C99: equal weights -/

/-- C99: if all vertices weigh the same, `KLFM_par` starts within the bounds and all processors bring
the same proposals into the same order, then either a bucket array is left or all processors report
the true weights of both parts, and both are within the bounds.
Missing: the order of proposals of equal gain may differ between processors (`C99_arrival_false`), and
with different weights the bounds may be exceeded although the order is the same
(`C99_weights_false`). -/
theorem C99_equal_partial {N : Nat} {e : ParEnv} (he : ParFair e) {args : List ParArgs}
    (hi : ParInput N e.np args) {fuel rounds : Nat}
    (hf : ∀ a ∈ args, a.H.vertices.length < fuel)
    (hr : (args.map (fun a => a.H.vertices.length)).sum < rounds) {max0 max1 : Int} (opts : Options)
    {cut : Option Int}
    (hcut : ∀ x, cut = some x → x = cutValue .cutNet (unionH N (args.map (·.H))))
    (hord : ∀ i, SameOrder (e.pass i)) {w : Int} (hw0 : 0 ≤ w)
    (hw : ∀ a ∈ args, ∀ v ∈ a.H.vertices, v.weight = w)
    (hb : ∀ a ∈ args, a.w.w0 ≤ max0 ∧ a.w.w1 ≤ max1) :
    (∃ ps, KLFMPar rounds fuel e args max0 max1 opts cut = .ok ps ∧ ParOutput N args ps ∧
      ∀ q ∈ ps, q.w = ⟨partWeight (unionH N (ps.map (·.H))) 0,
        partWeight (unionH N (ps.map (·.H))) 1⟩ ∧
        partWeight (unionH N (ps.map (·.H))) 0 ≤ max0 ∧
        partWeight (unionH N (ps.map (·.H))) 1 ≤ max1) ∨
      KLFMPar rounds fuel e args max0 max1 opts cut = .error .ub := by
  have hsame : SameWeights (args.map (·.H)) := ⟨w, List.forall_mem_map.2 hw⟩
  have hnn : ∀ a ∈ args, WeightsNonneg a.H := by
    intro a ha v hv
    rw [hw a ha v hv]; exact hw0
  have c : ParCtx False True True N (args.map (·.H)) e.np max0 max1 fuel rounds :=
    ⟨hi.base, List.forall_mem_map.2 hi.costs, fun h => h.elim, fun h => h.elim, fun h => h.elim,
      fun _ => ⟨trivial, List.forall_mem_map.2 hnn⟩, List.forall_mem_map.2 hf,
      by rw [List.map_map]; exact hr⟩
  have := KLFMPar_out c he (List.forall_mem_map.2 hi.bip) hi.counts (input_total hi)
    (fun _ => Or.inr ⟨hsame, hord⟩) (fun _ => hi.weights) (fun _ => hb) opts hcut
  rcases this with ⟨ps, h1, cut', P', h2, h3, h4, -⟩ | ⟨-, h⟩
  · have h5 := output_of hi rfl h2 h3
    refine Or.inl ⟨ps, h1, h5.1, fun q hq => ?_⟩
    have e1 := h5.2 trivial q hq
    have e2 := h4 trivial q hq
    rw [e1] at e2
    exact ⟨e1, e2⟩
  · exact Or.inr h

/-- Messages arrive everywhere in the order of sending. -/
def evenPass : PassEnv :=
  { dInit := fun _ l => l, dMoves := fun _ _ l => l, dUp := fun _ _ l => l, dDown := fun _ _ l => l,
    dLastUp := fun _ l => l, dLastDown := fun _ l => l, srt := sortMoves }

theorem evenPass_same : SameOrder evenPass := fun _ _ _ _ => rfl

def evenEnv (p N : Nat) : ParEnv :=
  { np := blockPart p N, so := id, dCut := fun _ l => l, dCost := fun _ l => l,
    dProc := fun _ l => l, pass := fun _ => evenPass }

theorem evenEnv_fair (p N : Nat) : ParFair (evenEnv p N) where
  so := fun l => List.Perm.refl l
  cut := id_fair _
  cost := id_fair _
  proc := id_fair _
  pass := fun _ => ⟨id_fair _, fun _ => id_fair _, fun _ => id_fair _, fun _ => id_fair _, id_fair _,
    id_fair _, fun l => (sortMoves_sorts l).1⟩

/-- The tie example with vertices of weight 1: both processors want to move a vertex to part 0. -/
def unitArgs : List ParArgs :=
  [tieH 0 1 2 0 1 1, tieH 3 4 5 1 1 1].map (fun H => ⟨H, [⟨1, 1⟩], ⟨2, 4⟩, fun _ => 0⟩)


theorem unit_input : ParInput 2 (blockPart 2 2) unitArgs where
  dist := by
    refine ⟨?_, by decide, by decide, by decide⟩
    intro H hH
    simp only [unitArgs, List.map_cons, List.map_nil, List.mem_cons, List.not_mem_nil, or_false] at hH
    rcases hH with rfl | rfl <;> exact tieH_wf (by decide) (by decide) (by decide)
  owners := blockPart_valid 2 2 (by decide)
  sizes := by decide
  costs := by unfold CostsNonneg; decide
  bip := by unfold Bipartitioned; decide
  counts := by unfold GlobalCounts; decide
  weights := by decide

/-- The assumptions of `C99_equal_partial` hold, one of the two proposals of the first round is
rejected, and the cutsize still drops from 2 to 0. -/
example : ParFair (evenEnv 2 2) ∧ ParInput 2 (evenEnv 2 2).np unitArgs ∧
    (∀ i, SameOrder ((evenEnv 2 2).pass i)) ∧ (∀ a ∈ unitArgs, ∀ v ∈ a.H.vertices, v.weight = 1) ∧
    (∀ a ∈ unitArgs, a.w.w0 ≤ 3 ∧ a.w.w1 ≤ 4) ∧
    cutValue .cutNet (unionH 2 (unitArgs.map (·.H))) = 2 ∧
    (KLFMPar 10 10 (evenEnv 2 2) unitArgs 3 4 (parOpts 1) none).toOption.map
      (fun ps => (ps.map (fun q => (q.cut, q.w)), partWeight (unionH 2 (ps.map (·.H))) 0)) =
        some ([(0, ⟨3, 3⟩), (0, ⟨3, 3⟩)], 3) :=
  ⟨evenEnv_fair 2 2, unit_input, fun _ => evenPass_same, by decide, by decide, by decide,
    by decide +kernel⟩

/-- C99 without the same order is false: all vertices weigh 1, each processor counts the proposal of the
other one as rejected and keeps its own. Reported are (3, 3), the true weight of part 0 is 4, above
its bound 3. -/
theorem C99_arrival_false : ∃ (N : Nat) (e : ParEnv) (args : List ParArgs) (max0 max1 : Int)
    (opts : Options) (ps : List ParResult), ParFair e ∧ (∀ i, SortsMoves (e.pass i).srt) ∧
    ParInput N e.np args ∧ (∀ a ∈ args, ∀ v ∈ a.H.vertices, v.weight = 1) ∧
    (∀ a ∈ args, a.w.w0 ≤ max0 ∧ a.w.w1 ≤ max1) ∧
    KLFMPar 10 10 e args max0 max1 opts none = .ok ps ∧ (∀ q ∈ ps, q.w = ⟨3, 3⟩) ∧
    max0 = 3 ∧ partWeight (unionH N (ps.map (·.H))) 0 = 4 := by
  have hd : ((KLFMPar 10 10 (parEnv 2) unitArgs 3 4 (parOpts 1) none).toOption.map
      (fun ps => (ps.map (·.w), partWeight (unionH 2 (ps.map (·.H))) 0))) =
      some ([⟨3, 3⟩, ⟨3, 3⟩], 4) := by decide +kernel
  cases hx : KLFMPar 10 10 (parEnv 2) unitArgs 3 4 (parOpts 1) none with
  | error e => rw [hx] at hd; simp [Except.toOption] at hd
  | ok ps =>
    rw [hx] at hd
    simp only [Except.toOption, Option.map_some, Option.some.injEq, Prod.mk.injEq] at hd
    refine ⟨2, parEnv 2, unitArgs, 3, 4, parOpts 1, ps, parEnv_fair 2, fun _ => sortMoves_sorts,
      unit_input, by decide, by decide, hx, ?_, rfl, hd.2⟩
    intro q hq
    have := List.mem_map_of_mem (f := fun q : ParResult => q.w) hq
    rw [hd.1] at this
    simpa using this

/-- C99 with different weights is false even if all messages arrive everywhere in the order of sending:
reported are (28, 6), the true weight of part 0 is 32, above its bound 28. -/
theorem C99_weights_false : ∃ (N : Nat) (e : ParEnv) (args : List ParArgs) (max0 max1 : Int)
    (opts : Options) (ps : List ParResult), ParFair e ∧ (∀ i, SortsMoves (e.pass i).srt) ∧
    (∀ i, SameOrder (e.pass i)) ∧ ParInput N e.np args ∧
    (∀ a ∈ args, a.w.w0 ≤ max0 ∧ a.w.w1 ≤ max1) ∧
    KLFMPar 10 10 e args max0 max1 opts none = .ok ps ∧ (∀ q ∈ ps, q.w = ⟨28, 6⟩) ∧
    max0 = 28 ∧ partWeight (unionH N (ps.map (·.H))) 0 = 32 := by
  have hd : ((KLFMPar 10 10 (evenEnv 2 4) riseArgs 28 30 (parOpts 2) none).toOption.map
      (fun ps => (ps.map (·.w), partWeight (unionH 4 (ps.map (·.H))) 0))) =
      some ([⟨28, 6⟩, ⟨28, 6⟩], 32) := by decide +kernel
  cases hx : KLFMPar 10 10 (evenEnv 2 4) riseArgs 28 30 (parOpts 2) none with
  | error e => rw [hx] at hd; simp [Except.toOption] at hd
  | ok ps =>
    rw [hx] at hd
    simp only [Except.toOption, Option.map_some, Option.some.injEq, Prod.mk.injEq] at hd
    refine ⟨4, evenEnv 2 4, riseArgs, 28, 30, parOpts 2, ps, evenEnv_fair 2 4,
      fun _ => sortMoves_sorts, fun _ => evenPass_same, rise_input, by decide, hx, ?_, rfl, hd.2⟩
    intro q hq
    have := List.mem_map_of_mem (f := fun q : ParResult => q.w) hq
    rw [hd.1] at this
    simpa using this

/-- One processor: vertices 0 and 1 on either side of the only net, part 1 is full. -/
def oneArgs : List ParArgs := [⟨tieH 0 1 2 0 5 4, [⟨1, 1⟩], ⟨5, 5⟩, fun _ => 0⟩]

theorem one_input : ParInput 1 (blockPart 1 1) oneArgs where
  dist := by
    refine ⟨?_, by decide, by decide, by decide⟩
    intro H hH
    simp only [oneArgs, List.map_cons, List.map_nil, List.mem_cons, List.not_mem_nil, or_false] at hH
    subst hH
    exact tieH_wf (by decide) (by decide) (by decide)
  owners := blockPart_valid 1 1 (by decide)
  sizes := by decide
  costs := by unfold CostsNonneg; decide
  bip := by unfold Bipartitioned; decide
  counts := by unfold GlobalCounts; decide
  weights := by decide

/-- The assumptions of `C98_single` hold with bounds below the total weight 10. -/
example : ParFair (evenEnv 1 1) ∧ ParInput 1 (evenEnv 1 1).np oneArgs ∧ oneArgs.length = 1 ∧
    (∀ a ∈ oneArgs, ∀ n ∈ a.H.nets, n.vertices ≠ []) ∧ (∀ a ∈ oneArgs, a.w.w0 ≤ 6 ∧ a.w.w1 ≤ 5) ∧
    cutValue .cutNet (unionH 1 (oneArgs.map (·.H))) = 1 ∧
    (KLFMPar 10 10 (evenEnv 1 1) oneArgs 6 5 (parOpts 2) none).toOption.map
      (fun ps => (ps.map (fun q => (q.cut, q.w)), partWeight (unionH 1 (ps.map (·.H))) 0)) =
        some ([(0, ⟨6, 4⟩)], 6) :=
  ⟨evenEnv_fair 1 1, one_input, rfl, by decide, by decide, by decide, by decide +kernel⟩

end PMondriaan

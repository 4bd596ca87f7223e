import Verif.Proofs.ParExact
import Verif.Proofs.ParGains
import Verif.Props.Dist

/-
Properties C44, C45, C51, C52, C53: the parallel refinement of KLFM_parallel.cpp.
-/

namespace PMondriaan

open Spec

namespace Spec

/-- What `std::sort` with the comparison of KLFM_parallel.cpp:416-422 promises. -/
def SortsMoves (srt : List QMove → List QMove) : Prop :=
  ∀ l, (srt l).Perm l ∧ (srt l).Pairwise (fun a b => b.before a = false)

/-- The changes of the moves left in a list of slots. -/
def slotChanges (l : List (Option MoveP)) : Int := ((l.filterMap id).map (·.change)).sum

end Spec

/-! ### A sort, orders of arrival -/

/-- Insertion. -/
def insMove (m : QMove) : List QMove → List QMove
  | [] => [m]
  | a :: l => if a.before m then a :: insMove m l else m :: a :: l

/-- Insertion sort. -/
def sortMoves : List QMove → List QMove
  | [] => []
  | a :: l => insMove a (sortMoves l)

theorem insMove_perm (m : QMove) (l : List QMove) : (insMove m l).Perm (m :: l) := by
  induction l with
  | nil => exact List.Perm.refl _
  | cons a l ih =>
    unfold insMove
    split
    · exact (ih.cons a).trans (List.Perm.swap m a l)
    · exact List.Perm.refl _

theorem before_trans {a b c : QMove} (h1 : b.before a = false) (h2 : c.before b = false) :
    c.before a = false := by
  unfold QMove.before at *
  split at h1 <;> split at h2 <;> split <;> simp only [decide_eq_false_iff_not] at * <;> omega

theorem before_asymm {a b : QMove} (h : a.before b = true) : b.before a = false := by
  unfold QMove.before at *
  split at h <;> split <;> simp only [decide_eq_true_eq, decide_eq_false_iff_not] at * <;> omega

theorem insMove_sorted (m : QMove) {l : List QMove}
    (h : l.Pairwise (fun a b => b.before a = false)) :
    (insMove m l).Pairwise (fun a b => b.before a = false) := by
  induction l with
  | nil => exact List.pairwise_singleton _ _
  | cons a l ih =>
    obtain ⟨h1, h2⟩ := List.pairwise_cons.1 h
    unfold insMove
    split
    · rename_i hb
      refine List.pairwise_cons.2 ⟨?_, ih h2⟩
      intro x hx
      rcases List.mem_cons.1 ((insMove_perm m l).mem_iff.1 hx) with rfl | hx
      · exact before_asymm hb
      · exact h1 x hx
    · rename_i hb
      have hb : a.before m = false := by simpa using hb
      refine List.pairwise_cons.2 ⟨?_, h⟩
      intro x hx
      rcases List.mem_cons.1 hx with rfl | hx
      · exact hb
      · exact before_trans hb (h1 x hx)

theorem sortMoves_sorts : SortsMoves sortMoves := by
  intro l
  induction l with
  | nil => exact ⟨List.Perm.refl _, List.Pairwise.nil⟩
  | cons a l ih => exact ⟨(insMove_perm a _).trans (ih.1.cons a), insMove_sorted a ih.2⟩

theorem id_fair (M : Type) : Fair (fun _ (l : List M) => l) := fun _ l => List.Perm.refl l

/-- Messages arrive in the order of sending, except that processor 0 gets its moves in reverse. -/
def parPass : PassEnv :=
  { dInit := fun _ l => l, dMoves := fun _ t l => if t = 0 then l.reverse else l,
    dUp := fun _ _ l => l, dDown := fun _ _ l => l, dLastUp := fun _ l => l,
    dLastDown := fun _ l => l, srt := sortMoves }

theorem parPass_fair : PassFair parPass where
  init := id_fair _
  moves := by
    intro r t l
    simp only [parPass]
    split
    · exact List.reverse_perm l
    · exact List.Perm.refl l
  up := fun _ => id_fair _
  down := fun _ => id_fair _
  lastUp := id_fair _
  lastDown := id_fair _
  srt := fun l => (sortMoves_sorts l).1

def parEnv (N : Nat) : ParEnv :=
  { np := blockPart 2 N, so := id, dCut := fun _ l => l, dCost := fun _ l => l,
    dProc := fun _ l => l, pass := fun _ => parPass }

theorem parEnv_fair (N : Nat) : ParFair (parEnv N) where
  so := fun l => List.Perm.refl l
  cut := id_fair _
  cost := id_fair _
  proc := id_fair _
  pass := fun _ => parPass_fair

def parOpts (K : Nat) : Options :=
  { sampleSize := 4, maxClustersize := 2, lpMaxIterations := 3, coarseningNrvertices := 2,
    coarseningMaxrounds := 2, klfmMaxPasses := 2, klfmMaxNoGainMoves := 5, klfmParSendMoves := K,
    metric := .cutNet, samplingLp := false, bisectionRandom := false }

namespace Spec

/-- Proper arguments of `KLFM_par`: a bipartitioned hypergraph distributed over the processors with
its true counts and weights. -/
structure ParInput (N : Nat) (np : NetPart) (args : List ParArgs) : Prop where
  dist : Distributed N (args.map (·.H))
  owners : np.Valid args.length N
  sizes : ∀ a ∈ args, ∀ n ∈ a.H.nets, n.globalSize = (unionPins (args.map (·.H)) n.id).length
  costs : ∀ a ∈ args, CostsNonneg a.H
  bip : ∀ a ∈ args, Bipartitioned a.H
  counts : ∀ a ∈ args, GlobalCounts N (args.map (·.H)) a.H a.C
  weights : ∀ a ∈ args, a.w = ⟨partWeight (unionH N (args.map (·.H))) 0,
    partWeight (unionH N (args.map (·.H))) 1⟩

end Spec

theorem Spec.ParInput.base {N : Nat} {np : NetPart} {args : List ParArgs} (h : ParInput N np args) :
    ParBase N (args.map (·.H)) np where
  D := h.dist
  hv := by rw [List.length_map]; exact h.owners
  hs := by
    intro H hH
    obtain ⟨a, ha, rfl⟩ := List.mem_map.1 hH
    exact h.sizes a ha

/-! ### C44 -/

/-- C44, under assumptions: if the gains proposed by one processor do not increase and proposals with the
same number on different processors have different gains, all processors compute the same numbers of
rejections and the same weights, whatever the order of arrival; and when the processors then undo
that many moves, the weights are those of the moves that are left. In addition the weights stay
within the bounds if no move is larger than the total slack.
Missing: the assumptions do not hold in general (`C44_arrival_false`, `C44_undo_false`). -/
theorem C44_rejections_agree_partial {p : Nat} {mv : Nat → List MoveP} (hk : KeysDistinct p mv)
    (hf : ∀ t, t < p → GainsFall (mv t)) {d : Delivery QMove} (hd : Fair d)
    {srt : List QMove → List QMove} (hs : SortsMoves srt) (max0 max1 : Int) (w : W2) :
    ∃ rejs w', rejs.length = p ∧
      (∀ t, t < p → rejectUnbalanced p max0 max1
        (srt (inbox d ((List.range p).map (fun s => moveSends p s (mv s))) t)) w = .ok (rejs, w')) ∧
      (∀ (k : Nat → Nat) (st st' : Nat → UndoState) , (∀ t, t < p →
          (st t).moves = (mv t).map some ++ List.replicate (k t) none ∧
          ∃ r, rejs[t]? = some r ∧ undoMoves r (st t) = .ok (st' t)) →
        w' = ⟨w.w0 + ((List.range p).map (fun t => slotChanges (st' t).moves)).sum,
          w.w1 - ((List.range p).map (fun t => slotChanges (st' t).moves)).sum⟩) ∧
      (∀ x, (∀ t, t < p → ∀ m ∈ mv t, |m.change| ≤ x) → w.w0 + w.w1 + x ≤ max0 + max1 →
        w.w0 ≤ max0 → w.w1 ≤ max1 → w'.w0 ≤ max0 ∧ w'.w1 ≤ max1) := by
  by_cases hp0 : p = 0
  · subst hp0
    refine ⟨[], w, rfl, by intro t ht; omega, ?_, fun _ _ _ h0 h1 => ⟨h0, h1⟩⟩
    intro _ _ _ _
    simp
  have hq : ∀ t, t < p →
      (srt (inbox d ((List.range p).map (fun s => moveSends p s (mv s))) t)).Perm (qAll p mv) :=
    fun t ht => (hs _).1.trans (inbox_moves ht hd mv)
  set q := srt (inbox d ((List.range p).map (fun s => moveSends p s (mv s))) 0) with hqdef
  have h0 : 0 < p := by omega
  have hsame : ∀ t, t < p → srt (inbox d ((List.range p).map (fun s => moveSends p s (mv s))) t) = q :=
    fun t ht => queue_unique hk (hq t ht) (hq 0 h0) (hs _).2 (hs _).2
  have hq0 : q.Perm (qAll p mv) := hq 0 h0
  have hproc : ∀ m ∈ q, m.proc < p := fun m hm => qAll_proc (hq0.mem_iff.1 hm)
  obtain ⟨pos, R, hrej, hR, hbal⟩ := rejectUnbalanced_spec (p := p) max0 max1 q hproc w
  have hcs : changeSum q = ((List.range p).map (fun s => moveSum (mv s))).sum := by
    rw [← changeSum_qAll]
    unfold changeSum
    exact (hq0.map _).sum_eq
  refine ⟨(List.range p).map (fun t => sgn pos (ofProc t R).length), _, by simp,
    fun t ht => by rw [hsame t ht]; exact hrej, ?_, ?_⟩
  · intro k st st' h
    have hone : ∀ t ∈ List.range p, slotChanges (st' t).moves = moveSum (mv t) - changeSum (ofProc t R) := by
      intro t ht
      have ht := List.mem_range.1 ht
      obtain ⟨h1, r, hr, h2⟩ := h t ht
      rw [rangeMap_get ht] at hr
      rw [← Option.some.inj hr] at h2
      have := undone_eq ht (hf t ht) hq0 (hs _).2 hR (k t) h1 h2
      unfold slotChanges moveSum
      unfold kept at this
      omega
    rw [List.map_congr_left hone, sum_map_sub_range, ← hcs, ← sum_ofProc R (fun m hm =>
      hproc m (hR.sub.subset hm))]
    simp only [W2.back, W2.mk.injEq]
    constructor <;> omega
  · intro x hx hsl hw0 hw1
    have := hbal x (fun m hm => by
      obtain ⟨hp, a, ha, hm'⟩ := mem_qAll (hq0.mem_iff.1 hm)
      have := hx _ hp a (List.mem_of_getElem? ha)
      rw [hm']; exact this) hsl hw0 hw1
    exact this

/-- Two processors, two proposals each, one rejection. -/
def exampleMv : Nat → List MoveP
  | 0 => [⟨0, 5, 2⟩, ⟨1, 3, 1⟩]
  | _ => [⟨2, 4, 3⟩, ⟨3, 1, -1⟩]

example : KeysDistinct 2 exampleMv ∧ (∀ t, t < 2 → GainsFall (exampleMv t)) := by
  constructor
  · intro s t hs ht hst i a b ha hb
    have hs' : s = 0 ∨ s = 1 := by omega
    have ht' : t = 0 ∨ t = 1 := by omega
    have hi : i = 0 ∨ i = 1 ∨ 2 ≤ i := by omega
    rcases hs' with rfl | rfl <;> rcases ht' with rfl | rfl <;>
      first
        | exact absurd rfl hst
        | (rcases hi with rfl | rfl | hi
           · simp [exampleMv] at ha hb; subst ha; subst hb; decide
           · simp [exampleMv] at ha hb; subst ha; subst hb; decide
           · exfalso
             have : ∀ r, (exampleMv r).length = 2 := by intro r; unfold exampleMv; split <;> rfl
             have h2 := (List.getElem?_eq_some_iff.1 ha).1
             rw [this] at h2; omega)
  · intro t ht
    have ht' : t = 0 ∨ t = 1 := by omega
    rcases ht' with rfl | rfl <;> unfold GainsFall exampleMv <;> decide

example : rejectUnbalanced 2 14 10 (sortMoves (inbox (revDelivery _)
      ((List.range 2).map (fun s => moveSends 2 s (exampleMv s))) 1)) ⟨10, 8⟩ =
    .ok ([1, 0], ⟨14, 4⟩) := by decide

/-! The assumptions are needed. -/

/-- One cut net between a vertex that is too heavy to move and one of weight 1. -/
def tieH (a v f n : Nat) (wa wf : Int) : Hypergraph := Hypergraph.create 6 2
  [ { id := a, nets := [n], weight := wa, part := 0 }, { id := v, nets := [n], weight := 1, part := 1 },
    { id := f, nets := [], weight := wf, part := 1 } ]
  [ { id := n, vertices := [a, v], cost := 1, globalSize := 2 } ]

theorem tieH_wf {a v f n : Nat} {wa wf : Int} (h1 : a ≠ v) (h2 : a ≠ f) (h3 : v ≠ f) :
    WF (tieH a v f n wa wf) :=
  WF_create (by simp [h1, h2, h3]) (by simp) (by simp) (by simp [h1]) (by simp) (by simp)

def tieArgs : List ParArgs :=
  [tieH 0 1 2 0 5 4, tieH 3 4 5 1 4 3].map (fun H => ⟨H, [⟨1, 1⟩], ⟨9, 9⟩, fun _ => 0⟩)

theorem tie_input : ParInput 2 (blockPart 2 2) tieArgs where
  dist := by
    refine ⟨?_, by decide, by decide, by decide⟩
    intro H hH
    simp only [tieArgs, List.map_cons, List.map_nil, List.mem_cons, List.not_mem_nil, or_false] at hH
    rcases hH with rfl | rfl <;> exact tieH_wf (by decide) (by decide) (by decide)
  owners := blockPart_valid 2 2 (by decide)
  sizes := by decide
  costs := by unfold CostsNonneg; decide
  bip := by unfold Bipartitioned; decide
  counts := by unfold GlobalCounts; decide
  weights := by decide

/-- C44 is false: with equal gains the queues depend on the order of arrival. Both processors accept
a different move, report weights (10, 8), and the true weight of part 0 is 11, above its bound 10. -/
theorem C44_arrival_false : ∃ (N : Nat) (e : ParEnv) (args : List ParArgs) (max0 max1 : Int)
    (opts : Options) (ps : List ParResult), ParFair e ∧ (∀ i, SortsMoves (e.pass i).srt) ∧
    ParInput N e.np args ∧ (∀ a ∈ args, a.w.w0 ≤ max0 ∧ a.w.w1 ≤ max1) ∧
    KLFMPar 10 10 e args max0 max1 opts none = .ok ps ∧ (∀ q ∈ ps, q.w = ⟨10, 8⟩) ∧
    max0 = 10 ∧ partWeight (unionH N (ps.map (·.H))) 0 = 11 := by
  have h : ∃ ps, KLFMPar 10 10 (parEnv 2) tieArgs 10 10 (parOpts 1) none = .ok ps ∧
      (∀ q ∈ ps, q.w = ⟨10, 8⟩) ∧ partWeight (unionH 2 (ps.map (·.H))) 0 = 11 := by
    have hd : ((KLFMPar 10 10 (parEnv 2) tieArgs 10 10 (parOpts 1) none).toOption.map
        (fun ps => (ps.map (·.w), partWeight (unionH 2 (ps.map (·.H))) 0))) =
        some ([⟨10, 8⟩, ⟨10, 8⟩], 11) := by decide +kernel
    cases hx : KLFMPar 10 10 (parEnv 2) tieArgs 10 10 (parOpts 1) none with
    | error e => rw [hx] at hd; simp [Except.toOption] at hd
    | ok ps =>
      rw [hx] at hd
      simp only [Except.toOption, Option.map_some, Option.some.injEq, Prod.mk.injEq] at hd
      refine ⟨ps, rfl, ?_, hd.2⟩
      intro q hq
      have := List.mem_map_of_mem (f := fun q : ParResult => q.w) hq
      rw [hd.1] at this
      simpa using this
  obtain ⟨ps, h1, h2, h3⟩ := h
  exact ⟨2, parEnv 2, tieArgs, 10, 10, parOpts 1, ps, parEnv_fair 2,
    fun _ => sortMoves_sorts, tie_input, by decide, h1, h2, rfl, h3⟩

/-- A processor whose second proposal has a larger gain than its first. -/
def riseH : Hypergraph := Hypergraph.create 7 4
  [ { id := 0, nets := [0], weight := 5, part := 1 }, { id := 1, nets := [0, 1], weight := 1, part := 1 },
    { id := 2, nets := [1], weight := 1, part := 1 },
    { id := 3, nets := [0, 2], weight := 1, part := 0 }, { id := 4, nets := [2], weight := 1, part := 0 } ]
  [ { id := 0, vertices := [3, 0, 1], cost := 3, globalSize := 3 },
    { id := 1, vertices := [1, 2], cost := 1, globalSize := 2 },
    { id := 2, vertices := [3, 4], cost := 10, globalSize := 2 } ]

def riseH' : Hypergraph := Hypergraph.create 7 4
  [ { id := 5, nets := [3], weight := 5, part := 1 }, { id := 6, nets := [3], weight := 20, part := 0 } ]
  [ { id := 3, vertices := [6, 5], cost := 7, globalSize := 2 } ]

def riseArgs : List ParArgs :=
  [⟨riseH, [⟨1, 2⟩, ⟨0, 2⟩, ⟨2, 0⟩], ⟨22, 12⟩, fun _ => 0⟩, ⟨riseH', [⟨1, 1⟩], ⟨22, 12⟩, fun _ => 0⟩]

theorem rise_input : ParInput 4 (blockPart 2 4) riseArgs where
  dist := by
    refine ⟨?_, by decide, by decide, by decide⟩
    intro H hH
    simp only [riseArgs, List.map_cons, List.map_nil, List.mem_cons, List.not_mem_nil, or_false] at hH
    rcases hH with rfl | rfl <;>
      exact WF_create (by decide) (by decide) (by decide) (by decide) (by decide) (by decide)
  owners := blockPart_valid 2 4 (by decide)
  sizes := by decide
  costs := by unfold CostsNonneg; decide
  bip := by unfold Bipartitioned; decide
  counts := by unfold GlobalCounts; decide
  weights := by decide

/-- C44 is false for a second reason, with all gains different: the number of rejected moves is counted
in the order of the gains, but the moves undone are the last ones made. In a queue with all gains different
the move of weight 5 is counted as rejected and the move of weight 1 is undone. In the program: reported (28, 6),
true weight of part 0 is 32, above its bound 28. -/
theorem C44_undo_false : ∃ (N : Nat) (e : ParEnv) (args : List ParArgs) (max0 max1 : Int)
    (opts : Options) (ps : List ParResult), ParFair e ∧ (∀ i, SortsMoves (e.pass i).srt) ∧
    ParInput N e.np args ∧ (∀ a ∈ args, a.w.w0 ≤ max0 ∧ a.w.w1 ≤ max1) ∧
    KLFMPar 10 10 e args max0 max1 opts none = .ok ps ∧ (∀ q ∈ ps, q.w = ⟨28, 6⟩) ∧
    max0 = 28 ∧ partWeight (unionH N (ps.map (·.H))) 0 = 32 := by
  have h : ∃ ps, KLFMPar 10 10 (parEnv 4) riseArgs 28 30 (parOpts 2) none = .ok ps ∧
      (∀ q ∈ ps, q.w = ⟨28, 6⟩) ∧ partWeight (unionH 4 (ps.map (·.H))) 0 = 32 := by
    have hd : ((KLFMPar 10 10 (parEnv 4) riseArgs 28 30 (parOpts 2) none).toOption.map
        (fun ps => (ps.map (·.w), partWeight (unionH 4 (ps.map (·.H))) 0))) =
        some ([⟨28, 6⟩, ⟨28, 6⟩], 32) := by decide +kernel
    cases hx : KLFMPar 10 10 (parEnv 4) riseArgs 28 30 (parOpts 2) none with
    | error e => rw [hx] at hd; simp [Except.toOption] at hd
    | ok ps =>
      rw [hx] at hd
      simp only [Except.toOption, Option.map_some, Option.some.injEq, Prod.mk.injEq] at hd
      refine ⟨ps, rfl, ?_, hd.2⟩
      intro q hq
      have := List.mem_map_of_mem (f := fun q : ParResult => q.w) hq
      rw [hd.1] at this
      simpa using this
  obtain ⟨ps, h1, h2, h3⟩ := h
  exact ⟨4, parEnv 4, riseArgs, 28, 30, parOpts 2, ps, parEnv_fair 4,
    fun _ => sortMoves_sorts, rise_input, by decide, h1, h2, rfl, h3⟩

/-! ### C45 -/

/-- C45: `init_previous_C` gives every owner the counts over all processors and the cost of its cut
nets, in any order of arrival. -/
theorem C45_init_previous_C {N : Nat} {Hs : List Hypergraph} (D : Distributed N Hs) {np : NetPart}
    (hv : np.Valid Hs.length N)
    (hs : ∀ H ∈ Hs, ∀ n ∈ H.nets, n.globalSize = (unionPins Hs n.id).length)
    (hb : ∀ H ∈ Hs, Bipartitioned H) {Cs : List (List Cnt)} (hlen : Cs.length = Hs.length)
    (hC : ∀ (t : Nat) H C, Hs[t]? = some H → Cs[t]? = some C → GlobalCounts N Hs H C)
    {dc : Delivery (Nat × Int)} (hdc : Fair dc) {dp : Delivery (Nat × Nat)} (hdp : Fair dp)
    {d : Delivery (Nat × Cnt)} (hd : Fair d) :
    ∃ own r, initCostMyNets dc dp np Hs = .ok own ∧
      initPreviousC d np (List.zip Hs Cs) own = .ok r ∧ r.length = Hs.length ∧
      (∀ (t : Nat) x, r[t]? = some x → OwnerExact Hs (partOf (unionH N Hs)) np t x.1 x.2) ∧
      (r.map (·.2)).sum = cutValue .cutNet (unionH N Hs) := by
  have b : ParBase N Hs np := ⟨D, hv, hs⟩
  set P := partOf (unionH N Hs) with hP
  have h01 : GParts01 Hs P := union_01 D hb
  obtain ⟨procs, own, h1, ho⟩ := initCostMyNets_ok b hdc hdp P (fun t => pinsOf (hAt Hs t))
  rw [concs_union D] at h1
  have h2 := initPreviousC_ok b ho hd P (fun t => pinsOf (hAt Hs t))
  have hz : List.zip Hs Cs = (List.range Hs.length).map (fun t =>
      (conc (hAt Hs t) P (pinsOf (hAt Hs t)), cOf (hAt Hs t) (globF Hs P))) := by
    apply List.ext_getElem?
    intro t
    by_cases ht : t < Hs.length
    · rw [rangeMap_get ht, conc_union D ht]
      have hg := hAt_get ht
      have hc : Cs[t]? = some Cs[t] := List.getElem?_eq_getElem (by omega)
      rw [List.getElem?_zip_eq_some (z := (hAt Hs t, Cs[t])) |>.2 ⟨hg, hc⟩]
      rw [hC t _ _ hg hc]; rfl
    · rw [List.getElem?_eq_none (by simp; omega), List.getElem?_eq_none (by simp; omega)]
  refine ⟨own, _, h1, by rw [hz]; exact h2, by simp, ?_, ?_⟩
  · intro t x hx
    have ht : t < Hs.length := by
      have := (List.getElem?_eq_some_iff.1 hx).1
      simpa using this
    rw [rangeMap_get ht] at hx
    rw [← Option.some.inj hx]
    exact (ownerExact_iff b h01).2 ⟨rfl, rfl⟩
  · have := ownCut_sum b h01
    rw [List.map_map]
    exact this

example : ∃ own r, initCostMyNets (revDelivery _) (revDelivery _) (blockPart 2 3) exampleD = .ok own ∧
    initPreviousC (revDelivery _) (blockPart 2 3)
      (List.zip exampleD [[⟨1, 2⟩, ⟨1, 1⟩, ⟨0, 1⟩], [⟨1, 1⟩, ⟨1, 2⟩]]) own = .ok r ∧
    r = [([⟨1, 2⟩, ⟨0, 1⟩], 2), ([⟨1, 1⟩], 1)] := by
  refine ⟨_, _, rfl, rfl, by decide⟩

/-- C45: `update_C` after arbitrary local moves. Before: `P` is the labelling all owners and processors
know. Each processor has since changed labels of its own vertices only; the hypergraphs `Hs`
hold the new labels. After: owners hold the exact counts and cutsizes of the new labelling, the
processors the exact counts of their nets, and the cutsizes of the owners add up to the cut. Without the
update of the gains the call always succeeds; with it, these are the values whenever it does. -/
theorem C45_update_C {N : Nat} {Hs : List Hypergraph} (D : Distributed N Hs) {np : NetPart}
    (hv : np.Valid Hs.length N)
    (hs : ∀ H ∈ Hs, ∀ n ∈ H.nets, n.globalSize = (unionPins Hs n.id).length)
    (hb : ∀ H ∈ Hs, Bipartitioned H) {P : Nat → Int}
    (hP : ∀ H ∈ Hs, ∀ v ∈ H.vertices, P v.id = 0 ∨ P v.id = 1)
    {dc : Delivery (Nat × Int)} (hdc : Fair dc) {dp : Delivery (Nat × Nat)} (hdp : Fair dp)
    {dUp dDown : Delivery (Nat × Int)} (hUp : Fair dUp) (hDown : Fair dDown)
    {us : List UState} (hlen : us.length = Hs.length)
    (hus : ∀ (t : Nat) u H, us[t]? = some u → Hs[t]? = some H → u.gs.H = H ∧
      u.prev0 = H.nets.map (fun n => (pinCount P (unionNet Hs n.id) 0 : Int)) ∧
      u.gs.C = H.nets.map (fun n => ⟨viewCount Hs P (partOf (unionH N Hs)) n 0,
        viewCount Hs P (partOf (unionH N Hs)) n 1⟩) ∧
      OwnerExact Hs P np t u.owned u.cutMine) :
    ∃ own outs, initCostMyNets dc dp np Hs = .ok own ∧
      us.mapM (fun u => changeSends Hs.length np u.gs.H u.gs.C u.prev0) = .ok outs ∧
      (∃ us', updateC dUp dDown np false own us outs = .ok us') ∧
      ∀ updateG us', updateC dUp dDown np updateG own us outs = .ok us' →
        us'.length = Hs.length ∧
        (∀ (t : Nat) u H, us'[t]? = some u → Hs[t]? = some H → u.gs.H = H ∧ GlobalCounts N Hs H u.gs.C ∧
          u.prev0 = u.gs.C.map (·.c0) ∧
          OwnerExact Hs (partOf (unionH N Hs)) np t u.owned u.cutMine) ∧
        (us'.map (·.cutMine)).sum = cutValue .cutNet (unionH N Hs) := by
  have b : ParBase N Hs np := ⟨D, hv, hs⟩
  have h01 : GParts01 Hs P := fun H hH v hv => hP H hH v hv
  have h01' : GParts01 Hs (partOf (unionH N Hs)) := union_01 D hb
  obtain ⟨procs, own, h1, ho⟩ := initCostMyNets_ok b hdc hdp (partOf (unionH N Hs))
    (fun t => pinsOf (hAt Hs t))
  rw [concs_union D] at h1
  have hget : ∀ t, t < Hs.length → ∃ u, us[t]? = some u :=
    fun t ht => ⟨us[t], List.getElem?_eq_getElem (by omega)⟩
  have : Inhabited UState := ⟨⟨⟨default, [], default, default, []⟩, [], [], 0⟩⟩
  choose! u hu using hget
  have husu : ∀ t, t < Hs.length → u t = uOf Hs np P t (u t).gs := by
    intro t ht
    obtain ⟨-, h2, -, h4⟩ := hus t _ _ (hu t ht) (hAt_get ht)
    obtain ⟨h5, h6⟩ := (ownerExact_iff b h01).1 h4
    cases hx : u t with
    | mk gs prev0 owned cutMine =>
      rw [hx] at h2 h5 h6
      simp only at h2 h5 h6
      unfold uOf
      simp only [h5, h6, UState.mk.injEq, true_and, and_true]
      rw [h2]; rfl
  have heq : us = (List.range Hs.length).map (fun t => uOf Hs np P t (u t).gs) := by
    apply List.ext_getElem?
    intro t
    by_cases ht : t < Hs.length
    · rw [rangeMap_get ht, hu t ht, ← husu t ht]
    · rw [List.getElem?_eq_none (by omega), List.getElem?_eq_none (by simp; omega)]
  obtain ⟨outs, us0, h2, h3, h4⟩ := updateC_exact b ho h01 hb hUp hDown (fun t => (u t).gs)
    (fun t ht => (hus t _ _ (hu t ht) (hAt_get ht)).1)
    (fun t ht => (hus t _ _ (hu t ht) (hAt_get ht)).2.2.1)
  rw [← heq] at h2 h3
  refine ⟨own, outs, h1, h2, ⟨us0, h3⟩, ?_⟩
  intro updateG us' hok
  obtain ⟨us1, h5, h6⟩ := updateC_false hok
  rw [h3] at h5
  rw [← Except.ok.inj h5, h4] at h6
  have hl : us'.length = Hs.length := by
    have := congrArg List.length h6
    simpa using this.symm
  refine ⟨hl, ?_, ?_⟩
  · intro t x H hx hH
    have ht : t < Hs.length := (List.getElem?_eq_some_iff.1 hH).1
    have hHt : H = hAt Hs t := by
      have := hAt_get ht
      rw [hH] at this
      exact Option.some.inj this
    subst hHt
    have := congrArg (fun l => l[t]?) h6
    rw [rangeMap_get ht, List.getElem?_map, hx] at this
    have := Option.some.inj this
    unfold UState.noGains at this
    simp only [Prod.mk.injEq] at this
    obtain ⟨e1, e2, e3, e4, e5⟩ := this
    refine ⟨e1.symm, by rw [← e2]; rfl, ?_, (ownerExact_iff b h01').2 ⟨e4.symm, e5.symm⟩⟩
    rw [← e2, ← e3]
    unfold c0Of cOf
    rw [List.map_map]; rfl
  · have e := ownCut_sum b h01'
    have := congrArg (fun l : List (Hypergraph × List Cnt × List Int × List Cnt × Int) =>
      l.map (fun x => x.2.2.2.2)) h6
    simp only [List.map_map] at this
    have h7 : us'.map (·.cutMine) = (List.range Hs.length).map (fun t =>
        ownCut np t (globF Hs (partOf (unionH N Hs))) (unionCost Hs)) := this.symm
    rw [h7, e]; rfl

/-- The processor with vertices 1 and 4 has moved vertex 4 from part 0 to part 1. -/
def exampleOld (u : Nat) : Int := if u = 1 ∨ u = 4 then 0 else 1

def exampleUs : List UState :=
  (List.zip exampleD [([⟨1, 2⟩, ⟨1, 1⟩, ⟨0, 1⟩], [2, 1, 1], [⟨2, 1⟩, ⟨1, 0⟩], 2),
    ([⟨1, 1⟩, ⟨2, 1⟩], [1, 2], [⟨1, 1⟩], 1)]).map (fun x =>
      ⟨⟨x.1, x.2.1, default, default, []⟩, x.2.2.1, x.2.2.2.1, x.2.2.2.2⟩)

example : (∀ t u H, t < 2 → exampleUs[t]? = some u → exampleD[t]? = some H → u.gs.H.nets = H.nets ∧
      u.prev0 = H.nets.map (fun n => (pinCount exampleOld (unionNet exampleD n.id) 0 : Int)) ∧
      u.gs.C = H.nets.map (fun n => ⟨viewCount exampleD exampleOld (partOf (unionH 3 exampleD)) n 0,
        viewCount exampleD exampleOld (partOf (unionH 3 exampleD)) n 1⟩)) ∧
    OwnerExact exampleD exampleOld (blockPart 2 3) 0 [⟨2, 1⟩, ⟨1, 0⟩] 2 ∧
    OwnerExact exampleD exampleOld (blockPart 2 3) 1 [⟨1, 1⟩] 1 := by
  refine ⟨?_, ⟨by decide, by decide⟩, ⟨by decide, by decide⟩⟩
  intro t u H ht hu hH
  have : t = 0 ∨ t = 1 := by omega
  rcases this with rfl | rfl <;> cases hu <;> cases hH <;> decide

example : (do
    let own ← initCostMyNets (revDelivery _) (revDelivery _) (blockPart 2 3) exampleD
    let outs ← exampleUs.mapM (fun u => changeSends 2 (blockPart 2 3) u.gs.H u.gs.C u.prev0)
    let us ← updateC (revDelivery _) (revDelivery _) (blockPart 2 3) false own exampleUs outs
    pure (us.map (fun u => (u.gs.C, u.prev0, u.owned, u.cutMine))) : Res _) =
    .ok [([⟨1, 2⟩, ⟨1, 1⟩, ⟨0, 1⟩], [1, 1, 0], [⟨1, 2⟩, ⟨0, 1⟩], 2),
      ([⟨1, 1⟩, ⟨1, 2⟩], [1, 1], [⟨1, 1⟩], 1)] := by decide

/-! ### C51 -/

/-- What `KLFM_par` leaves on the processors. -/
structure Spec.ParOutput (N : Nat) (args : List ParArgs) (ps : List ParResult) : Prop where
  length : ps.length = args.length
  same : ∀ (t : Nat) a q, args[t]? = some a → ps[t]? = some q → SameUpToParts a.H q.H
  dist : Distributed N (ps.map (·.H))
  bip : ∀ q ∈ ps, Bipartitioned q.H
  sorted : ∀ q ∈ ps, SortedOnPart q.H
  counts : ∀ q ∈ ps, GlobalCounts N (ps.map (·.H)) q.H q.C
  localCounts : ∀ q ∈ ps, CountsExact q.H q.L
  cut : ∀ q ∈ ps, q.cut = cutValue .cutNet (unionH N (ps.map (·.H)))
  le : cutValue .cutNet (unionH N (ps.map (·.H))) ≤ cutValue .cutNet (unionH N (args.map (·.H)))
  total : ∀ q ∈ ps, q.w.w0 + q.w.w1 = ((unionH N (args.map (·.H))).vertices.map (·.weight)).sum

theorem sum_parts {H : Hypergraph} (hb : Bipartitioned H) :
    partWeight H 0 + partWeight H 1 = (H.vertices.map (·.weight)).sum := by
  unfold partWeight
  unfold Bipartitioned at hb
  generalize H.vertices = l at hb
  induction l with
  | nil => rfl
  | cons v l ih =>
    have := ih (fun x hx => hb x (by simp [hx]))
    rcases hb v (by simp) with h | h <;> simp [h] <;> omega

theorem output_of {B : Prop} {N : Nat} {np : NetPart} {args : List ParArgs} (hi : ParInput N np args) {S cut : Int}
    {P : Nat → Int} {ps : List ParResult} (hS : S = ((unionH N (args.map (·.H))).vertices.map (·.weight)).sum)
    (h : PassInv B N (args.map (·.H)) S cut P ps)
    (hle : cut ≤ cutValue .cutNet (unionH N (args.map (·.H)))) :
    ParOutput N args ps ∧ (B → ∀ q ∈ ps, q.w = ⟨partWeight (unionH N (ps.map (·.H))) 0,
      partWeight (unionH N (ps.map (·.H))) 1⟩) := by
  set Hs := args.map (·.H) with hHs
  have D : Distributed N Hs := hi.dist
  obtain ⟨r, L, rfl, h01, hcut, hr⟩ := h
  have hL : ∀ t, t < Hs.length → PinsPerm (hAt Hs t) (L t) := fun t ht => (hr t ht).2.1
  have hmap : ((List.range Hs.length).map r).map (·.H) = concs Hs P L := by
    rw [List.map_map]
    apply List.map_congr_left
    intro t ht
    exact (hr t (List.mem_range.1 ht)).1
  have hmem : ∀ q ∈ (List.range Hs.length).map r, ∃ t, t < Hs.length ∧ q = r t := by
    intro q hq
    obtain ⟨t, ht, rfl⟩ := List.mem_map.1 hq
    exact ⟨t, List.mem_range.1 ht, rfl⟩
  refine ⟨⟨by simp [hHs], ?_, ?_, ?_, ?_, ?_, ?_, ?_, ?_, ?_⟩, ?_⟩
  · intro t a q ha hq
    have ht : t < Hs.length := by
      have := (List.getElem?_eq_some_iff.1 hq).1
      simpa using this
    rw [rangeMap_get ht] at hq
    rw [← Option.some.inj hq, (hr t ht).1]
    have : a.H = hAt Hs t := by
      have h1 := hAt_get ht
      rw [hHs, List.getElem?_map, ha] at h1
      exact Option.some.inj h1
    rw [this]
    exact conc_sameUpToParts _ _ (hL t ht)
  · rw [hmap]; exact distributed_concs D hL
  · intro q hq
    obtain ⟨t, ht, rfl⟩ := hmem q hq
    rw [(hr t ht).1]
    exact bipartitioned_conc (h01 _ (hAt_mem ht))
  · intro q hq
    obtain ⟨t, ht, rfl⟩ := hmem q hq
    rw [(hr t ht).1]
    exact sorted_conc (D.wf _ (hAt_mem ht)) (h01 _ (hAt_mem ht)) (hL t ht) (hr t ht).2.2.1
  · intro q hq
    obtain ⟨t, ht, rfl⟩ := hmem q hq
    rw [hmap, (hr t ht).1, (hr t ht).2.2.2.1]
    exact globalCounts_concs D hL t
  · intro q hq
    obtain ⟨t, ht, rfl⟩ := hmem q hq
    rw [(hr t ht).1, (hr t ht).2.2.2.2.1]
    exact countsExact_conc (D.wf _ (hAt_mem ht)) _ _ (hL t ht)
  · intro q hq
    obtain ⟨t, ht, rfl⟩ := hmem q hq
    rw [hmap, cutValue_concs D hL, (hr t ht).2.2.2.2.2.1, hcut]
  · rw [hmap, cutValue_concs D hL, ← hcut]; exact hle
  · intro q hq
    obtain ⟨t, ht, rfl⟩ := hmem q hq
    rw [(hr t ht).2.2.2.2.2.2.1, hS]
  · intro hB q hq
    obtain ⟨t, ht, rfl⟩ := hmem q hq
    rw [hmap, partWeight_concs, partWeight_concs]
    exact (hr t ht).2.2.2.2.2.2.2 hB

theorem input_total {N : Nat} {np : NetPart} {args : List ParArgs} (hi : ParInput N np args) :
    ∀ a ∈ args, a.w.w0 + a.w.w1 = ((unionH N (args.map (·.H))).vertices.map (·.weight)).sum := by
  intro a ha
  rw [hi.weights a ha]
  apply sum_parts
  intro v hv
  obtain ⟨H, hH, hv⟩ := List.mem_flatMap.1 (show v ∈ (args.map (·.H)).flatMap (·.vertices) from hv)
  obtain ⟨a, ha, rfl⟩ := List.mem_map.1 hH
  exact hi.bip a ha v hv

/-- C51: `KLFM_par` either ends in an access out of bounds or gives, on all processors alike, the true
cutsize of a bipartition of the same hypergraph that is no worse than the initial one, together with
exact counts; in every order of arrival, for every outcome of the sorts, every stream of random numbers.
Missing: the weights (`C44_arrival_false`, `C44_undo_false`) and the absence of accesses out of bounds
(`C51_ub_stale_gains`, `C51_ub_empty_net`). -/
theorem C51_refine_par_partial {N : Nat} {e : ParEnv} (he : ParFair e) {args : List ParArgs}
    (hi : ParInput N e.np args) {fuel rounds : Nat}
    (hf : ∀ a ∈ args, a.H.vertices.length < fuel)
    (hr : (args.map (fun a => a.H.vertices.length)).sum < rounds) (max0 max1 : Int) (opts : Options)
    {cut : Option Int}
    (hcut : ∀ x, cut = some x → x = cutValue .cutNet (unionH N (args.map (·.H)))) :
    (∃ ps, KLFMPar rounds fuel e args max0 max1 opts cut = .ok ps ∧ ParOutput N args ps) ∨
      KLFMPar rounds fuel e args max0 max1 opts cut = .error .ub := by
  have c : ParCtx False False False N (args.map (·.H)) e.np max0 max1 fuel rounds :=
    ⟨hi.base, List.forall_mem_map.2 hi.costs, fun h => h.elim, id, fun h => h.elim, fun h => h.elim,
      List.forall_mem_map.2 hf, by rw [List.map_map]; exact hr⟩
  have := KLFMPar_out c he (List.forall_mem_map.2 hi.bip) hi.counts (input_total hi)
    (fun h => h.elim) (fun h => h.elim) (fun h => h.elim) opts hcut
  rcases this with ⟨ps, h1, cut', P', h2, h3, -⟩ | ⟨-, h⟩
  · exact Or.inl ⟨ps, h1, (output_of hi rfl h2 h3).1⟩
  · exact Or.inr h

/-- C51, complete under assumptions: if either part may hold all the weight and no processor has a net without
pins, `KLFM_par` succeeds and reports the true weights as well. -/
theorem C51_refine_par_slack {N : Nat} {e : ParEnv} (he : ParFair e) {args : List ParArgs}
    (hi : ParInput N e.np args) {fuel rounds : Nat}
    (hf : ∀ a ∈ args, a.H.vertices.length < fuel)
    (hr : (args.map (fun a => a.H.vertices.length)).sum < rounds) {max0 max1 : Int} (opts : Options)
    {cut : Option Int}
    (hcut : ∀ x, cut = some x → x = cutValue .cutNet (unionH N (args.map (·.H))))
    (hne : ∀ a ∈ args, ∀ n ∈ a.H.nets, n.vertices ≠ []) (hw : ∀ a ∈ args, WeightsNonneg a.H)
    (h0 : ((unionH N (args.map (·.H))).vertices.map (·.weight)).sum ≤ max0)
    (h1 : ((unionH N (args.map (·.H))).vertices.map (·.weight)).sum ≤ max1) :
    ∃ ps, KLFMPar rounds fuel e args max0 max1 opts cut = .ok ps ∧ ParOutput N args ps ∧
      ∀ q ∈ ps, q.w = ⟨partWeight (unionH N (ps.map (·.H))) 0,
        partWeight (unionH N (ps.map (·.H))) 1⟩ := by
  have hcalm : Calm False (args.map (·.H)) max0 max1 := Or.inl ⟨List.forall_mem_map.2 hw, h0, h1⟩
  have c : ParCtx True True False N (args.map (·.H)) e.np max0 max1 fuel rounds :=
    ⟨hi.base, List.forall_mem_map.2 hi.costs, fun _ => List.forall_mem_map.2 hne, id, fun _ => hcalm,
      fun h => h.elim, List.forall_mem_map.2 hf, by rw [List.map_map]; exact hr⟩
  have := KLFMPar_out c he (List.forall_mem_map.2 hi.bip) hi.counts (input_total hi)
    (fun _ => Or.inl hcalm) (fun _ => hi.weights) (fun h => h.elim) opts hcut
  rcases this with ⟨ps, h1, cut', P', h2, h3, -⟩ | ⟨h, -⟩
  · have h4 := output_of hi rfl h2 h3
    exact ⟨ps, h1, h4.1, h4.2 trivial⟩
  · exact absurd trivial h

/-- The assumptions of `C51_refine_par_slack` hold, and the cut drops from 2 to 0. -/
example : ParInput 2 (parEnv 2).np tieArgs ∧ (∀ a ∈ tieArgs, a.H.vertices.length < 10) ∧
    (tieArgs.map (fun a => a.H.vertices.length)).sum < 10 ∧
    (∀ a ∈ tieArgs, ∀ n ∈ a.H.nets, n.vertices ≠ []) ∧
    ((unionH 2 (tieArgs.map (·.H))).vertices.map (·.weight)).sum ≤ 18 ∧
    cutValue .cutNet (unionH 2 (tieArgs.map (·.H))) = 2 ∧
    (KLFMPar 10 10 (parEnv 2) tieArgs 18 18 (parOpts 1) none).toOption.map
      (fun ps => ps.map (fun q => (q.cut, q.w))) = some [(0, ⟨0, 18⟩), (0, ⟨0, 18⟩)] := by
  refine ⟨tie_input, by decide, by decide, by decide, by decide, by decide, by decide +kernel⟩

/-- Processor 0: four vertices in net 0, each with a net to a vertex that is too heavy to move. -/
def staleH : Hypergraph := Hypergraph.create 12 8
  [ { id := 0, nets := [0, 1], weight := 10, part := 0 }, { id := 1, nets := [0, 2], weight := 9, part := 0 },
    { id := 2, nets := [0, 3], weight := 8, part := 0 }, { id := 3, nets := [0, 4], weight := 7, part := 0 },
    { id := 4, nets := [1], weight := 50, part := 1 }, { id := 5, nets := [2], weight := 50, part := 1 },
    { id := 6, nets := [3], weight := 50, part := 1 }, { id := 7, nets := [4], weight := 50, part := 1 } ]
  [ { id := 0, vertices := [0, 1, 2, 3], cost := 10, globalSize := 4 },
    { id := 1, vertices := [0, 4], cost := 13, globalSize := 2 },
    { id := 2, vertices := [1, 5], cost := 12, globalSize := 2 },
    { id := 3, vertices := [2, 6], cost := 11, globalSize := 2 },
    { id := 4, vertices := [3, 7], cost := 10, globalSize := 2 } ]

/-- Processor 1: three light vertices with larger gains. -/
def staleH' : Hypergraph := Hypergraph.create 12 8
  [ { id := 8, nets := [5], weight := 1, part := 0 }, { id := 9, nets := [6], weight := 1, part := 0 },
    { id := 10, nets := [7], weight := 1, part := 0 }, { id := 11, nets := [5, 6, 7], weight := 50, part := 1 } ]
  [ { id := 5, vertices := [8, 11], cost := 100, globalSize := 2 },
    { id := 6, vertices := [9, 11], cost := 100, globalSize := 2 },
    { id := 7, vertices := [10, 11], cost := 100, globalSize := 2 } ]

def staleArgs : List ParArgs :=
  [⟨staleH, [⟨4, 0⟩, ⟨1, 1⟩, ⟨1, 1⟩, ⟨1, 1⟩, ⟨1, 1⟩], ⟨37, 250⟩, fun _ => 0⟩,
   ⟨staleH', [⟨1, 1⟩, ⟨1, 1⟩, ⟨1, 1⟩], ⟨37, 250⟩, fun _ => 0⟩]

theorem stale_input : ParInput 8 (blockPart 2 8) staleArgs where
  dist := by
    refine ⟨?_, by decide, by decide, by decide⟩
    intro H hH
    simp only [staleArgs, List.map_cons, List.map_nil, List.mem_cons, List.not_mem_nil, or_false] at hH
    rcases hH with rfl | rfl <;>
      exact WF_create (by decide) (by decide) (by decide) (by decide) (by decide) (by decide)
  owners := blockPart_valid 2 8 (by decide)
  sizes := by decide
  costs := by unfold CostsNonneg; decide
  bip := by unfold Bipartitioned; decide
  counts := by unfold GlobalCounts; decide
  weights := by decide

/-- Whether a run ends in undefined behaviour. -/
def isUB {α : Type} : Res α → Bool
  | .error .ub => true
  | _ => false

theorem isUB_eq {α : Type} {x : Res α} (h : isUB x = true) : x = .error .ub := by
  unfold isUB at h
  split at h
  · rfl
  · cases h

/-- C51, the access out of bounds is real: a rejected move is undone without undoing what it did to the gains
of its neighbours. Each rejection in net 0 adds 10 to the gain of vertex 3. After three of
them the gain is larger than the bucket arrays allow. All nets have pins, the weights start within
the bounds. -/
theorem C51_ub_stale_gains : ∃ (N : Nat) (e : ParEnv) (args : List ParArgs) (max0 max1 : Int)
    (opts : Options), ParFair e ∧ (∀ i, SortsMoves (e.pass i).srt) ∧ ParInput N e.np args ∧
    (∀ a ∈ args, ∀ n ∈ a.H.nets, n.vertices ≠ []) ∧ (∀ a ∈ args, WeightsNonneg a.H) ∧
    (∀ a ∈ args, a.w.w0 ≤ max0 ∧ a.w.w1 ≤ max1) ∧
    KLFMPar 20 20 e args max0 max1 opts none = .error .ub :=
  ⟨8, parEnv 8, staleArgs, 40, 260, parOpts 1, parEnv_fair 8, fun _ => sortMoves_sorts,
    stale_input, by decide, by unfold WeightsNonneg; decide, by decide,
    isUB_eq (by decide +kernel)⟩

/-- One net with four vertices on processor 0; processor 1 still lists the net, without pins. -/
def emptyArgs : List ParArgs :=
  [⟨Hypergraph.create 5 1
      [ { id := 0, nets := [0], weight := 1, part := 0 }, { id := 1, nets := [0], weight := 1, part := 0 },
        { id := 2, nets := [0], weight := 1, part := 1 }, { id := 3, nets := [0], weight := 1, part := 1 } ]
      [ { id := 0, vertices := [0, 1, 2, 3], cost := 1, globalSize := 4 } ],
    [⟨2, 2⟩], ⟨3, 2⟩, fun _ => 0⟩,
   ⟨Hypergraph.create 5 1 [ { id := 4, nets := [], weight := 1, part := 0 } ]
      [ { id := 0, vertices := [], cost := 1, globalSize := 4 } ], [⟨2, 2⟩], ⟨3, 2⟩, fun _ => 0⟩]

theorem empty_input : ParInput 1 (blockPart 2 1) emptyArgs where
  dist := by
    refine ⟨?_, by decide, by decide, by decide⟩
    intro H hH
    simp only [emptyArgs, List.map_cons, List.map_nil, List.mem_cons, List.not_mem_nil, or_false] at hH
    rcases hH with rfl | rfl <;>
      exact WF_create (by decide) (by decide) (by decide) (by decide) (by decide) (by decide)
  owners := blockPart_valid 2 1 (by decide)
  sizes := by decide
  costs := by unfold CostsNonneg; decide
  bip := by unfold Bipartitioned; decide
  counts := by unfold GlobalCounts; decide
  weights := by decide

/-- C51: a net without pins on one processor is enough too, even when nothing can be rejected: `update_gains`
reads the first pin. -/
theorem C51_ub_empty_net : ∃ (N : Nat) (e : ParEnv) (args : List ParArgs) (max0 max1 : Int)
    (opts : Options), ParFair e ∧ (∀ i, SortsMoves (e.pass i).srt) ∧ ParInput N e.np args ∧
    (∀ a ∈ args, WeightsNonneg a.H) ∧
    ((unionH N (args.map (·.H))).vertices.map (·.weight)).sum ≤ max0 ∧
    ((unionH N (args.map (·.H))).vertices.map (·.weight)).sum ≤ max1 ∧
    KLFMPar 20 20 e args max0 max1 opts none = .error .ub :=
  ⟨1, parEnv 1, emptyArgs, 5, 5, parOpts 1, parEnv_fair 1, fun _ => sortMoves_sorts,
    empty_input, by unfold WeightsNonneg; decide, by decide, by decide, isUB_eq (by decide +kernel)⟩

/-! ### C52 -/

/-- The states of a parallel pass between two rounds. -/
inductive Spec.ParReach (fuel K : Nat) (pe : PassEnv) (np : NetPart) (max0 max1 : Int)
    (own : List OwnerData) (ps : List ParResult) : List ProcState → Prop
  | start {qs} : parStart pe.dInit np own ps = .ok qs → ParReach fuel K pe np max0 max1 own ps qs
  | round {qs qs'} (r : Nat) : ParReach fuel K pe np max0 max1 own ps qs →
      parRound fuel K r pe np max0 max1 own qs = .ok qs' → ParReach fuel K pe np max0 max1 own ps qs'

/-- Proper arguments of a parallel pass. -/
structure Spec.PassInput (N : Nat) (np : NetPart) (ps : List ParResult) : Prop where
  dist : Distributed N (ps.map (·.H))
  owners : np.Valid ps.length N
  sizes : ∀ q ∈ ps, ∀ n ∈ q.H.nets, n.globalSize = (unionPins (ps.map (·.H)) n.id).length
  costs : ∀ q ∈ ps, CostsNonneg q.H
  bip : ∀ q ∈ ps, Bipartitioned q.H
  sorted : ∀ q ∈ ps, SortedOnPart q.H
  counts : ∀ q ∈ ps, GlobalCounts N (ps.map (·.H)) q.H q.C
  localCounts : ∀ q ∈ ps, CountsExact q.H q.L
  cut : ∀ q ∈ ps, q.cut = cutValue .cutNet (unionH N (ps.map (·.H)))
  weights : ∀ q ∈ ps, q.w = ⟨partWeight (unionH N (ps.map (·.H))) 0,
    partWeight (unionH N (ps.map (·.H))) 1⟩

theorem Spec.PassInput.base {N : Nat} {np : NetPart} {ps : List ParResult} (h : PassInput N np ps) :
    ParBase N (ps.map (·.H)) np where
  D := h.dist
  hv := by rw [List.length_map]; exact h.owners
  hs := by
    intro H hH
    obtain ⟨a, ha, rfl⟩ := List.mem_map.1 hH
    exact h.sizes a ha

theorem passInput_total {N : Nat} {np : NetPart} {ps : List ParResult} (hi : PassInput N np ps) :
    ∀ q ∈ ps, q.w.w0 + q.w.w1 = ((unionH N (ps.map (·.H))).vertices.map (·.weight)).sum := by
  intro a ha
  rw [hi.weights a ha]
  apply sum_parts
  intro v hv
  obtain ⟨H, hH, hv⟩ := List.mem_flatMap.1 (show v ∈ (ps.map (·.H)).flatMap (·.vertices) from hv)
  obtain ⟨a, ha, rfl⟩ := List.mem_map.1 hH
  exact hi.bip a ha v hv

/-- Reachable states satisfy the invariant of the rounds. -/
theorem reach_round {B E A : Prop} {N : Nat} {np : NetPart} {ps : List ParResult} (hi : PassInput N np ps)
    {max0 max1 : Int} {fuel K : Nat} (hf : ∀ q ∈ ps, q.H.vertices.length < fuel)
    (hne : B → ∀ q ∈ ps, ∀ n ∈ q.H.nets, n.vertices ≠ [])
    (hBE : B → E) (hsl : B → Calm A (ps.map (·.H)) max0 max1)
    (hA : A → (∀ q ∈ ps, WeightsNonneg q.H) ∧ ∀ q ∈ ps, q.w.w0 ≤ max0 ∧ q.w.w1 ≤ max1)
    {pe : PassEnv} (hpe : PassFair pe)
    (hE : E → Calm A (ps.map (·.H)) max0 max1 ∨ (SameWeights (ps.map (·.H)) ∧ SameOrder pe))
    {dc : Delivery (Nat × Int)} (hdc : Fair dc) {dp : Delivery (Nat × Nat)} (hdp : Fair dp)
    {own : List OwnerData} (ho : initCostMyNets dc dp np (ps.map (·.H)) = .ok own)
    {qs : List ProcState} (h : ParReach fuel K pe np max0 max1 own ps qs) :
    ∃ M S c n, PassCtx B E A N (ps.map (·.H)) np M max0 max1 fuel ∧
      RoundInv False B E A N (ps.map (·.H)) np M max0 max1 S c K
        (partOf (unionH N (ps.map (·.H)))) n qs := by
  set Hs := ps.map (·.H) with hHs
  have b := hi.base
  obtain ⟨procs, own', h1, ho'⟩ := initCostMyNets_ok b hdc hdp (partOf (unionH N Hs))
    (fun t => pinsOf (hAt Hs t))
  rw [concs_union hi.dist, ho] at h1
  rw [← Except.ok.inj h1] at ho'
  have hP := passInv_of (B := E) hi.dist hi.bip hi.sorted hi.counts hi.localCounts hi.cut
    (passInput_total hi) (fun _ => hi.weights)
  have hc : ∀ H ∈ Hs, CostsNonneg H := List.forall_mem_map.2 hi.costs
  obtain ⟨M, l, n, hs, hM, hR, -⟩ := parStart_ok (B := B) (A := A) (max0 := max0) (max1 := max1) b hc ho'
    hpe.init hP (fun a => (hA a).2) False K
  have cc : PassCtx B E A N Hs np M max0 max1 fuel :=
    ⟨b, hc, hM, fun hB => List.forall_mem_map.2 (hne hB), hBE, hsl,
      fun a => List.forall_mem_map.2 (hA a).1, List.forall_mem_map.2 hf⟩
  suffices hx : ∃ n, RoundInv False B E A N Hs np M max0 max1
      ((unionH N Hs).vertices.map (·.weight)).sum (cutValue .cutNet (unionH N Hs)) K
      (partOf (unionH N Hs)) n qs by
    obtain ⟨n, hx⟩ := hx
    exact ⟨M, _, _, n, cc, hx⟩
  induction h with
  | start h =>
    rw [hs] at h
    rw [← Except.ok.inj h]
    exact ⟨n, hR⟩
  | round r _ h ih =>
    obtain ⟨n, ih⟩ := ih
    rcases parRound_out cc ho' hpe hE ih (fun z => z.elim) r with ⟨l', h1, n', h2, -⟩ | ⟨-, h1⟩
    · rw [h] at h1
      rw [Except.ok.inj h1]
      exact ⟨n', h2⟩
    · rw [h] at h1; cases h1

/-- With room for everything in either part, or on one processor, nothing can be rejected. -/
theorem calm_of {N : Nat} {ps : List ParResult} {max0 max1 : Int} (hw : ∀ q ∈ ps, WeightsNonneg q.H)
    (hb : (((unionH N (ps.map (·.H))).vertices.map (·.weight)).sum ≤ max0 ∧
        ((unionH N (ps.map (·.H))).vertices.map (·.weight)).sum ≤ max1) ∨
      (ps.length = 1 ∧ ∀ q ∈ ps, q.w.w0 ≤ max0 ∧ q.w.w1 ≤ max1)) :
    Calm (ps.length = 1 ∧ ∀ q ∈ ps, q.w.w0 ≤ max0 ∧ q.w.w1 ≤ max1) (ps.map (·.H)) max0 max1 := by
  rcases hb with h | h
  · exact Or.inl ⟨List.forall_mem_map.2 hw, h.1, h.2⟩
  · exact Or.inr ⟨h, by rw [List.length_map]; exact h.1⟩

/-- C52: as long as nothing can be rejected, that is, with room for everything in either part or on one
processor, and all nets have pins, the gain kept for a vertex on its
processor is at every round either absent or exactly the drop of the cut of the whole hypergraph, and
the next round does not leave the bucket arrays.
Missing: after a rejection the gains are not exact (`C51_ub_stale_gains`). -/
theorem C52_gains_exact_partial {N : Nat} {np : NetPart} {ps : List ParResult} (hi : PassInput N np ps)
    {max0 max1 : Int} {fuel K : Nat} (hf : ∀ q ∈ ps, q.H.vertices.length < fuel)
    (hne : ∀ q ∈ ps, ∀ n ∈ q.H.nets, n.vertices ≠ []) (hw : ∀ q ∈ ps, WeightsNonneg q.H)
    (hb : (((unionH N (ps.map (·.H))).vertices.map (·.weight)).sum ≤ max0 ∧
        ((unionH N (ps.map (·.H))).vertices.map (·.weight)).sum ≤ max1) ∨
      (ps.length = 1 ∧ ∀ q ∈ ps, q.w.w0 ≤ max0 ∧ q.w.w1 ≤ max1))
    {pe : PassEnv} (hpe : PassFair pe)
    {dc : Delivery (Nat × Int)} (hdc : Fair dc) {dp : Delivery (Nat × Nat)} (hdp : Fair dp)
    {own : List OwnerData} (ho : initCostMyNets dc dp np (ps.map (·.H)) = .ok own)
    {qs : List ProcState} (h : ParReach fuel K pe np max0 max1 own ps qs) :
    (∀ r, ∃ qs', parRound fuel K r pe np max0 max1 own qs = .ok qs') ∧
    qs.length = ps.length ∧
    ∀ q ∈ qs, ∀ (i : Nat) v, q.u.gs.H.vertices[i]? = some v →
      q.u.gs.gains[i]? = some none ∨
      q.u.gs.gains[i]? = some (some (trueGain (unionH N (qs.map (·.u.gs.H))) v.id)) := by
  have hcalm := calm_of hw hb
  obtain ⟨M, S, c, n, cc, hR⟩ := reach_round (B := True) (E := True)
    (A := ps.length = 1 ∧ ∀ q ∈ ps, q.w.w0 ≤ max0 ∧ q.w.w1 ≤ max1) hi hf (fun _ => hne)
    id (fun _ => hcalm) (fun a => ⟨hw, a.2⟩) hpe (fun _ => Or.inl hcalm) hdc hdp ho h
  set Hs := ps.map (·.H) with hHs
  refine ⟨?_, ?_, ?_⟩
  · intro r
    obtain ⟨procs, own', h1, ho'⟩ := initCostMyNets_ok hi.base hdc hdp (partOf (unionH N Hs))
      (fun t => pinsOf (hAt Hs t))
    rw [concs_union hi.dist, ho] at h1
    rw [← Except.ok.inj h1] at ho'
    rcases parRound_out cc ho' hpe (fun _ => Or.inl hcalm) hR (fun z => z.elim) r with
      ⟨l', h1, -⟩ | ⟨h, -⟩
    · exact ⟨l', h1⟩
    · exact absurd trivial h
  · obtain ⟨q, P, Pb, best, vs, ls, rfl, -⟩ := hR
    simp [hHs]
  · obtain ⟨q, P, Pb, best, vs, ls, rfl, h01, -, -, -, hq, -⟩ := hR
    choose! L G hu hl hrest using hq
    have hmap : ((List.range Hs.length).map q).map (·.u.gs.H) = concs Hs P L := by
      rw [List.map_map]
      apply List.map_congr_left
      intro t ht
      exact (hl t (List.mem_range.1 ht)).inv.hH
    intro x hx i v hv
    obtain ⟨t, ht, rfl⟩ := List.mem_map.1 hx
    have ht := List.mem_range.1 ht
    have hI := (hl t ht).inv
    rw [hI.hH] at hv
    simp only [conc, List.getElem?_map, Option.map_eq_some_iff] at hv
    obtain ⟨y, hy, rfl⟩ := hv
    rw [hI.hg, gOf_get hy, hmap]
    cases hg : G t y.id with
    | none => exact Or.inl rfl
    | some g =>
      right
      have hym := List.mem_of_getElem? hy
      rw [(hl t ht).ok trivial y hym g hg]
      congr 2
      rw [← gain_union cc.b.D (fun t ht => (hl t ht).hL) h01 ht hym]
      unfold gainSum
      congr 1
      apply List.map_congr_left
      intro e he
      obtain ⟨n, hn, hne, -⟩ := (cc.b.D.wf _ (hAt_mem ht)).inc_net y hym e he
      subst hne
      rw [view_glob (cc.b.D.wf _ (hAt_mem ht)) (hl t ht).hL hn]

/-- C52: without any assumption on rejections, after every round each processor still has the exact
counts of the whole hypergraph for its nets, and the reported weights are within the bounds. -/
theorem C52_round_counts {N : Nat} {np : NetPart} {ps : List ParResult} (hi : PassInput N np ps)
    {max0 max1 : Int} {fuel K : Nat} (hf : ∀ q ∈ ps, q.H.vertices.length < fuel)
    (hw : ∀ q ∈ ps, WeightsNonneg q.H) (hb : ∀ q ∈ ps, q.w.w0 ≤ max0 ∧ q.w.w1 ≤ max1)
    {pe : PassEnv} (hpe : PassFair pe)
    {dc : Delivery (Nat × Int)} (hdc : Fair dc) {dp : Delivery (Nat × Nat)} (hdp : Fair dp)
    {own : List OwnerData} (ho : initCostMyNets dc dp np (ps.map (·.H)) = .ok own)
    {qs : List ProcState} (h : ParReach fuel K pe np max0 max1 own ps qs) :
    qs.length = ps.length ∧
    ∀ q ∈ qs, GlobalCounts N (qs.map (·.u.gs.H)) q.u.gs.H q.u.gs.C ∧
      q.w.w0 ≤ max0 ∧ q.w.w1 ≤ max1 := by
  obtain ⟨M, S, c, n, cc, hR⟩ := reach_round (B := False) (E := False) (A := True) hi hf
    (fun h => h.elim) id (fun h => h.elim) (fun _ => ⟨hw, hb⟩) hpe (fun h => h.elim) hdc hdp ho h
  set Hs := ps.map (·.H) with hHs
  obtain ⟨q, P, Pb, best, vs, ls, rfl, h01, -, -, -, hq, -⟩ := hR
  refine ⟨by simp [hHs], ?_⟩
  choose! L G hu hl hn hqb hni hPb hS hbA hwE hbE hlk using hq
  have hmap : ((List.range Hs.length).map q).map (·.u.gs.H) = concs Hs P L := by
    rw [List.map_map]
    apply List.map_congr_left
    intro t ht
    exact (hl t (List.mem_range.1 ht)).inv.hH
  intro x hx
  obtain ⟨t, ht, rfl⟩ := List.mem_map.1 hx
  have ht := List.mem_range.1 ht
  refine ⟨?_, hbA t ht trivial⟩
  have hI := (hl t ht).inv
  rw [hmap, hI.hH, hI.hC, cOf_congr (fun nn hnn => view_glob (cc.b.D.wf _ (hAt_mem ht)) (hl t ht).hL hnn)]
  exact globalCounts_concs cc.b.D (fun t ht => (hl t ht).hL) t

/-- The tie example as the state before a pass. -/
def tiePass : List ParResult :=
  [tieH 0 1 2 0 5 4, tieH 3 4 5 1 4 3].map (fun H => ⟨2, H, [⟨1, 1⟩], [⟨1, 1⟩], ⟨9, 9⟩, fun _ => 0⟩)

theorem tiePass_input : PassInput 2 (blockPart 2 2) tiePass where
  dist := tie_input.dist
  owners := blockPart_valid 2 2 (by decide)
  sizes := by decide
  costs := by unfold CostsNonneg; decide
  bip := by unfold Bipartitioned; decide
  sorted := by unfold SortedOnPart; decide
  counts := by unfold GlobalCounts; decide
  localCounts := by unfold CountsExact; decide
  cut := by decide
  weights := by decide

/-- The stored gains at the start of that pass: 1 for the pins, 0 for the vertices without nets. -/
example : ∃ own qs, initCostMyNets (revDelivery _) (revDelivery _) (blockPart 2 2) (tiePass.map (·.H)) = .ok own ∧
    ParReach 10 1 parPass (blockPart 2 2) 18 18 own tiePass qs ∧
    qs.map (fun q => q.u.gs.gains) = [[some 1, some 1, some 0], [some 1, some 1, some 0]] ∧
    (∀ q ∈ tiePass, q.w.w0 ≤ 18 ∧ q.w.w1 ≤ 18) ∧
    ((unionH 2 (tiePass.map (·.H))).vertices.map (·.weight)).sum ≤ 18 := by
  have hd : ((do
      let own ← initCostMyNets (revDelivery _) (revDelivery _) (blockPart 2 2) (tiePass.map (·.H))
      parStart parPass.dInit (blockPart 2 2) own tiePass : Res _).toOption.map
        (fun qs => qs.map (fun q => q.u.gs.gains))) =
      some [[some 1, some 1, some 0], [some 1, some 1, some 0]] := by decide +kernel
  cases h1 : initCostMyNets (revDelivery _) (revDelivery _) (blockPart 2 2) (tiePass.map (·.H)) with
  | error e => rw [h1] at hd; simp [Except.toOption] at hd
  | ok own =>
    rw [h1, ok_bind] at hd
    cases h2 : parStart parPass.dInit (blockPart 2 2) own tiePass with
    | error e => rw [h2] at hd; simp [Except.toOption] at hd
    | ok qs =>
      rw [h2] at hd
      exact ⟨own, qs, rfl, .start h2, by simpa [Except.toOption] using hd, by decide, by decide⟩

/-! ### C53 -/

/-- C53: the loops of `KLFM_par` end. No processor finds more moves in a round than it has vertices,
a pass takes at most one round more than there are vertices, and the processors agree on the
number of rounds and passes, so that none waits for another for ever. -/
theorem C53_ends {N : Nat} {e : ParEnv} (he : ParFair e) {args : List ParArgs}
    (hi : ParInput N e.np args) {fuel rounds : Nat}
    (hf : ∀ a ∈ args, a.H.vertices.length < fuel)
    (hr : (args.map (fun a => a.H.vertices.length)).sum < rounds) (max0 max1 : Int) (opts : Options)
    {cut : Option Int}
    (hcut : ∀ x, cut = some x → x = cutValue .cutNet (unionH N (args.map (·.H)))) :
    KLFMPar rounds fuel e args max0 max1 opts cut ≠ .error .fuel ∧
    KLFMPar rounds fuel e args max0 max1 opts cut ≠ .error .abort := by
  rcases C51_refine_par_partial he hi hf hr max0 max1 opts hcut with ⟨ps, h, -⟩ | h <;>
    rw [h] <;> exact ⟨by simp, by simp⟩

/-- With fewer rounds than vertices the bound can be too small: the tie example needs two rounds. -/
example : (∀ ps, KLFMPar 1 10 (parEnv 2) tieArgs 18 18 (parOpts 1) none ≠ .ok ps) := by
  intro ps h
  have : ((KLFMPar 1 10 (parEnv 2) tieArgs 18 18 (parOpts 1) none).toOption.isSome) = false := by
    decide +kernel
  rw [h] at this
  cases this

end PMondriaan

import Verif.Proofs.MachineParTop
import Verif.Proofs.ParPass

/-
The rounds and passes of the parallel refinement in 64-bit arithmetic.
-/

namespace PMondriaan

open Spec

/-! ### Lists over the processors -/

theorem rangeM_fn {β : Type} [Inhabited β] {p : Nat} {f : Nat → Res β} {l : List β} (h : (List.range p).mapM f = .ok l) :
    ∃ g : Nat → β, l = (List.range p).map g ∧ ∀ t, t < p → f t = .ok (g t) := by
  obtain ⟨h1, h2⟩ := mapM_ok_mem h
  refine ⟨fun t => match f t with | .ok b => b | .error _ => default, ?_, ?_⟩
  · have h3 := mapM_ok (f := f) (g := fun t => match f t with | .ok b => b | .error _ => default) (List.range p) (by
      intro t ht
      obtain ⟨b, hb⟩ := h1 t ht
      rw [hb])
    rw [h3] at h
    exact (Except.ok.inj h).symm
  · intro t ht
    obtain ⟨b, hb⟩ := h1 t (List.mem_range.2 ht)
    simp only [hb]

theorem rangeM_ok {β : Type} {p : Nat} {f : Nat → Res β} {g : Nat → β} (h : ∀ t, t < p → f t = .ok (g t)) :
    (List.range p).mapM f = .ok ((List.range p).map g) :=
  mapM_ok _ (fun t ht => h t (List.mem_range.1 ht))

theorem rangeSum_le {p : Nat} {f g : Nat → Int} (h : ∀ t, t < p → f t ≤ g t) :
    ((List.range p).map f).sum ≤ ((List.range p).map g).sum := by
  have : ∀ l : List Nat, (∀ t ∈ l, f t ≤ g t) → (l.map f).sum ≤ (l.map g).sum := by
    intro l
    induction l with
    | nil => intro _; simp
    | cons a l ih =>
      intro h
      have h1 := h a (by simp)
      have h2 := ih (fun t ht => h t (by simp [ht]))
      rw [List.map_cons, List.map_cons, List.sum_cons, List.sum_cons]
      omega
  exact this _ (fun t ht => h t (List.mem_range.1 ht))

theorem rangeSum_add {p : Nat} (f g : Nat → Int) :
    ((List.range p).map (fun t => f t + g t)).sum = ((List.range p).map f).sum + ((List.range p).map g).sum := by
  induction List.range p with
  | nil => rfl
  | cons a l ih =>
    rw [List.map_cons, List.map_cons, List.map_cons, List.sum_cons, List.sum_cons, List.sum_cons, ih]
    omega

theorem rangeSum_nonneg {p : Nat} {f : Nat → Int} (h : ∀ t, t < p → 0 ≤ f t) : 0 ≤ ((List.range p).map f).sum := by
  apply sum_nonneg'
  intro x hx
  obtain ⟨t, ht, rfl⟩ := List.mem_map.1 hx
  exact h t (List.mem_range.1 ht)

theorem rangeSum_entry {p : Nat} {f : Nat → Int} (h : ∀ t, t < p → 0 ≤ f t) {t : Nat} (ht : t < p) :
    f t ≤ ((List.range p).map f).sum := by
  apply entry_le_sum
  · intro x hx
    obtain ⟨t, ht, rfl⟩ := List.mem_map.1 hx
    exact h t (List.mem_range.1 ht)
  · exact List.mem_map_of_mem (List.mem_range.2 ht)

/-! ### The queue of all processors -/

theorem absQueue_perm {a b : List QMove} (h : a.Perm b) : absQueue a = absQueue b :=
  (h.map _).sum_eq

theorem absQueue_qAll (p : Nat) (mv : Nat → List MoveP) :
    absQueue (qAll p mv) = ((List.range p).map (fun s => absMoves (mv s))).sum := by
  unfold absQueue qAll
  induction List.range p with
  | nil => rfl
  | cons s l ih =>
    have e : (qOf s (mv s)).map (fun m => (m.change.natAbs : Int)) = (mv s).map (fun m => (m.change.natAbs : Int)) := by
      have := congrArg (List.map (fun x : Int => (x.natAbs : Int))) (qOf_change s (mv s))
      simpa [List.map_map, Function.comp_def] using this
    rw [List.flatMap_cons, List.map_append, List.sum_append, ih, e, List.map_cons, List.sum_cons]
    rfl

/-! ### Undoing moves -/

/-- The sum of the weights of the moves in the slots. -/
def slotSum (H : Hypergraph) (l : List (Option MoveP)) : Int :=
  ((l.filterMap (fun o => o.map (·.v))).map (vweight H)).sum

theorem vweight_nonneg {H : Hypergraph} (hw : WeightsNonneg H) (v : Nat) : 0 ≤ vweight H v := by
  unfold vweight
  split
  · rename_i x h
    exact hw x (vertexOf_mem' h)
  · exact Int.le_refl 0

theorem vweights_nonneg {H : Hypergraph} (hw : WeightsNonneg H) (l : List Nat) : 0 ≤ (l.map (vweight H)).sum := by
  apply sum_nonneg'
  intro x hx
  obtain ⟨v, -, rfl⟩ := List.mem_map.1 hx
  exact vweight_nonneg hw v

theorem slotSum_set {H : Hypergraph} (hw : WeightsNonneg H) : ∀ (l : List (Option MoveP)) (i : Nat),
    slotSum H (l.set i none) ≤ slotSum H l := by
  intro l
  induction l with
  | nil => intro i; simp
  | cons o l ih =>
    intro i
    have hn : ∀ o : Option MoveP, slotSum H (o :: l) = (match o with | none => 0 | some m => vweight H m.v) + slotSum H l := by
      intro o
      cases o <;> simp [slotSum]
    have hc : ∀ (o : Option MoveP) l', slotSum H (o :: l') = (match o with | none => 0 | some m => vweight H m.v) + slotSum H l' := by
      intro o l'
      cases o <;> simp [slotSum]
    cases i with
    | zero =>
      rw [List.set_cons_zero, hc, hc]
      cases o with
      | none => exact Int.le_refl _
      | some m =>
        have := vweight_nonneg hw m.v
        dsimp only
        omega
    | succ i =>
      rw [List.set_cons_succ, hc, hc]
      have := ih i
      omega

theorem undoLoop_fit {H0 : Hypergraph} (hw : WeightsNonneg H0) (pos : Bool) : ∀ (i k : Nat) {st st' : UndoState},
    Frame H0 st.H → undoLoop pos i k st = .ok st' → Frame H0 st'.H ∧ slotSum H0 st'.moves ≤ slotSum H0 st.moves := by
  intro i
  induction i with
  | zero =>
    intro k st st' hf h
    cases k with
    | zero => cases h; exact ⟨hf, Int.le_refl _⟩
    | succ k => cases h
  | succ i ih =>
    intro k st st' hf h
    cases k with
    | zero => cases h; exact ⟨hf, Int.le_refl _⟩
    | succ k =>
      unfold undoLoop at h
      rw [bind_eq_ok] at h
      obtain ⟨m, hm, h⟩ := h
      split at h
      · rw [bind_eq_ok] at h
        obtain ⟨s1, h1, h⟩ := h
        cases m with
        | none => cases h1
        | some m =>
          unfold undoOne at h1
          simp only [bind_eq_ok] at h1
          obtain ⟨x, hx, ⟨H, C, L⟩, hmv, ms, hms, h1⟩ := h1
          cases h1
          have hf1 : Frame H0 H := hf.trans (moveLoc_frame hmv)
          obtain ⟨a1, a2⟩ := ih k (st := ⟨H, C, L, ms⟩) hf1 h
          refine ⟨a1, Int.le_trans a2 ?_⟩
          show slotSum H0 ms ≤ _
          rw [(vset_eq_ok' hms).2]
          exact slotSum_set hw _ _
      · exact ih (k + 1) hf h

theorem undoMoves_fit {H0 : Hypergraph} (hw : WeightsNonneg H0) {r : Int} {st st' : UndoState} (hf : Frame H0 st.H)
    (h : undoMoves r st = .ok st') : Frame H0 st'.H ∧ slotSum H0 st'.moves ≤ slotSum H0 st.moves := by
  unfold undoMoves at h
  split at h
  · exact undoLoop_fit hw _ _ _ hf h
  · exact undoLoop_fit hw _ _ _ hf h

theorem slotSum_slots (H : Hypergraph) (moves : List MoveP) (n : Nat) (h : ∀ m ∈ moves, vweight H m.v = m.change.natAbs) :
    slotSum H (moves.map some ++ List.replicate n none) = absMoves moves := by
  unfold slotSum absMoves
  rw [List.filterMap_append, List.map_append, List.sum_append, List.filterMap_map]
  have e1 : (List.replicate n (none : Option MoveP)).filterMap (fun o => o.map (·.v)) = [] := by simp
  have e2 : moves.filterMap ((fun o : Option MoveP => o.map (·.v)) ∘ some) = moves.map (·.v) := by
    rw [← List.filterMap_eq_map]
    rfl
  rw [e1, e2, List.map_map]
  simp only [List.map_nil, List.sum_nil, Int.add_zero]
  congr 1
  apply List.map_congr_left
  intro m hm
  exact h m hm

theorem rejectPhase_sim {H0 : Hypergraph} (F : FitP H0) {p K t : Nat} {np : NetPart} {max0 max1 o0 o : Int} {q : ProcState}
    {top : TopState} (hT : TopFit H0 o0 q.w o top) {queue : List QMove} (h0 : q.w.w0.natAbs + 2 * absQueue queue ≤ 2 ^ 62)
    (h1 : q.w.w1.natAbs + 2 * absQueue queue ≤ 2 ^ 62) {m : MidState}
    (h : rejectPhase p K t np max0 max1 q top queue = .ok m) :
    rejectPhase64 p K t np max0 max1 q top queue = .ok m ∧ OpenInv H0 o m.u.gs ∧ m.u.cutMine = q.u.cutMine ∧
      m.u.owned = q.u.owned ∧ slotSum H0 m.moves ≤ absMoves top.moves ∧
      m.w.w0.natAbs ≤ max q.w.w0.natAbs q.w.w1.natAbs + 2 * absQueue queue ∧
      m.w.w1.natAbs ≤ max q.w.w0.natAbs q.w.w1.natAbs + 2 * absQueue queue := by
  unfold rejectPhase at h
  rw [bind_eq_ok] at h
  obtain ⟨⟨rejs, w⟩, hr, h⟩ := h
  simp only [bind_eq_ok] at h
  obtain ⟨rejected, h2, st, h3, sends, h4, h⟩ := h
  cases h
  obtain ⟨a1, a2, a3⟩ := rejectUnbalanced_sim h0 h1 hr
  obtain ⟨b1, b2⟩ := undoMoves_fit F.hw (st := ⟨top.gs.H, top.gs.C, top.L, _⟩) hT.gs.frame h3
  dsimp only at b2
  rw [slotSum_slots _ _ _ hT.moves] at b2
  unfold rejectPhase64
  rw [a1]; simp only [ok_bind]
  rw [h2]; simp only [ok_bind]
  rw [h3]; simp only [ok_bind]
  rw [h4]
  exact ⟨rfl, ⟨hT.gs.small, b1, hT.gs.op⟩, trivial, trivial, b2, a2, a3⟩

/-! ### Updating the counts -/

/-- The costs of the nets the processor is responsible for. -/
def costsAt (own : List OwnerData) (t : Nat) : List Int :=
  match own[t]? with
  | some o => o.costs
  | none => []

/-- The costs of all nets fit. -/
structure OwnFit (p : Nat) (own : List OwnerData) : Prop where
  nonneg : ∀ t, ∀ c ∈ costsAt own t, 0 ≤ c
  sum : ((List.range p).map (fun t => (costsAt own t).sum)).sum ≤ 2 ^ 60

theorem OwnFit.each {p : Nat} {own : List OwnerData} (h : OwnFit p own) {t : Nat} (ht : t < p) :
    (costsAt own t).sum ≤ 2 ^ 60 := by
  have := rangeSum_entry (p := p) (f := fun t => (costsAt own t).sum) (fun t _ => sum_nonneg' (h.nonneg t)) ht
  have := h.sum
  omega

theorem updateLocal_sim {H0 : Hypergraph} (F : FitP H0) {g : Bool} {u u' : UState} {o : Int} (hu : OpenInv H0 o u.gs)
    {owned : List Cnt} {cut : Int} {msgs : List (Nat × Int)} (h : updateLocal g u owned cut msgs = .ok u') :
    updateLocal64 g u owned cut msgs = .ok u' ∧ OpenInv H0 o u'.gs ∧ u'.owned = owned ∧ u'.cutMine = cut := by
  unfold updateLocal at h
  simp only [bind_eq_ok] at h
  obtain ⟨prev0, h1, gs, h2, C, h3, h⟩ := h
  cases h
  have k : runIf (g = true) (refreshGains64 u.gs prev0) u.gs = .ok gs ∧ OpenInv H0 o gs := by
    unfold runIf at h2 ⊢
    split at h2
    · rename_i hg
      rw [if_pos hg]
      exact refreshGains_sim F hu h2
    · rename_i hg
      rw [if_neg hg]
      cases h2
      exact ⟨rfl, hu⟩
  unfold updateLocal64
  rw [h1]; simp only [ok_bind]
  rw [k.1]; simp only [ok_bind]
  rw [h3]
  exact ⟨rfl, ⟨k.2.small, k.2.frame, k.2.op⟩, trivial, trivial⟩

theorem updateC_sim {p : Nat} {h : Nat → Hypergraph} (F : ∀ t, t < p → FitP (h t)) {own : List OwnerData} (O : OwnFit p own)
    {dUp dDown : Delivery (Nat × Int)} {np : NetPart} {g : Bool} {u : Nat → UState} {o : Nat → Int}
    (hu : ∀ t, t < p → OpenInv (h t) (o t) (u t).gs ∧ (u t).cutMine = cutSum (costsAt own t) (u t).owned)
    {outs : List (List (Nat × (Nat × Int)))} {us : List UState}
    (hr : updateC dUp dDown np g own ((List.range p).map u) outs = .ok us) :
    updateC64 dUp dDown np g own ((List.range p).map u) outs = .ok us ∧
      ∃ u' : Nat → UState, us = (List.range p).map u' ∧
        ∀ t, t < p → OpenInv (h t) (o t) (u' t).gs ∧ (u' t).cutMine = cutSum (costsAt own t) (u' t).owned := by
  unfold updateC at hr
  unfold updateC64
  simp only [List.length_map, List.length_range] at hr ⊢
  rw [bind_eq_ok] at hr
  obtain ⟨ow, h1, hr⟩ := hr
  rw [bind_eq_ok] at hr
  obtain ⟨rep, h2, hr⟩ := hr
  obtain ⟨a, rfl, ha⟩ := rangeM_fn h1
  obtain ⟨u', rfl, hu'⟩ := rangeM_fn hr
  have s1 : ∀ t, t < p → (do
      let o ← vget own t
      let u ← vget ((List.range p).map u) t
      (inbox dUp outs t).foldlM (ownerStep64 np o.costs u.owned) (u.owned, u.cutMine) : Res (List Cnt × Int)) = .ok (a t) ∧
      (a t).2 = cutSum (costsAt own t) (a t).1 := by
    intro t ht
    have h3 := ha t ht
    rw [bind_eq_ok] at h3
    obtain ⟨od, hod, h3⟩ := h3
    rw [vget_ok (rangeMap_get ht _)] at h3 ⊢
    simp only [ok_bind] at h3 ⊢
    rw [hod]; simp only [ok_bind]
    have e : costsAt own t = od.costs := by unfold costsAt; rw [vget_eq_ok.1 hod]
    have k1 := O.nonneg t
    have k2 := O.each ht
    have k3 := (hu t ht).2
    rw [e] at k1 k2 k3 ⊢
    exact ownerLoop_sim k1 k2 k3 h3
  have s2 : ∀ t, t < p → (do
      let u ← vget ((List.range p).map u) t
      let a ← vget ((List.range p).map a) t
      updateLocal64 g u a.1 a.2 (inbox dDown rep t) : Res UState) = .ok (u' t) ∧
      (OpenInv (h t) (o t) (u' t).gs ∧ (u' t).cutMine = cutSum (costsAt own t) (u' t).owned) := by
    intro t ht
    have h3 := hu' t ht
    rw [vget_ok (rangeMap_get ht _)] at h3 ⊢
    simp only [ok_bind] at h3 ⊢
    rw [vget_ok (rangeMap_get ht _)] at h3 ⊢
    simp only [ok_bind] at h3 ⊢
    obtain ⟨b1, b2, b3, b4⟩ := updateLocal_sim (F t ht) (hu t ht).1 h3
    exact ⟨b1, b2, by rw [b3, b4]; exact (s1 t ht).2⟩
  rw [rangeM_ok (fun t ht => (s1 t ht).1)]
  simp only [ok_bind]
  rw [h2]; simp only [ok_bind]
  rw [rangeM_ok (fun t ht => (s2 t ht).1)]
  exact ⟨rfl, u', rfl, fun t ht => (s2 t ht).2⟩

/-! ### A round -/

/-- All processors between two rounds: `h` are the hypergraphs, `o` the weights that may still move. -/
structure RoundFit (p : Nat) (h : Nat → Hypergraph) (own : List OwnerData) (X : Int) (q : Nat → ProcState) (o : Nat → Int) :
    Prop where
  gs : ∀ t, t < p → OpenInv (h t) (o t) (q t).u.gs
  back : ∀ t, t < p → ((q t).noImp.map (vweight (h t))).sum + o t ≤ ((h t).vertices.map (·.weight)).sum
  cut : ∀ t, t < p → (q t).u.cutMine = cutSum (costsAt own t) (q t).u.owned
  w0 : ∀ t, t < p → (q t).w.w0.natAbs + 2 * ((List.range p).map o).sum ≤ X
  w1 : ∀ t, t < p → (q t).w.w1.natAbs + 2 * ((List.range p).map o).sum ≤ X

/-- What is needed of the arguments. -/
structure FitPar (p : Nat) (h : Nat → Hypergraph) (own : List OwnerData) (max0 max1 : Int) : Prop where
  fit : ∀ t, t < p → FitP (h t)
  own : OwnFit p own
  m0 : -2 ^ 60 ≤ max0 ∧ max0 ≤ 2 ^ 60
  m1 : -2 ^ 60 ≤ max1 ∧ max1 ≤ 2 ^ 60

theorem cutAll_sim {p : Nat} {own : List OwnerData} (O : OwnFit p own) {u : Nat → UState}
    (hu : ∀ t, t < p → (u t).cutMine = cutSum (costsAt own t) (u t).owned) :
    (((List.range p).map u).map (·.cutMine)).foldlM (fun t x => long (t + x)) 0 =
      .ok ((((List.range p).map u).map (·.cutMine)).foldl (· + ·) 0) := by
  rw [foldl_add_sum]
  have hn : ∀ t, t < p → 0 ≤ (u t).cutMine ∧ (u t).cutMine ≤ (costsAt own t).sum := by
    intro t ht
    rw [hu t ht]
    exact cutSum_range (O.nonneg t) _
  have h := sumLong_eq (((List.range p).map u).map (·.cutMine)) 0 (Int.le_refl 0) (by
    intro x hx
    obtain ⟨y, hy, rfl⟩ := List.mem_map.1 hx
    obtain ⟨t, ht, rfl⟩ := List.mem_map.1 hy
    exact (hn t (List.mem_range.1 ht)).1) (by
    rw [List.map_map]
    have := rangeSum_le (f := fun t => (u t).cutMine) (fun t ht => (hn t ht).2)
    have := O.sum
    show (0 : Int) + ((List.range p).map (fun t => (u t).cutMine)).sum < _
    omega)
  rw [Int.zero_add] at h
  exact h

theorem parRound_sim {p : Nat} {h : Nat → Hypergraph} {own : List OwnerData} {max0 max1 X : Int}
    (F : FitPar p h own max0 max1) (hX : X ≤ 2 ^ 60) {pe : PassEnv} (hpe : PassFair pe) {fuel K r : Nat} {np : NetPart}
    {q : Nat → ProcState} {o : Nat → Int} (hq : RoundFit p h own X q o) {l : List ProcState}
    (hr : parRound fuel K r pe np max0 max1 own ((List.range p).map q) = .ok l) :
    parRound64 fuel K r pe np max0 max1 own ((List.range p).map q) = .ok l ∧
      ∃ q' o', l = (List.range p).map q' ∧ RoundFit p h own X q' o' := by
  unfold parRound at hr
  unfold parRound64
  simp only [List.length_map, List.length_range] at hr ⊢
  rw [bind_eq_ok] at hr
  obtain ⟨tl, h1, hr⟩ := hr
  rw [bind_eq_ok] at hr
  obtain ⟨ml, h2, hr⟩ := hr
  rw [bind_eq_ok] at hr
  obtain ⟨ul, h3, hr⟩ := hr
  obtain ⟨tops, rfl, htop⟩ := rangeM_fn h1
  obtain ⟨mids, rfl, hmid⟩ := rangeM_fn h2
  have hon : ∀ t, t < p → 0 ≤ o t := fun t ht => (hq.gs t ht).nonneg (F.fit t ht)
  have hos := rangeSum_nonneg hon
  -- finding moves
  have s1 : ∀ t, t < p → (do
      let q ← vget ((List.range p).map q) t
      topLoop64 max0 max1 K fuel { gs := q.u.gs, L := q.L, moves := [], w := q.w, rng := q.rng } : Res TopState) = .ok (tops t) ∧
      ∃ o', TopFit (h t) (o t) (q t).w o' (tops t) := by
    intro t ht
    have h4 := htop t ht
    rw [vget_ok (rangeMap_get ht _)] at h4 ⊢
    simp only [ok_bind] at h4 ⊢
    have e := rangeSum_entry hon ht
    have e0 := hq.w0 t ht
    have e1 := hq.w1 t ht
    have e2 := hon t ht
    refine topLoop_sim (F.fit t ht) (o0 := o t) (w := (q t).w) ⟨F.m0, F.m1, by omega, by omega⟩ K fuel
      (o := o t) ⟨hq.gs t ht, ?_, ?_, ?_, ?_⟩ h4
    · simp [absMoves]
    · simp [absMoves]
    · simp [absMoves]
    · intro m hm; cases hm
  obtain ⟨o', ho'⟩ : ∃ o' : Nat → Int, ∀ t, t < p → TopFit (h t) (o t) (q t).w (o' t) (tops t) := by
    choose! o' ho' using fun t ht => (s1 t ht).2
    exact ⟨o', ho'⟩
  have houts : ((List.range p).map tops).zipIdx.map (fun x => moveSends p x.2 x.1.moves) =
      (List.range p).map (fun s => moveSends p s (tops s).moves) := by
    apply List.ext_getElem?
    intro k
    by_cases hk : k < p
    · rw [rangeMap_get hk, List.getElem?_map, List.getElem?_zipIdx, rangeMap_get hk]
      simp
    · simp [hk]
  rw [houts] at hmid
  -- all moves of the round
  obtain ⟨A, hA⟩ : ∃ A, A = ((List.range p).map (fun s => absMoves (tops s).moves)).sum := ⟨_, rfl⟩
  have hA1 : A + ((List.range p).map o').sum ≤ ((List.range p).map o).sum := by
    rw [hA, ← rangeSum_add]
    exact rangeSum_le (fun t ht => (ho' t ht).used)
  have hA0 : 0 ≤ A := by
    rw [hA]
    exact rangeSum_nonneg (fun t _ => absMoves_nonneg _)
  have hon' : ∀ t, t < p → 0 ≤ o' t := fun t ht => (ho' t ht).gs.nonneg (F.fit t ht)
  have hos' := rangeSum_nonneg hon'
  have hqueue : ∀ t, t < p → absQueue (pe.srt (inbox (pe.dMoves r)
      ((List.range p).map (fun s => moveSends p s (tops s).moves)) t)) = A := by
    intro t ht
    rw [absQueue_perm ((hpe.srt _).trans (inbox_moves ht (hpe.moves r) (fun s => (tops s).moves))), absQueue_qAll, hA]
  -- rejecting moves
  have s2 : ∀ t, t < p → (do
      let q ← vget ((List.range p).map q) t
      let top ← vget ((List.range p).map tops) t
      rejectPhase64 p K t np max0 max1 q top (pe.srt (inbox (pe.dMoves r)
        ((List.range p).map (fun s => moveSends p s (tops s).moves)) t)) : Res MidState) = .ok (mids t) ∧
      (OpenInv (h t) (o' t) (mids t).u.gs ∧ (mids t).u.cutMine = cutSum (costsAt own t) (mids t).u.owned ∧
      slotSum (h t) (mids t).moves ≤ absMoves (tops t).moves ∧
      (mids t).w.w0.natAbs ≤ max (q t).w.w0.natAbs (q t).w.w1.natAbs + 2 * A ∧
      (mids t).w.w1.natAbs ≤ max (q t).w.w0.natAbs (q t).w.w1.natAbs + 2 * A) := by
    intro t ht
    have h4 := hmid t ht
    rw [vget_ok (rangeMap_get ht _)] at h4 ⊢
    simp only [ok_bind] at h4 ⊢
    rw [vget_ok (rangeMap_get ht _)] at h4 ⊢
    simp only [ok_bind] at h4 ⊢
    have e := hqueue t ht
    have e0 := hq.w0 t ht
    have e1 := hq.w1 t ht
    generalize pe.srt (inbox (pe.dMoves r) ((List.range p).map (fun s => moveSends p s (tops s).moves)) t) = queue at e h4 ⊢
    obtain ⟨b1, b2, b3, b4, b5, b6, b7⟩ := rejectPhase_sim (F.fit t ht) (ho' t ht) (by omega) (by omega) h4
    rw [e] at b6 b7
    exact ⟨b1, b2, by rw [b3, b4]; exact hq.cut t ht, b5, b6, b7⟩
  rw [List.map_map] at h3
  obtain ⟨b1, us, rfl, b2⟩ := updateC_sim F.fit F.own (u := fun t => (mids t).u) (o := o')
    (fun t ht => ⟨(s2 t ht).2.1, (s2 t ht).2.2.1⟩) h3
  obtain ⟨q', rfl, hq'⟩ := rangeM_fn hr
  have hcut := cutAll_sim F.own (u := us) (fun t ht => (b2 t ht).2)
  -- bookkeeping
  have s3 : ∀ t, t < p → (do
      let q ← vget ((List.range p).map q) t
      let m ← vget ((List.range p).map mids) t
      let u ← vget ((List.range p).map us) t
      accountMoves64 q m u ((((List.range p).map us).map (·.cutMine)).foldl (· + ·) 0) : Res ProcState) = .ok (q' t) ∧
      (OpenInv (h t) (o' t) (q' t).u.gs ∧
      ((q' t).noImp.map (vweight (h t))).sum + o' t ≤ ((h t).vertices.map (·.weight)).sum ∧
      (q' t).u.cutMine = cutSum (costsAt own t) (q' t).u.owned ∧ (q' t).w = (mids t).w) := by
    intro t ht
    have h4 := hq' t ht
    rw [vget_ok (rangeMap_get ht _)] at h4 ⊢
    simp only [ok_bind] at h4 ⊢
    rw [vget_ok (rangeMap_get ht _)] at h4 ⊢
    simp only [ok_bind] at h4 ⊢
    rw [vget_ok (rangeMap_get ht _)] at h4 ⊢
    simp only [ok_bind] at h4 ⊢
    unfold accountMoves at h4
    unfold accountMoves64
    simp only [bind_eq_ok] at h4
    obtain ⟨⟨d, gs⟩, hd, h4⟩ := h4
    obtain ⟨c1, c2⟩ := done_sim (b2 t ht).1.small hd
    rw [c1]
    have h5 := Except.ok.inj h4
    refine ⟨h4, ?_⟩
    rw [← h5]
    refine ⟨(b2 t ht).1.keeps c2 (done_keeps hd), ?_, (b2 t ht).2, rfl⟩
    dsimp only
    have k1 := hq.back t ht
    have k2 := (s2 t ht).2.2.2.1
    have k3 := (ho' t ht).used
    have k4 := vweights_nonneg (F.fit t ht).hw (q t).noImp
    split
    · rw [List.map_append, List.sum_append]
      unfold slotSum at k2
      omega
    · have k5 := absMoves_nonneg (tops t).moves
      simp only [List.map_nil, List.sum_nil]
      omega
  rw [rangeM_ok (fun t ht => (s1 t ht).1)]
  simp only [ok_bind]
  rw [houts]
  rw [rangeM_ok (fun t ht => (s2 t ht).1)]
  simp only [ok_bind]
  rw [List.map_map]
  have b1' : updateC64 (pe.dUp r) (pe.dDown r) np true own (List.map ((fun x => x.u) ∘ mids) (List.range p))
      (List.map (fun x => x.sends) (List.map mids (List.range p))) = .ok ((List.range p).map us) := b1
  rw [b1']
  simp only [ok_bind]
  rw [hcut]
  simp only [ok_bind]
  rw [rangeM_ok (fun t ht => (s3 t ht).1)]
  refine ⟨rfl, q', o', rfl, fun t ht => (s3 t ht).2.1, fun t ht => (s3 t ht).2.2.1, fun t ht => (s3 t ht).2.2.2.1, ?_, ?_⟩
  · intro t ht
    have e0 := hq.w0 t ht
    have e1 := hq.w1 t ht
    rw [(s3 t ht).2.2.2.2]
    have := (s2 t ht).2.2.2.2.1
    omega
  · intro t ht
    have e0 := hq.w0 t ht
    have e1 := hq.w1 t ht
    rw [(s3 t ht).2.2.2.2]
    have := (s2 t ht).2.2.2.2.2
    omega

theorem parRounds_sim {p : Nat} {h : Nat → Hypergraph} {own : List OwnerData} {max0 max1 X : Int}
    (F : FitPar p h own max0 max1) (hX : X ≤ 2 ^ 60) {pe : PassEnv} (hpe : PassFair pe) {fuel K : Nat} {np : NetPart} :
    ∀ (f r : Nat) {q : Nat → ProcState} {o : Nat → Int} {l : List ProcState}, RoundFit p h own X q o →
      parRounds fuel K pe np max0 max1 own f r ((List.range p).map q) = .ok l →
      parRounds64 fuel K pe np max0 max1 own f r ((List.range p).map q) = .ok l ∧
        ∃ q' o', l = (List.range p).map q' ∧ RoundFit p h own X q' o' := by
  intro f
  induction f with
  | zero => intro r q o l _ h; cases h
  | succ f ih =>
    intro r q o l hq hr
    unfold parRounds at hr
    rw [bind_eq_ok] at hr
    obtain ⟨l1, h1, hr⟩ := hr
    obtain ⟨a1, q', o', rfl, a2⟩ := parRound_sim F hX hpe hq h1
    unfold parRounds64
    rw [a1]; simp only [ok_bind]
    split at hr
    · rename_i hd
      rw [if_pos hd]
      cases hr
      exact ⟨rfl, q', o', rfl, a2⟩
    · rename_i hd
      rw [if_neg hd]
      exact ih (r + 1) a2 hr

end PMondriaan

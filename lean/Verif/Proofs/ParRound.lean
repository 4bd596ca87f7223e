import Verif.Proofs.ParAgree
import Verif.Proofs.Bridge

/-
One round of `KLFM_pass_par`: all processors propose moves, moves that break the balance are undone,
counts and gains are brought up to date and the new cutsize is compared with the best one.
-/

namespace PMondriaan

open Spec

instance : Inhabited Hypergraph := ⟨Hypergraph.create 0 0 [] []⟩
deriving instance Inhabited for W2
deriving instance Inhabited for Rng
deriving instance Inhabited for Buckets
deriving instance Inhabited for GainStructure
deriving instance Inhabited for UState
deriving instance Inhabited for TopState
deriving instance Inhabited for MidState
deriving instance Inhabited for ProcState
deriving instance Inhabited for ParResult
deriving instance Inhabited for BackState

theorem list_eq_range {β : Type} [Inhabited β] {l : List β} {p : Nat} (h : l.length = p) :
    l = (List.range p).map (fun t => l.getD t default) := by
  apply List.ext_getElem?
  intro k
  by_cases hk : k < p
  · rw [rangeMap_get hk, List.getElem?_eq_getElem (by omega)]
    simp [h, hk]
  · simp [hk, h]

theorem Outcome.rangeFn {β : Type} [Inhabited β] {B : Prop} {p : Nat} {f : Nat → Res β}
    (Q : Nat → β → Prop) (h : ∀ t, t < p → Outcome B (f t) (Q t)) :
    Outcome B ((List.range p).mapM f) (fun l => ∃ g : Nat → β, l = (List.range p).map g ∧
      ∀ t, t < p → Q t (g t)) := by
  refine (Outcome.range Q h).mono ?_
  rintro l ⟨hl, hq⟩
  refine ⟨fun t => l.getD t default, list_eq_range hl, ?_⟩
  intro t ht
  apply hq
  rw [List.getElem?_eq_getElem (by omega)]
  simp [hl, ht]

/-! ### Vertices of different processors -/

theorem vertex_disjoint {N : Nat} {Hs : List Hypergraph} (D : Distributed N Hs) {s t : Nat}
    (hs : s < Hs.length) (ht : t < Hs.length) {u : Nat} (h1 : IsVertex (hAt Hs s) u)
    (h2 : IsVertex (hAt Hs t) u) : s = t := by
  by_contra hne
  have hd := D.disjoint
  rw [List.map_flatMap] at hd
  have hp := (List.nodup_flatMap.1 hd).2
  have key : ∀ a b, a < b → b < Hs.length → IsVertex (hAt Hs a) u → IsVertex (hAt Hs b) u → False := by
    intro a b hab hb ha1 hb1
    have := List.pairwise_iff_getElem.1 hp a b (by omega) hb hab
    have e1 : Hs[a] = hAt Hs a := by
      have := hAt_get (Hs := Hs) (t := a) (by omega)
      rw [List.getElem?_eq_getElem (by omega)] at this
      exact Option.some.inj this
    have e2 : Hs[b] = hAt Hs b := by
      have := hAt_get (Hs := Hs) (t := b) hb
      rw [List.getElem?_eq_getElem hb] at this
      exact Option.some.inj this
    simp only [Function.onFun, e1, e2] at this
    exact this ha1 hb1
  rcases Nat.lt_or_gt_of_ne hne with h | h
  · exact key s t h ht h1 h2
  · exact key t s h hs h2 h1

theorem flips_filter (P : Nat → Int) (l : List Nat) (u : Nat) :
    flips P l u = flips P (l.filter (fun v => v = u)) u := by
  induction l generalizing P with
  | nil => rfl
  | cons a l ih =>
    rw [List.filter_cons]
    by_cases h : a = u
    · simp only [h, decide_true, if_true]
      exact ih (flip P u)
    · simp only [h, decide_false, Bool.false_eq_true, if_false]
      rw [← ih P]
      apply flips_at (P := flip P a)
      unfold flip
      rw [upd_other _ _ (Ne.symm h)]

/-- Flipping vertices of all processors looks, on one processor, like flipping its own. -/
theorem flips_all {N : Nat} {Hs : List Hypergraph} (D : Distributed N Hs) (P : Nat → Int)
    {ks : Nat → List Nat} (hk : ∀ s, s < Hs.length → ∀ v ∈ ks s, IsVertex (hAt Hs s) v) {t : Nat}
    (ht : t < Hs.length) {u : Nat} (hu : IsVertex (hAt Hs t) u) :
    flips P ((List.range Hs.length).flatMap ks) u = flips P (ks t) u := by
  rw [flips_filter, flips_filter P (ks t)]
  congr 1
  have key : ∀ l : List Nat, l.Nodup → (∀ s ∈ l, s < Hs.length) →
      (l.flatMap ks).filter (fun v => v = u) = if t ∈ l then (ks t).filter (fun v => v = u) else [] := by
    intro l hl hlt
    induction l with
    | nil => simp
    | cons s l ih =>
      obtain ⟨hs, hl'⟩ := List.nodup_cons.1 hl
      rw [List.flatMap_cons, List.filter_append, ih hl' (fun x hx => hlt x (by simp [hx]))]
      by_cases hst : s = t
      · subst hst
        simp [hs]
      · have : (ks s).filter (fun v => v = u) = [] := by
          rw [List.filter_eq_nil_iff]
          intro v hv
          simp only [decide_eq_true_eq]
          rintro rfl
          exact hst (vertex_disjoint D (hlt s (by simp)) ht (hk s (hlt s (by simp)) v hv) hu)
        rw [this, List.nil_append]
        simp [Ne.symm hst]
  rw [key _ List.nodup_range (fun s hs => List.mem_range.1 hs), if_pos (List.mem_range.2 ht)]

/-! ### Gains in the whole hypergraph -/

theorem sum_single {l : List Nat} (nd : l.Nodup) {t : Nat} (ht : t ∈ l) {f : Nat → Int}
    (h : ∀ s ∈ l, s ≠ t → f s = 0) : (l.map f).sum = f t := by
  induction l with
  | nil => cases ht
  | cons a l ih =>
    obtain ⟨ha, hl⟩ := List.nodup_cons.1 nd
    rw [List.map_cons, List.sum_cons]
    by_cases hat : a = t
    · subst hat
      have : (l.map f).sum = 0 := by
        apply List.sum_eq_zero
        intro y hy
        obtain ⟨s, hs, rfl⟩ := List.mem_map.1 hy
        exact h s (by simp [hs]) (fun e => ha (e ▸ hs))
      omega
    · have ht' : t ∈ l := by
        rcases List.mem_cons.1 ht with h1 | h1
        · exact absurd h1.symm hat
        · exact h1
      rw [ih hl ht' (fun s hs => h s (by simp [hs])), h a (by simp) hat]
      omega

theorem flips_val {P : Nat → Int} {u : Nat} (h : P u = 0 ∨ P u = 1) (l : List Nat) :
    flips P l u = 0 ∨ flips P l u = 1 := by
  induction l generalizing P with
  | nil => exact h
  | cons a l ih =>
    apply ih (P := flip P a)
    unfold flip upd
    split
    · subst_vars; exact other_01 h
    · exact h

/-- Flipping own vertices does not change what a processor sees of the others. -/
theorem remF_flips {N : Nat} {Hs : List Hypergraph} (D : Distributed N Hs) {t : Nat}
    (ht : t < Hs.length) (P : Nat → Int) {vs : List Nat} (hv : ∀ v ∈ vs, IsVertex (hAt Hs t) v)
    (e : Nat) : remF Hs (hAt Hs t) (flips P vs) e = remF Hs (hAt Hs t) P e := by
  have hother : ∀ s, s < Hs.length → s ≠ t → locF (hAt Hs s) (flips P vs) e = locF (hAt Hs s) P e := by
    intro s hs hst
    apply locF_congrP (D.wf _ (hAt_mem hs))
    intro u hu
    exact flips_notMem (fun hm => hst (vertex_disjoint D hs ht hu (hv u hm)))
  obtain ⟨a0, a1⟩ := globF_sum D.wf (flips P vs) e
  obtain ⟨b0, b1⟩ := globF_sum D.wf P e
  have key : ∀ c : Cnt → Int,
      (Hs.map (fun H => c (locF H (flips P vs) e))).sum - (Hs.map (fun H => c (locF H P e))).sum =
      c (locF (hAt Hs t) (flips P vs) e) - c (locF (hAt Hs t) P e) := by
    intro c
    rw [map_hAt Hs (fun H => c (locF H (flips P vs) e)), map_hAt Hs (fun H => c (locF H P e)),
      ← sum_map_sub_range]
    exact sum_single (f := fun s => c (locF (hAt Hs s) (flips P vs) e) - c (locF (hAt Hs s) P e))
      List.nodup_range (List.mem_range.2 ht) (fun s hs hst => by
        rw [hother s (List.mem_range.1 hs) hst]; omega)
  have k0 := key (·.c0)
  have k1 := key (·.c1)
  unfold remF
  rw [a0, a1, b0, b1]
  congr 1 <;> omega

/-- A gain computed from the counts in the whole hypergraph is the drop of its cut. -/
theorem gainSum_union {N : Nat} {Hs : List Hypergraph} (D : Distributed N Hs) {P : Nat → Int}
    (h01 : GParts01 Hs P) {t : Nat} (ht : t < Hs.length) {x : Vertex}
    (hx : x ∈ (hAt Hs t).vertices) :
    gainSum (hAt Hs t) (globF Hs P) P x = gainAt (unionH N Hs) P x.id := by
  have wU : WF (unionH N Hs) := unionH_wf D
  have hxU : x ∈ (unionH N Hs).vertices := List.mem_flatMap.2 ⟨_, hAt_mem ht, hx⟩
  have hU01 : Parts01 (unionH N Hs) P := by
    intro y hy
    obtain ⟨H, hH, hy⟩ := List.mem_flatMap.1 (show y ∈ Hs.flatMap (·.vertices) from hy)
    exact h01 H hH y hy
  have e1 : gainSum (hAt Hs t) (globF Hs P) P x =
      gainSum (unionH N Hs) (exactF P (pinsOf (unionH N Hs))) P x := by
    unfold gainSum
    congr 1
    apply List.map_congr_left
    intro e he
    obtain ⟨n, hn, hne, -⟩ := (D.wf _ (hAt_mem ht)).inc_net x hx e he
    subst hne
    have hnU : unionNet Hs n.id ∈ (unionH N Hs).nets :=
      List.mem_map_of_mem (List.mem_range.2 (D.ids _ (hAt_mem ht) n hn))
    have h1 : costOf (unionH N Hs) n.id = unionCost Hs n.id := costOf_eq wU hnU
    have h2 : pinsOf (unionH N Hs) n.id = unionPins Hs n.id := pinsOf_eq wU hnU
    rw [costOf_eq (D.wf _ (hAt_mem ht)) hn, h1, unionCost_eq D (hAt_mem ht) hn]
    congr 1
    unfold globF exactF
    rw [h2]
  rw [e1, gainSum_cut wU hU01 (pinsPerm_self wU) hxU]
  unfold gainAt
  rw [flip_flipped (hU01 x hxU)]

theorem gainsOf_union {N : Nat} {Hs : List Hypergraph} (D : Distributed N Hs) {P : Nat → Int}
    (h01 : GParts01 Hs P) {t : Nat} (ht : t < Hs.length) :
    GainsOf (hAt Hs t) (remF Hs (hAt Hs t) P) P (gainAt (unionH N Hs)) := by
  intro vs L hv hL x hx
  have wt := D.wf _ (hAt_mem ht)
  rw [← gainSum_union D (fun H hH y hy => flips_val (h01 H hH y hy) vs) ht hx]
  apply gainSum_congr wt _ _ hx
  intro n hn
  rw [← view_glob wt hL hn]
  unfold viewF
  rw [remF_flips D ht P hv]

/-! ### Weights -/

/-- Weight of part `q` over all processors. -/
def gw (Hs : List Hypergraph) (P : Nat → Int) (q : Int) : Int :=
  ((List.range Hs.length).map (fun t => pw (hAt Hs t) P q)).sum

theorem gw_weightIn (N : Nat) (Hs : List Hypergraph) (P : Nat → Int) (q : Int) :
    gw Hs P q = weightIn (unionH N Hs) P q := by
  rw [weightIn_pw]
  unfold gw
  rw [← map_hAt Hs (fun H => pw H P q)]
  show _ = ((Hs.flatMap (·.vertices)).map _).sum
  induction Hs with
  | nil => rfl
  | cons H l ih =>
    rw [List.map_cons, List.sum_cons, ih, List.flatMap_cons, List.map_append, List.sum_append]
    rfl

/-- Vertices flipped once have changed side, the others have not. -/
theorem flips_at_nodup {P : Nat → Int} {l : List Nat} (nd : l.Nodup) {v : Nat}
    (h : P v = 0 ∨ P v = 1) : flips P l v = if v ∈ l then 1 - P v else P v := by
  induction l generalizing P with
  | nil => simp [flips]
  | cons a l ih =>
    obtain ⟨ha, hl⟩ := List.nodup_cons.1 nd
    by_cases hva : v = a
    · subst hva
      rw [if_pos (by simp)]
      show flips (flip P v) l v = _
      rw [flips_notMem ha]
      unfold flip
      rw [upd_same, other_eq_sub h]
    · have hfa : flip P a v = P v := by unfold flip; rw [upd_other _ _ hva]
      show flips (flip P a) l v = _
      rw [ih hl (by rw [hfa]; exact h), hfa]
      simp [hva]

theorem pw_congr {H : Hypergraph} {P P' : Nat → Int} (h : ∀ u, IsVertex H u → P u = P' u) (q : Int) :
    pw H P q = pw H P' q := by
  unfold pw
  congr 1
  apply List.map_congr_left
  intro v hv
  rw [h v.id (List.mem_map_of_mem hv)]

/-- The recorded weight changes are the changes of the weights. -/
theorem pw_moves {H : Hypergraph} (w : WF H) {P : Nat → Int} (h01 : Parts01 H P) (l : List MoveP)
    (hv : ∀ m ∈ l, ∃ x ∈ H.vertices, x.id = m.v ∧ m.change = leaveChange P x)
    (nd : (l.map (·.v)).Nodup) :
    pw H (flips P (l.map (·.v))) 0 = pw H P 0 + moveSum l ∧
    pw H (flips P (l.map (·.v))) 1 = pw H P 1 - moveSum l := by
  induction l using List.reverseRecOn with
  | nil => simp [flips, moveSum]
  | append_singleton l m ih =>
    rw [List.map_append, List.nodup_append] at nd
    obtain ⟨ih0, ih1⟩ := ih (fun x hx => hv x (by simp [hx])) nd.1
    obtain ⟨x, hx, hxm, hch⟩ := hv m (by simp)
    rw [List.map_append, List.map_cons, List.map_nil, flips_append, ← hxm]
    have hnot : x.id ∉ l.map (·.v) := by
      intro h
      rw [hxm] at h
      exact nd.2.2 _ h _ (by simp) rfl
    have hPx : flips P (l.map (·.v)) x.id = P x.id := flips_notMem hnot
    have h01x := h01 x hx
    rw [pw_flip w hx (by rw [hPx]; exact h01x) (Or.inl rfl),
      pw_flip w hx (by rw [hPx]; exact h01x) (Or.inr rfl), ih0, ih1, hPx, moveSum_append, hch]
    unfold leaveChange
    rcases h01x with h | h <;> simp [h] <;> omega

/-- No bound can be exceeded: weights are not negative and their total is within both bounds. -/
structure Slack (Hs : List Hypergraph) (max0 max1 : Int) : Prop where
  nonneg : ∀ H ∈ Hs, WeightsNonneg H
  le0 : ((Hs.flatMap (·.vertices)).map (·.weight)).sum ≤ max0
  le1 : ((Hs.flatMap (·.vertices)).map (·.weight)).sum ≤ max1

theorem gw_le {Hs : List Hypergraph} (hw : ∀ H ∈ Hs, WeightsNonneg H) (P : Nat → Int) (q : Int) :
    gw Hs P q ≤ ((Hs.flatMap (·.vertices)).map (·.weight)).sum := by
  unfold gw
  have h1 := map_hAt Hs (fun H => pw H P q)
  rw [← h1]
  clear h1
  induction Hs with
  | nil => simp
  | cons H l ih =>
    rw [List.map_cons, List.sum_cons, List.flatMap_cons, List.map_append, List.sum_append]
    have ih := ih (fun x hx => hw x (by simp [hx]))
    have : pw H P q ≤ (H.vertices.map (·.weight)).sum := by
      have hH := hw H (by simp)
      unfold pw
      unfold WeightsNonneg at hH
      clear ih
      revert hH
      generalize H.vertices = vs
      intro hH
      induction vs with
      | nil => simp
      | cons v vs ih =>
        simp only [List.map_cons, List.sum_cons]
        have := ih (fun x hx => hH x (by simp [hx]))
        have := hH v (by simp)
        split <;> omega
    omega

/-- If the proposed moves keep the weights within the bounds, nothing is rejected. -/
theorem rejectUnbalanced_none {p : Nat} {max0 max1 : Int} {q : List QMove} {w : W2}
    (h0 : w.w0 + changeSum q ≤ max0) (h1 : w.w1 - changeSum q ≤ max1) :
    rejectUnbalanced p max0 max1 q w =
      .ok (List.replicate p 0, ⟨w.w0 + changeSum q, w.w1 - changeSum q⟩) := by
  have hbal : q.foldl (fun s m => s + m.change) 0 = changeSum q := by
    have := foldl_add_eq_sum (fun m : QMove => m.change) q 0
    simpa [changeSum] using this
  unfold rejectUnbalanced
  simp only [hbal]
  have e1 : ∀ (q : List QMove) (st : RejState), st.w.w0 ≤ max0 → rejectPos max0 max1 q st = .ok (q, st) := by
    intro q st h
    cases q with
    | nil => rfl
    | cons m q => simp only [rejectPos]; rw [if_neg (by omega)]; rfl
  have e2 : ∀ (q : List QMove) (st : RejState), st.w.w1 ≤ max1 → rejectNeg max0 max1 q st = .ok st := by
    intro q st h
    cases q with
    | nil => rfl
    | cons m q => simp only [rejectNeg]; rw [if_neg (by omega)]; rfl
  rw [e1 q _ h0]; simp only [ok_bind]
  rw [e2 q _ h1]
  rfl

/-! ### One round -/

/-- Nothing can be rejected: either part may hold everything, or there is one processor, whose own
choice of moves keeps within the bounds. -/
def Calm (A : Prop) (Hs : List Hypergraph) (max0 max1 : Int) : Prop :=
  Slack Hs max0 max1 ∨ (A ∧ Hs.length = 1)

/-- All vertices have the same weight. -/
def SameWeights (Hs : List Hypergraph) : Prop := ∃ w, ∀ H ∈ Hs, ∀ v ∈ H.vertices, v.weight = w

/-- What stays fixed during a pass. `B` excludes that anything is rejected, under `E` the reported
weights are the true ones, `A` excludes negative weights. -/
structure PassCtx (B E A : Prop) (N : Nat) (Hs : List Hypergraph) (np : NetPart) (M : Nat → Nat)
    (max0 max1 : Int) (fuel : Nat) : Prop where
  b : ParBase N Hs np
  hc : ∀ H ∈ Hs, CostsNonneg H
  hM : ∀ t, t < Hs.length → MaxCost (hAt Hs t) (M t)
  hne : B → ∀ H ∈ Hs, ∀ n ∈ H.nets, n.vertices ≠ []
  bE : B → E
  calm : B → Calm A Hs max0 max1
  hA : A → ∀ H ∈ Hs, WeightsNonneg H
  hf : ∀ H ∈ Hs, H.vertices.length < fuel

/-- State of processor `t` between two rounds: `P` is the partition, `Pb` the best one so far, `n`
the number of vertices that may still be moved, `S` the total weight reported, `l` the locked
vertices. -/
def ProcInv (B E A : Prop) (Hs : List Hypergraph) (np : NetPart) (M : Nat → Nat) (max0 max1 S : Int)
    (P Pb : Nat → Int) (best : Int) (t n : Nat) (l : List Nat) (q : ProcState) : Prop :=
  ∃ L G, q.u = uOf Hs np P t q.u.gs ∧
    LInv B (hAt Hs t) (M t) (remF Hs (hAt Hs t) P) P L G q.u.gs q.L ∧
    unlocked (hAt Hs t) G = n ∧ q.best = best ∧
    (∀ v ∈ q.noImp, IsVertex (hAt Hs t) v) ∧
    (∀ u, IsVertex (hAt Hs t) u → Pb u = flips P q.noImp u) ∧
    q.w.w0 + q.w.w1 = S ∧ (A → q.w.w0 ≤ max0 ∧ q.w.w1 ≤ max1) ∧
    (E → q.w = ⟨gw Hs P 0, gw Hs P 1⟩) ∧
    (E → A → gw Hs Pb 0 ≤ max0 ∧ gw Hs Pb 1 ≤ max1) ∧
    ∀ x ∈ (hAt Hs t).vertices, (G x.id = none ↔ x.id ∈ l)

/-- What the rejection phase leaves on processor `t`; `mv` are the proposals of all processors, `rj`
the weight changes that each processor takes back. -/
def MidInv (B E A : Prop) (Hs : List Hypergraph) (np : NetPart) (M : Nat → Nat) (max0 max1 S : Int)
    (P : Nat → Int) (mv : Nat → List MoveP) (rj : Nat → Int) (t n : Nat) (l : List Nat)
    (m : MidState) : Prop :=
  ∃ L G, m.u = uOf Hs np P t m.u.gs ∧
    LInv B (hAt Hs t) (M t) (remF Hs (hAt Hs t) P) (flips P ((kept m.moves).map (·.v))) L G
      m.u.gs m.L ∧
    unlocked (hAt Hs t) G + (mv t).length ≤ n ∧
    (∀ x ∈ kept m.moves, x ∈ mv t) ∧
    ((kept m.moves).map (·.v)).Nodup ∧
    m.sends = reports np (changedNets (hAt Hs t) (globF Hs P)
        (viewF (flips P ((kept m.moves).map (·.v))) L (remF Hs (hAt Hs t) P)))
      (fun e => (viewF (flips P ((kept m.moves).map (·.v))) L (remF Hs (hAt Hs t) P) e).c0) ∧
    m.w.w0 + m.w.w1 = S ∧ (A → m.w.w0 ≤ max0 ∧ m.w.w1 ≤ max1) ∧
    (B → (kept m.moves).Perm (mv t)) ∧
    (E → moveSum (kept m.moves) = moveSum (mv t) - rj t ∧
      m.w = ⟨gw Hs P 0 + ((List.range Hs.length).map (fun s => moveSum (mv s) - rj s)).sum,
        gw Hs P 1 - ((List.range Hs.length).map (fun s => moveSum (mv s) - rj s)).sum⟩) ∧
    ∀ x ∈ (hAt Hs t).vertices, (G x.id = none ↔ x.id ∈ l)

/-- Moves of one sign that all weigh the same. -/
theorem moveSum_const {l : List MoveP} {x : Int} (h : ∀ m ∈ l, m.change = x) :
    moveSum l = x * l.length := by
  induction l with
  | nil => simp [moveSum]
  | cons m l ih =>
    have h1 := ih (fun m hm => h m (by simp [hm]))
    have h2 := h m (by simp)
    simp only [moveSum, List.map_cons, List.sum_cons, List.length_cons] at h1 ⊢
    rw [h1, h2]; push_cast; ring

theorem changeSum_const {l : List QMove} {x : Int} (h : ∀ m ∈ l, m.change = x) :
    changeSum l = x * l.length := by
  induction l with
  | nil => simp [changeSum]
  | cons m l ih =>
    have h1 := ih (fun m hm => h m (by simp [hm]))
    have h2 := h m (by simp)
    simp only [changeSum, List.map_cons, List.sum_cons, List.length_cons] at h1 ⊢
    rw [h1, h2]; push_cast; ring

theorem perm_length_zero {l : List Nat} (h : l.length = 0) : l = [] := List.length_eq_zero_iff.1 h

section
variable {B E A : Prop} {N : Nat} {Hs : List Hypergraph} {np : NetPart} {M : Nat → Nat}
  {max0 max1 : Int} {fuel : Nat} (c : PassCtx B E A N Hs np M max0 max1 fuel)
include c

/-- Flipping the proposals of all processors shifts the weights by the recorded changes. -/
theorem gw_moves {P : Nat → Int} (h01 : GParts01 Hs P) {mv : Nat → List MoveP}
    (hv : ∀ t, t < Hs.length → ∀ m ∈ mv t, ∃ x ∈ (hAt Hs t).vertices, x.id = m.v ∧
      m.change = leaveChange P x)
    (nd : ∀ t, t < Hs.length → ((mv t).map (·.v)).Nodup) :
    gw Hs (flips P ((List.range Hs.length).flatMap (fun s => (mv s).map (·.v)))) 0 =
      gw Hs P 0 + ((List.range Hs.length).map (fun s => moveSum (mv s))).sum ∧
    gw Hs (flips P ((List.range Hs.length).flatMap (fun s => (mv s).map (·.v)))) 1 =
      gw Hs P 1 - ((List.range Hs.length).map (fun s => moveSum (mv s))).sum := by
  have hk : ∀ s, s < Hs.length → ∀ v ∈ (mv s).map (·.v), IsVertex (hAt Hs s) v := by
    intro s hs v hvm
    obtain ⟨m, hm, rfl⟩ := List.mem_map.1 hvm
    obtain ⟨x, hx, hxm, -⟩ := hv s hs m hm
    rw [← hxm]; exact List.mem_map_of_mem hx
  have hloc : ∀ t, t < Hs.length → ∀ q, pw (hAt Hs t)
      (flips P ((List.range Hs.length).flatMap (fun s => (mv s).map (·.v)))) q =
      pw (hAt Hs t) (flips P ((mv t).map (·.v))) q := by
    intro t ht q
    apply pw_congr
    intro u hu
    exact flips_all c.b.D P hk ht hu
  have h0 : ∀ t ∈ List.range Hs.length, pw (hAt Hs t)
      (flips P ((List.range Hs.length).flatMap (fun s => (mv s).map (·.v)))) 0 =
      pw (hAt Hs t) P 0 - (-moveSum (mv t)) := by
    intro t ht
    have ht := List.mem_range.1 ht
    rw [hloc t ht, (pw_moves (c.b.D.wf _ (hAt_mem ht)) (h01 _ (hAt_mem ht)) _ (hv t ht) (nd t ht)).1]
    omega
  have h1 : ∀ t ∈ List.range Hs.length, pw (hAt Hs t)
      (flips P ((List.range Hs.length).flatMap (fun s => (mv s).map (·.v)))) 1 =
      pw (hAt Hs t) P 1 - moveSum (mv t) := by
    intro t ht
    have ht := List.mem_range.1 ht
    rw [hloc t ht, (pw_moves (c.b.D.wf _ (hAt_mem ht)) (h01 _ (hAt_mem ht)) _ (hv t ht) (nd t ht)).2]
  have hneg : ∀ l : List Nat, (l.map (fun s => -moveSum (mv s))).sum = -(l.map (fun s => moveSum (mv s))).sum := by
    intro l
    induction l with
    | nil => rfl
    | cons a l ih => simp only [List.map_cons, List.sum_cons, ih]; omega
  unfold gw
  rw [List.map_congr_left h0, List.map_congr_left h1, sum_map_sub_range, sum_map_sub_range, hneg]
  constructor <;> omega

/-- If nothing can be rejected, the proposals keep the weights within the bounds. -/
theorem calm_bounds {P : Nat → Int} (h01 : GParts01 Hs P) {K : Nat}
    {G0 : Nat → Nat → Option Int} {Γ : (Nat → Int) → Nat → Int} {ls ls' : Nat → List Nat}
    {qs : Nat → ProcState} {tops : Nat → TopState}
    (hT : ∀ t, t < Hs.length → ∃ P' L' G', TopInv B Γ (hAt Hs t) (M t) (remF Hs (hAt Hs t) P)
      max0 max1 K P (G0 t) (qs t).w (ls t) P' L' G' (ls' t) (tops t))
    (hcalm : Calm A Hs max0 max1) {t : Nat} (ht : t < Hs.length)
    (hbA : A → (qs t).w.w0 ≤ max0 ∧ (qs t).w.w1 ≤ max1)
    (hw : (qs t).w = ⟨gw Hs P 0, gw Hs P 1⟩) :
    (qs t).w.w0 + ((List.range Hs.length).map (fun s => moveSum (tops s).moves)).sum ≤ max0 ∧
      (qs t).w.w1 - ((List.range Hs.length).map (fun s => moveSum (tops s).moves)).sum ≤ max1 := by
  rcases hcalm with hsl | ⟨hA, h1⟩
  · have hg := gw_moves c h01 (mv := fun s => (tops s).moves)
      (fun s hs m hm => by
        obtain ⟨_, _, _, Ts⟩ := hT s hs
        exact Ts.hv m hm)
      (fun s hs => by
        obtain ⟨_, _, _, Ts⟩ := hT s hs
        exact Ts.nd)
    have hle0 := gw_le hsl.nonneg
      (flips P ((List.range Hs.length).flatMap (fun s => (tops s).moves.map (·.v)))) 0
    have hle1 := gw_le hsl.nonneg
      (flips P ((List.range Hs.length).flatMap (fun s => (tops s).moves.map (·.v)))) 1
    have hs0 := hsl.le0
    have hs1 := hsl.le1
    rw [hw]
    dsimp only
    omega
  · have ht0 : t = 0 := by omega
    subst ht0
    rw [h1]
    obtain ⟨_, _, _, T⟩ := hT 0 ht
    have hb := T.hb (c.hA hA _ (hAt_mem ht)) (hbA hA).1 (hbA hA).2
    rw [T.hw] at hb
    dsimp only at hb
    simp only [List.range_one, List.map_cons, List.map_nil, List.sum_cons, List.sum_nil]
    omega

omit c in
/-- A queue that keeps the weights within the bounds is not touched. -/
theorem rejects_none {p : Nat} {pos : Bool} {q R : List QMove} {w w' : W2}
    (hq : ∀ m ∈ q, m.proc < p) (h0 : w.w0 + changeSum q ≤ max0) (h1 : w.w1 - changeSum q ≤ max1)
    (hrej : rejectUnbalanced p max0 max1 q w =
      .ok ((List.range p).map (fun t => sgn pos (ofProc t R).length), w'))
    (hR : Rejects p pos q R (fun _ => false)) : R = [] := by
  rw [rejectUnbalanced_none h0 h1] at hrej
  obtain ⟨e1, -⟩ := Prod.mk.injEq _ _ _ _ ▸ Except.ok.inj hrej
  rw [List.eq_nil_iff_forall_not_mem]
  intro m hm
  have hp := hq m (hR.sub.subset hm)
  have h2 := congrArg (fun l => l[m.proc]?) e1
  rw [rangeMap_get hp, List.getElem?_replicate, if_pos hp] at h2
  have h3 := Option.some.inj h2
  have hmem : m ∈ ofProc m.proc R := List.mem_filter.2 ⟨hm, by simp⟩
  have h4 := List.length_pos_of_mem hmem
  unfold sgn at h3
  split at h3 <;> omega

/-- The rejection phase of processor `t`, when it rejects the moves `R`. -/
theorem rejectPhase_one {P : Nat → Int} (h01 : GParts01 Hs P) {K : Nat} {S : Int} {G0 : Nat → Nat → Option Int}
    {Γ : (Nat → Int) → Nat → Int} {ls ls' : Nat → List Nat} {qs : Nat → ProcState}
    {tops : Nat → TopState}
    (hq : ∀ t, t < Hs.length → (qs t).u = uOf Hs np P t (qs t).u.gs ∧
      (qs t).w.w0 + (qs t).w.w1 = S ∧ (A → (qs t).w.w0 ≤ max0 ∧ (qs t).w.w1 ≤ max1) ∧
      (E → (qs t).w = ⟨gw Hs P 0, gw Hs P 1⟩))
    (hT : ∀ t, t < Hs.length → ∃ P' L' G', TopInv B Γ (hAt Hs t) (M t) (remF Hs (hAt Hs t) P)
      max0 max1 K P (G0 t) (qs t).w (ls t) P' L' G' (ls' t) (tops t))
    {queue : List QMove} (hqueue : queue.Perm (qAll Hs.length (fun s => (tops s).moves)))
    {t : Nat} (ht : t < Hs.length) {pos : Bool} {R : List QMove}
    (hrej : rejectUnbalanced Hs.length max0 max1 queue (qs t).w =
        .ok ((List.range Hs.length).map (fun t => sgn pos (ofProc t R).length),
          W2.back ⟨(qs t).w.w0 + changeSum queue, (qs t).w.w1 - changeSum queue⟩ R))
    (hR : Rejects Hs.length pos queue R (fun _ => false))
    (hbal : ∀ x, (∀ m ∈ queue, |m.change| ≤ x) → (qs t).w.w0 + (qs t).w.w1 + x ≤ max0 + max1 →
      (qs t).w.w0 ≤ max0 → (qs t).w.w1 ≤ max1 →
      (qs t).w.w0 + changeSum queue - changeSum R ≤ max0 ∧
      (qs t).w.w1 - changeSum queue + changeSum R ≤ max1)
    (hBR : B → R = []) (hER : E → R = [] ∨ SameWeights Hs) :
    ∃ m, rejectPhase Hs.length K t np max0 max1 (qs t) (tops t) queue = .ok m ∧
      MidInv B E A Hs np M max0 max1 S P (fun s => (tops s).moves) (fun s => changeSum (ofProc s R)) t
        (unlocked (hAt Hs t) (G0 t)) (ls' t) m := by
  set mv : Nat → List MoveP := fun s => (tops s).moves with hmv
  have wt := c.b.D.wf _ (hAt_mem ht)
  obtain ⟨P', L', G', T⟩ := hT t ht
  obtain ⟨hu, hS, hbA, hwE⟩ := hq t ht
  have hproc : ∀ m ∈ queue, m.proc < Hs.length := fun m hm => qAll_proc (hqueue.mem_iff.1 hm)
  have hcs : changeSum queue = ((List.range Hs.length).map (fun s => moveSum (mv s))).sum := by
    rw [← changeSum_qAll]
    unfold changeSum
    exact (hqueue.map _).sum_eq
  set k := (ofProc t R).length with hk
  -- the reversal
  have hUI : UInv (hAt Hs t) (remF Hs (hAt Hs t) P) P' L'
      { H := (tops t).gs.H, C := (tops t).gs.C, L := (tops t).L,
        moves := (tops t).moves.map some ++ List.replicate (K - (tops t).moves.length) none } :=
    ⟨T.l.inv.hH, T.l.inv.hC, T.l.hLc, T.l.h01, T.l.hL, T.l.hS⟩
  have hkle : k ≤ ((tops t).moves).countP (fun m => undoes pos (some m)) := by
    rw [← ofSign_count pos ht mv hqueue]
    exact (hR.prefix' t ht).length_le
  obtain ⟨st, L2, hst, hU2, hms⟩ := undoMoves_ok wt pos k hUI (by
    simp only [kept_slots]; exact hkle) (by
    simp only [kept_slots]
    intro m hm
    obtain ⟨x, hx, hxm, -⟩ := T.hv m hm
    rw [← hxm]; exact List.mem_map_of_mem hx)
  simp only at hms hst hU2
  set slots := (tops t).moves.map some ++ List.replicate (K - (tops t).moves.length) none with hslots
  set U := (undoRev pos k slots.reverse).2 with hUdef
  have hkeptU : (kept st.moves ++ U).Perm (tops t).moves := by
    rw [hms, kept_reverse]
    refine (List.Perm.append_right _ (List.reverse_perm _)).trans ?_
    refine (undoRev_perm pos slots.reverse k).trans ?_
    rw [kept_reverse, hslots, kept_slots]
    exact List.reverse_perm _
  have hkm : ∀ x ∈ kept st.moves, x ∈ (tops t).moves := fun x hx =>
    hkeptU.mem_iff.1 (by simp [hx])
  have hUm : ∀ x ∈ U, x ∈ (tops t).moves := fun x hx => hkeptU.mem_iff.1 (by simp [hx])
  have hPk : flips P' (U.map (·.v)) = flips P ((kept st.moves).map (·.v)) := by
    rw [T.hP]
    apply flips_back
    · intro v hv
      obtain ⟨m, hm, rfl⟩ := List.mem_map.1 hv
      obtain ⟨x, hx, hxm, -⟩ := T.hv m hm
      rw [← hxm]
      exact h01 _ (hAt_mem ht) x hx
    · rw [← List.map_append]
      exact hkeptU.map _
  have hk0 : R = [] → U = [] := by
    intro h
    have : k = 0 := by rw [hk, h]; rfl
    rw [hUdef, this]; simp [undoRev]
  have hBU : B → U = [] := fun hB => hk0 (hBR hB)
  have hsumU : moveSum (kept st.moves) + moveSum U = moveSum (mv t) := by
    have := (hkeptU.map (·.change)).sum_eq
    rw [List.map_append, List.sum_append] at this
    exact this
  have hUR : E → moveSum U = changeSum (ofProc t R) := by
    intro hE
    rcases hER hE with h | ⟨w, hw⟩
    · rw [hk0 h, h]; rfl
    · have hch : ∀ s, s < Hs.length → ∀ m ∈ (tops s).moves, m.change = w ∨ m.change = -w := by
        intro s hs m hm
        obtain ⟨_, _, _, Ts⟩ := hT s hs
        obtain ⟨x, hx, -, hc⟩ := Ts.hv m hm
        rw [hc, leaveChange, hw _ (hAt_mem hs) x hx]
        split <;> simp
      have hchq : ∀ m ∈ queue, m.change = w ∨ m.change = -w := by
        intro m hm
        obtain ⟨hp, a, ha, hm'⟩ := mem_qAll (hqueue.mem_iff.1 hm)
        rw [hm']
        exact hch _ hp a (List.mem_of_getElem? ha)
      have hone : ∀ x : Int, (x = w ∨ x = -w) → signed pos x = true →
          x = if pos then |w| else -|w| := by
        intro x hx hs
        unfold signed at hs
        cases pos
        · simp only [Bool.false_eq_true, if_false, decide_eq_true_eq] at hs ⊢
          rcases hx with rfl | rfl
          · rw [abs_of_neg hs]; omega
          · rw [abs_of_pos (by omega)]
        · simp only [if_true, decide_eq_true_eq] at hs ⊢
          rcases hx with rfl | rfl
          · rw [abs_of_pos hs]
          · rw [abs_of_neg (by omega)]
      have hUt : U = ((tops t).moves.reverse.filter (fun m => undoes pos (some m))).take k := by
        rw [hUdef, undoRev_take, kept_reverse, hslots, kept_slots]
      have hUl : U.length = k := by
        rw [hUt, List.length_take, ← List.countP_eq_length_filter, List.countP_reverse]
        omega
      rw [moveSum_const (x := if pos then |w| else -|w|) (fun m hm => by
          apply hone _ (hch t ht m (hUm m hm))
          rw [hUt] at hm
          exact (List.mem_filter.1 (List.mem_of_mem_take hm)).2),
        changeSum_const (x := if pos then |w| else -|w|) (fun m hm => by
          have hmR := (List.mem_filter.1 hm).1
          exact hone _ (hchq m (hR.sub.subset hmR)) (hR.sign m hmR)), hUl]
  have hRs : changeSum R = ((List.range Hs.length).map (fun s => changeSum (ofProc s R))).sum :=
    sum_ofProc R (fun m hm => hproc m (hR.sub.subset hm))
  have hLI := T.l.undo wt hU2 (by
      intro v hv
      apply flips_notMem
      intro hmem
      obtain ⟨m, hm, rfl⟩ := List.mem_map.1 hmem
      exact hv (T.hl m (hUm m hm))) (by
      intro hB
      rw [hBU hB]; rfl)
  rw [hPk] at hLI hU2
  -- run
  have hprev : (qs t).u.prev0 = c0Of (hAt Hs t) (globF Hs P) := by rw [hu]; rfl
  have hsend := changeSends_ok (p := Hs.length) (np := np) c.b.hv
    (fun n hn => c.b.D.ids _ (hAt_mem ht) n hn)
    (flips P ((kept st.moves).map (·.v))) L2 (globF Hs P)
    (viewF (flips P ((kept st.moves).map (·.v))) L2 (remF Hs (hAt Hs t) P))
  refine ⟨{ u := { (qs t).u with gs := { (tops t).gs with H := st.H, C := st.C } }, L := st.L,
            w := W2.back ⟨(qs t).w.w0 + changeSum queue, (qs t).w.w1 - changeSum queue⟩ R,
            rng := (tops t).rng, moves := st.moves,
            sends := reports np (changedNets (hAt Hs t) (globF Hs P)
              (viewF (flips P ((kept st.moves).map (·.v))) L2 (remF Hs (hAt Hs t) P)))
              (fun e => (viewF (flips P ((kept st.moves).map (·.v))) L2 (remF Hs (hAt Hs t) P) e).c0) },
    ?_, L2, G', ?_, hLI, ?_, hkm, ?_, rfl, ?_, ?_, ?_, ?_, T.lk⟩
  · unfold rejectPhase
    rw [hrej]; simp only [ok_bind]
    rw [vget_ok (rangeMap_get ht _)]; simp only [ok_bind]
    rw [hst]; simp only [ok_bind]
    rw [hprev, hU2.hH, hU2.hC, hsend]
    simp only [ok_bind, pure_eq_ok]
  · simp only
    rw [hu]; rfl
  · have := T.cnt
    exact this
  · have : ((kept st.moves ++ U).map (·.v)).Nodup := (hkeptU.map _).nodup_iff.2 T.nd
    rw [List.map_append] at this
    exact (List.nodup_append.1 this).1
  · simp only [W2.back]
    omega
  · intro hA
    have hx : ∀ m ∈ queue, |m.change| ≤ max0 + max1 - S := by
      intro m hm
      obtain ⟨s, hs, hms⟩ := List.mem_flatMap.1 (hqueue.mem_iff.1 hm)
      have hs := List.mem_range.1 hs
      have hc : m.change ∈ (mv s).map (·.change) := by
        rw [← qOf_change s]; exact List.mem_map_of_mem hms
      obtain ⟨m', hm', hmc⟩ := List.mem_map.1 hc
      have hmc : m'.change = m.change := hmc
      obtain ⟨_, _, _, Ts⟩ := hT s hs
      obtain ⟨-, hSs, hbs, -⟩ := hq s hs
      have := (Ts.hb (c.hA hA _ (hAt_mem hs)) (hbs hA).1 (hbs hA).2).2.2 m' hm'
      rw [← hmc]
      omega
    have := hbal (max0 + max1 - S) hx (by omega) (hbA hA).1 (hbA hA).2
    simp only [W2.back]
    exact this
  · intro hB
    have := hkeptU
    rw [hBU hB, List.append_nil] at this
    exact this
  · intro hE
    have h1 := hUR hE
    have h2 := hwE hE
    refine ⟨?_, ?_⟩
    · dsimp only
      omega
    · simp only [W2.back, W2.mk.injEq]
      rw [sum_map_sub_range, ← hRs, ← hcs, h2]
      dsimp only
      constructor <;> omega

omit c in
theorem MidInv.rj_congr {S : Int} {P : Nat → Int} {mv : Nat → List MoveP} {rj rj' : Nat → Int}
    {t n : Nat} {l : List Nat} {m : MidState} (h : MidInv B E A Hs np M max0 max1 S P mv rj t n l m)
    (hr : E → rj = rj') : MidInv B E A Hs np M max0 max1 S P mv rj' t n l m := by
  obtain ⟨L, G, h1, h2, h3, h4, h5, h6, h7, h8, h9, h10, h11⟩ := h
  refine ⟨L, G, h1, h2, h3, h4, h5, h6, h7, h8, h9, fun hE => ?_, h11⟩
  rw [← hr hE]
  exact h10 hE

/-- The rejection phase of all processors. -/
theorem rejectPhase_ok {P : Nat → Int} (h01 : GParts01 Hs P) {K : Nat} {S : Int} {G0 : Nat → Nat → Option Int}
    {Γ : (Nat → Int) → Nat → Int} {ls ls' : Nat → List Nat} {qs : Nat → ProcState}
    {tops : Nat → TopState}
    (hq : ∀ t, t < Hs.length → (qs t).u = uOf Hs np P t (qs t).u.gs ∧
      (qs t).w.w0 + (qs t).w.w1 = S ∧ (A → (qs t).w.w0 ≤ max0 ∧ (qs t).w.w1 ≤ max1) ∧
      (E → (qs t).w = ⟨gw Hs P 0, gw Hs P 1⟩))
    (hT : ∀ t, t < Hs.length → ∃ P' L' G', TopInv B Γ (hAt Hs t) (M t) (remF Hs (hAt Hs t) P)
      max0 max1 K P (G0 t) (qs t).w (ls t) P' L' G' (ls' t) (tops t))
    {queue : Nat → List QMove}
    (hqueue : ∀ t, t < Hs.length → (queue t).Perm (qAll Hs.length (fun s => (tops s).moves)))
    (hE : E → Calm A Hs max0 max1 ∨ (SameWeights Hs ∧ ∀ s t, s < Hs.length → t < Hs.length →
      queue s = queue t)) :
    ∃ rj, ∀ t, t < Hs.length →
      ∃ m, rejectPhase Hs.length K t np max0 max1 (qs t) (tops t) (queue t) = .ok m ∧
        MidInv B E A Hs np M max0 max1 S P (fun s => (tops s).moves) rj t
          (unlocked (hAt Hs t) (G0 t)) (ls' t) m := by
  have hproc : ∀ t, t < Hs.length → ∀ m ∈ queue t, m.proc < Hs.length :=
    fun t ht m hm => qAll_proc ((hqueue t ht).mem_iff.1 hm)
  have hcs : ∀ t, t < Hs.length → changeSum (queue t) =
      ((List.range Hs.length).map (fun s => moveSum (tops s).moves)).sum := by
    intro t ht
    rw [← changeSum_qAll]
    unfold changeSum
    exact ((hqueue t ht).map _).sum_eq
  have hsp := fun t (ht : t < Hs.length) =>
    rejectUnbalanced_spec (p := Hs.length) max0 max1 (queue t) (hproc t ht) (qs t).w
  choose! pos R hrej hR hbal using hsp
  have hcalm : Calm A Hs max0 max1 → E → ∀ t, t < Hs.length → R t = [] := by
    intro h e t ht
    obtain ⟨-, -, hbA, hwE⟩ := hq t ht
    obtain ⟨h0, h1⟩ := calm_bounds c h01 hT h ht hbA (hwE e)
    rw [← hcs t ht] at h0 h1
    exact rejects_none (hproc t ht) h0 h1 (hrej t ht) (hR t ht)
  have hB : B → ∀ t, t < Hs.length → R t = [] := fun hB => hcalm (c.calm hB) (c.bE hB)
  by_cases e : E
  · rcases hE e with h | ⟨hw, hsame⟩
    · refine ⟨fun _ => 0, fun t ht => ?_⟩
      obtain ⟨m, h1, h2⟩ := rejectPhase_one c h01 hq hT (hqueue t ht) ht (hrej t ht) (hR t ht)
        (hbal t ht) (fun b => hB b t ht) (fun e => Or.inl (hcalm h e t ht))
      refine ⟨m, h1, h2.rj_congr fun e => ?_⟩
      rw [hcalm h e t ht]; rfl
    · refine ⟨fun s => changeSum (ofProc s (R 0)), fun t ht => ?_⟩
      have h0 : 0 < Hs.length := by omega
      have hqq := hsame t 0 ht h0
      have hww : (qs t).w = (qs 0).w := by rw [(hq t ht).2.2.2 e, (hq 0 h0).2.2.2 e]
      have a1 := hrej 0 h0
      have a2 := hR 0 h0
      have a3 := hbal 0 h0
      rw [← hqq, ← hww] at a1 a3
      rw [← hqq] at a2
      exact rejectPhase_one c h01 hq hT (hqueue t ht) ht a1 a2 a3 (fun b => hB b 0 h0)
        (fun _ => Or.inr hw)
  · refine ⟨fun _ => 0, fun t ht => ?_⟩
    obtain ⟨m, h1, h2⟩ := rejectPhase_one c h01 hq hT (hqueue t ht) ht (hrej t ht) (hR t ht)
      (hbal t ht) (fun b => hB b t ht) (fun h => absurd h e)
    exact ⟨m, h1, h2.rj_congr fun h => absurd h e⟩

end

end PMondriaan

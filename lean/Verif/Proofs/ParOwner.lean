import Verif.Proofs.ParRefresh
import Verif.Proofs.Reject

/-
The owners of the nets: `init_cost_my_nets`, `init_previous_C` and the first half of `update_C`.
-/

namespace PMondriaan

open Spec

/-! ### Global counts -/

/-- Counts of net `e` over all processors. -/
def globF (Hs : List Hypergraph) (P : Nat → Int) : Nat → Cnt := exactF P (unionPins Hs)

/-- Counts of net `e` on one processor. -/
def locF (H : Hypergraph) (P : Nat → Int) : Nat → Cnt := exactF P (pinsOf H)

/-- Counts of net `e` on the other processors. -/
def remF (Hs : List Hypergraph) (H : Hypergraph) (P : Nat → Int) : Nat → Cnt :=
  fun e => ⟨(globF Hs P e).c0 - (locF H P e).c0, (globF Hs P e).c1 - (locF H P e).c1⟩

theorem pinsOf_absent {H : Hypergraph} {e : Nat} (h : e ∉ H.nets.map (·.id)) : pinsOf H e = [] := by
  unfold pinsOf
  cases hf : H.nets.find? (fun x => x.id == e) with
  | none => rfl
  | some x =>
    have hx : x ∈ H.nets := List.mem_of_find?_eq_some hf
    have hid : x.id = e := by simpa using List.find?_some hf
    exact absurd (hid ▸ List.mem_map_of_mem hx) h

theorem filter_id_pins {H : Hypergraph} (w : WF H) (e : Nat) :
    (H.nets.filter (fun n => n.id = e)).flatMap (·.vertices) = pinsOf H e := by
  by_cases he : e ∈ H.nets.map (·.id)
  · obtain ⟨n, hn, rfl⟩ := List.mem_map.1 he
    rw [pinsOf_eq w hn]
    obtain ⟨A, B, hAB⟩ := List.append_of_mem hn
    have hnd := w.nids
    rw [hAB] at hnd ⊢
    simp only [List.map_append, List.map_cons, List.nodup_append, List.nodup_cons] at hnd
    have hA : A.filter (fun m => m.id = n.id) = [] := by
      rw [List.filter_eq_nil_iff]
      intro m hm
      simp only [decide_eq_true_eq]
      intro h
      exact hnd.2.2 _ (List.mem_map_of_mem hm) _ (by simp) h
    have hB : B.filter (fun m => m.id = n.id) = [] := by
      rw [List.filter_eq_nil_iff]
      intro m hm
      simp only [decide_eq_true_eq]
      intro h
      exact hnd.2.1.1 (by rw [← h]; exact List.mem_map_of_mem hm)
    rw [List.filter_append, hA, List.filter_cons, if_pos (by simp), hB]
    simp
  · rw [pinsOf_absent he]
    have : H.nets.filter (fun n => n.id = e) = [] := by
      rw [List.filter_eq_nil_iff]
      intro m hm
      simp only [decide_eq_true_eq]
      intro h
      exact he (h ▸ List.mem_map_of_mem hm)
    rw [this]; rfl

theorem unionPins_eq {Hs : List Hypergraph} (w : ∀ H ∈ Hs, WF H) (e : Nat) :
    unionPins Hs e = Hs.flatMap (fun H => pinsOf H e) := by
  unfold unionPins
  have : ∀ l : List Hypergraph, (∀ H ∈ l, WF H) →
      l.flatMap (fun H => (H.nets.filter (fun n => n.id = e)).flatMap (·.vertices)) =
      l.flatMap (fun H => pinsOf H e) := by
    intro l hl
    induction l with
    | nil => rfl
    | cons a l ih =>
      simp only [List.flatMap_cons]
      rw [ih (fun H hH => hl H (by simp [hH])), filter_id_pins (hl a (by simp))]
  exact this Hs w

theorem globF_sum {Hs : List Hypergraph} (w : ∀ H ∈ Hs, WF H) (P : Nat → Int) (e : Nat) :
    (globF Hs P e).c0 = (Hs.map (fun H => (locF H P e).c0)).sum ∧
    (globF Hs P e).c1 = (Hs.map (fun H => (locF H P e).c1)).sum := by
  unfold globF locF exactF
  simp only
  rw [unionPins_eq w]
  clear w
  induction Hs with
  | nil => simp
  | cons a l ih =>
    simp only [List.flatMap_cons, List.countP_append, List.map_cons, List.sum_cons, Nat.cast_add]
    rw [ih.1, ih.2]
    exact ⟨rfl, rfl⟩

theorem le_sum_of_mem {l : List Int} (h : ∀ x ∈ l, 0 ≤ x) {a : Int} (ha : a ∈ l) : a ≤ l.sum := by
  induction l with
  | nil => cases ha
  | cons b l ih =>
    have hs : 0 ≤ l.sum := by
      clear ih ha
      induction l with
      | nil => simp
      | cons c l ih =>
        have h1 := ih (fun x hx => h x (by simp only [List.mem_cons] at hx ⊢; tauto))
        have h2 := h c (by simp)
        simp only [List.sum_cons]; omega
    simp only [List.sum_cons]
    rcases List.mem_cons.1 ha with rfl | ha
    · omega
    · have := ih (fun x hx => h x (by simp [hx])) ha
      have := h b (by simp)
      omega

theorem remF_nonneg {Hs : List Hypergraph} (w : ∀ H ∈ Hs, WF H) {H : Hypergraph} (hH : H ∈ Hs)
    (P : Nat → Int) : RNonneg (remF Hs H P) := by
  intro e
  obtain ⟨h0, h1⟩ := globF_sum w P e
  unfold remF
  simp only
  rw [h0, h1]
  have a0 := le_sum_of_mem (l := Hs.map (fun H => (locF H P e).c0)) (by
    intro x hx
    obtain ⟨H', _, rfl⟩ := List.mem_map.1 hx
    simp [locF, exactF]) (List.mem_map_of_mem hH)
  have a1 := le_sum_of_mem (l := Hs.map (fun H => (locF H P e).c1)) (by
    intro x hx
    obtain ⟨H', _, rfl⟩ := List.mem_map.1 hx
    simp [locF, exactF]) (List.mem_map_of_mem hH)
  omega

/-- All vertices of all processors are in part 0 or 1. -/
def GParts01 (Hs : List Hypergraph) (P : Nat → Int) : Prop := ∀ H ∈ Hs, Parts01 H P

theorem locF_exact {H : Hypergraph} (w : WF H) {P : Nat → Int} {L : Nat → List Nat}
    (hL : PinsPerm H L) {n : Net} (hn : n ∈ H.nets) : locF H P n.id = exactF P L n.id := by
  unfold locF exactF
  rw [pinsOf_eq w hn, (hL n hn).countP_eq, (hL n hn).countP_eq]

theorem view_glob {Hs : List Hypergraph} {H : Hypergraph} (w : WF H) {P : Nat → Int}
    {L : Nat → List Nat} (hL : PinsPerm H L) {n : Net} (hn : n ∈ H.nets) :
    viewF P L (remF Hs H P) n.id = globF Hs P n.id := by
  have := locF_exact (P := P) w hL hn
  unfold viewF remF
  rw [this]
  generalize globF Hs P n.id = c
  cases c
  simp

theorem globF_len {Hs : List Hypergraph} (w : ∀ H ∈ Hs, WF H) {P : Nat → Int}
    (h01 : GParts01 Hs P) (e : Nat) :
    (globF Hs P e).c0 + (globF Hs P e).c1 = (unionPins Hs e).length := by
  unfold globF exactF
  simp only
  have : ∀ l : List Nat, (∀ u ∈ l, P u = 0 ∨ P u = 1) →
      l.countP (fun u => P u = 0) + l.countP (fun u => P u = 1) = l.length := by
    intro l hl
    induction l with
    | nil => rfl
    | cons a l ih =>
      have := ih (fun u hu => hl u (by simp [hu]))
      rw [List.countP_cons, List.countP_cons, List.length_cons]
      rcases hl a (by simp) with h | h <;> simp [h] <;> omega
  have := this (unionPins Hs e) (by
    intro u hu
    obtain ⟨H, hH, n, hn, -, hun⟩ := mem_unionPins.1 hu
    exact (h01 H hH).pin (w H hH) hn hun)
  omega

/-- The setting: a distributed hypergraph, a net partitioning, correct global sizes. -/
structure ParBase (N : Nat) (Hs : List Hypergraph) (np : NetPart) : Prop where
  D : Distributed N Hs
  hv : np.Valid Hs.length N
  hs : ∀ H ∈ Hs, ∀ n ∈ H.nets, n.globalSize = (unionPins Hs n.id).length

theorem ParBase.rsize {N : Nat} {Hs : List Hypergraph} {np : NetPart} (b : ParBase N Hs np)
    {H : Hypergraph} (hH : H ∈ Hs) {P : Nat → Int} (h01 : GParts01 Hs P) :
    RSize H (remF Hs H P) := by
  intro n hn
  have h1 := globF_len b.D.wf h01 n.id
  have h2 := exactF_sum (b.D.wf H hH) (L := pinsOf H) (h01 H hH) (fun n hn => by
    rw [pinsOf_eq (b.D.wf H hH) hn]) hn
  have h3 := b.hs H hH n hn
  unfold remF locF
  simp only
  omega

/-! ### Vectors of owned nets -/

/-- The vector of processor `t` for the nets it owns. -/
def ownedL {β : Type} (np : NetPart) (t : Nat) (f : Nat → β) : List β :=
  (List.range (np.count t)).map (fun i => f (np.glob i t))

theorem ownedL_get {β : Type} {np : NetPart} {p N : Nat} (hv : np.Valid p N) (f : Nat → β) {e : Nat}
    (he : e < N) : (ownedL np (np.owner e) f)[np.loc e]? = some (f e) := by
  unfold ownedL
  rw [rangeMap_get (hv.loc_lt e he), hv.glob_loc e he]

theorem ownedL_set {β : Type} {np : NetPart} {p N : Nat} (hv : np.Valid p N) (f : Nat → β) {e : Nat}
    (he : e < N) (b : β) :
    (ownedL np (np.owner e) f).set (np.loc e) b = ownedL np (np.owner e) (upd f e b) := by
  unfold ownedL
  rw [rangeMap_set]
  apply List.map_congr_left
  intro i hi
  have hi := List.mem_range.1 hi
  by_cases h : i = np.loc e
  · subst h
    rw [upd_same, hv.glob_loc e he, upd_same]
  · rw [upd_other _ _ h, upd_other]
    intro hg
    apply h
    rw [← hg, hv.loc_glob _ (hv.owner_lt e he) i hi]

theorem ownedL_vget {β : Type} {np : NetPart} {p N : Nat} (hv : np.Valid p N) (f : Nat → β) {e : Nat}
    (he : e < N) : vget (ownedL np (np.owner e) f) (np.loc e) = .ok (f e) :=
  vget_ok (ownedL_get hv f he)

theorem ownedL_vset {β : Type} {np : NetPart} {p N : Nat} (hv : np.Valid p N) (f : Nat → β) {e : Nat}
    (he : e < N) (b : β) :
    vset (ownedL np (np.owner e) f) (np.loc e) b = .ok (ownedL np (np.owner e) (upd f e b)) := by
  rw [← ownedL_set hv f he, vset_ok]
  have := ownedL_get hv f he
  exact (List.getElem?_eq_some_iff.1 this).1

/-- Cost of the cut nets among the owned ones, given counts and costs. -/
def ownCut (np : NetPart) (t : Nat) (A : Nat → Cnt) (cost : Nat → Int) : Int :=
  ((List.range (np.count t)).map (fun i =>
    if (A (np.glob i t)).cut then cost (np.glob i t) else 0)).sum

theorem ownedCut_eq (np : NetPart) (t : Nat) (A : Nat → Cnt) (cost : Nat → Int) :
    ownedCut (ownedL np t A) (ownedL np t cost) = ownCut np t A cost := by
  unfold ownedCut ownCut ownedL
  rw [List.zip_map']
  have : ∀ (l : List Nat) (z : Int), (l.map (fun i => (A (np.glob i t), cost (np.glob i t)))).foldl
      (fun s (x : Cnt × Int) => if x.1.cut then s + x.2 else s) z =
      z + (l.map (fun i => if (A (np.glob i t)).cut then cost (np.glob i t) else 0)).sum := by
    intro l
    induction l with
    | nil => intro z; simp
    | cons a l ih =>
      intro z
      simp only [List.map_cons, List.foldl_cons, List.sum_cons]
      rw [ih]
      split <;> omega
  rw [this]; omega

theorem ownCut_upd {np : NetPart} {p N : Nat} (hv : np.Valid p N) (A : Nat → Cnt)
    (cost : Nat → Int) {e : Nat} (he : e < N) (c : Cnt) :
    ownCut np (np.owner e) (upd A e c) cost = ownCut np (np.owner e) A cost
      + (if c.cut then cost e else 0) - (if (A e).cut then cost e else 0) := by
  unfold ownCut
  have hl := hv.loc_lt e he
  rw [sum_map_key_point (l := List.range (np.count (np.owner e))) (key := id)
    (by simpa using List.nodup_range) (x := np.loc e) (List.mem_range.2 hl)
    (f := fun i => if (A (np.glob i (np.owner e))).cut then cost (np.glob i (np.owner e)) else 0)
    (by
      intro i hi hne
      have hi := List.mem_range.1 hi
      rw [upd_other]
      intro hg
      apply hne
      simp only [id_eq]
      rw [← hg, hv.loc_glob _ (hv.owner_lt e he) i hi])]
  simp only [hv.glob_loc e he, upd_same]
  omega

/-- Sum of the changes reported for net `e`. -/
def delta (A : Nat → Cnt) (msgs : List (Nat × Int)) (e : Nat) : Int :=
  ((msgs.filter (fun m => m.1 = e)).map (fun m => m.2 - (A e).c0)).sum

/-- The counts after the messages. -/
def shiftF (A : Nat → Cnt) (δ : Nat → Int) : Nat → Cnt :=
  fun e => ⟨(A e).c0 + δ e, (A e).c1 - δ e⟩

theorem delta_snoc (A : Nat → Cnt) (msgs : List (Nat × Int)) (m : Nat × Int) (e : Nat) :
    delta A (msgs ++ [m]) e = delta A msgs e + if m.1 = e then m.2 - (A e).c0 else 0 := by
  unfold delta
  rw [List.filter_append, List.map_append, List.sum_append, List.filter_cons]
  by_cases h : m.1 = e <;> simp [h]

theorem ownerStep_fold {np : NetPart} {p N : Nat} (hv : np.Valid p N) (A : Nat → Cnt)
    (cost : Nat → Int) {t : Nat} (msgs : List (Nat × Int))
    (hm : ∀ m ∈ msgs, m.1 < N ∧ np.owner m.1 = t) (cut : Int) :
    msgs.foldlM (ownerStep np (ownedL np t cost) (ownedL np t A)) (ownedL np t A, cut) =
      .ok (ownedL np t (shiftF A (delta A msgs)),
        cut + ownCut np t (shiftF A (delta A msgs)) cost - ownCut np t A cost) := by
  obtain ⟨st, h1, h2⟩ := foldlM_inv (f := ownerStep np (ownedL np t cost) (ownedL np t A))
    (fun pre _ st => st = (ownedL np t (shiftF A (delta A pre)),
        cut + ownCut np t (shiftF A (delta A pre)) cost - ownCut np t A cost)) msgs
    (ownedL np t A, cut) (by
      have : shiftF A (delta A []) = A := by
        funext e; simp [shiftF, delta]
      rw [this]; simp) (by
      rintro pre m post st rfl hl
      obtain ⟨he, ho⟩ := hm m (by rw [hl]; simp)
      subst ho
      unfold ownerStep
      rw [ownedL_vget hv A he]; simp only [ok_bind]
      by_cases hch : m.2 - (A m.1).c0 ≠ 0
      · rw [if_pos hch, ownedL_vget hv _ he]; simp only [ok_bind]
        rw [ownedL_vget hv cost he]; simp only [ok_bind]
        rw [ownedL_vset hv _ he]; simp only [ok_bind, pure_eq_ok]
        have hupd : upd (shiftF A (delta A pre)) m.1
            ⟨(shiftF A (delta A pre) m.1).c0 + (m.2 - (A m.1).c0),
             (shiftF A (delta A pre) m.1).c1 - (m.2 - (A m.1).c0)⟩ =
            shiftF A (delta A (pre ++ [m])) := by
          funext e
          by_cases hem : e = m.1
          · subst hem
            rw [upd_same]
            simp only [shiftF, delta_snoc, if_true]
            congr 1 <;> omega
          · rw [upd_other _ _ hem]
            simp [shiftF, delta_snoc, Ne.symm hem]
        refine ⟨_, rfl, ?_⟩
        rw [hupd]
        have hc := ownCut_upd hv (shiftF A (delta A pre)) cost he
          ⟨(shiftF A (delta A pre) m.1).c0 + (m.2 - (A m.1).c0),
           (shiftF A (delta A pre) m.1).c1 - (m.2 - (A m.1).c0)⟩
        rw [hupd] at hc
        rw [hc]
        congr 1
        simp only [Cnt.cut]
        by_cases hX : (shiftF A (delta A pre) m.1).c0 = 0 ∨ (shiftF A (delta A pre) m.1).c1 = 0
        · by_cases hY : (shiftF A (delta A pre) m.1).c0 + (m.2 - (A m.1).c0) = 0 ∨
            (shiftF A (delta A pre) m.1).c1 - (m.2 - (A m.1).c0) = 0
          · simp only [hX, hY, decide_true, Bool.not_true, Bool.false_eq_true, if_true, if_false]
            omega
          · simp only [hX, hY, decide_true, decide_false, Bool.not_true, Bool.not_false,
              Bool.false_eq_true, if_true, if_false]
            omega
        · by_cases hY : (shiftF A (delta A pre) m.1).c0 + (m.2 - (A m.1).c0) = 0 ∨
            (shiftF A (delta A pre) m.1).c1 - (m.2 - (A m.1).c0) = 0
          · simp only [hX, hY, decide_true, decide_false, Bool.not_true, Bool.not_false,
              Bool.false_eq_true, if_true, if_false]
            omega
          · simp only [hX, hY, decide_false, Bool.not_false, if_true, if_false]
            omega
      · rw [if_neg hch]
        refine ⟨_, rfl, ?_⟩
        have : shiftF A (delta A (pre ++ [m])) = shiftF A (delta A pre) := by
          funext e
          simp only [shiftF, delta_snoc]
          by_cases hem : m.1 = e
          · subst hem
            simp only [if_true]
            congr 1 <;> omega
          · simp [hem]
        rw [this])
  rw [h1, h2]

/-! ### What the owners receive -/

/-- Processor `H` reports the counts `f` of the nets in `E`. -/
def reports (np : NetPart) (E : List Nat) (f : Nat → Int) : List (Nat × (Nat × Int)) :=
  E.map (fun e => (np.owner e, (e, f e)))

theorem delta_perm (A : Nat → Cnt) {l l' : List (Nat × Int)} (h : l.Perm l') (e : Nat) :
    delta A l e = delta A l' e := by
  unfold delta
  exact ((h.filter _).map _).sum_eq

theorem sum_filter_nodup {E : List Nat} (hE : E.Nodup) (f : Nat → Int) (e : Nat) :
    ((E.filter (fun x => x = e)).map f).sum = if e ∈ E then f e else 0 := by
  induction E with
  | nil => simp
  | cons a E ih =>
    obtain ⟨ha, hE'⟩ := List.nodup_cons.1 hE
    rw [List.filter_cons]
    by_cases hae : a = e
    · subst hae
      simp only [decide_true, if_true, List.map_cons, List.sum_cons, ih hE', ha, if_false]
      simp
    · simp only [hae, decide_false, Bool.false_eq_true, if_false, ih hE', List.mem_cons,
        Ne.symm hae, false_or]

/-- The change of net `e` seen by its owner is the sum of the reported changes. -/
theorem delta_inbox {np : NetPart} {d : Delivery (Nat × Int)} (hd : Fair d) (A : Nat → Cnt)
    {p : Nat} (E : Nat → List Nat) (hE : ∀ s, s < p → (E s).Nodup) (f : Nat → Nat → Int) (e : Nat) :
    delta A (inbox d ((List.range p).map (fun s => reports np (E s) (f s))) (np.owner e)) e =
      ((List.range p).map (fun s => if e ∈ E s then f s e - (A e).c0 else 0)).sum := by
  rw [delta_perm A (inbox_perm hd _ _)]
  unfold delta
  rw [List.filter_map, List.map_map]
  rw [List.filter_filter]
  have h1 : ∀ l : List (Nat × (Nat × Int)), (∀ x ∈ l, x.1 = np.owner x.2.1) →
      l.filter (fun x => ((fun m : Nat × Int => decide (m.1 = e)) ∘ fun x => x.2) x &&
        decide (x.1 = np.owner e)) = l.filter (fun x => x.2.1 = e) := by
    intro l hl
    apply List.filter_congr
    intro x hx
    simp only [Function.comp_apply]
    by_cases he : x.2.1 = e
    · simp [he, hl x hx]
    · simp [he]
  rw [h1 _ (by
    intro x hx
    obtain ⟨o, ho, hxo⟩ := List.mem_flatten.1 hx
    obtain ⟨s, _, rfl⟩ := List.mem_map.1 ho
    obtain ⟨y, _, rfl⟩ := List.mem_map.1 hxo
    rfl)]
  clear h1
  have : ∀ l : List Nat, (∀ s ∈ l, (E s).Nodup) →
      (((l.map (fun s => reports np (E s) (f s))).flatten.filter (fun x => x.2.1 = e)).map
        ((fun m : Nat × Int => m.2 - (A e).c0) ∘ fun x => x.2)).sum =
      (l.map (fun s => if e ∈ E s then f s e - (A e).c0 else 0)).sum := by
    intro l hl
    induction l with
    | nil => rfl
    | cons s l ih =>
      simp only [List.map_cons, List.flatten_cons, List.filter_append, List.map_append,
        List.sum_append, List.sum_cons]
      rw [ih (fun x hx => hl x (by simp [hx]))]
      congr 1
      unfold reports
      rw [List.filter_map, List.map_map]
      have := sum_filter_nodup (hl s (by simp)) (fun x => f s x - (A e).c0) e
      rw [← this]
      rfl
  exact this _ (fun s hs => hE s (List.mem_range.1 hs))

end PMondriaan

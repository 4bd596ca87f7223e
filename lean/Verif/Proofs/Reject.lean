import Verif.Model.KLFMPar
import Verif.Proofs.Pass
import Verif.Proofs.Bsp

/-
`reject_unbalanced_moves`: which moves are counted as rejected, and the weights afterwards.
-/

namespace PMondriaan

open Spec

theorem rangeMap_get {β : Type} {p t : Nat} (ht : t < p) (f : Nat → β) :
    ((List.range p).map f)[t]? = some (f t) := by
  simp [ht]

theorem rangeMap_set {β : Type} {p t : Nat} (f : Nat → β) (b : β) :
    ((List.range p).map f).set t b = (List.range p).map (upd f t b) := by
  apply List.ext_getElem?
  intro k
  rw [List.getElem?_set]
  by_cases htk : t = k
  · subst htk
    by_cases ht : t < p
    · simp [ht]
    · simp [ht]
  · simp only [htk, if_false, List.getElem?_map]
    by_cases hk : k < p
    · simp [hk, upd_other _ _ (Ne.symm htk)]
    · simp [hk]

/-- The moves of processor `t` with a weight change of the wanted sign. -/
def signed (pos : Bool) (c : Int) : Bool := if pos then c > 0 else c < 0

/-- The entries of processor `t` in a list of queue entries. -/
def ofProc (t : Nat) (l : List QMove) : List QMove := l.filter (fun m => m.proc = t)

/-- The entries of processor `t` of the wanted sign. -/
def ofSign (pos : Bool) (t : Nat) (l : List QMove) : List QMove :=
  l.filter (fun m => m.proc = t ∧ signed pos m.change)

/-- Total weight change of a list of queue entries. -/
def changeSum (l : List QMove) : Int := (l.map (·.change)).sum

/-- What a reject loop does to a list `pre` of queue entries: the entries `R` are rejected. -/
structure Rejects (p : Nat) (pos : Bool) (pre R : List QMove) (f : Nat → Bool) : Prop where
  sub : R.Sublist pre
  sign : ∀ m ∈ R, signed pos m.change = true
  prefix' : ∀ t, t < p → ofProc t R <+: ofSign pos t pre
  fin : ∀ t, t < p → f t = true → ofProc t R = []

theorem ofProc_cons (t : Nat) (m : QMove) (l : List QMove) :
    ofProc t (m :: l) = if m.proc = t then m :: ofProc t l else ofProc t l := by
  unfold ofProc
  rw [List.filter_cons]
  by_cases h : m.proc = t <;> simp [h]

theorem ofSign_cons_pos {pos : Bool} {m : QMove} (hs : signed pos m.change = true) (t : Nat)
    (l : List QMove) :
    ofSign pos t (m :: l) = if m.proc = t then m :: ofSign pos t l else ofSign pos t l := by
  unfold ofSign
  rw [List.filter_cons]
  by_cases h : m.proc = t <;> simp [h, hs]

theorem ofSign_cons_neg {pos : Bool} {m : QMove} (hs : ¬ signed pos m.change = true) (t : Nat)
    (l : List QMove) : ofSign pos t (m :: l) = ofSign pos t l := by
  unfold ofSign
  rw [List.filter_cons]
  simp [hs]

theorem Rejects.skip {p : Nat} {pos : Bool} {pre R : List QMove} {f : Nat → Bool}
    (h : Rejects p pos pre R f) {m : QMove} (hm : ¬ signed pos m.change = true) :
    Rejects p pos (m :: pre) R f :=
  ⟨h.sub.cons m, h.sign, fun t ht => by rw [ofSign_cons_neg hm]; exact h.prefix' t ht, h.fin⟩

theorem Rejects.skipFin {p : Nat} {pos : Bool} {pre R : List QMove} {f : Nat → Bool}
    (h : Rejects p pos pre R f) {m : QMove} (hm : signed pos m.change = true)
    (hf : f m.proc = true) : Rejects p pos (m :: pre) R f := by
  refine ⟨h.sub.cons m, h.sign, fun t ht => ?_, h.fin⟩
  rw [ofSign_cons_pos hm]
  by_cases hmt : m.proc = t
  · subst hmt
    rw [h.fin _ ht hf]; exact List.nil_prefix
  · rw [if_neg hmt]; exact h.prefix' t ht

theorem Rejects.take {p : Nat} {pos : Bool} {pre R : List QMove} {f : Nat → Bool}
    (h : Rejects p pos pre R f) {m : QMove} (hm : signed pos m.change = true)
    (hf : f m.proc = false) : Rejects p pos (m :: pre) (m :: R) f := by
  refine ⟨h.sub.cons_cons m, ?_, fun t ht => ?_, fun t ht hft => ?_⟩
  · intro x hx
    rcases List.mem_cons.1 hx with rfl | hx
    · exact hm
    · exact h.sign x hx
  · rw [ofSign_cons_pos hm, ofProc_cons]
    by_cases hmt : m.proc = t
    · rw [if_pos hmt, if_pos hmt]
      exact List.cons_prefix_cons.2 ⟨rfl, h.prefix' t ht⟩
    · rw [if_neg hmt, if_neg hmt]; exact h.prefix' t ht
  · rw [ofProc_cons, if_neg, h.fin t ht hft]
    rintro rfl
    rw [hf] at hft; cases hft

theorem Rejects.stop {p : Nat} {pos : Bool} {pre R : List QMove} {f : Nat → Bool} {m : QMove}
    (h : Rejects p pos pre R (upd f m.proc true)) (hm : signed pos m.change = true)
    : Rejects p pos (m :: pre) R f := by
  refine ⟨h.sub.cons m, h.sign, fun t ht => ?_, fun t ht hft => ?_⟩
  · rw [ofSign_cons_pos hm]
    by_cases hmt : m.proc = t
    · subst hmt
      rw [h.fin _ ht (upd_same _ _ _)]; exact List.nil_prefix
    · rw [if_neg hmt]; exact h.prefix' t ht
  · apply h.fin t ht
    by_cases hmt : t = m.proc
    · subst hmt; exact upd_same _ _ _
    · rw [upd_other _ _ hmt]; exact hft

/-- The state of a reject loop as functions. -/
def rejSt (p : Nat) (r : Nat → Int) (f : Nat → Bool) (w : W2) : RejState :=
  { rejected := (List.range p).map r, fin := (List.range p).map f, w }

/-- Weights after rejecting `R`. -/
def W2.back (w : W2) (R : List QMove) : W2 := ⟨w.w0 - changeSum R, w.w1 + changeSum R⟩

theorem W2.back_nil (w : W2) : w.back [] = w := by
  simp [W2.back, changeSum]

theorem W2.back_cons (w : W2) (m : QMove) (R : List QMove) :
    w.back (m :: R) = W2.back ⟨w.w0 - m.change, w.w1 + m.change⟩ R := by
  simp only [W2.back, changeSum, List.map_cons, List.sum_cons, W2.mk.injEq]
  constructor <;> omega

theorem rejectPos_spec {p : Nat} {max0 max1 : Int} (q : List QMove) (hq : ∀ m ∈ q, m.proc < p) :
    ∀ (r : Nat → Int) (f : Nat → Bool) (w : W2),
    ∃ pre rest R f', rejectPos max0 max1 q (rejSt p r f w) =
        .ok (rest, rejSt p (fun t => r t + (ofProc t R).length) f' (w.back R)) ∧
      q = pre ++ rest ∧ Rejects p true pre R f ∧
      (rest = [] ∨ (w.back R).w0 ≤ max0) ∧
      (R ≠ [] → (w.back R).w1 ≤ max1) ∧ (w.w0 ≤ max0 → pre = [] ∧ f' = f) ∧
      (∀ x, (∀ m ∈ q, m.change ≤ x) → w.w0 + w.w1 + x ≤ max0 + max1 →
        (∀ t, t < p → f t = false) → R = pre.filter (fun m => m.change > 0)) := by
  induction q with
  | nil =>
    intro r f w
    refine ⟨[], [], [], f, ?_, rfl, ⟨List.Sublist.refl _, by simp, fun t _ => by simp [ofProc, ofSign],
      fun t _ _ => rfl⟩, Or.inl rfl, by simp, fun _ => ⟨rfl, rfl⟩, by simp⟩
    simp [rejectPos, ofProc, W2.back_nil]
  | cons m q ih =>
    intro r f w
    have hmp := hq m (by simp)
    have ih := ih (fun x hx => hq x (by simp [hx]))
    unfold rejectPos
    by_cases hw : w.w0 > max0
    · have hw' : (rejSt p r f w).w.w0 > max0 := hw
      rw [if_pos hw']
      unfold rejectPosStep
      by_cases hc : m.change > 0
      · have hsg : signed true m.change = true := by simp [signed, hc]
        rw [if_pos hc]
        have hfin : vget (rejSt p r f w).fin m.proc = .ok (f m.proc) := vget_ok (rangeMap_get hmp f)
        rw [hfin]
        simp only [ok_bind]
        by_cases hf : f m.proc = true
        · rw [if_pos hf]
          simp only [pure_eq_ok, ok_bind]
          obtain ⟨pre, rest, R, f', h1, h2, h3, h4, h5, -, h7⟩ := ih r f w
          refine ⟨m :: pre, rest, R, f', h1, by rw [h2]; rfl, h3.skipFin hsg hf, h4, h5,
            fun h => absurd h (by omega), ?_⟩
          intro x _ _ hff
          rw [hff m.proc hmp] at hf; cases hf
        · have hf : f m.proc = false := by simpa using hf
          rw [hf]
          simp only [Bool.false_eq_true, if_false]
          by_cases hg : w.w1 + m.change ≤ max1
          · have hg' : (rejSt p r f w).w.w1 + m.change ≤ max1 := hg
            rw [if_pos hg']
            have hrej : vget (rejSt p r f w).rejected m.proc = .ok (r m.proc) :=
              vget_ok (rangeMap_get hmp r)
            rw [hrej]
            simp only [ok_bind]
            rw [vset_ok (by simp [rejSt, hmp])]
            simp only [ok_bind, pure_eq_ok]
            obtain ⟨pre, rest, R, f', h1, h2, h3, h4, h5, h6, h7⟩ :=
              ih (upd r m.proc (r m.proc + 1)) f ⟨w.w0 - m.change, w.w1 + m.change⟩
            refine ⟨m :: pre, rest, m :: R, f', ?_, by rw [h2]; rfl, h3.take hsg hf, ?_, ?_,
              fun h => absurd h (by omega), ?_⟩
            · rw [W2.back_cons]
              have : (fun t => r t + ((ofProc t (m :: R)).length : Int)) =
                  (fun t => upd r m.proc (r m.proc + 1) t + ((ofProc t R).length : Int)) := by
                funext t
                rw [ofProc_cons]
                by_cases hmt : m.proc = t
                · subst hmt; simp; omega
                · simp [hmt, upd_other _ _ (Ne.symm hmt)]
              rw [this, ← h1]
              simp only [rejSt, rangeMap_set]
            · rw [W2.back_cons]; exact h4
            · intro _
              rw [W2.back_cons]
              by_cases hR : R = []
              · subst hR; rw [W2.back_nil]; exact hg
              · exact h5 hR
            · intro x hx hs hff
              rw [List.filter_cons, if_pos (by simpa using hc)]
              rw [h7 x (fun m hm => hx m (by simp [hm])) (by simp only; omega) hff]
          · have hg' : ¬ (rejSt p r f w).w.w1 + m.change ≤ max1 := hg
            rw [if_neg hg']
            rw [vset_ok (by simp [rejSt, hmp])]
            simp only [ok_bind, pure_eq_ok]
            obtain ⟨pre, rest, R, f', h1, h2, h3, h4, h5, h6, h7⟩ := ih r (upd f m.proc true) w
            refine ⟨m :: pre, rest, R, f', ?_, by rw [h2]; rfl, h3.stop hsg, h4, h5,
              fun h => absurd h (by omega), ?_⟩
            · rw [← h1]; simp only [rejSt, rangeMap_set]
            · intro x hx hs hff
              have := hx m (by simp)
              omega
      · have hsg : ¬ signed true m.change = true := by simp [signed]; omega
        rw [if_neg hc]
        simp only [pure_eq_ok, ok_bind]
        obtain ⟨pre, rest, R, f', h1, h2, h3, h4, h5, h6, h7⟩ := ih r f w
        refine ⟨m :: pre, rest, R, f', h1, by rw [h2]; rfl, h3.skip hsg, h4, h5,
          fun h => absurd h (by omega), ?_⟩
        intro x hx hs hff
        rw [List.filter_cons, if_neg (by simpa using hc)]
        exact h7 x (fun m hm => hx m (by simp [hm])) hs hff
    · have hw' : ¬ (rejSt p r f w).w.w0 > max0 := hw
      rw [if_neg hw']
      refine ⟨[], m :: q, [], f, ?_, rfl, ⟨List.Sublist.refl _, by simp,
        fun t _ => by simp [ofProc, ofSign], fun t _ _ => rfl⟩,
        Or.inr (by rw [W2.back_nil]; omega), by simp, fun _ => ⟨rfl, rfl⟩, by simp⟩
      simp [ofProc, W2.back_nil]

theorem rejectNeg_spec {p : Nat} {max0 max1 : Int} (q : List QMove) (hq : ∀ m ∈ q, m.proc < p) :
    ∀ (r : Nat → Int) (f : Nat → Bool) (w : W2),
    ∃ pre rest R f', rejectNeg max0 max1 q (rejSt p r f w) =
        .ok (rejSt p (fun t => r t - (ofProc t R).length) f' (w.back R)) ∧
      q = pre ++ rest ∧ Rejects p false pre R f ∧
      (rest = [] ∨ (w.back R).w1 ≤ max1) ∧
      (R ≠ [] → (w.back R).w0 ≤ max0) ∧ (w.w1 ≤ max1 → pre = []) ∧
      (∀ x, (∀ m ∈ q, -m.change ≤ x) → w.w0 + w.w1 + x ≤ max0 + max1 →
        (∀ t, t < p → f t = false) → R = pre.filter (fun m => m.change < 0)) := by
  induction q with
  | nil =>
    intro r f w
    refine ⟨[], [], [], f, ?_, rfl, ⟨List.Sublist.refl _, by simp, fun t _ => by simp [ofProc, ofSign],
      fun t _ _ => rfl⟩, Or.inl rfl, by simp, fun _ => rfl, by simp⟩
    simp [rejectNeg, ofProc, W2.back_nil]
  | cons m q ih =>
    intro r f w
    have hmp := hq m (by simp)
    have ih := ih (fun x hx => hq x (by simp [hx]))
    unfold rejectNeg
    by_cases hw : w.w1 > max1
    · have hw' : (rejSt p r f w).w.w1 > max1 := hw
      rw [if_pos hw']
      unfold rejectNegStep
      by_cases hc : m.change < 0
      · have hsg : signed false m.change = true := by simp [signed, hc]
        rw [if_pos hc]
        have hfin : vget (rejSt p r f w).fin m.proc = .ok (f m.proc) := vget_ok (rangeMap_get hmp f)
        rw [hfin]
        simp only [ok_bind]
        by_cases hf : f m.proc = true
        · rw [if_pos hf]
          simp only [pure_eq_ok, ok_bind]
          obtain ⟨pre, rest, R, f', h1, h2, h3, h4, h5, -, h7⟩ := ih r f w
          refine ⟨m :: pre, rest, R, f', h1, by rw [h2]; rfl, h3.skipFin hsg hf, h4, h5,
            fun h => absurd h (by omega), ?_⟩
          intro x _ _ hff
          rw [hff m.proc hmp] at hf; cases hf
        · have hf : f m.proc = false := by simpa using hf
          rw [hf]
          simp only [Bool.false_eq_true, if_false]
          by_cases hg : w.w0 - m.change ≤ max0
          · have hg' : (rejSt p r f w).w.w0 - m.change ≤ max0 := hg
            rw [if_pos hg']
            have hrej : vget (rejSt p r f w).rejected m.proc = .ok (r m.proc) :=
              vget_ok (rangeMap_get hmp r)
            rw [hrej]
            simp only [ok_bind]
            rw [vset_ok (by simp [rejSt, hmp])]
            simp only [ok_bind, pure_eq_ok]
            obtain ⟨pre, rest, R, f', h1, h2, h3, h4, h5, h6, h7⟩ :=
              ih (upd r m.proc (r m.proc - 1)) f ⟨w.w0 - m.change, w.w1 + m.change⟩
            refine ⟨m :: pre, rest, m :: R, f', ?_, by rw [h2]; rfl, h3.take hsg hf, ?_, ?_,
              fun h => absurd h (by omega), ?_⟩
            · rw [W2.back_cons]
              have : (fun t => r t - ((ofProc t (m :: R)).length : Int)) =
                  (fun t => upd r m.proc (r m.proc - 1) t - ((ofProc t R).length : Int)) := by
                funext t
                rw [ofProc_cons]
                by_cases hmt : m.proc = t
                · subst hmt; simp; omega
                · simp [hmt, upd_other _ _ (Ne.symm hmt)]
              rw [this, ← h1]
              simp only [rejSt, rangeMap_set]
            · rw [W2.back_cons]; exact h4
            · intro _
              rw [W2.back_cons]
              by_cases hR : R = []
              · subst hR; rw [W2.back_nil]; exact hg
              · exact h5 hR
            · intro x hx hs hff
              rw [List.filter_cons, if_pos (by simpa using hc)]
              rw [h7 x (fun m hm => hx m (by simp [hm])) (by simp only; omega) hff]
          · have hg' : ¬ (rejSt p r f w).w.w0 - m.change ≤ max0 := hg
            rw [if_neg hg']
            rw [vset_ok (by simp [rejSt, hmp])]
            simp only [ok_bind, pure_eq_ok]
            obtain ⟨pre, rest, R, f', h1, h2, h3, h4, h5, h6, h7⟩ := ih r (upd f m.proc true) w
            refine ⟨m :: pre, rest, R, f', ?_, by rw [h2]; rfl, h3.stop hsg, h4, h5,
              fun h => absurd h (by omega), ?_⟩
            · rw [← h1]; simp only [rejSt, rangeMap_set]
            · intro x hx hs hff
              have := hx m (by simp)
              omega
      · have hsg : ¬ signed false m.change = true := by simp [signed]; omega
        rw [if_neg hc]
        simp only [pure_eq_ok, ok_bind]
        obtain ⟨pre, rest, R, f', h1, h2, h3, h4, h5, h6, h7⟩ := ih r f w
        refine ⟨m :: pre, rest, R, f', h1, by rw [h2]; rfl, h3.skip hsg, h4, h5,
          fun h => absurd h (by omega), ?_⟩
        intro x hx hs hff
        rw [List.filter_cons, if_neg (by simpa using hc)]
        exact h7 x (fun m hm => hx m (by simp [hm])) hs hff
    · have hw' : ¬ (rejSt p r f w).w.w1 > max1 := hw
      rw [if_neg hw']
      refine ⟨[], m :: q, [], f, ?_, rfl, ⟨List.Sublist.refl _, by simp,
        fun t _ => by simp [ofProc, ofSign], fun t _ _ => rfl⟩,
        Or.inr (by rw [W2.back_nil]; omega), by simp, fun _ => rfl, by simp⟩
      simp [ofProc, W2.back_nil]

theorem Rejects.extend {p : Nat} {pos : Bool} {pre R : List QMove} {f : Nat → Bool}
    (h : Rejects p pos pre R f) (rest : List QMove) : Rejects p pos (pre ++ rest) R f :=
  ⟨h.sub.trans (List.sublist_append_left _ _), h.sign,
    fun t ht => (h.prefix' t ht).trans (by
      unfold ofSign; rw [List.filter_append]; exact List.prefix_append _ _), h.fin⟩

/-- The sign of a rejection count. -/
def sgn (pos : Bool) (k : Nat) : Int := if pos then k else -k

/-- `reject_unbalanced_moves` on a sorted queue: the rejected moves `R` all have one sign, those of
each processor are the first ones of that sign in the queue, the counts are their numbers, the
weights are those without them, and if the weights were within the bounds and every move fits into
the slack, they still are. -/
theorem rejectUnbalanced_spec {p : Nat} (max0 max1 : Int) (q : List QMove)
    (hq : ∀ m ∈ q, m.proc < p) (w : W2) :
    ∃ pos R, rejectUnbalanced p max0 max1 q w =
        .ok ((List.range p).map (fun t => sgn pos (ofProc t R).length),
          W2.back ⟨w.w0 + changeSum q, w.w1 - changeSum q⟩ R) ∧
      Rejects p pos q R (fun _ => false) ∧
      (∀ x, (∀ m ∈ q, |m.change| ≤ x) → w.w0 + w.w1 + x ≤ max0 + max1 → w.w0 ≤ max0 →
        w.w1 ≤ max1 →
        w.w0 + changeSum q - changeSum R ≤ max0 ∧ w.w1 - changeSum q + changeSum R ≤ max1) := by
  have hbal : q.foldl (fun s m => s + m.change) 0 = changeSum q := by
    have := foldl_add_eq_sum (fun m : QMove => m.change) q 0
    simpa [changeSum] using this
  set w1 : W2 := ⟨w.w0 + changeSum q, w.w1 - changeSum q⟩ with hw1
  have hst : ({ rejected := List.replicate p 0, fin := List.replicate p false, w := w1 } : RejState)
      = rejSt p (fun _ => 0) (fun _ => false) w1 := by
    simp [rejSt, List.map_const']
  obtain ⟨pre, rest, R, f', h1, h2, h3, h4, h5, h6, h7⟩ :=
    rejectPos_spec (max0 := max0) (max1 := max1) q hq (fun _ => 0) (fun _ => false) w1
  obtain ⟨pre2, rest2, R2, f2, k1, k2, k3, k4, k5, k6, k7⟩ :=
    rejectNeg_spec (max0 := max0) (max1 := max1) rest
      (fun m hm => hq m (by rw [h2]; simp [hm])) (fun t => 0 + ((ofProc t R).length : Int)) f' (w1.back R)
  have hrun : rejectUnbalanced p max0 max1 q w =
      .ok ((List.range p).map (fun t => (0 + ((ofProc t R).length : Int)) - (ofProc t R2).length),
        (w1.back R).back R2) := by
    unfold rejectUnbalanced
    simp only [hbal]
    rw [← hw1, hst, h1]
    simp only [ok_bind]
    rw [k1]
    rfl
  have hsplit : ∀ l : List QMove, changeSum (l.filter (fun m => m.change > 0)) +
      changeSum (l.filter (fun m => m.change < 0)) = changeSum l := by
    intro l
    unfold changeSum
    induction l with
    | nil => rfl
    | cons m l ih =>
      rw [List.filter_cons, List.filter_cons]
      by_cases hp : m.change > 0
      · have : ¬ m.change < 0 := by omega
        simp only [hp, this, decide_true, decide_false, if_true, List.map_cons, List.sum_cons,
          Bool.false_eq_true, if_false]
        omega
      · by_cases hn : m.change < 0
        · simp only [hp, hn, decide_true, decide_false, if_true, List.map_cons, List.sum_cons,
            Bool.false_eq_true, if_false]
          omega
        · simp only [hp, hn, decide_false, List.map_cons, List.sum_cons,
            Bool.false_eq_true, if_false]
          omega
  have hnn : ∀ l : List QMove, 0 ≤ changeSum (l.filter (fun m => m.change > 0)) ∧
      changeSum (l.filter (fun m => m.change < 0)) ≤ 0 := by
    intro l
    unfold changeSum
    induction l with
    | nil => simp
    | cons m l ih =>
      rw [List.filter_cons, List.filter_cons]
      by_cases hp : m.change > 0
      · have : ¬ m.change < 0 := by omega
        simp only [hp, this, decide_true, decide_false, if_true, List.map_cons, List.sum_cons,
          Bool.false_eq_true, if_false]
        omega
      · by_cases hn : m.change < 0
        · simp only [hp, hn, decide_true, decide_false, if_true, List.map_cons, List.sum_cons,
            Bool.false_eq_true, if_false]
          omega
        · simp only [hp, hn, decide_false, Bool.false_eq_true, if_false]
          omega
  by_cases hpos : w1.w0 ≤ max0
  · -- the first loop does nothing
    obtain ⟨hpre, hf'⟩ := h6 hpos
    subst hpre; subst hf'
    have hR : R = [] := List.sublist_nil.1 h3.sub
    subst hR
    simp only [List.nil_append] at h2
    subst h2
    rw [W2.back_nil] at k1 k4 k5 k6 k7 hrun
    refine ⟨false, R2, ?_, by rw [k2]; exact k3.extend _, ?_⟩
    · rw [hrun]; simp [sgn, ofProc]
    · intro x hx hs hb0 hb1
      have hR2 := k7 x (fun m hm => le_trans (neg_le_abs _) (hx m hm)) (by
        rw [hw1]; simp only; omega) (fun _ _ => rfl)
      have hT : ∀ l : List QMove, (w1.back l).w0 = w1.w0 - changeSum l ∧
        (w1.back l).w1 = w1.w1 + changeSum l := fun l => ⟨rfl, rfl⟩
      have e0 : w1.w0 = w.w0 + changeSum q := rfl
      have e1 : w1.w1 = w.w1 - changeSum q := rfl
      by_cases hne : R2 = []
      · subst hne
        rcases k4 with k4 | k4
        · rw [k4, List.append_nil] at k2
          rw [W2.back_nil] at k5
          have hn := hnn q
          have hsp := hsplit q
          rw [k2, ← hR2, ← k2] at hsp hn
          simp only [changeSum, List.map_nil, List.sum_nil] at hsp hn ⊢
          simp only [changeSum] at e0 e1
          omega
        · rw [W2.back_nil] at k4
          simp only [changeSum, List.map_nil, List.sum_nil] at *
          omega
      · have h0 := k5 hne
        rw [(hT R2).1] at h0
        rcases k4 with k4 | k4
        · rw [k4, List.append_nil] at k2
          have hn := hnn q
          have hsp := hsplit q
          rw [k2, ← hR2, ← k2] at hsp hn
          omega
        · rw [(hT R2).2] at k4
          omega
  · have hmid : R2 = [] ∧ True := by
      refine ⟨?_, trivial⟩
      by_cases hR : R = []
      · -- nothing rejected: the queue is used up
        subst hR
        rw [W2.back_nil] at h4
        rcases h4 with h4 | h4
        · subst h4
          have := (List.append_eq_nil_iff.1 k2.symm).1
          subst this
          exact List.sublist_nil.1 k3.sub
        · omega
      · have := k6 (h5 hR)
        subst this
        exact List.sublist_nil.1 k3.sub
    have hR2 := hmid.1
    subst hR2
    rw [W2.back_nil] at hrun
    refine ⟨true, R, ?_, by rw [h2]; exact h3.extend _, ?_⟩
    · rw [hrun]; simp [sgn, ofProc]
    · intro x hx hs hb0 hb1
      have hRe := h7 x (fun m hm => le_trans (le_abs_self _) (hx m hm)) (by
        rw [hw1]; simp only; omega) (fun _ _ => rfl)
      have hT : (w1.back R).w0 = w1.w0 - changeSum R ∧
        (w1.back R).w1 = w1.w1 + changeSum R := ⟨rfl, rfl⟩
      have e0 : w1.w0 = w.w0 + changeSum q := rfl
      have e1 : w1.w1 = w.w1 - changeSum q := rfl
      have hlow : (w1.back R).w0 ≤ max0 := by
        rcases h4 with h4 | h4
        · rw [h4, List.append_nil] at h2
          have hn := hnn q
          have hsp := hsplit q
          rw [h2, ← hRe, ← h2] at hsp hn
          rw [hT.1]; omega
        · exact h4
      have hx0 : 0 ≤ x := by
        cases q with
        | nil =>
          simp only [changeSum, List.map_nil, List.sum_nil] at e0
          omega
        | cons m q => exact le_trans (abs_nonneg _) (hx m (by simp))
      by_cases hR : R = []
      · subst hR
        rw [W2.back_nil] at hlow
        omega
      · have := h5 hR
        rw [hT.1] at hlow
        rw [hT.2] at this
        omega

end PMondriaan

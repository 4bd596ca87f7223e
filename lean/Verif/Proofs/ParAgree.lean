import Verif.Proofs.ParPhase

/-
When the processors agree on the rejected moves.
-/

namespace PMondriaan

open Spec

theorem before_total {a b : QMove} (h1 : a.before b = false) (h2 : b.before a = false) :
    a.gain = b.gain ∧ a.tag = b.tag := by
  unfold QMove.before at h1 h2
  by_cases hg : a.gain = b.gain
  · rw [if_pos hg] at h1
    rw [if_pos hg.symm] at h2
    simp only [decide_eq_false_iff_not] at h1 h2
    exact ⟨hg, by omega⟩
  · rw [if_neg hg] at h1
    rw [if_neg (Ne.symm hg)] at h2
    simp only [decide_eq_false_iff_not] at h1 h2
    omega

theorem mem_qOf {s : Nat} {l : List MoveP} {m : QMove} (h : m ∈ qOf s l) :
    ∃ a, l[m.tag]? = some a ∧ m = ⟨a.gain, a.change, s, m.tag⟩ := by
  unfold qOf at h
  obtain ⟨⟨a, i⟩, hx, rfl⟩ := List.mem_map.1 h
  exact ⟨a, List.mem_zipIdx_iff_getElem?.1 hx, rfl⟩

theorem mem_qAll {p : Nat} {mv : Nat → List MoveP} {m : QMove} (h : m ∈ qAll p mv) :
    m.proc < p ∧ ∃ a, (mv m.proc)[m.tag]? = some a ∧ m = ⟨a.gain, a.change, m.proc, m.tag⟩ := by
  obtain ⟨s, hs, hm⟩ := List.mem_flatMap.1 h
  have hp := qOf_proc hm
  subst hp
  exact ⟨List.mem_range.1 hs, mem_qOf hm⟩

/-- Entries of different processors with the same tag have different gains. -/
def KeysDistinct (p : Nat) (mv : Nat → List MoveP) : Prop :=
  ∀ s t, s < p → t < p → s ≠ t → ∀ (i : Nat) (a b : MoveP), (mv s)[i]? = some a →
    (mv t)[i]? = some b → a.gain ≠ b.gain

theorem key_inj {p : Nat} {mv : Nat → List MoveP} (hk : KeysDistinct p mv) {a b : QMove}
    (ha : a ∈ qAll p mv) (hb : b ∈ qAll p mv) (hg : a.gain = b.gain) (ht : a.tag = b.tag) : a = b := by
  obtain ⟨pa, x, hx, ea⟩ := mem_qAll ha
  obtain ⟨pb, y, hy, eb⟩ := mem_qAll hb
  have hxg : a.gain = x.gain := by rw [ea]
  have hyg : b.gain = y.gain := by rw [eb]
  by_cases hp : a.proc = b.proc
  · rw [hp, ht] at hx
    rw [hx] at hy
    have := Option.some.inj hy
    subst this
    rw [ea, eb, hp, ht]
  · exfalso
    rw [ht] at hx
    exact hk _ _ pa pb hp _ _ _ hx hy (by rw [← hxg, ← hyg, hg])

/-- A sorted queue is unique. -/
theorem queue_unique {p : Nat} {mv : Nat → List MoveP} (hk : KeysDistinct p mv) {q q' : List QMove}
    (hq : q.Perm (qAll p mv)) (hq' : q'.Perm (qAll p mv))
    (hs : q.Pairwise (fun a b => b.before a = false))
    (hs' : q'.Pairwise (fun a b => b.before a = false)) : q = q' := by
  refine List.Perm.eq_of_pairwise (le := fun a b => b.before a = false) ?_ hs hs' (hq.trans hq'.symm)
  intro a b ha hb h1 h2
  obtain ⟨hg, ht⟩ := before_total h2 h1
  exact key_inj hk (hq.mem_iff.1 ha) (hq'.mem_iff.1 hb) hg ht

/-- Within one processor the gains do not increase. -/
def GainsFall (l : List MoveP) : Prop := l.Pairwise (fun a b => b.gain ≤ a.gain)

theorem qOf_sorted {s : Nat} {l : List MoveP} (h : GainsFall l) :
    (qOf s l).reverse.Pairwise (fun a b => b.before a = false) := by
  rw [List.pairwise_reverse]
  unfold qOf
  rw [List.pairwise_map]
  have key : ∀ (l : List MoveP) (k : Nat), GainsFall l →
      (l.zipIdx k).Pairwise (fun x y : MoveP × Nat => y.1.gain ≤ x.1.gain ∧ x.2 < y.2) := by
    intro l
    induction l with
    | nil => intro k _; simp
    | cons a l ih =>
      intro k hl
      obtain ⟨h1, h2⟩ := List.pairwise_cons.1 hl
      rw [List.zipIdx_cons, List.pairwise_cons]
      refine ⟨?_, ih (k + 1) h2⟩
      rintro ⟨b, i⟩ hb
      have hi := List.le_snd_of_mem_zipIdx hb
      refine ⟨h1 b ?_, by simp only at hi ⊢; omega⟩
      have := List.mem_map_of_mem (f := Prod.fst) hb
      rwa [List.zipIdx_map_fst] at this
  refine (key l 0 h).imp ?_
  rintro ⟨a, i⟩ ⟨b, j⟩ ⟨h1, h2⟩
  simp only at h1 h2
  unfold QMove.before
  simp only
  split
  · simp; omega
  · simp; omega

theorem ofProc_qAll {p t : Nat} (ht : t < p) (mv : Nat → List MoveP) :
    ofProc t (qAll p mv) = qOf t (mv t) := by
  unfold ofProc qAll
  have : ∀ l : List Nat, l.Nodup →
      (l.flatMap (fun s => qOf s (mv s))).filter (fun m => m.proc = t) =
      if t ∈ l then qOf t (mv t) else [] := by
    intro l hl
    induction l with
    | nil => simp
    | cons s l ih =>
      obtain ⟨hs, hl'⟩ := List.nodup_cons.1 hl
      rw [List.flatMap_cons, List.filter_append, ih hl']
      by_cases hst : s = t
      · subst hst
        rw [if_neg hs, if_pos (by simp), List.append_nil, List.filter_eq_self]
        intro m hm
        simp [qOf_proc hm]
      · have : (qOf s (mv s)).filter (fun m => m.proc = t) = [] := by
          rw [List.filter_eq_nil_iff]
          intro m hm
          simp [qOf_proc hm, hst]
        rw [this, List.nil_append]
        simp [Ne.symm hst]
  rw [this _ List.nodup_range, if_pos (List.mem_range.2 ht)]

/-- In the sorted queue the entries of a processor with falling gains are in reverse order. -/
theorem ofProc_sorted {p t : Nat} (ht : t < p) {mv : Nat → List MoveP} (h : GainsFall (mv t))
    {q : List QMove} (hq : q.Perm (qAll p mv)) (hs : q.Pairwise (fun a b => b.before a = false)) :
    ofProc t q = (qOf t (mv t)).reverse := by
  have hp : (ofProc t q).Perm (qOf t (mv t)).reverse := by
    refine List.Perm.trans ?_ (List.reverse_perm _).symm
    rw [← ofProc_qAll ht]
    exact hq.filter _
  refine List.Perm.eq_of_pairwise (le := fun a b => b.before a = false) ?_
    (hs.sublist List.filter_sublist) (qOf_sorted h) hp
  intro a b ha hb h1 h2
  obtain ⟨hg, htag⟩ := before_total h2 h1
  have ha := hp.mem_iff.1 ha
  rw [List.mem_reverse] at ha hb
  obtain ⟨x, hx, ea⟩ := mem_qOf ha
  obtain ⟨y, hy, eb⟩ := mem_qOf hb
  rw [htag] at hx
  rw [hx] at hy
  have := Option.some.inj hy
  subst this
  rw [ea, eb, htag]

/-- The moves a successful reversal leaves. -/
theorem undoLoop_moves (pos : Bool) (l : List (Option MoveP)) : ∀ (tail : List (Option MoveP)) (k : Nat)
    {st st' : UndoState}, st.moves = l.reverse ++ tail → undoLoop pos l.length k st = .ok st' →
    st'.moves = (undoRev pos k l).1.reverse ++ tail := by
  induction l with
  | nil =>
    intro tail k st st' hm h
    cases k with
    | zero =>
      unfold undoLoop at h
      rw [← Except.ok.inj h, hm]; simp [undoRev]
    | succ k => unfold undoLoop at h; cases h
  | cons o l ih =>
    intro tail k st st' hm h
    cases k with
    | zero =>
      unfold undoLoop at h
      rw [← Except.ok.inj h, hm]; simp [undoRev]
    | succ k =>
      rw [List.length_cons] at h
      unfold undoLoop at h
      have hget : st.moves[l.length]? = some o := by
        rw [hm]; simp
      rw [vget_ok hget] at h
      simp only [ok_bind] at h
      by_cases hu : undoes pos o = true
      · rw [if_pos hu] at h
        cases o with
        | none => simp [undoes] at hu
        | some m =>
          simp only [undoOne] at h
          cases hx : st.H.vertexOf m.v with
          | error e => rw [hx] at h; simp [error_bind] at h
          | ok x =>
            rw [hx] at h; simp only [ok_bind] at h
            cases hml : st.H.moveLoc x.id st.C st.L with
            | error e => rw [hml] at h; simp [error_bind] at h
            | ok r =>
              obtain ⟨H', C', L'⟩ := r
              rw [hml] at h; simp only [ok_bind] at h
              have hlt : l.length < st.moves.length := by rw [hm]; simp
              have hset : vset st.moves l.length none = .ok (st.moves.set l.length none) :=
                vset_ok hlt
              rw [hset] at h; simp only [ok_bind, pure_eq_ok] at h
              have hm' : st.moves.set l.length none = l.reverse ++ (none :: tail) := by
                rw [hm, List.reverse_cons, List.append_assoc, List.set_append_right _ _ (by simp)]
                simp
              have := ih (none :: tail) k (st := ⟨H', C', L', st.moves.set l.length none⟩) hm' h
              rw [this]
              simp only [undoRev]
              rw [if_pos hu]
              simp
      · rw [if_neg hu] at h
        have hm' : st.moves = l.reverse ++ (o :: tail) := by rw [hm]; simp
        have := ih (o :: tail) (k + 1) hm' h
        rw [this]
        cases o with
        | none => simp [undoRev]
        | some m => simp only [undoRev]; rw [if_neg hu]; simp

theorem undoMoves_moves {pos : Bool} {k : Nat} {st st' : UndoState}
    (h : undoMoves (sgn pos k) st = .ok st') :
    st'.moves = (undoRev pos k st.moves.reverse).1.reverse := by
  have key : ∀ st' : UndoState, undoLoop pos st.moves.length k st = .ok st' →
      st'.moves = (undoRev pos k st.moves.reverse).1.reverse := by
    intro st' h
    have := undoLoop_moves pos st.moves.reverse [] k (st := st) (st' := st') (by simp)
      (by rw [List.length_reverse]; exact h)
    simpa using this
  cases k with
  | zero =>
    have : st' = st := by
      unfold undoMoves sgn at h
      cases pos <;> simp [undoLoop, pure_eq_ok] at h <;> exact h.symm
    rw [this]; simp [undoRev]
  | succ k =>
    unfold undoMoves sgn at h
    cases pos with
    | true =>
      rw [if_pos rfl, if_pos (by omega)] at h
      exact key st' (by simpa using h)
    | false =>
      rw [if_neg (by simp), if_neg (by simp)] at h
      have e : (-(-((k + 1 : Nat) : Int))).toNat = k + 1 := by omega
      rw [e] at h
      exact key st' h

theorem sum_ofProc {p : Nat} (R : List QMove) (h : ∀ m ∈ R, m.proc < p) :
    changeSum R = ((List.range p).map (fun t => changeSum (ofProc t R))).sum := by
  induction R with
  | nil => simp [changeSum, ofProc]
  | cons m R ih =>
    have hm := h m (by simp)
    have h1 : ∀ t, changeSum (ofProc t (m :: R)) = (if t = m.proc then m.change else 0) + changeSum (ofProc t R) := by
      intro t
      rw [ofProc_cons]
      by_cases ht : m.proc = t
      · rw [if_pos ht, if_pos ht.symm]; simp [changeSum]
      · rw [if_neg ht, if_neg (Ne.symm ht)]; simp
    simp only [h1]
    rw [List.sum_map_add, ← ih (fun x hx => h x (by simp [hx]))]
    have h2 : ((List.range p).map (fun t => if t = m.proc then m.change else 0)).sum = m.change := by
      have key : ∀ l : List Nat, l.Nodup →
          (l.map (fun t => if t = m.proc then m.change else 0)).sum = if m.proc ∈ l then m.change else 0 := by
        intro l hl
        induction l with
        | nil => simp
        | cons a l ih =>
          obtain ⟨ha, hl'⟩ := List.nodup_cons.1 hl
          rw [List.map_cons, List.sum_cons, ih hl']
          by_cases hat : a = m.proc
          · subst hat; simp [ha]
          · simp [hat, Ne.symm hat]
      rw [key _ List.nodup_range, if_pos (List.mem_range.2 hm)]
    rw [h2]
    simp [changeSum]

/-- With falling gains the moves undone are exactly those counted as rejected. -/
theorem undone_eq {p t : Nat} (ht : t < p) {mv : Nat → List MoveP} (hf : GainsFall (mv t))
    {q R : List QMove} (hq : q.Perm (qAll p mv)) (hs : q.Pairwise (fun a b => b.before a = false))
    {pos : Bool} (hR : Rejects p pos q R (fun _ => false)) (k : Nat) {st' st : UndoState}
    (hst : st.moves = (mv t).map some ++ List.replicate k none)
    (h : undoMoves (sgn pos (ofProc t R).length) st = .ok st') :
    ((kept st'.moves).map (·.change)).sum + changeSum (ofProc t R) = ((mv t).map (·.change)).sum := by
  set n := (ofProc t R).length with hn
  have hm := undoMoves_moves h
  have hperm := undoRev_perm pos st.moves.reverse n
  have htake := undoRev_take pos st.moves.reverse n
  rw [kept_reverse, hst, kept_slots] at htake
  rw [kept_reverse, hst, kept_slots] at hperm
  rw [hst] at hm
  have h1 : ((kept st'.moves).map (·.change)).sum = ((kept (undoRev pos n
      ((mv t).map some ++ List.replicate k none).reverse).1).map (·.change)).sum := by
    rw [hm, kept_reverse, List.map_reverse, List.sum_reverse]
  have h2 := ((hperm.trans (List.reverse_perm _)).map (fun m : MoveP => m.change)).sum_eq
  rw [List.map_append, List.sum_append] at h2
  -- the rejected ones
  have h3 : ofProc t R = ((qOf t (mv t)).reverse.filter (fun m => signed pos m.change)).take n := by
    have hpre := hR.prefix' t ht
    have e : ofSign pos t q = (ofProc t q).filter (fun m => signed pos m.change) := by
      unfold ofSign ofProc
      rw [List.filter_filter]
      apply List.filter_congr
      intro m _
      simp [Bool.and_comm]
    rw [e, ofProc_sorted ht hf hq hs] at hpre
    exact (List.prefix_iff_eq_take.1 hpre)
  have h4 : changeSum (ofProc t R) = (((undoRev pos n
      ((mv t).map some ++ List.replicate k none).reverse).2).map (·.change)).sum := by
    rw [htake, h3]
    unfold changeSum
    congr 1
    rw [List.map_take, List.map_take]
    congr 1
    have f1 : ((qOf t (mv t)).reverse.filter (fun m => signed pos m.change)).map (·.change) =
        ((qOf t (mv t)).reverse.map (·.change)).filter (signed pos) := by
      rw [List.filter_map]; rfl
    have f2 : ((mv t).reverse.filter (fun m => undoes pos (some m))).map (·.change) =
        ((mv t).reverse.map (·.change)).filter (signed pos) := by
      rw [List.filter_map]; rfl
    rw [f1, f2, List.map_reverse, List.map_reverse, qOf_change]
  rw [h1, h4]
  exact h2

end PMondriaan

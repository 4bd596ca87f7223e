import Verif.Proofs.MachineParGain
import Verif.Proofs.MachineMain

/-
One processor in a round of the parallel refinement in 64-bit arithmetic: finding moves, rejecting moves, the owner of nets.
-/

namespace PMondriaan

open Spec

/-! ### Finding moves -/

/-- The weight of a vertex; 0 when there is no such vertex. -/
def vweight (H : Hypergraph) (v : Nat) : Int :=
  match H.vertexOf v with
  | .ok x => x.weight
  | .error _ => 0

theorem vweight_frame {A B : Hypergraph} (h : Frame A B) {v : Nat} {x : Vertex} (hx : B.vertexOf v = .ok x) :
    vweight A v = x.weight := by
  obtain ⟨i, hi, -, hw⟩ := vertexOf_weight hx
  rw [localId_frame h] at hi
  rw [h.weights] at hw
  unfold vweight Hypergraph.vertexOf
  rw [hi]
  simp only [ok_bind]
  unfold Hypergraph.vertexAt
  cases hv : A.vertices[i]? with
  | none => rw [List.getElem?_map, hv] at hw; cases hw
  | some y =>
    rw [List.getElem?_map, hv] at hw
    exact Option.some.inj hw

/-- The sum of the sizes of the weight changes. -/
def absMoves (l : List MoveP) : Int := (l.map (fun m => (m.change.natAbs : Int))).sum

theorem absMoves_nonneg (l : List MoveP) : 0 ≤ absMoves l := by
  apply sum_nonneg'
  intro x hx
  obtain ⟨m, -, rfl⟩ := List.mem_map.1 hx
  omega

theorem absMoves_append (l : List MoveP) (m : MoveP) : absMoves (l ++ [m]) = absMoves l + m.change.natAbs := by
  simp [absMoves]

/-- The state of `find_top_moves` that began with weights `w` and `o0` left to move; `o` is left now. -/
structure TopFit (H0 : Hypergraph) (o0 : Int) (w : W2) (o : Int) (st : TopState) : Prop where
  gs : OpenInv H0 o st.gs
  used : absMoves st.moves + o ≤ o0
  w0 : (st.w.w0 - w.w0).natAbs ≤ absMoves st.moves
  w1 : (st.w.w1 - w.w1).natAbs ≤ absMoves st.moves
  moves : ∀ m ∈ st.moves, vweight H0 m.v = m.change.natAbs

theorem OpenInv.nonneg {H0 : Hypergraph} (F : FitP H0) {o : Int} {s : GainStructure} (h : OpenInv H0 o s) : 0 ≤ o := by
  rw [← h.op]
  exact (openW_range F.wsNonneg _).1

/-- Bounds on the weights at the start of a round and on the weights of the parts. -/
structure FitW (max0 max1 : Int) (o0 : Int) (w : W2) : Prop where
  m0 : -2 ^ 60 ≤ max0 ∧ max0 ≤ 2 ^ 60
  m1 : -2 ^ 60 ≤ max1 ∧ max1 ≤ 2 ^ 60
  w0 : w.w0.natAbs + o0 ≤ 2 ^ 60
  w1 : w.w1.natAbs + o0 ≤ 2 ^ 60

theorem add_part {w w' : W2} {p d : Int} (h : w.add p d = .ok w') :
    (p = 0 ∧ w' = ⟨w.w0 + d, w.w1⟩) ∨ (p = 1 ∧ w' = ⟨w.w0, w.w1 + d⟩) := by
  unfold W2.add at h
  split at h
  · rename_i hp; cases h; exact Or.inl ⟨hp, rfl⟩
  · split at h
    · rename_i hp; cases h; exact Or.inr ⟨hp, rfl⟩
    · cases h

theorem get_part {w : W2} {p x : Int} (h : w.get p = .ok x) : x = w.w0 ∨ x = w.w1 := by
  unfold W2.get at h
  split at h
  · cases h; exact Or.inl rfl
  · split at h
    · cases h; exact Or.inr rfl
    · cases h

theorem topMove_sim {H0 : Hypergraph} (F : FitP H0) {max0 max1 o0 o : Int} {w : W2} (W : FitW max0 max1 o0 w)
    {st st' : TopState} (hs : TopFit H0 o0 w o st) {part : Int} {v : Option Nat} {g : Option Int}
    (h : topMove max0 max1 st part v g = .ok st') :
    topMove64 ⟨max0 - st.w.w0, max1 - st.w.w1⟩ st part v g = .ok st' ∧ ∃ o', TopFit H0 o0 w o' st' := by
  have ho := hs.gs.nonneg F
  have ha := absMoves_nonneg st.moves
  obtain ⟨u1, u2, u3⟩ := And.intro hs.used (And.intro hs.w0 hs.w1)
  obtain ⟨W1, W2', W3, W4⟩ := W
  cases v with
  | none => cases h
  | some v =>
    cases g with
    | none => cases h
    | some g =>
      unfold topMove at h
      rw [bind_eq_ok] at h
      obtain ⟨x, hx, h⟩ := h
      rw [bind_eq_ok] at h
      obtain ⟨extra, he, h⟩ := h
      have hxw := F.weight hs.gs.frame (vertexOf_mem' hx)
      have hex := get_part he
      dsimp only at hex
      unfold topMove64
      dsimp only
      rw [hx]; simp only [ok_bind]
      rw [he]; simp only [ok_bind]
      rw [long_ok (by omega) (by omega)]; simp only [ok_bind]
      split at h
      · rename_i hr
        rw [if_pos hr]
        simp only [bind_eq_ok] at h
        obtain ⟨wa, hwa, wb, hwb, ⟨gs, L⟩, hm, h⟩ := h
        cases h
        obtain ⟨k1, k2⟩ := gmoveLoc_sim F hs.gs hx hm
        have k3 := k2.nonneg F
        have e : (-1 : Int) * x.weight = -x.weight := by omega
        rw [long_ok (by omega) (by omega)]; simp only [ok_bind]
        rw [e]
        have ewa := add_part hwa
        have ewb := add_part hwb
        have hwA : wb = ⟨st.w.w0 - x.weight, st.w.w1 + x.weight⟩ ∧ part = 0 ∨
            wb = ⟨st.w.w0 + x.weight, st.w.w1 - x.weight⟩ ∧ part = 1 := by
          rcases ewa with ⟨rfl, rfl⟩ | ⟨rfl, rfl⟩ <;> rcases ewb with ⟨hq, rfl⟩ | ⟨hq, rfl⟩
          · simp [other] at hq
          · exact Or.inl ⟨by congr 1, rfl⟩
          · exact Or.inr ⟨by congr 1, rfl⟩
          · simp [other] at hq
        have hwaR : (-2 ^ 62 ≤ wa.w0 ∧ wa.w0 ≤ 2 ^ 62) ∧ (-2 ^ 62 ≤ wa.w1 ∧ wa.w1 ≤ 2 ^ 62) := by
          rcases ewa with ⟨-, rfl⟩ | ⟨-, rfl⟩ <;> dsimp only <;> omega
        have hwbR : (-2 ^ 62 ≤ wb.w0 ∧ wb.w0 ≤ 2 ^ 62) ∧ (-2 ^ 62 ≤ wb.w1 ∧ wb.w1 ≤ 2 ^ 62) := by
          rcases hwA with ⟨rfl, -⟩ | ⟨rfl, -⟩ <;> dsimp only <;> omega
        rw [add64_ok hwa hwaR.1 hwaR.2]; simp only [ok_bind]
        rw [add64_ok hwb hwbR.1 hwbR.2]; simp only [ok_bind]
        rw [k1]; simp only [ok_bind]
        refine ⟨rfl, o - x.weight, k2, ?_, ?_, ?_, ?_⟩
        · dsimp only
          rw [absMoves_append]
          dsimp only
          split <;> omega
        · dsimp only
          rw [absMoves_append]
          dsimp only
          rcases hwA with ⟨rfl, rfl⟩ | ⟨rfl, rfl⟩ <;> dsimp only <;> split <;> omega
        · dsimp only
          rw [absMoves_append]
          dsimp only
          rcases hwA with ⟨rfl, rfl⟩ | ⟨rfl, rfl⟩ <;> dsimp only <;> split <;> omega
        · intro m hm'
          rcases List.mem_append.1 hm' with hm' | hm'
          · exact hs.moves m hm'
          · rw [List.mem_singleton.1 hm']
            dsimp only
            rw [vweight_frame hs.gs.frame hx]
            split <;> omega
      · rename_i hr
        rw [if_neg hr]
        rw [bind_eq_ok] at h
        obtain ⟨gs, hg, h⟩ := h
        cases h
        obtain ⟨k1, o', k2, k3, k4⟩ := gremove_open F hs.gs hg
        rw [k1]; simp only [ok_bind]
        exact ⟨rfl, o', k4, by have := hs.used; dsimp only; omega, hs.w0, hs.w1, hs.moves⟩

theorem TopFit.keeps {H0 : Hypergraph} {o0 o : Int} {w : W2} {st : TopState} (h : TopFit H0 o0 w o st) {gs : GainStructure}
    (hs : SmallG gs) (k : Keeps st.gs gs) (rng : Rng) : TopFit H0 o0 w o { st with gs := gs, rng := rng } :=
  ⟨h.gs.keeps hs k, h.used, h.w0, h.w1, h.moves⟩

theorem topBody_sim {H0 : Hypergraph} (F : FitP H0) {max0 max1 o0 o : Int} {w : W2} (W : FitW max0 max1 o0 w)
    {st : TopState} (hs : TopFit H0 o0 w o st) {r : Bool × TopState} (h : topBody max0 max1 st = .ok r) :
    topBody64 max0 max1 st = .ok r ∧ ∃ o', TopFit H0 o0 w o' r.2 := by
  have ho := hs.gs.nonneg F
  have ha := absMoves_nonneg st.moves
  obtain ⟨u1, u2, u3⟩ := And.intro hs.used (And.intro hs.w0 hs.w1)
  obtain ⟨W1, W2', W3, W4⟩ := id W
  unfold topBody at h
  rw [bind_eq_ok] at h
  obtain ⟨⟨part, gs1, r1⟩, h1, h⟩ := h
  rw [bind_eq_ok] at h
  obtain ⟨⟨v, gs2, r2⟩, h2, h⟩ := h
  rw [bind_eq_ok] at h
  obtain ⟨⟨g, gs3⟩, h3, h⟩ := h
  obtain ⟨a1, a2, -⟩ := partNext_sim hs.gs.small (by omega) (by omega) (F.weightsFit hs.gs.frame) h1
  obtain ⟨b1, b2⟩ := next_sim a2 h2
  obtain ⟨c1, c2⟩ := gainNext_sim b2 h3
  have kk : Keeps st.gs gs3 := ((partNext_keeps h1).trans (next_keeps h2)).trans (gainNext_keeps h3)
  have hst := hs.keeps c2 kk r2
  unfold topBody64 extra64
  rw [long_ok (by omega) (by omega)]; simp only [ok_bind]
  rw [long_ok (by omega) (by omega)]; simp only [ok_bind]
  show (do
    let (part, gs, rng) ← st.gs.partNext64 (max0 - st.w.w0) (max1 - st.w.w1) st.rng
    let (v, gs, rng) ← gs.next64 part rng
    let (g, gs) ← gs.gainNext64 part
    if gainNeg g then pure (false, { st with gs, rng })
    else do
      let st ← topMove64 ⟨max0 - st.w.w0, max1 - st.w.w1⟩ { st with gs, rng } part v g
      pure (true, st) : Res (Bool × TopState)) = .ok r ∧ _
  rw [a1]; simp only [ok_bind]
  rw [b1]; simp only [ok_bind]
  rw [c1]; simp only [ok_bind]
  dsimp only at h ⊢
  split at h
  · rename_i hg
    rw [if_pos hg]
    cases h
    exact ⟨rfl, o, hst⟩
  · rename_i hg
    rw [if_neg hg]
    rw [bind_eq_ok] at h
    obtain ⟨st', h4, h⟩ := h
    cases h
    obtain ⟨d1, d2⟩ := topMove_sim F W hst h4
    dsimp only at d1
    rw [d1]
    exact ⟨rfl, d2⟩

theorem topLoop_sim {H0 : Hypergraph} (F : FitP H0) {max0 max1 o0 : Int} {w : W2} (W : FitW max0 max1 o0 w) (K fuel : Nat) :
    ∀ {o : Int} {st r : TopState}, TopFit H0 o0 w o st → topLoop max0 max1 K fuel st = .ok r →
      topLoop64 max0 max1 K fuel st = .ok r ∧ ∃ o', TopFit H0 o0 w o' r := by
  induction fuel with
  | zero => intro o st r _ h; cases h
  | succ f ih =>
    intro o st r hs h
    unfold topLoop at h
    rw [bind_eq_ok] at h
    obtain ⟨⟨d, gs⟩, h1, h⟩ := h
    obtain ⟨a1, a2⟩ := done_sim hs.gs.small h1
    have hst := hs.keeps a2 (done_keeps h1) st.rng
    unfold topLoop64
    rw [a1]; simp only [ok_bind]
    dsimp only at h ⊢
    split at h
    · rename_i hc
      rw [if_pos hc]
      rw [bind_eq_ok] at h
      obtain ⟨⟨go, st1⟩, h2, h⟩ := h
      obtain ⟨b1, o', b2⟩ := topBody_sim F W hst h2
      dsimp only at b1
      rw [b1]; simp only [ok_bind]
      dsimp only at h ⊢
      split at h
      · rename_i hgo
        rw [if_pos hgo]
        exact ih b2 h
      · rename_i hgo
        rw [if_neg hgo]
        cases h
        exact ⟨rfl, o', b2⟩
    · rename_i hc
      rw [if_neg hc]
      cases h
      exact ⟨rfl, o, hst⟩

/-! ### Rejecting moves -/

/-- The sum of the sizes of the weight changes in the queue. -/
def absQueue (l : List QMove) : Int := (l.map (fun m => (m.change.natAbs : Int))).sum

theorem absQueue_cons (m : QMove) (l : List QMove) : absQueue (m :: l) = m.change.natAbs + absQueue l := by
  simp [absQueue]

theorem absQueue_nonneg (l : List QMove) : 0 ≤ absQueue l := by
  apply sum_nonneg'
  intro x hx
  obtain ⟨m, -, rfl⟩ := List.mem_map.1 hx
  omega

/-- A sum of numbers of either sign fits when the sum of their sizes does. -/
theorem sumLong_abs {α : Type} (f : α → Int) : ∀ (l : List α) (t : Int),
    (t.natAbs : Int) + (l.map (fun a => ((f a).natAbs : Int))).sum ≤ 2 ^ 62 →
    l.foldlM (fun t a => long (t + f a)) t = .ok (l.foldl (fun t a => t + f a) t) ∧
      ((l.foldl (fun t a => t + f a) t).natAbs : Int) ≤ t.natAbs + (l.map (fun a => ((f a).natAbs : Int))).sum := by
  intro l
  induction l with
  | nil => intro t _; exact ⟨rfl, by simp⟩
  | cons a l ih =>
    intro t h
    rw [List.map_cons, List.sum_cons] at h ⊢
    have hn : 0 ≤ (l.map (fun a => ((f a).natAbs : Int))).sum := by
      apply sum_nonneg'
      intro x hx
      obtain ⟨m, -, rfl⟩ := List.mem_map.1 hx
      omega
    rw [List.foldlM_cons, long_ok (by omega) (by omega)]
    simp only [ok_bind]
    obtain ⟨h1, h2⟩ := ih (t + f a) (by omega)
    exact ⟨h1, by rw [List.foldl_cons]; omega⟩

theorem rejectPos_sim {max0 max1 : Int} : ∀ (q : List QMove) {st : RejState} {r : List QMove × RejState} {D : Int},
    st.w.w0.natAbs ≤ D → st.w.w1.natAbs ≤ D → D + absQueue q ≤ 2 ^ 62 → rejectPos max0 max1 q st = .ok r →
    rejectPos64 max0 max1 q st = .ok r ∧ r.2.w.w0.natAbs + absQueue r.1 ≤ D + absQueue q ∧
      r.2.w.w1.natAbs + absQueue r.1 ≤ D + absQueue q := by
  intro q
  induction q with
  | nil =>
    intro st r D h0 h1 _ h
    cases h
    exact ⟨rfl, by dsimp only; omega, by dsimp only; omega⟩
  | cons m q ih =>
    intro st r D h0 h1 hb h
    rw [absQueue_cons] at hb ⊢
    have hq := absQueue_nonneg q
    unfold rejectPos at h
    unfold rejectPos64
    split at h
    · rename_i hc
      rw [if_pos hc]
      rw [bind_eq_ok] at h
      obtain ⟨st1, h2, h⟩ := h
      have step : rejectPosStep64 max1 st m = .ok st1 ∧ st1.w.w0.natAbs ≤ D + m.change.natAbs ∧
          st1.w.w1.natAbs ≤ D + m.change.natAbs := by
        unfold rejectPosStep at h2
        unfold rejectPosStep64
        split at h2
        · rename_i hp
          rw [if_pos hp]
          rw [bind_eq_ok] at h2
          obtain ⟨f, hf, h2⟩ := h2
          rw [hf]; simp only [ok_bind]
          split at h2
          · rename_i hff
            rw [if_pos hff]
            cases h2
            exact ⟨rfl, by omega, by omega⟩
          · rename_i hff
            rw [if_neg hff, long_ok (by omega) (by omega)]; simp only [ok_bind]
            split at h2
            · rename_i hl
              rw [if_pos hl]
              simp only [bind_eq_ok] at h2
              obtain ⟨x, hx, rs, hrs, h2⟩ := h2
              cases h2
              rw [hx]; simp only [ok_bind]
              rw [hrs]; simp only [ok_bind]
              unfold reject64
              rw [long_ok (by omega) (by omega)]; simp only [ok_bind]
              rw [long_ok (by omega) (by omega)]
              exact ⟨rfl, by omega, by omega⟩
            · rename_i hl
              rw [if_neg hl]
              rw [bind_eq_ok] at h2
              obtain ⟨fs, hfs, h2⟩ := h2
              cases h2
              rw [hfs]
              exact ⟨rfl, by dsimp only; omega, by dsimp only; omega⟩
        · rename_i hp
          rw [if_neg hp]
          cases h2
          exact ⟨rfl, by omega, by omega⟩
      rw [step.1]; simp only [ok_bind]
      obtain ⟨k1, k2, k3⟩ := ih (D := D + m.change.natAbs) step.2.1 step.2.2 (by omega) h
      exact ⟨k1, by omega, by omega⟩
    · rename_i hc
      rw [if_neg hc]
      cases h
      refine ⟨rfl, ?_, ?_⟩
      · rw [absQueue_cons]; dsimp only; omega
      · rw [absQueue_cons]; dsimp only; omega

theorem rejectNeg_sim {max0 max1 : Int} : ∀ (q : List QMove) {st r : RejState} {D : Int},
    st.w.w0.natAbs ≤ D → st.w.w1.natAbs ≤ D → D + absQueue q ≤ 2 ^ 62 → rejectNeg max0 max1 q st = .ok r →
    rejectNeg64 max0 max1 q st = .ok r ∧ r.w.w0.natAbs ≤ D + absQueue q ∧ r.w.w1.natAbs ≤ D + absQueue q := by
  intro q
  induction q with
  | nil =>
    intro st r D h0 h1 _ h
    cases h
    have := absQueue_nonneg []
    exact ⟨rfl, by omega, by omega⟩
  | cons m q ih =>
    intro st r D h0 h1 hb h
    rw [absQueue_cons] at hb ⊢
    have hq := absQueue_nonneg q
    unfold rejectNeg at h
    unfold rejectNeg64
    split at h
    · rename_i hc
      rw [if_pos hc]
      rw [bind_eq_ok] at h
      obtain ⟨st1, h2, h⟩ := h
      have step : rejectNegStep64 max0 st m = .ok st1 ∧ st1.w.w0.natAbs ≤ D + m.change.natAbs ∧
          st1.w.w1.natAbs ≤ D + m.change.natAbs := by
        unfold rejectNegStep at h2
        unfold rejectNegStep64
        split at h2
        · rename_i hp
          rw [if_pos hp]
          rw [bind_eq_ok] at h2
          obtain ⟨f, hf, h2⟩ := h2
          rw [hf]; simp only [ok_bind]
          split at h2
          · rename_i hff
            rw [if_pos hff]
            cases h2
            exact ⟨rfl, by omega, by omega⟩
          · rename_i hff
            rw [if_neg hff, long_ok (by omega) (by omega)]; simp only [ok_bind]
            split at h2
            · rename_i hl
              rw [if_pos hl]
              simp only [bind_eq_ok] at h2
              obtain ⟨x, hx, rs, hrs, h2⟩ := h2
              cases h2
              rw [hx]; simp only [ok_bind]
              rw [hrs]; simp only [ok_bind]
              unfold reject64
              rw [long_ok (by omega) (by omega)]; simp only [ok_bind]
              rw [long_ok (by omega) (by omega)]
              exact ⟨rfl, by omega, by omega⟩
            · rename_i hl
              rw [if_neg hl]
              rw [bind_eq_ok] at h2
              obtain ⟨fs, hfs, h2⟩ := h2
              cases h2
              rw [hfs]
              exact ⟨rfl, by dsimp only; omega, by dsimp only; omega⟩
        · rename_i hp
          rw [if_neg hp]
          cases h2
          exact ⟨rfl, by omega, by omega⟩
      rw [step.1]; simp only [ok_bind]
      obtain ⟨k1, k2, k3⟩ := ih (D := D + m.change.natAbs) step.2.1 step.2.2 (by omega) h
      exact ⟨k1, by omega, by omega⟩
    · rename_i hc
      rw [if_neg hc]
      cases h
      exact ⟨rfl, by omega, by omega⟩

theorem rejectUnbalanced_sim {p : Nat} {max0 max1 : Int} {q : List QMove} {w : W2} {r : List Int × W2}
    (h0 : w.w0.natAbs + 2 * absQueue q ≤ 2 ^ 62) (h1 : w.w1.natAbs + 2 * absQueue q ≤ 2 ^ 62)
    (h : rejectUnbalanced p max0 max1 q w = .ok r) :
    rejectUnbalanced64 p max0 max1 q w = .ok r ∧ r.2.w0.natAbs ≤ max w.w0.natAbs w.w1.natAbs + 2 * absQueue q ∧
      r.2.w1.natAbs ≤ max w.w0.natAbs w.w1.natAbs + 2 * absQueue q := by
  have hq := absQueue_nonneg q
  unfold rejectUnbalanced at h
  simp only [bind_eq_ok] at h
  obtain ⟨⟨q1, st1⟩, h2, st2, h3, h⟩ := h
  cases h
  obtain ⟨s1, s2⟩ := sumLong_abs (fun m : QMove => m.change) q 0 (by
    show _ + absQueue q ≤ _
    simp; omega)
  have s2' : ((q.foldl (fun s (m : QMove) => s + m.change) 0).natAbs : Int) ≤ absQueue q := by
    have : ((0 : Int).natAbs : Int) + absQueue q = absQueue q := by simp
    rw [← this]; exact s2
  unfold rejectUnbalanced64
  rw [s1]; simp only [ok_bind]
  generalize q.foldl (fun s (m : QMove) => s + m.change) 0 = bal at h2 s2' ⊢
  rw [long_ok (by omega) (by omega)]; simp only [ok_bind]
  rw [long_ok (by omega) (by omega)]; simp only [ok_bind]
  obtain ⟨a1, a2, a3⟩ := rejectPos_sim q (D := max w.w0.natAbs w.w1.natAbs + absQueue q)
    (by dsimp only; omega) (by dsimp only; omega) (by omega) h2
  rw [a1]; simp only [ok_bind]
  dsimp only at a2 a3 h3
  have hq1 := absQueue_nonneg q1
  obtain ⟨b1, b2, b3⟩ := rejectNeg_sim q1 (D := max w.w0.natAbs w.w1.natAbs + absQueue q + absQueue q - absQueue q1)
    (by omega) (by omega) (by omega) h3
  rw [b1]
  exact ⟨rfl, by omega, by omega⟩

/-! ### The owner of nets -/

/-- The cost of the cut nets among the owned ones. -/
def cutSum (costs : List Int) (owned : List Cnt) : Int :=
  (List.zipWith (fun k c => if Cnt.cut c then k else 0) costs owned).sum

theorem cutSum_range {costs : List Int} (h : ∀ c ∈ costs, 0 ≤ c) (owned : List Cnt) :
    0 ≤ cutSum costs owned ∧ cutSum costs owned ≤ costs.sum :=
  zipWith_sum_range (c := fun _ g => Cnt.cut g) costs owned h

theorem ownedCut_fold : ∀ (owned : List Cnt) (costs : List Int) (s : Int), (∀ c ∈ costs, 0 ≤ c) → 0 ≤ s →
    s + costs.sum ≤ 2 ^ 62 →
    (List.zip owned costs).foldlM (fun s x => if x.1.cut then long (s + x.2) else pure s) s = .ok (s + cutSum costs owned) ∧
    (List.zip owned costs).foldl (fun s x => if x.1.cut then s + x.2 else s) s = s + cutSum costs owned := by
  intro owned
  induction owned with
  | nil => intro costs s _ _ _; simp [cutSum, pure, Except.pure]
  | cons c owned ih =>
    intro costs s hc h0 hb
    cases costs with
    | nil => simp [cutSum, pure, Except.pure]
    | cons k costs =>
      have hk := hc k (by simp)
      have hn : 0 ≤ costs.sum := sum_nonneg' (fun y hy => hc y (by simp [hy]))
      rw [List.sum_cons] at hb
      have e : cutSum (k :: costs) (c :: owned) = (if Cnt.cut c then k else 0) + cutSum costs owned := by
        simp [cutSum]
      rw [List.zip_cons_cons, List.foldlM_cons, List.foldl_cons, e]
      dsimp only
      split
      · rw [long_ok (by omega) (by omega)]; simp only [ok_bind]
        have := ih costs (s + k) (fun y hy => hc y (by simp [hy])) (by omega) (by omega)
        rw [this.1, this.2]
        exact ⟨by congr 1; omega, by omega⟩
      · simp only [pure_bind]
        have := ih costs s (fun y hy => hc y (by simp [hy])) (by omega) (by omega)
        rw [this.1, this.2]
        exact ⟨by congr 1; omega, by omega⟩

theorem ownedCut_sim {owned : List Cnt} {costs : List Int} (h : ∀ c ∈ costs, 0 ≤ c) (hb : costs.sum ≤ 2 ^ 60) :
    ownedCut64 owned costs = .ok (ownedCut owned costs) ∧ ownedCut owned costs = cutSum costs owned := by
  have := ownedCut_fold owned costs 0 h (Int.le_refl 0) (by omega)
  unfold ownedCut64 ownedCut
  rw [this.1, this.2]
  simp

theorem ownerStep_sim {np : NetPart} {costs : List Int} (hc : ∀ c ∈ costs, 0 ≤ c) (hb : costs.sum ≤ 2 ^ 60)
    {old : List Cnt} {st st' : List Cnt × Int} (hs : st.2 = cutSum costs st.1) {m : Nat × Int}
    (h : ownerStep np costs old st m = .ok st') :
    ownerStep64 np costs old st m = .ok st' ∧ st'.2 = cutSum costs st'.1 := by
  unfold ownerStep at h
  unfold ownerStep64
  rw [bind_eq_ok] at h
  obtain ⟨o, ho, h⟩ := h
  rw [ho]; simp only [ok_bind]
  dsimp only at h ⊢
  split at h
  · rename_i hch
    rw [if_pos hch]
    simp only [bind_eq_ok] at h
    obtain ⟨n, hn, k, hk, a, ha, h⟩ := h
    cases h
    have hk0 := hc k (List.mem_of_getElem? (vget_eq_ok.1 hk))
    have hk1 := entry_le_sum hc (List.mem_of_getElem? (vget_eq_ok.1 hk))
    have hr := cutSum_range hc st.1
    have e : cutSum costs a = cutSum costs st.1 - (if Cnt.cut n then k else 0) +
        (if Cnt.cut ⟨n.c0 + (m.2 - o.c0), n.c1 - (m.2 - o.c0)⟩ then k else 0) := by
      rw [(vset_eq_ok' ha).2]
      exact zipWith_set_sum _ costs st.1 _ k n _ (vget_eq_ok.1 hk) (vget_eq_ok.1 hn)
    have c1 : (Cnt.cut n = true) ↔ ¬ (n.c0 = 0 ∨ n.c1 = 0) := by simp [Cnt.cut]
    have c2 : (Cnt.cut ⟨n.c0 + (m.2 - o.c0), n.c1 - (m.2 - o.c0)⟩ = true) ↔
        ¬ (n.c0 + (m.2 - o.c0) = 0 ∨ n.c1 - (m.2 - o.c0) = 0) := by simp [Cnt.cut]
    rw [hn]; simp only [ok_bind]
    rw [hk]; simp only [ok_bind]
    rw [ha]
    unfold runIf
    by_cases d1 : n.c0 = 0 ∨ n.c1 = 0
    · by_cases d2 : n.c0 + (m.2 - o.c0) = 0 ∨ n.c1 - (m.2 - o.c0) = 0
      · rw [if_neg (fun q => c1.1 q d1), if_neg (fun q => c2.1 q d2)] at e
        simp only [if_pos d1, if_pos d2]
        rw [long_ok (by omega) (by omega)]; simp only [ok_bind]
        rw [long_ok (by omega) (by omega)]
        exact ⟨rfl, by omega⟩
      · rw [if_neg (fun q => c1.1 q d1), if_pos (c2.2 d2)] at e
        simp only [if_pos d1, if_neg d2]
        rw [long_ok (by omega) (by omega)]; simp only [ok_bind]
        exact ⟨rfl, by omega⟩
    · by_cases d2 : n.c0 + (m.2 - o.c0) = 0 ∨ n.c1 - (m.2 - o.c0) = 0
      · rw [if_pos (c1.2 d1), if_neg (fun q => c2.1 q d2)] at e
        simp only [if_neg d1, if_pos d2, ok_bind]
        rw [long_ok (by omega) (by omega)]
        exact ⟨rfl, by omega⟩
      · rw [if_pos (c1.2 d1), if_pos (c2.2 d2)] at e
        simp only [if_neg d1, if_neg d2, ok_bind]
        exact ⟨rfl, by omega⟩
  · rename_i hch
    rw [if_neg hch]
    cases h
    exact ⟨rfl, hs⟩

theorem ownerLoop_sim {np : NetPart} {costs : List Int} (hc : ∀ c ∈ costs, 0 ≤ c) (hb : costs.sum ≤ 2 ^ 60)
    {old : List Cnt} : ∀ {l : List (Nat × Int)} {st st' : List Cnt × Int}, st.2 = cutSum costs st.1 →
    l.foldlM (ownerStep np costs old) st = .ok st' →
    l.foldlM (ownerStep64 np costs old) st = .ok st' ∧ st'.2 = cutSum costs st'.1 := by
  intro l
  induction l with
  | nil => intro st st' hs h; cases h; exact ⟨rfl, hs⟩
  | cons m l ih =>
    intro st st' hs h
    rw [List.foldlM_cons, bind_eq_ok] at h
    obtain ⟨s1, h1, h2⟩ := h
    obtain ⟨a1, a2⟩ := ownerStep_sim hc hb hs h1
    rw [List.foldlM_cons, a1]
    exact ih a2 h2

end PMondriaan

import Verif.Spec.Coarsen
import Verif.Proofs.Restrict
import Verif.Proofs.Recursive
import Verif.Proofs.Free

/-
Proofs about the sequential matching loop.
-/

namespace PMondriaan

open Spec

section Matching

variable {F : Type} {O : ScoreOps F} {H : Hypergraph}

/-- What the list of candidates of position `i` satisfies. -/
def Cand (H : Hypergraph) (matched : List Bool) (i : Nat) (vis : List Nat) : Prop :=
  ∀ u ∈ vis, u < H.vertices.length ∧ matched[u]? = some false ∧ u ≠ i ∧
    ∃ n ∈ H.nets, ∃ a b, H.vertices[u]? = some a ∧ H.vertices[i]? = some b ∧ a.id ∈ n.vertices ∧ b.id ∈ n.vertices

/-- Every match of a position shares a net with the vertex there. -/
def Shares (H : Hypergraph) (M : List (List Nat)) : Prop :=
  ∀ (j : Nat) (a : Vertex) (l : List Nat), H.vertices[j]? = some a → M[j]? = some l → ∀ x ∈ l,
    ∃ n ∈ H.nets, a.id ∈ n.vertices ∧ x ∈ n.vertices

theorem visitPin_ok (w : WF H) {n : Net} (hn : n ∈ H.nets) {u : Nat} (hu : u ∈ n.vertices)
    {matched : List Bool} (hm : matched.length = H.vertices.length) {i : Nat} {b : Vertex}
    (hb : H.vertices[i]? = some b) (hbn : b.id ∈ n.vertices) (c : F)
    {s : List Nat × List F} (hs : Cand H matched i s.1) (hl : s.2.length = H.vertices.length) :
    ∃ s', visitPin O H matched i c s u = .ok s' ∧ Cand H matched i s'.1 ∧
      s'.2.length = H.vertices.length := by
  obtain ⟨v, hv, hvu, -⟩ := w.inc_vtx n hn u hu
  obtain ⟨j, hj⟩ := List.mem_iff_getElem?.1 hv
  have hjl : j < H.vertices.length := by
    rw [List.getElem?_eq_some_iff] at hj; exact hj.1
  have h1 : H.localId u = .ok j := by rw [← hvu]; exact w.localId_of_get hj
  have h2 : matched[j]? = some (matched[j]'(by omega)) := List.getElem?_eq_getElem _
  have h3 : s.2[j]? = some (s.2[j]'(by omega)) := List.getElem?_eq_getElem _
  unfold visitPin
  simp only [h1, ok_bind, vget_ok h2, vget_ok h3]
  by_cases hc : matched[j]'(by omega) = false ∧ j ≠ i
  · rw [if_pos hc]
    refine ⟨_, rfl, ?_, by simpa using hl⟩
    intro x hx
    simp only at hx
    split at hx
    · rw [List.mem_append, List.mem_singleton] at hx
      rcases hx with hx | rfl
      · exact hs x hx
      · exact ⟨hjl, by rw [h2, hc.1], hc.2, n, hn, v, b, hj, hb, by rw [hvu]; exact hu, hbn⟩
    · exact hs x hx
  · rw [if_neg hc]
    exact ⟨s, rfl, hs, hl⟩

theorem visit_ok (w : WF H) {v : Vertex} {i : Nat} (hvi : H.vertices[i]? = some v) {matched : List Bool}
    (hm : matched.length = H.vertices.length) {ip : List F}
    (hl : ip.length = H.vertices.length) :
    ∃ s', v.nets.foldlM (visitNet O H matched i) ([], ip) = .ok s' ∧ Cand H matched i s'.1 ∧
      s'.2.length = H.vertices.length := by
  have hv := List.mem_of_getElem? hvi
  apply foldlM_inv' (fun (s : List Nat × List F) => Cand H matched i s.1 ∧ s.2.length = H.vertices.length)
  · exact ⟨(by intro u hu; cases hu), hl⟩
  · intro e s he hI
    obtain ⟨j, n, hj, hne⟩ := w.net_of_vnet hv he
    have h1 : H.netOf e = .ok n := by rw [← hne.1]; exact w.netOf_of_get hj
    unfold visitNet
    simp only [h1, ok_bind]
    exact foldlM_inv' (fun (s : List Nat × List F) => Cand H matched i s.1 ∧ s.2.length = H.vertices.length) _ s hI
      (fun u s hu hI => visitPin_ok w (List.mem_of_getElem? hj) hu hm hvi hne.2.1 _ hI.1 hI.2)

theorem pick_ok {matched : List Bool} {i : Nat} {vis : List Nat} (hc : Cand H matched i vis)
    (maxC : Nat) {M : List (List Nat)} (hM : M.length = H.vertices.length) (v : Vertex) {ip : List F}
    (hl : ip.length = H.vertices.length) :
    ∃ s', vis.foldlM (pickStep O H maxC M v) (ip, O.zero, none) = .ok s' ∧
      s'.1.length = H.vertices.length ∧
      ∀ b, s'.2.2 = some b → b ∈ vis ∧ ∃ l, M[b]? = some l ∧ l.length < maxC := by
  apply foldlM_inv' (fun (s : List F × F × Option Nat) => s.1.length = H.vertices.length ∧
      ∀ b, s.2.2 = some b → b ∈ vis ∧ ∃ l, M[b]? = some l ∧ l.length < maxC)
  · exact ⟨hl, (by intro b hb; cases hb)⟩
  · intro u s hu hI
    have hul := (hc u hu).1
    have h1 : s.1[u]? = some (s.1[u]'(by omega)) := List.getElem?_eq_getElem _
    have h2 : H.vertices[u]? = some (H.vertices[u]) := List.getElem?_eq_getElem _
    have h3 : M[u]? = some (M[u]'(by omega)) := List.getElem?_eq_getElem _
    unfold pickStep
    simp only [vget_ok h1, ok_bind, vertexAt_ok h2, vget_ok h3]
    split
    · rename_i hc
      refine ⟨_, rfl, by simpa using hI.1, ?_⟩
      intro b hb
      simp only [Option.some.injEq] at hb
      subst hb
      exact ⟨hu, _, h3, hc.2⟩
    · exact ⟨_, rfl, by simpa using hI.1, hI.2⟩

theorem reset_length (vis : List Nat) (z : F) (ip : List F) :
    (vis.foldl (fun (ip : List F) u => ip.set u z) ip).length = ip.length := by
  induction vis generalizing ip with
  | nil => rfl
  | cons a l ih => rw [List.foldl_cons, ih]; simp

/-- Positions visited and left as samples, and ids of those matched. -/
def keptOf (H : Hypergraph) (matched : List Bool) (l : List Nat) : List Vertex :=
  l.filterMap (fun i => if matched[i]? = some true then none else (H.vertices[i]?).map newVertex)

def goneOf (H : Hypergraph) (matched : List Bool) (l : List Nat) : List Nat :=
  l.filterMap (fun i => if matched[i]? = some true then (H.vertices[i]?).map (·.id) else none)

/-- Invariant of the matching loop after the positions `pre`. -/
structure MInv (H : Hypergraph) (maxC : Nat) (pre : List Nat) (s : MState F) : Prop where
  lenM : s.matchesL.length = H.vertices.length
  lenB : s.matched.length = H.vertices.length
  lenI : s.ip.length = H.vertices.length
  kept : s.newV = keptOf H s.matched pre
  gone : s.matchesL.flatten.Perm (goneOf H s.matched pre)
  seen : ∀ i, s.matched[i]? = some true → i ∈ pre ∧ s.matchesL[i]? = some []
  size : ∀ l ∈ s.matchesL, l.length ≤ maxC
  shares : Shares H s.matchesL

theorem flatten_set_perm {α : Type} (l : List (List α)) (b : Nat) (lb : List α) (x : α)
    (h : l[b]? = some lb) : (l.set b (lb ++ [x])).flatten.Perm (l.flatten ++ [x]) := by
  induction l generalizing b with
  | nil => cases h
  | cons a l ih =>
    cases b with
    | zero =>
      simp only [List.getElem?_cons_zero, Option.some.injEq] at h
      subst h
      simp only [List.set_cons_zero, List.flatten_cons, List.append_assoc]
      exact (List.perm_append_comm).append_left a
    | succ b =>
      simp only [List.set_cons_succ, List.flatten_cons, List.append_assoc]
      exact (ih b (by simpa using h)).append_left a

theorem filterMap_set {β : Type} (l : List Nat) (B : List Bool) (i : Nat) (hi : i ∉ l)
    (f : Option Bool → Nat → Option β) :
    l.filterMap (fun j => f (B.set i true)[j]? j) = l.filterMap (fun j => f B[j]? j) := by
  apply List.filterMap_congr
  intro j hj
  rw [List.getElem?_set, if_neg]
  rintro rfl
  exact hi hj

theorem matchStep_ok (w : WF H) (maxC : Nat) {pre : List Nat} {i : Nat} (hi : i ∉ pre)
    (hil : i < H.vertices.length) {s : MState F} (I : MInv H maxC pre s) :
    ∃ s', matchStep O H maxC s i = .ok s' ∧ MInv H maxC (pre ++ [i]) s' := by
  have hv : H.vertices[i]? = some H.vertices[i] := List.getElem?_eq_getElem _
  have hM : s.matchesL[i]? = some (s.matchesL[i]'(by rw [I.lenM]; exact hil)) :=
    List.getElem?_eq_getElem _
  have hB : s.matched[i]? = some false := by
    rcases hb : s.matched[i]? with _ | b
    · rw [List.getElem?_eq_none_iff, I.lenB] at hb; omega
    · cases b with
      | false => rfl
      | true => exact absurd (I.seen i hb).1 hi
  have hkeep : keptOf H s.matched (pre ++ [i]) = keptOf H s.matched pre ++ [newVertex H.vertices[i]] := by
    unfold keptOf
    rw [List.filterMap_append]
    simp [hB, hv]
  have hgone : goneOf H s.matched (pre ++ [i]) = goneOf H s.matched pre := by
    unfold goneOf
    rw [List.filterMap_append]
    simp [hB]
  have hadd : ∀ ip : List F, ip.length = H.vertices.length →
      MInv H maxC (pre ++ [i])
        { s with newV := s.newV ++ [newVertex H.vertices[i]], ip := ip } := by
    intro ip hip
    refine ⟨I.lenM, I.lenB, hip, ?_, ?_, ?_, I.size, I.shares⟩
    · rw [hkeep, I.kept]
    · rw [hgone]; exact I.gone
    · intro j hj
      exact ⟨by simp [(I.seen j hj).1], (I.seen j hj).2⟩
  unfold matchStep
  simp only [vertexAt_ok hv, ok_bind, vget_ok hM]
  split
  · rename_i hnil
    obtain ⟨s1, e1, c1, l1⟩ := visit_ok (O := O) w hv I.lenB I.lenI
    simp only [e1, ok_bind]
    obtain ⟨s2, e2, l2, b2⟩ := pick_ok (O := O) c1 maxC I.lenM H.vertices[i] l1
    simp only [e2, ok_bind]
    have l3 : (s1.1.foldl (fun (ip : List F) u => ip.set u O.zero) s2.1).length =
        H.vertices.length := by rw [reset_length, l2]
    rcases hbest : s2.2.2 with _ | b
    · exact ⟨_, rfl, hadd _ l3⟩
    · obtain ⟨hbv, lb, hlb, hlt⟩ := b2 b hbest
      obtain ⟨hbl, hbm, hbi, n, hn, x, y, hx, hy, hxn, hyn⟩ := c1 b hbv
      simp only [vget_ok hlb, ok_bind]
      refine ⟨_, rfl, ?_⟩
      constructor
      · simpa using I.lenM
      · simpa using I.lenB
      · exact l3
      · simp only
        rw [I.kept]
        unfold keptOf
        rw [List.filterMap_append, filterMap_set pre s.matched i hi
          (fun o j => if o = some true then none else (H.vertices[j]?).map newVertex)]
        have : (s.matched.set i true)[i]? = some true := by
          rw [List.getElem?_set_self (by rw [I.lenB]; exact hil)]
        simp [this]
      · simp only
        refine (flatten_set_perm _ _ _ _ hlb).trans ?_
        unfold goneOf
        rw [List.filterMap_append, filterMap_set pre s.matched i hi
          (fun o j => if o = some true then (H.vertices[j]?).map (·.id) else none)]
        have : (s.matched.set i true)[i]? = some true := by
          rw [List.getElem?_set_self (by rw [I.lenB]; exact hil)]
        simp only [List.filterMap_cons, this, if_true, hv, Option.map_some, List.filterMap_nil]
        exact I.gone.append_right _
      · intro j hj
        simp only at hj ⊢
        rw [List.getElem?_set] at hj
        rw [List.getElem?_set]
        by_cases hij : i = j
        · subst hij
          rw [if_neg hbi]
          refine ⟨by simp, ?_⟩
          rw [hM]
          congr 1
        · rw [if_neg hij] at hj
          have := I.seen j hj
          rw [if_neg]
          · exact ⟨by simp [this.1], this.2⟩
          · rintro rfl
            rw [hbm] at hj
            cases hj
      · intro l hl
        simp only at hl
        rcases List.mem_or_eq_of_mem_set hl with h | rfl
        · exact I.size l h
        · simp; omega
      · intro j a l ha hl z hz
        simp only at hl
        rw [List.getElem?_set] at hl
        by_cases hbj : b = j
        · subst hbj
          rw [if_pos rfl, if_pos (by rw [I.lenM]; exact hbl), Option.some.injEq] at hl
          subst hl
          rw [hx, Option.some.injEq] at ha
          subst ha
          rw [List.mem_append, List.mem_singleton] at hz
          rcases hz with hz | rfl
          · exact I.shares b x lb hx hlb z hz
          · rw [hv, Option.some.injEq] at hy
            rw [hy]
            exact ⟨n, hn, hxn, hyn⟩
        · rw [if_neg hbj] at hl
          exact I.shares j a l ha hl z hz
  · exact ⟨_, rfl, hadd _ I.lenI⟩

end Matching

/-- What the matching hands over to the contraction. -/
structure MatchOk (H : Hypergraph) (maxC : Nat) (M : List (List Nat)) (newV : List Vertex) : Prop where
  len : M.length = H.vertices.length
  size : ∀ l ∈ M, l.length ≤ maxC
  copies : ∀ v' ∈ newV, ∃ v ∈ H.vertices, v' = newVertex v
  cover : (newV.map (·.id) ++ M.flatten).Perm (H.vertices.map (·.id))
  centres : ∀ (i : Nat) (v : Vertex) (l : List Nat), H.vertices[i]? = some v → M[i]? = some l → l ≠ [] → newVertex v ∈ newV

theorem filterMap_split {α β : Type} (l : List α) (f g h : α → Option β)
    (hfg : ∀ a, (f a = h a ∧ g a = none) ∨ (f a = none ∧ g a = h a)) :
    (l.filterMap f ++ l.filterMap g).Perm (l.filterMap h) := by
  induction l with
  | nil => simp
  | cons a l ih =>
    rcases hfg a with ⟨h1, h2⟩ | ⟨h1, h2⟩
    · simp only [List.filterMap_cons, h1, h2]
      cases h a with
      | none => exact ih
      | some b => exact ih.cons b
    · simp only [List.filterMap_cons, h1, h2]
      cases h a with
      | none => exact ih
      | some b => exact List.perm_middle.trans (ih.cons b)

theorem range_filterMap_get {α β : Type} (l : List α) (f : α → β) :
    (List.range l.length).filterMap (fun i => (l[i]?).map f) = l.map f := by
  have h : (List.range l.length).map (fun i => l[i]?) = l.map some := by
    apply List.ext_getElem?
    intro i
    rw [List.getElem?_map, List.getElem?_map]
    by_cases hi : i < l.length
    · rw [List.getElem?_range hi]
      simp [hi]
    · rw [List.getElem?_eq_none (by simpa using hi), List.getElem?_eq_none (by simpa using hi)]
      rfl
  have h2 : (List.range l.length).filterMap (fun i => (l[i]?).map f) =
      ((List.range l.length).map (fun i => l[i]?)).filterMap (fun o => o.map f) := by
    rw [List.filterMap_map]; rfl
  rw [h2, h, List.filterMap_map]
  rw [← List.filterMap_eq_map]
  rfl

theorem matching_ok {F : Type} (O : ScoreOps F) {H : Hypergraph} (w : WF H) (maxC : Nat)
    {idx : List Nat} (hidx : idx.Perm (List.range H.vertices.length)) :
    ∃ s, idx.foldlM (matchStep O H maxC)
        { matchesL := List.replicate H.vertices.length [],
          matched := List.replicate H.vertices.length false, newV := [],
          ip := List.replicate H.vertices.length O.zero } = .ok s ∧
      MatchOk H maxC s.matchesL s.newV ∧ Shares H s.matchesL := by
  have hnd : idx.Nodup := hidx.nodup_iff.2 List.nodup_range
  obtain ⟨s, e, I⟩ := foldlM_inv (f := matchStep O H maxC)
    (fun pre _ s => MInv H maxC pre s) idx
    { matchesL := List.replicate H.vertices.length [],
      matched := List.replicate H.vertices.length false, newV := [],
      ip := List.replicate H.vertices.length O.zero }
    (by
      constructor
      · simp
      · simp
      · simp
      · rfl
      · simp [goneOf]
      · intro i hi
        simp only [List.getElem?_replicate] at hi
        split at hi <;> simp at hi
      · intro l hl
        rw [List.mem_replicate] at hl
        rw [hl.2]; simp
      · intro j a l _ hl x hx
        simp only [List.getElem?_replicate] at hl
        split at hl
        · rw [Option.some.injEq] at hl
          subst hl
          cases hx
        · cases hl)
    (by
      intro pre a post s I hl
      refine matchStep_ok w maxC ?_ ?_ I
      · intro ha
        rw [hl, List.nodup_append] at hnd
        exact hnd.2.2 a ha a (by simp) rfl
      · have : a ∈ idx := by rw [hl]; simp
        exact List.mem_range.1 (hidx.subset this))
  refine ⟨s, e, ⟨I.lenM, I.size, ?_, ?_, ?_⟩, I.shares⟩
  · intro v' hv'
    rw [I.kept] at hv'
    unfold keptOf at hv'
    obtain ⟨i, -, hi⟩ := List.mem_filterMap.1 hv'
    split at hi
    · cases hi
    · rw [Option.map_eq_some_iff] at hi
      obtain ⟨v, hv, rfl⟩ := hi
      exact ⟨v, List.mem_of_getElem? hv, rfl⟩
  · rw [I.kept]
    refine (I.gone.append_left _).trans ?_
    unfold keptOf goneOf
    rw [List.map_filterMap]
    refine (filterMap_split idx _ _ (fun i => (H.vertices[i]?).map (·.id)) ?_).trans ?_
    · intro i
      by_cases hb : s.matched[i]? = some true
      · right; simp [hb]
      · left
        simp only [if_neg hb, and_true]
        cases H.vertices[i]? <;> rfl
    · rw [← range_filterMap_get]
      exact hidx.filterMap _
  · intro i v l hv hl hne
    rw [I.kept]
    unfold keptOf
    rw [List.mem_filterMap]
    have hil : i < H.vertices.length := by rw [List.getElem?_eq_some_iff] at hv; exact hv.1
    refine ⟨i, hidx.symm.subset (List.mem_range.2 hil), ?_⟩
    rw [if_neg, hv]
    · rfl
    · intro hb
      have := (I.seen i hb).2
      rw [hl] at this
      exact hne (by simpa using this)

end PMondriaan

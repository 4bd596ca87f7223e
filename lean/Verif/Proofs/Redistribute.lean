import Verif.Model.Redistribute
import Verif.Proofs.Container
import Verif.Proofs.Bsp

/-
Redistribution: vertices leaving and entering a local hypergraph.
-/

namespace PMondriaan

open Spec

/-! ### A vertex leaves -/

theorem takeOut_wf {H : Hypergraph} (w : WF H.updateMap) {i : Nat} {v : Vertex}
    (hv : H.vertices[i]? = some v) : WF (H.takeOut i v.id).updateMap := by
  have hm : v ∈ H.vertices := List.mem_of_getElem? hv
  have hsub : ∀ x, x ∈ H.vertices.eraseIdx i → x ∈ H.vertices := fun x hx => List.mem_of_mem_eraseIdx hx
  have hnd : ((H.vertices.eraseIdx i).map (·.id)).Nodup :=
    w.vids.sublist ((List.eraseIdx_sublist ..).map _)
  have hne : ∀ x, x ∈ H.vertices.eraseIdx i → x.id ≠ v.id := by
    intro x hx he
    obtain ⟨j, hj, hxj⟩ := List.mem_eraseIdx_iff_getElem?.1 hx
    exact hj (w.vindex_inj (i := j) (i' := i) hxj hv he)
  have hin : ∀ x, x ∈ H.vertices → x.id ≠ v.id → x ∈ H.vertices.eraseIdx i := by
    intro x hx he
    obtain ⟨j, hj⟩ := List.getElem?_of_mem hx
    refine List.mem_eraseIdx_iff_getElem?.2 ⟨j, ?_, hj⟩
    rintro rfl
    rw [hv] at hj
    exact he (by rw [Option.some.inj hj])
  have hnids : (H.nets.map (fun n => { n with vertices := swapRemove n.vertices v.id })).map (·.id) =
      H.nets.map (·.id) := by
    rw [List.map_map]; rfl
  refine ⟨hnd, ?_, ?_, ?_, ?_, ?_, ?_, ?_⟩
  · exact hnids ▸ w.nids
  · intro u j
    exact buildMap_spec hnd u j
  · intro e j
    have := w.nmap e j
    rw [show H.updateMap.nets = H.nets from rfl, ← hnids] at this
    exact this
  · intro x hx
    exact w.vnets x (hsub x hx)
  · intro n hn
    obtain ⟨n, hn', rfl⟩ := List.mem_map.1
      (show n ∈ H.nets.map (fun n => { n with vertices := swapRemove n.vertices v.id }) from hn)
    exact (swapRemove_nodup (w.npins n hn') v.id).nodup_iff.2 ((w.npins n hn').filter _)
  · intro x hx e he
    obtain ⟨n, hn, h1, h2⟩ := w.inc_net x (hsub x hx) e he
    refine ⟨{ n with vertices := swapRemove n.vertices v.id }, List.mem_map_of_mem hn, h1, ?_⟩
    exact (mem_swapRemove (w.npins n hn) _ _).2 ⟨h2, hne x hx⟩
  · intro n hn u hu
    obtain ⟨n, hn', rfl⟩ := List.mem_map.1
      (show n ∈ H.nets.map (fun n => { n with vertices := swapRemove n.vertices v.id }) from hn)
    obtain ⟨h1, h2⟩ := (mem_swapRemove (w.npins n hn') _ _).1 hu
    obtain ⟨x, hx, h3, h4⟩ := w.inc_vtx n hn' u h1
    exact ⟨x, hin x hx (by rw [h3]; exact h2), h3, h4⟩

theorem eraseIdx_perm {α : Type} {l : List α} {i : Nat} {a : α} (h : l[i]? = some a) :
    (a :: l.eraseIdx i).Perm l := by
  obtain ⟨hi, rfl⟩ := List.getElem?_eq_some_iff.1 h
  exact List.getElem_cons_eraseIdx_perm hi

/-- The vertices `vs` left the hypergraph `H0`, which is now `H`; the map of positions is not kept. -/
structure Left (H0 H : Hypergraph) (vs : List Vertex) : Prop where
  wf : WF H.updateMap
  perm : (H.vertices ++ vs).Perm H0.vertices
  nets : H.nets.map (fun n => (n.id, n.cost)) = H0.nets.map (fun n => (n.id, n.cost))

theorem Left.refl {H : Hypergraph} (w : WF H.updateMap) : Left H H [] := ⟨w, by simp, rfl⟩

theorem Left.trans {H0 H1 H2 : Hypergraph} {vs ws : List Vertex} (h : Left H0 H1 vs) (h' : Left H1 H2 ws) :
    Left H0 H2 (vs ++ ws) := by
  refine ⟨h'.wf, ?_, h'.nets.trans h.nets⟩
  refine List.Perm.trans ?_ h.perm
  calc H2.vertices ++ (vs ++ ws)
      _ |>.Perm (H2.vertices ++ (ws ++ vs)) := (List.perm_append_comm).append_left _
      _ = (H2.vertices ++ ws) ++ vs := by rw [List.append_assoc]
      _ |>.Perm (H1.vertices ++ vs) := h'.perm.append_right _

theorem Left.takeOut {H : Hypergraph} (w : WF H.updateMap) {i : Nat} {v : Vertex}
    (hv : H.vertices[i]? = some v) : Left H (H.takeOut i v.id) [v] := by
  refine ⟨takeOut_wf w hv, ?_, ?_⟩
  · exact (List.perm_append_singleton _ _).trans (eraseIdx_perm hv)
  · show (H.nets.map _).map _ = _
    rw [List.map_map]; rfl

theorem Left.mem {H0 H : Hypergraph} {vs : List Vertex} (h : Left H0 H vs) {v : Vertex}
    (hv : v ∈ H.vertices) : v ∈ H0.vertices := h.perm.mem_iff.1 (by simp [hv])

theorem Left.mem_sent {H0 H : Hypergraph} {vs : List Vertex} (h : Left H0 H vs) {v : Vertex}
    (hv : v ∈ vs) : v ∈ H0.vertices := h.perm.mem_iff.1 (by simp [hv])

theorem Left.isNet {H0 H : Hypergraph} {vs : List Vertex} (h : Left H0 H vs) {n : Net} (hn : n ∈ H0.nets) :
    ∃ n' ∈ H.nets, n'.id = n.id ∧ n'.cost = n.cost := by
  have : (n.id, n.cost) ∈ H.nets.map (fun n => (n.id, n.cost)) := by
    rw [h.nets]; exact List.mem_map_of_mem hn
  obtain ⟨n', h1, h2⟩ := List.mem_map.1 this
  simp only [Prod.mk.injEq] at h2
  exact ⟨n', h1, h2⟩

theorem Left.wasNet {H0 H : Hypergraph} {vs : List Vertex} (h : Left H0 H vs) {n : Net} (hn : n ∈ H.nets) :
    ∃ n' ∈ H0.nets, n'.id = n.id ∧ n'.cost = n.cost := by
  have : (n.id, n.cost) ∈ H0.nets.map (fun n => (n.id, n.cost)) := by
    rw [← h.nets]; exact List.mem_map_of_mem hn
  obtain ⟨n', h1, h2⟩ := List.mem_map.1 this
  simp only [Prod.mk.injEq] at h2
  exact ⟨n', h1, h2⟩

/-- Weight of a label in a list of vertices. -/
def partSum (vs : List Vertex) (l : Int) : Int := ((vs.filter (fun v => v.part = l)).map (·.weight)).sum

theorem partSum_cons (v : Vertex) (vs : List Vertex) (l : Int) :
    partSum (v :: vs) l = (if v.part = l then v.weight else 0) + partSum vs l := by
  unfold partSum
  by_cases h : v.part = l <;> simp [h]

theorem partSum_append (vs ws : List Vertex) (l : Int) :
    partSum (vs ++ ws) l = partSum vs l + partSum ws l := by
  simp [partSum]

theorem partSum_perm {vs ws : List Vertex} (h : vs.Perm ws) (l : Int) :
    partSum vs l = partSum ws l := ((h.filter _).map _).sum_eq

theorem partSum_all {vs : List Vertex} {l : Int} (h : ∀ v ∈ vs, v.part = l) :
    partSum vs l = (vs.map (·.weight)).sum := by
  unfold partSum
  rw [List.filter_eq_self.2]
  simpa using h

theorem partSum_none {vs : List Vertex} {l : Int} (h : ∀ v ∈ vs, v.part ≠ l) :
    partSum vs l = 0 := by
  unfold partSum
  rw [List.filter_eq_nil_iff.2]
  · rfl
  · simpa using h

theorem partSum_nonneg {vs : List Vertex} (h : ∀ v ∈ vs, 0 ≤ v.weight) (l : Int) :
    0 ≤ partSum vs l := by
  induction vs with
  | nil => simp [partSum]
  | cons v vs ih =>
    rw [partSum_cons]
    have h1 := h v (by simp)
    have h2 := ih (fun x hx => h x (by simp [hx]))
    split <;> omega

theorem Left.partSum {H0 H : Hypergraph} {vs : List Vertex} (h : Left H0 H vs) (l : Int) :
    PMondriaan.partSum H.vertices l + PMondriaan.partSum vs l = PMondriaan.partSum H0.vertices l := by
  rw [← partSum_append, partSum_perm h.perm]

/-! ### Sending to one processor -/

theorem mem_foldl_setInsert {α : Type} [DecidableEq α] (l s : List α) (x : α) :
    x ∈ l.foldl setInsert s ↔ x ∈ s ∨ x ∈ l := by
  induction l generalizing s with
  | nil => simp
  | cons a l ih =>
    rw [List.foldl_cons, ih]
    unfold setInsert
    split
    · rename_i h
      constructor
      · rintro (h' | h')
        · exact Or.inl h'
        · exact Or.inr (List.mem_cons_of_mem _ h')
      · rintro (h' | h')
        · exact Or.inl h'
        · rcases List.mem_cons.1 h' with rfl | h'
          · exact Or.inl (by simpa using h)
          · exact Or.inr h'
    · simp [or_assoc, or_comm, or_left_comm]

/-- No vertex before `index` has the label. -/
def Scanned (vs : List Vertex) (label : Int) (index : Nat) : Prop :=
  ∀ v ∈ vs.take index, v.part ≠ label

theorem nextLabel_ok {H : Hypergraph} {label : Int} {index : Nat} (hs : Scanned H.vertices label index)
    (hw : 0 < partSum H.vertices label) :
    ∃ i v, H.nextLabel label index = .ok i ∧ H.vertices[i]? = some v ∧ v.part = label ∧
      Scanned (H.vertices.eraseIdx i) label i := by
  unfold Hypergraph.nextLabel
  cases h : (H.vertices.drop index).findIdx? (fun v => v.part = label) with
  | none =>
    rw [List.findIdx?_eq_none_iff] at h
    exfalso
    have : partSum H.vertices label = 0 := by
      apply partSum_none
      intro v hv
      rw [← List.take_append_drop index H.vertices] at hv
      rcases List.mem_append.1 hv with hv | hv
      · exact hs v hv
      · simpa using h v hv
    omega
  | some k =>
    obtain ⟨hk, h1, h2⟩ := List.findIdx?_eq_some_iff_getElem.1 h
    have hk' : index + k < H.vertices.length := by simp at hk; omega
    refine ⟨index + k, H.vertices[index + k], rfl, List.getElem?_eq_getElem hk', ?_, ?_⟩
    · simpa using h1
    · intro v hv
      rw [List.take_eraseIdx_eq_take_of_le _ _ _ (Nat.le_refl _)] at hv
      obtain ⟨j, hj, rfl⟩ := List.mem_take_iff_getElem.1 hv
      rcases Nat.lt_or_ge j index with hji | hji
      · exact hs _ (List.mem_take_iff_getElem.2 ⟨j, by omega, rfl⟩)
      · have := h2 (j - index) (by omega)
        simp only [List.getElem_drop, decide_eq_true_eq] at this
        have he : index + (j - index) = j := by omega
        simpa only [he] using this

/-- Result of the loop that sends to one processor. -/
structure SentTo (t : Nat) (label max W : Int) (x y : SendState) (vs : List Vertex) : Prop where
  left : Left x.H y.H vs
  out : y.out = x.out ++ vs.map (fun v => (t, v))
  lab : ∀ v ∈ vs, v.part = label
  sent : y.sent = x.sent + (vs.map (·.weight)).sum
  enough : max ≤ y.sent
  few : (∀ v ∈ x.H.vertices, v.weight ≤ W) → x.sent < max + W → y.sent < max + W
  nets : ∀ e, e ∈ y.nets ↔ e ∈ x.nets ∨ ∃ v ∈ vs, e ∈ v.nets
  scanned : Scanned y.H.vertices label y.index

theorem sendUntil_ok {p t : Nat} (ht : t < p) (label max W : Int) : ∀ (f : Nat) (x : SendState),
    WF x.H.updateMap → (∀ v ∈ x.H.vertices, 0 ≤ v.weight) → Scanned x.H.vertices label x.index →
    max ≤ x.sent + partSum x.H.vertices label → x.H.vertices.length ≤ f →
    ∃ y vs, sendUntil p t label max f x = .ok y ∧ SentTo t label max W x y vs := by
  intro f
  induction f with
  | zero =>
    intro x w hn hs hmax hf
    refine ⟨x, [], ?_, ⟨Left.refl w, by simp, by simp, by simp, ?_, fun _ h => h, by simp, hs⟩⟩ <;>
    · have : x.H.vertices = [] := List.length_eq_zero_iff.1 (by omega)
      rw [this] at hmax
      have : ¬ x.sent < max := by simpa [partSum] using hmax
      first
        | omega
        | simp [sendUntil, this]
  | succ f ih =>
    intro x w hn hs hmax hf
    unfold sendUntil
    by_cases hlt : x.sent < max
    · obtain ⟨i, v, h1, h2, h3, h4⟩ := nextLabel_ok hs (by omega)
      have hv := List.mem_of_getElem? h2
      have hL := Left.takeOut w h2
      have hlw := hL.partSum label
      rw [partSum_cons, if_pos h3] at hlw
      obtain ⟨y, vs, hy, hS⟩ := ih ⟨x.H.takeOut i v.id, i, x.sent + v.weight,
          v.nets.foldl setInsert x.nets, x.out ++ [(t, v)]⟩ hL.wf
        (fun u hu => hn u (hL.mem hu)) h4
        (by
          show max ≤ x.sent + v.weight + partSum (x.H.takeOut i v.id).vertices label
          simp only [partSum, List.filter_nil, List.map_nil, List.sum_nil] at hlw ⊢
          simp only [partSum] at hmax
          omega)
        (by
          have := hL.perm.length_eq
          rw [List.length_append] at this
          show (x.H.takeOut i v.id).vertices.length ≤ f
          simp at this
          omega)
      refine ⟨y, v :: vs, ?_, ?_⟩
      · rw [if_pos hlt, h1, ok_bind]
        have : x.H.vertexAt i = .ok v := by unfold Hypergraph.vertexAt; rw [h2]
        rw [this, ok_bind]
        unfold send
        rw [if_pos ht, ok_bind]
        exact hy
      · refine ⟨?_, ?_, ?_, ?_, hS.enough, ?_, ?_, hS.scanned⟩
        · exact hL.trans hS.left
        · rw [hS.out]; simp
        · intro u hu
          rcases List.mem_cons.1 hu with rfl | hu
          · exact h3
          · exact hS.lab u hu
        · rw [hS.sent]; simp; omega
        · intro hW _
          exact hS.few (fun u hu => hW u (hL.mem hu)) (by
            show x.sent + v.weight < max + W
            have := hW v hv; omega)
        · intro e
          rw [hS.nets]
          show e ∈ v.nets.foldl setInsert x.nets ∨ _ ↔ _
          rw [mem_foldl_setInsert]
          simp [or_assoc]
    · rw [if_neg hlt]
      exact ⟨x, [], rfl, ⟨Left.refl w, by simp, by simp, by simp, by omega, fun _ h => h, by simp, hs⟩⟩

/-! ### The processors visited by `reduce_surplus` -/

/-- The processors still to be visited when the loop variable is `t`. -/
def ringFrom (p s t : Nat) : List Nat :=
  if s < t then List.range' t (p - t) ++ List.range' 0 s else List.range' t (s - t)

theorem ring_step {p s t : Nat} (hs : s < p) (ht : t ≤ p) :
    (ringFrom p s t = [] ∧ (if t ≥ p then 0 else t) = s) ∨
    ((if t ≥ p then 0 else t) ≠ s ∧ (if t ≥ p then 0 else t) < p ∧
      ringFrom p s t = (if t ≥ p then 0 else t) :: ringFrom p s ((if t ≥ p then 0 else t) + 1)) := by
  unfold ringFrom
  by_cases h1 : t ≥ p
  · have : t = p := by omega
    subst this
    rw [if_pos h1, if_pos hs]
    cases s with
    | zero => left; simp
    | succ s =>
      right
      refine ⟨by omega, by omega, ?_⟩
      rw [if_neg (by omega)]
      simp [List.range'_succ]
  · rw [if_neg h1]
    by_cases h2 : s < t
    · right
      refine ⟨by omega, by omega, ?_⟩
      rw [if_pos h2, if_pos (by omega), show p - t = (p - (t + 1)) + 1 from by omega, List.range'_succ]
      rfl
    · rw [if_neg h2]
      by_cases h3 : t = s
      · left
        subst h3
        simp
      · right
        refine ⟨h3, by omega, ?_⟩
        rw [if_neg (by omega), show s - t = (s - (t + 1)) + 1 from by omega, List.range'_succ]

theorem mem_ring {p s x : Nat} : x ∈ ringFrom p s (s + 1) ↔ (x < p ∧ x ≠ s) ∨ x < s := by
  unfold ringFrom
  rw [if_pos (by omega)]
  simp only [List.mem_append, List.mem_range'_1]
  omega

theorem ring_nodup (p s : Nat) : (ringFrom p s (s + 1)).Nodup := by
  unfold ringFrom
  rw [if_pos (by omega)]
  refine List.Nodup.append (List.nodup_range' (step := 1) (by omega)) (List.nodup_range' (step := 1) (by omega)) ?_
  intro x h1 h2
  simp only [List.mem_range'_1] at h1 h2
  omega

/-- The largest sum of a prefix. -/
def record : List Int → Int
  | [] => 0
  | x :: l => max 0 (x + record l)

theorem record_snoc (l : List Int) (x : Int) : record (l ++ [x]) = max (record l) ((l ++ [x]).sum) := by
  induction l with
  | nil => simp [record]
  | cons a l ih =>
    simp only [List.cons_append, record, ih, List.sum_cons]
    omega

theorem record_nonneg (l : List Int) : 0 ≤ record l := by
  cases l with
  | nil => simp [record]
  | cons a l => simp only [record]; omega

theorem sum_le_record (l : List Int) : l.sum ≤ record l := by
  induction l with
  | nil => simp [record]
  | cons a l ih => simp only [record, List.sum_cons]; omega

/-- What a processor that must lose `d` would send, in units of weight, to a processor with surplus
`x`, when those it visits before have the surpluses `pre`. -/
def share (d : Int) (pre : List Int) (x : Int) : Int := min (record (pre ++ [x])) d - min (record pre) d

theorem share_nonneg (d : Int) (pre : List Int) (x : Int) : 0 ≤ share d pre x := by
  unfold share
  rw [record_snoc]
  omega

/-- Weight sent to processor `t`. -/
def amount (ms : List (Nat × Vertex)) (t : Nat) : Int :=
  ((ms.filter (fun m => m.1 = t)).map (·.2.weight)).sum

theorem amount_append (a b : List (Nat × Vertex)) (t : Nat) :
    amount (a ++ b) t = amount a t + amount b t := by simp [amount]

theorem amount_none {ms : List (Nat × Vertex)} {t : Nat} (h : ∀ m ∈ ms, m.1 ≠ t) : amount ms t = 0 := by
  unfold amount
  rw [List.filter_eq_nil_iff.2]
  · rfl
  · simpa using h

theorem amount_all (vs : List Vertex) (t : Nat) :
    amount (vs.map (fun v => (t, v))) t = (vs.map (·.weight)).sum := by
  unfold amount
  rw [List.filter_eq_self.2 (by simp), List.map_map]
  rfl

/-! ### The loop of `reduce_surplus` -/

structure LoopInv (p s : Nat) (label : Int) (sur : Nat → Int) (W : Int) (H0 : Hypergraph) (own0 : Int)
    (verts0 : List (Nat × Vertex)) (costs0 : List (Nat × (Nat × Int))) (pre : List Nat)
    (x : SurplusState) (new : List (Nat × Vertex)) (cs : List (Nat × (Nat × Int))) : Prop where
  left : Left H0 x.H (new.map (·.2))
  scanned : Scanned x.H.vertices label x.index
  verts : x.verts = verts0 ++ new
  costs : x.costs = costs0 ++ cs
  mem : ∀ m ∈ new, m.2.part = label ∧ m.1 ∈ pre ∧ 0 < sur m.1
  net1 : ∀ m ∈ new, ∀ e ∈ m.2.nets, ∃ c, (m.1, (e, c)) ∈ cs
  net2 : ∀ m ∈ cs, m.1 ∈ pre ∧ ∃ n ∈ H0.nets, n.id = m.2.1 ∧ n.cost = m.2.2
  own : x.own = own0 + ((new.map (·.2)).map (·.weight)).sum
  top : min (record (pre.map sur)) (-own0) ≤ x.own - own0
  others : x.own < 0 → x.others = (pre.map sur).sum - record (pre.map sur)
  amt : (∀ v ∈ H0.vertices, v.weight ≤ W) → 1 ≤ W → ∀ (a : List Nat) t b, pre = a ++ t :: b →
    amount new t ≤ share (-own0) (a.map sur) (sur t) + (W - 1)

theorem sendTo_ok {ord : List Nat → List Nat} (hord : ∀ l, (ord l).Perm l) {p s : Nat} {label : Int}
    {sur : Nat → Int} {W : Int} {H0 : Hypergraph} {own0 : Int} {verts0 : List (Nat × Vertex)}
    {costs0 : List (Nat × (Nat × Int))} {pre : List Nat} {x : SurplusState} {new : List (Nat × Vertex)}
    {cs : List (Nat × (Nat × Int))} (w0 : WF H0.updateMap)
    (hI : LoopInv p s label sur W H0 own0 verts0 costs0 pre x new cs)
    (hn : ∀ v ∈ H0.vertices, 0 ≤ v.weight) (h0 : -own0 ≤ partSum H0.vertices label)
    {t : Nat} (ht : t < p) (htp : t ∉ pre) (hown : x.own < 0) (hst : 0 < sur t)
    (hot : 0 < x.others + sur t) :
    ∃ x' new' cs', sendTo ord p label { x with t := t, others := x.others + sur t } = .ok x' ∧
      LoopInv p s label sur W H0 own0 verts0 costs0 (pre ++ [t]) x' new' cs' ∧ x'.t = t := by
  have hlw := hI.left.partSum label
  rw [partSum_all (vs := new.map (·.2)) (by
    intro v hv
    obtain ⟨m, hm, rfl⟩ := List.mem_map.1 hv
    exact (hI.mem m hm).1)] at hlw
  have hownx := hI.own
  set mx := min (x.others + sur t) (-1 * x.own) with hmx
  obtain ⟨y, vs, hy, hS⟩ := sendUntil_ok ht label mx W (x.H.size + 1) ⟨x.H, x.index, 0, [], x.verts⟩
    hI.left.wf (fun v hv => hn v (hI.left.mem hv)) hI.scanned
    (by show mx ≤ 0 + partSum x.H.vertices label; omega) (by show x.H.vertices.length ≤ _; unfold Hypergraph.size; omega)
  have hL : Left H0 y.H ((new ++ vs.map (fun v => (t, v))).map (·.2)) := by
    have := hI.left.trans hS.left
    rw [List.map_append, List.map_map]
    simpa [Function.comp_def] using this
  have hnets : ∀ e ∈ ord y.nets, ∃ n ∈ y.H.nets, y.H.netOf e = .ok n ∧ n.id = e := by
    intro e he
    have he := (hord _).mem_iff.1 he
    rcases (hS.nets e).1 he with he | ⟨v, hv, he⟩
    · cases he
    · obtain ⟨n, hn1, hn2, -⟩ := w0.inc_net v (hI.left.mem (hS.left.mem_sent hv)) e he
      obtain ⟨n', hn3, hn4, -⟩ := hL.isNet (n := n) hn1
      obtain ⟨j, hj⟩ := List.getElem?_of_mem hn3
      have := hL.wf.netOf_of_get (j := j) hj
      exact ⟨n', hn3, by rw [← hn2, ← hn4]; exact this, hn4.trans hn2⟩
  have : Inhabited Net := ⟨Net.mk' 0 []⟩
  choose! g hg1 hg2 hg3 using hnets
  have hcs : (ord y.nets).mapM (fun n => do
      let net ← y.H.netOf n
      send p t (n, net.cost)) = .ok ((ord y.nets).map (fun e => (t, (e, (g e).cost)))) := by
    apply mapM_ok
    intro e he
    rw [hg2 e he, ok_bind]
    unfold send
    rw [if_pos ht]
  refine ⟨SurplusState.mk y.H y.index (x.own + y.sent) 0 t y.out
    (x.costs ++ (ord y.nets).map (fun e => (t, (e, (g e).cost)))), new ++ vs.map (fun v => (t, v)),
    cs ++ (ord y.nets).map (fun e => (t, (e, (g e).cost))), ?_, ?_, ?_⟩
  · unfold sendTo
    dsimp only
    rw [← hmx, hy, ok_bind, hcs, ok_bind]
    rfl
  · have hsent : y.sent = (vs.map (·.weight)).sum := by rw [hS.sent]; simp
    have hen := hS.enough
    have hR := record_snoc (pre.map sur) (sur t)
    have hr := hI.top
    have ho := hI.others hown
    have hsum : (pre.map sur ++ [sur t]).sum = (pre.map sur).sum + sur t := by simp
    have hrn := record_nonneg (pre.map sur)
    refine ⟨hL, hS.scanned, ?_, ?_, ?_, ?_, ?_, ?_, ?_, ?_, ?_⟩
    · show y.out = _
      rw [hS.out]
      show x.verts ++ _ = _
      rw [hI.verts, List.append_assoc]
    · show x.costs ++ _ = _
      rw [hI.costs, List.append_assoc]
    · intro m hm
      rcases List.mem_append.1 hm with hm | hm
      · obtain ⟨h1, h2, h3⟩ := hI.mem m hm
        exact ⟨h1, by simp [h2], h3⟩
      · obtain ⟨v, hv, rfl⟩ := List.mem_map.1 hm
        exact ⟨hS.lab v hv, by simp, hst⟩
    · intro m hm e he
      rcases List.mem_append.1 hm with hm | hm
      · obtain ⟨c, hc⟩ := hI.net1 m hm e he
        exact ⟨c, List.mem_append_left _ hc⟩
      · obtain ⟨v, hv, rfl⟩ := List.mem_map.1 hm
        refine ⟨(g e).cost, List.mem_append_right _ ?_⟩
        exact List.mem_map.2 ⟨e, (hord _).mem_iff.2 ((hS.nets e).2 (Or.inr ⟨v, hv, he⟩)), rfl⟩
    · intro m hm
      rcases List.mem_append.1 hm with hm | hm
      · obtain ⟨h1, h2⟩ := hI.net2 m hm
        exact ⟨by simp [h1], h2⟩
      · obtain ⟨e, he, rfl⟩ := List.mem_map.1 hm
        obtain ⟨n, hn1, hn2, hn3⟩ := hL.wasNet (hg1 e he)
        exact ⟨by simp, n, hn1, hn2.trans (hg3 e he), hn3⟩
    · show x.own + y.sent = _
      have : ((vs.map (fun v => (t, v))).map (·.2)).map (·.weight) = vs.map (·.weight) := by
        simp [List.map_map, Function.comp_def]
      rw [List.map_append, List.map_append, List.sum_append, hownx, hsent, this]
      omega
    · show min (record ((pre ++ [t]).map sur)) (-own0) ≤ x.own + y.sent - own0
      rw [List.map_append, List.map_singleton, hR, hsum]
      omega
    · intro _
      show (0 : Int) = _
      rw [List.map_append, List.map_singleton, hR, hsum]
      omega
    · intro hW h1W a t' b hab
      rw [amount_append]
      by_cases htt : t' = t
      · subst htt
        have hpa : a = pre ∧ b = [] := by
          have hb : b = [] := by
            rcases List.eq_nil_or_concat b with h | ⟨b', z, rfl⟩
            · exact h
            · exfalso
              have h1 : pre ++ [t'] = (a ++ t' :: b') ++ [z] := by rw [hab]; simp
              have := (List.append_inj' h1 rfl).1
              exact htp (by rw [this]; simp)
          subst hb
          exact ⟨((List.append_inj' hab rfl).1).symm, rfl⟩
        obtain ⟨rfl, rfl⟩ := hpa
        rw [amount_none (fun m hm => by
          intro h
          exact htp (h ▸ (hI.mem m hm).2.1)), amount_all, ← hsent]
        have := hS.few (fun v hv => hW v (hI.left.mem hv)) (by show (0 : Int) < mx + W; omega)
        unfold share
        rw [hR, hsum]
        omega
      · have : ∃ b', pre = a ++ t' :: b' := by
          rcases List.eq_nil_or_concat b with rfl | ⟨b', z, rfl⟩
          · exact absurd (by simpa using (List.append_inj' hab rfl).2.symm) htt
          · exact ⟨b', by
              have h1 : pre ++ [t] = (a ++ t' :: b') ++ [z] := by rw [hab]; simp
              exact (List.append_inj' h1 rfl).1⟩
        obtain ⟨b', hb'⟩ := this
        have h2 := hI.amt hW h1W a t' b' hb'
        have h3 : amount (vs.map (fun v => (t, v))) t' = 0 := amount_none (by
          intro m hm
          obtain ⟨v, hv, rfl⟩ := List.mem_map.1 hm
          exact fun h => htt h.symm)
        omega
  · rfl

theorem surplusLoop_ok {ord : List Nat → List Nat} (hord : ∀ l, (ord l).Perm l) {p s : Nat} (hs : s < p)
    {label : Int} {surplus : List Int} {sur : Nat → Int} (hsur : ∀ t, t < p → surplus[t]? = some (sur t))
    {W : Int} {H0 : Hypergraph} {own0 : Int} {verts0 : List (Nat × Vertex)}
    {costs0 : List (Nat × (Nat × Int))} (w0 : WF H0.updateMap)
    (hn : ∀ v ∈ H0.vertices, 0 ≤ v.weight) (h0 : -own0 ≤ partSum H0.vertices label) :
    ∀ (f : Nat) (pre : List Nat) (x : SurplusState) (new : List (Nat × Vertex))
      (cs : List (Nat × (Nat × Int))), LoopInv p s label sur W H0 own0 verts0 costs0 pre x new cs →
      x.t ≤ p → (pre ++ ringFrom p s x.t).Nodup → (ringFrom p s x.t).length < f →
    ∃ x' r pre' rest' new' cs', surplusLoop ord p s label surplus f x = .ok (x', r) ∧
      pre ++ ringFrom p s x.t = pre' ++ rest' ∧
      LoopInv p s label sur W H0 own0 verts0 costs0 pre' x' new' cs' ∧
      ((0 ≤ x'.own ∧ r = 0) ∨ (x'.own < 0 ∧ r = -1 ∧ rest' = [])) := by
  intro f
  induction f with
  | zero => intro pre x new cs _ _ _ hf; omega
  | succ f ih =>
    intro pre x new cs hI ht hnd hf
    unfold surplusLoop
    by_cases hown : x.own < 0
    · rw [if_pos hown]
      dsimp only
      rcases ring_step hs ht with ⟨h1, h2⟩ | ⟨h1, h2, h3⟩
      · rw [if_pos h2]
        exact ⟨x, -1, pre, [], new, cs, rfl, by rw [h1], hI, Or.inr ⟨hown, rfl, rfl⟩⟩
      · rw [if_neg h1]
        generalize (if x.t ≥ p then 0 else x.t) = t at h1 h2 h3 ⊢
        rw [vget_ok (hsur t h2), ok_bind]
        rw [h3] at hnd hf
        have htp : t ∉ pre := by
          intro h
          exact (List.disjoint_of_nodup_append hnd) h (by simp)
        have happ : pre ++ ringFrom p s x.t = (pre ++ [t]) ++ ringFrom p s (t + 1) := by
          rw [h3]; simp
        have ho := hI.others hown
        have hle := sum_le_record (pre.map sur)
        unfold runIf
        by_cases hc : sur t > 0 ∧ x.others + sur t > 0
        · rw [if_pos hc]
          obtain ⟨x', new', cs', hx', hI', ht'⟩ := sendTo_ok hord w0 hI hn h0 h2 htp hown hc.1 hc.2
          rw [hx', ok_bind]
          obtain ⟨x'', r, pre', rest', new'', cs'', h4, h5, h6, h7⟩ := ih (pre ++ [t]) { x' with t := t + 1 } new' cs'
            { left := hI'.left, scanned := hI'.scanned, verts := hI'.verts, costs := hI'.costs, mem := hI'.mem,
              net1 := hI'.net1, net2 := hI'.net2, own := hI'.own, top := hI'.top, others := hI'.others,
              amt := hI'.amt } (by show t + 1 ≤ p; omega)
            (by simpa using hnd) (by simp at hf ⊢; omega)
          exact ⟨x'', r, pre', rest', new'', cs'', h4, by rw [happ]; exact h5, h6, h7⟩
        · rw [if_neg hc, ok_bind]
          have hR := record_snoc (pre.map sur) (sur t)
          have hsum : (pre.map sur ++ [sur t]).sum = (pre.map sur).sum + sur t := by simp
          have hR' : record ((pre ++ [t]).map sur) = record (pre.map sur) := by
            rw [List.map_append, List.map_singleton, hR, hsum]
            omega
          obtain ⟨x'', r, pre', rest', new'', cs'', h4, h5, h6, h7⟩ := ih (pre ++ [t])
            { x with t := t + 1, others := x.others + sur t } new cs
            { left := hI.left, scanned := hI.scanned, verts := hI.verts, costs := hI.costs
              mem := fun m hm => by
                obtain ⟨h1, h2, h3⟩ := hI.mem m hm
                exact ⟨h1, by simp [h2], h3⟩
              net1 := hI.net1
              net2 := fun m hm => by
                obtain ⟨h1, h2⟩ := hI.net2 m hm
                exact ⟨by simp [h1], h2⟩
              own := hI.own
              top := by rw [hR']; exact hI.top
              others := fun _ => by
                show x.others + sur t = _
                rw [hR', List.map_append, List.map_singleton, hsum]
                omega
              amt := by
                intro hW h1W a t' b hab
                rcases List.eq_nil_or_concat b with rfl | ⟨b', z, rfl⟩
                · have h1 := List.append_inj' hab rfl
                  obtain ⟨rfl, h2⟩ := h1
                  simp at h2
                  subst h2
                  rw [amount_none (t := t) (fun m hm h => htp (h ▸ (hI.mem m hm).2.1))]
                  have := share_nonneg (-own0) (pre.map sur) (sur t)
                  omega
                · have h1 : pre ++ [t] = (a ++ t' :: b') ++ [z] := by rw [hab]; simp
                  exact hI.amt hW h1W a t' b' (List.append_inj' h1 rfl).1 }
            (by show t + 1 ≤ p; omega)
            (by simpa using hnd) (by simp at hf ⊢; omega)
          exact ⟨x'', r, pre', rest', new'', cs'', h4, by rw [happ]; exact h5, h6, h7⟩
    · rw [if_neg hown]
      exact ⟨x, 0, pre, ringFrom p s x.t, new, cs, rfl, rfl, hI, Or.inl ⟨by omega, rfl⟩⟩

end PMondriaan

import Verif.Model.RecCutPar
import Verif.Spec.Dist
import Verif.Spec.Sizes
import Verif.Proofs.CutNets
import Verif.Proofs.Kept

/-
Adding the cut nets back when their pins have moved to other processors.
-/

namespace PMondriaan

open Spec

/-- The pins of net `e` in a list of nets. -/
def pinsIn (ns : List Net) (e : Nat) : List Nat := (ns.filter (fun n => n.id = e)).flatMap (·.vertices)

theorem pinsIn_append (A B : List Net) (e : Nat) : pinsIn (A ++ B) e = pinsIn A e ++ pinsIn B e := by
  unfold pinsIn; rw [List.filter_append, List.flatMap_append]

theorem pinsIn_perm {A B : List Net} (h : A.Perm B) (e : Nat) : (pinsIn A e).Perm (pinsIn B e) := by
  unfold pinsIn
  exact (h.filter _).flatMap_right _

theorem pinsIn_cons (n : Net) (A : List Net) (e : Nat) :
    pinsIn (n :: A) e = (if n.id = e then n.vertices else []) ++ pinsIn A e := by
  unfold pinsIn
  rw [List.filter_cons]
  by_cases h : n.id = e <;> simp [h]

theorem pinsIn_absent {ns : List Net} {e : Nat} (h : ∀ n ∈ ns, n.id ≠ e) : pinsIn ns e = [] := by
  unfold pinsIn
  rw [List.filter_eq_nil_iff.2 (by intro n hn; simpa using h n hn)]
  rfl

theorem mem_pinsIn {ns : List Net} {e u : Nat} : u ∈ pinsIn ns e ↔ ∃ n ∈ ns, n.id = e ∧ u ∈ n.vertices := by
  unfold pinsIn
  simp only [List.mem_flatMap, List.mem_filter, decide_eq_true_eq]
  constructor
  · rintro ⟨n, ⟨a, b⟩, c⟩; exact ⟨n, a, b, c⟩
  · rintro ⟨n, a, b, c⟩; exact ⟨n, ⟨a, b⟩, c⟩

theorem unionPins_pinsIn (Hs : List Hypergraph) (e : Nat) : unionPins Hs e = Hs.flatMap (fun H => pinsIn H.nets e) := rfl

/-- A net that was set aside, with the pins that are still local. -/
def keepLocal (H : Hypergraph) (n : Net) : Net := { n with vertices := n.vertices.filter (fun v => H.isLocal v) }

/-- The messages about the pins that are not local any more. -/
def awayMsgs (H : Hypergraph) (cut : List Net) : List (Nat × Nat × Int) :=
  cut.flatMap (fun n => (n.vertices.filter (fun v => !H.isLocal v)).map (fun v => (n.id, v, n.cost)))

theorem isLocal_addNet (H : Hypergraph) (id : Nat) (vs : List Nat) (c : Int) (u : Nat) :
    (H.addNet id vs c).isLocal u = H.isLocal u := by
  unfold Hypergraph.isLocal Hypergraph.addNet
  split <;> rfl

theorem toAll_append {M : Type} (p : Nat) (a b : List M) : toAll p (a ++ b) = toAll p a ++ toAll p b := by
  unfold toAll; rw [List.flatMap_append]

theorem addCut_out (p : Nat) (H0 : Hypergraph) : ∀ (cut : List Net) (H : Hypergraph) (out),
    (∀ u, H.isLocal u = H0.isLocal u) → (∀ n ∈ cut, n.vertices ≠ []) →
    cut.foldl (addCutStep p) (H, out) =
      (addedBack H (cut.map (keepLocal H0)), out ++ toAll p (awayMsgs H0 cut)) := by
  intro cut
  induction cut with
  | nil => intro H out _ _; simp [addedBack, awayMsgs, toAll]
  | cons n cut ih =>
    intro H out hl hne
    have hstep : addCutStep p (H, out) n = (H.addNet n.id (keepLocal H0 n).vertices n.cost,
        out ++ toAll p ((n.vertices.filter (fun v => !H0.isLocal v)).map (fun v => (n.id, v, n.cost)))) := by
      unfold addCutStep keepLocal
      simp only [hl]
      rw [if_pos (List.length_pos_iff.2 (hne n (by simp)))]
    rw [List.foldl_cons, hstep, ih _ _ (fun u => by rw [isLocal_addNet, hl]) (fun m hm => hne m (by simp [hm]))]
    refine Prod.ext ?_ ?_
    · rfl
    · simp only
      rw [List.append_assoc, ← toAll_append]
      rfl

theorem toAll_at {M : Type} {p t : Nat} (ht : t < p) (ms : List M) :
    ((toAll p ms).filter (fun x => x.1 = t)).map (·.2) = ms := by
  have hr : ∀ p, t < p → (List.range p).filter (fun s => decide (s = t)) = [t] := by
    intro p
    induction p with
    | zero => intro h; omega
    | succ p ih =>
      intro h
      rw [List.range_succ, List.filter_append]
      by_cases hp : p = t
      · subst hp
        have : (List.range p).filter (fun s => decide (s = p)) = [] := by
          rw [List.filter_eq_nil_iff]
          intro s hs
          have := List.mem_range.1 hs
          simp; omega
        rw [this]; simp
      · rw [ih (by omega)]; simp [hp]
  induction ms with
  | nil => rfl
  | cons m ms ih =>
    have e : toAll p (m :: ms) = (List.range p).map (fun t => (t, m)) ++ toAll p ms := by
      unfold toAll; rw [List.flatMap_cons]
    rw [e, List.filter_append, List.map_append, ih, List.filter_map]
    have : (List.range p).filter ((fun x : Nat × M => decide (x.1 = t)) ∘ fun t => (t, m)) = [t] := hr p ht
    rw [this]
    rfl

/-- The received messages, up to their order. -/
theorem inbox_toEvery {M : Type} {d : Delivery M} (hd : Fair d) {p t : Nat} (ht : t < p) (mss : List (List M)) :
    (inbox d (mss.map (toAll p)) t).Perm mss.flatten := by
  refine (inbox_perm hd _ t).trans (List.Perm.of_eq ?_)
  induction mss with
  | nil => rfl
  | cons ms mss ih =>
    rw [List.map_cons, List.flatten_cons, List.flatten_cons, List.filter_append, List.map_append, toAll_at ht, ih]

/-! ### The received pins -/

/-- id, weight and part of a vertex. -/
def coreKey (v : Vertex) : Nat × Int × Int := (v.id, v.weight, v.part)

/-- Hypergraph `H` plus the received pins `ms`. -/
structure PinsAdded (H : Hypergraph) (ms : List (Nat × Nat × Int)) (H' : Hypergraph) : Prop where
  core : H'.vertices.map coreKey = H.vertices.map coreKey
  vmap : H'.vmap = H.vmap
  nids : (H'.nets.map (·.id)).Nodup
  nmap : ∀ e j, H'.nmap e = some j ↔ (H'.nets.map (·.id))[j]? = some e
  pins : ∀ e, (pinsIn H'.nets e).Perm (pinsIn H.nets e ++
    (ms.filter (fun m => m.1 = e ∧ H.isLocal m.2.1 = true)).map (·.2.1))
  nets : ∀ e, IsNet H' e ↔ IsNet H e ∨ ∃ m ∈ ms, m.1 = e ∧ H.isLocal m.2.1 = true
  costs : ∀ n ∈ H'.nets, (∃ m ∈ H.nets, m.id = n.id ∧ m.cost = n.cost) ∨ ∃ m ∈ ms, m.1 = n.id ∧ m.2.2 = n.cost
  lists : ∀ v ∈ H'.vertices, ∀ e ∈ v.nets, ∃ n ∈ H'.nets, n.id = e ∧ v.id ∈ n.vertices
  sizes : sizes H' = sizes H
  vnets : ∀ (i : Nat) (v' : Vertex), H'.vertices[i]? = some v' → ∃ v, H.vertices[i]? = some v ∧ v'.id = v.id ∧
    ∀ e, e ∈ v'.nets ↔ e ∈ v.nets ∨ ∃ m ∈ ms, m.1 = e ∧ m.2.1 = v.id

/-- The first half of a step: the pin is added to the net. -/
theorem addPin_ok {H : Hypergraph} (hn : (H.nets.map (·.id)).Nodup)
    (hm : ∀ e j, H.nmap e = some j ↔ (H.nets.map (·.id))[j]? = some e) (m : Nat × Nat × Int) :
    ∃ H1, (if H.isLocalNet m.1 then
        H.modifyNet m.1 (fun n => { n with vertices := n.vertices ++ [m.2.1] })
      else (pure (H.addNet m.1 [m.2.1] m.2.2) : Res Hypergraph)) = .ok H1 ∧
      H1.vertices = H.vertices ∧ H1.vmap = H.vmap ∧ (H1.nets.map (·.id)).Nodup ∧
      (∀ e j, H1.nmap e = some j ↔ (H1.nets.map (·.id))[j]? = some e) ∧
      (∀ e, (pinsIn H1.nets e).Perm (pinsIn H.nets e ++ if m.1 = e then [m.2.1] else [])) ∧
      (∀ e, IsNet H1 e ↔ IsNet H e ∨ m.1 = e) ∧
      (∀ n ∈ H1.nets, (∃ n0 ∈ H.nets, n0.id = n.id ∧ n0.cost = n.cost) ∨ m.1 = n.id ∧ m.2.2 = n.cost) ∧
      (∀ e u, (∃ n ∈ H.nets, n.id = e ∧ u ∈ n.vertices) → ∃ n ∈ H1.nets, n.id = e ∧ u ∈ n.vertices) ∧
      (∃ n ∈ H1.nets, n.id = m.1 ∧ m.2.1 ∈ n.vertices) ∧ sizes H1 = sizes H := by
  cases hj : H.nmap m.1 with
  | some j =>
    have hloc : H.isLocalNet m.1 = true := by unfold Hypergraph.isLocalNet; rw [hj]; rfl
    rw [if_pos hloc]
    have hj' := (hm _ _).1 hj
    rw [List.getElem?_map] at hj'
    obtain ⟨n, hnj, hid⟩ := Option.map_eq_some_iff.1 hj'
    have hid : n.id = m.1 := hid
    obtain ⟨hjl, hnj'⟩ := List.getElem?_eq_some_iff.1 hnj
    obtain ⟨n', hn'⟩ : ∃ n' : Net, n' = { n with vertices := n.vertices ++ [m.2.1] } := ⟨_, rfl⟩
    have hid' : n'.id = n.id := by rw [hn']
    have hmod : H.modifyNet m.1 (fun n => { n with vertices := n.vertices ++ [m.2.1] }) =
        .ok (H.setNet j n') := by
      unfold Hypergraph.modifyNet
      rw [hj]
      dsimp only
      rw [hnj, hn']
    rw [hmod]
    obtain ⟨A, B, hAB, hlen, hset⟩ := List.exists_of_set (a' := n') hjl
    rw [hnj'] at hAB
    have e1 : (H.setNet j n').nets = A ++ n' :: B := hset
    have eids : (H.setNet j n').nets.map (·.id) = H.nets.map (·.id) := by
      rw [e1, hAB, List.map_append, List.map_append, List.map_cons, List.map_cons, hid']
    refine ⟨_, rfl, rfl, rfl, by rw [eids]; exact hn, by rw [eids]; exact hm, ?_, ?_, ?_, ?_, ?_, rfl⟩
    · intro e
      rw [e1, hAB, pinsIn_append, pinsIn_append, pinsIn_cons, pinsIn_cons, hid', ← hid]
      by_cases he : n.id = e
      · rw [if_pos he, if_pos he, if_pos he, hn']
        dsimp only
        rw [List.append_assoc, List.append_assoc, List.append_assoc]
        refine List.Perm.append_left _ (List.Perm.append_left _ ?_)
        exact List.perm_append_comm
      · rw [if_neg he, if_neg he, if_neg he, List.append_nil]
    · intro e
      unfold IsNet
      rw [eids]
      constructor
      · exact Or.inl
      · rintro (h | rfl)
        · exact h
        · rw [← hid]; exact List.mem_map.2 ⟨n, by rw [hAB]; simp, rfl⟩
    · intro x hx
      left
      rw [e1] at hx
      rw [hAB]
      rcases List.mem_append.1 hx with hx | hx
      · exact ⟨x, by simp [hx], rfl, rfl⟩
      · rcases List.mem_cons.1 hx with rfl | hx
        · exact ⟨n, by simp, hid'.symm, by rw [hn']⟩
        · exact ⟨x, by simp [hx], rfl, rfl⟩
    · rintro e u ⟨x, hx, hxe, hxu⟩
      rw [hAB] at hx
      rw [e1]
      rcases List.mem_append.1 hx with hx | hx
      · exact ⟨x, by simp [hx], hxe, hxu⟩
      · rcases List.mem_cons.1 hx with rfl | hx
        · exact ⟨n', by simp, hid'.trans hxe, by rw [hn']; simp [hxu]⟩
        · exact ⟨x, by simp [hx], hxe, hxu⟩
    · exact ⟨n', by rw [e1]; simp, hid'.trans hid, by rw [hn']; simp⟩
  | none =>
    have hloc : H.isLocalNet m.1 = false := by unfold Hypergraph.isLocalNet; rw [hj]; rfl
    rw [if_neg (by rw [hloc]; simp)]
    have hnot : m.1 ∉ H.nets.map (·.id) := by
      intro h
      obtain ⟨j, h⟩ := List.mem_iff_getElem?.1 h
      rw [← hm, hj] at h
      cases h
    have hadd : H.addNet m.1 [m.2.1] m.2.2 = { H with
        nets := H.nets ++ [Net.mk' m.1 [m.2.1] m.2.2], nmap := mapSet H.nmap m.1 H.nets.length } := by
      unfold Hypergraph.addNet
      rw [hj]
      rfl
    rw [hadd]
    have hmap : ∀ e j, mapSet H.nmap m.1 H.nets.length e = some j ↔
        ((H.nets ++ [Net.mk' m.1 [m.2.1] m.2.2]).map (·.id))[j]? = some e := by
      have := push_map hm hnot
      simpa [Net.mk'] using this
    refine ⟨_, rfl, rfl, rfl, ?_, hmap, ?_, ?_, ?_, ?_, ?_, rfl⟩
    · show ((H.nets ++ [Net.mk' m.1 [m.2.1] m.2.2]).map (·.id)).Nodup
      rw [List.map_append, List.nodup_append]
      refine ⟨hn, by simp, ?_⟩
      intro a ha b hb hab
      simp only [List.map_cons, List.map_nil, List.mem_singleton, Net.mk'] at hb
      rw [hab, hb] at ha
      exact hnot ha
    · intro e
      show (pinsIn (H.nets ++ [Net.mk' m.1 [m.2.1] m.2.2]) e).Perm _
      rw [pinsIn_append, pinsIn_cons]
      by_cases he : m.1 = e <;> simp [pinsIn, Net.mk', he]
    · intro e
      unfold IsNet
      show e ∈ (H.nets ++ [Net.mk' m.1 [m.2.1] m.2.2]).map (·.id) ↔ _
      rw [List.map_append, List.mem_append]
      simp [Net.mk', eq_comm]
    · intro x hx
      rcases List.mem_append.1 hx with hx | hx
      · exact Or.inl ⟨x, hx, rfl, rfl⟩
      · right
        rw [List.mem_singleton] at hx
        rw [hx]
        exact ⟨rfl, rfl⟩
    · rintro e u ⟨x, hx, hxe, hxu⟩
      exact ⟨x, List.mem_append_left _ hx, hxe, hxu⟩
    · exact ⟨_, List.mem_append_right _ (List.mem_singleton.2 rfl), rfl, by simp [Net.mk']⟩

theorem addCutMsg_ok {H0 : Hypergraph} (hv : ∀ u i, H0.vmap u = some i ↔ (H0.vertices.map (·.id))[i]? = some u)
    {pre : List (Nat × Nat × Int)} {H : Hypergraph} (hI : PinsAdded H0 pre H) (m : Nat × Nat × Int) :
    ∃ H', addCutMsg H m = .ok H' ∧ PinsAdded H0 (pre ++ [m]) H' := by
  have hlocal : H.isLocal m.2.1 = H0.isLocal m.2.1 := by unfold Hypergraph.isLocal; rw [hI.vmap]
  have hu : addCutMsg H m = if H.isLocal m.2.1 then
      (if H.isLocalNet m.1 then
        H.modifyNet m.1 (fun n => { n with vertices := n.vertices ++ [m.2.1] })
      else (pure (H.addNet m.1 [m.2.1] m.2.2) : Res Hypergraph)) >>= (fun H1 => do
        let i ← H1.localId m.2.1
        let v ← H1.vertexAt i
        pure (H1.setVertex i { v with nets := v.nets ++ [m.1] }))
      else pure H := by
    unfold addCutMsg
    split
    · split <;> rfl
    · rfl
  rw [hu]
  by_cases hl : H0.isLocal m.2.1 = true
  swap
  · rw [if_neg (by rw [hlocal]; exact hl)]
    refine ⟨H, rfl, hI.core, hI.vmap, hI.nids, hI.nmap, ?_, ?_, ?_, hI.lists, hI.sizes, ?_⟩
    · intro e
      rw [List.filter_append]
      have : [m].filter (fun m => decide (m.1 = e ∧ H0.isLocal m.2.1 = true)) = [] := by
        simp [hl]
      rw [this, List.append_nil]
      exact hI.pins e
    · intro e
      rw [hI.nets]
      refine or_congr_right ⟨?_, ?_⟩
      · rintro ⟨x, hx, h⟩; exact ⟨x, by simp [hx], h⟩
      · rintro ⟨x, hx, h⟩
        rcases List.mem_append.1 hx with hx | hx
        · exact ⟨x, hx, h⟩
        · rw [List.mem_singleton] at hx
          rw [hx] at h
          exact absurd h.2 hl
    · intro n hn
      rcases hI.costs n hn with h | ⟨x, hx, h⟩
      · exact Or.inl h
      · exact Or.inr ⟨x, by simp [hx], h⟩
    · intro j v' hv'
      obtain ⟨v, h1, h2, h3⟩ := hI.vnets j v' hv'
      refine ⟨v, h1, h2, fun e => ?_⟩
      rw [h3]
      refine or_congr_right ⟨?_, ?_⟩
      · rintro ⟨x, hx, h⟩; exact ⟨x, by simp [hx], h⟩
      · rintro ⟨x, hx, h⟩
        rcases List.mem_append.1 hx with hx | hx
        · exact ⟨x, hx, h⟩
        · rw [List.mem_singleton] at hx
          rw [hx] at h
          refine absurd ?_ hl
          unfold Hypergraph.isLocal
          rw [(hv m.2.1 j).2 (by rw [List.getElem?_map, h1, h.2]; rfl)]
          rfl
  rw [if_pos (by rw [hlocal]; exact hl)]
  obtain ⟨H1, h1, v1, vm1, n1, m1, p1, i1, c1, k1, q1, s1⟩ := addPin_ok hI.nids hI.nmap m
  rw [h1, ok_bind]
  have hids : H.vertices.map (·.id) = H0.vertices.map (·.id) := by
    have := congrArg (List.map Prod.fst) hI.core
    rw [List.map_map, List.map_map] at this
    exact this
  obtain ⟨i, hi⟩ := Option.isSome_iff_exists.1 hl
  have hi' := (hv _ _).1 hi
  rw [← hids, List.getElem?_map] at hi'
  obtain ⟨v, hvi, hvid⟩ := Option.map_eq_some_iff.1 hi'
  have hvid : v.id = m.2.1 := hvid
  have hil : i < H.vertices.length := (List.getElem?_eq_some_iff.1 hvi).1
  have hlid : H1.localId m.2.1 = .ok i := by
    unfold Hypergraph.localId
    rw [vm1, hI.vmap, hi]
    dsimp only
    rw [if_pos (by rw [v1]; exact hil)]
  have hat : H1.vertexAt i = .ok v := by
    unfold Hypergraph.vertexAt
    rw [v1, hvi]
  rw [hlid, ok_bind, hat, ok_bind]
  refine ⟨_, rfl, ?_, ?_, n1, m1, ?_, ?_, ?_, ?_, ?_, ?_⟩
  · show (H1.vertices.set i { v with nets := v.nets ++ [m.1] }).map coreKey = _
    rw [v1, ← hI.core, List.map_set]
    apply List.ext_getElem?
    intro j
    rw [List.getElem?_set]
    by_cases hij : i = j
    · subst hij
      rw [if_pos rfl, if_pos (by rw [List.length_map]; exact hil), List.getElem?_map, hvi]
      rfl
    · rw [if_neg hij]
  · exact vm1.trans hI.vmap
  · intro e
    refine (p1 e).trans ?_
    rw [List.filter_append, List.map_append, ← List.append_assoc]
    refine (hI.pins e).append (List.Perm.of_eq ?_)
    by_cases he : m.1 = e <;> simp [he, hl]
  · intro e
    rw [show IsNet (H1.setVertex i { v with nets := v.nets ++ [m.1] }) e ↔ IsNet H1 e from Iff.rfl, i1, hI.nets]
    constructor
    · rintro ((h | ⟨x, hx, h⟩) | h)
      · exact Or.inl h
      · exact Or.inr ⟨x, by simp [hx], h⟩
      · exact Or.inr ⟨m, by simp, h, hl⟩
    · rintro (h | ⟨x, hx, h⟩)
      · exact Or.inl (Or.inl h)
      · rcases List.mem_append.1 hx with hx | hx
        · exact Or.inl (Or.inr ⟨x, hx, h⟩)
        · rw [List.mem_singleton] at hx
          rw [hx] at h
          exact Or.inr h.1
  · intro n hn
    rcases c1 n hn with ⟨n0, h0, a, b⟩ | h
    · rcases hI.costs n0 h0 with ⟨x, hx, a', b'⟩ | ⟨x, hx, a', b'⟩
      · exact Or.inl ⟨x, hx, a'.trans a, b'.trans b⟩
      · exact Or.inr ⟨x, by simp [hx], a'.trans a, b'.trans b⟩
    · exact Or.inr ⟨m, by simp, h⟩
  · intro x hx e he
    show ∃ n ∈ H1.nets, n.id = e ∧ x.id ∈ n.vertices
    have hx : x ∈ H1.vertices.set i { v with nets := v.nets ++ [m.1] } := hx
    rcases List.mem_or_eq_of_mem_set hx with hx | rfl
    · rw [v1] at hx
      exact k1 _ _ (hI.lists x hx e he)
    · dsimp only at he ⊢
      rcases List.mem_append.1 he with he | he
      · exact k1 _ _ (hI.lists v (List.mem_of_getElem? hvi) e he)
      · rw [List.mem_singleton] at he
        obtain ⟨n, a, b, c⟩ := q1
        exact ⟨n, a, b.trans he.symm, by rw [hvid]; exact c⟩
  · exact s1.trans hI.sizes
  · intro j v' hv'
    have hv' : (H1.vertices.set i { v with nets := v.nets ++ [m.1] })[j]? = some v' := hv'
    rw [v1, List.getElem?_set] at hv'
    by_cases hij : i = j
    · subst hij
      rw [if_pos rfl, if_pos hil] at hv'
      injection hv' with hv'
      obtain ⟨v0, a, b, c⟩ := hI.vnets i v hvi
      refine ⟨v0, a, by rw [← hv']; exact b, fun e => ?_⟩
      rw [← hv']
      dsimp only
      rw [List.mem_append, c, List.mem_singleton]
      constructor
      · rintro ((h | ⟨x, hx, h⟩) | h)
        · exact Or.inl h
        · exact Or.inr ⟨x, by simp [hx], h⟩
        · exact Or.inr ⟨m, by simp, h.symm, by rw [← b, hvid]⟩
      · rintro (h | ⟨x, hx, h⟩)
        · exact Or.inl (Or.inl h)
        · rcases List.mem_append.1 hx with hx | hx
          · exact Or.inl (Or.inr ⟨x, hx, h⟩)
          · rw [List.mem_singleton] at hx
            rw [hx] at h
            exact Or.inr h.1.symm
    · rw [if_neg hij] at hv'
      obtain ⟨v0, a, b, c⟩ := hI.vnets j v' hv'
      refine ⟨v0, a, b, fun e => ?_⟩
      rw [c]
      refine or_congr_right ⟨?_, ?_⟩
      · rintro ⟨x, hx, h⟩; exact ⟨x, by simp [hx], h⟩
      · rintro ⟨x, hx, h⟩
        rcases List.mem_append.1 hx with hx | hx
        · exact ⟨x, hx, h⟩
        · rw [List.mem_singleton] at hx
          rw [hx] at h
          have := (hv m.2.1 j).2 (by rw [List.getElem?_map, a, h.2]; rfl)
          rw [hi] at this
          injection this with this
          exact absurd this hij

theorem addCutMsgs_ok {H0 : Hypergraph} (hv : ∀ u i, H0.vmap u = some i ↔ (H0.vertices.map (·.id))[i]? = some u)
    (hn : (H0.nets.map (·.id)).Nodup) (hm : ∀ e j, H0.nmap e = some j ↔ (H0.nets.map (·.id))[j]? = some e)
    (hl : ∀ v ∈ H0.vertices, ∀ e ∈ v.nets, ∃ n ∈ H0.nets, n.id = e ∧ v.id ∈ n.vertices)
    (ms : List (Nat × Nat × Int)) : ∃ H', ms.foldlM addCutMsg H0 = .ok H' ∧ PinsAdded H0 ms H' := by
  refine foldlM_inv (f := addCutMsg) (fun pre _ H => PinsAdded H0 pre H) ms H0 ?_ ?_
  · refine ⟨rfl, rfl, hn, hm, fun e => by simp, fun e => by simp, fun n h => Or.inl ⟨n, h, rfl, rfl⟩, hl, rfl,
      fun i v' h => ⟨v', h, rfl, fun e => by simp⟩⟩
  · intro pre a post H hI _
    exact addCutMsg_ok hv hI a

end PMondriaan

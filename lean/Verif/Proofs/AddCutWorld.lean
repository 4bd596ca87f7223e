import Verif.Proofs.AddCut
import Verif.Spec.RecCutPar

/-
Adding the cut nets back, on all processors.
-/

namespace PMondriaan

open Spec

/-- All nets of a processor: those in the hypergraph and those that were set aside. -/
def wide (x : Hypergraph × List Net) : List Net := x.1.nets ++ x.2

/-- The nets with ids in `G` have been set aside, on all processors. -/
structure CutInv (G : List Nat) (xs : List (Hypergraph × List Net)) : Prop where
  live : ∀ x ∈ xs, ∀ n ∈ x.1.nets, n.id ∉ G
  gone : ∀ x ∈ xs, ∀ n ∈ x.2, n.id ∈ G
  nodup : ∀ x ∈ xs, (x.2.map (·.id)).Nodup
  pins : ∀ x ∈ xs, ∀ n ∈ x.2, n.vertices ≠ []

/-- Every element satisfies the condition of exactly one index. -/
theorem distribute_perm {α β : Type} (L : α → β → Bool) (ys : List α) : ∀ M : List β,
    (∀ u ∈ M, ys.countP (fun y => L y u) = 1) → (ys.flatMap (fun y => M.filter (L y))).Perm M := by
  intro M
  induction M with
  | nil =>
    intro _
    have : ys.flatMap (fun y => ([] : List β).filter (L y)) = [] := by simp
    rw [this]
  | cons u M ih =>
    intro h
    have h1 : (ys.flatMap (fun y => (u :: M).filter (L y))).Perm
        (ys.flatMap (fun y => if L y u then [u] else []) ++ ys.flatMap (fun y => M.filter (L y))) := by
      clear ih h
      induction ys with
      | nil => exact .refl _
      | cons y ys ih =>
        rw [List.flatMap_cons, List.flatMap_cons, List.flatMap_cons, List.filter_cons]
        have e : (if L y u = true then u :: M.filter (L y) else M.filter (L y)) =
            (if L y u then [u] else []) ++ M.filter (L y) := by
          cases L y u <;> rfl
        rw [e, List.append_assoc, List.append_assoc]
        refine List.Perm.append_left _ ?_
        refine (List.Perm.append_left _ ih).trans ?_
        rw [← List.append_assoc, ← List.append_assoc]
        exact List.perm_append_comm.append_right _
    refine h1.trans ?_
    have h2 : ys.flatMap (fun y => if L y u then [u] else []) = List.replicate (ys.countP (fun y => L y u)) u := by
      clear ih h h1
      induction ys with
      | nil => rfl
      | cons y ys ih =>
        rw [List.flatMap_cons, ih, List.countP_cons]
        cases hL : L y u
        · simp
        · simp [List.replicate_succ]
    rw [h2, h u (by simp)]
    exact (ih (fun x hx => h x (by simp [hx]))).cons u

/-- The pins that stayed and the pins that moved. -/
theorem pins_back {α β : Type} (L : α → β → Bool) (c : α → List β) (ys : List α)
    (h : ∀ y ∈ ys, ∀ u ∈ c y, ys.countP (fun y => L y u) = 1) :
    (ys.flatMap (fun y => (c y).filter (L y) ++
      (ys.flatMap (fun x => (c x).filter (fun u => !L x u))).filter (L y))).Perm (ys.flatMap c) := by
  have h1 : ∀ (zs : List α) (A B : α → List β),
      (zs.flatMap (fun y => A y ++ B y)).Perm (zs.flatMap A ++ zs.flatMap B) := by
    intro zs A B
    induction zs with
    | nil => exact .refl _
    | cons y zs ih =>
      rw [List.flatMap_cons, List.flatMap_cons, List.flatMap_cons, List.append_assoc, List.append_assoc]
      refine List.Perm.append_left _ ?_
      refine (List.Perm.append_left _ ih).trans ?_
      rw [← List.append_assoc, ← List.append_assoc]
      exact List.perm_append_comm.append_right _
  refine (h1 ys _ _).trans ?_
  refine (List.Perm.append_left _ (distribute_perm L ys _ ?_)).trans ?_
  · intro u hu
    obtain ⟨y, hy, hu⟩ := List.mem_flatMap.1 hu
    exact h y hy u (List.mem_filter.1 hu).1
  · refine (h1 ys _ _).symm.trans ?_
    have : ∀ y, ((c y).filter (L y) ++ (c y).filter (fun u => !L y u)).Perm (c y) :=
      fun y => List.filter_append_perm (L y) (c y)
    clear h
    induction ys with
    | nil => exact .refl _
    | cons y ys ih =>
      rw [List.flatMap_cons, List.flatMap_cons]
      exact (this y).append ih

/-- A vertex is on exactly one processor. -/
theorem countP_local {N : Nat} {ys : List (Hypergraph × List Net)} (hD : Distributed N (ys.map (·.1))) {u : Nat}
    (h : ∃ y ∈ ys, IsVertex y.1 u) : ys.countP (fun y => y.1.isLocal u) = 1 := by
  have hw : ∀ y ∈ ys, WF y.1 := fun y hy => hD.wf _ (List.mem_map_of_mem hy)
  have hd : (((ys.map (·.1)).flatMap (·.vertices)).map (·.id)).Nodup := hD.disjoint
  clear hD
  induction ys with
  | nil => obtain ⟨y, hy, -⟩ := h; cases hy
  | cons y ys ih =>
    rw [List.countP_cons]
    rw [List.map_cons, List.flatMap_cons, List.map_append, List.nodup_append] at hd
    by_cases hy : y.1.isLocal u = true
    · rw [if_pos hy]
      have : ys.countP (fun y => y.1.isLocal u) = 0 := by
        rw [List.countP_eq_zero]
        intro z hz hzl
        have h1 := (isLocal_iff (hw y (by simp)) u).1 hy
        have h2 := (isLocal_iff (hw z (by simp [hz])) u).1 hzl
        refine hd.2.2 u h1 u ?_ rfl
        obtain ⟨v, hv, rfl⟩ := List.mem_map.1 h2
        exact List.mem_map.2 ⟨v, List.mem_flatMap.2 ⟨z.1, List.mem_map_of_mem hz, hv⟩, rfl⟩
      rw [this]
    · rw [if_neg hy, ih ?_ (fun z hz => hw z (by simp [hz])) hd.2.1]
      obtain ⟨z, hz, hzu⟩ := h
      rcases List.mem_cons.1 hz with rfl | hz
      · exact absurd ((isLocal_iff (hw z (by simp)) u).2 hzu) hy
      · exact ⟨z, hz, hzu⟩

/-- What a processor has after the nets are back. -/
structure LocalBack (ys : List (Hypergraph × List Net)) (y : Hypergraph × List Net) (H' : Hypergraph) : Prop where
  core : H'.vertices.map coreKey = y.1.vertices.map coreKey
  vmap : H'.vmap = y.1.vmap
  nids : (H'.nets.map (·.id)).Nodup
  nmap : ∀ e j, H'.nmap e = some j ↔ (H'.nets.map (·.id))[j]? = some e
  here : ∀ n ∈ H'.nets, ∀ u ∈ n.vertices, IsVertex y.1 u
  lists : ∀ v ∈ H'.vertices, ∀ e ∈ v.nets, ∃ n ∈ H'.nets, n.id = e ∧ v.id ∈ n.vertices
  sizes : sizes H' = sizes y.1
  vnets : ∀ (i : Nat) (v' : Vertex), H'.vertices[i]? = some v' → ∃ v, y.1.vertices[i]? = some v ∧ v'.id = v.id ∧
    ∀ e, e ∈ v'.nets ↔ e ∈ v.nets ∨ ∃ x ∈ ys, ∃ n ∈ x.2, n.id = e ∧ v.id ∈ n.vertices ∧ ¬ IsVertex x.1 v.id

theorem pinsIn_map_pins {f : Net → Net} {g : List Nat → List Nat} (hg : ∀ a b, g (a ++ b) = g a ++ g b) (hg0 : g [] = [])
    (hf : ∀ n, (f n).id = n.id ∧ (f n).vertices = g n.vertices) (ns : List Net) (e : Nat) :
    pinsIn (ns.map f) e = g (pinsIn ns e) := by
  induction ns with
  | nil => exact hg0.symm
  | cons n ns ih =>
    rw [List.map_cons, pinsIn_cons, pinsIn_cons, hg, ih, (hf n).1, (hf n).2]
    split
    · rfl
    · rw [hg0]

theorem awayMsgs_pins (H : Hypergraph) (cut : List Net) (e : Nat) :
    ((awayMsgs H cut).filter (fun m => m.1 = e)).map (·.2.1) = (pinsIn cut e).filter (fun u => !H.isLocal u) := by
  induction cut with
  | nil => rfl
  | cons n cut ih =>
    have : awayMsgs H (n :: cut) = (n.vertices.filter (fun v => !H.isLocal v)).map (fun v => (n.id, v, n.cost)) ++
        awayMsgs H cut := by
      unfold awayMsgs; rw [List.flatMap_cons]
    rw [this, List.filter_append, List.map_append, ih, pinsIn_cons, List.filter_append, List.filter_map]
    congr 1
    by_cases he : n.id = e
    · rw [if_pos he]
      have : (fun m : Nat × Nat × Int => decide (m.1 = e)) ∘ (fun v => (n.id, v, n.cost)) = fun _ => true := by
        funext v; simp [he]
      rw [this, List.filter_true, List.map_map]
      exact List.map_id _
    · rw [if_neg he]
      have : (fun m : Nat × Nat × Int => decide (m.1 = e)) ∘ (fun v => (n.id, v, n.cost)) = fun _ => false := by
        funext v; simp [he]
      rw [this, List.filter_false]
      rfl

theorem mem_awayMsgs {H : Hypergraph} {cut : List Net} {m : Nat × Nat × Int} (h : m ∈ awayMsgs H cut) :
    ∃ n ∈ cut, n.id = m.1 ∧ n.cost = m.2.2 ∧ m.2.1 ∈ n.vertices := by
  unfold awayMsgs at h
  obtain ⟨n, hn, h⟩ := List.mem_flatMap.1 h
  obtain ⟨v, hv, rfl⟩ := List.mem_map.1 h
  exact ⟨n, hn, rfl, rfl, (List.mem_filter.1 hv).1⟩

/-- Everything that is sent in `add_cut_nets`. -/
def allAway (ys : List (Hypergraph × List Net)) : List (Nat × Nat × Int) := ys.flatMap (fun y => awayMsgs y.1 y.2)

theorem allAway_pins (ys : List (Hypergraph × List Net)) (e : Nat) :
    ((allAway ys).filter (fun m => m.1 = e)).map (·.2.1) =
      ys.flatMap (fun y => (pinsIn y.2 e).filter (fun u => !y.1.isLocal u)) := by
  unfold allAway
  induction ys with
  | nil => rfl
  | cons y ys ih => rw [List.flatMap_cons, List.flatMap_cons, List.filter_append, List.map_append, ih, awayMsgs_pins]

theorem flatMap_perms {α β : Type} {f g : α → List β} {l : List α} (h : ∀ a ∈ l, (f a).Perm (g a)) :
    (l.flatMap f).Perm (l.flatMap g) := by
  induction l with
  | nil => exact .refl _
  | cons a l ih =>
    rw [List.flatMap_cons, List.flatMap_cons]
    exact (h a (by simp)).append (ih fun b hb => h b (by simp [hb]))

theorem forall2_flatMap_perm {α β γ : Type} {R : α → β → Prop} {f : β → List γ} {g : α → List γ} {l : List α}
    {m : List β} (h : List.Forall₂ R l m) (hR : ∀ a b, a ∈ l → R a b → (f b).Perm (g a)) :
    (m.flatMap f).Perm (l.flatMap g) := by
  induction h with
  | nil => exact .refl _
  | cons h0 _ ih =>
    rw [List.flatMap_cons, List.flatMap_cons]
    exact (hR _ _ (by simp) h0).append (ih fun a b ha => hR a b (by simp [ha]))

theorem addCutNets_ok {N : Nat} {d : Delivery (Nat × Nat × Int)} (hd : Fair d) {G : List Nat}
    {ys : List (Hypergraph × List Net)} (hD : Distributed N (ys.map (·.1))) (hI : CutInv G ys)
    (hv : ∀ y ∈ ys, ∀ n ∈ y.2, ∀ u ∈ n.vertices, ∃ y' ∈ ys, IsVertex y'.1 u) :
    ∃ Hs', addCutNets d ys = .ok Hs' ∧ List.Forall₂ (LocalBack ys) ys Hs' ∧
      (∀ e, (unionPins Hs' e).Perm (ys.flatMap (fun y => pinsIn (wide y) e))) ∧
      (∀ H' ∈ Hs', ∀ n ∈ H'.nets, ∃ y ∈ ys, ∃ m ∈ wide y, m.id = n.id ∧ m.cost = n.cost) ∧
      (∀ e, (∃ H' ∈ Hs', IsNet H' e) ↔ ∃ y ∈ ys, ∃ m ∈ wide y, m.id = e) := by
  have hw : ∀ y ∈ ys, WF y.1 := fun y hy => hD.wf _ (List.mem_map_of_mem hy)
  -- the hypergraphs before the messages
  obtain ⟨B, hB⟩ : ∃ B : Hypergraph × List Net → Hypergraph, B = fun y => addedBack y.1 (y.2.map (keepLocal y.1)) :=
    ⟨_, rfl⟩
  have hstart : ys.map (fun x => x.2.foldl (addCutStep ys.length) (x.1, [])) =
      ys.map (fun y => (B y, toAll ys.length (awayMsgs y.1 y.2))) := by
    apply List.map_congr_left
    intro y hy
    rw [addCut_out ys.length y.1 y.2 y.1 [] (fun _ => rfl) (hI.pins y hy), hB]
    rfl
  have hbase : ∀ y ∈ ys, (B y).vertices = y.1.vertices ∧ (B y).vmap = y.1.vmap ∧
      (B y).nets = y.1.nets ++ y.2.map (fun n => asideCopy (keepLocal y.1 n)) ∧
      (∀ e j, (B y).nmap e = some j ↔ ((B y).nets.map (·.id))[j]? = some e) ∧
      ((B y).nets.map (·.id)).Nodup ∧ sizes (B y) = sizes y.1 := by
    intro y hy
    have hnd : ((y.1.nets ++ y.2.map (keepLocal y.1)).map (·.id)).Nodup := by
      rw [List.map_append, List.map_map, List.nodup_append]
      refine ⟨(hw y hy).nids, hI.nodup y hy, ?_⟩
      intro a ha b hb hab
      obtain ⟨n, hn, rfl⟩ := List.mem_map.1 ha
      obtain ⟨m, hm, rfl⟩ := List.mem_map.1 hb
      have h1 : n.id = m.id := hab
      exact hI.live y hy n hn (by rw [h1]; exact hI.gone y hy m hm)
    obtain ⟨g1, g2, g3, g4, g5, g6, g7, -⟩ := addedBack_ok (y.2.map (keepLocal y.1)) (hw y hy).nmap hnd
    rw [hB]
    refine ⟨g1, g2, by rw [g3, List.map_map]; rfl, g4, ?_, ?_⟩
    · dsimp only
      rw [g3]
      rw [List.map_append, List.map_map] at hnd ⊢
      rw [List.map_map]
      exact hnd
    · unfold Spec.sizes
      dsimp only
      rw [g5, g6, g7]
  have hmsg : ∀ t, t < ys.length → (inbox d ((ys.map (fun y => (B y, toAll ys.length (awayMsgs y.1 y.2)))).map (·.2)) t).Perm
      (allAway ys) := by
    intro t ht
    have : (ys.map (fun y => (B y, toAll ys.length (awayMsgs y.1 y.2)))).map (·.2) =
        (ys.map (fun y => awayMsgs y.1 y.2)).map (toAll ys.length) := by
      rw [List.map_map, List.map_map]; rfl
    rw [this]
    refine (inbox_toEvery hd ht _).trans (List.Perm.of_eq ?_)
    unfold allAway
    rw [List.flatMap_def]
  -- one processor
  have hone : ∀ y ∈ ys, ∀ ms : List (Nat × Nat × Int), ms.Perm (allAway ys) →
      ∃ H', ms.foldlM addCutMsg (B y) = .ok H' ∧ (LocalBack ys y H' ∧
        (∀ e, (pinsIn H'.nets e).Perm (pinsIn y.1.nets e ++ ((pinsIn y.2 e).filter (fun u => y.1.isLocal u) ++
          (ys.flatMap (fun x => (pinsIn x.2 e).filter (fun u => !x.1.isLocal u))).filter (fun u => y.1.isLocal u)))) ∧
        (∀ n ∈ H'.nets, ∃ y ∈ ys, ∃ m ∈ wide y, m.id = n.id ∧ m.cost = n.cost) ∧
        (∀ e, IsNet H' e → ∃ y ∈ ys, ∃ m ∈ wide y, m.id = e) ∧
        (∀ m ∈ wide y, IsNet H' m.id)) := by
    intro y hy ms hms
    obtain ⟨b1, b2, b3, b4, b5, b6⟩ := hbase y hy
    have hloc : ∀ u, (B y).isLocal u = y.1.isLocal u := by
      intro u; unfold Hypergraph.isLocal; rw [b2]
    obtain ⟨H', h1, hP⟩ := addCutMsgs_ok (H0 := B y) (by rw [b2, b1]; exact (hw y hy).vmap) b5 b4 (by
      intro v hv e he
      rw [b1] at hv
      rw [b3]
      obtain ⟨n, hn, h⟩ := (hw y hy).inc_net v hv e he
      exact ⟨n, List.mem_append_left _ hn, h⟩) ms
    have hpins : ∀ e, (pinsIn H'.nets e).Perm (pinsIn y.1.nets e ++ ((pinsIn y.2 e).filter (fun u => y.1.isLocal u) ++
          (ys.flatMap (fun x => (pinsIn x.2 e).filter (fun u => !x.1.isLocal u))).filter (fun u => y.1.isLocal u))) := by
      intro e
      refine (hP.pins e).trans ?_
      rw [b3, pinsIn_append, List.append_assoc]
      have e1 : pinsIn (y.2.map (fun n => asideCopy (keepLocal y.1 n))) e =
          (pinsIn y.2 e).filter (fun u => y.1.isLocal u) :=
        pinsIn_map_pins (f := fun n => asideCopy (keepLocal y.1 n)) (g := fun l => l.filter (fun u => y.1.isLocal u)) (fun a b => List.filter_append ..) rfl
          (fun n => ⟨rfl, rfl⟩) _ _
      rw [e1]
      refine List.Perm.append_left _ (List.Perm.append_left _ ?_)
      refine ((hms.filter _).map _).trans (List.Perm.of_eq ?_)
      rw [← allAway_pins, List.filter_map]
      congr 1
      rw [List.filter_filter]
      apply List.filter_congr
      intro m _
      simp only [hloc, Function.comp]
      by_cases h : m.1 = e <;> simp [h]
    refine ⟨H', h1, ⟨by rw [hP.core, b1], hP.vmap.trans b2, hP.nids, hP.nmap, ?_, hP.lists, hP.sizes.trans b6, ?_⟩, hpins, ?_, ?_, ?_⟩
    · intro n hn u hu
      have h2 : u ∈ pinsIn H'.nets n.id := mem_pinsIn.2 ⟨n, hn, rfl, hu⟩
      rw [(hpins n.id).mem_iff, List.mem_append, List.mem_append, List.mem_filter, List.mem_filter] at h2
      rcases h2 with h2 | h2 | h2
      · obtain ⟨m, hm, -, hmu⟩ := mem_pinsIn.1 h2
        exact pins_isVertex (hw y hy) hm u hmu
      · exact (isLocal_iff (hw y hy) u).1 h2.2
      · exact (isLocal_iff (hw y hy) u).1 h2.2
    · intro i v' hv'
      obtain ⟨v, a, b, c⟩ := hP.vnets i v' hv'
      rw [b1] at a
      refine ⟨v, a, b, fun e => ?_⟩
      rw [c]
      refine or_congr_right ⟨?_, ?_⟩
      · rintro ⟨m, hm, c1, c2⟩
        rw [hms.mem_iff] at hm
        obtain ⟨x, hx, hm⟩ := List.mem_flatMap.1 hm
        unfold awayMsgs at hm
        obtain ⟨n, hn, hm⟩ := List.mem_flatMap.1 hm
        obtain ⟨u, hu, rfl⟩ := List.mem_map.1 hm
        have := List.mem_filter.1 hu
        dsimp only at c1 c2
        refine ⟨x, hx, n, hn, c1, by rw [← c2]; exact this.1, ?_⟩
        rw [← isLocal_iff (hw x hx), ← c2]
        simpa using this.2
      · rintro ⟨x, hx, n, hn, c1, c2, c3⟩
        rw [← isLocal_iff (hw x hx)] at c3
        refine ⟨(n.id, v.id, n.cost), ?_, c1, rfl⟩
        rw [hms.mem_iff]
        refine List.mem_flatMap.2 ⟨x, hx, ?_⟩
        unfold awayMsgs
        exact List.mem_flatMap.2 ⟨n, hn, List.mem_map.2 ⟨v.id, List.mem_filter.2 ⟨c2, by simpa using c3⟩, rfl⟩⟩
    · intro n hn
      rcases hP.costs n hn with ⟨m, hm, h2⟩ | ⟨m, hm, h2, h3⟩
      · rw [b3] at hm
        rcases List.mem_append.1 hm with hm | hm
        · exact ⟨y, hy, m, List.mem_append_left _ hm, h2⟩
        · obtain ⟨m', hm', rfl⟩ := List.mem_map.1 hm
          exact ⟨y, hy, m', List.mem_append_right _ hm', h2⟩
      · rw [hms.mem_iff] at hm
        obtain ⟨x, hx, hm⟩ := List.mem_flatMap.1 hm
        obtain ⟨k, hk, k1, k2, -⟩ := mem_awayMsgs hm
        exact ⟨x, hx, k, List.mem_append_right _ hk, k1.trans h2, k2.trans h3⟩
    · intro e he
      rcases (hP.nets e).1 he with he | ⟨m, hm, h2, -⟩
      · obtain ⟨m, hm, rfl⟩ := List.mem_map.1 he
        rw [b3] at hm
        rcases List.mem_append.1 hm with hm | hm
        · exact ⟨y, hy, m, List.mem_append_left _ hm, rfl⟩
        · obtain ⟨m', hm', rfl⟩ := List.mem_map.1 hm
          exact ⟨y, hy, m', List.mem_append_right _ hm', rfl⟩
      · rw [hms.mem_iff] at hm
        obtain ⟨x, hx, hm⟩ := List.mem_flatMap.1 hm
        obtain ⟨k, hk, k1, -⟩ := mem_awayMsgs hm
        exact ⟨x, hx, k, List.mem_append_right _ hk, k1.trans h2⟩
    · intro m hm
      rw [hP.nets]
      left
      unfold IsNet
      rw [b3, List.map_append, List.mem_append]
      rcases List.mem_append.1 hm with hm | hm
      · exact Or.inl (List.mem_map.2 ⟨m, hm, rfl⟩)
      · exact Or.inr (List.mem_map.2 ⟨_, List.mem_map.2 ⟨m, hm, rfl⟩, rfl⟩)
  -- all processors
  obtain ⟨Hs', h1, h2⟩ := mapM_forall2 (f := fun (x : (Hypergraph × List (Nat × (Nat × Nat × Int))) × Nat) =>
      (inbox d ((ys.map (fun y => (B y, toAll ys.length (awayMsgs y.1 y.2)))).map (·.2)) x.2).foldlM addCutMsg x.1.1)
    (R := fun x H' => ∃ y, ys[x.2]? = some y ∧ (LocalBack ys y H' ∧
        (∀ e, (pinsIn H'.nets e).Perm (pinsIn y.1.nets e ++ ((pinsIn y.2 e).filter (fun u => y.1.isLocal u) ++
          (ys.flatMap (fun x => (pinsIn x.2 e).filter (fun u => !x.1.isLocal u))).filter (fun u => y.1.isLocal u)))) ∧
        (∀ n ∈ H'.nets, ∃ y ∈ ys, ∃ m ∈ wide y, m.id = n.id ∧ m.cost = n.cost) ∧
        (∀ e, IsNet H' e → ∃ y ∈ ys, ∃ m ∈ wide y, m.id = e) ∧
        (∀ m ∈ wide y, IsNet H' m.id)))
    ((ys.map (fun y => (B y, toAll ys.length (awayMsgs y.1 y.2)))).zipIdx) (by
      rintro ⟨x, t⟩ hx
      have hx := List.mem_zipIdx_iff_getElem?.1 hx
      dsimp only at hx
      rw [List.getElem?_map] at hx
      obtain ⟨y, hy, rfl⟩ := Option.map_eq_some_iff.1 hx
      obtain ⟨H', g1, g2⟩ := hone y (List.mem_of_getElem? hy) _ (hmsg t (List.getElem?_eq_some_iff.1 hy).1)
      exact ⟨H', g1, y, hy, g2⟩)
  have hF : List.Forall₂ (fun y H' => LocalBack ys y H' ∧
        (∀ e, (pinsIn H'.nets e).Perm (pinsIn y.1.nets e ++ ((pinsIn y.2 e).filter (fun u => y.1.isLocal u) ++
          (ys.flatMap (fun x => (pinsIn x.2 e).filter (fun u => !x.1.isLocal u))).filter (fun u => y.1.isLocal u)))) ∧
        (∀ n ∈ H'.nets, ∃ y ∈ ys, ∃ m ∈ wide y, m.id = n.id ∧ m.cost = n.cost) ∧
        (∀ e, IsNet H' e → ∃ y ∈ ys, ∃ m ∈ wide y, m.id = e) ∧
        (∀ m ∈ wide y, IsNet H' m.id)) ys Hs' := by
    rw [List.forall₂_iff_get] at h2 ⊢
    obtain ⟨hl, h2⟩ := h2
    have hl' : ys.length = Hs'.length := by simpa using hl
    refine ⟨hl', fun i hi hi' => ?_⟩
    obtain ⟨y, hy, g⟩ := h2 i (by simpa using hi) hi'
    simp only [List.get_eq_getElem, List.getElem_zipIdx, Nat.zero_add] at hy g
    rw [List.getElem?_eq_getElem hi] at hy
    have hy : y = ys[i] := (Option.some.inj hy).symm
    rw [hy] at g
    exact g
  refine ⟨Hs', ?_, hF.imp fun _ _ h => h.1, ?_, ?_, ?_⟩
  · unfold addCutNets
    dsimp only
    rw [hstart]
    exact h1
  · intro e
    rw [unionPins_pinsIn]
    refine (forall2_flatMap_perm hF (g := fun y => pinsIn y.1.nets e ++ ((pinsIn y.2 e).filter (fun u => y.1.isLocal u) ++
          (ys.flatMap (fun x => (pinsIn x.2 e).filter (fun u => !x.1.isLocal u))).filter (fun u => y.1.isLocal u)))
      (fun a b _ h => h.2.1 e)).trans ?_
    have h3 : ∀ (zs : List (Hypergraph × List Net)) (A B : Hypergraph × List Net → List Nat),
        (zs.flatMap (fun y => A y ++ B y)).Perm (zs.flatMap A ++ zs.flatMap B) := by
      intro zs A B
      induction zs with
      | nil => exact .refl _
      | cons y zs ih =>
        rw [List.flatMap_cons, List.flatMap_cons, List.flatMap_cons, List.append_assoc, List.append_assoc]
        refine List.Perm.append_left _ ?_
        refine (List.Perm.append_left _ ih).trans ?_
        rw [← List.append_assoc, ← List.append_assoc]
        exact List.perm_append_comm.append_right _
    refine (h3 ys _ _).trans ?_
    refine List.Perm.trans (List.Perm.append_left _ (pins_back (fun (y : Hypergraph × List Net) u => y.1.isLocal u)
      (fun y => pinsIn y.2 e) ys ?_)) ?_
    · intro y hy u hu
      obtain ⟨n, hn, -, hnu⟩ := mem_pinsIn.1 hu
      exact countP_local hD (hv y hy n hn u hnu)
    · refine (h3 ys _ _).symm.trans (List.Perm.of_eq ?_)
      congr 1
      funext y
      unfold wide
      rw [pinsIn_append]
  · intro H' hH' n hn
    obtain ⟨y, -, h⟩ := forall2_mem_right hF hH'
    exact h.2.2.1 n hn
  · intro e
    constructor
    · rintro ⟨H', hH', he⟩
      obtain ⟨y, -, h⟩ := forall2_mem_right hF hH'
      exact h.2.2.2.1 e he
    · rintro ⟨y, hy, m, hm, rfl⟩
      obtain ⟨H', hH', h⟩ := forall2_mem_left hF hy
      exact ⟨H', hH', h.2.2.2.2 m hm⟩

end PMondriaan

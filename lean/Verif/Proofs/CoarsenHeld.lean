import Verif.Proofs.CoarsenUnion

/-
Proofs about the contraction phase of the parallel coarsening, over all processors.
-/

namespace PMondriaan

open Spec

variable {F : Type}

theorem contractPhase_ok {order : List Nat → List Nat} (ho : ∀ l, (order l).Perm l)
    {d : Delivery InfoMsg} (hd : Fair d) {ss maxC p : Nat} {h : Nat → Hypergraph} {σ : Nat → List Nat}
    {m : Nat → List (List (Nat × Nat))} {acc : Nat → List (Nat × Nat)} (hw : ∀ t, t < p → WF (h t))
    (hdis : ((((List.range p).map h).flatMap (·.vertices)).map (·.id)).Nodup)
    (hσ : SamplesOk ss p h σ) (hM : Matching ss maxC p h σ m acc) {c : Nat → Int}
    (hc : ∀ t, t < p → ∀ n ∈ (h t).nets, n.cost = c n.id) :
    ∃ (fl : Nat → List Bool) (out : Nat → List (Nat × InfoMsg)) (st : Nat → List Vertex × GrowState),
      (∀ t, t < p → infoSends order p ss (h t) (acc t) = .ok (fl t, out t)) ∧
      (∀ t, t < p → contractLocal (h t) (σ t) (fl t) (inbox d ((List.range p).map out) t) =
        .ok (st t)) ∧
      (∀ t, t < p → (st t).1 = ((h t).vertices.filter (fun v => v.id ∉
        goneIds ((List.range p).map (fun t => contractionOf (h t) (σ t) (m t))))).map newVertex) ∧
      ∀ size, ∃ HC : Nat → Hypergraph, ∀ t, t < p →
        growAll order size (h t) (σ t) (st t) = .ok (HC t) ∧ Held p h σ m c size t (HC t) := by
  set V := ((List.range p).map h).flatMap (·.vertices) with hV
  set Cs := (List.range p).map (fun t => contractionOf (h t) (σ t) (m t)) with hCs
  set vtx := vtxOf V with hvtx
  have hmemV : ∀ t, t < p → ∀ v ∈ (h t).vertices, v ∈ V := fun t ht v hv =>
    List.mem_flatMap.2 ⟨h t, List.mem_map.2 ⟨t, List.mem_range.2 ht, rfl⟩, hv⟩
  have hvtxE : ∀ t, t < p → ∀ v ∈ (h t).vertices, vtx v.id = v := fun t ht v hv =>
    vtxOf_eq hdis (hmemV t ht v hv)
  -- what is known of a message
  have hacc : ∀ s, s < p → ∀ y ∈ acc s, ∃ t j, t < p ∧ j < (σ t).length ∧ j < ss ∧
      y.1 = t * ss + j ∧ vtx y.2 ∈ (h s).vertices ∧ (vtx y.2).id = y.2 := by
    intro s hs y hy
    obtain ⟨t, j, l, ht, hl, hyl, hy1⟩ := (hM.accMem s hs y).1 hy
    have hj : j < (σ t).length := by
      rw [← hM.len t ht]; exact (List.getElem?_eq_some_iff.1 hl).1
    obtain ⟨-, i, v, hv, hid, -⟩ := hM.vtx t ht l (List.mem_of_getElem? hl) _ hyl
    simp only at hv hid
    have hvm := List.mem_of_getElem? hv
    refine ⟨t, j, ht, hj, lt_of_lt_of_le hj (hσ t ht).2.2, hy1, ?_, ?_⟩
    · rw [← hid, hvtxE s hs v hvm]; exact hvm
    · rw [← hid, hvtxE s hs v hvm]
  have h1 : ∀ s, ∃ out, s < p → infoSends order p ss (h s) (acc s) =
        .ok ((h s).vertices.map (fun v => decide (v.id ∈ (acc s).map (·.2))), out) ∧
      Told p ss c vtx (h s) (acc s) out := by
    intro s
    by_cases hs : s < p
    · obtain ⟨out, e, T⟩ := infoSends_ok ho (p := p) (ss := ss) (vtx := vtx) (hw s hs) (hc s hs)
        (acc := acc s) (by
          intro hne
          obtain ⟨y, hy⟩ := List.exists_mem_of_ne_nil _ hne
          obtain ⟨t, j, -, -, hj, -⟩ := hacc s hs y hy
          omega) (by
          intro y hy
          obtain ⟨t, j, ht, -, hj, hy1, -⟩ := hacc s hs y hy
          rw [hy1, (divmod_unique hj).1]
          exact ht) (by
          intro y hy
          obtain ⟨t, j, -, -, -, -, h1, h2⟩ := hacc s hs y hy
          exact ⟨h1, h2⟩)
      exact ⟨out, fun _ => ⟨e, T⟩⟩
    · exact ⟨[], fun h => absurd h hs⟩
  choose out h1 using h1
  set inb := fun t => inbox d ((List.range p).map out) t with hinb
  have hmsg : ∀ t, ∀ x ∈ inb t, ∃ s, s < p ∧ (t, x) ∈ out s := by
    intro t x hx
    obtain ⟨o, ho', hxo⟩ := (mem_inbox hd).1 hx
    obtain ⟨s, hs, rfl⟩ := List.mem_map.1 ho'
    exact ⟨s, List.mem_range.1 hs, hxo⟩
  have hmsg2 : ∀ t, ∀ x ∈ inb t, x.sample < (σ t).length ∧ x.costs = x.nets.map c ∧
      ∀ e ∈ x.nets, ∃ s, s < p ∧ IsNet (h s) e := by
    intro t x hx
    obtain ⟨s, hs, hxo⟩ := hmsg t x hx
    have T := (h1 s hs).2.msgs _ hxo
    obtain ⟨y, hy, hkey⟩ := List.mem_map.1 T.key
    obtain ⟨t', j, ht', hj, hjs, hy1, -⟩ := hacc s hs y hy
    have a1 := divmod_unique (t := t) T.sample
    have a2 := divmod_unique (t := t') hjs
    simp only at hkey a1
    rw [← hkey, hy1] at a1
    have htt : t' = t := by rw [← a1.1, a2.1]
    subst htt
    refine ⟨?_, T.costs, fun e he => ⟨s, hs, T.nets e he⟩⟩
    have : x.sample = j := by omega
    rw [this]; exact hj
  have h2 : ∀ t, ∃ st : GrowState, ∃ ids : List Nat, t < p →
      contractLocal (h t) (σ t) ((h t).vertices.map (fun v => decide (v.id ∈ (acc t).map (·.2))))
        (inb t) = .ok (((h t).vertices.filter (fun v => v.id ∉ goneIds Cs)).map newVertex, st) ∧
      (∀ e ∈ ids, IsNet (h t) e) ∧
      SampleInfo (σ t).length c (((h t).vertices.filter (fun v => v.id ∉ goneIds Cs)).map newVertex)
        ids (inb t) st := by
    intro t
    by_cases ht : t < p
    · obtain ⟨st, ids, e, g1, g2⟩ := contractLocal_ok (hw t ht) (hc t ht)
        (fun v => decide (v.id ∈ (acc t).map (·.2))) (samples := σ t) (msgs := inb t)
        (fun x hx => ⟨(hmsg2 t x hx).1, (hmsg2 t x hx).2.1⟩)
      have hf : (h t).vertices.filter (fun v => !decide (v.id ∈ (acc t).map (·.2))) =
          (h t).vertices.filter (fun v => v.id ∉ goneIds Cs) := by
        apply List.filter_congr
        intro v hv
        rw [← decide_not, decide_eq_decide]
        exact not_congr (told_gone hdis hM ht hv)
      rw [hf] at e g2
      exact ⟨st, ids, fun _ => ⟨e, g1, g2⟩⟩
    · exact ⟨⟨[], [], []⟩, [], fun h => absurd h ht⟩
  choose st ids h2 using h2
  refine ⟨_, out, fun t => (((h t).vertices.filter (fun v => v.id ∉ goneIds Cs)).map newVertex, st t),
    fun t ht => (h1 t ht).1, fun t ht => (h2 t ht).1, fun t _ => rfl, ?_⟩
  intro size
  -- what is known of sample `j` of processor `t`
  have hsum : ∀ t, t < p → ∀ (j : Nat) l, (m t)[j]? = some l →
      (st t).weights[j]? = some (l.map (fun y => (vtx y.1).weight)).sum := by
    intro t ht j l hl
    have hj : j < (σ t).length := by
      rw [← hM.len t ht]; exact (List.getElem?_eq_some_iff.1 hl).1
    have hjs := lt_of_lt_of_le hj (hσ t ht).2.2
    rw [(h2 t ht).2.2.weights, rangeMap_get hj]
    congr 1
    have e1 : (((inb t).filter (fun x => x.sample = j)).map (·.weight)).sum =
        toldWeight ((List.range p).map out).flatten t j := by
      rw [(((inbox_perm hd ((List.range p).map out) t).filter _).map _).sum_eq]
      unfold toldWeight
      rw [List.filter_map, List.map_map, List.filter_filter]
      congr 2
      apply List.filter_congr
      intro x _
      simp [Bool.and_comm]
    rw [e1, ← List.flatMap_def, toldWeight_flatMap, ← hM.accSum (fun u => (vtx u).weight) t j l ht hl]
    have e2 : (List.range p).map (fun s => toldWeight (out s) t j) =
        (List.range p).map (fun s => accWeight vtx (acc s) (t * ss + j)) := by
      apply List.map_congr_left
      intro s hs
      exact (h1 s (List.mem_range.1 hs)).2.weight t j hjs
    rw [e2, ← accWeight_flatMap]
    rfl
  have hlist : ∀ t, t < p → ∀ (j : Nat) l, (m t)[j]? = some l → ∃ l', (st t).lists[j]? = some l' ∧
      l'.Nodup ∧ ∀ e, e ∈ l' ↔ ∃ y ∈ l, e ∈ (vtx y.1).nets := by
    intro t ht j l hl
    have hj : j < (σ t).length := by
      rw [← hM.len t ht]; exact (List.getElem?_eq_some_iff.1 hl).1
    have hjs := lt_of_lt_of_le hj (hσ t ht).2.2
    have hg : (st t).lists[j]? = some ((st t).lists[j]'(by rw [(h2 t ht).2.2.len]; exact hj)) :=
      List.getElem?_eq_getElem _
    generalize (st t).lists[j]'(by rw [(h2 t ht).2.2.len]; exact hj) = l' at hg
    obtain ⟨f1, f2⟩ := (h2 t ht).2.2.lists j l' hg
    refine ⟨l', hg, f1, ?_⟩
    intro e
    rw [f2]
    constructor
    · rintro ⟨x, hx, hxj, he⟩
      obtain ⟨s, hs, hxo⟩ := hmsg t x hx
      obtain ⟨y, hy, hy1, hye⟩ := ((h1 s hs).2.nets t j e hjs).1 ⟨(t, x), hxo, rfl, hxj, he⟩
      obtain ⟨t', j', l'', ht', hl'', hyl, hy1'⟩ := (hM.accMem s hs y).1 hy
      have hj' : j' < ss := lt_of_lt_of_le (by
        rw [← hM.len t' ht']; exact (List.getElem?_eq_some_iff.1 hl'').1) (hσ t' ht').2.2
      rw [hy1'] at hy1
      have a1 := divmod_unique (t := t) hjs
      have a2 := divmod_unique (t := t') hj'
      rw [← hy1] at a1
      have htt : t' = t := by rw [← a1.1, a2.1]
      subst htt
      have hjj : j' = j := by omega
      subst hjj
      rw [hl] at hl''
      cases hl''
      exact ⟨_, hyl, hye⟩
    · rintro ⟨y, hy, hye⟩
      obtain ⟨hp, -⟩ := hM.vtx t ht l (List.mem_of_getElem? hl) y hy
      have hin : (t * ss + j, y.1) ∈ acc y.2 := (hM.accMem y.2 hp _).2 ⟨t, j, l, ht, hl, hy, rfl⟩
      obtain ⟨x, hx, hx1, hx2, hx3⟩ := ((h1 y.2 hp).2.nets t j e hjs).2 ⟨_, hin, rfl, hye⟩
      refine ⟨x.2, (mem_inbox hd).2 ⟨out y.2, List.mem_map.2 ⟨y.2, List.mem_range.2 hp, rfl⟩, ?_⟩,
        hx2, hx3⟩
      rw [← hx1]
      exact hx
  have hall : ∀ t, ∃ HC, t < p → growAll order size (h t) (σ t)
      (((h t).vertices.filter (fun v => v.id ∉ goneIds Cs)).map newVertex, st t) = .ok HC ∧
      Held p h σ m c size t HC := by
    intro t
    by_cases ht : t < p
    swap
    · exact ⟨h t, fun h => absurd h ht⟩
    set K := (h t).vertices.filter (fun v => v.id ∉ goneIds Cs) with hK
    have hKids : (K.map newVertex).map (·.id) = K.map (·.id) := by rw [List.map_map]; rfl
    have hKnd : ((K.map newVertex).map (·.id)).Nodup := by
      rw [hKids]; exact (List.filter_sublist.map _).nodup (hw t ht).vids
    have hKn : ∀ v ∈ K.map newVertex, v.nets.Nodup := by
      intro v hv
      obtain ⟨v0, hv0, rfl⟩ := List.mem_map.1 hv
      exact (hw t ht).vnets v0 (List.mem_filter.1 hv0).1
    set W := fun u => ((matchesIn Cs u).map (fun y => (vtx y.1).weight)).sum with hW
    set L := fun u => ((sampleIds (h t) (σ t)).zip ((st t).lists.map order)).flatMap
      (fun x => if x.1 = u then x.2 else []) with hL
    have hsnd := sampleIds_nodup (hw t ht) (hσ t ht).2.1 (hσ t ht).1
    -- the list of a sample
    have hsample : ∀ (j x : Nat), (σ t)[j]? = some x → ∃ v0 l l', (h t).vertices[x]? = some v0 ∧
        (sampleIds (h t) (σ t))[j]? = some v0.id ∧ (m t)[j]? = some l ∧ matchesIn Cs v0.id = l ∧
        (st t).lists[j]? = some l' ∧ L v0.id = order l' ∧
        ∀ e, e ∈ l' ↔ ∃ y ∈ l, e ∈ (vtx y.1).nets := by
      intro j x hx
      have hj := (List.getElem?_eq_some_iff.1 hx).1
      have hxl := (hσ t ht).2.1 x (List.mem_of_getElem? hx)
      have hv0 : (h t).vertices[x]? = some (h t).vertices[x] := List.getElem?_eq_getElem hxl
      generalize (h t).vertices[x] = v0 at hv0
      have hsj : (sampleIds (h t) (σ t))[j]? = some v0.id := by
        rw [sampleIds_get (hσ t ht).2.1, hx]
        simp [hv0]
      have hml : (m t)[j]? = some ((m t)[j]'(by rw [hM.len t ht]; exact hj)) :=
        List.getElem?_eq_getElem _
      generalize (m t)[j]'(by rw [hM.len t ht]; exact hj) = l at hml
      obtain ⟨l', g1, -, g3⟩ := hlist t ht j l hml
      refine ⟨v0, l, l', hv0, hsj, hml, matchesIn_sample hw hdis hσ ht hsj hml, g1, ?_, g3⟩
      exact lookup_flatMap hsnd hsj (by rw [List.getElem?_map, g1]; rfl)
    have hLmem : ∀ u, ∀ e, e ∈ L u ↔ u ∈ sampleIds (h t) (σ t) ∧ ∃ y ∈ matchesIn Cs u, e ∈ (vtx y.1).nets := by
      intro u e
      by_cases hu : u ∈ sampleIds (h t) (σ t)
      · obtain ⟨j, hj⟩ := List.mem_iff_getElem?.1 hu
        have hjl : j < (σ t).length := by
          rw [← sampleIds_length (hσ t ht).2.1]; exact (List.getElem?_eq_some_iff.1 hj).1
        obtain ⟨v0, l, l', -, g2, -, g4, -, g6, g7⟩ := hsample j _ (List.getElem?_eq_getElem hjl)
        rw [hj] at g2
        simp only [Option.some.injEq] at g2
        subst g2
        rw [g6, (ho _).mem_iff, g7, g4]
        simp [hu]
      · have : L u = [] := lookup_none hu
        rw [this]
        simp [hu]
    have hnetm : ∀ u, ∀ e ∈ L u, e ∈ (st t).nets.map (·.id) := by
      intro u e he
      obtain ⟨hu, y, hy, hye⟩ := (hLmem u e).1 he
      obtain ⟨j, hj⟩ := List.mem_iff_getElem?.1 hu
      have hjl : j < (σ t).length := by
        rw [← sampleIds_length (hσ t ht).2.1]; exact (List.getElem?_eq_some_iff.1 hj).1
      obtain ⟨v0, l, l', -, g2, -, g4, g5, g6, g7⟩ := hsample j _ (List.getElem?_eq_getElem hjl)
      rw [hj] at g2
      simp only [Option.some.injEq] at g2
      subst g2
      rw [g4] at hy
      obtain ⟨x, hx, -, hxe⟩ := (((h2 t ht).2.2.lists j l' g5).2 e).1 ((g7 e).2 ⟨y, hy, hye⟩)
      exact ((h2 t ht).2.2.nets e).2 (Or.inr ⟨x, hx, hxe⟩)
    -- vertices of `t` that are not samples of `t` are not samples
    have hnosample : ∀ v ∈ (h t).vertices, v.id ∉ sampleIds (h t) (σ t) → matchesIn Cs v.id = [] := by
      intro v hv hns
      apply matchesIn_none
      intro s hs hmem
      obtain ⟨x, v', -, hv', hid⟩ := sampleIds_mem hmem
      have := (owner_unique hdis hs ht (List.mem_of_getElem? hv') hv hid).1
      subst this
      exact hns hmem
    obtain ⟨N, e, g1, g2⟩ := growAll_ok (order := order) size (H := h t) (samples := σ t) (c := c)
      (V := K.map newVertex) (st := st t) W L (by
        intro j x hx
        obtain ⟨v0, l, l', f1, f2, f3, f4, f5, f6, f7⟩ := hsample j x hx
        refine ⟨v0, f1, ?_, ?_, l', f5, f6.symm⟩
        · rw [hKids]
          refine List.mem_map.2 ⟨v0, List.mem_filter.2 ⟨List.mem_of_getElem? f1, ?_⟩, rfl⟩
          simpa using sample_kept hw hdis hM ht (List.mem_of_getElem? hx) f1
        · rw [hW]
          simp only
          rw [f4]
          exact hsum t ht j l f3) hnetm (by
        intro v hv hno
        obtain ⟨v0, hv0, rfl⟩ := List.mem_map.1 hv
        have hv0 := (List.mem_filter.1 hv0).1
        have hns : v0.id ∉ sampleIds (h t) (σ t) := by
          intro hmem
          obtain ⟨j, hj⟩ := List.mem_iff_getElem?.1 hmem
          have hjl : j < (σ t).length := by
            rw [← sampleIds_length (hσ t ht).2.1]; exact (List.getElem?_eq_some_iff.1 hj).1
          obtain ⟨v1, l, l', f1, f2, -⟩ := hsample j _ (List.getElem?_eq_getElem hjl)
          rw [hj] at f2
          simp only [Option.some.injEq] at f2
          exact hno j _ (List.getElem?_eq_getElem hjl) v1 f1 f2.symm
        have hid : (newVertex v0).id = v0.id := rfl
        rw [hid]
        constructor
        · rw [hW]
          simp only
          rw [hnosample v0 hv0 hns]
          rfl
        · exact lookup_none hns) (by
        rw [← sampleIds_map (hσ t ht).2.1]
        exact hsnd.map (Option.some_injective _)) hKnd hKn (h2 t ht).2.2.fit
    refine ⟨_, fun _ => ⟨e, ?_, ?_, ?_, ?_, rfl, rfl, rfl⟩⟩
    · apply g1.wf
      · rw [List.map_map]
        have : (fun x => x.id) ∘ grown W L = fun x : Vertex => x.id := rfl
        rw [this]
        exact hKnd
      · intro v hv
        obtain ⟨v0, hv0, rfl⟩ := List.mem_map.1 hv
        exact (foldl_insertNat _ _ (hKn v0 hv0)).1
    · show List.Forall₂ _ K ((K.map newVertex).map (grown W L))
      rw [List.map_map]
      rw [List.forall₂_map_right_iff]
      apply List.forall₂_same.2
      intro v hv
      have hv0 := (List.mem_filter.1 hv).1
      have hnn := foldl_insertNat (L v.id) v.nets ((hw t ht).vnets v hv0)
      refine ⟨rfl, rfl, hnn.1, rfl, ?_⟩
      intro e
      show e ∈ (L v.id).foldl setInsert v.nets ↔ _
      rw [hnn.2, hLmem]
      by_cases hs : v.id ∈ sampleIds (h t) (σ t)
      · simp only [hs, true_and]
        exact Iff.rfl
      · have hnone := hnosample v hv0 hs
        rw [hCs] at hnone
        simp [hs, hnone]
    · exact g1.costs
    · intro n hn
      have hn' : n.id ∈ N.map (·.id) := List.mem_map.2 ⟨n, hn, rfl⟩
      rw [g2] at hn'
      rcases ((h2 t ht).2.2.nets n.id).1 hn' with hi | ⟨x, hx, hxe⟩
      · exact ⟨t, ht, (h2 t ht).2.1 _ hi⟩
      · exact (hmsg2 t x hx).2.2 _ hxe
  choose HC hall using hall
  exact ⟨HC, hall⟩

end PMondriaan

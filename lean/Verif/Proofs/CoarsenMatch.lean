import Verif.Proofs.CoarsenGrow
import Verif.Proofs.Restrict

/-
Proofs about the matching phase of the parallel coarsening, over all processors.
-/

namespace PMondriaan

open Spec

variable {F : Type}

theorem filter_keys_perm {α : Type} (f : α → Nat) (k : Nat) (l : List α) (h : ∀ a ∈ l, f a < k) :
    ((List.range k).flatMap (fun i => l.filter (fun a => f a = i))).Perm l := by
  have := byTarget_perm k (l.map (fun a => (f a, a))) (by
    intro m hm
    obtain ⟨a, ha, rfl⟩ := List.mem_map.1 hm
    exact h a ha)
  rw [List.map_map] at this
  have h2 : l.map ((·.2) ∘ fun a => (f a, a)) = l := by
    conv_rhs => rw [← List.map_id l]
    rfl
  rw [h2] at this
  refine List.Perm.trans (List.Perm.of_eq ?_) this
  congr 1
  funext i
  rw [List.filter_map, List.map_map]
  conv_lhs => rw [← List.map_id (l.filter _)]
  rfl

theorem flatMap_single {α : Type} {p t : Nat} (ht : t < p) (X : List α) :
    (List.range p).flatMap (fun t' => if t' = t then X else []) = X := by
  induction p with
  | zero => omega
  | succ p ih =>
    rw [List.range_succ, List.flatMap_append, List.flatMap_singleton]
    by_cases h : p = t
    · subst h
      rw [if_pos rfl]
      have : (List.range p).flatMap (fun t' => if t' = p then X else []) = [] := by
        rw [List.flatMap_eq_nil_iff]
        intro x hx
        rw [List.mem_range] at hx
        rw [if_neg (by omega)]
      rw [this, List.nil_append]
    · rw [if_neg h, List.append_nil, ih (by omega)]

theorem flatMap_filter_range {α : Type} (p : Nat) (A : Nat → List α) (q : α → Bool) :
    ((List.range p).flatMap A).filter q = (List.range p).flatMap (fun t => (A t).filter q) := by
  rw [List.filter_flatMap]

/-- What all processors receive together is what was sent. -/
theorem inboxes_perm {M : Type} {d : Delivery M} (hd : Fair d) (p : Nat)
    (outs : List (List (Nat × M))) (h : ∀ o ∈ outs, ∀ x ∈ o, x.1 < p) :
    ((List.range p).flatMap (fun t => inbox d outs t)).Perm (outs.flatten.map (·.2)) := by
  refine List.Perm.trans ?_ (byTarget_perm p outs.flatten (by
    intro m hm
    obtain ⟨o, ho, hmo⟩ := List.mem_flatten.1 hm
    exact h o ho m hmo))
  exact List.Perm.flatMap_left _ (fun t _ => inbox_perm hd outs t)

/-- The samples of the processors: different local indices, at most `ss`. -/
def SamplesOk (ss p : Nat) (h : Nat → Hypergraph) (σ : Nat → List Nat) : Prop :=
  ∀ t, t < p → (σ t).Nodup ∧ (∀ x ∈ σ t, x < (h t).vertices.length) ∧ (σ t).length ≤ ss

/-- The outcome of the matching phase: `m t` are the matches of the samples of `t`, `acc s` is what
processor `s` is told about its vertices. -/
structure Matching (ss maxC p : Nat) (h : Nat → Hypergraph) (σ : Nat → List Nat)
    (m : Nat → List (List (Nat × Nat))) (acc : Nat → List (Nat × Nat)) : Prop where
  len : ∀ t, t < p → (m t).length = (σ t).length
  size : ∀ t, t < p → ∀ l ∈ m t, l.length ≤ maxC
  nodup : ((List.range p).flatMap (fun t => (m t).flatten.map (·.1))).Nodup
  vtx : ∀ t, t < p → ∀ l ∈ m t, ∀ y ∈ l, y.2 < p ∧ ∃ (i : Nat) (v : Vertex),
    (h y.2).vertices[i]? = some v ∧ v.id = y.1 ∧ i ∉ σ y.2
  accMem : ∀ s, s < p → ∀ y, y ∈ acc s ↔ ∃ (t j : Nat) (l : List (Nat × Nat)), t < p ∧
    (m t)[j]? = some l ∧ (y.2, s) ∈ l ∧ y.1 = t * ss + j
  accSum : ∀ (f : Nat → Int) (t j : Nat) (l : List (Nat × Nat)), t < p → (m t)[j]? = some l →
    ((((List.range p).flatMap acc).filter (fun y => y.1 = t * ss + j)).map (fun y => f y.2)).sum =
      (l.map (fun y => f y.1)).sum

/-- The ids of the samples of `t`. -/
def sampleIds (H : Hypergraph) (l : List Nat) : List Nat := l.filterMap (fun x => (H.vertices[x]?).map (·.id))

theorem sampleIds_map {H : Hypergraph} {l : List Nat} (h : ∀ x ∈ l, x < H.vertices.length) :
    (sampleIds H l).map some = l.map (fun x => (H.vertices[x]?).map (·.id)) := by
  unfold sampleIds
  induction l with
  | nil => rfl
  | cons a l ih =>
    have ha := h a (by simp)
    have := ih (fun x hx => h x (by simp [hx]))
    rw [List.filterMap_cons, List.map_cons, List.getElem?_eq_getElem ha]
    simp only [Option.map_some, List.map_cons]
    rw [this]

theorem sampleIds_length {H : Hypergraph} {l : List Nat} (h : ∀ x ∈ l, x < H.vertices.length) :
    (sampleIds H l).length = l.length := by
  have := congrArg List.length (sampleIds_map h)
  simpa using this

theorem sampleIds_get {H : Hypergraph} {l : List Nat} (h : ∀ x ∈ l, x < H.vertices.length) (j : Nat) :
    (sampleIds H l)[j]? = (l[j]?).bind (fun x => (H.vertices[x]?).map (·.id)) := by
  have := congrArg (·[j]?) (sampleIds_map h)
  simp only [List.getElem?_map] at this
  cases hl : l[j]? with
  | none =>
    rw [hl] at this
    simpa using this
  | some x =>
    rw [hl] at this
    cases hs : (sampleIds H l)[j]? with
    | none => rw [hs] at this; cases this
    | some u =>
      rw [hs] at this
      simpa using this

theorem addSamples_eq {H : Hypergraph} {l : List Nat} (h : ∀ x ∈ l, x < H.vertices.length) :
    Contraction.addSamples {} H l =
      .ok { samples := sampleIds H l, matched := List.replicate l.length [] } := by
  unfold Contraction.addSamples
  have : l.mapM (fun i => do
      let v ← H.vertexAt i
      pure v.id) = (.ok (sampleIds H l) : Res (List Nat)) := by
    unfold sampleIds
    induction l with
    | nil => rfl
    | cons a l ih =>
      have ha := h a (by simp)
      rw [List.mapM_cons, vertexAt_ok (List.getElem?_eq_getElem ha)]
      simp only [ok_bind]
      rw [ih (fun x hx => h x (by simp [hx])), List.filterMap_cons, List.getElem?_eq_getElem ha]
      rfl
  rw [this]
  simp [pure_eq_ok]

/-- The state after the acceptance. -/
def contractionOf (H : Hypergraph) (l : List Nat) (m : List (List (Nat × Nat))) : Contraction :=
  { samples := sampleIds H l, matched := m }

/-- The first three stages: samples, requests, acceptance. -/
theorem matchPhase_ok (E : CoarseEnv F) (ho : ∀ l, (E.order l).Perm l)
    (hn : ∀ k l, (E.nthLocal k l).Perm l) (hn2 : ∀ k l, (E.nthOwner k l).Perm l)
    (hdS : Fair E.dSample) (hdR : Fair E.dReq) (hdA : Fair E.dAcc) (opts : Options) {p : Nat}
    {h : Nat → Hypergraph} {σ : Nat → List Nat} (hw : ∀ t, t < p → WF (h t))
    (hdis : ((((List.range p).map h).flatMap (·.vertices)).map (·.id)).Nodup)
    (hσ : SamplesOk opts.sampleSize p h σ) :
    ∃ (outs : Nat → List (Nat × SampleMsg)) (reqs : Nat → List (Nat × ReqMsg F))
      (m : Nat → List (List (Nat × Nat))) (out2 : Nat → List (Nat × (Nat × Nat))),
      (∀ t, t < p → sampleSends p t (h t) (σ t) = .ok (outs t)) ∧
      (∀ t, t < p → requests E opts p t (h t) (σ t) (inbox E.dSample ((List.range p).map outs) t) =
        .ok (reqs t)) ∧
      (∀ t, t < p → accepts E opts p t (σ t).length
          { samples := sampleIds (h t) (σ t), matched := List.replicate (σ t).length [] }
          (inbox E.dReq ((List.range p).map reqs) t) = .ok (contractionOf (h t) (σ t) (m t), out2 t)) ∧
      Matching opts.sampleSize opts.maxClustersize p h σ m
        (fun s => inbox E.dAcc ((List.range p).map out2) s) := by
  set ss := opts.sampleSize
  set maxC := opts.maxClustersize
  -- samples
  have h1 : ∀ t, ∃ out, t < p → sampleSends p t (h t) (σ t) = .ok out ∧
      ∀ y ∈ out, y.1 < p ∧ y.2.1 = t ∧ y.2.2.1 < (σ t).length := by
    intro t
    by_cases ht : t < p
    · obtain ⟨out, e, h2⟩ := sampleSends_ok p t (hσ t ht).2.1
      exact ⟨out, fun _ => ⟨e, h2⟩⟩
    · exact ⟨[], fun h => absurd h ht⟩
  choose outs h1 using h1
  -- requests
  have h2 : ∀ t, ∃ out, t < p →
      requests E opts p t (h t) (σ t) (inbox E.dSample ((List.range p).map outs) t) = .ok out ∧
      ReqsOk p t (fun s => (σ s).length) (h t) (σ t) out := by
    intro t
    by_cases ht : t < p
    · obtain ⟨out, e, h2⟩ := requests_ok E ho hn opts p t (hw t ht) (hσ t ht).2.1
        (k := fun s => (σ s).length) (fun s hs => (hσ s hs).2.2)
        (msgs := inbox E.dSample ((List.range p).map outs) t) (by
          intro m hm
          obtain ⟨o, ho', hmo⟩ := (mem_inbox hdS).1 hm
          obtain ⟨s, hs, rfl⟩ := List.mem_map.1 ho'
          have hs := List.mem_range.1 hs
          have := (h1 s hs).2 _ hmo
          rw [this.2.1]
          exact ⟨hs, this.2.2⟩)
      exact ⟨out, fun _ => ⟨e, h2⟩⟩
    · exact ⟨[], fun h => absurd h ht⟩
  choose reqs h2 using h2
  set inb := fun t => inbox E.dReq ((List.range p).map reqs) t with hinb
  have hreq : ∀ t, ∀ r ∈ inb t, ∃ s, s < p ∧ (t, r) ∈ reqs s := by
    intro t r hr
    obtain ⟨o, ho', hmo⟩ := (mem_inbox hdR).1 hr
    obtain ⟨s, hs, rfl⟩ := List.mem_map.1 ho'
    exact ⟨s, List.mem_range.1 hs, hmo⟩
  set A := fun t i => acceptedFor E maxC (inb t) i with hA
  have hAsub : ∀ t i, ∀ r ∈ A t i, r ∈ inb t ∧ r.sample = i := by
    intro t i r hr
    have := (topC_sub hn2 _ _).subset hr
    rw [List.mem_filter, decide_eq_true_iff] at this
    exact this
  set m := fun t => (List.range (σ t).length).map (fun i =>
    (A t i).map (fun r => (r.proposer, r.sender))) with hm
  set out2 := fun t => (List.range (σ t).length).flatMap (fun i =>
    (A t i).map (fun r => (r.sender, (i + t * ss, r.proposer)))) with hout2
  have hmget : ∀ t (j : Nat) l, (m t)[j]? = some l →
      j < (σ t).length ∧ l = (A t j).map (fun r => (r.proposer, r.sender)) := by
    intro t j l hl
    by_cases hj : j < (σ t).length
    · rw [hm, rangeMap_get hj] at hl
      exact ⟨hj, (Option.some.inj hl).symm⟩
    · simp [hm, hj] at hl
  have hout2mem : ∀ t x, x ∈ out2 t ↔ ∃ j r, j < (σ t).length ∧ r ∈ A t j ∧
      x = (r.sender, (j + t * ss, r.proposer)) := by
    intro t x
    simp only [hout2, List.mem_flatMap, List.mem_range, List.mem_map]
    constructor
    · rintro ⟨j, hj, r, hr, rfl⟩; exact ⟨j, r, hj, hr, rfl⟩
    · rintro ⟨j, r, hj, hr, rfl⟩; exact ⟨j, hj, r, hr, rfl⟩
  have hsend : ∀ t, t < p → ∀ r ∈ inb t, r.sample < (σ t).length ∧ r.sender < p ∧
      ∃ (i : Nat) (v : Vertex), (h r.sender).vertices[i]? = some v ∧ v.id = r.proposer ∧ i ∉ σ r.sender := by
    intro t ht r hr
    obtain ⟨s, hs, hrs⟩ := hreq t r hr
    have h3 := (h2 s hs).2
    have h4 := h3.sender _ hrs
    simp only at h4
    rw [h4]
    exact ⟨(h3.target _ hrs).2, hs, h3.proposer _ hrs⟩
  refine ⟨outs, reqs, m, out2, fun t ht => (h1 t ht).1, fun t ht => (h2 t ht).1, ?_, ?_⟩
  · intro t ht
    exact accepts_ok E hn2 opts p t (σ t).length (C :=
      { samples := sampleIds (h t) (σ t), matched := List.replicate (σ t).length [] }) rfl
      (fun r hr => ⟨(hsend t ht r hr).1, (hsend t ht r hr).2.1⟩)
  · refine ⟨?_, ?_, ?_, ?_, ?_, ?_⟩
    · intro t _; simp [hm]
    · intro t _ l hl
      obtain ⟨i, -, rfl⟩ := List.mem_map.1 hl
      rw [List.length_map]
      exact topC_length _ _ _
    · -- every vertex made at most one request
      refine Subperm.nodup' ?_ hdis
      have e1 : (List.range p).flatMap (fun t => (m t).flatten.map (·.1)) =
          (List.range p).flatMap (fun t => (List.range (σ t).length).flatMap (fun i =>
            (A t i).map (·.proposer))) := by
        congr 1
        funext t
        rw [List.map_flatten, hm, List.map_map, ← List.flatMap_def]
        congr 1
        funext i
        simp [Function.comp_def]
      rw [e1]
      have e2 : ((List.range p).flatMap (fun t => (List.range (σ t).length).flatMap (fun i =>
          (A t i).map (·.proposer)))).Subperm
          ((List.range p).flatMap (fun t => (inb t).map (·.proposer))) := by
        apply flatMap_subperm
        intro t ht
        have ht := List.mem_range.1 ht
        have e3 := (filter_keys_perm (fun r : ReqMsg F => r.sample) (σ t).length (inb t)
          (fun r hr => (hsend t ht r hr).1)).map (·.proposer)
        refine List.Subperm.trans ?_ e3.subperm
        rw [List.map_flatMap]
        apply flatMap_subperm
        intro i _
        exact subperm_map _ (topC_sub hn2 _ _)
      refine e2.trans ?_
      have e4 : ((List.range p).flatMap (fun t => (inb t).map (·.proposer))).Perm
          ((List.range p).flatMap (fun s => (reqs s).map (·.2.proposer))) := by
        have := (inboxes_perm hdR p ((List.range p).map reqs) (by
          intro o ho' x hx
          obtain ⟨s, hs, rfl⟩ := List.mem_map.1 ho'
          exact ((h2 s (List.mem_range.1 hs)).2.target x hx).1)).map (·.proposer)
        rw [List.map_flatMap] at this
        refine this.trans (List.Perm.of_eq ?_)
        rw [List.map_map, List.map_flatten, List.map_map, ← List.flatMap_def]
        rfl
      refine e4.subperm.trans ?_
      have e5 : (((List.range p).map h).flatMap (·.vertices)).map (·.id) =
          (List.range p).flatMap (fun s => (h s).vertices.map (·.id)) := by
        rw [List.map_flatMap, List.flatMap_map]
      rw [e5]
      apply flatMap_subperm
      intro s hs
      have hs := List.mem_range.1 hs
      apply List.subperm_of_subset (h2 s hs).2.nodup
      intro u hu
      obtain ⟨x, hx, rfl⟩ := List.mem_map.1 hu
      obtain ⟨i, v, hv, hid, -⟩ := (h2 s hs).2.proposer x hx
      exact List.mem_map.2 ⟨v, List.mem_of_getElem? hv, hid⟩
    · intro t ht l hl y hy
      obtain ⟨i, -, rfl⟩ := List.mem_map.1 hl
      obtain ⟨r, hr, rfl⟩ := List.mem_map.1 hy
      exact (hsend t ht r (hAsub t i r hr).1).2
    · intro s hs y
      rw [mem_inbox hdA]
      constructor
      · rintro ⟨o, ho', hx⟩
        obtain ⟨t, ht, rfl⟩ := List.mem_map.1 ho'
        obtain ⟨j, r, hj, hr, he⟩ := (hout2mem t _).1 hx
        simp only [Prod.mk.injEq] at he
        obtain ⟨rfl, rfl⟩ := he
        refine ⟨t, j, _, List.mem_range.1 ht, rangeMap_get hj _, ?_, Nat.add_comm _ _⟩
        exact List.mem_map.2 ⟨r, hr, rfl⟩
      · rintro ⟨t, j, l, ht, hl, hyl, hy1⟩
        obtain ⟨hj, rfl⟩ := hmget t j l hl
        obtain ⟨r, hr, he⟩ := List.mem_map.1 hyl
        simp only [Prod.mk.injEq] at he
        refine ⟨out2 t, List.mem_map.2 ⟨t, List.mem_range.2 ht, rfl⟩,
          (hout2mem t _).2 ⟨j, r, hj, hr, ?_⟩⟩
        obtain ⟨y1, y2⟩ := y
        simp only at he hy1
        simp only [Prod.mk.injEq]
        exact ⟨he.2.symm, by omega, he.1.symm⟩
    · intro f t j l ht hl
      obtain ⟨hj, rfl⟩ := hmget t j l hl
      have hp := (inboxes_perm hdA p ((List.range p).map out2) (by
        intro o ho' x hx
        obtain ⟨t', ht', rfl⟩ := List.mem_map.1 ho'
        obtain ⟨j, r, -, hr, rfl⟩ := (hout2mem t' _).1 hx
        exact (hsend t' (List.mem_range.1 ht') r (hAsub t' j r hr).1).2.1))
      have hp2 := ((hp.filter (fun y => y.1 = t * ss + j)).map (fun y => f y.2)).sum_eq
      rw [hp2]
      have e1 : ((List.range p).map out2).flatten.map (·.2) = (List.range p).flatMap (fun t' =>
          (List.range (σ t').length).flatMap (fun i =>
            (A t' i).map (fun r => (i + t' * ss, r.proposer)))) := by
        rw [← List.flatMap_def, List.map_flatMap]
        congr 1
        funext t'
        simp only [hout2]
        rw [List.map_flatMap]
        congr 1
        funext i
        rw [List.map_map]
        rfl
      rw [e1, List.filter_flatMap]
      have e2 : (List.range p).flatMap (fun t' => ((List.range (σ t').length).flatMap (fun i =>
            (A t' i).map (fun r => (i + t' * ss, r.proposer)))).filter (fun y => y.1 = t * ss + j)) =
          (List.range p).flatMap (fun t' => if t' = t then
            (A t j).map (fun r => (j + t * ss, r.proposer)) else []) := by
        rw [List.flatMap_def, List.flatMap_def]
        congr 1
        apply List.map_congr_left
        intro t' ht'
        have ht' := List.mem_range.1 ht'
        rw [List.filter_flatMap]
        have hkey : ∀ i, i < (σ t').length → (i + t' * ss = t * ss + j ↔ t' = t ∧ i = j) := by
          intro i hi
          have a1 : i < ss := lt_of_lt_of_le hi (hσ t' ht').2.2
          have a2 : j < ss := lt_of_lt_of_le hj (hσ t ht).2.2
          constructor
          · intro he
            have b1 := divmod_unique (t := t') a1
            have b2 := divmod_unique (t := t) a2
            rw [Nat.add_comm, he] at b1
            have c1 : t' = t := by rw [← b1.1, b2.1]
            subst c1
            exact ⟨rfl, by omega⟩
          · rintro ⟨rfl, rfl⟩; omega
        have e3 : (List.range (σ t').length).flatMap (fun i => ((A t' i).map
            (fun r => (i + t' * ss, r.proposer))).filter (fun y => y.1 = t * ss + j)) =
            (List.range (σ t').length).flatMap (fun i => if i = j then (if t' = t then
              (A t j).map (fun r => (j + t * ss, r.proposer)) else []) else []) := by
          rw [List.flatMap_def, List.flatMap_def]
          congr 1
          apply List.map_congr_left
          intro i hi
          have hi := List.mem_range.1 hi
          by_cases hc : t' = t ∧ i = j
          · obtain ⟨rfl, rfl⟩ := hc
            rw [if_pos rfl, if_pos rfl, List.filter_eq_self]
            intro y hy
            obtain ⟨r, -, rfl⟩ := List.mem_map.1 hy
            simp [Nat.add_comm]
          · have : ∀ y ∈ (A t' i).map (fun r => (i + t' * ss, r.proposer)), ¬ (decide (y.1 = t * ss + j)) = true := by
              intro y hy
              obtain ⟨r, -, rfl⟩ := List.mem_map.1 hy
              simp only [decide_eq_true_eq]
              intro he
              exact hc ((hkey i hi).1 he)
            rw [List.filter_eq_nil_iff.2 this]
            by_cases hij : i = j
            · rw [if_pos hij, if_neg (fun ht => hc ⟨ht, hij⟩)]
            · rw [if_neg hij]
        rw [e3]
        by_cases htt : t' = t
        · subst htt
          rw [if_pos rfl, flatMap_single hj]
        · rw [if_neg htt]
          rw [List.flatMap_eq_nil_iff]
          intro i _
          split <;> rfl
      rw [e2, flatMap_single ht, List.map_map, List.map_map]
      rfl

end PMondriaan

import Verif.Proofs.Conc

/-
`init_counts` computes the exact counts; `cutsize(H, C)` on exact counts is the cut-net value.
-/

namespace PMondriaan

open Spec

/-- Number of vertices in `vs` that list net `e` and are in part `p`. -/
def vcount (vs : List Vertex) (e : Nat) (p : Int) : Nat :=
  vs.countP (fun v => e ∈ v.nets ∧ v.part = p)

/-- The pins of a net are the ids of the vertices that list it. -/
theorem pins_perm {H : Hypergraph} (w : WF H) {n : Net} (hn : n ∈ H.nets) :
    n.vertices.Perm ((H.vertices.filter (fun v => n.id ∈ v.nets)).map (·.id)) := by
  rw [List.perm_ext_iff_of_nodup (w.npins n hn)]
  · intro u
    simp only [List.mem_map, List.mem_filter, decide_eq_true_eq]
    constructor
    · intro hu
      obtain ⟨v, hv, hvu, he⟩ := w.inc_vtx n hn u hu
      exact ⟨v, ⟨hv, he⟩, hvu⟩
    · rintro ⟨v, ⟨hv, he⟩, rfl⟩
      obtain ⟨m, hm, hme, hvm⟩ := w.inc_net v hv n.id he
      rwa [w.net_inj hm hn hme] at hvm
  · exact List.Nodup.sublist (List.Sublist.map _ List.filter_sublist) w.vids

theorem vcount_eq_pinCount {H : Hypergraph} (w : WF H) {n : Net} (hn : n ∈ H.nets) (p : Int) :
    vcount H.vertices n.id p = pinCount (partOf H) n p := by
  unfold vcount pinCount
  rw [(pins_perm w hn).countP_eq, List.countP_map, List.countP_filter]
  apply List.countP_congr
  intro v hv
  simp only [Function.comp_def, w.partOf_eq hv]
  simp [and_comm]

theorem initCounts_ok {H : Hypergraph} (w : WF H) (hb : Bipartitioned H) :
    ∃ C, initCounts H = .ok C ∧ CountsExact H C := by
  unfold initCounts
  have h0 : List.replicate H.nets.length (⟨0, 0⟩ : Cnt) = cOf H (fun _ => ⟨0, 0⟩) := by
    simp [cOf]
  rw [h0]
  obtain ⟨C, hC, F, hCF, hF⟩ := foldlM_inv (f := fun C v =>
      v.nets.foldlM (fun C e => do
        let j ← H.localIdNet e
        cAdd C j v.part 1) C)
    (fun pre _ C => ∃ F, C = cOf H F ∧ ∀ e, F e = ⟨(vcount pre e 0 : Nat), (vcount pre e 1 : Nat)⟩)
    H.vertices (cOf H (fun _ => ⟨0, 0⟩)) ⟨_, rfl, by simp [vcount]⟩ (by
      rintro pre v post C ⟨F, rfl, hF⟩ hl
      have hv : v ∈ H.vertices := by rw [hl]; simp
      have hp := hb v hv
      obtain ⟨C', hC', F', rfl, hF'⟩ := foldlM_inv (f := fun C e => do
          let j ← H.localIdNet e
          cAdd C j v.part 1)
        (fun pre' _ C => ∃ F', C = cOf H F' ∧ ∀ e, F' e =
          if e ∈ pre' then (F e).bump v.part 1 else F e)
        v.nets (cOf H F) ⟨F, rfl, by simp⟩ (by
          rintro pre' e post' C ⟨F', rfl, hF'⟩ hl'
          have he : e ∈ v.nets := by rw [hl']; simp
          have hnd := w.vnets v hv
          obtain ⟨j, n, hj, hne, -, hloc, -⟩ := w.net_of_vnet hv he
          subst hne
          refine ⟨_, ?_, upd F' n.id ((F' n.id).bump v.part 1), rfl, ?_⟩
          · rw [hloc]
            exact cOf_cAdd w hj hp 1
          · intro e'
            have hnot : n.id ∉ pre' := by
              rw [hl'] at hnd
              intro hm
              exact (List.nodup_append.1 hnd).2.2 _ hm _ (by simp) rfl
            unfold upd
            by_cases h : e' = n.id
            · subst h
              simp [hF', hnot]
            · simp [h, hF'])
      refine ⟨_, hC', F', rfl, ?_⟩
      intro e
      rw [hF', hF]
      simp only [vcount, List.countP_append, List.countP_cons, List.countP_nil]
      by_cases he : e ∈ v.nets
      · rcases hp with hp | hp <;> simp [he, hp, Cnt.bump]
      · simp [he])
  refine ⟨C, hC, ?_⟩
  rw [hCF]
  unfold CountsExact cOf
  apply List.map_congr_left
  intro n hn
  rw [hF, vcount_eq_pinCount w hn, vcount_eq_pinCount w hn]

/-! ### The cut from the counts -/

/-- The cut computed from counts given as a function. -/
def cutF (H : Hypergraph) (F : Nat → Cnt) : Int :=
  (H.nets.map (fun n => if (F n.id).c0 > 0 ∧ (F n.id).c1 > 0 then n.cost else 0)).sum

/-- With every pin in part 0 or 1, a net is cut iff both counts are positive. -/
theorem isCut_iff_counts {P : Nat → Int} {n : Net}
    (h : ∀ u ∈ n.vertices, P u = 0 ∨ P u = 1) :
    IsCut P n ↔ 0 < pinCount P n 0 ∧ 0 < pinCount P n 1 := by
  unfold IsCut pinCount
  simp only [List.countP_pos_iff, decide_eq_true_eq]
  constructor
  · rintro ⟨u, hu, x, hx, hne⟩
    rcases h u hu with h1 | h1 <;> rcases h x hx with h2 | h2
    · exact absurd (h1.trans h2.symm) hne
    · exact ⟨⟨u, hu, h1⟩, ⟨x, hx, h2⟩⟩
    · exact ⟨⟨x, hx, h2⟩, ⟨u, hu, h1⟩⟩
    · exact absurd (h1.trans h2.symm) hne
  · rintro ⟨⟨u, hu, h1⟩, ⟨x, hx, h2⟩⟩
    exact ⟨u, hu, x, hx, by rw [h1, h2]; decide⟩

theorem cutsizeC_loop (nets : List Net) (C : List Cnt) (hlen : C.length ≤ nets.length) :
    (C.zipIdx).foldlM (fun cut (c, i) =>
      if c.c0 > 0 ∧ c.c1 > 0 then do
        let n ← vget nets i
        pure (cut + n.cost)
      else pure cut) (0 : Int) =
    .ok (((C.zip nets).map (fun p => if p.1.c0 > 0 ∧ p.1.c1 > 0 then p.2.cost else 0)).sum) := by
  obtain ⟨r, hr, hI⟩ := foldlM_inv (f := fun cut (p : Cnt × Nat) =>
      if p.1.c0 > 0 ∧ p.1.c1 > 0 then do
        let n ← vget nets p.2
        pure (cut + n.cost)
      else pure cut)
    (fun pre _ r => r = (((C.zip nets).take pre.length).map
      (fun p => if p.1.c0 > 0 ∧ p.1.c1 > 0 then p.2.cost else 0)).sum)
    C.zipIdx (0 : Int) (by simp) (by
      intro pre a post s hI hl
      have hg : C.zipIdx[pre.length]? = some a := by rw [hl]; simp
      rw [List.getElem?_zipIdx] at hg
      obtain ⟨c, hc, hac⟩ := Option.map_eq_some_iff.1 hg
      have hi : pre.length < C.length := by
        rw [List.getElem?_eq_some_iff] at hc; exact hc.1
      have hi' : pre.length < nets.length := by omega
      have hz : (C.zip nets)[pre.length]? = some (c, nets[pre.length]) := by
        rw [List.getElem?_zip_eq_some]
        exact ⟨hc, by simp [hi']⟩
      have htake : (C.zip nets).take (pre.length + 1) =
          (C.zip nets).take pre.length ++ [(c, nets[pre.length])] := by
        rw [List.take_add_one, hz]; rfl
      subst hac
      simp only [Nat.zero_add] at *
      rw [show vget nets pre.length = .ok nets[pre.length] from vget_ok (by simp [hi'])]
      by_cases hcc : c.c0 > 0 ∧ c.c1 > 0
      · refine ⟨s + nets[pre.length].cost, by simp [hcc], ?_⟩
        simp only [List.length_append, List.length_singleton]
        rw [htake, hI]
        simp [hcc]
      · refine ⟨s, by simp only [hcc, if_false]; rfl, ?_⟩
        simp only [List.length_append, List.length_singleton]
        rw [htake, hI]
        simp only [List.map_append, List.sum_append, List.map_cons, List.map_nil, List.sum_cons,
          List.sum_nil, hcc, if_false]
        simp)
  have h2 : (C.zipIdx).foldlM (fun cut (p : Cnt × Nat) =>
      if p.1.c0 > 0 ∧ p.1.c1 > 0 then do
        let n ← vget nets p.2
        pure (cut + n.cost)
      else pure cut) (0 : Int) = .ok r := hr
  have : (C.zip nets).take C.zipIdx.length = C.zip nets := by
    apply List.take_of_length_le
    simp
  rw [this] at hI
  rw [← hI]
  exact h2

theorem cutsizeC_cOf {H H' : Hypergraph} (F : Nat → Cnt)
    (h : H'.nets.map (fun n => (n.id, n.cost)) = H.nets.map (fun n => (n.id, n.cost))) :
    cutsizeC H' (cOf H F) = .ok (cutF H F) := by
  have hlen : H'.nets.length = H.nets.length := by
    simpa using congrArg List.length h
  unfold cutsizeC
  have := cutsizeC_loop H'.nets (cOf H F) (by simp [cOf, hlen])
  refine this.trans ?_
  congr 1
  unfold cutF cOf
  congr 1
  apply List.ext_getElem
  · simp [hlen]
  · intro i h1 h2
    simp only [List.length_map] at h2
    have hi' : i < H'.nets.length := by omega
    have hc : (H'.nets[i]).cost = (H.nets[i]).cost := by
      have := congrArg (fun l => (l[i]?).map Prod.snd) h
      simpa [h2, hi'] using this
    simp [hc]

/-- On exact counts of a two-part assignment, the cut from the counts is the cut-net value. -/
theorem cutF_exact {H : Hypergraph} (P : Nat → Int) (L : Nat → List Nat)
    (hL : ∀ n ∈ H.nets, (L n.id).Perm n.vertices)
    (hP : ∀ n ∈ H.nets, ∀ u ∈ n.vertices, P u = 0 ∨ P u = 1) :
    cutF H (exactF P L) = cutNet P H.nets := by
  unfold cutF cutNet
  congr 1
  apply List.map_congr_left
  intro n hn
  have h := isCut_iff_counts (hP n hn)
  have hc : ∀ p : Int, (L n.id).countP (fun u => decide (P u = p)) = pinCount P n p := by
    intro p
    exact (hL n hn).countP_eq _
  simp only [exactF, hc]
  by_cases hcut : IsCut P n
  · have := h.1 hcut
    rw [if_pos hcut, if_pos (by omega)]
  · rw [if_neg hcut, if_neg]
    intro h'
    exact hcut (h.2 (by omega))

end PMondriaan

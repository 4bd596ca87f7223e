import Verif.Proofs.Redistribute

/-
Redistribution: what one processor sends, and what it does with the messages received.
-/

namespace PMondriaan

open Spec

/-! ### `reduce_surplus` -/

/-- What `reduce_surplus` did on processor `s`: `new` are the vertices sent, `cs` the costs. -/
structure Reduced (p s : Nat) (label : Int) (sur : Nat → Int) (W : Int) (o o' : Outgoing)
    (new : List (Nat × Vertex)) (cs : List (Nat × (Nat × Int))) : Prop where
  left : Left o.H o'.H (new.map (·.2))
  verts : o'.verts = o.verts ++ new
  costs : o'.costs = o.costs ++ cs
  mem : ∀ m ∈ new, m.2.part = label ∧ m.1 < p ∧ m.1 ≠ s ∧ 0 < sur m.1
  net1 : ∀ m ∈ new, ∀ e ∈ m.2.nets, ∃ c, (m.1, (e, c)) ∈ cs
  net2 : ∀ m ∈ cs, m.1 < p ∧ ∃ n ∈ o.H.nets, n.id = m.2.1 ∧ n.cost = m.2.2
  keeps : 0 ≤ sur s → new = []
  enough : 0 ≤ ((List.range p).map sur).sum → -sur s ≤ ((new.map (·.2)).map (·.weight)).sum
  amt : (∀ v ∈ o.H.vertices, v.weight ≤ W) → 1 ≤ W → ∀ (a : List Nat) t b,
    ringFrom p s (s + 1) = a ++ t :: b → amount new t ≤ share (-sur s) (a.map sur) (sur t) + (W - 1)

theorem ring_perm {p s : Nat} (hs : s < p) : (s :: ringFrom p s (s + 1)).Perm (List.range p) := by
  rw [List.perm_ext_iff_of_nodup (List.nodup_cons.2 ⟨by rw [mem_ring]; omega, ring_nodup p s⟩) List.nodup_range]
  intro x
  rw [List.mem_cons, mem_ring, List.mem_range]
  omega

theorem reduceSurplus_ok {ord : List Nat → List Nat} (hord : ∀ l, (ord l).Perm l) {p s : Nat} (hs : s < p)
    {label : Int} {surplus : List Int} {sur : Nat → Int} (hsur : ∀ t, t < p → surplus[t]? = some (sur t))
    (W : Int) {o : Outgoing} (w : WF o.H.updateMap) (hn : ∀ v ∈ o.H.vertices, 0 ≤ v.weight)
    (h0 : -sur s ≤ partSum o.H.vertices label) :
    ∃ o' r new cs, reduceSurplus ord p s label surplus o = .ok (o', r) ∧
      Reduced p s label sur W o o' new cs ∧
      (r = 0 ∨ (r = -1 ∧ ((List.range p).map sur).sum < 0)) := by
  unfold reduceSurplus
  rw [vget_ok (hsur s hs), ok_bind]
  by_cases h : sur s ≥ 0
  · rw [if_pos h]
    refine ⟨o, 0, [], [], rfl, ?_, Or.inl rfl⟩
    refine ⟨Left.refl w, by simp, by simp, by simp, by simp, by simp, fun _ => rfl, ?_, ?_⟩
    · intro _; simp; omega
    · intro _ h1 a t b _
      have := share_nonneg (-sur s) (a.map sur) (sur t)
      simp only [amount, List.filter_nil, List.map_nil, List.sum_nil]
      omega
  · rw [if_neg h]
    have hlen : (ringFrom p s (s + 1)).length < p + 1 := by
      have := (ring_perm hs).length_eq
      simp at this
      omega
    obtain ⟨x', r, pre, rest, new, cs, h1, h2, h3, h4⟩ := surplusLoop_ok hord hs hsur (W := W) (H0 := o.H)
      (own0 := sur s) (verts0 := o.verts) (costs0 := o.costs) w hn h0 (p + 1) []
      ⟨o.H, 0, sur s, 0, s + 1, o.verts, o.costs⟩ [] []
      { left := Left.refl w, scanned := by intro v hv; simp at hv, verts := by simp, costs := by simp
        mem := by simp, net1 := by simp, net2 := by simp, own := by simp
        top := by simp [record]
        others := fun _ => by simp [record]
        amt := fun _ _ a t b h => by simp at h } (by show s + 1 ≤ p; omega)
      (by simpa using ring_nodup p s) hlen
    rw [h1, ok_bind]
    have hring : ringFrom p s (s + 1) = pre ++ rest := by simpa using h2
    have hpre : ∀ x ∈ pre, x < p ∧ x ≠ s := by
      intro x hx
      have : x ∈ ringFrom p s (s + 1) := by rw [hring]; simp [hx]
      rw [mem_ring] at this
      omega
    have hsum : ((List.range p).map sur).sum = sur s + ((pre ++ rest).map sur).sum := by
      rw [← ((ring_perm hs).map sur).sum_eq, hring]; simp
    have hneg : x'.own < 0 → rest = [] → ((List.range p).map sur).sum < 0 := by
      intro h5 h6
      have := h3.top
      have := sum_le_record (pre.map sur)
      rw [hsum, h6, List.append_nil]
      omega
    refine ⟨⟨x'.H, x'.verts, x'.costs⟩, r, new, cs, rfl, ?_, ?_⟩
    · refine ⟨h3.left, h3.verts, h3.costs, ?_, h3.net1, ?_, fun h' => absurd h' h, ?_, ?_⟩
      · intro m hm
        obtain ⟨h5, h6, h7⟩ := h3.mem m hm
        exact ⟨h5, (hpre _ h6).1, (hpre _ h6).2, h7⟩
      · intro m hm
        obtain ⟨h5, h6⟩ := h3.net2 m hm
        exact ⟨(hpre _ h5).1, h6⟩
      · intro htot
        have hown := h3.own
        rcases h4 with ⟨h5, -⟩ | ⟨h5, -, h6⟩
        · omega
        · have := hneg h5 h6; omega
      · intro hW h1W a t b hab
        by_cases ht : t ∈ pre
        · obtain ⟨a', b', hp⟩ := List.append_of_mem ht
          have hnd := ring_nodup p s
          have hab' : a ++ t :: b = a' ++ t :: (b' ++ rest) := by rw [← hab, hring, hp]; simp
          have hta : t ∉ a := by
            rw [hab] at hnd
            intro hm
            exact List.disjoint_of_nodup_append hnd hm (by simp)
          have hta' : t ∉ a' := by
            rw [hab, hab'] at hnd
            intro hm
            exact List.disjoint_of_nodup_append hnd hm (by simp)
          have haa : a = a' := by
            have h5 := congrArg (List.takeWhile (fun x => x ≠ t)) hab'
            rw [List.takeWhile_append_of_pos (by intro x hx; simpa using fun h : x = t => hta (h ▸ hx)),
              List.takeWhile_append_of_pos (by intro x hx; simpa using fun h : x = t => hta' (h ▸ hx))] at h5
            simpa using h5
          subst haa
          exact h3.amt hW h1W a t b' hp
        · rw [amount_none (t := t) (fun m hm h => ht (h ▸ (h3.mem m hm).2.1))]
          have := share_nonneg (-sur s) (a.map sur) (sur t)
          omega
    · rcases h4 with ⟨-, h5⟩ | ⟨h5, h6, h7⟩
      · exact Or.inl h5
      · exact Or.inr ⟨h6, hneg h5 h7⟩

/-! ### Taking the low vertices apart -/

theorem pullLoop_ok (label : Int) : ∀ (a b acc : List Vertex),
    (List.range a.length).reverse.foldlM (pullStep label) (a ++ b, acc) =
      .ok (a.filter (fun v => v.part ≠ label) ++ b, acc ++ (a.filter (fun v => v.part = label)).reverse) := by
  intro a
  induction a using List.reverseRecOn with
  | nil => intro b acc; simp
  | append_singleton a v ih =>
    intro b acc
    rw [List.length_append, List.length_singleton, List.range_succ, List.reverse_append]
    simp only [List.reverse_singleton, List.singleton_append, List.foldlM_cons]
    have hget : (a ++ [v] ++ b)[a.length]? = some v := by simp
    have hstep : pullStep label (a ++ [v] ++ b, acc) a.length =
        .ok (if v.part = label then (a ++ b, acc ++ [v]) else (a ++ (v :: b), acc)) := by
      unfold pullStep
      simp only [hget]
      split
      · rw [List.append_assoc, List.eraseIdx_append_of_length_le (Nat.le_refl _)]
        simp
      · simp
    rw [hstep, ok_bind]
    by_cases h : v.part = label
    · rw [if_pos h, ih]
      simp [h]
    · rw [if_neg h, ih]
      simp [h]

theorem pullLabel_ok (label : Int) (vs : List Vertex) :
    pullLabel label vs = .ok (vs.filter (fun v => v.part ≠ label),
      (vs.filter (fun v => v.part = label)).reverse) := by
  have := pullLoop_ok label vs [] []
  simpa [pullLabel] using this

/-! ### What a processor sends -/

/-- `H` with the vertices put aside. -/
def withBack (H : Hypergraph) (vs0 : List Vertex) : Hypergraph := { H with vertices := H.vertices ++ vs0 }

theorem wf_perm {H : Hypergraph} (w : WF H.updateMap) {l : List Vertex} (h : l.Perm H.vertices) :
    WF ({ H with vertices := l } : Hypergraph).updateMap := by
  have hnd : (l.map (·.id)).Nodup := (h.map _).nodup_iff.2 w.vids
  refine ⟨hnd, w.nids, fun u i => buildMap_spec hnd u i, w.nmap, ?_, w.npins, ?_, ?_⟩
  · intro v hv; exact w.vnets v (h.mem_iff.1 hv)
  · intro v hv; exact w.inc_net v (h.mem_iff.1 hv)
  · intro n hn u hu
    obtain ⟨v, hv, h1⟩ := w.inc_vtx n hn u hu
    exact ⟨v, h.mem_iff.2 hv, h1⟩

/-- What processor `s` did before the synchronization. -/
structure SentOut (p s plow : Nat) (low high : Int) (sur0 sur1 : Nat → Int) (W : Int) (H : Hypergraph)
    (o : Outgoing) (vs0 : List Vertex) (new0 new1 : List (Nat × Vertex)) : Prop where
  left : Left H (withBack o.H vs0) ((new1 ++ new0).map (·.2))
  verts : o.verts = new1 ++ new0
  mem1 : ∀ m ∈ new1, m.2.part = high ∧ m.1 < p ∧ m.1 ≠ s ∧ 0 < sur1 m.1
  mem0 : ∀ m ∈ new0, m.2.part = low ∧ m.1 < p ∧ m.1 ≠ s ∧ 0 < sur0 m.1
  net1 : ∀ m ∈ o.verts, ∀ e ∈ m.2.nets, ∃ c, (m.1, (e, c)) ∈ o.costs
  net2 : ∀ m ∈ o.costs, m.1 < p ∧ ∃ n ∈ H.nets, n.id = m.2.1 ∧ n.cost = m.2.2
  enough1 : 0 ≤ ((List.range p).map sur1).sum → -sur1 s ≤ ((new1.map (·.2)).map (·.weight)).sum
  enough0 : 0 < plow → 0 ≤ ((List.range p).map sur0).sum → -sur0 s ≤ ((new0.map (·.2)).map (·.weight)).sum
  amt1 : (∀ v ∈ H.vertices, v.weight ≤ W) → 1 ≤ W → ∀ (a : List Nat) t b,
    ringFrom p s (s + 1) = a ++ t :: b → amount new1 t ≤ share (-sur1 s) (a.map sur1) (sur1 t) + (W - 1)
  amt0 : (∀ v ∈ H.vertices, v.weight ≤ W) → 1 ≤ W → ∀ (a : List Nat) t b,
    ringFrom p s (s + 1) = a ++ t :: b → amount new0 t ≤ share (-sur0 s) (a.map sur0) (sur0 t) + (W - 1)
  keeps1 : 0 ≤ sur1 s → new1 = []
  keeps0 : 0 ≤ sur0 s ∨ plow = 0 → new0 = []
  back : vs0 = if plow = 0 then ((withBack o.H vs0).vertices.filter (fun v => v.part = low)) else []
  front : plow = 0 → ∀ v ∈ o.H.vertices, v.part ≠ low

theorem redistSend_ok {ord : List Nat → List Nat} (hord : ∀ l, (ord l).Perm l) {p s plow : Nat} (hs : s < p)
    {low high : Int} (hlh : low ≠ high) {l0 l1 : List Int} {sur0 sur1 : Nat → Int}
    (h0 : ∀ t, t < p → l0[t]? = some (sur0 t)) (h1 : ∀ t, t < p → l1[t]? = some (sur1 t))
    (W : Int) {H : Hypergraph} (w : WF H) (hn : WeightsNonneg H)
    (hw0 : -sur0 s ≤ partWeight H low) (hw1 : -sur1 s ≤ partWeight H high) :
    ∃ o vs0 new0 new1, redistSend ord p s plow low high l0 l1 H = .ok (o, vs0) ∧
      SentOut p s plow low high sur0 sur1 W H o vs0 new0 new1 := by
  have wm : WF H.updateMap := by
    refine ⟨w.vids, w.nids, fun u i => buildMap_spec w.vids u i, w.nmap, w.vnets, w.npins, w.inc_net, w.inc_vtx⟩
  obtain ⟨o1, r1, new1, cs1, hr1, hR1, -⟩ := reduceSurplus_ok hord hs (label := high) h1 W
    (o := ⟨H, [], []⟩) wm hn hw1
  have hlw : partSum o1.H.vertices low = partSum H.vertices low := by
    have h2 := hR1.left.partSum low
    have h3 : partSum (new1.map (·.2)) low = 0 := by
      apply partSum_none
      intro v hv
      obtain ⟨m, hm, rfl⟩ := List.mem_map.1 hv
      rw [(hR1.mem m hm).1]
      exact fun h => hlh h.symm
    rw [h3] at h2
    simpa using h2
  unfold redistSend
  rw [hr1, ok_bind]
  dsimp only
  by_cases hp : plow > 0
  · rw [if_pos hp]
    obtain ⟨o2, r2, new0, cs0, hr2, hR2, -⟩ := reduceSurplus_ok hord hs (label := low) h0 W
      (o := o1) hR1.left.wf (fun v hv => hn v (hR1.left.mem hv)) (by rw [hlw]; exact hw0)
    rw [hr2, ok_bind]
    refine ⟨o2, [], new0, new1, rfl, ?_⟩
    have hverts : o2.verts = new1 ++ new0 := by rw [hR2.verts, hR1.verts]; simp
    have hcosts : o2.costs = cs1 ++ cs0 := by rw [hR2.costs, hR1.costs]; simp
    refine ⟨?_, hverts, hR1.mem, hR2.mem, ?_, ?_, hR1.enough, fun _ => hR2.enough, hR1.amt, ?_,
      hR1.keeps, ?_, ?_, ?_⟩
    · have := hR1.left.trans hR2.left
      rw [List.map_append]
      have he : withBack o2.H [] = o2.H := by unfold withBack; simp
      rw [he]; exact this
    · intro m hm e he
      rw [hverts] at hm
      rw [hcosts]
      rcases List.mem_append.1 hm with hm | hm
      · obtain ⟨c, hc⟩ := hR1.net1 m hm e he; exact ⟨c, by simp [hc]⟩
      · obtain ⟨c, hc⟩ := hR2.net1 m hm e he; exact ⟨c, by simp [hc]⟩
    · intro m hm
      rw [hcosts] at hm
      rcases List.mem_append.1 hm with hm | hm
      · exact hR1.net2 m hm
      · obtain ⟨h2, n, h3, h4, h5⟩ := hR2.net2 m hm
        obtain ⟨n', h6, h7, h8⟩ := hR1.left.wasNet h3
        exact ⟨h2, n', h6, h7.trans h4, h8.trans h5⟩
    · intro hW
      exact hR2.amt (fun v hv => hW v (hR1.left.mem hv))
    · rintro (h | h)
      · exact hR2.keeps h
      · omega
    · rw [if_neg (by omega)]
    · intro h; omega
  · rw [if_neg hp, pullLabel_ok, ok_bind]
    have hp0 : plow = 0 := by omega
    refine ⟨_, _, [], new1, rfl, ?_⟩
    have hverts : o1.verts = new1 := by rw [hR1.verts]; simp
    have hcosts : o1.costs = cs1 := by rw [hR1.costs]; simp
    have hperm : (o1.H.vertices.filter (fun v => v.part ≠ low) ++
        (o1.H.vertices.filter (fun v => v.part = low)).reverse).Perm o1.H.vertices := by
      refine List.Perm.trans (List.Perm.append_left _ (List.reverse_perm _)) ?_
      refine List.Perm.trans List.perm_append_comm ?_
      have := List.filter_append_perm (fun v : Vertex => decide (v.part = low)) o1.H.vertices
      simpa using this
    refine ⟨?_, ?_, hR1.mem, by simp, ?_, ?_, hR1.enough, fun h => absurd h hp, hR1.amt, ?_, hR1.keeps,
      fun _ => rfl, ?_, ?_⟩
    · refine ⟨wf_perm hR1.left.wf hperm, ?_, hR1.left.nets⟩
      rw [List.append_nil]
      exact (hperm.append_right _).trans hR1.left.perm
    · rw [List.append_nil]; exact hverts
    · intro m hm e he
      show ∃ c, _ ∈ o1.costs
      rw [hcosts]
      exact hR1.net1 m (by rw [← hverts]; exact hm) e he
    · intro m hm
      exact hR1.net2 m (by rw [← hcosts]; exact hm)
    · intro _ h1W a t b _
      have := share_nonneg (-sur0 s) (a.map sur0) (sur0 t)
      simp only [amount, List.filter_nil, List.map_nil, List.sum_nil]
      omega
    · rw [if_pos hp0]
      show _ = List.filter _ (_ ++ _)
      rw [List.filter_append, List.filter_reverse, List.filter_filter, List.filter_filter]
      simp
    · intro _ v hv
      simpa using (List.mem_filter.1 hv).2

end PMondriaan

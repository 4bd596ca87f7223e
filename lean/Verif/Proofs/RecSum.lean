import Verif.Spec.RecSum
import Verif.Proofs.RecBisect
import Mathlib.Data.Finset.Card
import Mathlib.Data.Finset.Dedup

/-
The λ - 1 value and the costs of the bisections.
-/

namespace PMondriaan

open Spec

/-- The number of labels depends only on which pins have the same label. -/
theorem dedup_congr (A B : Nat → Int) : ∀ l : List Nat, (∀ u ∈ l, ∀ w ∈ l, A u = A w ↔ B u = B w) →
    (l.map A).dedup.length = (l.map B).dedup.length := by
  intro l
  induction l with
  | nil => intro _; rfl
  | cons a t ih =>
    intro h
    have ht := ih fun u hu w hw => h u (List.mem_cons_of_mem _ hu) w (List.mem_cons_of_mem _ hw)
    have hm : A a ∈ t.map A ↔ B a ∈ t.map B := by
      simp only [List.mem_map]
      constructor
      · rintro ⟨w, hw, e⟩
        exact ⟨w, hw, (h w (List.mem_cons_of_mem _ hw) a (List.mem_cons_self ..)).1 e⟩
      · rintro ⟨w, hw, e⟩
        exact ⟨w, hw, (h w (List.mem_cons_of_mem _ hw) a (List.mem_cons_self ..)).2 e⟩
    rw [List.map_cons, List.map_cons]
    by_cases hA : A a ∈ t.map A
    · rw [List.dedup_cons_of_mem hA, List.dedup_cons_of_mem (hm.1 hA), ht]
    · rw [List.dedup_cons_of_notMem hA, List.dedup_cons_of_notMem (fun hB => hA (hm.2 hB)), List.length_cons,
        List.length_cons, ht]

/-- One class of pins is split in two. -/
theorem dedup_split {X : Nat → Prop} {A B : Nat → Int} {low high : Int} (hlh : low ≠ high) {l : List Nat}
    (hin : ∀ u ∈ l, X u → B u = low ∧ (A u = low ∨ A u = high))
    (hout : ∀ u ∈ l, ¬ X u → B u = A u ∧ A u ≠ low ∧ A u ≠ high) [Decidable (∃ u ∈ l, ∃ w ∈ l, X u ∧ X w ∧ A u ≠ A w)] :
    (l.map A).dedup.length - 1 = (l.map B).dedup.length - 1 +
      if ∃ u ∈ l, ∃ w ∈ l, X u ∧ X w ∧ A u ≠ A w then 1 else 0 := by
  by_cases hb : ∃ u ∈ l, ∃ w ∈ l, X u ∧ X w ∧ A u ≠ A w
  · rw [if_pos hb]
    have hb' : (∃ u ∈ l, X u ∧ A u = low) ∧ ∃ u ∈ l, X u ∧ A u = high := by
      obtain ⟨u, hu, w, hw, xu, xw, hne⟩ := hb
      rcases (hin u hu xu).2 with h1 | h1 <;> rcases (hin w hw xw).2 with h2 | h2
      · exact absurd (h1.trans h2.symm) hne
      · exact ⟨⟨u, hu, xu, h1⟩, ⟨w, hw, xw, h2⟩⟩
      · exact ⟨⟨w, hw, xw, h2⟩, ⟨u, hu, xu, h1⟩⟩
      · exact absurd (h1.trans h2.symm) hne
    obtain ⟨⟨u, hu, xu, h1⟩, ⟨w, hw, xw, h2⟩⟩ := hb'
    have e : (l.map A).toFinset = insert high (l.map B).toFinset := by
      ext x
      simp only [List.mem_toFinset, List.mem_map, Finset.mem_insert]
      constructor
      · rintro ⟨a, ha, rfl⟩
        by_cases xa : X a
        · rcases (hin a ha xa).2 with h | h
          · exact Or.inr ⟨a, ha, (hin a ha xa).1.trans h.symm⟩
          · exact Or.inl h
        · exact Or.inr ⟨a, ha, (hout a ha xa).1⟩
      · rintro (rfl | ⟨a, ha, rfl⟩)
        · exact ⟨w, hw, h2⟩
        · by_cases xa : X a
          · exact ⟨u, hu, h1.trans (hin a ha xa).1.symm⟩
          · exact ⟨a, ha, (hout a ha xa).1.symm⟩
    have hn : high ∉ (l.map B).toFinset := by
      simp only [List.mem_toFinset, List.mem_map, not_exists, not_and]
      intro a ha he
      by_cases xa : X a
      · exact hlh ((hin a ha xa).1.symm.trans he)
      · exact (hout a ha xa).2.2 ((hout a ha xa).1.symm.trans he)
    have hc := congrArg Finset.card e
    rw [Finset.card_insert_of_notMem hn, List.card_toFinset, List.card_toFinset] at hc
    have hpos : 0 < (l.map B).dedup.length := by
      apply List.length_pos_of_mem (a := B u)
      rw [List.mem_dedup]
      exact List.mem_map_of_mem hu
    omega
  · rw [if_neg hb, Nat.add_zero]
    congr 1
    apply dedup_congr
    intro u hu w hw
    by_cases xu : X u <;> by_cases xw : X w
    · have : A u = A w := by
        by_contra hne
        exact hb ⟨u, hu, w, hw, xu, xw, hne⟩
      rw [(hin u hu xu).1, (hin w hw xw).1]
      simp [this]
    · have h1 := (hin u hu xu).2
      have h2 := hout w hw xw
      rw [(hin u hu xu).1, h2.1]
      constructor
      · intro h; rw [← h] at h2; rcases h1 with h1 | h1
        · exact absurd h1 h2.2.1
        · exact absurd h1 h2.2.2
      · intro h; exact absurd h.symm h2.2.1
    · have h1 := (hin w hw xw).2
      have h2 := hout u hu xu
      rw [(hin w hw xw).1, h2.1]
      constructor
      · intro h; rw [h] at h2; rcases h1 with h1 | h1
        · exact absurd h1 h2.2.1
        · exact absurd h1 h2.2.2
      · intro h; exact absurd h h2.2.1
    · rw [(hout u hu xu).1, (hout w hw xw).1]

/-- The labels when the range is taken as one part. -/
def joined (H : Hypergraph) (S E : Nat) (c : Int) (u : Nat) : Int :=
  if u ∈ (slice H.vertices S E).map (·.id) then c else partOf H u

theorem connectivity_congr {A B : Nat → Int} {n : Net} (h : ∀ u ∈ n.vertices, ∀ w ∈ n.vertices, A u = A w ↔ B u = B w) :
    connectivity A n = connectivity B n := dedup_congr A B n.vertices h

theorem index_unique {H : Hypergraph} (w : WF H) {i j : Nat} {v v' : Vertex} (hi : H.vertices[i]? = some v)
    (hj : H.vertices[j]? = some v') (h : v.id = v'.id) : i = j := by
  have h1 : (H.vertices.map (·.id))[i]? = some v.id := by rw [List.getElem?_map, hi]; rfl
  have h2 : (H.vertices.map (·.id))[j]? = some v.id := by rw [List.getElem?_map, hj, h]; rfl
  have a := (w.vmap v.id i).2 h1
  have b := (w.vmap v.id j).2 h2
  rw [a] at b
  exact Option.some.inj b

theorem mem_slice_iff {H : Hypergraph} (w : WF H) {S E i : Nat} {v : Vertex} (hi : H.vertices[i]? = some v) :
    v.id ∈ (slice H.vertices S E).map (·.id) ↔ S ≤ i ∧ i < E := by
  constructor
  · intro h
    obtain ⟨v', hv', he⟩ := List.mem_map.1 h
    obtain ⟨j, h1, h2, h3⟩ := mem_slice.1 hv'
    rw [index_unique w hi h3 he.symm]
    exact ⟨h1, h2⟩
  · rintro ⟨h1, h2⟩
    exact List.mem_map.2 ⟨v, mem_slice.2 ⟨i, h1, h2, hi⟩, rfl⟩

/-- A bisection of a range whose labels nobody else has. -/
theorem connectivity_relabels {H H1 : Hypergraph} (w : WF H) (w1 : WF H1) {S E : Nat} {low high : Int} (hlh : low ≠ high)
    (hr : Relabels S E low high H H1)
    (hout : ∀ (i : Nat) (v : Vertex), H.vertices[i]? = some v → i < S ∨ E ≤ i → v.part ≠ low ∧ v.part ≠ high)
    {n : Net} (hnm : n ∈ H.nets) :
    connectivity (partOf H1) n - 1 = connectivity (joined H S E low) n - 1 + if CutIn H1 S E n.vertices then 1 else 0 := by
  have hpin : ∀ u ∈ n.vertices, ∃ i v v', H.vertices[i]? = some v ∧ v.id = u ∧ H1.vertices[i]? = some v' ∧ v'.id = u ∧
      partOf H u = v.part ∧ partOf H1 u = v'.part ∧
      ((S ≤ i ∧ i < E ∧ (v'.part = low ∨ v'.part = high)) ∨ ((i < S ∨ E ≤ i) ∧ v' = v)) := by
    intro u hu
    obtain ⟨v, hv, rfl, -⟩ := w.inc_vtx n hnm u hu
    obtain ⟨i, hi⟩ := List.mem_iff_getElem?.1 hv
    by_cases hc : S ≤ i ∧ i < E
    · obtain ⟨p, hp, hp2⟩ := hr.inside i v hc.1 hc.2 hi
      refine ⟨i, v, _, hi, rfl, hp2, rfl, w.partOf_eq hv, ?_, Or.inl ⟨hc.1, hc.2, hp⟩⟩
      exact w1.partOf_eq (List.mem_of_getElem? hp2)
    · have ho : i < S ∨ E ≤ i := by omega
      have hi1 := hr.outside i ho
      rw [hi] at hi1
      exact ⟨i, v, v, hi, rfl, hi1, rfl, w.partOf_eq hv, w1.partOf_eq (List.mem_of_getElem? hi1), Or.inr ⟨ho, rfl⟩⟩
  have hiff : CutIn H1 S E n.vertices ↔
      ∃ u ∈ n.vertices, ∃ w ∈ n.vertices, u ∈ (slice H.vertices S E).map (·.id) ∧
        w ∈ (slice H.vertices S E).map (·.id) ∧ partOf H1 u ≠ partOf H1 w := by
    have h1 : ∀ x : Vertex, x ∈ slice H1.vertices S E → x.id ∈ (slice H.vertices S E).map (·.id) ∧
        partOf H1 x.id = x.part := by
      intro x hx
      obtain ⟨i, i1, i2, i3⟩ := mem_slice.1 hx
      have hil : i < H.vertices.length := by
        rw [← hr.length]; exact (List.getElem?_eq_some_iff.1 i3).1
      have hi := List.getElem?_eq_getElem hil
      obtain ⟨p, -, hp⟩ := hr.inside i _ i1 i2 hi
      rw [i3] at hp
      refine ⟨?_, w1.partOf_eq (List.mem_of_getElem? i3)⟩
      rw [Option.some.inj hp]
      exact (mem_slice_iff w hi).2 ⟨i1, i2⟩
    constructor
    · rintro ⟨u, hu, x, hx, a, b, c⟩
      refine ⟨u.id, a, x.id, b, (h1 u hu).1, (h1 x hx).1, ?_⟩
      rw [(h1 u hu).2, (h1 x hx).2]
      exact c
    · rintro ⟨u, hu, x, hx, xu, xx, c⟩
      have h2 : ∀ y ∈ n.vertices, y ∈ (slice H.vertices S E).map (·.id) →
          ∃ z ∈ slice H1.vertices S E, z.id = y ∧ partOf H1 y = z.part := by
        intro y hy xy
        obtain ⟨i, v, v', a1, a2, a3, a4, -, a6, -⟩ := hpin y hy
        rw [← a2, mem_slice_iff w a1] at xy
        exact ⟨v', mem_slice.2 ⟨i, xy.1, xy.2, a3⟩, a4, a6⟩
      obtain ⟨z, z1, z2, z3⟩ := h2 u hu xu
      obtain ⟨y, y1, y2, y3⟩ := h2 x hx xx
      exact ⟨z, z1, y, y1, by rw [z2]; exact hu, by rw [y2]; exact hx, by rw [← z3, ← y3]; exact c⟩
  have hs := dedup_split (X := fun u => u ∈ (slice H.vertices S E).map (·.id)) (A := partOf H1)
    (B := joined H S E low) hlh (l := n.vertices) (by
      intro u hu xu
      refine ⟨if_pos xu, ?_⟩
      obtain ⟨i, v, v', a1, a2, a3, a4, a5, a6, a7⟩ := hpin u hu
      rw [← a2, mem_slice_iff w a1] at xu
      rw [a6]
      rcases a7 with ⟨-, -, a⟩ | ⟨a, -⟩
      · exact a
      · omega) (by
      intro u hu xu
      obtain ⟨i, v, v', a1, a2, a3, a4, a5, a6, a7⟩ := hpin u hu
      have xu' := xu
      rw [← a2, mem_slice_iff w a1] at xu
      rcases a7 with ⟨b, c, -⟩ | ⟨a, rfl⟩
      · omega
      · refine ⟨?_, ?_⟩
        · unfold joined
          rw [if_neg xu', a5, a6]
        · rw [a6]; exact hout i _ a1 a)
  unfold connectivity
  rw [hs]
  by_cases hb : ∃ u ∈ n.vertices, ∃ w ∈ n.vertices, u ∈ (slice H.vertices S E).map (·.id) ∧
        w ∈ (slice H.vertices S E).map (·.id) ∧ partOf H1 u ≠ partOf H1 w
  · rw [if_pos hb, if_pos (hiff.2 hb)]
  · rw [if_neg hb, if_neg (fun h => hb (hiff.1 h))]

/-- Rearranging the vertices changes no part. -/
theorem partOf_perm {H H' : Hypergraph} (w : WF H) (w' : WF H') (h : H'.vertices.Perm H.vertices) {n : Net}
    (hn : n ∈ H.nets) {u : Nat} (hu : u ∈ n.vertices) : partOf H' u = partOf H u := by
  obtain ⟨v, hv, rfl, -⟩ := w.inc_vtx n hn u hu
  rw [w.partOf_eq hv, w'.partOf_eq (h.mem_iff.2 hv)]

/-! ### The invariant -/

/-- A position is in the range of a work item. -/
def InItem (j : WorkItem) (i : Nat) : Prop := j.start ≤ i ∧ (i : Int) < j.fin

/-- The vertices of every job have one label, and nobody else has one of its labels; with the current range
taken as one part, a net has `acc` parts more than one. -/
structure SumInv (cur : WorkItem) (s : RecState) (acc : Net → Nat) : Prop where
  common : ∀ j ∈ s.jobs, ∃ c, j.low ≤ c ∧ c ≤ j.high ∧ ∀ (i : Nat) (v : Vertex), s.H.vertices[i]? = some v →
    (InItem j i → v.part = c) ∧ (¬ InItem j i → v.part < j.low ∨ j.high < v.part)
  outside : cur.low < cur.high → ∀ (i : Nat) (v : Vertex), s.H.vertices[i]? = some v → ¬ InItem cur i →
    v.part < cur.low ∨ cur.high < v.part
  before : cur.low < cur.high → ∀ j ∈ s.jobs, cur.high < j.low ∧ cur.fin ≤ j.start
  order : s.jobs.Pairwise (fun a b => a.high < b.low ∧ a.fin ≤ b.start)
  value : ∀ n ∈ s.H.nets, connectivity (if cur.low < cur.high then joined s.H cur.start.toNat cur.fin.toNat cur.low
    else partOf s.H) n - 1 = acc n

theorem SumInv.step {P : RecEnv} {N f k : Nat} {H0 : Hypergraph} {M : Int} {acc : Net → Nat} {cur cur' : WorkItem}
    {s s' : RecState} {S E : Nat} {H1 H2 : Hypergraph} {w0 w1 : Int} (hc : P.cutMetric = false)
    (hI : RecInv P N f k H0 cur s) (hJ : SumInv cur s acc) (hlh : cur.low < cur.high) (hS : cur.start = S)
    (hE : cur.fin = E) (hEl : E ≤ s.H.vertices.length)
    (h : SplitFacts P M cur s cur' s' S E H1 H2 w0 w1) :
    SumInv cur' s' (fun n => acc n + if CutIn H1 S E n.vertices then 1 else 0) ∨ ∃ j ∈ s'.jobs, j.weight = 0 ∧ j.low < j.high := by
  have hH : s'.H = H2 := by
    rcases h.aside with ⟨a, -⟩ | ⟨a, -⟩
    · rw [hc] at a; cases a
    · exact a
  have w1f : WF H1 := (relabels_fit h.relabels hI.fit).wf
  have hn1 : H1.nets = s.H.nets := by rw [h.relabels.rest]
  have hlow := h.cur_low
  have hhigh := h.cur_high
  have hout : ∀ (i : Nat) (v : Vertex), s.H.vertices[i]? = some v → i < S ∨ E ≤ i →
      v.part < cur.low ∨ cur.high < v.part := by
    intro i v hv hi
    refine hJ.outside hlh i v hv ?_
    unfold InItem
    omega
  have hval : ∀ n ∈ H2.nets, connectivity (partOf H2) n - 1 = acc n + if CutIn H1 S E n.vertices then 1 else 0 := by
    intro n hn
    rw [h.nets2] at hn
    have e1 : connectivity (partOf H2) n = connectivity (partOf H1) n := by
      apply connectivity_congr
      intro u hu w hw
      rw [← hn1] at hn
      rw [partOf_perm w1f h.fit2 h.perm2 hn hu, partOf_perm w1f h.fit2 h.perm2 hn hw]
    rw [e1, connectivity_relabels hI.fit.wf w1f (by omega) h.relabels (fun i v hv hi => by
      have := hout i v hv hi
      omega) hn, ← hJ.value n hn, if_pos hlh, hS, hE]
    simp only [Int.toNat_natCast]
  have hold : ∀ j ∈ s.jobs, ∃ c, j.low ≤ c ∧ c ≤ j.high ∧ ∀ (i : Nat) (v : Vertex), H2.vertices[i]? = some v →
      (InItem j i → v.part = c) ∧ (¬ InItem j i → v.part < j.low ∨ j.high < v.part) := by
    intro j hj
    obtain ⟨c, c1, c2, c3⟩ := hJ.common j hj
    have hb := hJ.before hlh j hj
    refine ⟨c, c1, c2, ?_⟩
    intro i v hv
    by_cases hi : S ≤ i ∧ i < E
    · refine ⟨?_, ?_⟩
      · intro hin
        unfold InItem at hin
        omega
      · intro _
        rcases h.inside2 hEl hi.1 hi.2 hv with h1 | h1 <;> rw [h1] <;> omega
    · rw [h.outside2 (by omega)] at hv
      exact c3 i v hv
  rcases h.reorder with ⟨a, b, ⟨m, c, d⟩ | ⟨c, d, e⟩⟩ | ⟨a, b, c⟩
  · left
    have hms := d.start_le
    have hme := d.le_end
    refine ⟨?_, ?_, ?_, ?_, ?_⟩
    · rw [b, hH]
      intro j hj
      rcases List.mem_cons.1 hj with rfl | hj
      · refine ⟨cur.high, by dsimp only; omega, le_refl _, ?_⟩
        intro i v hv
        unfold InItem
        dsimp only
        constructor
        · intro hi
          exact d.highs v (mem_slice.2 ⟨i, by omega, by omega, hv⟩)
        · intro hi
          by_cases hi2 : S ≤ i ∧ i < m
          · rw [d.lows v (mem_slice.2 ⟨i, hi2.1, hi2.2, hv⟩)]
            omega
          · rw [h.outside2 (by omega)] at hv
            have := hout i v hv (by omega)
            omega
      · exact hold j hj
    · intro hlh' i v hv hi
      rw [hH] at hv
      unfold InItem at hi
      rw [h.cur_start] at hi
      by_cases hi2 : m ≤ i ∧ i < E
      · rw [d.highs v (mem_slice.2 ⟨i, hi2.1, hi2.2, hv⟩)]
        omega
      · rw [h.outside2 (by omega)] at hv
        have := hout i v hv (by omega)
        omega
    · intro hlh' j hj
      rw [b] at hj
      rcases List.mem_cons.1 hj with rfl | hj
      · dsimp only; omega
      · have := hJ.before hlh j hj
        omega
    · rw [b, List.pairwise_cons]
      refine ⟨?_, hJ.order⟩
      intro j hj
      exact hJ.before hlh j hj
    · rw [hH]
      intro n hn
      rw [← hval n hn]
      by_cases hlh' : cur'.low < cur'.high
      · rw [if_pos hlh']
        congr 1
        apply connectivity_congr
        have hj : ∀ n ∈ H2.nets, ∀ u ∈ n.vertices, joined H2 cur'.start.toNat cur'.fin.toNat cur'.low u = partOf H2 u := by
          intro n hn u hu
          unfold joined
          split
          · rename_i hm
            obtain ⟨v, hv, rfl⟩ := List.mem_map.1 hm
            have hv' := hv
            rw [h.cur_start, hS, c] at hv
            rw [h.fit2.partOf_eq (by obtain ⟨i, -, -, hi⟩ := mem_slice.1 hv'; exact List.mem_of_getElem? hi), d.lows v (by simpa using hv), hlow]
          · rfl
        intro u hu w hw
        rw [hj n hn u hu, hj n hn w hw]
      · rw [if_neg hlh']
  · right
    refine ⟨_, by rw [b]; exact List.mem_cons_self .., e, ?_⟩
    dsimp only
    omega
  · left
    have hnl : ¬ cur'.low < cur'.high := by omega
    refine ⟨?_, fun h => absurd h hnl, fun h => absurd h hnl, ?_, ?_⟩
    · rw [b, hH]
      exact hold
    · rw [b]; exact hJ.order
    · rw [if_neg hnl, hH]; exact hval

theorem SumInv.pop {acc : Net → Nat} {cur j : WorkItem} {s : RecState} {js : List WorkItem}
    (w : WF s.H) (hJ : SumInv cur s acc) (hlh : ¬ cur.low < cur.high) (hj : s.jobs = j :: js) :
    SumInv j { s with jobs := js } acc := by
  have hord := hJ.order
  rw [hj, List.pairwise_cons] at hord
  obtain ⟨c, c1, c2, c3⟩ := hJ.common j (by rw [hj]; exact List.mem_cons_self ..)
  refine ⟨?_, ?_, fun _ => hord.1, hord.2, ?_⟩
  · intro j' hj'
    exact hJ.common j' (by rw [hj]; exact List.mem_cons_of_mem _ hj')
  · intro _ i v hv
    exact (c3 i v hv).2
  · intro n hn
    rw [← hJ.value n hn, if_neg hlh]
    split
    · congr 1
      apply connectivity_congr
      have hp : ∀ n ∈ s.H.nets, ∀ u ∈ n.vertices,
          (joined s.H j.start.toNat j.fin.toNat j.low u = j.low ∧ partOf s.H u = c) ∨
          (joined s.H j.start.toNat j.fin.toNat j.low u = partOf s.H u ∧
            (partOf s.H u < j.low ∨ j.high < partOf s.H u)) := by
        intro n hn u hu
        obtain ⟨v, hv, rfl, -⟩ := w.inc_vtx n hn u hu
        obtain ⟨i, hi⟩ := List.mem_iff_getElem?.1 hv
        unfold joined
        rw [w.partOf_eq hv]
        by_cases hin : InItem j i
        · rw [if_pos ((mem_slice_iff w hi).2 (by unfold InItem at hin; omega))]
          exact Or.inl ⟨rfl, (c3 i v hi).1 hin⟩
        · rw [if_neg (fun hm => hin (by have := (mem_slice_iff w hi).1 hm; unfold InItem; omega))]
          exact Or.inr ⟨rfl, (c3 i v hi).2 hin⟩
      intro u hu x hx
      rcases hp n hn u hu with ⟨a1, a2⟩ | ⟨a1, a2⟩ <;> rcases hp n hn x hx with ⟨b1, b2⟩ | ⟨b1, b2⟩ <;>
        dsimp only <;> rw [a1, b1] <;> omega
    · rfl

/-- A job of weight zero is the end of the run. -/
theorem recLoop_doomed {P : RecEnv} {N f k : Nat} {H0 : Hypergraph} (hbis : BisectsWell P.bis N f)
    (hd : Fair P.d1) (M : Int) : ∀ (fuel : Nat) (cur : WorkItem) (s : RecState), RecInv P N f k H0 cur s →
    (∃ j ∈ cur :: s.jobs, j.weight = 0 ∧ j.low < j.high) → ∀ s', recLoop P M fuel cur s ≠ .ok s' := by
  intro fuel
  induction fuel with
  | zero => intro cur s _ _ s' h; cases h
  | succ fuel ih =>
    intro cur s hI hz s' h
    unfold recLoop at h
    by_cases hlh : cur.low < cur.high
    · rw [if_pos (by omega)] at h
      rcases splitStep_spec hbis hd M hI.fit hI.nonempty hlh
        (fun hw => hI.ranges cur (List.mem_cons_self ..) hw hlh) with ⟨-, h1⟩ |
        ⟨hw, cur', s1, h1, S, E, H1, H2, w0, w1, a1, a2, a3, a4, a5⟩
      · rw [h1] at h; cases h
      · obtain ⟨hI', -⟩ := hI.step hlh a1 a2 a3 a4 a5
        rw [h1, ok_bind] at h
        refine ih cur' s1 hI' ?_ s' h
        obtain ⟨j, hj, hj1, hj2⟩ := hz
        rcases List.mem_cons.1 hj with rfl | hj
        · exact absurd hj1 hw
        · refine ⟨j, List.mem_cons_of_mem _ ?_, hj1, hj2⟩
          rcases a5.reorder with ⟨-, b, -⟩ | ⟨-, b, -⟩
          · rw [b]; exact List.mem_cons_of_mem _ hj
          · rw [b]; exact hj
    · rw [if_neg (by omega)] at h
      obtain ⟨j, hj, hj1, hj2⟩ := hz
      rcases List.mem_cons.1 hj with rfl | hj
      · exact absurd hj2 hlh
      · cases hjs : s.jobs with
        | nil => rw [hjs] at hj; cases hj
        | cons j0 js =>
          rw [hjs] at h hj
          exact ih j0 _ (hI.pop hlh hjs).1 ⟨j, hj, hj1, hj2⟩ s' h

/-- The loops: the bisections cut a net as often as it has parts more than it had. -/
theorem recLoop_sum {P : RecEnv} {N f k : Nat} {H0 : Hypergraph} (hbis : BisectsWell P.bis N f)
    (hd : Fair P.d1) (hc : P.cutMetric = false) (M : Int) : ∀ (fuel : Nat) (cur : WorkItem) (s : RecState)
    (acc : Net → Nat), RecInv P N f k H0 cur s → SumInv cur s acc → ∀ s', recLoop P M fuel cur s = .ok s' →
    ∃ bs, BisectionSteps P M cur s bs s' ∧ s'.H.nets = s.H.nets ∧ (∀ b ∈ bs, b.H.nets = s.H.nets) ∧
      (∀ n ∈ s.H.nets, connectivity (partOf s'.H) n - 1 = acc n + bs.countP (fun b => CutIn b.H b.s b.e n.vertices)) ∧
      bs.length = (cur.high - cur.low).toNat + (s.jobs.map (fun j => (j.high - j.low).toNat)).sum := by
  intro fuel
  induction fuel with
  | zero => intro cur s acc _ _ s' h; cases h
  | succ fuel ih =>
    intro cur s acc hI hJ s' h
    unfold recLoop at h
    by_cases hlh : cur.low < cur.high
    · rw [if_pos (by omega)] at h
      rcases splitStep_spec hbis hd M hI.fit hI.nonempty hlh
        (fun hw => hI.ranges cur (List.mem_cons_self ..) hw hlh) with ⟨-, h1⟩ |
        ⟨hw, cur', s1, h1, S, E, H1, H2, w0, w1, a1, a2, a3, a4, a5⟩
      · rw [h1] at h; cases h
      · obtain ⟨hI', -⟩ := hI.step hlh a1 a2 a3 a4 a5
        rw [h1, ok_bind] at h
        rcases hJ.step hc hI hlh a1 a2 a4 a5 with hJ' | ⟨j, hj, hj1, hj2⟩
        · have hs1 : s1.H.nets = s.H.nets := by
            rcases a5.aside with ⟨a, -⟩ | ⟨a, -⟩
            · rw [hc] at a; cases a
            · rw [a, a5.nets2]
          have hn1 : H1.nets = s.H.nets := by rw [a5.relabels.rest]
          obtain ⟨bs, c1, c2, c3, c4, c5⟩ := ih cur' s1 _ hI' hJ' s' h
          refine ⟨⟨H1, S, E⟩ :: bs, .split hlh a1 a2 rfl rfl a5.ran h1 c1, by rw [c2, hs1], ?_, ?_, ?_⟩
          · intro b hb
            rcases List.mem_cons.1 hb with rfl | hb
            · exact hn1
            · rw [c3 b hb, hs1]
          · intro n hn
            rw [c4 n (by rw [hs1]; exact hn), List.countP_cons]
            simp only [decide_eq_true_eq]
            omega
          · have hlow := a5.cur_low
            have hhigh := a5.cur_high
            rw [List.length_cons, c5]
            rcases a5.reorder with ⟨a, b, -⟩ | ⟨a, b, -⟩
            · rw [b, List.map_cons, List.sum_cons]
              dsimp only
              omega
            · rw [b]; omega
        · exact absurd h (recLoop_doomed hbis hd M fuel cur' s1 hI' ⟨j, List.mem_cons_of_mem _ hj, hj1, hj2⟩ s')
    · rw [if_neg (by omega)] at h
      cases hj : s.jobs with
      | nil =>
        rw [hj] at h
        obtain rfl := Except.ok.inj h
        refine ⟨[], .done hlh hj, rfl, by simp, ?_, ?_⟩
        · intro n hn
          have := hJ.value n hn
          rw [if_neg hlh] at this
          simpa using this
        · rw [List.map_nil, List.sum_nil, List.length_nil]; omega
      | cons j js =>
        rw [hj] at h
        obtain ⟨bs, c1, c2, c3, c4, c5⟩ := ih j _ acc (hI.pop hlh hj).1 (hJ.pop hI.fit.wf hlh hj) s' h
        refine ⟨bs, .next hlh hj c1, c2, c3, c4, ?_⟩
        rw [c5, List.map_cons, List.sum_cons]
        dsimp only
        omega

/-- The sum over the nets is the sum over the bisections. -/
theorem costs_swap (nets : List Net) (bs : List RangeOf) (h : ∀ b ∈ bs, b.H.nets = nets) :
    (nets.map (fun n => ((bs.countP (fun b => CutIn b.H b.s b.e n.vertices) : Nat) : Int) * n.cost)).sum =
      (bs.map (fun b => rangeCost b.H b.s b.e)).sum := by
  induction bs with
  | nil => simp
  | cons b bs ih =>
    rw [List.map_cons, List.sum_cons, ← ih fun b hb => h b (List.mem_cons_of_mem _ hb)]
    unfold rangeCost
    rw [h b (List.mem_cons_self ..), ← List.sum_map_add]
    congr 1
    apply List.map_congr_left
    intro n _
    rw [List.countP_cons]
    simp only [decide_eq_true_eq]
    split
    · push_cast; ring
    · simp

end PMondriaan

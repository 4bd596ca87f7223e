import Verif.Props.Refine
import Verif.Spec.Trace

/-
Properties C74 and C75: the course of the sequential refinement and the choice of the part.
-/

namespace PMondriaan

open Spec

/-! ### C74 -/

/-- What a run of the specification keeps is the best of what it visited, and it can be reached from
the end of the run by going back `n` moves. -/
theorem passRun_best {H : Hypergraph} {max0 max1 : Int} {limit : Nat} {A P B : Nat → Int}
    {vs : List (Nat → Int)} {l : List Nat} {n : Nat}
    (h : PassRun H max0 max1 limit A P B vs l n) :
    (∀ V ∈ vs, cutNet B H.nets ≤ cutNet V H.nets) ∧ vs[n]? = some B ∧ vs.head? = some P ∧
      (∀ V ∈ vs.take n, cutNet B H.nets < cutNet V H.nets) ∧ A ∈ vs ∧ l.Nodup ∧ n ≤ limit := by
  induction h with
  | start => simp
  | better _ hn hb _ _ hc ih =>
    obtain ⟨h1, h2, h3, h4, h5, h6, h7⟩ := ih
    refine ⟨?_, rfl, rfl, by simp, by simp [h5], List.nodup_cons.2 ⟨hb.2.1, h6⟩, by omega⟩
    intro V hV
    rcases List.mem_cons.1 hV with rfl | hV
    · exact le_refl _
    · have := h1 V hV; omega
  | worse _ hn hb _ _ hc ih =>
    obtain ⟨h1, h2, h3, h4, h5, h6, h7⟩ := ih
    refine ⟨?_, by simpa using h2, rfl, ?_, by simp [h5], List.nodup_cons.2 ⟨hb.2.1, h6⟩, by omega⟩
    · intro V hV
      rcases List.mem_cons.1 hV with rfl | hV
      · omega
      · exact h1 V hV
    · intro V hV
      rw [List.take_succ_cons] at hV
      rcases List.mem_cons.1 hV with rfl | hV
      · exact hc
      · exact h4 V hV
  | lock _ hn hb _ _ ih =>
    obtain ⟨h1, h2, h3, h4, h5, h6, h7⟩ := ih
    exact ⟨h1, h2, h3, h4, h5, List.nodup_cons.2 ⟨hb.2.1, h6⟩, h7⟩

theorem RInv.parts {H : Hypergraph} {P : Nat → Int} {L : Nat → List Nat} {δ : Int} {r : PassResult}
    (h : RInv H P L δ r) : ∀ v, IsVertex H v → partOf r.H v = P v := by
  intro v hv
  obtain ⟨x, hx, hxv⟩ := List.mem_map.1 hv
  have hxv : x.id = v := hxv
  subst hxv
  rw [h.hH]
  exact conc_partOf _ _ hx

/-- C74 for one pass: from any bisection, for any random stream, the pass follows a run of the
specification to its end (every step proposes a best unlocked vertex of the part picked by the rule,
moves it exactly when it fits, and locks it), leaves behind the assignment that the run keeps, and
returns its cut; that cut is the smallest of all assignments visited, and among these it is the
latest. -/
theorem C74_pass {H : Hypergraph} (w : WF H) (hc : CostsNonneg H) (hb : Bipartitioned H)
    (hs : SortedOnPart H) {C : List Cnt} (hC : CountsExact H C) {fuel : Nat}
    (hf : H.vertices.length < fuel) (max0 max1 : Int) (maxNoGain : Nat) (rng : Rng) :
    ∃ r P B vs l n, KLFMPass fuel H C (cutValue .cutNet H) ⟨partWeight H 0, partWeight H 1⟩ max0 max1
        maxNoGain rng = .ok r ∧
      PassRun H max0 max1 maxNoGain (partOf H) P B vs l n ∧
      ((∀ v, IsVertex H v → v ∈ l) ∨ maxNoGain ≤ n) ∧
      (∀ v, IsVertex H v → partOf r.H v = B v) ∧ r.cut = cutNet B H.nets ∧
      (∀ V ∈ vs, r.cut ≤ cutNet V H.nets) ∧ vs[n]? = some B ∧
      (∀ V ∈ vs.take n, r.cut < cutNet V H.nets) := by
  obtain ⟨r, B, L', h, hR, -, -, P, vs, l, n, hrun, hend⟩ := KLFMPass_ok (δ := 0) w hc
    (parts01_self w hb)
    (pinsPerm_self w) (allSplit_self w hb hs) hf (cut := cutNet (partOf H) H.nets) (by omega)
    max0 max1 maxNoGain rng
  rw [conc_self w, ← counts_self w hC] at h
  have hcut : r.cut = cutNet B H.nets := by rw [hR.hcut]; omega
  obtain ⟨h1, h2, -, h4, -⟩ := passRun_best hrun
  refine ⟨r, P, B, vs, l, n, ?_, hrun, hend, hR.parts, hcut, ?_, h2, ?_⟩
  · rw [partWeight_pw 0 w, partWeight_pw 1 w]; exact h
  · rw [hcut]; exact h1
  · rw [hcut]; exact h4

/-- C74 for `make_balanced`: it follows an unloading run of the specification to its end. -/
theorem C74_make_balanced {H : Hypergraph} (w : WF H) (hc : CostsNonneg H) (hwn : WeightsNonneg H)
    (hb : Bipartitioned H) (hs : SortedOnPart H) {C : List Cnt} (hC : CountsExact H C) {fuel : Nat}
    (hf : H.vertices.length < fuel) (max0 max1 : Int) (rng : Rng) :
    ∃ r B, makeBalanced fuel H C (cutValue .cutNet H) ⟨partWeight H 0, partWeight H 1⟩ max0 max1 rng
        = .ok r ∧
      Unloaded H max0 max1 (if max1 < partWeight H 1 then 1 else 0) (partOf H) B ∧
      (∀ v, IsVertex H v → partOf r.H v = B v) ∧ r.cut = cutNet B H.nets := by
  obtain ⟨r, P', L', h, hR, -, -, -, hu⟩ := makeBalanced_ok (δ := 0) w hc hwn (parts01_self w hb)
    (pinsPerm_self w) (allSplit_self w hb hs) hf (cut := cutNet (partOf H) H.nets) (by omega)
    max0 max1 rng
  rw [conc_self w, ← counts_self w hC] at h
  refine ⟨r, P', ?_, ?_, hR.parts, by rw [hR.hcut]; omega⟩
  · rw [partWeight_pw 0 w, partWeight_pw 1 w]; exact h
  · rw [partWeight_pw 1 w]; exact hu

/-- C74 for `KLFM`: if a part is too heavy it is unloaded first; then at most `KLFM_max_passes`
passes follow, each from what the one before kept, and the first one that does not lower the cut is
the last. -/
theorem C74_KLFM {H : Hypergraph} (w : WF H) (hc : CostsNonneg H) (hwn : WeightsNonneg H)
    (hb : Bipartitioned H) {C : List Cnt} (hC : CountsExact H C) {fuel : Nat}
    (hf : H.vertices.length < fuel) (max0 max1 : Int) (opts : Options) (rng : Rng)
    (cut : Option Int) (hcut : ∀ c, cut = some c → c = cutValue .cutNet H) :
    ∃ r A B, KLFM fuel H C ⟨partWeight H 0, partWeight H 1⟩ max0 max1 opts rng cut = .ok r ∧
      (if max0 < partWeight H 0 ∨ max1 < partWeight H 1 then
        Unloaded H max0 max1 (if max1 < partWeight H 1 then 1 else 0) (partOf H) A
       else A = partOf H) ∧
      Passes H max0 max1 opts.klfmMaxNoGainMoves opts.klfmMaxPasses A B ∧
      (∀ v, IsVertex H v → partOf r.H v = B v) ∧ r.cut = cutNet B H.nets := by
  obtain ⟨r, P1, P', L', h, hR, -, -, -, hP1, hu, hps⟩ := KLFM_conc (δ := 0) w hc hwn
    (parts01_self w hb) (pinsPerm_self w) hf max0 max1 opts rng cut (by
      cases cut with
      | none => rfl
      | some c => simp only; rw [hcut c rfl]; show cutNet (partOf H) H.nets = _; omega)
  rw [conc_self w, ← counts_self w hC] at h
  refine ⟨r, P1, P', ?_, ?_, hps, hR.parts, by rw [hR.hcut]; omega⟩
  · rw [partWeight_pw 0 w, partWeight_pw 1 w]; exact h
  · rw [partWeight_pw 0 w, partWeight_pw 1 w]
    split
    · rename_i hbal
      exact (hu hbal).2.2.2
    · rename_i hbal
      exact hP1 hbal

example : ∃ H C, WF H ∧ CostsNonneg H ∧ WeightsNonneg H ∧ Bipartitioned H ∧ SortedOnPart H ∧
    CountsExact H C ∧ (∃ r, KLFMPass 9 H C (cutValue .cutNet H) ⟨partWeight H 0, partWeight H 1⟩ 8 8 5
      (fun _ => 0) = .ok r ∧ r.cut < cutValue .cutNet H) := by
  refine ⟨exampleS, exampleC, exampleS_wf, exampleS_costs, exampleS_weights, exampleS_bip,
    exampleS_sorted, exampleS_counts, ?_⟩
  obtain ⟨r, h, -⟩ := C17_KLFM_pass exampleS_wf exampleS_costs exampleS_bip exampleS_sorted
    exampleS_counts (fuel := 9) (by decide) 8 8 5 (fun _ => 0)
  refine ⟨r, h, ?_⟩
  have : (KLFMPass 9 exampleS exampleC (cutValue .cutNet exampleS)
    ⟨partWeight exampleS 0, partWeight exampleS 1⟩ 8 8 5 (fun _ => 0)).map
      (fun r => decide (r.cut < cutValue .cutNet exampleS)) = .ok true := by decide +kernel
  rw [h] at this
  simpa [Except.map] using this

/-! ### C75 -/

/-- The vertex `v` of `H` is neither moved nor removed yet. -/
def Unlocked (H : Hypergraph) (l : List Nat) (v : Nat) : Prop := IsVertex H v ∧ v ∉ l

/-- What `part_next` does in a reachable state, in terms of true gains. -/
theorem partNext_reach {H : Hypergraph} (w : WF H) (hc : CostsNonneg H) (hb : Bipartitioned H)
    (hs : SortedOnPart H) {C : List Cnt} (hC : CountsExact H C) {s : GainStructure} {l : List Nat}
    (hr : Reach H C s l) (hne : ∃ v, Unlocked H l v) (e0 e1 : Int) (rng : Rng) :
    ∃ p s' r', s.partNext e0 e1 rng = .ok (p, s', r') ∧ (p = 0 ∨ p = 1) ∧
      (∃ u, Unlocked H l u ∧ partOf s.H u = p) ∧
      ((∀ u, Unlocked H l u → partOf s.H u = p) ∨
        ∃ y0 y1, y0 ∈ H.vertices ∧ y1 ∈ H.vertices ∧ Unlocked H l y0.id ∧ Unlocked H l y1.id ∧
          partOf s.H y0.id = 0 ∧ partOf s.H y1.id = 1 ∧
          (∀ u, Unlocked H l u → partOf s.H u = 0 → trueGain s.H u ≤ trueGain s.H y0.id) ∧
          (∀ u, Unlocked H l u → partOf s.H u = 1 → trueGain s.H u ≤ trueGain s.H y1.id) ∧
          (p = 0 → (y0.weight < e0 ∧ (y1.weight < e1 → trueGain s.H y1.id ≤ trueGain s.H y0.id)) ∨
            (e0 ≤ y0.weight ∧ e1 ≤ y1.weight)) ∧
          (p = 1 → (y1.weight < e1 ∧ (y0.weight < e0 → trueGain s.H y0.id ≤ trueGain s.H y1.id)) ∨
            (e0 ≤ y0.weight ∧ e1 ≤ y1.weight))) := by
  obtain ⟨M, P, L, G, hM, hS, hl⟩ := reach_inv w hc hb hs hC hr
  have hpart : ∀ x ∈ H.vertices, partOf s.H x.id = P x.id := by
    intro x hx; rw [hS.inv.hH]; exact conc_partOf _ _ hx
  have hval : ∀ x ∈ H.vertices, ∀ g, G x.id = some g → trueGain s.H x.id = g := by
    intro x hx g hg
    rw [hS.ok x hx g hg, trueGain_conc w hS.h01 hS.hL hx, hS.inv.hH]
  have hsome : ∀ x ∈ H.vertices, x.id ∉ l → ∃ g, G x.id = some g := fun x hx hn =>
    Option.ne_none_iff_exists'.1 (fun h => hn ((hl x hx).1 h))
  have hun : ∀ x ∈ H.vertices, ∀ g, G x.id = some g → Unlocked H l x.id := by
    intro x hx g hg
    refine ⟨List.mem_map_of_mem hx, fun hm => ?_⟩
    rw [(hl x hx).2 hm] at hg; cases hg
  have htop : ∀ p x g, TopOf H P G p x g → Unlocked H l x.id ∧ partOf s.H x.id = p ∧
      trueGain s.H x.id = g ∧
      (∀ u, Unlocked H l u → partOf s.H u = p → trueGain s.H u ≤ g) := by
    intro p x g ⟨hx, hin, hmax⟩
    refine ⟨hun x hx g hin.2.2, by rw [hpart x hx]; exact hin.2.1, hval x hx g hin.2.2, ?_⟩
    rintro u ⟨hu, hul⟩ hup
    obtain ⟨y, hy, hyu⟩ := List.mem_map.1 hu
    have hyu : y.id = u := hyu
    subst hyu
    obtain ⟨gy, hgy⟩ := hsome y hy hul
    rw [hval y hy gy hgy]
    exact hmax _ _ ⟨hu, by rw [← hpart y hy]; exact hup, hgy⟩
  obtain ⟨p, s', r', h1, hp, -, ⟨u, g, hug⟩, hrule⟩ := gpartNext_ok hS.inv w e0 e1 rng (by
    intro hall
    obtain ⟨v, hv, hvl⟩ := hne
    obtain ⟨x, hx, hxv⟩ := List.mem_map.1 hv
    have hxv : x.id = v := hxv
    subst hxv
    obtain ⟨g, hg⟩ := hsome x hx hvl
    exact hall (P x.id) (hS.h01 x hx) x.id g ⟨hv, rfl, hg⟩)
  refine ⟨p, s', r', h1, hp, ?_, ?_⟩
  · obtain ⟨x, hx, hxu⟩ := List.mem_map.1 hug.1
    have hxu : x.id = u := hxu
    subst hxu
    exact ⟨x.id, hun x hx g hug.2.2, by rw [hpart x hx]; exact hug.2.1⟩
  · rcases hrule with hrule | ⟨y0, g0, y1, g1, t0, t1, q0, q1⟩
    · left
      rintro v ⟨hv, hvl⟩
      obtain ⟨x, hx, hxv⟩ := List.mem_map.1 hv
      have hxv : x.id = v := hxv
      subst hxv
      obtain ⟨g, hg⟩ := hsome x hx hvl
      by_contra hne'
      apply hrule x.id g ⟨hv, ?_, hg⟩
      rw [hpart x hx] at hne'
      have := hS.h01 x hx
      omega
    · right
      obtain ⟨a0, b0, c0, d0⟩ := htop _ _ _ t0
      obtain ⟨a1, b1, c1, d1⟩ := htop _ _ _ t1
      refine ⟨y0, y1, t0.1, t1.1, a0, a1, b0, b1, ?_, ?_, ?_, ?_⟩
      · rw [c0]; exact d0
      · rw [c1]; exact d1
      · rw [c0, c1]; exact q0
      · rw [c0, c1]; exact q1

/-- C75, the part that holds: when both parts have more room than the heaviest vertex needs, the part
that `part_next` picks has a vertex whose gain is the largest of all unlocked vertices (of both
parts), so the vertex taken from it is a best move overall. -/
theorem C75_partial {H : Hypergraph} (w : WF H) (hc : CostsNonneg H) (hb : Bipartitioned H)
    (hs : SortedOnPart H) {C : List Cnt} (hC : CountsExact H C) {s : GainStructure} {l : List Nat}
    (hr : Reach H C s l) (hne : ∃ v, Unlocked H l v) (e0 e1 : Int)
    (hroom : ∀ x ∈ H.vertices, x.weight < e0 ∧ x.weight < e1) (rng : Rng) :
    ∃ p s' r' u, s.partNext e0 e1 rng = .ok (p, s', r') ∧ Unlocked H l u ∧ partOf s.H u = p ∧
      ∀ v, Unlocked H l v → trueGain s.H v ≤ trueGain s.H u := by
  obtain ⟨p, s', r', h1, hp, ⟨u, hu, hup⟩, hrule⟩ := partNext_reach w hc hb hs hC hr hne e0 e1 rng
  rcases hrule with hrule | ⟨y0, y1, hy0, hy1, a0, a1, b0, b1, d0, d1, q0, q1⟩
  · -- only one part has vertices left: take a best one of them
    obtain ⟨o, s2, r2, hn, ho⟩ := (C16_gains_exact w hc hb hs hC hr).2.1 p hp rng
    cases o with
    | none => exact absurd hup (ho u hu.1 hu.2)
    | some x =>
      exact ⟨p, s', r', x, h1, ⟨ho.1, ho.2.1⟩, ho.2.2.1, fun v hv =>
        ho.2.2.2 v hv.1 hv.2 (hrule v hv)⟩
  · have hpt : ∀ v, Unlocked H l v → partOf s.H v = 0 ∨ partOf s.H v = 1 := by
      obtain ⟨M, P, L, G, hM, hS, hl⟩ := reach_inv w hc hb hs hC hr
      rintro v ⟨hv, -⟩
      obtain ⟨x, hx, hxv⟩ := List.mem_map.1 hv
      have hxv : x.id = v := hxv
      subst hxv
      rw [hS.inv.hH, conc_partOf _ _ hx]
      exact hS.h01 x hx
    have r0 := hroom y0 hy0
    have r1 := hroom y1 hy1
    rcases hp with rfl | rfl
    · refine ⟨0, s', r', y0.id, h1, a0, b0, ?_⟩
      intro v hv
      have hq := q0 rfl
      rcases hpt v hv with h | h
      · exact d0 v hv h
      · have := d1 v hv h
        omega
    · refine ⟨1, s', r', y1.id, h1, a1, b1, ?_⟩
      intro v hv
      have hq := q1 rfl
      rcases hpt v hv with h | h
      · have := d0 v hv h
        omega
      · exact d1 v hv h

/-- C75, what happens instead: while part `1 - p` has no room for any vertex and part `p` has plenty,
`part_next` picks part `p` as long as it has an unlocked vertex, although none of its vertices can
be moved and every vertex of the full part can. Here `e q` is the room in part `q`. -/
theorem C75_full_part {H : Hypergraph} (w : WF H) (hc : CostsNonneg H) (hb : Bipartitioned H)
    (hs : SortedOnPart H) {C : List Cnt} (hC : CountsExact H C) {s : GainStructure} {l : List Nat}
    (hr : Reach H C s l) (e : Int → Int) {p : Int} (hp : p = 0 ∨ p = 1)
    (hne : ∃ v, Unlocked H l v ∧ partOf s.H v = p)
    (hplenty : ∀ x ∈ H.vertices, partOf s.H x.id = p → x.weight < e p)
    (hfull : ∀ x ∈ H.vertices, e (1 - p) < x.weight)
    (rng : Rng) :
    ∃ s' r', s.partNext (e 0) (e 1) rng = .ok (p, s', r') := by
  obtain ⟨v, hv, hvp⟩ := hne
  obtain ⟨q, s', r', h1, hq, -, hrule⟩ := partNext_reach w hc hb hs hC hr ⟨v, hv⟩ (e 0) (e 1) rng
  have hqp : q = p := by
    rcases hrule with hrule | ⟨y0, y1, hy0, hy1, -, -, b0, b1, -, -, q0, q1⟩
    · rw [← hrule v hv, hvp]
    · have a0 := hplenty y0 hy0
      have a1 := hplenty y1 hy1
      rw [b0] at a0
      rw [b1] at a1
      have f0 := hfull y0 hy0
      have f1 := hfull y1 hy1
      rcases hp with rfl | rfl <;> rcases hq with rfl | rfl
      · rfl
      · have := q1 rfl
        simp only [sub_zero] at f0 f1
        omega
      · have := q0 rfl
        simp only [sub_self] at f0 f1
        omega
      · rfl
  subst hqp
  exact ⟨s', r', h1⟩

/-- Three light vertices 0, 1, 2 in part 0; a light vertex 3 and two heavy vertices 4, 5 in part 1. -/
def exampleF : Hypergraph :=
  Hypergraph.create 6 3
    [ { id := 0, nets := [0, 1], weight := 1, part := 0 },
      { id := 1, nets := [2], weight := 1, part := 0 },
      { id := 2, nets := [2], weight := 1, part := 0 },
      { id := 3, nets := [2], weight := 1, part := 1 },
      { id := 4, nets := [0], weight := 5, part := 1 },
      { id := 5, nets := [1], weight := 5, part := 1 } ]
    [ { id := 0, vertices := [0, 4], cost := 1, globalSize := 2 },
      { id := 1, vertices := [0, 5], cost := 1, globalSize := 2 },
      { id := 2, vertices := [1, 2, 3], cost := 5, globalSize := 3 } ]

/-- The counts of `exampleF`. -/
def exampleFC : List Cnt := [⟨1, 1⟩, ⟨1, 1⟩, ⟨2, 1⟩]

theorem exampleF_wf : WF exampleF :=
  WF_create (by decide) (by decide) (by decide) (by decide) (by decide) (by decide)
theorem exampleF_bip : Bipartitioned exampleF := by unfold Bipartitioned; decide
theorem exampleF_sorted : SortedOnPart exampleF := by unfold SortedOnPart; decide
theorem exampleF_counts : CountsExact exampleF exampleFC := by unfold CountsExact; decide
theorem exampleF_costs : CostsNonneg exampleF := by unfold CostsNonneg; decide

/-- The fresh gain structure holds the hypergraph it was made for. -/
theorem create_reach {H : Hypergraph} (w : WF H) (hc : CostsNonneg H) (hb : Bipartitioned H)
    {C : List Cnt} (hC : CountsExact H C) :
    ∃ s, GainStructure.create H C = .ok s ∧ s.H = H ∧ Reach H C s [] := by
  obtain ⟨M, s, G, hs', hM, hI, hG⟩ := create_ok (L := pinsOf H) w hc (parts01_self w hb)
    (exactF (partOf H) (pinsOf H))
  rw [conc_self w, ← counts_self w hC] at hs'
  refine ⟨s, hs', ?_, Reach.init hs'⟩
  rw [hI.hH, conc_self w]

/-- C75 fails: in this bisection (limits 5 and 11, so room 2 in part 0 and none in part 1) vertex 3
of part 1 has the largest gain of all vertices and fits into part 0, and no vertex of part 0 fits
into part 1. `part_next` picks part 0, whatever the random numbers. -/
theorem C75_false : ∃ (H : Hypergraph) (C : List Cnt) (s : GainStructure) (max0 max1 : Int),
    WF H ∧ CostsNonneg H ∧ Bipartitioned H ∧ SortedOnPart H ∧ CountsExact H C ∧
    partWeight H 0 ≤ max0 ∧ partWeight H 1 ≤ max1 ∧ GainStructure.create H C = .ok s ∧
    (∀ x ∈ H.vertices, x.part = 0 → ¬ Fits H (partOf H) max0 max1 x) ∧
    (∃ x ∈ H.vertices, x.part = 1 ∧ Fits H (partOf H) max0 max1 x ∧ 0 < trueGain H x.id ∧
      ∀ y ∈ H.vertices, trueGain H y.id ≤ trueGain H x.id) ∧
    ∀ rng, ∃ s' r', s.partNext (max0 - partWeight H 0) (max1 - partWeight H 1) rng =
      .ok (0, s', r') := by
  obtain ⟨s, hs, hH, hr⟩ := create_reach exampleF_wf exampleF_costs exampleF_bip exampleF_counts
  refine ⟨exampleF, exampleFC, s, 5, 11, exampleF_wf, exampleF_costs, exampleF_bip, exampleF_sorted,
    exampleF_counts, by decide, by decide, hs, by unfold Fits; decide, ?_, ?_⟩
  · refine ⟨{ id := 3, nets := [2], weight := 1, part := 1 }, by decide, rfl, by unfold Fits; decide,
      by decide, by decide⟩
  · intro rng
    have := C75_full_part exampleF_wf exampleF_costs exampleF_bip exampleF_sorted exampleF_counts hr
      (fun q => if q = 0 then 2 else 0) (p := 0) (Or.inl rfl)
      ⟨0, ⟨by unfold IsVertex; decide, by simp⟩, by rw [hH]; decide⟩
      (by rw [hH]; decide) (by decide) rng
    exact this

/-- C75, the consequence: on the same bisection one pass ends with cut 2, with vertices 0, 1 and 2
locked in part 0, although moving first vertex 3 and then vertex 0 (each a best vertex of its part
that fits at that moment) gives cut 0. -/
theorem C75_pass_misses :
    (∃ r, KLFMPass 7 exampleF exampleFC (cutValue .cutNet exampleF)
        ⟨partWeight exampleF 0, partWeight exampleF 1⟩ 5 11 100 (fun _ => 0) = .ok r ∧ r.cut = 2) ∧
    (∃ x3 ∈ exampleF.vertices, ∃ x0 ∈ exampleF.vertices, ∃ P1 P2,
      BestOfPart exampleF (partOf exampleF) [] x3 ∧ Fits exampleF (partOf exampleF) 5 11 x3 ∧
      P1 = flipped (partOf exampleF) x3.id ∧
      BestOfPart exampleF P1 [x3.id] x0 ∧ Fits exampleF P1 5 11 x0 ∧ P2 = flipped P1 x0.id ∧
      cutNet P2 exampleF.nets = 0) := by
  constructor
  · obtain ⟨r, h, -⟩ := C17_KLFM_pass exampleF_wf exampleF_costs exampleF_bip exampleF_sorted
      exampleF_counts (fuel := 7) (by decide) 5 11 100 (fun _ => 0)
    refine ⟨r, h, ?_⟩
    have : (KLFMPass 7 exampleF exampleFC (cutValue .cutNet exampleF)
      ⟨partWeight exampleF 0, partWeight exampleF 1⟩ 5 11 100 (fun _ => 0)).map (·.cut) = .ok 2 := by
      decide +kernel
    rw [h] at this
    simpa [Except.map] using this
  · refine ⟨{ id := 3, nets := [2], weight := 1, part := 1 }, by decide,
      { id := 0, nets := [0, 1], weight := 1, part := 0 }, by decide, _, _, ?_, ?_, rfl, ?_, ?_, rfl, ?_⟩
    · unfold BestOfPart; decide
    · unfold Fits; decide
    · unfold BestOfPart; decide
    · unfold Fits; decide
    · decide

example : ∃ (H : Hypergraph) (C : List Cnt), WF H ∧ CostsNonneg H ∧ Bipartitioned H ∧ SortedOnPart H ∧
    CountsExact H C ∧ (∃ s, Reach H C s []) ∧ (∃ v, Unlocked H [] v) ∧
    ∀ x ∈ H.vertices, x.weight < 6 ∧ x.weight < 7 := by
  obtain ⟨s, -, -, hr⟩ := create_reach exampleF_wf exampleF_costs exampleF_bip exampleF_counts
  exact ⟨exampleF, exampleFC, exampleF_wf, exampleF_costs, exampleF_bip, exampleF_sorted,
    exampleF_counts, ⟨s, hr⟩, ⟨3, by unfold IsVertex; decide, by simp⟩, by decide⟩

end PMondriaan

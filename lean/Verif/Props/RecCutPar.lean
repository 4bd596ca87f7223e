import Verif.Proofs.RecCutPar
import Verif.Spec.RecCutPar
import Verif.Props.RecBisectPar

/-
Property C77: the recursion on several processors, with the cut-net metric.
-/

namespace PMondriaan

open Spec

/-- `add_cut_nets` after vertices have moved: every pin of a net that was set aside is sent to the processor of its
vertex, no pin is lost or duplicated, and a vertex gets exactly those nets in its list that came from another
processor. Nets that stay on their processor are not put into the lists again (C40). -/
theorem C77_added {N : Nat} {d : Delivery (Nat × Nat × Int)} (hd : Fair d) {ys : List (Hypergraph × List Net)}
    (hD : Distributed N (ys.map (·.1))) (hnew : ∀ y ∈ ys, ∀ n ∈ y.2, ∀ x ∈ ys, ¬ IsNet x.1 n.id)
    (hids : ∀ y ∈ ys, (y.2.map (·.id)).Nodup) (hne : ∀ y ∈ ys, ∀ n ∈ y.2, n.vertices ≠ [])
    (hv : ∀ y ∈ ys, ∀ n ∈ y.2, ∀ u ∈ n.vertices, ∃ x ∈ ys, IsVertex x.1 u) :
    ∃ Hs', addCutNets d ys = .ok Hs' ∧
      List.Forall₂ (fun (y : Hypergraph × List Net) H' =>
        H'.vertices.map (fun v => (v.id, v.weight, v.part)) = y.1.vertices.map (fun v => (v.id, v.weight, v.part)) ∧
        (∀ n ∈ H'.nets, ∀ u ∈ n.vertices, IsVertex y.1 u) ∧
        ∀ (i : Nat) (v v' : Vertex), y.1.vertices[i]? = some v → H'.vertices[i]? = some v' →
          ∀ e, e ∈ v'.nets ↔ e ∈ v.nets ∨
            ∃ x ∈ ys, ∃ n ∈ x.2, n.id = e ∧ v.id ∈ n.vertices ∧ ¬ IsVertex x.1 v.id) ys Hs' ∧
      ∀ e, (unionPins Hs' e).Perm
        (ys.flatMap (fun y => ((y.1.nets ++ y.2).filter (fun n => n.id = e)).flatMap (·.vertices))) := by
  obtain ⟨Hs', h1, h2, h3, -, -⟩ := addCutNets_ok (G := ys.flatMap (fun y => y.2.map (·.id))) hd hD (by
    refine ⟨?_, ?_, hids, hne⟩
    · intro x hx n hn hG
      obtain ⟨y, hy, hG⟩ := List.mem_flatMap.1 hG
      obtain ⟨m, hm, hG⟩ := List.mem_map.1 hG
      exact hnew y hy m hm x hx (List.mem_map.2 ⟨n, hn, hG.symm⟩)
    · intro x hx n hn
      exact List.mem_flatMap.2 ⟨x, hx, List.mem_map_of_mem hn⟩) hv
  refine ⟨Hs', h1, h2.imp fun y H' hb => ⟨hb.core, hb.here, ?_⟩, h3⟩
  intro i v v' hi hi' e
  obtain ⟨v0, a, -, c⟩ := hb.vnets i v' hi'
  rw [hi] at a
  injection a with a
  rw [c, a]

/-- The end of the recursion: the nets that were set aside are added again. -/
theorem addCutNets_returned {N k : Nat} {Hs : List Hypergraph} (hD : Distributed N Hs)
    {d : Delivery (Nat × Nat × Int)} (hd : Fair d) {G : List Nat} {ys : List (Hypergraph × List Net)}
    (h : CutDone N k (Hs.map (fun H => (H, ([] : List Net)))) G ys) :
    ∃ Hs', addCutNets d ys = .ok Hs' ∧ NetsReturned Hs Hs' ∧
      ∀ H ∈ Hs', ∀ v ∈ H.vertices, 0 ≤ v.part ∧ v.part < k := by
  have e0 : (Hs.map (fun H => (H, ([] : List Net)))).map (·.1) = Hs := by
    rw [List.map_map]; exact List.map_id Hs
  have hw : ∀ H : Hypergraph, wide (H, []) = H.nets := by intro H; unfold wide; simp
  have hpins : ∀ e, (ys.flatMap (fun y => pinsIn (wide y) e)).Perm (unionPins Hs e) := by
    intro e
    have := h.kept.pins e
    rw [List.flatMap_map] at this
    simp only [hw] at this
    exact this
  have hverts := h.kept.verts
  rw [e0] at hverts
  have hfrom : ∀ y ∈ ys, ∀ n ∈ wide y, ∃ H ∈ Hs, ∃ m ∈ H.nets, m.id = n.id ∧ m.cost = n.cost := by
    intro y hy n hn
    obtain ⟨x, hx, m, hm, a⟩ := h.kept.from hy hn
    obtain ⟨H, hH, rfl⟩ := List.mem_map.1 hx
    rw [hw] at hm
    exact ⟨H, hH, m, hm, a⟩
  obtain ⟨Hs', h1, h2, h3, h4, h5⟩ := addCutNets_ok hd h.kept.dist h.inv (by
    intro y hy n hn u hu
    have h6 : u ∈ ys.flatMap (fun y => pinsIn (wide y) n.id) :=
      List.mem_flatMap.2 ⟨y, hy, mem_pinsIn.2 ⟨n, List.mem_append_right _ hn, rfl, hu⟩⟩
    rw [(hpins n.id).mem_iff, unionPins_pinsIn] at h6
    obtain ⟨H, hH, h6⟩ := List.mem_flatMap.1 h6
    obtain ⟨m, hm, -, h6⟩ := mem_pinsIn.1 h6
    obtain ⟨v, hv, hvu⟩ := List.mem_map.1 (pins_isVertex (hD.wf H hH) hm u h6)
    have h7 : (v.id, v.weight) ∈ (Hs.flatMap (·.vertices)).map (fun v => (v.id, v.weight)) :=
      List.mem_map.2 ⟨v, List.mem_flatMap.2 ⟨H, hH, hv⟩, rfl⟩
    rw [← hverts.mem_iff] at h7
    obtain ⟨v', hv', h8⟩ := List.mem_map.1 h7
    obtain ⟨H', hH', hv'⟩ := List.mem_flatMap.1 hv'
    obtain ⟨y', hy', rfl⟩ := List.mem_map.1 hH'
    refine ⟨y', hy', List.mem_map.2 ⟨v', hv', ?_⟩⟩
    injection h8 with h8 _
    rw [h8]; exact hvu)
  have hids : ∀ (y : Hypergraph × List Net) (H' : Hypergraph), LocalBack ys y H' →
      H'.vertices.map (·.id) = y.1.vertices.map (·.id) := by
    intro y H' hb
    have := congrArg (List.map Prod.fst) hb.core
    rw [List.map_map, List.map_map] at this
    exact this
  refine ⟨Hs', h1, ⟨?_, ?_, ?_, ?_, ?_, ?_, ?_, ?_, ?_, ?_, ?_⟩, ?_⟩
  · rw [← h2.length_eq, h.kept.length, List.length_map]
  · refine List.Perm.trans ?_ hverts
    rw [List.map_flatMap, List.map_flatMap, List.flatMap_map]
    refine forall2_flatMap_perm h2 fun y H' _ h6 => List.Perm.of_eq ?_
    have := congrArg (List.map (fun c : Nat × Int × Int => (c.1, c.2.1))) h6.core
    rw [List.map_map, List.map_map] at this
    exact this
  · exact fun e => (h3 e).trans (hpins e)
  · intro H hH n hn
    obtain ⟨y, hy, m, hm, a, b⟩ := h4 H hH n hn
    obtain ⟨H0, h0, m0, hm0, c, d⟩ := hfrom y hy m hm
    rw [← b, ← d, ← a, ← c, unionCost_eq hD h0 hm0]
  · intro e
    rw [h5 e]
    constructor
    · rintro ⟨y, hy, m, hm, rfl⟩
      obtain ⟨H0, h0, m0, hm0, c, -⟩ := hfrom y hy m hm
      exact ⟨H0, h0, List.mem_map.2 ⟨m0, hm0, c⟩⟩
    · rintro ⟨H, hH, he⟩
      obtain ⟨m, hm, rfl⟩ := List.mem_map.1 he
      obtain ⟨y, hy, n, hn, a⟩ := h.kept.nets (H, []) (List.mem_map.2 ⟨H, hH, rfl⟩) m (by rw [hw]; exact hm)
      exact ⟨y, hy, n, hn, a⟩
  · intro H hH u i
    obtain ⟨y, hy, hb⟩ := forall2_mem_right h2 hH
    rw [hb.vmap, hids y H hb]
    exact (h.kept.dist.wf y.1 (List.mem_map_of_mem hy)).vmap u i
  · intro H hH
    obtain ⟨y, hy, hb⟩ := forall2_mem_right h2 hH
    exact hb.nmap
  · intro H hH
    obtain ⟨y, hy, hb⟩ := forall2_mem_right h2 hH
    exact hb.nids
  · intro H hH n hn
    obtain ⟨y, hy, hb⟩ := forall2_mem_right h2 hH
    constructor
    · have hnd : (unionPins Hs' n.id).Nodup :=
        ((h3 n.id).trans (hpins n.id)).nodup_iff.2 (unionPins_nodup hD n.id)
      rw [unionPins_pinsIn] at hnd
      have h6 : (pinsIn H.nets n.id).Nodup := (List.nodup_flatMap.1 hnd).1 H hH
      unfold pinsIn at h6
      exact (List.nodup_flatMap.1 h6).1 n (List.mem_filter.2 ⟨hn, by simp⟩)
    · intro u hu
      have := hb.here n hn u hu
      unfold IsVertex at this ⊢
      rw [hids y H hb]
      exact this
  · intro H hH
    obtain ⟨y, hy, hb⟩ := forall2_mem_right h2 hH
    exact hb.lists
  · have h6 : Hs'.map Spec.sizes = ys.map (fun y => Spec.sizes y.1) := forall2_map_eq h2 fun y H' hb => hb.sizes
    rw [h6, h.kept.sizes, List.map_map]
    rfl
  · intro H hH v hv
    obtain ⟨y, hy, hb⟩ := forall2_mem_right h2 hH
    obtain ⟨u, hu, -, -, e⟩ := core_mem hb.core hv
    rw [← e]
    exact h.parts y hy u hu

/-- C77, partial: for every number of processors, `k ≥ 2` and distributed hypergraph with positive weights, when the
recursion with the cut-net metric ends normally, no vertex, net or pin is lost or duplicated although nets were set
aside and vertices moved between processors, weights, costs and sizes are kept, the maps are correct and every
vertex has a part in `[0, k)`. The other ways to end are undefined behaviour, a failure of the bisection, or, with nine
parts or more on at least two processors, that the processors lose step (`C77_lost_step`). What is missing: as in `C61_partial`; undefined behaviour also occurs when
nets are set aside (`C77_false`); the lists of nets of the vertices can be incomplete at the end (C40). -/
theorem C77_partial {P : ParRecEnv} {C : CutEnv} {N T k : Nat} {Bad : Err → Prop} (hP : ParRecEnvOk P N T Bad)
    (hids : ∀ i, Fair (C.dIds i)) (hpins : Fair C.dPins)
    (hN : N < 2147483648) (hk : 2 ≤ k) {Hs : List Hypergraph} (hne : Hs ≠ []) (hD : Distributed N Hs)
    (hpos : ∀ H ∈ Hs, ∀ v ∈ H.vertices, 0 < v.weight) (hT : (Hs.flatMap (·.vertices)).length < T)
    (hW : ((Hs.flatMap (·.vertices)).map (·.weight)).sum < 2 ^ 53) (hp : Hs.length ≤ 2 ^ 50) (epsilon : ℚ) {eta : ℚ}
    (heta : 0 ≤ eta) {rngs : List Rng} (hr : rngs.length = Hs.length) :
    (∃ Hs', recursiveBisectCut P C k epsilon eta Hs rngs = .ok Hs' ∧ NetsReturned Hs Hs' ∧
      ∀ H ∈ Hs', ∀ v ∈ H.vertices, 0 ≤ v.part ∧ v.part < k) ∨
    ∃ e, recursiveBisectCut P C k epsilon eta Hs rngs = .error e ∧ (e = .ub ∨ Bad e ∨ (e = .abort ∧ 8 < k ∧ 2 ≤ Hs.length)) := by
  obtain ⟨e, hI⟩ := start_inv hk hD hpos hT hW hp hr
  have hag : agreed (globalWeight Hs) = .ok (weightOn Hs) := by
    apply agreed_ok
    · unfold globalWeight bulkSum
      simpa using hne
    · intro b hb
      unfold globalWeight bulkSum at hb
      obtain ⟨-, -, rfl⟩ := List.mem_map.1 hb
      exact totalWeights_eq Hs
  have hc := count_eq hI.le
  obtain ⟨xs, hxs⟩ : ∃ xs, xs = (Hs.zip rngs).map (fun x =>
    ((⟨x.1, x.1.vertices.length, x.2⟩ : RecProc), ([] : List Net))) := ⟨_, rfl⟩
  have e1 : xs.map (·.1) = (Hs.zip rngs).map (fun x => (⟨x.1, x.1.vertices.length, x.2⟩ : RecProc)) := by
    rw [hxs, List.map_map]; rfl
  have e2 : bare xs = Hs.map (fun H => (H, ([] : List Net))) := by
    have h1 : Hs = (Hs.zip rngs).map Prod.fst := (List.map_fst_zip (by omega)).symm
    conv_rhs => rw [h1]
    unfold bare
    rw [hxs, List.map_map, List.map_map]
    rfl
  rw [← e1] at hI
  have hC : CutInv [] (bare xs) := by
    rw [e2]
    refine ⟨?_, ?_, ?_, ?_⟩ <;> intro x hx <;> obtain ⟨H, hH, rfl⟩ := List.mem_map.1 hx <;> simp
  have hlx : xs.length = Hs.length := by rw [hxs]; simp [hr]
  have hnx : xs ≠ [] := by
    intro h
    rw [h] at hlx
    exact hne (List.length_eq_zero_iff.1 hlx.symm)
  have : ∃ (S : Prop) (n : Nat), (recCut P C eta (maxWeight P.rnd epsilon (weightOn Hs) k) k (k + 1) [] 0
      ⟨0, (k : Int) - 1⟩ (weightOn Hs) 0 xs).Ends S (CutDone N k (bare xs))
        (fun e => e = .ub ∨ Bad e ∨ (e = .abort ∧ 8 < k ∧ 2 ≤ Hs.length)) n [] := by
    by_cases h1 : Hs.length = 1
    · rw [h1] at hlx
      obtain ⟨x, hx⟩ := List.length_eq_one_iff.1 hlx
      rw [hx] at hI hC ⊢
      exact ⟨False, _, aloneCut_ends hP hN C _ [] 0 (weightOn Hs) 0 hI (Or.inl rfl) hC⟩
    · have hpos : 0 < Hs.length := List.length_pos_iff.2 hne
      obtain ⟨n, -, h⟩ := recCut_ends hP hN C heta (maxWeight P.rnd epsilon (weightOn Hs) k) (S := k ≤ 8)
        (E := fun e => e = .ub ∨ Bad e ∨ (e = .abort ∧ 8 < k ∧ 2 ≤ Hs.length)) (Or.inl rfl)
        (fun e he => Or.inr (Or.inl he)) (fun h => Or.inr (Or.inr ⟨rfl, by omega, by omega⟩)) (fun h => h)
        (k + 1) [] 0 ⟨0, (k : Int) - 1⟩ (weightOn Hs) 0 xs [] hI hC
        (by dsimp only at hc; omega) (by dsimp only at hc; omega) hnx
        (fun _ => Or.inl ⟨rfl, by dsimp only at hc; omega⟩)
      exact ⟨_, n, h⟩
  obtain ⟨S, n, h⟩ := this
  have := h.runWorld hids 0
  unfold recursiveBisectCut
  rw [hag, ok_bind, ← hxs]
  rcases this with ⟨G, ys, h1, h2⟩ | ⟨er, h1, h2⟩
  · left
    rw [e2] at h2
    obtain ⟨Hs', h3, h4⟩ := addCutNets_returned hD hpins h2
    refine ⟨Hs', ?_, h4⟩
    rw [h1, ok_bind, h3]
  · right
    refine ⟨er, ?_, h2⟩
    rw [h1, error_bind]

/-- C77 for the bisection functions of the program, with rounding to the nearest double. -/
theorem C77_code_partial {F : Type} {E : List Bool → Nat → ParBisectEnv F} {E1 : List Bool → Env F} {N T : Nat}
    (hE : ∀ path p, 2 ≤ p → ParBisectEnvOk (E path p) p N T) (hE1 : ∀ path, (E1 path).Ok N)
    (hf : ∀ path, (E1 path).fuel = T) (hN : N < 2147483648) {opts : Options} {Hs : List Hypergraph}
    (ho : opts.samplingLp = true → 1 ≤ opts.sampleSize / Hs.length) {P : ParRecEnv} (hrnd : P.rnd = nearest53)
    (hbis : P.bis = codeBis E opts Hs.length)
    (halone : P.alone = fun path H m0 m1 s e l rng =>
      bisectOne (E1 path) H { opts with sampleSize := opts.sampleSize / Hs.length } m0 m1 s e l rng)
    (hord : ∀ path l, (P.ord path l).Perm l) (hdv : ∀ path, Fair (P.dVert path)) (hdc : ∀ path, Fair (P.dCost path))
    {C : CutEnv} (hids : ∀ i, Fair (C.dIds i)) (hpins : Fair C.dPins)
    {k : Nat} (hk : 2 ≤ k) (hne : Hs ≠ []) (hD : Distributed N Hs)
    (hpos : ∀ H ∈ Hs, ∀ v ∈ H.vertices, 0 < v.weight) (hT : (Hs.flatMap (·.vertices)).length < T)
    (hW : ((Hs.flatMap (·.vertices)).map (·.weight)).sum < 2 ^ 53) (hp : Hs.length ≤ 2 ^ 50) (epsilon : ℚ) {eta : ℚ}
    (heta : 0 ≤ eta) {rngs : List Rng} (hr : rngs.length = Hs.length) :
    (∃ Hs', recursiveBisectCut P C k epsilon eta Hs rngs = .ok Hs' ∧ NetsReturned Hs Hs' ∧
      ∀ H ∈ Hs', ∀ v ∈ H.vertices, 0 ≤ v.part ∧ v.part < k) ∨
    recursiveBisectCut P C k epsilon eta Hs rngs = .error .ub ∨
    ((8 < k ∧ 2 ≤ Hs.length ∨ opts.bisectionRandom = false ∧ opts.samplingLp = false) ∧
      recursiveBisectCut P C k epsilon eta Hs rngs = .error .abort) := by
  have hP : ParRecEnvOk P N T
      (fun e => opts.bisectionRandom = false ∧ (e = .ub ∨ opts.samplingLp = false ∧ e = .abort)) := by
    refine ⟨?_, ?_, hord, hdv, hdc, ?_, ?_⟩
    · rw [hbis]; exact codeBis_well hE hN ho
    · intro path
      rw [halone, ← hf path]
      exact bisectOne_well (hE1 path) _
    · rw [hrnd]; exact nearest53_keepsInts
    · rw [hrnd]; exact nearest53_rounds
  rcases C77_partial (C := C) hP hids hpins hN hk hne hD hpos hT hW hp epsilon heta hr with
    h | ⟨e, h, rfl | ⟨h1, rfl | ⟨h2, rfl⟩⟩ | ⟨rfl, h1⟩⟩
  · exact Or.inl h
  · exact Or.inr (Or.inl h)
  · exact Or.inr (Or.inl h)
  · exact Or.inr (Or.inr ⟨Or.inr ⟨h1, h2⟩, h⟩)
  · exact Or.inr (Or.inr ⟨Or.inl h1, h⟩)

/-! ### Examples -/

def exampleCutEnv (N : Nat) : CutEnv where
  np := fun p => blockPart p N
  dLab := fun _ => revDelivery _
  dIds := fun _ => revDelivery _
  dPins := revDelivery _

theorem exampleCutEnv_ok (N : Nat) : (∀ i, Fair ((exampleCutEnv N).dIds i)) ∧ Fair (exampleCutEnv N).dPins :=
  ⟨fun _ => revDelivery_fair _, revDelivery_fair _⟩

set_option synthInstance.maxSize 1000 in
/-- Three processors and five parts: ids, lists of nets and parts of the vertices, and the nets with their pins. The
pins of net 0 are spread over two processors at the end; some nets are left without pins on a processor. Vertices 1,
7, 4 and 5 have lost nets from their lists. -/
example : (recursiveBisectCut exampleRecEnv (exampleCutEnv 4) 5 (1 / 4) 0 exampleThree
      [fun n => n, fun n => n, fun n => n + 1]).toOption.map (fun Hs => Hs.map (fun H =>
        (H.vertices.map (fun v => (v.id, v.nets, v.part)), H.nets.map (fun n => (n.id, n.vertices, n.cost))))) =
    some [([(1, [], 1), (7, [], 0), (3, [0, 2], 1)], [(2, [3], 1), (1, [], 1), (0, [1, 3], 2)]),
      ([(4, [], 4), (6, [3], 3), (0, [0, 1], 2), (5, [], 2)],
        [(2, [5], 1), (3, [4, 5, 6], 3), (0, [0], 2), (1, [0], 1)]),
      ([(2, [1, 2], 3)], [(3, [], 3), (1, [2], 1), (2, [2], 1)])] := by decide +kernel

/-- Two processors; net 0 has one pin. -/
def exampleSingle : List Hypergraph :=
  [ Hypergraph.create 6 4
      [ ⟨0, [1], 1, 0⟩, ⟨1, [], 1, 0⟩, ⟨4, [0], 1, 0⟩ ]
      [ ⟨0, [4], 1, 1⟩, ⟨1, [0], 1, 2⟩ ],
    Hypergraph.create 6 4
      [ ⟨2, [1], 1, 0⟩, ⟨3, [], 1, 0⟩, ⟨5, [], 1, 0⟩ ]
      [ ⟨1, [2], 1, 2⟩ ] ]

theorem exampleSingle_dist : Distributed 4 exampleSingle :=
  ⟨by
    intro H hH
    simp only [exampleSingle, List.mem_cons, List.not_mem_nil, or_false] at hH
    rcases hH with rfl | rfl <;>
      exact WF_create (by decide) (by decide) (by decide) (by decide) (by decide) (by decide),
    by decide, by decide, by decide⟩

/-- C77 does not hold without the first alternative of its failures: the only pin of net 0 moves to the other
processor, the net without pins stays, and the next removal reads its first pin. With the lambda metric
the same run ends normally. All assumptions of C77 hold. -/
theorem C77_false : exampleSingle ≠ [] ∧ Distributed 4 exampleSingle ∧
    (∀ H ∈ exampleSingle, ∀ v ∈ H.vertices, 0 < v.weight) ∧ (exampleSingle.flatMap (·.vertices)).length < 10 ∧
    ((exampleSingle.flatMap (·.vertices)).map (·.weight)).sum < 2 ^ 53 ∧
    (recursiveBisectPar exampleRecEnv 5 (1 / 4) 0 exampleSingle [fun n => n, fun n => n * n / 3]).toOption.isSome ∧
    recursiveBisectCut exampleRecEnv (exampleCutEnv 4) 5 (1 / 4) 0 exampleSingle [fun n => n, fun n => n * n / 3] =
      .error .ub :=
  ⟨by decide, exampleSingle_dist, by decide, by decide, by decide, by decide +kernel, eq_of_failsWith (by decide +kernel)⟩

/-- The processors can lose step: three processors, ten parts. With the lambda metric the same run ends normally. -/
theorem C77_lost_step :
    (recursiveBisectPar exampleRecEnv 10 (1 / 4) 0 exampleThree
      [fun n => n, fun n => n * n / 3, fun n => n + 1]).toOption.isSome ∧
    recursiveBisectCut exampleRecEnv (exampleCutEnv 4) 10 (1 / 4) 0 exampleThree
      [fun n => n, fun n => n * n / 3, fun n => n + 1] = .error .abort :=
  ⟨by decide +kernel, eq_of_failsWith (by decide +kernel)⟩

end PMondriaan

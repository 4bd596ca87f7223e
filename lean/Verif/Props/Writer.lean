import Verif.Proofs.Writer

/-
Properties of the writer and of the random generator of matrices: C41, C42, C48.
-/

namespace PMondriaan

open Spec

/-! ### C41 -/

/-- C41 fails: for every number of parts, every distribution and every labelling, the last round of the
loop writes one place beyond the vector. -/
theorem C41_false {k : Nat} (hk : 1 ≤ k) {Hs : List Hypergraph} (hne : Hs ≠ [])
    (h : LabelsBelow k Hs) : startParts Hs k = .error .ub := by
  obtain ⟨cs, h1, h2⟩ := totals_ok h
  unfold startParts
  simp only [h1, ok_bind, h2]
  cases Hs with
  | nil => exact absurd rfl hne
  | cons H Hs =>
    rw [List.mapM_cons, startLoop_ub _ (by omega)]
    rfl

/-- C41, the part that holds: all rounds of the loop but the last stay inside the vector, and then the
vector has `k + 1` values, the `i`-th being the number of entries in parts below `i`. Missing: the last
round, which is outside. -/
theorem C41_partial {k : Nat} (hk : 1 ≤ k) {Hs : List Hypergraph} (h : LabelsBelow k Hs) :
    ∃ cs, Hs.mapM (fun H => startCounts H k) = .ok cs ∧
      startLoop (k - 1) (0 :: cs.foldl addEach (List.replicate k 0)) =
        .ok ((List.range (k + 1)).map (fun i => (entriesBelow Hs i : Int))) := by
  obtain ⟨cs, h1, h2⟩ := totals_ok h
  refine ⟨cs, h1, ?_⟩
  rw [h2, startLoop_ok _ (show k - 1 < k by omega)]
  congr 1
  unfold startVec
  apply List.map_congr_left
  intro j hj
  rw [List.mem_range] at hj
  rw [if_pos (by omega), pre_entries h]

/-- C41: a vertex without a label is counted out of bounds as well. -/
theorem C41_unassigned {k : Nat} {H : Hypergraph} (h : ∃ v ∈ H.vertices, ¬ (0 ≤ v.part ∧ v.part < k)) :
    startCounts H k = .error .ub := by
  rw [startCounts_eq]
  apply C08_unassigned_out_of_bounds
  obtain ⟨v, hv, hb⟩ := h
  exact ⟨_, List.mem_map_of_mem hv, hb⟩

/-- The example: labels 0, 1, 1, 1 with 2, 2, 1 and 1 entries. -/
example : LabelsBelow 2 exampleD ∧ startParts exampleD 2 = .error .ub ∧
    (List.range 3).map (entriesBelow exampleD) = [0, 2, 6] := by
  refine ⟨?_, by decide, by decide⟩
  unfold LabelsBelow
  decide

/-- With no parts at all there is no round, and the result is the single 0. -/
example : startParts [Hypergraph.create 0 0 [] []] 0 = .ok [[0]] := by decide

/-! ### C42 -/

/-- C42 does not hold as a whole: the offsets are computed first, and that is already an access out of
bounds (C41). -/
theorem C42_false {k : Nat} (hk : 1 ≤ k) {Hs : List Hypergraph} (hne : Hs ≠ [])
    (h : LabelsBelow k Hs) : partitioningToFile Hs k = .error .ub := by
  unfold partitioningToFile
  rw [C41_false hk hne h]
  rfl

theorem mem_block {Hs : List Hypergraph} {i : Nat} {x : Nat × Nat} :
    x ∈ block Hs i ↔ ∃ H ∈ Hs, ∃ v ∈ H.vertices, v.part = (i : Int) ∧
      ∃ e ∈ v.nets, x = (e + 1, v.id + 1) := by
  unfold block vertexLines
  simp only [List.mem_flatMap, List.mem_filter, List.mem_map, decide_eq_true_eq]
  constructor
  · rintro ⟨v, ⟨⟨H, hH, hv⟩, hp⟩, e, he, rfl⟩
    exact ⟨H, hH, v, hv, hp, e, he, rfl⟩
  · rintro ⟨H, hH, v, hv, hp, e, he, rfl⟩
    exact ⟨v, ⟨⟨H, hH, hv⟩, hp⟩, e, he, rfl⟩

/-- C42, the body of the file: it lists every stored entry, as often as it is stored; the lines from
`Kstart[i]` up to `Kstart[i+1]` are exactly the entries whose vertex is in part `i`. Missing: the offsets
are written by `start_parts`, which is undefined (C42_false). -/
theorem C42_partial {k : Nat} {Hs : List Hypergraph} (h : LabelsBelow k Hs) :
    (writeBody Hs k).Perm (allEntries Hs) ∧
    (writeBody Hs k).length = entriesBelow Hs k ∧
    ∀ i, i < k → ∀ x : Nat × Nat,
      x ∈ ((writeBody Hs k).drop (entriesBelow Hs i)).take
          (entriesBelow Hs (i + 1) - entriesBelow Hs i) ↔
        ∃ H ∈ Hs, ∃ v ∈ H.vertices, v.part = (i : Int) ∧ ∃ e ∈ v.nets, x = (e + 1, v.id + 1) := by
  refine ⟨?_, ?_, ?_⟩
  · rw [writeBody_eq]
    apply flatMap_blocks_perm
    intro v hv
    obtain ⟨H, hH, hv⟩ := List.mem_flatMap.1 hv
    exact h H hH v hv
  · rw [writeBody_eq, blocks_length h]
  · intro i hi x
    rw [slice_ok h hi]
    exact mem_block

/-- C42: for a correctly distributed hypergraph no line is written twice, and the lines are the
incidences. -/
theorem C42_once {N k : Nat} {Hs : List Hypergraph} (hD : Distributed N Hs) (h : LabelsBelow k Hs) :
    (writeBody Hs k).Nodup ∧
    ∀ e u : Nat, (e + 1, u + 1) ∈ writeBody Hs k ↔
      ∃ H ∈ Hs, ∃ n ∈ H.nets, n.id = e ∧ u ∈ n.vertices := by
  have hp := (C42_partial h).1
  constructor
  · rw [hp.nodup_iff]
    unfold allEntries
    rw [List.nodup_flatMap]
    constructor
    · intro v hv
      obtain ⟨H, hH, hv⟩ := List.mem_flatMap.1 hv
      apply List.Nodup.map_on _ ((hD.wf H hH).vnets v hv)
      intro a _ b _ hab
      rw [Prod.mk.injEq] at hab
      omega
    · have := hD.disjoint
      rw [List.Nodup, List.pairwise_map] at this
      refine this.imp ?_
      intro a b hab x hx hx'
      obtain ⟨e, -, rfl⟩ := List.mem_map.1 hx
      obtain ⟨e', -, he'⟩ := List.mem_map.1 hx'
      rw [Prod.mk.injEq] at he'
      apply hab
      omega
  · intro e u
    rw [hp.mem_iff]
    unfold allEntries
    simp only [List.mem_flatMap, List.mem_map, Prod.mk.injEq, Nat.add_right_cancel_iff]
    constructor
    · rintro ⟨v, ⟨H, hH, hv⟩, e', he', rfl, rfl⟩
      obtain ⟨n, hn, hid, hu⟩ := (hD.wf H hH).inc_net v hv e' he'
      exact ⟨H, hH, n, hn, hid, hu⟩
    · rintro ⟨H, hH, n, hn, rfl, hu⟩
      obtain ⟨v, hv, hid, he⟩ := (hD.wf H hH).inc_vtx n hn u hu
      exact ⟨v, ⟨H, hH, hv⟩, n.id, he, rfl, hid⟩

/-- The body for the example on two processors: the entries of part 0, then those of part 1. -/
example : writeBody exampleD 2 = [(1, 2), (3, 2), (1, 5), (2, 5), (3, 1), (1, 4)] := by decide

/-! ### C48 -/

/-- C48: when the generator returns, the file has exactly `nz` entries, all different and in range. -/
theorem C48_written {fuel : Nat} {r : Rng} {n m nz : Nat} {f : MtxFile}
    (h : createRandom fuel r n m nz = .ok f) :
    f.symmetry = some "general" ∧ f.E = m ∧ f.V = n ∧ f.L = nz ∧
    ∃ es : List (Nat × Nat), f.lines = es.map some ∧ es.length = nz ∧ es.Nodup ∧ EntriesIn m n es := by
  unfold createRandom at h
  obtain ⟨s, h1, h2⟩ := bind_eq_ok.1 h
  have : f = ⟨some "general", m, n, nz, s.out.map some⟩ := (Except.ok.inj h2).symm
  subst this
  obtain ⟨hI, ha⟩ := genLoop_inv (genInv_init n m r) (Nat.zero_le nz) h1
  exact ⟨rfl, rfl, rfl, rfl, s.out, rfl, by rw [hI.count, ha], hI.nodup, hI.range⟩

/-- C48: if more entries are asked for than the matrix has cells, the generator never returns, whatever
the random stream and however many rounds. -/
theorem C48_never {fuel : Nat} {r : Rng} {n m nz : Nat} (h : m * n < nz) :
    ¬ ∃ f, createRandom fuel r n m nz = .ok f := by
  rintro ⟨f, hf⟩
  unfold createRandom at hf
  obtain ⟨s, h1, -⟩ := bind_eq_ok.1 hf
  obtain ⟨hI, ha⟩ := genLoop_inv (genInv_init n m r) (Nat.zero_le nz) h1
  have := genInv_le hI
  omega

theorem genLoop_no_error {n m nz fuel : Nat} (hm : 0 < m) (hn : 0 < n) {s : GenState}
    (h : GenInv n m s) : (∃ s', genLoop n m nz fuel s = .ok s') ∨
      genLoop n m nz fuel s = .error .fuel := by
  induction fuel generalizing s with
  | zero =>
    unfold genLoop
    by_cases hlt : s.added < nz
    · rw [if_pos hlt]; exact Or.inr rfl
    · rw [if_neg hlt]; exact Or.inl ⟨_, rfl⟩
  | succ fuel ih =>
    unfold genLoop
    by_cases hlt : s.added < nz
    · rw [if_pos hlt]
      obtain ⟨s1, h1, h2, -, -⟩ := genStep_ok hm hn h
      rw [h1, ok_bind]
      exact ih h2
    · rw [if_neg hlt]; exact Or.inl ⟨_, rfl⟩

/-- C48: with at least one row and column the generator stays inside its vectors; with none and
`nz > 0` it divides by zero. -/
theorem C48_bounds (fuel : Nat) (r : Rng) (n m nz : Nat) :
    (0 < m → 0 < n → createRandom fuel r n m nz ≠ .error .ub) ∧
    (m = 0 ∨ n = 0 → 0 < nz → createRandom (fuel + 1) r n m nz = .error .ub) := by
  constructor
  · intro hm hn hc
    unfold createRandom at hc
    rcases genLoop_no_error (nz := nz) (fuel := fuel) hm hn (genInv_init n m r) with ⟨s', hs⟩ | hs
    · rw [hs] at hc; cases hc
    · rw [hs] at hc; cases hc
  · intro hz hnz
    unfold createRandom genLoop genStep
    rw [if_pos hnz, if_pos hz]
    rfl

/-- C48: if the matrix has enough cells and the stream draws every cell again and again, the generator
returns. -/
theorem C48_returns {n m nz : Nat} (hm : 0 < m) (hn : 0 < n) (hnz : nz ≤ m * n) {r : Rng}
    (hr : DrawsAll n m r) : ∃ fuel f, createRandom fuel r n m nz = .ok f := by
  obtain ⟨fuel, s, hs⟩ := genLoop_terminates hm hn hnz hr nz 0 ⟨r, 0, List.replicate m [], []⟩
    (genInv_init n m r) (Nat.zero_add nz) (by funext x; simp)
  refine ⟨fuel, ⟨some "general", m, n, nz, s.out.map some⟩, ?_⟩
  unfold createRandom
  rw [hs]
  rfl

/-- C48 and C01: the written file is read back into a consistent hypergraph with `n` vertices and `nz`
incidences. -/
theorem C48_read_back {order : List Nat → List Nat} (ho : ∀ l, (order l).Perm l) {fuel : Nat} {r : Rng}
    {n m nz : Nat} {f : MtxFile} (h : createRandom fuel r n m nz = .ok f) {mode : String}
    {wt : List Nat → Int} (hm : ModeMeans mode wt) :
    ∃ H, readSeq order f mode = .ok (some H) ∧ WF H ∧ H.vertices.length = n ∧ H.nrNz = nz ∧
      (H.vertices.map (·.nets.length)).sum = nz := by
  obtain ⟨h1, h2, h3, h4, es, h5, h6, h7, h8⟩ := C48_written h
  obtain ⟨H, g1, g2, -, g4, g5⟩ := C01_read_general ho h1 h5 (by rw [h2, h3]; exact h8) hm
  refine ⟨H, g1, g5 h7, ?_, by rw [g4, h4], ?_⟩
  · have := congrArg List.length g2.vids
    rw [List.length_map, List.length_range, h3] at this
    exact this
  · have hc : H.vertices.map (·.nets.length) =
        (H.vertices.map (·.id)).map (fun v => (columnOf es v).length) := by
      rw [List.map_map]
      apply List.map_congr_left
      intro v hv
      simp only [Function.comp_def]
      rw [(g2.columns v hv).1]
    rw [hc, g2.vids, sum_indicator _ _ (fun x hx => by rw [h3]; exact (h8 x hx).2.2), h6]

/-- The stream `0, 1, 2, …` fills two cells of a 2 by 3 matrix; the third draw of a new cell takes
another round. -/
example : (createRandom 10 id 3 2 3).map (·.lines) =
    .ok [some (1, 2), some (1, 1), some (1, 3)] := by decide

/-- A stream that draws all four cells of a 2 by 2 matrix in turn. -/
example : DrawsAll 2 2 (fun x => if x % 2 = 0 then x / 2 % 2 else x / 2 / 2 % 2) := by
  intro t i j hi hj
  refine ⟨4 * t + 2 * j + i, by omega, ?_, ?_⟩
  · simp only
    rw [if_pos (by omega)]
    omega
  · simp only
    rw [if_neg (by omega)]
    omega

end PMondriaan

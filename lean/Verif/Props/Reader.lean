import Verif.Proofs.Reader

/-
Properties of the reader: C01 (general matrices), C02 (symmetric matrices), C03 (malformed entries),
C04 (distributed reading).
-/

namespace PMondriaan

open Spec

/-- A 3 by 4 matrix with an empty row and an empty column. -/
def exampleFile : MtxFile :=
  ⟨some "general", 3, 4, 4, [some (1, 1), some (3, 2), some (1, 4), some (3, 1)]⟩

/-- A symmetric 3 by 3 matrix. -/
def exampleSym : MtxFile :=
  ⟨some "symmetric", 3, 3, 3, [some (1, 1), some (2, 1), some (3, 2)]⟩

/-- What a weight mode means. -/
def ModeMeans (mode : String) (wt : List Nat → Int) : Prop :=
  (mode = "one" ∧ wt = fun _ => 1) ∨ (mode = "degree" ∧ wt = fun l => (l.length : Int))

theorem modeMeans_iff (mode : String) (wt : List Nat → Int) (h : ModeMeans mode wt) :
    modeWeight mode = some wt := by
  unfold modeWeight
  rcases h with ⟨rfl, rfl⟩ | ⟨rfl, rfl⟩
  · rw [if_pos rfl]
  · rw [if_neg (by decide), if_pos rfl]

/-- The incidence relation of `H` is that of the entries, from both sides. -/
def SameIncidence (es : List (Nat × Nat)) (H : Hypergraph) : Prop :=
  (∀ v ∈ H.vertices, ∀ e : Nat, e ∈ v.nets ↔ (e + 1, v.id + 1) ∈ es) ∧
  (∀ n ∈ H.nets, ∀ u : Nat, u ∈ n.vertices ↔ (n.id + 1, u + 1) ∈ es)

theorem matrix_incidence {E V : Nat} {es : List (Nat × Nat)} (h : EntriesIn E V es)
    {wt : List Nat → Int} {H : Hypergraph} (hM : IsMatrix E V es wt H) : SameIncidence es H := by
  constructor
  · intro v hv e
    rw [(hM.columns v hv).1]; exact mem_columnOf h v.id e
  · intro n hn u
    rw [(hM.rows n hn).1]; exact mem_rowOf h u n.id

theorem readData_general {f : MtxFile} {es : List (Nat × Nat)} (hs : f.symmetry = some "general")
    (hl : f.lines = es.map some) (h : EntriesIn f.E f.V es) :
    readData f = .ok (some (listsOf f.E f.V es, f.L)) := by
  unfold readData
  simp only [hs]
  rw [if_pos trivial, hl, ← listsOf_nil]
  have := readLines_general es [] h f.L []
  rw [List.append_nil] at this
  rw [this]
  rfl

theorem readData_symmetric {f : MtxFile} {es : List (Nat × Nat)}
    (hs : f.symmetry = some "symmetric") (hl : f.lines = es.map some)
    (h : EntriesIn f.E f.V (mirror es)) :
    readData f = .ok (some (listsOf f.E f.V (mirror es), (mirror es).length)) := by
  unfold readData
  simp only [hs]
  rw [if_neg (by decide), if_pos trivial, hl, ← listsOf_nil]
  have := readLines_symmetric es [] h 0 []
  rw [List.append_nil, Nat.zero_add] at this
  rw [this]
  rfl

/-! ### C01 -/

/-- C01: a general file with entries in range is read into the hypergraph of the matrix: one vertex
per column, one net per non-empty row, the listed incidences, weights by the mode. If no entry is
repeated, the hypergraph is consistent. -/
theorem C01_read_general {order : List Nat → List Nat} (ho : ∀ l, (order l).Perm l) {f : MtxFile}
    {es : List (Nat × Nat)} (hs : f.symmetry = some "general") (hl : f.lines = es.map some)
    (h : EntriesIn f.E f.V es) {mode : String} {wt : List Nat → Int} (hm : ModeMeans mode wt) :
    ∃ H, readSeq order f mode = .ok (some H) ∧ IsMatrix f.E f.V es wt H ∧ SameIncidence es H ∧
      H.nrNz = f.L ∧ (es.Nodup → WF H) :=
  ⟨_, readSeq_ok ho (modeMeans_iff mode wt hm) (readData_general hs hl h), matrixH_is _ _ _ _ _,
    matrix_incidence h (matrixH_is _ _ _ _ _), rfl, fun hn => matrixH_wf h hn _ _⟩

/-- The example: columns, weights, rows. -/
example :
    (readSeq id exampleFile "degree").map (Option.map (fun H =>
      H.vertices.map (fun v => (v.id, v.nets, v.weight)))) =
    .ok (some [(0, [0, 2], 2), (1, [2], 1), (2, [], 0), (3, [0], 1)]) := by decide

example :
    (readSeq id exampleFile "degree").map (Option.map (fun H =>
      H.nets.map (fun n => (n.id, n.vertices, n.globalSize)))) =
    .ok (some [(0, [0, 3], 2), (2, [1, 0], 2)]) := by decide

example : EntriesIn 3 4 [(1, 1), (3, 2), (1, 4), (3, 1)] ∧
    [(1, 1), (3, 2), (1, 4), (3, 1)].Nodup := by
  unfold EntriesIn; decide

/-- C01: a repeated entry is stored twice, and the hypergraph is then not consistent. -/
theorem C01_repeated_entry :
    (readSeq id ⟨some "general", 1, 1, 2, [some (1, 1), some (1, 1)]⟩ "one").map
      (fun H? => H?.map (fun H => (H.vertices.map (·.nets), H.nets.map (·.vertices)))) =
    .ok (some ([[0, 0]], [[0, 0]])) := by decide

/-- C01: the number of nonzeros of a general file is the declared one, also when the file has another
number of entries. -/
theorem C01_declared_nonzeros :
    (readSeq id ⟨some "general", 1, 1, 7, [some (1, 1)]⟩ "one").map
      (fun H? => H?.map (fun H => (H.nrNz, (H.vertices.map (·.nets.length)).sum))) =
    .ok (some (7, 1)) := by decide

/-! ### C02 -/

theorem sum_one_hot (k V : Nat) :
    ((List.range V).map (fun v => if v = k then 1 else 0)).sum = if k < V then 1 else 0 := by
  induction V with
  | zero => rfl
  | succ V ih =>
    rw [List.range_succ, List.map_append, List.sum_append, ih]
    simp only [List.map_cons, List.map_nil, List.sum_cons, List.sum_nil]
    split <;> split <;> split <;> omega

theorem sum_indicator (es : List (Nat × Nat)) (V : Nat) (h : ∀ x ∈ es, 1 ≤ x.2 ∧ x.2 ≤ V) :
    ((List.range V).map (fun v => (columnOf es v).length)).sum = es.length := by
  induction es with
  | nil =>
    have : (List.range V).map (fun v => (columnOf [] v).length) = (List.range V).map (fun _ => 0) := rfl
    rw [this]; simp
  | cons x es ih =>
    have hx := h x (by simp)
    have hc : ∀ v, (columnOf (x :: es) v).length =
        (if v = x.2 - 1 then 1 else 0) + (columnOf es v).length := by
      intro v
      unfold columnOf
      rw [List.filter_cons]
      by_cases hv : v = x.2 - 1
      · rw [if_pos hv, if_pos (by simp; omega)]
        simp; omega
      · rw [if_neg hv, if_neg (by simp; omega)]
        simp
    have hsum : ((List.range V).map (fun v => if v = x.2 - 1 then 1 else 0)).sum = 1 := by
      have hk : x.2 - 1 < V := by omega
      rw [sum_one_hot, if_pos hk]
    simp only [hc]
    rw [List.sum_map_add, hsum, ih (fun y hy => h y (by simp [hy])), List.length_cons, Nat.add_comm]

/-- C02: a symmetric file is read into the hypergraph of the matrix in which every off-diagonal entry
stands in both triangles; the number of nonzeros is the number of incidences stored. -/
theorem C02_read_symmetric {order : List Nat → List Nat} (ho : ∀ l, (order l).Perm l) {f : MtxFile}
    {es : List (Nat × Nat)} (hs : f.symmetry = some "symmetric") (hl : f.lines = es.map some)
    (hsq : f.E = f.V) (h : EntriesIn f.E f.V es) {mode : String} {wt : List Nat → Int}
    (hm : ModeMeans mode wt) :
    ∃ H, readSeq order f mode = .ok (some H) ∧ IsMatrix f.E f.V (mirror es) wt H ∧
      SameIncidence (mirror es) H ∧ H.nrNz = (H.vertices.map (·.nets.length)).sum ∧
      ((mirror es).Nodup → WF H) := by
  have h' : EntriesIn f.E f.V (mirror es) := by
    intro x hx
    unfold mirror at hx
    obtain ⟨y, hy, hx⟩ := List.mem_flatMap.1 hx
    have hy := h y hy
    by_cases hyy : y.1 = y.2
    · rw [if_pos hyy, List.mem_singleton] at hx
      rw [hx]; exact hy
    · rw [if_neg hyy] at hx
      rcases List.mem_cons.1 hx with rfl | hx
      · exact hy
      · rw [List.mem_singleton] at hx
        rw [hx]
        simp only
        omega
  refine ⟨_, readSeq_ok ho (modeMeans_iff mode wt hm) (readData_symmetric hs hl h'),
    matrixH_is _ _ _ _ _, matrix_incidence h' (matrixH_is _ _ _ _ _), ?_,
    fun hn => matrixH_wf h' hn _ _⟩
  have : (matrixH f.E f.V (mirror es).length (mirror es) wt).vertices.map (·.nets.length) =
      (List.range f.V).map (fun v => (columnOf (mirror es) v).length) := by
    unfold matrixH Hypergraph.create
    simp only [List.map_map]
    rfl
  rw [this, sum_indicator _ _ (fun x hx => (h' x hx).2.2)]
  rfl

/-- C02: what the mirrored entries are: an entry of the file or the transpose of one. -/
theorem C02_mirror (es : List (Nat × Nat)) (e v : Nat) :
    (e, v) ∈ mirror es ↔ (e, v) ∈ es ∨ (v, e) ∈ es := by
  unfold mirror
  rw [List.mem_flatMap]
  constructor
  · rintro ⟨y, hy, hx⟩
    by_cases hyy : y.1 = y.2
    · rw [if_pos hyy, List.mem_singleton] at hx
      rw [hx]; exact Or.inl hy
    · rw [if_neg hyy] at hx
      rcases List.mem_cons.1 hx with hx | hx
      · rw [hx]; exact Or.inl hy
      · rw [List.mem_singleton, Prod.mk.injEq] at hx
        rw [hx.1, hx.2]; exact Or.inr hy
  · rintro (h | h)
    · refine ⟨_, h, ?_⟩
      split <;> simp
    · refine ⟨_, h, ?_⟩
      by_cases hev : v = e
      · subst hev; simp
      · rw [if_neg hev]; simp

/-- C02: when the file lists one triangle without repetitions, so that the transpose of an entry is not
listed, the mirrored entries have no repetitions. -/
theorem C02_mirror_nodup {es : List (Nat × Nat)} (hn : es.Nodup)
    (h : ∀ x ∈ es, x.1 ≠ x.2 → (x.2, x.1) ∉ es) : (mirror es).Nodup := by
  unfold mirror
  rw [List.nodup_flatMap]
  constructor
  · intro x _
    by_cases hx : x.1 = x.2
    · rw [if_pos hx]; simp
    · rw [if_neg hx]
      simp only [List.nodup_cons, List.mem_singleton, List.not_mem_nil, not_false_eq_true,
        List.nodup_nil, and_true]
      intro hc
      exact hx (congrArg Prod.fst hc)
  · apply List.Nodup.pairwise_of_forall_ne hn
    intro x hx y hy hxy z hz hz'
    have hm : ∀ w ∈ es, z ∈ (if w.1 = w.2 then [w] else [w, (w.2, w.1)]) →
        z = w ∨ (w.1 ≠ w.2 ∧ z = (w.2, w.1)) := by
      intro w _ hzw
      by_cases hw : w.1 = w.2
      · rw [if_pos hw] at hzw
        exact Or.inl (by simpa using hzw)
      · rw [if_neg hw] at hzw
        rcases List.mem_cons.1 hzw with h | h
        · exact Or.inl h
        · exact Or.inr ⟨hw, by simpa using h⟩
    rcases hm x hx hz with h1 | ⟨h1, h1'⟩ <;> rcases hm y hy hz' with h2 | ⟨h2, h2'⟩
    · exact hxy (h1.symm.trans h2)
    · exact h y hy h2 (by rw [← h2', h1]; exact hx)
    · exact h x hx h1 (by rw [← h1', h2]; exact hy)
    · apply hxy
      rw [h1', Prod.mk.injEq] at h2'
      exact Prod.ext h2'.2 h2'.1

set_option synthInstance.maxSize 1000 in
example :
    (readSeq id exampleSym "one").map (Option.map (fun H =>
      (H.nrNz, H.vertices.map (fun v => (v.id, v.nets, v.weight))))) =
    .ok (some (5, [(0, [0, 1], 1), (1, [0, 2], 1), (2, [1], 1)])) := by decide

example :
    (readSeq id exampleSym "one").map (Option.map (fun H =>
      H.nets.map (fun n => (n.id, n.vertices, n.globalSize)))) =
    .ok (some [(0, [0, 1], 2), (1, [0, 2], 2), (2, [1], 1)]) := by decide

/-! ### C03 -/

theorem readSeq_ub {order : List Nat → List Nat} {f : MtxFile} {mode : String}
    (h : readData f = .error .ub) : readSeq order f mode = .error .ub := by
  unfold readSeq
  rw [h]
  rfl

theorem readSeq_none {order : List Nat → List Nat} {f : MtxFile} {mode : String}
    (h : readData f = .ok none) : readSeq order f mode = .ok none := by
  unfold readSeq
  rw [h]
  rfl

/-- C03 fails: an out-of-range entry after entries in range is never rejected; it always leads to an
access out of bounds, for every matrix size, position, weight mode and symmetry. -/
theorem C03_false_general (order : List Nat → List Nat) (mode : String) {f : MtxFile}
    {es : List (Nat × Nat)} {e v : Nat} {rest : List (Option (Nat × Nat))}
    (hl : f.lines = es.map some ++ some (e, v) :: rest) (h : EntriesIn f.E f.V es)
    (hs : f.symmetry = some "general") (hbad : e = 0 ∨ f.E < e ∨ v = 0 ∨ f.V < v) :
    readSeq order f mode = .error .ub := by
  apply readSeq_ub
  unfold readData
  simp only [hs]
  rw [if_pos trivial, hl, ← listsOf_nil, readLines_general es [] h, readLines_general_bad]
  intro hc
  have := hc (e, v) (by simp)
  simp only at this
  omega

/-- C03 fails for symmetric files in the same way. -/
theorem C03_false_symmetric (order : List Nat → List Nat) (mode : String) {f : MtxFile}
    {es : List (Nat × Nat)} {e v : Nat} {rest : List (Option (Nat × Nat))}
    (hl : f.lines = es.map some ++ some (e, v) :: rest) (h : EntriesIn f.E f.V (mirror es))
    (hs : f.symmetry = some "symmetric") (hbad : e = 0 ∨ f.E < e ∨ v = 0 ∨ f.V < v) :
    readSeq order f mode = .error .ub := by
  apply readSeq_ub
  unfold readData
  simp only [hs]
  rw [if_neg (by decide), if_pos trivial, hl, ← listsOf_nil, readLines_symmetric es [] h,
    readLines_symmetric_bad]
  intro hc
  have := hc (e, v) (by rw [mirror_one]; split <;> simp)
  simp only at this
  omega

/-- C03 fails: a concrete file of two lines. -/
theorem C03_false : ∃ f : MtxFile, f.symmetry = some "general" ∧
    (∃ x ∈ f.lines, ∃ e v, x = some (e, v) ∧ f.V < v) ∧
    ¬ ∃ r, readSeq id f "one" = .ok r := by
  refine ⟨⟨some "general", 2, 2, 2, [some (1, 1), some (2, 3)]⟩, rfl, ⟨_, by simp, 2, 3, rfl, ?_⟩, ?_⟩
  · decide
  · rintro ⟨r, hr⟩
    rw [C03_false_general id "one" (es := [(1, 1)]) (rest := []) rfl
      (by unfold EntriesIn; decide) rfl (by decide)] at hr
    exact nomatch hr

/-- C03, symmetric and rectangular: an entry of a symmetric file inside a rectangular matrix whose
transpose is outside is also written out of bounds. -/
theorem C03_false_rectangular :
    readSeq id ⟨some "symmetric", 3, 2, 1, [some (3, 1)]⟩ "one" = .error .ub := by
  apply readSeq_ub; rfl

theorem readLines_none {S : Type} {step : S → Nat → Nat → Res S} {es : List (Nat × Nat)} {s s' : S}
    (h : readLines step (es.map some) s = .ok (some s')) (rest : List (Option (Nat × Nat))) :
    readLines step (es.map some ++ none :: rest) s = .ok none := by
  induction es generalizing s with
  | nil => rfl
  | cons x es ih =>
    obtain ⟨e, v⟩ := x
    rw [List.map_cons, readLines_consP] at h
    rw [List.map_cons, List.cons_append, readLines_consP]
    obtain ⟨s1, h1, h2⟩ := bind_eq_ok.1 h
    rw [h1, ok_bind]
    exact ih h2

/-- C03, the part that holds: a header without a symmetry, an unknown symmetry, an unknown weight mode
(for entries in range), and a line from which no two numbers can be read (after entries in range) are
reported as failures. Missing: entries out of range are not checked at all. -/
theorem C03_partial (order : List Nat → List Nat) (f : MtxFile) (mode : String) :
    (f.symmetry = none → readSeq order f mode = .ok none) ∧
    (∀ s, f.symmetry = some s → s ≠ "general" → s ≠ "symmetric" → readSeq order f mode = .ok none) ∧
    (∀ es : List (Nat × Nat), EntriesIn f.E f.V es → f.symmetry = some "general" →
      f.lines = es.map some → mode ≠ "one" → mode ≠ "degree" → readSeq order f mode = .ok none) ∧
    (∀ es : List (Nat × Nat), EntriesIn f.E f.V es → f.symmetry = some "general" →
      (∃ rest, f.lines = es.map some ++ none :: rest) → readSeq order f mode = .ok none) ∧
    (∀ es : List (Nat × Nat), EntriesIn f.E f.V (mirror es) → f.symmetry = some "symmetric" →
      (∃ rest, f.lines = es.map some ++ none :: rest) → readSeq order f mode = .ok none) := by
  refine ⟨?_, ?_, ?_, ?_, ?_⟩
  · intro h
    apply readSeq_none
    unfold readData
    simp only [h]
  · intro s h h1 h2
    apply readSeq_none
    unfold readData
    simp only [h]
    rw [if_neg h1, if_neg h2]
  · intro es h hs hl h1 h2
    unfold readSeq
    rw [readData_general hs hl h]
    have : modeWeight mode = none := by
      unfold modeWeight
      rw [if_neg h1, if_neg h2]
    simp only [this, ok_bind, pure_eq_ok]
  · rintro es h hs ⟨rest, hl⟩
    apply readSeq_none
    unfold readData
    simp only [hs]
    rw [if_pos trivial, hl, ← listsOf_nil]
    have := readLines_general es [] h f.L []
    rw [List.append_nil] at this
    exact readLines_none this rest
  · rintro es h hs ⟨rest, hl⟩
    apply readSeq_none
    unfold readData
    simp only [hs]
    rw [if_neg (by decide), if_pos trivial, hl, ← listsOf_nil]
    have := readLines_symmetric es [] h 0 []
    rw [List.append_nil] at this
    exact readLines_none this rest

/-- A blank line at the end of a correct file makes sequential reading fail. -/
example : readSeq id { exampleFile with lines := exampleFile.lines ++ [none] } "one" = .ok none := by
  exact (C03_partial id _ "one").2.2.2.1 [(1, 1), (3, 2), (1, 4), (3, 1)]
    (by unfold EntriesIn; decide) rfl ⟨[], rfl⟩

/-- C03, distributed: with Bulk's block partitioning an entry in column 0 is dropped by every
processor, instead of being rejected. -/
theorem C03_par_column_zero_dropped {p N : Nat} (hN : N + p ≤ 18446744073709551615) (s : Lists)
    (e r : Nat) (hr : r < p) : addOwned (blockPart p N) r s e 0 = .ok s := by
  unfold addOwned
  rw [if_neg]
  · rfl
  · unfold blockPart idx0
    simp only [if_true]
    have hb : p * ((N - 1) / p + 1) ≤ 18446744073709551615 := by
      have := Nat.mul_div_le (N - 1) p
      rw [Nat.mul_add]
      omega
    have : p ≤ 18446744073709551615 / ((N - 1) / p + 1) := by
      rw [Nat.le_div_iff_mul_le (Nat.succ_pos _)]
      exact hb
    omega

/-- C03, distributed: a row out of range is written out of bounds by the owner of the column. -/
theorem C03_par_row_out_of_bounds {np : NetPart} {p E V r : Nat} (hv : np.Valid p V)
    (es : List (Nat × Nat)) {e v : Nat} (h1 : 1 ≤ v) (h2 : v ≤ V) (hr : np.owner (v - 1) = r)
    (he : e = 0 ∨ E < e) : addOwned np r (parLists np r E es) e v = .error .ub := by
  have hi : idx0 v = v - 1 := by unfold idx0; rw [if_neg (by omega)]
  have hlt : v - 1 < V := by omega
  have hl : np.loc (v - 1) < np.count r := by rw [← hr]; exact hv.loc_lt _ hlt
  unfold addOwned parLists
  rw [hi, if_pos hr]
  simp only [push1_ok _ (show 1 ≤ np.loc (v - 1) + 1 by omega)
    (show np.loc (v - 1) + 1 ≤ np.count r by omega), ok_bind, push1_bad _ he, error_bind]

/-! ### C04 -/

theorem localParts_union {owner : Nat → Nat} {p : Nat} {H : Hypergraph} (w : WF H)
    (hlt : ∀ v ∈ H.vertices, owner v.id < p) {Rs : List Hypergraph}
    (h : List.Forall₂ (fun r R => IsLocalPart owner r H R) (List.range p) Rs) :
    ((Rs.flatMap (·.vertices)).map (·.id)).Perm (H.vertices.map (·.id)) ∧
    ∀ m ∈ H.nets, (unionPins Rs m.id).Perm m.vertices := by
  constructor
  · have h1 : ((Rs.flatMap (·.vertices)).map (·.id)).Perm ((List.range p).flatMap
        (fun r => (H.vertices.map (·.id)).filter (fun u => owner u = r))) := by
      rw [List.map_flatMap]
      clear hlt
      generalize List.range p = rs at h ⊢
      induction h with
      | nil => exact .nil
      | cons hR _ ih =>
        rw [List.flatMap_cons, List.flatMap_cons]
        exact hR.vids.append ih
    refine h1.trans (flatMap_filter_perm w.vids ?_)
    intro u hu
    obtain ⟨v, hv, rfl⟩ := List.mem_map.1 hu
    exact hlt v hv
  · intro m hm
    have h1 : unionPins Rs m.id = (List.range p).flatMap
        (fun r => m.vertices.filter (fun u => owner u = r)) := by
      unfold unionPins
      clear hlt
      generalize List.range p = rs at h ⊢
      induction h with
      | nil => rfl
      | @cons r R _ _ hR _ ih =>
        rw [List.flatMap_cons, List.flatMap_cons, ih]
        congr 1
        by_cases hn : IsNet R m.id
        · obtain ⟨n, hnm, hid⟩ := List.mem_map.1 hn
          have hid : n.id = m.id := hid
          have : R.nets.filter (fun n => n.id = m.id) = [n] := by
            apply List.perm_singleton.1
            rw [List.perm_ext_iff_of_nodup ((List.Nodup.of_map _ hR.wf.nids).filter _)
              (List.nodup_singleton n)]
            intro a
            simp only [List.mem_filter, decide_eq_true_eq, List.mem_singleton]
            constructor
            · rintro ⟨ha, hai⟩; exact hR.wf.net_inj ha hnm (hai.trans hid.symm)
            · rintro rfl; exact ⟨hnm, hid⟩
          rw [this]
          simp only [List.flatMap_cons, List.flatMap_nil, List.append_nil]
          exact (hR.nets n hnm m hm hid.symm).1
        · have h2 : R.nets.filter (fun n => n.id = m.id) = [] := by
            rw [List.filter_eq_nil_iff]
            intro n hnm
            simp only [decide_eq_true_eq]
            intro hid
            exact hn (List.mem_map.2 ⟨n, hnm, hid⟩)
          have h3 : m.vertices.filter (fun u => owner u = r) = [] := by
            rw [List.filter_eq_nil_iff]
            intro u hu
            simp only [decide_eq_true_eq]
            intro hou
            exact hn ((hR.netIds m.id).2 ⟨m, hm, rfl, u, hu, hou⟩)
          rw [h2, h3]; rfl
    rw [h1]
    apply flatMap_filter_perm (w.npins m hm)
    intro u hu
    obtain ⟨v, hv, rfl, -⟩ := w.inc_vtx m hm u hu
    exact hlt v hv

/-- The file is read by the first `L` lines exactly when it has `L` lines. -/
theorem firstLines_eq {f : MtxFile} (h : f.lines.length = f.L) : firstLines f = f.lines := by
  unfold firstLines
  rw [← h, List.take_length, Nat.sub_self]
  simp

/-- What C04 says of the outcome `Rs` of distributed reading: it is a partition of `H`. -/
def PartitionOf (E : Nat) (owner : Nat → Nat) (p : Nat) (H : Hypergraph) (Rs : List Hypergraph) :
    Prop :=
  Rs.length = p ∧ Distributed E Rs ∧
  List.Forall₂ (fun r R => IsLocalPart owner r H R) (List.range p) Rs ∧
  ((Rs.flatMap (·.vertices)).map (·.id)).Perm (H.vertices.map (·.id)) ∧
  ∀ m ∈ H.nets, (unionPins Rs m.id).Perm m.vertices

theorem partitionOf_ok {np : NetPart} {p E V nz : Nat} (hv : np.Valid p V) {es : List (Nat × Nat)}
    (h : EntriesIn E V es) (hn : es.Nodup) {wt : List Nat → Int} {Rs : List Hypergraph}
    (hR : List.Forall₂ (fun r R => IsLocalPart np.owner r (matrixH E V nz es wt) R)
      (List.range p) Rs) : PartitionOf E np.owner p (matrixH E V nz es wt) Rs := by
  have w := matrixH_wf h hn nz wt
  have hM := matrixH_is E V nz es wt
  have hlt : ∀ v ∈ (matrixH E V nz es wt).vertices, np.owner v.id < p := by
    intro v hvm
    apply hv.owner_lt
    rw [← List.mem_range, ← hM.vids]
    exact List.mem_map_of_mem hvm
  obtain ⟨h1, h2⟩ := localParts_union w hlt hR
  have hnet : ∀ R ∈ Rs, ∀ n ∈ R.nets, n.id < E ∧ n.cost = 1 := by
    intro R hRm n hnm
    obtain ⟨r, -, hL⟩ := forall2_mem_right hR hRm
    obtain ⟨m, hm, hid, -⟩ := (hL.netIds n.id).1 (List.mem_map_of_mem hnm)
    refine ⟨?_, ?_⟩
    · have hmem : m.id ∈ (matrixH E V nz es wt).nets.map (·.id) := List.mem_map_of_mem hm
      rw [hM.netIds, List.mem_filter, List.mem_range] at hmem
      rw [← hid]; exact hmem.1
    · rw [(hL.nets n hnm m hm hid).2.1, (hM.rows m hm).2.1]
  refine ⟨?_, ⟨?_, ?_, fun R hRm n hnm => (hnet R hRm n hnm).1, ?_⟩, hR, h1, h2⟩
  · have := hR.length_eq
    rw [List.length_range] at this
    exact this.symm
  · intro R hRm
    obtain ⟨r, -, hL⟩ := forall2_mem_right hR hRm
    exact hL.wf
  · exact h1.nodup_iff.2 w.vids
  · intro R hRm R' hRm' n hnm n' hnm' _
    rw [(hnet R hRm n hnm).2, (hnet R' hRm' n' hnm').2]

/-- C04, general files: reading on `p` processors gives a partition of what sequential reading gives. -/
theorem C04_read_general {order order' : List Nat → List Nat} (ho : ∀ l, (order l).Perm l)
    (ho' : ∀ l, (order' l).Perm l) {d1 d2 : Delivery (Nat × Int)} (hd1 : Fair d1) (hd2 : Fair d2)
    {np npE : NetPart} {p : Nat} {f : MtxFile} (hv : np.Valid p f.V) (hvE : npE.Valid p f.E)
    {es : List (Nat × Nat)} (hs : f.symmetry = some "general") (hl : f.lines = es.map some)
    (hL : f.L = es.length) (h : EntriesIn f.E f.V es) (hn : es.Nodup) {mode : String}
    {wt : List Nat → Int} (hm : ModeMeans mode wt) :
    ∃ H Rs, readSeq order f mode = .ok (some H) ∧
      readPar order' d1 d2 np npE p f mode = .ok (some Rs) ∧
      PartitionOf f.E np.owner p H Rs := by
  have hm' := modeMeans_iff mode wt hm
  obtain ⟨Rs, hR, hF⟩ := readPar_ok ho' hd1 hd2 hv hvE hm' h hn (nz := f.L) (by
    intro r hr
    unfold readDataPar
    simp only [hs]
    rw [if_pos trivial, firstLines_eq (by rw [hl, List.length_map, hL]), hl]
    have := readLines_generalPar hv hr es [] h f.L
    have he : parLists np r f.E [] = ⟨List.replicate (np.count r) [], List.replicate f.E []⟩ := by
      unfold parLists columnOf rowOf ownedBy
      simp [List.map_const']
    rw [he] at this
    exact this)
  exact ⟨_, Rs, readSeq_ok ho hm' (readData_general hs hl h), hR, partitionOf_ok hv h hn hF⟩

/-- C04, symmetric files. -/
theorem C04_read_symmetric {order order' : List Nat → List Nat} (ho : ∀ l, (order l).Perm l)
    (ho' : ∀ l, (order' l).Perm l) {d1 d2 : Delivery (Nat × Int)} (hd1 : Fair d1) (hd2 : Fair d2)
    {np npE : NetPart} {p : Nat} {f : MtxFile} (hv : np.Valid p f.V) (hvE : npE.Valid p f.E)
    {es : List (Nat × Nat)} (hs : f.symmetry = some "symmetric") (hl : f.lines = es.map some)
    (hL : f.L = es.length) (h : EntriesIn f.E f.V (mirror es)) (hn : (mirror es).Nodup)
    {mode : String} {wt : List Nat → Int} (hm : ModeMeans mode wt) :
    ∃ H Rs, readSeq order f mode = .ok (some H) ∧
      readPar order' d1 d2 np npE p f mode = .ok (some Rs) ∧
      PartitionOf f.E np.owner p H Rs := by
  have hm' := modeMeans_iff mode wt hm
  obtain ⟨Rs, hR, hF⟩ := readPar_ok ho' hd1 hd2 hv hvE hm' h hn (nz := (mirror es).length) (by
    intro r hr
    unfold readDataPar
    simp only [hs]
    rw [if_neg (by decide), if_pos trivial, firstLines_eq (by rw [hl, List.length_map, hL]), hl]
    have := readLines_symmetricPar hv hr es [] h 0
    rw [Nat.zero_add] at this
    have he : parLists np r f.E [] = ⟨List.replicate (np.count r) [], List.replicate f.E []⟩ := by
      unfold parLists columnOf rowOf ownedBy
      simp [List.map_const']
    rw [he] at this
    exact this)
  exact ⟨_, Rs, readSeq_ok ho hm' (readData_symmetric hs hl h), hR, partitionOf_ok hv h hn hF⟩

/-- The example file on two processors, with Bulk's block partitioning and messages delivered in
reverse order. -/
example : ∃ H Rs, readSeq id exampleFile "degree" = .ok (some H) ∧
    readPar id (revDelivery _) (revDelivery _) (blockPart 2 4) (blockPart 2 3) 2 exampleFile
      "degree" = .ok (some Rs) ∧ PartitionOf 3 (blockPart 2 4).owner 2 H Rs :=
  C04_read_general (f := exampleFile) (es := [(1, 1), (3, 2), (1, 4), (3, 1)])
    (fun _ => .refl _) (fun _ => .refl _) (revDelivery_fair _) (revDelivery_fair _)
    (blockPart_valid 2 4 (by decide)) (blockPart_valid 2 3 (by decide)) rfl rfl rfl
    (by unfold EntriesIn; decide) (by decide) (Or.inr ⟨rfl, rfl⟩)

set_option synthInstance.maxSize 1000 in
/-- The two local hypergraphs. -/
example :
    (readPar id (revDelivery _) (revDelivery _) (blockPart 2 4) (blockPart 2 3) 2 exampleFile
      "degree").map (Option.map (List.map (fun H : Hypergraph =>
        H.vertices.map (fun v => (v.id, v.nets, v.weight))))) =
    .ok (some [[(0, [0, 2], 2), (1, [2], 1)], [(2, [], 0), (3, [0], 1)]]) := by decide

set_option synthInstance.maxSize 1000 in
example :
    (readPar id (revDelivery _) (revDelivery _) (blockPart 2 4) (blockPart 2 3) 2 exampleFile
      "degree").map (Option.map (List.map (fun H : Hypergraph =>
        H.nets.map (fun n => (n.id, n.vertices, n.globalSize))))) =
    .ok (some [[(0, [0], 2), (2, [1, 0], 2)], [(0, [3], 2)]]) := by decide

end PMondriaan

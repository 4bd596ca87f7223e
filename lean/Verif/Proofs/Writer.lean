import Verif.Spec.Writer
import Verif.Props.Dist
import Verif.Props.Reader

/-
Proofs about the writer and the random generator of matrices.
-/

namespace PMondriaan

open Spec

/-! ### Offsets -/

/-- `c 0 + … + c (j - 1)`. -/
def pre (c : Nat → Int) (j : Nat) : Int := ((List.range j).map c).sum

theorem pre_succ (c : Nat → Int) (j : Nat) : pre c (j + 1) = pre c j + c j := by
  unfold pre
  rw [List.range_succ, List.map_append, List.sum_append]
  simp

/-- The vector after `n` steps of the loop. -/
def startVec (c : Nat → Int) (k n : Nat) : List Int :=
  (List.range (k + 1)).map (fun j => if j ≤ n + 1 then pre c j else c (j - 1))

theorem startVec_zero (c : Nat → Int) (k : Nat) : 0 :: (List.range k).map c = startVec c k 0 := by
  unfold startVec
  rw [List.range_succ_eq_map, List.map_cons, List.map_map]
  congr 1
  apply List.map_congr_left
  intro j _
  simp only [Function.comp_def]
  by_cases hj : j = 0
  · subst hj
    rw [if_pos (by omega), pre_succ]
    simp [pre]
  · rw [if_neg (by omega)]
    simp

theorem startStep_ok (c : Nat → Int) {k n : Nat} (h : n + 1 < k) :
    startStep (startVec c k n) (n + 1) = .ok (startVec c k (n + 1)) := by
  unfold startStep
  have hget : ∀ j, j ≤ k → vget (startVec c k n) j =
      .ok (if j ≤ n + 1 then pre c j else c (j - 1)) := by
    intro j hj
    apply vget_ok
    unfold startVec
    rw [List.getElem?_map, List.getElem?_range (by omega)]
    rfl
  rw [hget (n + 1) (by omega), hget (n + 1 + 1) (by omega)]
  simp only [ok_bind]
  rw [if_neg (by omega), if_pos (by omega), vset_ok (by unfold startVec; simp; omega)]
  congr 1
  apply List.ext_getElem
  · unfold startVec; simp
  · intro j h1 h2
    rw [List.getElem_set]
    simp only [startVec, List.getElem_map, List.getElem_range]
    by_cases hj : n + 1 + 1 = j
    · rw [if_pos hj, if_pos (by omega), ← hj, pre_succ c (n + 1)]
      simp only [Nat.add_sub_cancel]
      omega
    · rw [if_neg hj]
      by_cases hj2 : j ≤ n + 1
      · rw [if_pos hj2, if_pos (by omega)]
      · rw [if_neg hj2, if_neg (by omega)]

theorem startLoop_succ (n : Nat) (l : List Int) :
    startLoop (n + 1) l = (startLoop n l >>= fun l => startStep l (n + 1)) := by
  unfold startLoop
  rw [List.range_succ, List.foldlM_append]
  congr 1
  funext l
  simp only [List.foldlM_cons, List.foldlM_nil, bind_pure]

theorem startLoop_ok (c : Nat → Int) {k n : Nat} (h : n < k) :
    startLoop n (0 :: (List.range k).map c) = .ok (startVec c k n) := by
  rw [startVec_zero]
  induction n with
  | zero => rfl
  | succ n ih =>
    rw [startLoop_succ, ih (by omega), ok_bind, startStep_ok c (by omega)]

theorem startLoop_ub (c : Nat → Int) {k : Nat} (h : 0 < k) :
    startLoop k (0 :: (List.range k).map c) = .error .ub := by
  obtain ⟨n, rfl⟩ := Nat.exists_eq_succ_of_ne_zero (Nat.pos_iff_ne_zero.1 h)
  have h1 := startLoop_ok c (Nat.lt_succ_self n)
  rw [startLoop_succ, h1, ok_bind]
  have : startStep (startVec c (n + 1) n) (n + 1) = .error .ub := by
    unfold startStep
    have h1 : vget (startVec c (n + 1) n) (n + 1) = .ok (pre c (n + 1)) := by
      apply vget_ok
      unfold startVec
      rw [List.getElem?_map, List.getElem?_range (by omega)]
      simp
    have h2 : vget (startVec c (n + 1) n) (n + 1 + 1) = .error .ub := by
      unfold vget
      have : (startVec c (n + 1) n)[n + 1 + 1]? = none := by
        rw [List.getElem?_eq_none]; unfold startVec; simp
      rw [this]
    rw [h1, h2]
    rfl
  exact this

theorem startCounts_eq (H : Hypergraph) (k : Nat) : startCounts H k =
    ({ H with vertices := H.vertices.map (fun v : Vertex => { v with weight := (v.nets.length : Int) }) } :
      Hypergraph).weightAllParts k := by
  unfold startCounts Hypergraph.weightAllParts
  simp only [List.foldlM_map]

theorem startCounts_ok (H : Hypergraph) (k : Nat) (h : ∀ v ∈ H.vertices, 0 ≤ v.part ∧ v.part < k) :
    startCounts H k = .ok ((List.range k).map (fun i => (entriesInPart [H] i : Int))) := by
  rw [startCounts_eq, weightAllParts_ok]
  · congr 1
    apply List.map_congr_left
    intro i _
    unfold partWeight entriesInPart
    simp only [List.flatMap_cons, List.flatMap_nil, List.append_nil]
    rw [List.filter_map, List.map_map]
    simp only [Function.comp_def]
    generalize H.vertices.filter _ = l
    induction l with
    | nil => rfl
    | cons v l ih =>
      rw [List.map_cons, List.sum_cons, ih, List.map_cons, List.sum_cons]
      push_cast
      rfl
  · intro v hv
    obtain ⟨v0, hv0, rfl⟩ := List.mem_map.1 hv
    exact h v0 hv0

theorem entriesInPart_cons (H : Hypergraph) (Hs : List Hypergraph) (i : Nat) :
    entriesInPart (H :: Hs) i = entriesInPart [H] i + entriesInPart Hs i := by
  unfold entriesInPart
  simp only [List.flatMap_cons, List.flatMap_nil, List.append_nil, List.filter_append, List.map_append,
    List.sum_append]

theorem totals_ok {k : Nat} {Hs : List Hypergraph} (h : LabelsBelow k Hs) :
    ∃ cs, Hs.mapM (fun H => startCounts H k) = .ok cs ∧
      cs.foldl addEach (List.replicate k 0) =
        (List.range k).map (fun i => (entriesInPart Hs i : Int)) := by
  refine ⟨_, mapM_ok (g := fun H => (List.range k).map (fun i => (entriesInPart [H] i : Int))) Hs
    (fun H hH => startCounts_ok H k (h H hH)), ?_⟩
  have h0 : List.replicate k (0 : Int) = (List.range k).map (fun _ => 0) := by simp
  rw [h0, foldl_addEach k (fun _ => 0) Hs (fun H i => (entriesInPart [H] i : Int))]
  apply List.map_congr_left
  intro i _
  rw [zero_add]
  induction Hs with
  | nil => rfl
  | cons H Hs ih =>
    rw [List.map_cons, List.sum_cons, ih (fun H' h' => h H' (by simp [h'])), entriesInPart_cons H Hs]
    push_cast
    rfl

theorem entriesBelow_zero {k : Nat} {Hs : List Hypergraph} (h : LabelsBelow k Hs) :
    entriesBelow Hs 0 = 0 := by
  unfold entriesBelow
  have : (Hs.flatMap (·.vertices)).filter (fun v => v.part < ((0 : Nat) : Int)) = [] := by
    rw [List.filter_eq_nil_iff]
    intro v hv
    obtain ⟨H, hH, hv⟩ := List.mem_flatMap.1 hv
    have := (h H hH v hv).1
    simp only [decide_eq_true_eq]
    omega
  rw [this]
  rfl

theorem entriesBelow_succ (Hs : List Hypergraph) (i : Nat) :
    entriesBelow Hs (i + 1) = entriesBelow Hs i + entriesInPart Hs i := by
  unfold entriesBelow entriesInPart
  generalize Hs.flatMap (·.vertices) = l
  induction l with
  | nil => rfl
  | cons v l ih =>
    simp only [List.filter_cons, decide_eq_true_eq]
    by_cases h1 : v.part < (i : Int)
    · rw [if_pos h1, if_pos (by push_cast; omega), if_neg (by omega)]
      simp only [List.map_cons, List.sum_cons, ih]
      omega
    · by_cases h2 : v.part = (i : Int)
      · rw [if_neg h1, if_pos (by push_cast; omega), if_pos h2]
        simp only [List.map_cons, List.sum_cons, ih]
        omega
      · rw [if_neg h1, if_neg (by push_cast; omega), if_neg h2, ih]

theorem pre_entries {k : Nat} {Hs : List Hypergraph} (h : LabelsBelow k Hs) (j : Nat) :
    pre (fun i => (entriesInPart Hs i : Int)) j = (entriesBelow Hs j : Int) := by
  induction j with
  | zero => rw [entriesBelow_zero h]; rfl
  | succ j ih =>
    rw [pre_succ, ih, entriesBelow_succ]
    push_cast
    rfl

/-! ### The body -/

theorem foldl_app {α β : Type} (f : α → List β) (l : List α) (acc : List β) :
    l.foldl (fun out x => out ++ f x) acc = acc ++ l.flatMap f := by
  induction l generalizing acc with
  | nil => simp
  | cons x l ih => rw [List.foldl_cons, ih, List.flatMap_cons, List.append_assoc]

/-- The lines of a vertex. -/
def vertexLines (v : Vertex) : List (Nat × Nat) := v.nets.map (fun n => (n + 1, v.id + 1))

theorem partLines_eq (H : Hypergraph) (i : Nat) : partLines H i =
    (H.vertices.filter (fun v => v.part = (i : Int))).flatMap vertexLines := by
  unfold partLines
  have : ∀ (l : List Vertex) (acc : List (Nat × Nat)), l.foldl (fun out v =>
      if v.part = (i : Int) then v.nets.foldl (fun out n => out ++ [(n + 1, v.id + 1)]) out
      else out) acc = acc ++ (l.filter (fun v => v.part = (i : Int))).flatMap vertexLines := by
    intro l
    induction l with
    | nil => simp
    | cons v l ih =>
      intro acc
      rw [List.foldl_cons, ih, List.filter_cons]
      by_cases hv : v.part = (i : Int)
      · rw [if_pos hv, if_pos (by simpa using hv), List.flatMap_cons, foldl_app, List.append_assoc]
        congr 2
        unfold vertexLines
        rw [List.map_eq_flatMap]
      · rw [if_neg hv, if_neg (by simpa using hv)]
  rw [this]
  rfl

/-- The lines of part `i`. -/
def block (Hs : List Hypergraph) (i : Nat) : List (Nat × Nat) :=
  ((Hs.flatMap (·.vertices)).filter (fun v => v.part = (i : Int))).flatMap vertexLines

theorem writeBody_eq (Hs : List Hypergraph) (k : Nat) :
    writeBody Hs k = (List.range k).flatMap (block Hs) := by
  unfold writeBody
  have h1 : (fun (file : List (Nat × Nat)) (i : Nat) =>
      Hs.foldl (fun file H => file ++ partLines H i) file) = fun file i => file ++ block Hs i := by
    funext file i
    rw [foldl_app]
    congr 1
    unfold block
    rw [List.filter_flatMap, List.flatMap_assoc]
    apply List.flatMap_congr
    intro H _
    exact partLines_eq H i
  rw [h1, foldl_app]
  rfl

theorem block_length (Hs : List Hypergraph) (i : Nat) :
    (block Hs i).length = entriesInPart Hs i := by
  unfold block entriesInPart
  rw [List.length_flatMap]
  congr 1
  apply List.map_congr_left
  intro v _
  unfold vertexLines
  simp

theorem blocks_length {k : Nat} {Hs : List Hypergraph} (h : LabelsBelow k Hs) (i : Nat) :
    ((List.range i).flatMap (block Hs)).length = entriesBelow Hs i := by
  induction i with
  | zero => rw [entriesBelow_zero h]; rfl
  | succ i ih =>
    rw [List.range_succ, List.flatMap_append, List.length_append, ih, entriesBelow_succ]
    simp [block_length]

theorem slice_ok {k : Nat} {Hs : List Hypergraph} (h : LabelsBelow k Hs) {i : Nat} (hi : i < k) :
    ((writeBody Hs k).drop (entriesBelow Hs i)).take (entriesBelow Hs (i + 1) - entriesBelow Hs i) =
      block Hs i := by
  rw [writeBody_eq]
  have hsplit : List.range k = List.range i ++ i :: (List.range k).drop (i + 1) := by
    have h1 := (List.take_append_drop (i + 1) (List.range k)).symm
    rw [List.take_range, Nat.min_eq_left (by omega), List.range_succ] at h1
    rw [List.append_assoc] at h1
    exact h1
  rw [hsplit, List.flatMap_append, List.flatMap_cons]
  rw [List.drop_append_of_le_length (by rw [blocks_length h]), ← blocks_length h i, List.drop_length,
    List.nil_append, blocks_length h i, entriesBelow_succ, Nat.add_sub_cancel_left, ← block_length,
    List.take_left']
  rfl

theorem flatMap_blocks_perm (k : Nat) (l : List Vertex) (h : ∀ v ∈ l, 0 ≤ v.part ∧ v.part < k) :
    ((List.range k).flatMap (fun i : Nat => (l.filter (fun v => v.part = (i : Int))).flatMap vertexLines)).Perm
      (l.flatMap vertexLines) := by
  have h1 : ((List.range k).flatMap (fun i : Nat => l.filter (fun v => v.part = (i : Int)))).Perm l := by
    induction l with
    | nil => simp
    | cons v l ih =>
      obtain ⟨q, hq⟩ := Int.eq_ofNat_of_zero_le (h v (by simp)).1
      have hqk : q < k := by have := (h v (by simp)).2; omega
      have hf : ∀ i : Nat, (v :: l).filter (fun v => v.part = (i : Int)) =
          (if q = i then [v] else []) ++ l.filter (fun v => v.part = (i : Int)) := by
        intro i
        rw [List.filter_cons]
        by_cases hqi : q = i
        · rw [if_pos hqi, if_pos (by simp [hq, hqi])]; rfl
        · rw [if_neg hqi, if_neg (by simp [hq, hqi])]; rfl
      simp only [hf]
      refine (List.flatMap_append_perm _ _ _).symm.trans ?_
      have hone : (List.range k).flatMap (fun i => if q = i then [v] else []) = [v] := by
        clear hf ih h
        induction k with
        | zero => omega
        | succ k ihk =>
          rw [List.range_succ, List.flatMap_append]
          by_cases hk : q = k
          · have : (List.range k).flatMap (fun i => if q = i then [v] else []) = [] := by
              rw [List.flatMap_eq_nil_iff]
              intro i hi
              rw [List.mem_range] at hi
              rw [if_neg (by omega)]
            rw [this]
            simp [hk]
          · rw [ihk (by omega)]
            simp [hk]
      rw [hone]
      exact (ih (fun u hu => h u (by simp [hu]))).cons v
  have h2 := h1.flatMap_right vertexLines
  rw [List.flatMap_assoc] at h2
  exact h2

/-! ### The generator -/

/-- What holds between two rounds. -/
structure GenInv (n m : Nat) (s : GenState) : Prop where
  length : s.sets.length = m
  row : ∀ (i : Nat) (row : List Nat), s.sets[i]? = some row → ∀ j, j ∈ row ↔ (i + 1, j + 1) ∈ s.out
  nodup : s.out.Nodup
  range : EntriesIn m n s.out
  count : s.out.length = s.added

/-- The row and column drawn next, counted from 1. -/
def nextCell (n m : Nat) (r : Rng) : Nat × Nat := (r 0 % m + 1, r 1 % n + 1)

theorem genStep_ok {n m : Nat} (hm : 0 < m) (hn : 0 < n) {s : GenState} (h : GenInv n m s) :
    ∃ s', genStep n m s = .ok s' ∧ GenInv n m s' ∧ s'.rng = (fun t => s.rng (t + 2)) ∧
      ((nextCell n m s.rng ∈ s.out ∧ s'.added = s.added ∧ s'.out = s.out) ∨
       (nextCell n m s.rng ∉ s.out ∧ s'.added = s.added + 1 ∧
        s'.out = s.out ++ [nextCell n m s.rng])) := by
  unfold genStep
  rw [if_neg (by omega)]
  have hi : s.rng 0 % m < m := Nat.mod_lt _ hm
  have hj : s.rng 1 % n < n := Nat.mod_lt _ hn
  obtain ⟨row, hrow⟩ : ∃ row, s.sets[s.rng 0 % m]? = some row :=
    ⟨_, List.getElem?_eq_getElem (by rw [h.length]; exact hi)⟩
  have hg : vget s.sets (s.rng.draw.1 % m) = .ok row := vget_ok hrow
  simp only [hg, ok_bind]
  have hmem := h.row _ _ hrow (s.rng 1 % n)
  change (s.rng 1 % n) ∈ row ↔ nextCell n m s.rng ∈ s.out at hmem
  change ∃ s', (if s.rng 1 % n ∈ row then _ else _) = _ ∧ _
  by_cases hc : s.rng 1 % n ∈ row
  · rw [if_pos hc]
    refine ⟨_, rfl, ⟨h.length, h.row, h.nodup, h.range, h.count⟩, rfl, Or.inl ⟨hmem.1 hc, rfl, rfl⟩⟩
  · rw [if_neg hc]
    have hnew : nextCell n m s.rng ∉ s.out := fun h => hc (hmem.2 h)
    refine ⟨_, rfl, ⟨?_, ?_, ?_, ?_, ?_⟩, rfl, Or.inr ⟨hnew, rfl, rfl⟩⟩
    · simp [h.length]
    · intro i row' hi' j
      change (s.sets.set (s.rng 0 % m) (row ++ [s.rng 1 % n]))[i]? = some row' at hi'
      change j ∈ row' ↔ (i + 1, j + 1) ∈ s.out ++ [nextCell n m s.rng]
      rw [List.mem_append, List.mem_singleton]
      by_cases hii : s.rng 0 % m = i
      · subst hii
        rw [List.getElem?_set_self (by rw [h.length]; exact hi)] at hi'
        have : row' = row ++ [s.rng 1 % n] := (Option.some.inj hi').symm
        subst this
        rw [List.mem_append, List.mem_singleton, h.row _ _ hrow j]
        unfold nextCell
        rw [Prod.mk.injEq]
        constructor
        · rintro (h | h)
          · exact Or.inl h
          · exact Or.inr ⟨rfl, by omega⟩
        · rintro (h | h)
          · exact Or.inl h
          · exact Or.inr (by omega)
      · rw [List.getElem?_set_ne hii] at hi'
        rw [h.row i row' hi' j]
        constructor
        · exact Or.inl
        · rintro (h | h)
          · exact h
          · exfalso
            unfold nextCell at h
            rw [Prod.mk.injEq] at h
            omega
    · exact List.nodup_append.2 ⟨h.nodup, List.nodup_singleton _, by
        intro a ha b hb hab
        rw [List.mem_singleton] at hb
        rw [hab, hb] at ha
        exact hnew ha⟩
    · intro x hx
      rcases List.mem_append.1 hx with hx | hx
      · exact h.range x hx
      · rw [List.mem_singleton] at hx
        have hx : x = nextCell n m s.rng := hx
        rw [hx]
        unfold nextCell
        simp only
        omega
    · change (s.out ++ [_]).length = s.added + 1
      rw [List.length_append, h.count]
      rfl

theorem genInv_init (n m : Nat) (r : Rng) : GenInv n m ⟨r, 0, List.replicate m [], []⟩ := by
  refine ⟨by simp, ?_, List.nodup_nil, fun x hx => (nomatch hx), rfl⟩
  intro i row hi j
  change (List.replicate m [])[i]? = some row at hi
  rw [List.getElem?_replicate] at hi
  split at hi
  · have : row = [] := (Option.some.inj hi).symm
    subst this
    simp
  · cases hi

theorem genLoop_inv {n m nz fuel : Nat} {s s' : GenState} (h : GenInv n m s) (hle : s.added ≤ nz)
    (hr : genLoop n m nz fuel s = .ok s') : GenInv n m s' ∧ s'.added = nz := by
  induction fuel generalizing s with
  | zero =>
    unfold genLoop at hr
    by_cases hlt : s.added < nz
    · rw [if_pos hlt] at hr; cases hr
    · rw [if_neg hlt] at hr
      have : s = s' := Except.ok.inj hr
      subst this
      exact ⟨h, by omega⟩
  | succ fuel ih =>
    unfold genLoop at hr
    by_cases hlt : s.added < nz
    · rw [if_pos hlt] at hr
      by_cases hz : m = 0 ∨ n = 0
      · unfold genStep at hr
        rw [if_pos hz] at hr
        cases hr
      · obtain ⟨s1, h1, h2, -, h3⟩ := genStep_ok (by omega) (by omega) h
        rw [h1, ok_bind] at hr
        refine ih h2 ?_ hr
        rcases h3 with ⟨-, h3, -⟩ | ⟨-, h3, -⟩ <;> omega
    · rw [if_neg hlt] at hr
      have : s = s' := Except.ok.inj hr
      subst this
      exact ⟨h, by omega⟩

/-- All cells of an `m` by `n` matrix. -/
def allCells (n m : Nat) : List (Nat × Nat) :=
  (List.range m).flatMap (fun i => (List.range n).map (fun j => (i + 1, j + 1)))

theorem allCells_length (n m : Nat) : (allCells n m).length = m * n := by
  unfold allCells
  rw [List.length_flatMap]
  simp [List.map_const']

theorem mem_allCells (n m : Nat) (x : Nat × Nat) :
    x ∈ allCells n m ↔ 1 ≤ x.1 ∧ x.1 ≤ m ∧ 1 ≤ x.2 ∧ x.2 ≤ n := by
  unfold allCells
  simp only [List.mem_flatMap, List.mem_map, List.mem_range]
  constructor
  · rintro ⟨i, hi, j, hj, rfl⟩
    simp only
    omega
  · rintro ⟨h1, h2, h3, h4⟩
    refine ⟨x.1 - 1, by omega, x.2 - 1, by omega, ?_⟩
    ext <;> simp only <;> omega

theorem allCells_nodup (n m : Nat) : (allCells n m).Nodup := by
  unfold allCells
  rw [List.nodup_flatMap]
  constructor
  · intro i _
    apply List.Nodup.map_on _ List.nodup_range
    intro a _ b _ hab
    rw [Prod.mk.injEq] at hab
    omega
  · apply List.Nodup.pairwise_of_forall_ne List.nodup_range
    intro i _ i' _ hii x hx hx'
    obtain ⟨j, -, rfl⟩ := List.mem_map.1 hx
    obtain ⟨j', -, hj'⟩ := List.mem_map.1 hx'
    rw [Prod.mk.injEq] at hj'
    omega

theorem genInv_le {n m : Nat} {s : GenState} (h : GenInv n m s) : s.added ≤ m * n := by
  rw [← h.count, ← allCells_length]
  apply List.Subperm.length_le
  apply List.subperm_of_subset h.nodup
  intro x hx
  rw [mem_allCells]
  exact h.range x hx

theorem genInv_missing {n m : Nat} {s : GenState} (h : GenInv n m s) (hlt : s.added < m * n) :
    ∃ i j, i < m ∧ j < n ∧ (i + 1, j + 1) ∉ s.out := by
  by_contra hc
  push Not at hc
  have : (allCells n m).length ≤ s.out.length := by
    apply List.Subperm.length_le
    apply List.subperm_of_subset (allCells_nodup n m)
    intro x hx
    rw [mem_allCells] at hx
    have := hc (x.1 - 1) (x.2 - 1) (by omega) (by omega)
    have he : (x.1 - 1 + 1, x.2 - 1 + 1) = x := by
      ext <;> simp only <;> omega
    rw [he] at this
    exact this
  rw [allCells_length, h.count] at this
  omega

theorem genLoop_terminates {n m nz : Nat} (hm : 0 < m) (hn : 0 < n) (hnz : nz ≤ m * n) {r : Rng}
    (hr : DrawsAll n m r) : ∀ (d t : Nat) (s : GenState), GenInv n m s → s.added + d = nz →
      s.rng = (fun x => r (2 * t + x)) → ∃ fuel s', genLoop n m nz fuel s = .ok s' := by
  intro d
  induction d with
  | zero =>
    intro t s _ hd _
    refine ⟨0, s, ?_⟩
    unfold genLoop
    rw [if_neg (by omega)]
  | succ d ihd =>
    intro t s hI hd hrng
    obtain ⟨i, j, hi, hj, hmiss⟩ := genInv_missing hI (by omega)
    obtain ⟨t', ht, h1, h2⟩ := hr t i j hi hj
    obtain ⟨e, rfl⟩ := Nat.exists_eq_add_of_le ht
    clear ht
    induction e generalizing t s with
    | zero =>
      obtain ⟨s1, g1, g2, g3, g4⟩ := genStep_ok hm hn hI
      have hcell : nextCell n m s.rng = (i + 1, j + 1) := by
        unfold nextCell
        rw [hrng]
        simp only [Nat.add_zero] at h1 h2 ⊢
        rw [h1, h2]
      rcases g4 with ⟨g, -, -⟩ | ⟨-, g, -⟩
      · rw [hcell] at g; exact absurd g hmiss
      · obtain ⟨fuel, s', hs'⟩ := ihd (t + 1) s1 g2 (by omega) (by
          rw [g3, hrng]
          funext x
          simp only
          congr 1
          omega)
        refine ⟨fuel + 1, s', ?_⟩
        unfold genLoop
        rw [if_pos (by omega), g1, ok_bind]
        exact hs'
    | succ e ihe =>
      obtain ⟨s1, g1, g2, g3, g4⟩ := genStep_ok hm hn hI
      have hrng1 : s1.rng = fun x => r (2 * (t + 1) + x) := by
        rw [g3, hrng]
        funext x
        simp only
        congr 1
        omega
      have : ∃ fuel s', genLoop n m nz fuel s1 = .ok s' := by
        rcases g4 with ⟨-, g, go⟩ | ⟨-, g, -⟩
        · have he : t + (e + 1) = t + 1 + e := by omega
          rw [he] at h1 h2
          exact ihe (t + 1) s1 g2 (by omega) hrng1 (by rw [go]; exact hmiss) h1 h2
        · exact ihd (t + 1) s1 g2 (by omega) hrng1
      obtain ⟨fuel, s', hs'⟩ := this
      refine ⟨fuel + 1, s', ?_⟩
      unfold genLoop
      rw [if_pos (by omega), g1, ok_bind]
      exact hs'

end PMondriaan

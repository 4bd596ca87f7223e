import Verif.Spec.Report
import Verif.Proofs.Text
import Verif.Proofs.Reduce
import Verif.Props.Text
import Verif.Props.WritePar
import Verif.Props.Main
import Verif.Props.MainBalance

/-
C94: the name of the file with the result. C95: a printed hypergraph. C96: the log.
-/

namespace PMondriaan

open Spec

/-! ### Characters -/

theorem split_last {c : Char} : ∀ {a a' u u' : List Char}, c ∉ u → c ∉ u' → a ++ c :: u = a' ++ c :: u' → a = a' ∧ u = u' := by
  intro a a' u u' h1 h2 h
  have h3 : u.length = u'.length := by
    by_contra hne
    rcases Nat.lt_or_gt_of_ne hne with hl | hl
    · have : c ∈ u' := by
        have hd := congrArg (fun l => l.drop (a'.length + 1)) h
        have e2 : (a' ++ c :: u').drop (a'.length + 1) = u' := by
          rw [show a' ++ c :: u' = (a' ++ [c]) ++ u' by simp]
          exact List.drop_left' (by simp)
        have hlen := congrArg List.length h
        simp only [List.length_append, List.length_cons] at hlen
        rw [e2, List.drop_append_of_le_length (by omega)] at hd
        rw [← hd]
        simp
      exact h2 this
    · have : c ∈ u := by
        have hd := congrArg (fun l => l.drop (a.length + 1)) h
        have e2 : (a ++ c :: u).drop (a.length + 1) = u := by
          rw [show a ++ c :: u = (a ++ [c]) ++ u by simp]
          exact List.drop_left' (by simp)
        have hlen := congrArg List.length h
        simp only [List.length_append, List.length_cons] at hlen
        rw [e2, List.drop_append_of_le_length (by omega)] at hd
        rw [hd]
        simp
      exact h1 this
  obtain ⟨h4, h5⟩ := List.append_inj' h (by simp [h3])
  exact ⟨h4, (List.cons.inj h5).2⟩

theorem split_first {c : Char} : ∀ {a a' u u' : List Char}, c ∉ a → c ∉ a' → a ++ c :: u = a' ++ c :: u' → a = a' ∧ u = u' := by
  intro a
  induction a with
  | nil =>
    intro a' u u' _ h2 h
    cases a' with
    | nil => exact ⟨rfl, (List.cons.inj h).2⟩
    | cons x r => exact absurd (List.mem_cons.2 (Or.inl (List.cons.inj h).1)) h2
  | cons y a ih =>
    intro a' u u' h1 h2 h
    cases a' with
    | nil => exact absurd (List.mem_cons.2 (Or.inl (List.cons.inj h).1.symm)) h1
    | cons x r =>
      obtain ⟨e1, e2⟩ := List.cons.inj h
      obtain ⟨e3, e4⟩ := ih (fun h => h1 (List.mem_cons_of_mem _ h)) (fun h => h2 (List.mem_cons_of_mem _ h)) e2
      exact ⟨by rw [e1, e3], e4⟩

theorem decimal_not_mem {d : List Char} {n : Nat} (h : Decimal d n) {c : Char} (hc : c ∉ digitChars) : c ∉ d :=
  fun hm => hc ((decimal_facts h).2.1 c hm)

theorem signed_not_mem {d : List Char} {i : Int} (h : SignedDecimal d i) {c : Char} (hc : c ∉ digitChars) (hc' : c ≠ '-') :
    c ∉ d := by
  rcases h with ⟨-, h⟩ | ⟨-, d', h, rfl⟩
  · exact decimal_not_mem h hc
  · rw [List.mem_cons]
    rintro (h' | h')
    · exact hc' h'
    · exact decimal_not_mem h hc h'

theorem decimal_unique {d : List Char} {n m : Nat} (h : Decimal d n) (h' : Decimal d m) : n = m :=
  (decimal_facts h).2.2.symm.trans (decimal_facts h').2.2

theorem signed_unique {d : List Char} {i j : Int} (h : SignedDecimal d i) (h' : SignedDecimal d j) : i = j := by
  rcases h with ⟨h0, h1⟩ | ⟨h0, d1, h1, rfl⟩ <;> rcases h' with ⟨h0', h1'⟩ | ⟨h0', d2, h1', h2⟩
  · have := decimal_unique h1 h1'
    omega
  · subst h2
    exact absurd ((decimal_facts h1).2.1 '-' (List.mem_cons_self ..)) (by decide)
  · exact absurd ((decimal_facts h1').2.1 '-' (List.mem_cons_self ..)) (by decide)
  · rw [(List.cons.inj h2).2] at h1
    have := decimal_unique h1 h1'
    omega

/-! ### C94 -/

theorem findLastOf_none {s : List Char} {c : Char} (h : c ∉ s) : findLastOf s c = npos := by
  unfold findLastOf
  rw [List.find?_eq_none.2]
  intro i hi hc
  rw [decide_eq_true_iff] at hc
  exact h (List.mem_of_getElem? hc)

theorem findLastOf_some {a u : List Char} {c : Char} (h : c ∉ u) : findLastOf (a ++ c :: u) c = a.length := by
  unfold findLastOf
  have h1 : ∃ l : List Nat, (List.range (a ++ c :: u).length).reverse = ((List.range u.length).map (fun i => a.length + 1 + i)).reverse ++ a.length :: l := by
    refine ⟨(List.range a.length).reverse, ?_⟩
    rw [List.length_append, List.length_cons, show a.length + (u.length + 1) = (a.length + 1) + u.length by omega,
      List.range_add, List.reverse_append, List.range_succ, List.reverse_append]
    rfl
  obtain ⟨l, h1⟩ := h1
  rw [h1, List.find?_append, List.find?_eq_none.2, Option.none_or, List.find?_cons_of_pos]
  · simp
  · intro i hi hc
    rw [List.mem_reverse] at hi
    obtain ⟨j, hj, rfl⟩ := List.mem_map.1 hi
    rw [decide_eq_true_iff, List.getElem?_append_right (by omega), show a.length + 1 + j - a.length = j + 1 by omega,
      List.getElem?_cons_succ] at hc
    exact h (List.mem_of_getElem? hc)

/-- C94: what the program takes from the name of the input file is the part behind the last slash. -/
theorem C94_base {file : List Char} (hl : file.length < npos) : ∃ dir, SplitName file dir (baseName file) := by
  unfold baseName
  by_cases h : '/' ∈ file
  · obtain ⟨a, u, rfl, hu⟩ : ∃ a u, file = a ++ '/' :: u ∧ '/' ∉ u := by
      obtain ⟨s, t, h1, h2⟩ := List.append_of_mem (List.mem_reverse.2 h) |> fun ⟨s, t, h⟩ =>
        (⟨s, t, h, trivial⟩ : ∃ s t, file.reverse = s ++ '/' :: t ∧ True)
      clear h1 h2 s t
      induction file with
      | nil => cases h
      | cons x r ih =>
        by_cases hr : '/' ∈ r
        · obtain ⟨a, u, e, hu⟩ := ih (by simp only [List.length_cons] at hl; omega) hr
          exact ⟨x :: a, u, by rw [e]; rfl, hu⟩
        · rcases List.mem_cons.1 h with h | h
          · exact ⟨[], r, by rw [h]; rfl, hr⟩
          · exact absurd h hr
    rw [findLastOf_some hu]
    have hlen : a.length + 1 < 2 ^ 64 := by
      simp only [List.length_append, List.length_cons] at hl
      unfold npos at hl
      omega
    rw [Nat.mod_eq_of_lt hlen]
    have : (a ++ '/' :: u).drop (a.length + 1) = u := by
      rw [show a ++ '/' :: u = (a ++ ['/']) ++ u by simp]
      exact List.drop_left' (by simp)
    rw [this]
    exact ⟨a ++ ['/'], by simp, hu, Or.inr ⟨a, rfl⟩⟩
  · rw [findLastOf_none h]
    exact ⟨[], by simp [npos], by simpa [npos] using h, Or.inl rfl⟩

/-- A name has only one part behind the last slash. -/
theorem splitName_unique {file dir base dir' base' : List Char} (h : SplitName file dir base) (h' : SplitName file dir' base') :
    base = base' := by
  obtain ⟨h1, h2, h3⟩ := h
  obtain ⟨g1, g2, g3⟩ := h'
  rw [h1] at g1
  rcases h3 with rfl | ⟨d, rfl⟩ <;> rcases g3 with rfl | ⟨d', rfl⟩
  · simpa using g1
  · rw [List.nil_append] at g1
    rw [g1] at h2
    simp at h2
  · rw [List.nil_append] at g1
    rw [← g1] at g2
    simp at g2
  · rw [List.append_assoc, List.append_assoc] at g1
    exact (split_last h2 g2 g1).2

theorem decimalInt_not_mem {c : Char} (i : Int) (hc : c ∉ digitChars) (hc' : c ≠ '-') : c ∉ decimalInt i :=
  signed_not_mem (decimalInt_ok i) hc hc'

/-- C94: the result is written to a file in the directory with the results, whatever the input file is called. -/
theorem C94_directory {file : List Char} (hl : file.length < npos) (k p : Int) :
    ∃ base, SplitName (resultName file k p) "../tools/results/".toList base := by
  obtain ⟨dir, -, h2, -⟩ := C94_base hl
  refine ⟨baseName file ++ "-k".toList ++ decimalInt k ++ "-p".toList ++ decimalInt p, ?_, ?_, Or.inr ⟨"../tools/results".toList, rfl⟩⟩
  · unfold resultName
    simp only [List.append_assoc]
  · simp only [List.mem_append]
    rintro ((((h | h) | h) | h) | h)
    · exact h2 h
    · exact absurd h (by decide)
    · exact decimalInt_not_mem k (by decide) (by decide) h
    · exact absurd h (by decide)
    · exact decimalInt_not_mem p (by decide) (by decide) h

/-- C94: the input file is not overwritten: the two names differ (as texts). -/
theorem C94_not_input {file : List Char} (hl : file.length < npos) (k p : Int) : resultName file k p ≠ file := by
  intro he
  obtain ⟨dir, h⟩ := C94_base hl
  obtain ⟨base, g⟩ := C94_directory hl k p
  have h' := h
  rw [he] at g
  have hb := splitName_unique h g
  have e1 := g.1
  rw [← he] at e1
  unfold resultName at e1
  simp only [List.append_assoc] at e1
  rw [← hb] at e1
  have := congrArg List.length (List.append_cancel_left e1)
  simp only [List.length_append] at this
  have hk : "-k".toList.length = 2 := rfl
  omega

/-- C94, partial: for two runs that write to the same file, the numbers of parts and of processors and the names of the
input files are the same, except for the directories. What is missing: the directories (`C94_false`). -/
theorem C94_partial {f f' : List Char} {k p k' p' : Int} (h : resultName f k p = resultName f' k' p') :
    baseName f = baseName f' ∧ k = k' ∧ p = p' := by
  unfold resultName at h
  have hp : ∀ (a : List Char) (i : Int), a ++ "-p".toList ++ decimalInt i = (a ++ ['-']) ++ 'p' :: decimalInt i := by
    intro a i; rw [List.append_assoc, List.append_assoc]; rfl
  have hk : ∀ (a : List Char) (i : Int), a ++ "-k".toList ++ decimalInt i = (a ++ ['-']) ++ 'k' :: decimalInt i := by
    intro a i; rw [List.append_assoc, List.append_assoc]; rfl
  rw [hp, hp] at h
  obtain ⟨h, h1⟩ := split_last (decimalInt_not_mem _ (by decide) (by decide)) (decimalInt_not_mem _ (by decide) (by decide)) h
  have h := List.append_cancel_right h
  rw [hk, hk] at h
  obtain ⟨h, h2⟩ := split_last (decimalInt_not_mem _ (by decide) (by decide)) (decimalInt_not_mem _ (by decide) (by decide)) h
  have h := List.append_cancel_left (List.append_cancel_right h)
  refine ⟨h, signed_unique (decimalInt_ok k) ?_, signed_unique (decimalInt_ok p) ?_⟩
  · rw [h2]; exact decimalInt_ok k'
  · rw [h1]; exact decimalInt_ok p'

/-- C94 is false for input files of the same name in different directories: the second run overwrites the result of
the first. -/
theorem C94_false : "a/m.mtx".toList ≠ "b/m.mtx".toList ∧
    ∀ k p : Int, resultName "a/m.mtx".toList k p = resultName "b/m.mtx".toList k p := by
  refine ⟨by decide, fun k p => ?_⟩
  have h : baseName "a/m.mtx".toList = baseName "b/m.mtx".toList := by decide +kernel
  unfold resultName
  rw [h]

example : resultName "../test/data/marine1.mtx".toList 12 32 = "../tools/results/marine1.mtx-k12-p32".toList := by
  decide +kernel

example : resultName "marine1.mtx".toList 2 1 = "../tools/results/marine1.mtx-k2-p1".toList := by decide +kernel

/-! ### C95 -/

/-- C95: `print` writes one line for every vertex, in the stored order, with its id and the ids of its nets. -/
theorem C95_printed (H : Hypergraph) : PrintedAs (printText H) (H.vertices.map (fun v => (v.id, v.nets))) := by
  refine ⟨H.vertices.map (fun v => decimal v.id ++ ':' :: ' ' :: (v.nets.map decimal).flatMap (fun e => e ++ [' '])), ?_, ?_⟩
  · rw [List.forall₂_map_left_iff, List.forall₂_map_right_iff]
    apply List.forall₂_same.2
    intro v _
    refine ⟨decimal v.id, v.nets.map decimal, decimal_ok _, ?_, rfl⟩
    rw [List.forall₂_map_left_iff]
    exact List.forall₂_same.2 (fun n _ => decimal_ok n)
  · unfold printText
    rw [List.flatMap_map]
    apply List.flatMap_congr
    intro v _
    unfold vertexText
    rw [List.flatMap_map]
    simp

theorem nets_unique : ∀ {ds ds' : List (List Char)} {l l' : List Nat}, List.Forall₂ Decimal ds l → List.Forall₂ Decimal ds' l' →
    ds.flatMap (fun e => e ++ [' ']) = ds'.flatMap (fun e => e ++ [' ']) → l = l' := by
  intro ds ds' l l' h
  induction h generalizing ds' l' with
  | nil =>
    intro h' he
    cases h' with
    | nil => rfl
    | cons h1 _ => simp at he
  | cons h1 h2 ih =>
    intro h' he
    cases h' with
    | nil => simp at he
    | cons h1' h2' =>
      simp only [List.flatMap_cons, List.append_assoc, List.singleton_append] at he
      obtain ⟨e1, e2⟩ := split_first (decimal_not_mem h1 (by decide)) (decimal_not_mem h1' (by decide)) he
      rw [e1] at h1
      rw [decimal_unique h1 h1', ih h2' e2]

theorem printLine_newline {l : List Char} {x : Nat × List Nat} (h : PrintLine l x) : '\n' ∉ l := by
  obtain ⟨d, ds, h1, h2, rfl⟩ := h
  simp only [List.mem_append, List.mem_cons, List.mem_flatMap]
  rintro (h | h | h | ⟨e, he, h | h⟩)
  · exact decimal_not_mem h1 (by decide) h
  · exact absurd h (by decide)
  · exact absurd h (by decide)
  · obtain ⟨n, -, hn⟩ := forall2_mem_left h2 he
    exact decimal_not_mem hn (by decide) h
  · exact absurd h (by decide)

theorem printLine_unique {l : List Char} {x y : Nat × List Nat} (h : PrintLine l x) (h' : PrintLine l y) : x = y := by
  obtain ⟨d, ds, h1, h2, rfl⟩ := h
  obtain ⟨d', ds', g1, g2, g3⟩ := h'
  obtain ⟨e1, e2⟩ := split_first (decimal_not_mem h1 (by decide)) (decimal_not_mem g1 (by decide)) g3
  rw [e1] at h1
  exact Prod.ext (decimal_unique h1 g1) (nets_unique h2 g2 (List.cons.inj e2).2)

/-- A text is the print of one list of vertices only. -/
theorem printedAs_unique {text : List Char} {xs ys : List (Nat × List Nat)} (h : PrintedAs text xs) (h' : PrintedAs text ys) :
    xs = ys := by
  obtain ⟨ls, h1, rfl⟩ := h
  obtain ⟨ls', g1, g2⟩ := h'
  induction h1 generalizing ys ls' with
  | nil =>
    cases g1 with
    | nil => rfl
    | cons _ _ => simp at g2
  | cons a1 a2 ih =>
    cases g1 with
    | nil => simp at g2
    | cons b1 b2 =>
      simp only [List.flatMap_cons, List.append_assoc, List.singleton_append] at g2
      obtain ⟨e1, e2⟩ := split_first (printLine_newline a1) (printLine_newline b1) g2
      rw [e1] at a1
      rw [printLine_unique a1 b1, ih _ b2 e2]

/-- C95: two hypergraphs print the same exactly when they have the same vertices with the same nets in the same order; weights,
labels and costs are not shown. -/
theorem C95_unique (H H' : Hypergraph) :
    printText H = printText H' ↔ H.vertices.map (fun v => (v.id, v.nets)) = H'.vertices.map (fun v => (v.id, v.nets)) := by
  constructor
  · intro h
    have := C95_printed H
    rw [h] at this
    exact printedAs_unique this (C95_printed H')
  · intro h
    have e : ∀ K : Hypergraph, printText K = (K.vertices.map (fun v => (v.id, v.nets))).flatMap
        (fun x => decimal x.1 ++ ": ".toList ++ x.2.flatMap (fun n => decimal n ++ " ".toList) ++ "\n".toList) := by
      intro K
      rw [List.flatMap_map]
      rfl
    rw [e, e, h]

example : exampleD.map printText = ["1: 0 2 \n4: 0 1 \n".toList, "0: 2 \n3: 0 \n".toList] := by decide +kernel

/-! ### C96 -/

/-- `%d` prints a 64-bit number truly exactly when it fits in 32 bits. -/
theorem C96_percent (x : Int) : SignedDecimal (percentD x) x ↔ -2147483648 ≤ x ∧ x < 2147483648 := by
  have hw : wrap32 x = x ↔ -2147483648 ≤ x ∧ x < 2147483648 := by
    unfold wrap32
    rw [Int.bmod_def]
    constructor
    · intro h
      split at h <;> omega
    · intro h
      split <;> omega
  rw [← hw]
  unfold percentD
  constructor
  · intro h
    exact signed_unique (decimalInt_ok _) h
  · intro h
    rw [h]
    exact decimalInt_ok x

theorem rows_le : ∀ (E : Nat) (es : List (Nat × Nat)),
    ((List.range E).map (fun e => (rowOf es e).length)).sum ≤ es.countP (fun x => x.1 ≤ E) := by
  intro E es
  induction E with
  | zero => simp
  | succ E ih =>
    rw [List.range_succ, List.map_append, List.sum_append, List.map_singleton, List.sum_singleton]
    have h : es.countP (fun x => x.1 ≤ E) + (rowOf es E).length ≤ es.countP (fun x => x.1 ≤ E + 1) := by
      unfold rowOf
      rw [List.length_map, ← List.countP_eq_length_filter]
      clear ih
      induction es with
      | nil => simp
      | cons x r ih =>
        simp only [List.countP_cons, decide_eq_true_eq]
        split_ifs <;> omega
    omega

/-- The cut size of a labelled matrix is at most the number of entries. -/
theorem rowsCut_le (E : Nat) (es : List (Nat × Nat)) (lab : Nat → Int) : 0 ≤ rowsCut E es lab ∧ rowsCut E es lab ≤ es.length := by
  unfold rowsCut
  constructor
  · apply List.sum_nonneg
    intro x hx
    obtain ⟨e, -, rfl⟩ := List.mem_map.1 hx
    omega
  · have h1 : ((List.range E).map (fun e => ((((rowOf es e).map lab).dedup.length - 1 : Nat) : Int))).sum ≤
        ((List.range E).map (fun e => (((rowOf es e).length : Nat) : Int))).sum := by
      apply List.sum_le_sum
      intro e _
      have := ((rowOf es e).map lab).dedup_sublist.length_le
      rw [List.length_map] at this
      omega
    have h2 : ((List.range E).map (fun e => (((rowOf es e).length : Nat) : Int))).sum =
        ((((List.range E).map (fun e => (rowOf es e).length)).sum : Nat) : Int) := by
      rw [← Nat.coe_castAddMonoidHom, map_list_sum, List.map_map]
      rfl
    have h3 := rows_le E es
    have h4 := List.countP_le_length (p := fun x : Nat × Nat => decide (x.1 ≤ E)) (l := es)
    omega

theorem weightLines_ok {k : Nat} {w : Nat → Int} {ws : List Int} (h : ws = (List.range k).map w) :
    ∃ ds, weightLines k ws = .ok ds ∧ List.Forall₂ (fun l (i : Nat) => ∃ di dw, SignedDecimal di (i : Int) ∧ SignedDecimal dw (w i) ∧
      l = "Weight part ".toList ++ di ++ ": ".toList ++ dw) ds (List.range k) := by
  refine ⟨(List.range k).map (fun (i : Nat) => "Weight part ".toList ++ decimalInt i ++ ": ".toList ++ decimalInt (w i)), ?_, ?_⟩
  · unfold weightLines
    apply mapM_ok
    intro i hi
    have hi := List.mem_range.1 hi
    have : vget ws i = .ok (w i) := by
      rw [h]
      exact vget_ok (by simp [hi])
    rw [this]
    rfl
  · rw [List.forall₂_map_left_iff]
    exact List.forall₂_same.2 (fun i _ => ⟨_, _, decimalInt_ok _, decimalInt_ok _, rfl⟩)

/-- C96: when the partitioning of a matrix with less than `2^31` columns and entries into less than `2^31` parts has been computed
(C70), processor 0 logs the true numbers of vertices, parts and processors, the true cut size of the labelling and the true
weights of its parts. -/
theorem C96_log {p k E V : Nat} {es : List (Nat × Nat)} {wt : List Nat → Int} {o : MainOut} (h : Reports p k E V es wt o)
    (hp : 1 ≤ p) (hk : k < 2147483648) (hV : V < 2147483648) (he : es.length < 2147483648) (lb time : List Char) :
    ∃ lab : Nat → Int, HoldLabels V lab o.run.Hs ∧ ∃ H ws, vget o.run.Hs 0 = .ok H ∧ mainWeights o.run.Hs k = .ok ws ∧
      ∃ c w, vget o.cut 0 = .ok c ∧ vget ws 0 = .ok w ∧
      ∃ lines, logLines H k p lb time c w = .ok lines ∧
        LogSays lines V k p lb time (rowsCut E es lab) (fun q => columnsWeight V es wt lab q) := by
  obtain ⟨lab0, h1, h2, h3, h4, h5, -⟩ := id h
  obtain ⟨lab, g1, g2⟩ := C70_weights h
  have hpos : ∀ {α : Type} (a : α), vget (List.replicate p a) 0 = .ok a := fun a =>
    vget_ok (by rw [List.getElem?_replicate]; exact if_pos hp)
  obtain ⟨H, hH⟩ : ∃ H, o.run.Hs[0]? = some H := ⟨_, List.getElem?_eq_getElem (by omega)⟩
  have hw : (List.range k).map (fun (q : Nat) => columnsWeight V es wt lab q) =
      (List.range k).map (fun (q : Nat) => columnsWeight V es wt lab0 q) := by
    apply List.map_congr_left
    intro q _
    unfold columnsWeight
    congr 2
    apply List.filter_congr
    intro v hv
    rw [holdLabels_unique g1 h3 (List.mem_range.1 hv)]
  obtain ⟨ds, d1, d2⟩ := weightLines_ok hw
  obtain ⟨c1, c2⟩ := rowsCut_le E es lab0
  refine ⟨lab0, h3, H, _, vget_ok hH, g2, rowsCut E es lab0, _, by rw [h5]; exact hpos _, hpos _, _, by
    unfold logLines
    rw [d1]
    rfl, ?_⟩
  have hs := h4.size H (List.mem_of_getElem? hH)
  refine ⟨_, _, _, _, ds, (C96_percent (V : Int)).2 (by omega), (C96_percent (k : Int)).2 (by omega), decimalInt_ok (p : Int),
    (C96_percent (rowsCut E es lab0)).2 (by omega), d2, ?_⟩
  rw [hs]

/-- C96 is false for larger numbers: a cut size of `2^32 + 5` is logged as 5. -/
theorem C96_false : percentD (2 ^ 32 + 5) = "5".toList ∧ ¬ SignedDecimal (percentD (2 ^ 32 + 5)) (2 ^ 32 + 5) :=
  ⟨by decide +kernel, fun h => absurd ((C96_percent _).1 h).2 (by decide)⟩

/-- The log of the example of C70 with three parts, without the times. -/
example : (((mainCompute exampleMain 2 3 (1 / 4) 0 (some exampleText.toList) "one").toOption.bind id).bind (fun o =>
      (do
        let H ← vget o.run.Hs 0
        let c ← vget o.cut 0
        let ws ← mainWeights o.run.Hs 3
        let w ← vget ws 0
        logLines H 3 2 "0.500000".toList "1.000000".toList c w : Res _).toOption)) = some
    ["Partitioned hypergraph with 4 vertices into 3 parts using 2 processors".toList,
      "Load balance of partitioning found: 0.500000".toList, "Cutsize of partitioning found: 1".toList,
      "Time used: 1.000000 milliseconds".toList, "Weight part 0: 1".toList, "Weight part 1: 1".toList,
      "Weight part 2: 2".toList] := by decide +kernel

end PMondriaan

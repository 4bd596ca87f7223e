import Verif.Proofs.Text
import Verif.Props.Reader
import Verif.Props.Writer

/-
Properties C67, C68 and C69: the characters of the files.
-/

namespace PMondriaan

open Spec IStream

/-- What the parsers extract from a well-formed text. -/
def mtxOf (sym : String) (E V L : Nat) (es : List (Nat × Nat)) : MtxFile := ⟨some sym, E, V, L, es.map some⟩

/-- The number of elements a `std::vector<std::vector<long>>` can have. -/
def maxSize : Nat := 384307168202282325

/-! ### C67 -/

/-- C67: the sequential reader extracts the symmetry, the sizes and the entries of a Matrix Market file. -/
theorem C67_parse {text : List Char} {sym : String} {E V L : Nat} {es : List (Nat × Nat)}
    (h : MtxText text sym.toList E V L es) (hE : E ≤ maxSize) (hV : V ≤ maxSize) :
    parseSeq text = .ok (some (mtxOf sym E V L es)) := by
  obtain ⟨header, comments, sizes, ls, last, h1, h2, h3, h4, rfl⟩ := h.parts
  obtain ⟨t, ht⟩ := readHead_ok (body := linesText ls ++ last) h1 h2 h3
  have hn := forall2_left (P := fun l => '\n' ∉ l) (fun l x h => entry_newline h) h4
  have hlast : '\n' ∉ last := by
    by_cases hl : last = []
    · rw [hl]; exact List.not_mem_nil
    · exact hn last (by simp [hl])
  have hlines := allLines_ok (fuel := (linesText ls ++ last).length + 1) (line := t) hlast
    (fun l hl => hn l (List.mem_append_left _ hl)) (by
      have := linesText_length ls
      rw [List.length_append]
      omega)
  rw [show linesLast ls last = ls ++ if last = [] then [] else [last] from rfl,
    forall2_map_some (fun l x h => lineEntry_ok h) h4] at hlines
  unfold parseSeq
  rw [ht, ok_bind]
  dsimp only
  rw [vectorSize_ok hV, ok_bind, vectorSize_ok hE, ok_bind, hlines, String.ofList_toList]
  unfold mtxOf
  split_ifs <;> rfl

/-- C67: every processor extracts the same, when the number of entries is the one announced. -/
theorem C67_parse_distributed {text : List Char} {sym : String} {E V L : Nat} {es : List (Nat × Nat)}
    (h : MtxText text sym.toList E V L es) (hsym : sym = "general" ∨ sym = "symmetric")
    (hE : E ≤ maxSize) (hV : V ≤ maxSize) (hL : L = es.length) (hL32 : L < 2 ^ 32) :
    parsePar text = .ok (some (mtxOf sym E V L es)) := by
  obtain ⟨header, comments, sizes, ls, last, h1, h2, h3, h4, rfl⟩ := h.parts
  obtain ⟨t, ht⟩ := readHead_ok (body := linesText ls ++ last) h1 h2 h3
  have hn := forall2_left (P := fun l => '\n' ∉ l) (fun l x h => entry_newline h) h4
  have hlast : '\n' ∉ last := by
    by_cases hl : last = []
    · rw [hl]; exact List.not_mem_nil
    · exact hn last (by simp [hl])
  have hlines := nextLines_ok (n := L) (line := t) hlast (fun l hl => hn l (List.mem_append_left _ hl))
  rw [show linesLast ls last = ls ++ if last = [] then [] else [last] from rfl,
    forall2_map_some (fun l x h => lineEntry_ok h) h4, h4.length_eq, hL, Nat.sub_self, List.replicate_zero, List.append_nil,
    List.take_of_length_le (by rw [List.length_map])] at hlines
  unfold parsePar
  rw [ht, ok_bind]
  dsimp only
  rw [vectorSize_ok hV, ok_bind, vectorSize_ok hE, ok_bind, String.ofList_toList, if_pos hsym]
  show (if L < 2 ^ 32 then _ else _) = _
  rw [if_pos hL32, hL, hlines]
  rfl

/-- C67 with C01: the characters of a general Matrix Market file are read into the hypergraph of the matrix. -/
theorem C67_read_general {order : List Nat → List Nat} (ho : ∀ l, (order l).Perm l) {text : List Char} {E V L : Nat}
    {es : List (Nat × Nat)} (h : MtxText text "general".toList E V L es) (hE : E ≤ maxSize) (hV : V ≤ maxSize)
    (hin : EntriesIn E V es) {mode : String} {wt : List Nat → Int} (hm : ModeMeans mode wt) :
    ∃ H, readText order text mode = .ok (some H) ∧ IsMatrix E V es wt H ∧ SameIncidence es H ∧
      H.nrNz = L ∧ (es.Nodup → WF H) := by
  obtain ⟨H, h1, h2⟩ := C01_read_general ho (f := mtxOf "general" E V L es) rfl rfl hin hm
  refine ⟨H, ?_, h2⟩
  unfold readText
  rw [C67_parse h hE hV, ok_bind]
  exact h1

/-- C67 with C02: the same for a symmetric file. -/
theorem C67_read_symmetric {order : List Nat → List Nat} (ho : ∀ l, (order l).Perm l) {text : List Char} {E L : Nat}
    {es : List (Nat × Nat)} (h : MtxText text "symmetric".toList E E L es) (hE : E ≤ maxSize)
    (hin : EntriesIn E E es) {mode : String} {wt : List Nat → Int} (hm : ModeMeans mode wt) :
    ∃ H, readText order text mode = .ok (some H) ∧ IsMatrix E E (mirror es) wt H ∧ SameIncidence (mirror es) H ∧
      H.nrNz = (H.vertices.map (·.nets.length)).sum ∧ ((mirror es).Nodup → WF H) := by
  obtain ⟨H, h1, h2⟩ := C02_read_symmetric ho (f := mtxOf "symmetric" E E L es) rfl rfl rfl hin hm
  refine ⟨H, ?_, h2⟩
  unfold readText
  rw [C67_parse h hE hE, ok_bind]
  exact h1

/-- C67 with C04: the processors together read what one processor reads. -/
theorem C67_read_distributed {order order' : List Nat → List Nat} (ho : ∀ l, (order l).Perm l)
    (ho' : ∀ l, (order' l).Perm l) {d1 d2 : Delivery (Nat × Int)} (hd1 : Fair d1) (hd2 : Fair d2)
    {parts : Nat → NetPart} {p : Nat} (hv : ∀ n, (parts n).Valid p n) {text : List Char} {E V L : Nat}
    {es : List (Nat × Nat)} (h : MtxText text "general".toList E V L es) (hE : E ≤ maxSize) (hV : V ≤ maxSize)
    (hL : L = es.length) (hL32 : L < 2 ^ 32) (hin : EntriesIn E V es) (hn : es.Nodup)
    {mode : String} {wt : List Nat → Int} (hm : ModeMeans mode wt) :
    ∃ H Rs, readText order text mode = .ok (some H) ∧ readTextPar order' d1 d2 parts p text mode = .ok (some Rs) ∧
      PartitionOf E (parts V).owner p H Rs := by
  obtain ⟨H, Rs, h1, h2, h3⟩ := C04_read_general ho ho' hd1 hd2 (f := mtxOf "general" E V L es) (hv V) (hv E) rfl rfl hL
    hin hn hm
  refine ⟨H, Rs, ?_, ?_, h3⟩
  · unfold readText
    rw [C67_parse h hE hV, ok_bind]
    exact h1
  · unfold readTextPar
    rw [C67_parse_distributed h (Or.inl rfl) hE hV hL hL32, ok_bind]
    exact h2

/-- C67 with C04, symmetric files. -/
theorem C67_read_distributed_symmetric {order order' : List Nat → List Nat} (ho : ∀ l, (order l).Perm l)
    (ho' : ∀ l, (order' l).Perm l) {d1 d2 : Delivery (Nat × Int)} (hd1 : Fair d1) (hd2 : Fair d2)
    {parts : Nat → NetPart} {p : Nat} (hv : ∀ n, (parts n).Valid p n) {text : List Char} {E V L : Nat}
    {es : List (Nat × Nat)} (h : MtxText text "symmetric".toList E V L es) (hE : E ≤ maxSize) (hV : V ≤ maxSize)
    (hL : L = es.length) (hL32 : L < 2 ^ 32) (hin : EntriesIn E V (mirror es)) (hn : (mirror es).Nodup)
    {mode : String} {wt : List Nat → Int} (hm : ModeMeans mode wt) :
    ∃ H Rs, readText order text mode = .ok (some H) ∧ readTextPar order' d1 d2 parts p text mode = .ok (some Rs) ∧
      PartitionOf E (parts V).owner p H Rs := by
  obtain ⟨H, Rs, h1, h2, h3⟩ := C04_read_symmetric ho ho' hd1 hd2 (f := mtxOf "symmetric" E V L es) (hv V) (hv E) rfl rfl
    hL hin hn hm
  refine ⟨H, Rs, ?_, ?_, h3⟩
  · unfold readText
    rw [C67_parse h hE hV, ok_bind]
    exact h1
  · unfold readTextPar
    rw [C67_parse_distributed h (Or.inr rfl) hE hV hL hL32, ok_bind]
    exact h2

/-- A file that cannot be opened is reported. -/
theorem C67_no_file (order : List Nat → List Nat) (d1 d2 : Delivery (Nat × Int)) (parts : Nat → NetPart) (p : Nat)
    (mode : String) : readFile order none mode = .ok none ∧ readFilePar order d1 d2 parts p none mode = .ok none :=
  ⟨rfl, rfl⟩

/-- The text of a 3 by 4 matrix with a comment, carriage returns, values behind the entries and no last newline. -/
def exampleText : String :=
  "%%MatrixMarket matrix coordinate real general\r\n% made by hand\r\n%\n 3 4  4\r\n1 1 0.5\n03\t2 -7\r\n1 4 1e3\n3 1"

example : parseSeq exampleText.toList = .ok (some (mtxOf "general" 3 4 4 [(1, 1), (3, 2), (1, 4), (3, 1)])) := by
  decide +kernel

theorem exampleText_mtx : MtxText exampleText.toList "general".toList 3 4 4 [(1, 1), (3, 2), (1, 4), (3, 1)] := by
  refine ⟨"%%MatrixMarket matrix coordinate real general\r".toList, ["% made by hand\r".toList, "%".toList],
    " 3 4  4\r".toList, ["1 1 0.5".toList, "03\t2 -7\r".toList, "1 4 1e3".toList], "3 1".toList, ?_, ?_, ?_, ?_, ?_⟩
  · refine ⟨by unfold Word; decide, [], "%%MatrixMarket".toList, [' '], "matrix".toList, [' '], "coordinate".toList, [' '],
      "real".toList, [' '], ['\r'], by unfold Blank; decide, by unfold Word; decide, by unfold Blank; decide, by decide,
      by unfold Word; decide, by unfold Blank; decide, by decide, by unfold Word; decide, by unfold Blank; decide, by decide,
      by unfold Word; decide, by unfold Blank; decide, by decide, by decide, ?_, by decide⟩
    rintro c r h; cases h; decide
  · intro c hc
    simp only [List.mem_cons, List.not_mem_nil, or_false] at hc
    rcases hc with rfl | rfl
    · exact ⟨by decide, by decide, _, rfl⟩
    · exact ⟨by decide, by decide, _, rfl⟩
  · refine ⟨by decide, by decide, by decide, [' '], ['3'], [' '], ['4'], [' ', ' '], ['4'], ['\r'], by unfold Blank; decide,
      .one (i := 3) (by decide), by unfold Blank; decide, by decide, .one (i := 4) (by decide), by unfold Blank; decide,
      by decide, .one (i := 4) (by decide), ⟨by decide, ?_⟩, by decide⟩
    rintro c r h; cases h; decide
  · refine .cons ?_ (.cons ?_ (.cons ?_ (.cons ?_ .nil)))
    · refine ⟨by decide, by decide, [], ['1'], [' '], ['1'], " 0.5".toList, by unfold Blank; decide,
        .one (i := 1) (by decide), by unfold Blank; decide, by decide, .one (i := 1) (by decide), ⟨by decide, ?_⟩, by decide⟩
      rintro c r h; cases h; decide
    · refine ⟨by decide, by decide, [], ['0', '3'], ['\t'], ['2'], " -7\r".toList, by unfold Blank; decide,
        .snoc (.one (i := 0) (by decide)) (i := 3) (by decide), by unfold Blank; decide, by decide,
        .one (i := 2) (by decide), ⟨by decide, ?_⟩, by decide⟩
      rintro c r h; cases h; decide
    · refine ⟨by decide, by decide, [], ['1'], [' '], ['4'], " 1e3".toList, by unfold Blank; decide,
        .one (i := 1) (by decide), by unfold Blank; decide, by decide, .one (i := 4) (by decide), ⟨by decide, ?_⟩, by decide⟩
      rintro c r h; cases h; decide
    · refine ⟨by decide, by decide, [], ['3'], [' '], ['1'], [], by unfold Blank; decide,
        .one (i := 3) (by decide), by unfold Blank; decide, by decide, .one (i := 1) (by decide), ⟨by decide, ?_⟩, by decide⟩
      rintro c r h; cases h
  · decide +kernel

/-! ### C68 -/

/-- The stream does not begin with a number. -/
theorem number_bad {b r : List Char} {c : Char} (hb : Blank b) (hw : c ∉ whiteSpace) (hd : c ∉ digitChars)
    (hp : c ≠ '+') (hm : c ≠ '-') :
    number { rest := b ++ c :: r } = ({ rest := c :: r, fail := true }, some 0) := by
  have hs : sign (c :: r) = (false, c :: r) := by
    unfold sign
    split
    · next h => cases h; exact absurd rfl hm
    · next h => cases h; exact absurd rfl hp
    · rfl
  unfold number
  simp only [skipWs_blank hb hw]
  rw [if_pos (good_mk _)]
  simp only [hs]
  have h1 := (isDigit_false c).2 hd
  rw [List.takeWhile_cons_of_neg (by simp [h1]), List.dropWhile_cons_of_neg (by simp [h1])]
  rfl

theorem number_failed (s : IStream) (h : s.fail = true) : number s = (s, none) := by
  have hg : s.good = false := by unfold good; rw [h]; simp
  have hf : s.failed = s := by
    unfold failed
    cases s
    cases h
    rfl
  have hs : s.skipWs = s := by unfold skipWs; rw [hg]; exact hf
  unfold number
  simp only [hs]
  rw [hg]
  rfl

/-- When the first of the sizes cannot be read, the other two stay uninitialised and are used. -/
theorem read_no_sizes {header sym rest : List Char} (hh : HeaderLine header sym) {s : IStream}
    (hs : skipComments ((header ++ '\n' :: rest).length + 1) { rest := rest } = .ok s) (hf : s.number.1.fail = true) :
    parseSeq (header ++ '\n' :: rest) = .error .ub ∧ parsePar (header ++ '\n' :: rest) = .error .ub := by
  have hr : ∃ e l t, readHead (header ++ '\n' :: rest) = .ok (some ⟨sym, e, none, l, s.number.1.failed, t⟩) := by
    unfold readHead
    rw [getline_line (header_newline hh)]
    dsimp only
    rw [symmetryWord_ok hh]
    dsimp only
    rw [hs, ok_bind, number_failed _ hf]
    dsimp only
    rw [number_failed _ hf]
    dsimp only
    have hg : s.number.1.good = false := by unfold good; rw [hf]; simp
    unfold getline
    rw [hg]
    exact ⟨_, _, _, rfl⟩
  obtain ⟨e, l, t, hr⟩ := hr
  constructor
  · unfold parseSeq
    rw [hr]
    rfl
  · unfold parsePar
    rw [hr]
    rfl

theorem readText_ub {order : List Nat → List Nat} {d1 d2 : Delivery (Nat × Int)} {parts : Nat → NetPart} {p : Nat}
    {text : List Char} {mode : String} (h : parseSeq text = .error .ub ∧ parsePar text = .error .ub) :
    readText order text mode = .error .ub ∧ readTextPar order d1 d2 parts p text mode = .error .ub := by
  constructor
  · unfold readText
    rw [h.1]
    rfl
  · unfold readTextPar
    rw [h.2]
    rfl

theorem skipComments_end : ∀ {cs : List (List Char)} {fuel : Nat},
    (∀ x ∈ cs, CommentLine x) → cs.length < fuel →
    skipComments fuel { rest := linesText cs } = .ok { rest := [], eof := true } := by
  intro cs
  induction cs with
  | nil =>
    intro fuel _ hf
    obtain ⟨n, rfl⟩ : ∃ n, fuel = n + 1 := ⟨fuel - 1, by simp at hf; omega⟩
    rfl
  | cons l cs ih =>
    intro fuel hcs hf
    obtain ⟨n, rfl⟩ : ∃ n, fuel = n + 1 := ⟨fuel - 1, by simp at hf; omega⟩
    obtain ⟨h1, h2, l', rfl⟩ := hcs l (List.mem_cons_self ..)
    rw [← List.append_nil (linesText _), linesText_cons, List.append_nil]
    unfold skipComments
    rw [if_pos (good_mk _)]
    show (if '%' = '%' then _ else _) = _
    rw [if_pos rfl, ignoreChars_line h1 h2]
    exact ih (fun x hx => hcs x (List.mem_cons_of_mem _ hx)) (by simp at hf; omega)

/-- C68: a file that ends before the line with the sizes is not reported: the sizes are used uninitialised. -/
theorem C68_no_sizes {order : List Nat → List Nat} {d1 d2 : Delivery (Nat × Int)} {parts : Nat → NetPart} {p : Nat}
    {mode : String} {header sym : List Char} {comments : List (List Char)} (hh : HeaderLine header sym)
    (hc : ∀ c ∈ comments, CommentLine c) :
    readText order (linesText (header :: comments)) mode = .error .ub ∧
      readTextPar order d1 d2 parts p (linesText (header :: comments)) mode = .error .ub := by
  rw [← List.append_nil (linesText _), linesText_cons, List.append_nil]
  refine readText_ub (read_no_sizes hh (skipComments_end hc ?_) rfl)
  have := linesText_length comments
  simp only [List.length_append, List.length_cons]
  omega

theorem ignoreChars_exact : ∀ {l r : List Char}, '\n' ∉ l → ignoreChars l.length (l ++ r) = { rest := r } := by
  intro l
  induction l with
  | nil => intro r _; cases r <;> rfl
  | cons c l ih =>
    intro r hl
    rw [List.length_cons, List.cons_append, ignoreChars, if_neg (by rintro rfl; exact hl (List.mem_cons_self ..)),
      ih (fun h => hl (List.mem_cons_of_mem _ h))]

/-- C68: a line of comment is cut after 2048 characters. If the next character does not look like a number, the sizes
are used uninitialised. -/
theorem C68_long_comment {order : List Nat → List Nat} {d1 d2 : Delivery (Nat × Int)} {parts : Nat → NetPart} {p : Nat}
    {mode : String} {header sym c1 rest : List Char} {x : Char} {comments : List (List Char)} (hh : HeaderLine header sym)
    (hc : ∀ c ∈ comments, CommentLine c) (h1 : ('%' :: c1).length = 2048) (h2 : '\n' ∉ c1)
    (hw : x ∉ whiteSpace) (hd : x ∉ digitChars) (hx : x ≠ '%' ∧ x ≠ '+' ∧ x ≠ '-') :
    readText order (linesText (header :: comments) ++ ('%' :: c1 ++ x :: rest)) mode = .error .ub ∧
      readTextPar order d1 d2 parts p (linesText (header :: comments) ++ ('%' :: c1 ++ x :: rest)) mode =
        .error .ub := by
  have hsk : ∀ {cs : List (List Char)} {fuel : Nat}, (∀ x ∈ cs, CommentLine x) → cs.length + 1 < fuel →
      skipComments fuel { rest := linesText cs ++ ('%' :: c1 ++ x :: rest) } = .ok { rest := x :: rest } := by
    intro cs
    induction cs with
    | nil =>
      intro fuel _ hf
      obtain ⟨n, rfl⟩ : ∃ n, fuel = n + 2 := ⟨fuel - 2, by simp at hf; omega⟩
      show skipComments (n + 1 + 1) { rest := '%' :: c1 ++ x :: rest } = _
      unfold skipComments
      rw [if_pos (good_mk _)]
      show (if '%' = '%' then _ else _) = _
      rw [if_pos rfl]
      have := ignoreChars_exact (l := '%' :: c1) (r := x :: rest) (by simp [h2])
      rw [h1] at this
      rw [this]
      unfold skipComments
      rw [if_pos (good_mk _)]
      show (if x = '%' then _ else _) = _
      rw [if_neg hx.1]
    | cons l cs ih =>
      intro fuel hcs hf
      obtain ⟨n, rfl⟩ : ∃ n, fuel = n + 1 := ⟨fuel - 1, by simp at hf; omega⟩
      obtain ⟨h1, h2, l', rfl⟩ := hcs l (List.mem_cons_self ..)
      rw [linesText_cons]
      unfold skipComments
      rw [if_pos (good_mk _)]
      show (if '%' = '%' then _ else _) = _
      rw [if_pos rfl, ignoreChars_line h1 h2]
      exact ih (fun x hx => hcs x (List.mem_cons_of_mem _ hx)) (by simp at hf; omega)
  rw [linesText_cons]
  refine readText_ub (read_no_sizes hh (hsk hc ?_) ?_)
  · have := linesText_length comments
    simp only [List.length_append, List.length_cons]
    omega
  · have := number_bad (b := []) (r := rest) (by intro c hc; cases hc) hw hd hx.2.1 hx.2.2
    rw [List.nil_append] at this
    rw [this]

/-- The text of a file in which every line ends with a newline. -/
theorem parse_lines {header sizes : List Char} {sym : String} {E V L : Nat} {comments ls : List (List Char)}
    (hh : HeaderLine header sym.toList) (hc : ∀ c ∈ comments, CommentLine c) (hs : SizeLine sizes E V L)
    (hE : E ≤ maxSize) (hV : V ≤ maxSize) (hl : ∀ l ∈ ls, '\n' ∉ l) {last : List Char} (hlast : '\n' ∉ last) :
    parseSeq (linesText (header :: comments ++ [sizes]) ++ (linesText ls ++ last)) =
      .ok (some ⟨some sym, E, V, L, (linesLast ls last).map lineEntry⟩) ∧
    ((sym = "general" ∨ sym = "symmetric") → L < 2 ^ 32 →
      parsePar (linesText (header :: comments ++ [sizes]) ++ (linesText ls ++ last)) =
      .ok (some ⟨some sym, E, V, L, ((linesLast ls last).map lineEntry ++
        List.replicate (L - (linesLast ls last).length) (lineEntry last)).take L⟩)) := by
  obtain ⟨t, ht⟩ := readHead_ok (body := linesText ls ++ last) hh hc hs
  constructor
  · unfold parseSeq
    rw [ht, ok_bind]
    dsimp only
    rw [vectorSize_ok hV, ok_bind, vectorSize_ok hE, ok_bind, String.ofList_toList, allLines_ok hlast hl (by
      have := linesText_length ls
      rw [List.length_append]
      omega)]
    split_ifs <;> rfl
  · intro hsym hL
    unfold parsePar
    rw [ht, ok_bind]
    dsimp only
    rw [vectorSize_ok hV, ok_bind, vectorSize_ok hE, ok_bind, String.ofList_toList, if_pos hsym]
    show (if L < 2 ^ 32 then _ else _) = _
    rw [if_pos hL, nextLines_ok hlast hl]
    rfl

/-- C68: with an empty line at the end, the sequential reader reports a failure and the processors together read the
file. -/
theorem C68_empty_line {order order' : List Nat → List Nat} (ho' : ∀ l, (order' l).Perm l)
    {d1 d2 : Delivery (Nat × Int)} (hd1 : Fair d1) (hd2 : Fair d2) {parts : Nat → NetPart} {p : Nat}
    (hv : ∀ n, (parts n).Valid p n) {header sizes : List Char} {comments ls : List (List Char)} {E V : Nat}
    {es : List (Nat × Nat)} (hh : HeaderLine header "general".toList) (hc : ∀ c ∈ comments, CommentLine c)
    (hs : SizeLine sizes E V es.length) (hls : List.Forall₂ EntryLine ls es) (hE : E ≤ maxSize) (hV : V ≤ maxSize)
    (hL32 : es.length < 2 ^ 32) (hin : EntriesIn E V es) (hn : es.Nodup) {mode : String} {wt : List Nat → Int}
    (hm : ModeMeans mode wt) :
    readText order (linesText (header :: comments ++ [sizes]) ++ linesText (ls ++ [[]])) mode = .ok none ∧
    ∃ Rs, readTextPar order' d1 d2 parts p (linesText (header :: comments ++ [sizes]) ++ linesText (ls ++ [[]])) mode =
      .ok (some Rs) ∧ Distributed E Rs := by
  have hnl := forall2_left (P := fun l => '\n' ∉ l) (fun l x h => entry_newline h) hls
  obtain ⟨h1, h2⟩ := parse_lines (ls := ls ++ [[]]) (last := []) hh hc hs hE hV (by
    intro l hl
    rcases List.mem_append.1 hl with h | h
    · exact hnl l h
    · rw [List.mem_singleton] at h
      rw [h]
      exact List.not_mem_nil) List.not_mem_nil
  have hlen := hls.length_eq
  have hmap : (linesLast (ls ++ [[]]) []).map lineEntry = es.map some ++ [none] := by
    unfold linesLast
    rw [if_pos rfl, List.append_nil, List.map_append, forall2_map_some (fun l x h => lineEntry_ok h) hls]
    rfl
  rw [List.append_nil] at h1 h2
  constructor
  · unfold readText
    rw [h1, ok_bind]
    exact (C03_partial order _ mode).2.2.2.1 es hin rfl ⟨[], hmap⟩
  · obtain ⟨H, Rs, -, h4, h5⟩ := C04_read_general (order := id) (fun _ => .refl _) ho' hd1 hd2
      (f := mtxOf "general" E V es.length es) (hv V) (hv E) rfl rfl rfl hin hn hm
    refine ⟨Rs, ?_, h5.2.1⟩
    unfold readTextPar
    rw [h2 (Or.inl rfl) hL32, hmap, ok_bind]
    have : (es.map some ++ [none] ++ List.replicate (es.length - (linesLast (ls ++ [[]]) []).length) (lineEntry [])).take
        es.length = es.map some := by
      rw [List.append_assoc, List.take_append_of_le_length (by rw [List.length_map]), List.take_of_length_le (by
        rw [List.length_map])]
    rw [this]
    exact h4

/-- C68: when the last line does not end with a newline and fewer entries follow than announced, the processors do not
report it: they read the last entry again until the announced number is reached. -/
theorem C68_truncated {order : List Nat → List Nat} {d1 d2 : Delivery (Nat × Int)} {parts : Nat → NetPart} {p : Nat}
    {mode : String} {header sizes last : List Char} {comments ls : List (List Char)} {E V L : Nat} {es : List (Nat × Nat)}
    {x : Nat × Nat} (hh : HeaderLine header "general".toList) (hc : ∀ c ∈ comments, CommentLine c)
    (hs : SizeLine sizes E V L) (hls : List.Forall₂ EntryLine ls es) (hlast : EntryLine last x) (hE : E ≤ maxSize)
    (hV : V ≤ maxSize) (hL : es.length + 1 ≤ L) (hL32 : L < 2 ^ 32) :
    readTextPar order d1 d2 parts p (linesText (header :: comments ++ [sizes]) ++ (linesText ls ++ last)) mode =
      readPar order d1 d2 (parts V) (parts E) p (mtxOf "general" E V L (es ++ List.replicate (L - es.length) x)) mode := by
  have hnl := forall2_left (P := fun l => '\n' ∉ l) (fun l x h => entry_newline h) hls
  have hne : last ≠ [] := by
    obtain ⟨-, -, b0, d1, b1, d2, t, -, hd1, -, -, -, -, rfl⟩ := hlast
    have := (decimal_facts hd1).1
    simp [this]
  obtain ⟨-, h2⟩ := parse_lines (ls := ls) (last := last) hh hc hs hE hV hnl (entry_newline hlast)
  have hmap : (linesLast ls last).map lineEntry = es.map some ++ [some x] := by
    unfold linesLast
    rw [if_neg hne, List.map_append, forall2_map_some (fun l x h => lineEntry_ok h) hls, List.map_singleton,
      lineEntry_ok hlast]
  have hlen : (linesLast ls last).length = es.length + 1 := by
    have := congrArg List.length hmap
    simpa using this
  unfold readTextPar
  rw [h2 (Or.inl rfl) hL32, hmap, hlen, lineEntry_ok hlast, ok_bind]
  unfold mtxOf
  have : (es.map some ++ [some x] ++ List.replicate (L - (es.length + 1)) (some x)).take L =
      (es ++ List.replicate (L - es.length) x).map some := by
    rw [List.take_of_length_le (by simp; omega), List.map_append, List.map_replicate, List.append_assoc]
    congr 1
    rw [show L - es.length = (L - (es.length + 1)) + 1 by omega, List.replicate_succ]
    rfl
  rw [this]

/-- C68: so the pin is stored several times, which sequential reading of the same file does not do. -/
theorem C68_truncated_false :
    let text := "%%MatrixMarket matrix coordinate pattern general\n2 2 4\n1 1\n2 2".toList
    (readText id text "one").map (Option.map (fun H => H.vertices.map (·.nets))) = .ok (some [[0], [1]]) ∧
    (readTextPar id (revDelivery _) (revDelivery _) (blockPart 2) 2 text "one").map
      (Option.map (fun Rs => Rs.map (fun H => H.vertices.map (·.nets)))) = .ok (some [[[0]], [[1, 1, 1]]]) := by
  decide +kernel

theorem word_none {b : List Char} (hb : ∀ c ∈ b, c ∈ whiteSpace) (e : Bool) :
    (word { rest := b, eof := e }).1.fail = true := by
  unfold word skipWs
  cases e with
  | true => rfl
  | false =>
    have : b.dropWhile isSpace = [] := List.dropWhile_eq_nil_iff.2 (fun c hc => (isSpace_iff c).2 (hb c hc))
    simp only [good_mk, if_true, this]
    rfl

theorem word_failed (s : IStream) (h : s.fail = true) : (word s).1.fail = true := by
  have hg : s.good = false := by unfold good; rw [h]; simp
  have hs : s.skipWs = s.failed := by unfold skipWs; rw [hg]; rfl
  have hg' : s.failed.good = false := by unfold failed good; simp
  unfold word
  simp only [hs, hg']
  rfl

theorem word_next {l : List Char} {n : Nat} (h : Words l (n + 1)) :
    ∃ r w, word { rest := l, eof := l.isEmpty } = ({ rest := r, eof := r.isEmpty }, w) ∧ Words r n := by
  cases h with
  | @cons b w r n hb hw hr h =>
    refine ⟨r, some w, ?_, h⟩
    have he : (b ++ (w ++ r)).isEmpty = false := by
      cases b with
      | cons => rfl
      | nil =>
        cases w with
        | cons => rfl
        | nil => exact absurd rfl hw.1
    rw [he]
    have hs : skipWs { rest := b ++ (w ++ r) } = { rest := w ++ r } := by
      obtain ⟨hne, hw⟩ := hw
      cases w with
      | nil => exact absurd rfl hne
      | cons c w =>
        have := takeWhile_all (p := isSpace) (a := b) (t := c :: w ++ r)
          (fun c hc => (isSpace_iff c).2 (hb c hc))
          (by rintro c' r' h; cases h; exact (isSpace_false _).2 (hw c (List.mem_cons_self ..)))
        unfold skipWs
        rw [if_pos (good_mk _)]
        dsimp only
        rw [this.2]
        rfl
    have := takeWhile_all (p := fun c => !isSpace c) (a := w) (t := r)
      (fun c hc => by rw [(isSpace_false c).2 (hw.2 c hc)]; rfl)
      (fun c t h => by rw [(isSpace_iff c).2 (hr c t h)]; rfl)
    unfold word
    simp only [hs]
    rw [if_pos (good_mk _), this.1, this.2]

/-- The state after `i` words of a line with fewer words. -/
theorem words_fail : ∀ {i n : Nat} {l : List Char} {s : IStream}, (s.fail = true ∨
      (s = { rest := l, eof := l.isEmpty } ∧ Words l n)) → n < i →
    ((fun s : IStream => (word s).1)^[i] s).fail = true := by
  intro i
  induction i with
  | zero => intro n l s _ h; omega
  | succ i ih =>
    intro n l s hs hi
    rw [Function.iterate_succ_apply]
    rcases hs with hf | ⟨rfl, hw⟩
    · cases i with
      | zero => exact word_failed s hf
      | succ i => exact ih (n := 0) (l := []) (Or.inl (word_failed s hf)) (by omega)
    · cases n with
      | zero =>
        have hf : (word { rest := l, eof := l.isEmpty }).1.fail = true := by
          cases hw with
          | nil hb => exact word_none hb _
        cases i with
        | zero => exact hf
        | succ i => exact ih (n := 0) (l := []) (Or.inl hf) (by omega)
      | succ n =>
        obtain ⟨r, w, h1, h2⟩ := word_next hw
        rw [h1]
        exact ih (Or.inr ⟨rfl, h2⟩) (by omega)

theorem symmetryWord_none {l : List Char} {n : Nat} (h : Words l n) (hn : n < 5) : symmetryWord l = none := by
  have hf : ((fun s : IStream => (word s).1)^[5] { rest := l }).fail = true := by
    cases l with
    | nil =>
      rw [Function.iterate_succ_apply]
      refine words_fail (n := 0) (l := []) (Or.inl ?_) (by omega)
      exact word_none (by intro c hc; cases hc) false
    | cons c l => exact words_fail (Or.inr ⟨rfl, h⟩) hn
  unfold symmetryWord
  dsimp only
  exact if_pos hf

/-- C68, first part: a first line with fewer than five words is reported by all. -/
theorem C68_partial_header {order : List Nat → List Nat} {d1 d2 : Delivery (Nat × Int)} {parts : Nat → NetPart} {p : Nat}
    {mode : String} {header rest : List Char} {n : Nat} (hh : Words header n) (hn : n < 5) (hl : '\n' ∉ header) :
    readText order (header ++ '\n' :: rest) mode = .ok none ∧
      readTextPar order d1 d2 parts p (header ++ '\n' :: rest) mode = .ok none := by
  have hr : readHead (header ++ '\n' :: rest) = .ok none := by
    unfold readHead
    rw [getline_line hl]
    dsimp only
    rw [symmetryWord_none hh hn]
    rfl
  constructor
  · unfold readText parseSeq
    rw [hr]
    rfl
  · unfold readTextPar parsePar
    rw [hr]
    rfl

/-- When one of the announced lines is no entry, every processor reports it. -/
theorem readPar_none {order : List Nat → List Nat} {d1 d2 : Delivery (Nat × Int)} {np npE : NetPart} {p E V L : Nat}
    (hp : 0 < p) (hv : np.Valid p V) {mode : String} {es : List (Nat × Nat)} {rest : List (Option (Nat × Nat))}
    (hL : (es.map some ++ none :: rest).length = L) (hin : EntriesIn E V es) :
    readPar order d1 d2 np npE p ⟨some "general", E, V, L, es.map some ++ none :: rest⟩ mode = .ok none := by
  have hloc : ∀ r ∈ List.range p, readLocal np ⟨some "general", E, V, L, es.map some ++ none :: rest⟩ mode r =
      .ok none := by
    intro r hr
    have hd : readDataPar np ⟨some "general", E, V, L, es.map some ++ none :: rest⟩ r = .ok none := by
      unfold readDataPar
      dsimp only
      rw [if_pos rfl, firstLines_eq hL]
      have := readLines_generalPar hv (List.mem_range.1 hr) es [] hin L
      have he : parLists np r E [] = ⟨List.replicate (np.count r) [], List.replicate E []⟩ := by
        unfold parLists columnOf rowOf ownedBy
        simp [List.map_const']
      rw [he] at this
      exact readLines_none this _
    unfold readLocal
    rw [hd]
    rfl
  unfold readPar
  rw [mapM_ok (g := fun _ => none) _ hloc, ok_bind]
  obtain ⟨q, rfl⟩ : ∃ q, p = q + 1 := ⟨p - 1, by omega⟩
  rw [List.range_succ_eq_map, List.map_cons]
  rfl

/-- C68, second part: when fewer entries follow than announced and the last one ends with a newline, the processors
report it. -/
theorem C68_partial_missing {order : List Nat → List Nat} {d1 d2 : Delivery (Nat × Int)} {parts : Nat → NetPart} {p : Nat}
    (hp : 0 < p) (hv : ∀ n, (parts n).Valid p n) {mode : String} {header sizes : List Char}
    {comments ls : List (List Char)} {E V L : Nat} {es : List (Nat × Nat)} (hh : HeaderLine header "general".toList)
    (hc : ∀ c ∈ comments, CommentLine c) (hs : SizeLine sizes E V L) (hls : List.Forall₂ EntryLine ls es)
    (hE : E ≤ maxSize) (hV : V ≤ maxSize) (hL : es.length < L) (hL32 : L < 2 ^ 32) (hin : EntriesIn E V es) :
    readTextPar order d1 d2 parts p (linesText (header :: comments ++ [sizes]) ++ linesText ls) mode = .ok none := by
  have hnl := forall2_left (P := fun l => '\n' ∉ l) (fun l x h => entry_newline h) hls
  obtain ⟨-, h2⟩ := parse_lines (ls := ls) (last := []) hh hc hs hE hV hnl List.not_mem_nil
  have hmap : (linesLast ls []).map lineEntry = es.map some := by
    unfold linesLast
    rw [if_pos rfl, List.append_nil, forall2_map_some (fun l x h => lineEntry_ok h) hls]
  have hlen : (linesLast ls []).length = es.length := by
    have := congrArg List.length hmap
    simpa using this
  rw [List.append_nil] at h2
  unfold readTextPar
  rw [h2 (Or.inl rfl) hL32, hmap, hlen, ok_bind]
  have hlines : (es.map some ++ List.replicate (L - es.length) (lineEntry [])).take L =
      es.map some ++ none :: List.replicate (L - es.length - 1) none := by
    rw [List.take_of_length_le (by simp; omega), show L - es.length = (L - es.length - 1) + 1 by omega,
      List.replicate_succ]
    rfl
  rw [hlines]
  exact readPar_none hp (hv V) (by simp; omega) hin

theorem number_blank {b : List Char} (hb : Blank b) (e : Bool) : (number { rest := b, eof := e }).1.fail = true := by
  cases e with
  | true => rfl
  | false =>
    have := takeWhile_all (p := isSpace) (a := b) (t := [])
      (fun c hc => (isSpace_iff c).2 (hb c hc).1) (by rintro c r h; cases h)
    rw [List.append_nil] at this
    have hs : skipWs { rest := b } = { rest := [], eof := true, fail := true } := by
      unfold skipWs
      rw [if_pos (good_mk _)]
      dsimp only
      rw [this.2]
    unfold number
    rw [hs]
    rfl

theorem number_large {b d t : List Char} {n : Nat} (hb : Blank b) (hd : Decimal d n) (hn : 2 ^ 64 ≤ n)
    (ht : ∀ c r, t = c :: r → c ∉ digitChars) : (number { rest := b ++ (d ++ t) }).1.fail = true := by
  obtain ⟨h1, h2, h3⟩ := decimal_facts hd
  obtain ⟨hs, hg⟩ : skipWs { rest := b ++ (d ++ t) } = { rest := d ++ t } ∧ sign (d ++ t) = (false, d ++ t) := by
    cases d with
    | nil => exact absurd rfl h1
    | cons c d =>
      have hc := h2 c (List.mem_cons_self ..)
      exact ⟨skipWs_blank hb (digit_not_space hc), sign_digit hc⟩
  have := takeWhile_all (p := Char.isDigit) (a := d) (t := t) (fun c hc => (isDigit_iff c).2 (h2 c hc))
    (fun c r h => (isDigit_false c).2 (ht c r h))
  unfold number
  rw [hs]
  dsimp only
  rw [if_pos (good_mk _), hg]
  dsimp only
  rw [this.1, h3, if_neg (by simpa using h1), if_pos hn]

theorem number_noNumber {t : List Char} (h : NoNumber t) : (number { rest := t, eof := t.isEmpty }).1.fail = true := by
  rcases h with h | ⟨b, c, r, h1, h2, h3, h4, h5, rfl⟩ | ⟨b, d, n, r, h1, h2, h3, h4, rfl⟩
  · exact number_blank h _
  · rw [show (b ++ c :: r).isEmpty = false by simp, number_bad h1 h2 h3 h4 h5]
  · rw [show (b ++ (d ++ r)).isEmpty = false by simp [(decimal_facts h2).1]]
    exact number_large h1 h2 h3 h4.2

theorem lineEntry_bad {l : List Char} (h : BadLine l) : lineEntry l = none := by
  obtain ⟨-, h | ⟨b, d, n, t, h1, h2, h3, h4, h5, rfl⟩⟩ := h
  · have hn : (number { rest := l }).1.fail = true := by
      rcases List.eq_nil_or_concat l with rfl | ⟨x, y, rfl⟩
      · rfl
      · have := number_noNumber h
        rwa [show (x.concat y).isEmpty = false by simp] at this
    unfold lineEntry
    dsimp only
    rw [number_failed _ hn, if_pos hn]
  · unfold lineEntry
    rw [number_ok h1 h2 h3 h4.2]
    dsimp only
    rw [if_pos (number_noNumber h5)]

/-- C68: a line on which a number is missing is reported by the sequential reader, and by the processors when it is among
the lines that were announced. -/
theorem C68_bad_line {order : List Nat → List Nat} {d1 d2 : Delivery (Nat × Int)} {parts : Nat → NetPart} {p : Nat}
    (hp : 0 < p) (hv : ∀ n, (parts n).Valid p n) {mode : String} {header sizes bad last : List Char}
    {comments ls more : List (List Char)} {E V L : Nat} {es : List (Nat × Nat)} (hh : HeaderLine header "general".toList)
    (hc : ∀ c ∈ comments, CommentLine c) (hs : SizeLine sizes E V L) (hls : List.Forall₂ EntryLine ls es)
    (hbad : BadLine bad) (hmore : ∀ l ∈ more, '\n' ∉ l) (hlast : '\n' ∉ last)
    (hE : E ≤ maxSize) (hV : V ≤ maxSize) (hin : EntriesIn E V es) :
    readText order (linesText (header :: comments ++ [sizes]) ++ (linesText (ls ++ bad :: more) ++ last)) mode =
      .ok none ∧
    (es.length < L → L < 2 ^ 32 →
      readTextPar order d1 d2 parts p
        (linesText (header :: comments ++ [sizes]) ++ (linesText (ls ++ bad :: more) ++ last)) mode = .ok none) := by
  have hnl := forall2_left (P := fun l => '\n' ∉ l) (fun l x h => entry_newline h) hls
  obtain ⟨h1, h2⟩ := parse_lines (ls := ls ++ bad :: more) (last := last) hh hc hs hE hV (by
    intro l hl
    rcases List.mem_append.1 hl with h | h
    · exact hnl l h
    · rcases List.mem_cons.1 h with h | h
      · rw [h]; exact hbad.1
      · exact hmore l h) hlast
  have hmap : (linesLast (ls ++ bad :: more) last).map lineEntry =
      es.map some ++ none :: (linesLast more last).map lineEntry := by
    unfold linesLast
    rw [List.append_assoc, List.map_append, forall2_map_some (fun l x h => lineEntry_ok h) hls, List.cons_append,
      List.map_cons, lineEntry_bad hbad]
  constructor
  · unfold readText
    rw [h1, ok_bind]
    exact (C03_partial order _ mode).2.2.2.1 es hin rfl ⟨_, hmap⟩
  · intro hL hL32
    unfold readTextPar
    rw [h2 (Or.inl rfl) hL32, hmap, ok_bind]
    have hlen := congrArg List.length hmap
    rw [List.length_map] at hlen
    obtain ⟨pad, hpad⟩ : ∃ pad, pad = List.replicate (L - (linesLast (ls ++ bad :: more) last).length) (lineEntry last) :=
      ⟨_, rfl⟩
    rw [← hpad]
    have hpl := congrArg List.length hpad
    rw [List.length_replicate, hlen] at hpl
    obtain ⟨k, hk⟩ : ∃ k, L = es.length + (k + 1) := ⟨L - es.length - 1, by omega⟩
    have hlines : (es.map some ++ none :: (linesLast more last).map lineEntry ++ pad).take L =
        es.map some ++ none :: ((linesLast more last).map lineEntry ++ pad).take k := by
      rw [hk, List.append_assoc, List.take_append, List.length_map, List.take_of_length_le (by simp),
        Nat.add_sub_cancel_left, List.cons_append, List.take_succ_cons]
    dsimp only
    rw [hlines]
    refine readPar_none hp (hv V) ?_ hin
    rw [← hlines, List.length_take, List.length_append]
    omega

example : BadLine "3".toList ∧ BadLine " 3 x 4".toList ∧ BadLine "%".toList := by
  refine ⟨⟨by decide, .inr ⟨[], "3".toList, 3, [], by unfold Blank; decide, .one (i := 3) (by decide), by decide,
    ⟨by decide, by simp⟩, .inl (by unfold Blank; decide), by decide⟩⟩, ⟨by decide, .inr ⟨" ".toList, "3".toList, 3,
    " x 4".toList, by unfold Blank; decide, .one (i := 3) (by decide), by decide, ⟨by decide, ?_⟩,
    .inr (.inl ⟨" ".toList, 'x', " 4".toList, by unfold Blank; decide, by decide, by decide, by decide, by decide,
      by decide⟩), by decide⟩⟩, ⟨by decide, .inl (.inr (.inl ⟨[], '%', [], by unfold Blank; decide, by decide, by decide,
    by decide, by decide, by decide⟩))⟩⟩
  rintro c r h
  cases h
  decide

/-! ### C69 -/

theorem decimal_digits : ∀ n : Nat, 0 < n →
    Decimal ((Nat.digits 10 n).reverse.map (fun d => Char.ofNat (48 + d))) n := by
  have hc : ∀ i (h : i < 10), Char.ofNat (48 + i) = digitChars[i]'h := by
    intro i h
    interval_cases i <;> rfl
  intro n
  induction n using Nat.strong_induction_on with
  | _ n ih =>
    intro hn
    rw [Nat.digits_def' (by decide) hn, List.reverse_cons, List.map_append, List.map_singleton,
      hc (n % 10) (Nat.mod_lt _ (by decide))]
    by_cases h : n / 10 = 0
    · rw [h]
      have hlt : n < 10 := by omega
      have : n % 10 = n := Nat.mod_eq_of_lt hlt
      simp only [this, Nat.digits_zero, List.reverse_nil, List.map_nil, List.nil_append]
      exact .one hlt
    · have := Decimal.snoc (ih (n / 10) (by omega) (by omega)) (Nat.mod_lt n (by decide : 10 > 0))
      rwa [Nat.div_add_mod] at this

theorem decimal_ok (n : Nat) : Decimal (decimal n) n := by
  unfold decimal
  by_cases h : n = 0
  · rw [if_pos h, h]
    exact .one (i := 0) (by decide)
  · rw [if_neg h]
    exact decimal_digits n (by omega)

/-- C69: the characters written by the generator are a Matrix Market file with the entries of C48. -/
theorem C69_written {fuel : Nat} {r : Rng} {n m nz : Nat} {text : List Char}
    (h : createRandomText fuel r n m nz = .ok text) (hm : m < 2 ^ 64) (hn : n < 2 ^ 64) (hnz : nz < 2 ^ 64) :
    ∃ es : List (Nat × Nat), MtxText text "general".toList m n nz es ∧ es.length = nz ∧ es.Nodup ∧ EntriesIn m n es := by
  unfold createRandomText at h
  obtain ⟨s, h1, h2⟩ := bind_eq_ok.1 h
  have ht := (Except.ok.inj h2).symm
  have hw : createRandom fuel r n m nz = .ok ⟨some "general", m, n, nz, s.out.map some⟩ := by
    unfold createRandom
    rw [h1]
    rfl
  obtain ⟨-, -, -, -, es, e1, e2, e3, e4⟩ := C48_written hw
  have hes : s.out = es := List.map_injective_iff.2 (Option.some_injective _) e1
  refine ⟨es, ⟨"%%MatrixMarket matrix coordinate pattern general".toList, [],
    decimal m ++ ' ' :: (decimal n ++ ' ' :: decimal nz),
    es.map (fun e => decimal e.1 ++ ' ' :: decimal e.2), [], ?_, ?_, ?_, ?_, ?_⟩, e2, e3, e4⟩
  · refine ⟨by unfold Word; decide, [], "%%MatrixMarket".toList, [' '], "matrix".toList, [' '], "coordinate".toList, [' '],
      "pattern".toList, [' '], [], by unfold Blank; decide, by unfold Word; decide, by unfold Blank; decide, by decide,
      by unfold Word; decide, by unfold Blank; decide, by decide, by unfold Word; decide, by unfold Blank; decide, by decide,
      by unfold Word; decide, by unfold Blank; decide, by decide, by decide, ?_, by decide⟩
    rintro c r h; cases h
  · intro c hc; cases hc
  · refine ⟨hm, hn, hnz, [], decimal m, [' '], decimal n, [' '], decimal nz, [], by unfold Blank; decide, decimal_ok m,
      by unfold Blank; decide, by decide, decimal_ok n, by unfold Blank; decide, by decide, decimal_ok nz,
      ⟨by decide, ?_⟩, by simp⟩
    rintro c r h; cases h
  · rw [if_pos rfl, List.append_nil, List.forall₂_map_left_iff]
    have : ∀ l : List (Nat × Nat), (∀ e ∈ l, e ∈ es) →
        List.Forall₂ (fun a c => EntryLine (decimal a.1 ++ ' ' :: decimal a.2) c) l l := by
      intro l
      induction l with
      | nil => intro _; exact .nil
      | cons e l ih =>
        intro hl
        refine .cons ?_ (ih (fun x hx => hl x (List.mem_cons_of_mem _ hx)))
        obtain ⟨q1, q2⟩ := e4 e (hl e (List.mem_cons_self ..))
        refine ⟨by omega, by omega, [], decimal e.1, [' '], decimal e.2, [], by unfold Blank; decide, decimal_ok _,
          by unfold Blank; decide, by decide, decimal_ok _, ⟨by decide, ?_⟩, by simp⟩
        rintro c r h; cases h
    exact this es (fun _ h => h)
  · rw [ht, hes, List.append_nil]
    unfold linesText
    rw [List.flatMap_map]
    have : es.flatMap (fun a => (decimal a.1 ++ ' ' :: decimal a.2) ++ ['\n']) = es.flatMap entryText := by
      congr 1
      funext e
      unfold entryText
      simp
    rw [this]
    have hh : "%%MatrixMarket matrix coordinate pattern general\n".toList =
        "%%MatrixMarket matrix coordinate pattern general".toList ++ ['\n'] := by decide
    rw [hh]
    generalize "%%MatrixMarket matrix coordinate pattern general".toList = hd
    simp

/-- C69: written characters are read back, by one processor and by several. -/
theorem C69_read_back {order order' : List Nat → List Nat} (ho : ∀ l, (order l).Perm l)
    (ho' : ∀ l, (order' l).Perm l) {d1 d2 : Delivery (Nat × Int)} (hd1 : Fair d1) (hd2 : Fair d2)
    {parts : Nat → NetPart} {p : Nat} (hv : ∀ n, (parts n).Valid p n) {fuel : Nat} {r : Rng} {n m nz : Nat}
    {text : List Char} (h : createRandomText fuel r n m nz = .ok text) (hm : m ≤ maxSize) (hn : n ≤ maxSize)
    (hnz : nz < 2 ^ 32) {mode : String} {wt : List Nat → Int} (hmode : ModeMeans mode wt) :
    ∃ es H Rs, es.length = nz ∧ es.Nodup ∧ EntriesIn m n es ∧
      readText order text mode = .ok (some H) ∧ SameIncidence es H ∧ H.nrNz = nz ∧ WF H ∧
      readTextPar order' d1 d2 parts p text mode = .ok (some Rs) ∧ PartitionOf m (parts n).owner p H Rs := by
  unfold maxSize at hm hn
  obtain ⟨es, e1, e2, e3, e4⟩ := C69_written h (by omega) (by omega) (by omega)
  obtain ⟨H, h1, -, h3, h4, h5⟩ := C67_read_general ho e1 hm hn e4 hmode
  obtain ⟨H', Rs, g1, g2, g3⟩ := C67_read_distributed ho ho' hd1 hd2 hv e1 hm hn e2.symm hnz e4 e3 hmode
  rw [h1] at g1
  cases g1
  exact ⟨es, H, Rs, e2, e3, e4, h1, h3, h4, h5 e3, g2, g3⟩

example : (createRandomText 10 id 3 2 3).map String.ofList =
    .ok "%%MatrixMarket matrix coordinate pattern general\n2 3 3\n1 2\n1 1\n1 3\n" := by decide +kernel

end PMondriaan

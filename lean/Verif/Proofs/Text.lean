import Verif.Model.Text
import Verif.Spec.Text
import Mathlib.Tactic.IntervalCases

/-
The stream operations on well-formed text.
-/

namespace PMondriaan

open Spec IStream

theorem good_mk (r : List Char) : ({ rest := r } : IStream).good = true := rfl

theorem isSpace_iff (c : Char) : isSpace c = true ↔ c ∈ whiteSpace := by
  unfold isSpace whiteSpace
  simp [or_assoc]

theorem isSpace_false (c : Char) : isSpace c = false ↔ c ∉ whiteSpace := by
  rw [← isSpace_iff, Bool.not_eq_true]

theorem isDigit_iff (c : Char) : c.isDigit = true ↔ c ∈ digitChars := by
  constructor
  · intro h
    have h1 : 48 ≤ c.val.toNat ∧ c.val.toNat ≤ 57 := by
      unfold Char.isDigit at h
      simp only [ge_iff_le, Bool.and_eq_true, decide_eq_true_eq] at h
      exact ⟨h.1, h.2⟩
    have h2 : c = Char.ofNat c.toNat := (Char.ofNat_toNat c).symm
    have h3 : c.toNat = c.val.toNat := rfl
    rw [h3] at h2
    generalize c.val.toNat = n at h1 h2
    obtain ⟨h4, h5⟩ := h1
    interval_cases n <;> (rw [h2]; decide)
  · intro h
    unfold digitChars at h
    simp only [List.mem_cons, List.not_mem_nil, or_false] at h
    rcases h with h | h | h | h | h | h | h | h | h | h <;> subst h <;> decide

theorem isDigit_false (c : Char) : c.isDigit = false ↔ c ∉ digitChars := by
  rw [← isDigit_iff, Bool.not_eq_true]

theorem digit_not_space {c : Char} (h : c ∈ digitChars) : c ∉ whiteSpace := by
  unfold digitChars at h
  simp only [List.mem_cons, List.not_mem_nil, or_false] at h
  rcases h with h | h | h | h | h | h | h | h | h | h <;> subst h <;> decide

theorem takeWhile_all {p : Char → Bool} {a t : List Char} (ha : ∀ c ∈ a, p c = true)
    (ht : ∀ c r, t = c :: r → p c = false) : (a ++ t).takeWhile p = a ∧ (a ++ t).dropWhile p = t := by
  rw [List.takeWhile_append_of_pos ha, List.dropWhile_append_of_pos ha]
  cases t with
  | nil => simp
  | cons c r =>
    have := ht c r rfl
    rw [List.takeWhile_cons_of_neg (by simp [this]), List.dropWhile_cons_of_neg (by simp [this])]
    simp

theorem getline_line {l r : List Char} (hl : '\n' ∉ l) (x : List Char) :
    getline { rest := l ++ '\n' :: r } x = ({ rest := r }, l) := by
  have := takeWhile_all (p := fun c => c ≠ '\n') (a := l) (t := '\n' :: r)
    (by intro c hc; simp; rintro rfl; exact hl hc) (by rintro c r' h; cases h; simp)
  unfold getline
  rw [if_pos (good_mk _)]
  dsimp only
  rw [this.2, this.1]

theorem getline_last {l : List Char} (hl : '\n' ∉ l) (hne : l ≠ []) (x : List Char) :
    getline { rest := l } x = ({ rest := [], eof := true }, l) := by
  have := takeWhile_all (p := fun c => c ≠ '\n') (a := l) (t := [])
    (by intro c hc; simp; rintro rfl; exact hl hc) (by rintro c r' h; cases h)
  rw [List.append_nil] at this
  unfold getline
  rw [if_pos (good_mk _)]
  dsimp only
  rw [this.2]
  cases l with
  | nil => exact absurd rfl hne
  | cons a l => rfl

theorem getline_end (x : List Char) : getline { rest := [] } x = ({ rest := [], eof := true, fail := true }, []) := rfl

theorem getline_eof (r : List Char) (f : Bool) (x : List Char) :
    getline { rest := r, eof := true, fail := f } x = ({ rest := r, eof := true, fail := true }, x) := rfl

theorem skipWs_blank {b r : List Char} {c : Char} (hb : Blank b) (hc : c ∉ whiteSpace) :
    skipWs { rest := b ++ c :: r } = { rest := c :: r } := by
  have := takeWhile_all (p := isSpace) (a := b) (t := c :: r)
    (fun c hc => (isSpace_iff c).2 (hb c hc).1) (by rintro c' r' h; cases h; exact (isSpace_false _).2 hc)
  unfold skipWs
  rw [if_pos (good_mk _)]
  dsimp only
  rw [this.2]

theorem word_ok {b w t : List Char} (hb : Blank b) (hw : Word w) (ht : ∀ c r, t = c :: r → c ∈ whiteSpace) :
    word { rest := b ++ (w ++ t) } = ({ rest := t, eof := t.isEmpty }, some w) := by
  have hs : skipWs { rest := b ++ (w ++ t) } = { rest := w ++ t } := by
    obtain ⟨hne, hw⟩ := hw
    cases w with
    | nil => exact absurd rfl hne
    | cons c w => exact skipWs_blank hb (hw c (List.mem_cons_self ..))
  have := takeWhile_all (p := fun c => !isSpace c) (a := w) (t := t)
    (fun c hc => by rw [(isSpace_false c).2 (hw.2 c hc)]; rfl)
    (fun c r h => by rw [(isSpace_iff c).2 (ht c r h)]; rfl)
  unfold word
  simp only [hs]
  rw [if_pos (good_mk _), this.1, this.2]

theorem digitsValue_snoc (d : List Char) (c : Char) : digitsValue (d ++ [c]) = 10 * digitsValue d + (c.toNat - 48) := by
  unfold digitsValue
  rw [List.foldl_append]
  rfl

theorem decimal_facts {d : List Char} {n : Nat} (h : Decimal d n) :
    d ≠ [] ∧ (∀ c ∈ d, c ∈ digitChars) ∧ digitsValue d = n := by
  have hi : ∀ {i : Nat} (h : i < 10), (digitChars[i]'h).toNat - 48 = i := by
    intro i h
    interval_cases i <;> rfl
  induction h with
  | one h =>
    refine ⟨List.cons_ne_nil _ _, ?_, ?_⟩
    · intro c hc
      rw [List.mem_singleton] at hc
      rw [hc]
      exact List.getElem_mem _
    · rw [← List.nil_append [_], digitsValue_snoc, hi]
      show 10 * 0 + _ = _
      omega
  | snoc hd h ih =>
    refine ⟨by simp, ?_, ?_⟩
    · intro c hc
      rcases List.mem_append.1 hc with hc | hc
      · exact ih.2.1 c hc
      · rw [List.mem_singleton] at hc
        rw [hc]
        exact List.getElem_mem _
    · rw [digitsValue_snoc, ih.2.2, hi]

theorem sign_digit {c : Char} {r : List Char} (h : c ∈ digitChars) : sign (c :: r) = (false, c :: r) := by
  unfold digitChars at h
  simp only [List.mem_cons, List.not_mem_nil, or_false] at h
  rcases h with h | h | h | h | h | h | h | h | h | h <;> subst h <;> rfl

theorem number_ok {b d t : List Char} {n : Nat} (hb : Blank b) (hd : Decimal d n) (hn : n < 2 ^ 64)
    (ht : ∀ c r, t = c :: r → c ∉ digitChars) :
    number { rest := b ++ (d ++ t) } = ({ rest := t, eof := t.isEmpty }, some n) := by
  obtain ⟨h1, h2, h3⟩ := decimal_facts hd
  obtain ⟨hs, hg⟩ : skipWs { rest := b ++ (d ++ t) } = { rest := d ++ t } ∧ sign (d ++ t) = (false, d ++ t) := by
    cases d with
    | nil => exact absurd rfl h1
    | cons c d =>
      have hc := h2 c (List.mem_cons_self ..)
      exact ⟨skipWs_blank hb (digit_not_space hc), sign_digit hc⟩
  have := takeWhile_all (p := Char.isDigit) (a := d) (t := t) (fun c hc => (isDigit_iff c).2 (h2 c hc))
    (fun c r h => (isDigit_false c).2 (ht c r h))
  unfold number
  simp only [hs]
  rw [if_pos (good_mk _)]
  simp only [hg, this.1, this.2]
  rw [if_neg (by simpa using h1), if_neg (by omega), h3]
  rfl

theorem blank_nondigit {b : List Char} (hb : Blank b) (hne : b ≠ []) (r : List Char) :
    (∀ c r', b ++ r = c :: r' → c ∉ digitChars) ∧ (b ++ r).isEmpty = false ∧
    (∀ c r', b ++ r = c :: r' → c ∈ whiteSpace) := by
  cases b with
  | nil => exact absurd rfl hne
  | cons x b =>
    have hx := (hb x (List.mem_cons_self ..)).1
    refine ⟨?_, rfl, ?_⟩
    · rintro c r' h
      cases h
      exact fun h => digit_not_space h hx
    · rintro c r' h
      cases h
      exact hx

theorem lineEntry_ok {l : List Char} {x : Nat × Nat} (h : EntryLine l x) : lineEntry l = some x := by
  obtain ⟨h1, h2, b0, d1, b1, d2, t, hb0, hd1, hb1, hne, hd2, ht, rfl⟩ := h
  obtain ⟨e1, e2, -⟩ := blank_nondigit hb1 hne (d2 ++ t)
  unfold lineEntry
  simp only [number_ok hb0 hd1 h1 e1]
  rw [e2]
  simp only [number_ok hb1 hd2 h2 ht.2]
  rfl

theorem symmetryWord_ok {l sym : List Char} (h : HeaderLine l sym) : symmetryWord l = some sym := by
  obtain ⟨hs, b0, w0, b1, w1, b2, w2, b3, w3, b4, t, hb0, hw0, hb1, n1, hw1, hb2, n2, hw2, hb3, n3, hw3, hb4, n4, -, ht,
    rfl⟩ := h
  unfold symmetryWord
  simp only [word_ok hb0 hw0 (blank_nondigit hb1 n1 _).2.2]
  rw [(blank_nondigit hb1 n1 _).2.1]
  simp only [word_ok hb1 hw1 (blank_nondigit hb2 n2 _).2.2]
  rw [(blank_nondigit hb2 n2 _).2.1]
  simp only [word_ok hb2 hw2 (blank_nondigit hb3 n3 _).2.2]
  rw [(blank_nondigit hb3 n3 _).2.1]
  simp only [word_ok hb3 hw3 (blank_nondigit hb4 n4 _).2.2]
  rw [(blank_nondigit hb4 n4 _).2.1]
  simp only [word_ok hb4 hs ht]
  rfl

theorem blank_newline {b : List Char} (hb : Blank b) : '\n' ∉ b := fun h => (hb _ h).2 rfl

theorem word_newline {w : List Char} (hw : Word w) : '\n' ∉ w := fun h => hw.2 _ h (by decide)

theorem decimal_newline {d : List Char} {n : Nat} (hd : Decimal d n) : '\n' ∉ d :=
  fun h => absurd ((decimal_facts hd).2.1 _ h) (by decide)

theorem header_newline {l sym : List Char} (h : HeaderLine l sym) : '\n' ∉ l := by
  obtain ⟨hs, b0, w0, b1, w1, b2, w2, b3, w3, b4, t, hb0, hw0, hb1, n1, hw1, hb2, n2, hw2, hb3, n3, hw3, hb4, n4, hn, ht,
    rfl⟩ := h
  simp only [List.mem_append, not_or]
  exact ⟨blank_newline hb0, word_newline hw0, blank_newline hb1, word_newline hw1, blank_newline hb2, word_newline hw2,
    blank_newline hb3, word_newline hw3, blank_newline hb4, word_newline hs, hn⟩

theorem entry_newline {l : List Char} {x : Nat × Nat} (h : EntryLine l x) : '\n' ∉ l := by
  obtain ⟨h1, h2, b0, d1, b1, d2, t, hb0, hd1, hb1, hne, hd2, ht, rfl⟩ := h
  simp only [List.mem_append, not_or]
  exact ⟨blank_newline hb0, decimal_newline hd1, blank_newline hb1, decimal_newline hd2, ht.1⟩

theorem linesText_cons (l : List Char) (ls : List (List Char)) (r : List Char) :
    linesText (l :: ls) ++ r = l ++ '\n' :: (linesText ls ++ r) := by
  unfold linesText
  rw [List.flatMap_cons, List.append_assoc, List.append_assoc]
  rfl

theorem ignoreChars_line : ∀ {n : Nat} {l r : List Char}, '\n' ∉ l → l.length < n →
    ignoreChars n (l ++ '\n' :: r) = { rest := r } := by
  intro n
  induction n with
  | zero => intro l r _ h; omega
  | succ n ih =>
    intro l r hl h
    cases l with
    | nil => rfl
    | cons c l =>
      rw [List.cons_append, ignoreChars, if_neg (by rintro rfl; exact hl (List.mem_cons_self ..)),
        ih (fun h => hl (List.mem_cons_of_mem _ h)) (by simpa using h)]

theorem skipComments_ok {r : List Char} {c : Char} (hc : c ≠ '%') : ∀ {cs : List (List Char)} {fuel : Nat},
    (∀ x ∈ cs, CommentLine x) → cs.length < fuel →
    skipComments fuel { rest := linesText cs ++ c :: r } = .ok { rest := c :: r } := by
  intro cs
  induction cs with
  | nil =>
    intro fuel _ hf
    obtain ⟨n, rfl⟩ : ∃ n, fuel = n + 1 := ⟨fuel - 1, by simp at hf; omega⟩
    unfold skipComments
    rw [if_pos (good_mk _)]
    show (if c = '%' then _ else _) = _
    rw [if_neg hc]
    rfl
  | cons l cs ih =>
    intro fuel hcs hf
    obtain ⟨n, rfl⟩ : ∃ n, fuel = n + 1 := ⟨fuel - 1, by simp at hf; omega⟩
    obtain ⟨h1, h2, l', rfl⟩ := hcs l (List.mem_cons_self ..)
    rw [linesText_cons]
    unfold skipComments
    rw [if_pos (good_mk _)]
    show (if '%' = '%' then _ else _) = _
    rw [if_pos rfl, ignoreChars_line h1 h2]
    exact ih (fun x hx => hcs x (List.mem_cons_of_mem _ hx)) (by simp at hf; omega)

theorem linesText_length (ls : List (List Char)) : ls.length ≤ (linesText ls).length := by
  induction ls with
  | nil => simp
  | cons l ls ih =>
    have := congrArg List.length (linesText_cons l ls [])
    simp only [List.append_nil, List.length_append, List.length_cons] at this
    rw [List.length_cons, this]
    omega

theorem linesText_append (a b : List (List Char)) : linesText (a ++ b) = linesText a ++ linesText b := by
  unfold linesText
  rw [List.flatMap_append]

theorem head_ne_percent {b d r : List Char} {n : Nat} (hb : Blank b) (hd : Decimal d n) :
    ∃ c r', b ++ (d ++ r) = c :: r' ∧ c ≠ '%' := by
  cases b with
  | nil =>
    obtain ⟨h1, h2, -⟩ := decimal_facts hd
    cases d with
    | nil => exact absurd rfl h1
    | cons c d =>
      refine ⟨c, _, rfl, ?_⟩
      rintro rfl
      exact absurd (h2 _ (List.mem_cons_self ..)) (by decide)
  | cons c b =>
    refine ⟨c, _, rfl, ?_⟩
    rintro rfl
    exact absurd (hb _ (List.mem_cons_self ..)).1 (by decide)

/-- Everything before the entries. -/
theorem readHead_ok {header sym sizes body : List Char} {comments : List (List Char)} {E V L : Nat}
    (hh : HeaderLine header sym) (hc : ∀ c ∈ comments, CommentLine c) (hs : SizeLine sizes E V L) :
    ∃ t, readHead (linesText (header :: comments ++ [sizes]) ++ body) =
      .ok (some ⟨sym, some E, some V, some L, { rest := body }, t⟩) := by
  obtain ⟨hE, hV, hL, b0, d0, b1, d1, b2, d2, t, hb0, hd0, hb1, n1, hd1, hb2, n2, hd2, ht, rfl⟩ := hs
  obtain ⟨sz, hsz⟩ : ∃ sz, sz = b0 ++ (d0 ++ (b1 ++ (d1 ++ (b2 ++ (d2 ++ (t ++ '\n' :: body)))))) := ⟨_, rfl⟩
  have htext : linesText (header :: comments ++ [b0 ++ (d0 ++ (b1 ++ (d1 ++ (b2 ++ (d2 ++ t)))))]) ++ body =
      header ++ '\n' :: (linesText comments ++ sz) := by
    rw [List.cons_append, linesText_cons, linesText_append, List.append_assoc, linesText_cons, hsz]
    simp only [List.append_assoc]
    rfl
  rw [htext]
  have hsk : skipComments ((header ++ '\n' :: (linesText comments ++ sz)).length + 1)
      { rest := linesText comments ++ sz } = .ok { rest := sz } := by
    obtain ⟨c, r', h1, h2⟩ := head_ne_percent (r := b1 ++ (d1 ++ (b2 ++ (d2 ++ (t ++ '\n' :: body))))) hb0 hd0
    rw [← hsz] at h1
    rw [h1]
    apply skipComments_ok h2 hc
    have := linesText_length comments
    simp only [List.length_append, List.length_cons]
    omega
  have htn : ∀ c r, t ++ '\n' :: body = c :: r → c ∉ digitChars := by
    cases t with
    | nil => rintro c r h; cases h; decide
    | cons x t => rintro c r h; cases h; exact ht.2 _ _ rfl
  have hte : (t ++ '\n' :: body).isEmpty = false := by cases t <;> rfl
  refine ⟨t, ?_⟩
  unfold readHead
  rw [getline_line (header_newline hh)]
  dsimp only
  rw [symmetryWord_ok hh]
  dsimp only
  rw [hsk, ok_bind, hsz]
  simp only [number_ok hb0 hd0 hE (blank_nondigit hb1 n1 _).1]
  rw [(blank_nondigit hb1 n1 _).2.1]
  simp only [number_ok hb1 hd1 hV (blank_nondigit hb2 n2 _).1]
  rw [(blank_nondigit hb2 n2 _).2.1]
  simp only [number_ok hb2 hd2 hL htn]
  rw [hte, getline_line ht.1]
  rfl

/-- The lines of a text whose last line need not end with a newline. -/
def linesLast (ls : List (List Char)) (last : List Char) : List (List Char) :=
  ls ++ if last = [] then [] else [last]

theorem allLines_ok {last : List Char} (hlast : '\n' ∉ last) : ∀ {ls : List (List Char)} {fuel : Nat} {line : List Char},
    (∀ l ∈ ls, '\n' ∉ l) → ls.length < fuel →
    allLines fuel { rest := linesText ls ++ last } line = (linesLast ls last).map lineEntry := by
  intro ls
  induction ls with
  | nil =>
    intro fuel line _ hf
    obtain ⟨n, rfl⟩ : ∃ n, fuel = n + 1 := ⟨fuel - 1, by simp at hf; omega⟩
    show allLines (n + 1) { rest := last } line = _
    unfold allLines linesLast
    by_cases h : last = []
    · subst h
      rw [getline_end]
      rfl
    · rw [getline_last hlast h, if_neg h]
      cases n <;> rfl
  | cons l ls ih =>
    intro fuel line hl hf
    obtain ⟨n, rfl⟩ : ∃ n, fuel = n + 1 := ⟨fuel - 1, by simp at hf; omega⟩
    rw [linesText_cons]
    unfold allLines
    rw [getline_line (hl l (List.mem_cons_self ..))]
    dsimp only
    rw [if_neg (by simp), ih (fun x hx => hl x (List.mem_cons_of_mem _ hx)) (by simp at hf; omega)]
    rfl

/-- With as many rounds as lines, or more: what is read beyond the last line. -/
theorem nextLines_ok {last : List Char} (hlast : '\n' ∉ last) : ∀ {ls : List (List Char)} {n : Nat} {line : List Char},
    (∀ l ∈ ls, '\n' ∉ l) →
    nextLines n { rest := linesText ls ++ last } line =
      ((linesLast ls last).map lineEntry ++ List.replicate (n - (linesLast ls last).length) (lineEntry last)).take n := by
  have hrep : ∀ (n : Nat) (f : Bool) (line : List Char),
      nextLines n { rest := [], eof := true, fail := f } line = List.replicate n (lineEntry line) := by
    intro n
    induction n with
    | zero => intros; rfl
    | succ n ih =>
      intro f line
      unfold nextLines
      rw [getline_eof]
      dsimp only
      rw [ih]
      rfl
  intro ls
  induction ls with
  | nil =>
    intro n line _
    show nextLines n { rest := last } line = _
    cases n with
    | zero => simp [nextLines]
    | succ n =>
      unfold nextLines linesLast
      by_cases h : last = []
      · subst h
        rw [getline_end]
        dsimp only
        rw [hrep]
        simp [List.replicate_succ]
      · rw [getline_last hlast h, if_neg h]
        dsimp only
        rw [hrep]
        simp
  | cons l ls ih =>
    intro n line hl
    cases n with
    | zero => simp [nextLines]
    | succ n =>
      rw [linesText_cons]
      unfold nextLines
      rw [getline_line (hl l (List.mem_cons_self ..))]
      dsimp only
      rw [ih (fun x hx => hl x (List.mem_cons_of_mem _ hx))]
      have : linesLast (l :: ls) last = l :: linesLast ls last := rfl
      rw [this, List.map_cons, List.length_cons, List.cons_append, List.take_succ_cons, Nat.add_sub_add_right]

theorem forall2_map_some {α β : Type} {R : α → β → Prop} {f : α → Option β} (h : ∀ a b, R a b → f a = some b) :
    ∀ {l : List α} {r : List β}, List.Forall₂ R l r → l.map f = r.map some := by
  intro l r hf
  induction hf with
  | nil => rfl
  | cons hab _ ih => rw [List.map_cons, List.map_cons, ih, h _ _ hab]

theorem forall2_left {α β : Type} {R : α → β → Prop} {P : α → Prop} (h : ∀ a b, R a b → P a) :
    ∀ {l : List α} {r : List β}, List.Forall₂ R l r → ∀ a ∈ l, P a := by
  intro l r hf
  induction hf with
  | nil => intro a ha; cases ha
  | cons hab _ ih =>
    intro a ha
    rcases List.mem_cons.1 ha with rfl | ha
    · exact h _ _ hab
    · exact ih a ha

theorem vectorSize_ok {n : Nat} (h : n ≤ 384307168202282325) : vectorSize (some n) = .ok n := by
  unfold vectorSize initialised
  rw [ok_bind, if_neg (by omega)]
  rfl

end PMondriaan

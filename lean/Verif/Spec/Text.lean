import Mathlib.Data.List.Basic
import Mathlib.Data.List.TakeWhile

/-
What a Matrix Market file looks like, character by character.
-/

namespace PMondriaan.Spec

/-- White space, of which the newline separates lines. -/
def whiteSpace : List Char := [' ', '\t', '\n', '\x0b', '\x0c', '\r']

/-- A sequence of white space within a line. -/
def Blank (b : List Char) : Prop := ∀ c ∈ b, c ∈ whiteSpace ∧ c ≠ '\n'

/-- A word: no white space. -/
def Word (w : List Char) : Prop := w ≠ [] ∧ ∀ c ∈ w, c ∉ whiteSpace

/-- The decimal digits. -/
def digitChars : List Char := ['0', '1', '2', '3', '4', '5', '6', '7', '8', '9']

/-- `d` is a decimal notation of `n` (leading zeros are allowed). -/
inductive Decimal : List Char → Nat → Prop
  | one {i : Nat} (h : i < 10) : Decimal [digitChars[i]'h] i
  | snoc {d : List Char} {n i : Nat} (hd : Decimal d n) (h : i < 10) : Decimal (d ++ [digitChars[i]'h]) (10 * n + i)

/-- What follows a number on a line: nothing, or something that does not begin with a digit. -/
def AfterNumber (t : List Char) : Prop := '\n' ∉ t ∧ ∀ c r, t = c :: r → c ∉ digitChars

/-- A line with a matrix entry: two numbers below `2^64`, and anything behind (a value for instance). -/
def EntryLine (l : List Char) (x : Nat × Nat) : Prop :=
  x.1 < 2 ^ 64 ∧ x.2 < 2 ^ 64 ∧ ∃ b0 d1 b1 d2 t, Blank b0 ∧ Decimal d1 x.1 ∧ Blank b1 ∧ b1 ≠ [] ∧ Decimal d2 x.2 ∧
    AfterNumber t ∧ l = b0 ++ (d1 ++ (b1 ++ (d2 ++ t)))

/-- Where a number should be: nothing but white space, a character that cannot begin a number, or a number of more than
64 bits. -/
def NoNumber (t : List Char) : Prop :=
  Blank t ∨
  (∃ b c r, Blank b ∧ c ∉ whiteSpace ∧ c ∉ digitChars ∧ c ≠ '+' ∧ c ≠ '-' ∧ t = b ++ c :: r) ∨
  ∃ b d n r, Blank b ∧ Decimal d n ∧ 2 ^ 64 ≤ n ∧ AfterNumber r ∧ t = b ++ (d ++ r)

/-- A line on which the first or the second number is missing. -/
def BadLine (l : List Char) : Prop :=
  '\n' ∉ l ∧ (NoNumber l ∨ ∃ b d n t, Blank b ∧ Decimal d n ∧ n < 2 ^ 64 ∧ AfterNumber t ∧ NoNumber t ∧ l = b ++ (d ++ t))

/-- The line with the sizes: three numbers below `2^64`. -/
def SizeLine (l : List Char) (E V L : Nat) : Prop :=
  E < 2 ^ 64 ∧ V < 2 ^ 64 ∧ L < 2 ^ 64 ∧ ∃ b0 d0 b1 d1 b2 d2 t, Blank b0 ∧ Decimal d0 E ∧ Blank b1 ∧ b1 ≠ [] ∧
    Decimal d1 V ∧ Blank b2 ∧ b2 ≠ [] ∧ Decimal d2 L ∧ AfterNumber t ∧
    l = b0 ++ (d0 ++ (b1 ++ (d1 ++ (b2 ++ (d2 ++ t)))))

/-- The first line: at least five words, the fifth is the symmetry. -/
def HeaderLine (l sym : List Char) : Prop :=
  Word sym ∧ ∃ b0 w0 b1 w1 b2 w2 b3 w3 b4 t, Blank b0 ∧ Word w0 ∧ Blank b1 ∧ b1 ≠ [] ∧ Word w1 ∧ Blank b2 ∧ b2 ≠ [] ∧
    Word w2 ∧ Blank b3 ∧ b3 ≠ [] ∧ Word w3 ∧ Blank b4 ∧ b4 ≠ [] ∧ '\n' ∉ t ∧ (∀ c r, t = c :: r → c ∈ whiteSpace) ∧
    l = b0 ++ (w0 ++ (b1 ++ (w1 ++ (b2 ++ (w2 ++ (b3 ++ (w3 ++ (b4 ++ (sym ++ t)))))))))

/-- The number of words of a line. -/
inductive Words : List Char → Nat → Prop
  | nil {b : List Char} (hb : ∀ c ∈ b, c ∈ whiteSpace) : Words b 0
  | cons {b w r : List Char} {n : Nat} (hb : ∀ c ∈ b, c ∈ whiteSpace) (hw : Word w)
      (hr : ∀ c t, r = c :: t → c ∈ whiteSpace) (h : Words r n) : Words (b ++ (w ++ r)) (n + 1)

/-- A line of comment, of at most 2047 characters. -/
def CommentLine (l : List Char) : Prop := '\n' ∉ l ∧ l.length < 2048 ∧ ∃ r, l = '%' :: r

/-- The lines, each with its newline. -/
def linesText (ls : List (List Char)) : List Char := ls.flatMap (fun l => l ++ ['\n'])

/-- A Matrix Market file: header, comments, sizes, one line for each entry. `last` is a last line without newline. -/
structure MtxText (text sym : List Char) (E V L : Nat) (es : List (Nat × Nat)) : Prop where
  parts : ∃ header comments sizes ls last,
    HeaderLine header sym ∧ (∀ c ∈ comments, CommentLine c) ∧ SizeLine sizes E V L ∧
    List.Forall₂ EntryLine (ls ++ if last = [] then [] else [last]) es ∧
    text = linesText (header :: comments ++ [sizes]) ++ (linesText ls ++ last)

end PMondriaan.Spec

import Verif.Model.Reader
import Verif.Model.Writer
import Mathlib.Data.Nat.Digits.Defs

/-
The characters of the files: the stream operations used by src/hypergraph/readhypergraph.cpp and
src/util/random_hypergraph.cpp. A stream is the list of characters left and the two state bits; `badbit` (a failure
of the device) is not modelled. The locale is "C".
-/

namespace PMondriaan

/-- A `std::istream` or `std::istringstream`. -/
structure IStream where
  rest : List Char
  eof : Bool := false
  fail : Bool := false
deriving DecidableEq, Repr

/-- `isspace`. -/
def isSpace (c : Char) : Bool :=
  c = ' ' || c = '\t' || c = '\n' || c = '\x0b' || c = '\x0c' || c = '\r'

/-- The value of a sequence of decimal digits. -/
def digitsValue (d : List Char) : Nat := d.foldl (fun a c => 10 * a + (c.toNat - 48)) 0

namespace IStream

/-- `good()`. -/
def good (s : IStream) : Bool := !s.eof && !s.fail

/-- `setstate(failbit)`. -/
def failed (s : IStream) : IStream := { s with fail := true }

/-- `std::getline(s, line)`: when the stream is not good, `line` is left as it is; otherwise the characters up to the
next newline, which is taken from the stream as well. Taking nothing at all is a failure. -/
def getline (s : IStream) (line : List Char) : IStream × List Char :=
  if s.good then
    match s.rest.dropWhile (fun c => c ≠ '\n') with
    | [] => ({ rest := [], eof := true, fail := s.rest.isEmpty }, s.rest)
    | _ :: r => ({ rest := r }, s.rest.takeWhile (fun c => c ≠ '\n'))
  else (s.failed, line)

/-- The sentry of `operator>>`: white space is skipped, reaching the end is a failure. -/
def skipWs (s : IStream) : IStream :=
  if s.good then
    match s.rest.dropWhile isSpace with
    | [] => { rest := [], eof := true, fail := true }
    | c :: r => { rest := c :: r }
  else s.failed

/-- `s >> word`; `none` when the string is not written. -/
def word (s : IStream) : IStream × Option (List Char) :=
  let s := s.skipWs
  if s.good then
    let r := s.rest.dropWhile (fun c => !isSpace c)
    ({ rest := r, eof := r.isEmpty }, some (s.rest.takeWhile (fun c => !isSpace c)))
  else (s, none)

/-- The optional sign. -/
def sign : List Char → Bool × List Char
  | '-' :: r => (true, r)
  | '+' :: r => (false, r)
  | r => (false, r)

/-- `s >> n` for an unsigned integer of 64 bits; `none` when the variable is not written. Without digits the variable
becomes 0, a number that is too large becomes the largest one, both with a failure. A negative number is taken
modulo 2^64. -/
def number (s : IStream) : IStream × Option Nat :=
  let s := s.skipWs
  if s.good then
    let x := sign s.rest
    let d := x.2.takeWhile Char.isDigit
    let r := x.2.dropWhile Char.isDigit
    if d.isEmpty then ({ rest := r, eof := r.isEmpty, fail := true }, some 0)
    else if 2 ^ 64 ≤ digitsValue d then ({ rest := r, eof := r.isEmpty, fail := true }, some (2 ^ 64 - 1))
    else ({ rest := r, eof := r.isEmpty }, some (if x.1 then (2 ^ 64 - digitsValue d) % 2 ^ 64 else digitsValue d))
  else (s, none)

/-- `s.ignore(n, '\n')` on the characters left: at most `n` characters, the last one may be a newline. -/
def ignoreChars : Nat → List Char → IStream
  | 0, r => { rest := r }
  | _ + 1, [] => { rest := [], eof := true }
  | n + 1, c :: r => if c = '\n' then { rest := r } else ignoreChars n r

/-- readhypergraph.cpp:38-40 and 133-135: the loop `while (fin.peek() == '%') fin.ignore(2048, '\n')`. `peek` on a stream
that is not good is a failure, at the end it sets `eof`. -/
def skipComments : Nat → IStream → Res IStream
  | 0, _ => .error .fuel
  | fuel + 1, s =>
    if s.good then
      match s.rest with
      | [] => .ok { s with eof := true }
      | c :: _ => if c = '%' then skipComments fuel (ignoreChars 2048 s.rest) else .ok s
    else .ok s.failed

end IStream

open IStream

/-- readhypergraph.cpp:32-35 and 127-130: five words from the first line, the last one is the symmetry. -/
def symmetryWord (line : List Char) : Option (List Char) :=
  let a := IStream.word { rest := line }
  let b := a.1.word
  let c := b.1.word
  let d := c.1.word
  let e := d.1.word
  if e.1.fail then none else e.2

/-- readhypergraph.cpp:56-60: two numbers from a line, `none` for a failure. -/
def lineEntry (line : List Char) : Option (Nat × Nat) :=
  let a := IStream.number { rest := line }
  let b := a.1.number
  if b.1.fail then none else some (a.2.getD 0, b.2.getD 0)

/-- What is known before the entries are read: the symmetry, the three sizes (`none` is an indeterminate value) and the
stream. -/
structure Head where
  sym : List Char
  E : Option Nat
  V : Option Nat
  L : Option Nat
  s : IStream
  line : List Char
deriving DecidableEq, Repr

/-- readhypergraph.cpp:27-51 and 122-147 (without the lists): `none` is `std::nullopt`. -/
def readHead (text : List Char) : Res (Option Head) := do
  let a := IStream.getline { rest := text } []
  match symmetryWord a.2 with
  | none => pure none
  | some sym => do
    let s ← skipComments (text.length + 1) a.1
    let e := s.number
    let v := e.1.number
    let l := v.1.number
    let g := l.1.getline a.2
    pure (some ⟨sym, e.2, v.2, l.2, g.1, g.2⟩)

/-- The use of a variable: undefined behaviour when it has not been written. -/
def initialised : Option Nat → Res Nat
  | none => .error .ub
  | some n => .ok n

/-- `std::vector<std::vector<long>>(n)`: `std::length_error` for more than `max_size()` elements. -/
def vectorSize (x : Option Nat) : Res Nat := do
  let n ← initialised x
  if 384307168202282325 < n then .error .throw else pure n

/-- readhypergraph.cpp:55-60 and 66-72: `while (std::getline(fin, line))` with the two numbers of each line. -/
def allLines : Nat → IStream → List Char → List (Option (Nat × Nat))
  | 0, _, _ => []
  | fuel + 1, s, line =>
    let g := s.getline line
    if g.1.fail then [] else lineEntry g.2 :: allLines fuel g.1 g.2

/-- readhypergraph.cpp:149-156 and 166-173: the lines taken by `n` rounds of the loop; the result of `getline` is not
checked. -/
def nextLines : Nat → IStream → List Char → List (Option (Nat × Nat))
  | 0, _, _ => []
  | n + 1, s, line =>
    let g := s.getline line
    lineEntry g.2 :: nextLines n g.1 g.2

/-- readhypergraph.cpp:25-85: what the sequential reader extracts from the text. `L` is only used for general
matrices. -/
def parseSeq (text : List Char) : Res (Option MtxFile) := do
  let h ← readHead text
  match h with
  | none => pure none
  | some h => do
    let V ← vectorSize h.V
    let E ← vectorSize h.E
    let lines := allLines (h.s.rest.length + 1) h.s h.line
    if String.ofList h.sym = "general" then do
      let L ← initialised h.L
      pure (some ⟨some (String.ofList h.sym), E, V, L, lines⟩)
    else pure (some ⟨some (String.ofList h.sym), E, V, h.L.getD 0, lines⟩)

/-- readhypergraph.cpp:116-194: what every processor extracts from the text. The loop counter has 32 bits: with `L` at
least `2^32` the loop is only left by a line without two numbers (or an access out of bounds). The list of nets has
`local_count` elements, not `V`; for a `V` beyond `max_size()` the memory is taken to be exhausted as well. -/
def parsePar (text : List Char) : Res (Option MtxFile) := do
  let h ← readHead text
  match h with
  | none => pure none
  | some h => do
    let V ← vectorSize h.V
    let E ← vectorSize h.E
    if String.ofList h.sym = "general" ∨ String.ofList h.sym = "symmetric" then do
      let L ← initialised h.L
      if L < 2 ^ 32 then
        pure (some ⟨some (String.ofList h.sym), E, V, L, nextLines L h.s h.line⟩)
      else
        let lines := nextLines (h.s.rest.length + 2) h.s h.line
        if none ∈ lines then pure (some ⟨some (String.ofList h.sym), E, V, L, lines⟩) else .error .fuel
    else pure (some ⟨some (String.ofList h.sym), E, V, 0, []⟩)

/-- readhypergraph.cpp:25-111 on the characters of the file. -/
def readText (order : List Nat → List Nat) (text : List Char) (mode : String) : Res (Option Hypergraph) := do
  let f ← parseSeq text
  match f with
  | none => pure none
  | some f => readSeq order f mode

/-- readhypergraph.cpp:116-222 on the characters of the file. -/
def readTextPar (order : List Nat → List Nat) (d1 d2 : Delivery (Nat × Int)) (parts : Nat → NetPart) (p : Nat)
    (text : List Char) (mode : String) : Res (Option (List Hypergraph)) := do
  let f ← parsePar text
  match f with
  | none => pure none
  | some f => readPar order d1 d2 (parts f.V) (parts f.E) p f mode

/-- readhypergraph.cpp:224-231 `read_hypergraph(file, mode_weight)`; `none` is a file that cannot be opened. -/
def readFile (order : List Nat → List Nat) (file : Option (List Char)) (mode : String) : Res (Option Hypergraph) :=
  match file with
  | none => pure none
  | some text => readText order text mode

/-- readhypergraph.cpp:233-241 `read_hypergraph(file, world, mode_weight)`; all processors see the same file. -/
def readFilePar (order : List Nat → List Nat) (d1 d2 : Delivery (Nat × Int)) (parts : Nat → NetPart) (p : Nat)
    (file : Option (List Char)) (mode : String) : Res (Option (List Hypergraph)) :=
  match file with
  | none => pure none
  | some text => readTextPar order d1 d2 parts p text mode

/-! ### Writing -/

/-- `out << n` for a number that is not negative. -/
def decimal (n : Nat) : List Char :=
  if n = 0 then ['0'] else (Nat.digits 10 n).reverse.map (fun d => Char.ofNat (48 + d))

/-- random_hypergraph.cpp:29: one entry. -/
def entryText (e : Nat × Nat) : List Char := decimal e.1 ++ ' ' :: (decimal e.2 ++ ['\n'])

/-- random_hypergraph.cpp:12-35 `create_random_hypergraph`: the characters written. -/
def createRandomText (fuel : Nat) (rng : Rng) (n m nz : Nat) : Res (List Char) := do
  let s ← genLoop n m nz fuel ⟨rng, 0, List.replicate m [], []⟩
  pure ("%%MatrixMarket matrix coordinate pattern general\n".toList ++
    decimal m ++ ' ' :: (decimal n ++ ' ' :: (decimal nz ++ '\n' :: s.out.flatMap entryText)))

end PMondriaan

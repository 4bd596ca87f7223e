/-
Outcome monad and checked vector access used by the whole model.
-/

namespace PMondriaan

/-- The ways a call can go wrong.
* `ub`    : undefined behaviour of C++ (out-of-bounds `operator[]`, reading past the end, ...)
* `abort` : a failed `assert` (the project's CMake build does not define `NDEBUG`)
* `throw` : `std::out_of_range` from `unordered_map::at`
* `fuel`  : a loop did not finish within the number of iterations given to the model -/
inductive Err
  | ub | abort | throw | fuel
deriving DecidableEq, Repr

/-- Outcome of a C++ call. -/
abbrev Res (α : Type) := Except Err α

/-- `v[i]` for `std::vector` (no bounds check in C++: out of range is `ub`). -/
def vget {α : Type} (l : List α) (i : Nat) : Res α :=
  match l[i]? with
  | some a => .ok a
  | none => .error .ub

/-- `v[i]` with a signed index. -/
def vgetI {α : Type} (l : List α) (i : Int) : Res α :=
  if i < 0 then .error .ub else vget l i.toNat

/-- `v[i] = a`. -/
def vset {α : Type} (l : List α) (i : Nat) (a : α) : Res (List α) :=
  if i < l.length then .ok (l.set i a) else .error .ub

/-- `v[i] = a` with a signed index. -/
def vsetI {α : Type} (l : List α) (i : Int) (a : α) : Res (List α) :=
  if i < 0 then .error .ub else vset l i.toNat a

/-- `std::iter_swap(v.begin() + i, v.begin() + j)`. -/
def vswap {α : Type} (l : List α) (i j : Nat) : Res (List α) := do
  let a ← vget l i
  let b ← vget l j
  pure ((l.set i b).set j a)

/-- `iter_swap(v.begin() + i, v.end() - 1); v.pop_back();` for a valid position `i`. -/
def swapRemoveAt {α : Type} (l : List α) (i : Nat) : List α :=
  match l.getLast? with
  | some b => (l.set i b).dropLast
  | none => l

/-- Find the first occurrence, swap it with the last element and pop; nothing if absent. -/
def swapRemove (l : List Nat) (x : Nat) : List Nat :=
  if x ∈ l then swapRemoveAt l (l.idxOf x) else l

/-- `while (v[i] != x) i++;` starting at `k`: position found, `ub` if it runs off the end. -/
def findFrom (l : List Nat) (k : Nat) (x : Nat) : Res Nat :=
  if x ∈ l.drop k then .ok (k + (l.drop k).idxOf x) else .error .ub

/-- `if (c) { a }` on a state `s`. -/
def runIf {α : Type} (c : Prop) [Decidable c] (a : Res α) (s : α) : Res α :=
  if c then a else .ok s

/-- A random generator: an arbitrary stream of draws. -/
abbrev Rng := Nat → Nat

/-- One call `rng()`: the value and the advanced generator. -/
def Rng.draw (r : Rng) : Nat × Rng := (r 0, fun n => r (n + 1))

/-! ### Loop rules -/

/-- Invariant rule for a `for (auto x : l)` loop whose body may fail. The invariant sees the
elements already processed and those still to come. -/
theorem foldlM_inv {α σ : Type} {f : σ → α → Res σ} (I : List α → List α → σ → Prop)
    (l : List α) (s : σ) (h0 : I [] l s)
    (hstep : ∀ pre a post s, I pre (a :: post) s → l = pre ++ a :: post →
      ∃ s', f s a = .ok s' ∧ I (pre ++ [a]) post s') :
    ∃ s', l.foldlM f s = .ok s' ∧ I l [] s' := by
  suffices H : ∀ (post pre : List α) (s : σ), I pre post s → l = pre ++ post →
      ∃ s', post.foldlM f s = .ok s' ∧ I l [] s' from H l [] s h0 rfl
  intro post
  induction post with
  | nil =>
    intro pre s hI hl
    refine ⟨s, rfl, ?_⟩
    simp at hl
    rw [hl]; exact hI
  | cons a post ih =>
    intro pre s hI hl
    obtain ⟨s', hs', hI'⟩ := hstep pre a post s hI hl
    obtain ⟨s'', hs'', hI''⟩ := ih (pre ++ [a]) s' hI' (by simp [hl])
    refine ⟨s'', ?_, hI''⟩
    rw [List.foldlM_cons, hs']
    exact hs''

/-- Simpler rule: an invariant of the state only, available for members of the list. -/
theorem foldlM_inv' {α σ : Type} {f : σ → α → Res σ} (I : σ → Prop)
    (l : List α) (s : σ) (h0 : I s)
    (hstep : ∀ a s, a ∈ l → I s → ∃ s', f s a = .ok s' ∧ I s') :
    ∃ s', l.foldlM f s = .ok s' ∧ I s' := by
  obtain ⟨s', h1, h2⟩ := foldlM_inv (f := f) (fun _ _ s => I s) l s h0 (by
    intro pre a post s hI hl
    exact hstep a s (by simp [hl]) hI)
  exact ⟨s', h1, h2⟩

/-- Inversion of a bind that succeeded. -/
theorem bind_eq_ok {α β : Type} {x : Res α} {f : α → Res β} {b : β} :
    (x >>= f) = .ok b ↔ ∃ a, x = .ok a ∧ f a = .ok b := by
  cases x with
  | error e => simp [bind, Except.bind]
  | ok a => simp [bind, Except.bind]

@[simp] theorem ok_bind {α β : Type} (a : α) (f : α → Res β) :
    ((Except.ok a : Res α) >>= f) = f a := rfl

@[simp] theorem error_bind {α β : Type} (e : Err) (f : α → Res β) :
    ((Except.error e : Res α) >>= f) = .error e := rfl

@[simp] theorem pure_eq_ok {α : Type} (a : α) : (pure a : Res α) = .ok a := rfl

end PMondriaan

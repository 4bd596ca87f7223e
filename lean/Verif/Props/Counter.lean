import Verif.Model.Counter
import Verif.Proofs.WF
import Verif.Spec.Dist

/-
C97: loops with counters of 32 bits.
-/

namespace PMondriaan

theorem loop32_from {σ : Type} {n : Nat} (hn : n < 2 ^ 32) (body : σ → Nat → Res σ) : ∀ (m i fuel : Nat) (s : σ), i + m = n →
    m < fuel → loop32 n body fuel i s = (List.range' i m).foldlM body s := by
  intro m
  induction m with
  | zero =>
    intro i fuel s hi hf
    obtain ⟨f, rfl⟩ : ∃ f, fuel = f + 1 := ⟨fuel - 1, by omega⟩
    unfold loop32
    rw [if_neg (by omega)]
    rfl
  | succ m ih =>
    intro i fuel s hi hf
    obtain ⟨f, rfl⟩ : ∃ f, fuel = f + 1 := ⟨fuel - 1, by omega⟩
    unfold loop32
    rw [if_pos (by omega), Nat.mod_eq_of_lt (by omega), List.range'_succ, List.foldlM_cons]
    congr 1
    funext s'
    exact ih (i + 1) f s' (by omega) (by omega)

/-- C97: with fewer than `2^32` iterations to make, the loop executes its body for `0, …, n - 1`, in this order, and ends after
`n + 1` tests. -/
theorem C97_loop {σ : Type} {n : Nat} (hn : n < 2 ^ 32) (body : σ → Nat → Res σ) {fuel : Nat} (hf : n < fuel) (s : σ) :
    loop32 n body fuel 0 s = (List.range n).foldlM body s := by
  rw [loop32_from hn body n 0 fuel s (by omega) hf, List.range_eq_range']

/-- C97: with `2^32` iterations or more the counter wraps around and the loop does not end, unless its body stops it. -/
theorem C97_never {σ : Type} {n : Nat} (hn : 2 ^ 32 ≤ n) (body : σ → Nat → Res σ) (hb : ∀ s i, ∃ s', body s i = .ok s')
    (fuel : Nat) (s : σ) : loop32 n body fuel 0 s = .error .fuel := by
  have key : ∀ (fuel i : Nat) (s : σ), i < 2 ^ 32 → loop32 n body fuel i s = .error .fuel := by
    intro fuel
    induction fuel with
    | zero => intro i s _; rfl
    | succ f ih =>
      intro i s hi
      unfold loop32
      obtain ⟨s', hs'⟩ := hb s i
      rw [if_pos (by omega), hs', ok_bind]
      exact ih _ s' (Nat.mod_lt _ (by decide))
  exact key fuel 0 s (by decide)

theorem loopInt_from {σ : Type} {n : Nat} (hn : n < 2 ^ 31) (body : σ → Nat → Res σ) : ∀ (m i fuel : Nat) (s : σ), i + m = n →
    m < fuel → loopInt n body fuel i s = (List.range' i m).foldlM body s := by
  intro m
  induction m with
  | zero =>
    intro i fuel s hi hf
    obtain ⟨f, rfl⟩ : ∃ f, fuel = f + 1 := ⟨fuel - 1, by omega⟩
    unfold loopInt
    rw [if_neg (by omega)]
    rfl
  | succ m ih =>
    intro i fuel s hi hf
    obtain ⟨f, rfl⟩ : ∃ f, fuel = f + 1 := ⟨fuel - 1, by omega⟩
    unfold loopInt
    rw [if_pos (by omega), List.range'_succ, List.foldlM_cons]
    congr 1
    funext s'
    rw [if_pos (by omega)]
    exact ih (i + 1) f s' (by omega) (by omega)

/-- C97 for a counter of type `int`. -/
theorem C97_int {σ : Type} {n : Nat} (hn : n < 2 ^ 31) (body : σ → Nat → Res σ) {fuel : Nat} (hf : n < fuel) (s : σ) :
    loopInt n body fuel 0 s = (List.range n).foldlM body s := by
  rw [loopInt_from hn body n 0 fuel s (by omega) hf, List.range_eq_range']

/-- C97: a counter of type `int` overflows when there are `2^31` iterations or more. -/
theorem C97_int_overflow {σ : Type} {n : Nat} (hn : 2 ^ 31 ≤ n) (body : σ → Nat → Res σ) (hb : ∀ s i, ∃ s', body s i = .ok s')
    {fuel : Nat} (hf : 2 ^ 31 ≤ fuel) (s : σ) : loopInt n body fuel 0 s = .error .ub := by
  have key : ∀ (m i fuel : Nat) (s : σ), i + m + 1 = 2 ^ 31 → m < fuel → loopInt n body fuel i s = .error .ub := by
    intro m
    induction m with
    | zero =>
      intro i fuel s hi hf
      obtain ⟨f, rfl⟩ : ∃ f, fuel = f + 1 := ⟨fuel - 1, by omega⟩
      obtain ⟨s', hs'⟩ := hb s i
      unfold loopInt
      rw [if_pos (by omega), hs', ok_bind, if_neg (by omega)]
    | succ m ih =>
      intro i fuel s hi hf
      obtain ⟨f, rfl⟩ : ∃ f, fuel = f + 1 := ⟨fuel - 1, by omega⟩
      obtain ⟨s', hs'⟩ := hb s i
      unfold loopInt
      rw [if_pos (by omega), hs', ok_bind, if_pos (by omega)]
      exact ih (i + 1) f s' (by omega) (by omega)
  exact key (2 ^ 31 - 1) 0 fuel s (by decide) (by omega)

theorem mapNet_fold (H : Hypergraph) : ∀ m, m ≤ H.nets.length →
    (List.range m).foldlM (mapNetStep H) (fun _ => none) = .ok (buildMap ((H.nets.map (·.id)).take m)) := by
  intro m
  induction m with
  | zero => intro _; rfl
  | succ m ih =>
    intro hm
    rw [List.range_succ, List.foldlM_append, ih (by omega), ok_bind, List.foldlM_cons]
    have hg : H.nets[m]? = some (H.nets[m]'(by omega)) := List.getElem?_eq_getElem (by omega)
    unfold mapNetStep
    rw [vget_ok hg, ok_bind]
    show Except.ok _ = _
    rw [List.take_add_one, List.getElem?_map, hg]
    show _ = Except.ok (buildMap (List.take m (H.nets.map (·.id)) ++ [(H.nets[m]'(by omega)).id]))
    rw [buildMap_append, List.length_take, List.length_map, Nat.min_eq_left (by omega)]

/-- C97 for `update_map_nets`: with its 32-bit counter it does what the model says exactly when there are fewer than `2^32`
nets, and otherwise it does not end normally. -/
theorem C97_update_map_nets (H : Hypergraph) (fuel : Nat) (hf : H.nets.length < fuel) :
    (H.nets.length < 2 ^ 32 → updateMapNets32 fuel H = .ok H.updateMapNets) ∧
    (2 ^ 32 ≤ H.nets.length → ∀ H', updateMapNets32 fuel H ≠ .ok H') := by
  constructor
  · intro h
    unfold updateMapNets32
    rw [C97_loop h _ hf, mapNet_fold H _ (le_refl _), ok_bind, List.take_of_length_le (by simp)]
    rfl
  · intro h H' he
    unfold updateMapNets32 at he
    obtain ⟨m, hm, -⟩ := bind_eq_ok.1 he
    have key : ∀ (fuel i : Nat) (m : Nat → Option Nat), i < 2 ^ 32 → loop32 H.nets.length (mapNetStep H) fuel i m = .error .fuel := by
      intro fuel
      induction fuel with
      | zero => intro i m _; rfl
      | succ f ih =>
        intro i m hi
        have hg : H.nets[i]? = some (H.nets[i]'(by omega)) := List.getElem?_eq_getElem (by omega)
        unfold loop32
        rw [if_pos (by omega)]
        unfold mapNetStep
        rw [vget_ok hg]
        exact ih _ _ (Nat.mod_lt _ (by decide))
    rw [key fuel 0 _ (by decide)] at hm
    cases hm

/-- A loop that collects its counters. -/
example : loop32 4 (fun l i => .ok (l ++ [i])) 5 0 [] = .ok [0, 1, 2, 3] ∧
    loopInt 4 (fun l i => .ok (l ++ [i])) 5 0 [] = .ok [0, 1, 2, 3] := ⟨by decide, by decide⟩

example : ((Spec.exampleD.head?).map (fun H => (updateMapNets32 4 H).toOption.map (fun K => (List.range 4).map K.nmap))) =
    some (some [some 0, some 2, some 1, none]) := by decide +kernel

end PMondriaan

import Verif.Model.Hypergraph

/-
Loops whose counter is narrower than their bound. Many loops of the code are `for (auto i = 0u; i < l.size(); i++)`: the
counter has 32 bits and wraps around, the size has 64 (hypergraph.cpp:135, 143, 220, 227, 233, 306-330, 480-590,
coarsen.cpp:43, 164, 251, 278, 294, uncoarsen.cpp:81, 110, gain_buckets.cpp:55, 83, 296, KLFM_parallel.cpp:111-545,
KLFM.cpp:149, label_propagation.cpp:21, 101, initial_partitioning.cpp:43-67). The loops over the parts in
write_partitioning.cpp:34, 59, 68 and PMondriaan.cpp:149 have an `int` as counter, whose overflow is undefined; in the latter the
bound is a `long`. Elsewhere the model uses loops over lists; C97 says when that makes no difference.
-/

namespace PMondriaan

/-- `for (auto i = 0u; i < n; i++) body`, from the test on; `fuel` is a number of tests. -/
def loop32 {σ : Type} (n : Nat) (body : σ → Nat → Res σ) : Nat → Nat → σ → Res σ
  | 0, _, _ => .error .fuel
  | f + 1, i, s =>
    if i < n then do
      let s ← body s i
      loop32 n body f ((i + 1) % 2 ^ 32) s
    else .ok s

/-- `for (int i = 0; i < n; i++) body`, from the test on. -/
def loopInt {σ : Type} (n : Nat) (body : σ → Nat → Res σ) : Nat → Nat → σ → Res σ
  | 0, _, _ => .error .fuel
  | f + 1, i, s =>
    if i < n then do
      let s ← body s i
      if i + 1 < 2 ^ 31 then loopInt n body f (i + 1) s else .error .ub
    else .ok s

/-- hypergraph.cpp:227-229: one iteration of `update_map_nets`. -/
def mapNetStep (H : Hypergraph) (m : Nat → Option Nat) (i : Nat) : Res (Nat → Option Nat) := do
  let n ← vget H.nets i
  pure (mapSet m n.id i)

/-- hypergraph.cpp:225-230 `update_map_nets` with its 32-bit counter. -/
def updateMapNets32 (fuel : Nat) (H : Hypergraph) : Res Hypergraph := do
  let m ← loop32 H.nets.length (mapNetStep H) fuel 0 (fun _ => none)
  pure { H with nmap := m }

end PMondriaan

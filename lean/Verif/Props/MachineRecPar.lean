import Verif.Proofs.MachineRecPar
import Verif.Props.MachineMlPar
import Verif.Props.MachineRec
import Verif.Props.RecBisectPar
import Verif.Props.MainBalance

/-
C111: recursive bisection on several processors in 64-bit signed numbers.
-/

namespace PMondriaan

open Spec

theorem globalWeight64_eq {Hs : List Hypergraph} (hw : ∀ H ∈ Hs, ∀ v ∈ H.vertices, 0 < v.weight)
    (hT : weightOn Hs < 2 ^ 63) : globalWeight64 Hs = .ok (globalWeight Hs) := by
  have e : Hs.map (·.totalWeight) = Hs.map (fun H => (H.vertices.map (·.weight)).sum) :=
    List.map_congr_left fun H _ => totalWeight_eq H
  have hn : ∀ y ∈ Hs.map (fun H => (H.vertices.map (·.weight)).sum), 0 ≤ y := by
    intro y hy
    obtain ⟨H, hH, rfl⟩ := List.mem_map.1 hy
    exact sum_map_nonneg _ _ fun v hv => (hw H hH v hv).le
  have hs := totalWeights_eq Hs
  rw [foldl_plus_sum, e] at hs
  unfold globalWeight64 globalWeight
  rw [mapM_ok (g := fun H => H.totalWeight) _ (by
    intro H hH
    have := entry_le_sum hn (List.mem_map.2 ⟨H, hH, rfl⟩)
    exact totalWeight64_eq (fun v hv => (hw H hH v hv).le) (by omega)), ok_bind, e]
  exact bulkSum64_eq hn (by omega)

/-- The recursion in 64 bits, for bisections that agree in 64 bits up to the limit `L`. -/
theorem recursion_par_agrees {P : ParRecEnv} {N T k : Nat} {Bad : Err → Prop} (hP : ParRecEnvOk P N T Bad)
    (hN : N < 2147483648) (hk : 2 ≤ k) {Hs : List Hypergraph} (hne : Hs ≠ []) (hD : Distributed N Hs)
    (hpos : ∀ H ∈ Hs, ∀ v ∈ H.vertices, 0 < v.weight) (hT : (Hs.flatMap (·.vertices)).length < T)
    (hp : Hs.length ≤ 2 ^ 50) {B : List Bool → ParBisector} {Al : List Bool → Bisector} {L X : Int} {epsilon eta : ℚ}
    (hS : Small P B Al N T Hs.length L X eta) (heps : 0 ≤ epsilon)
    (hsmall : (1 + epsilon) * ((Hs.flatMap (·.vertices)).map (·.weight)).sum ≤ L - 1) {rngs : List Rng}
    (hr : rngs.length = Hs.length) {r : GroupResult} (h : recursiveBisectPar P k epsilon eta Hs rngs = .ok r) :
    recursiveBisectPar64 { P with bis := B, alone := Al } k epsilon eta Hs rngs = .ok r := by
  have hW0 := weightOn_nonneg hpos
  have hsmall' : (1 + epsilon) * (weightOn Hs : ℚ) ≤ L - 1 := hsmall
  have hWL : weightOn Hs ≤ L := by
    have h0 : (0 : ℚ) ≤ (weightOn Hs : ℚ) := by exact_mod_cast hW0
    have h1 : (weightOn Hs : ℚ) ≤ L := by nlinarith
    exact_mod_cast h1
  have hLL := hS.size
  obtain ⟨e, hI⟩ := start_inv hk hD hpos hT (show weightOn Hs < 2 ^ 53 by omega) hp hr
  have hag : agreed (globalWeight Hs) = .ok (weightOn Hs) := by
    apply agreed_ok
    · unfold globalWeight bulkSum
      simpa using hne
    · intro b hb
      unfold globalWeight bulkSum at hb
      obtain ⟨-, -, rfl⟩ := List.mem_map.1 hb
      exact totalWeights_eq Hs
  obtain ⟨h1, h2, h3⟩ := maxWeight64_eq hLL hP.rounds heps hW0 (k := k) (by omega) hsmall'
  unfold recursiveBisectPar at h
  unfold recursiveBisectPar64
  rw [hag, ok_bind] at h
  rw [globalWeight64_eq hpos (by omega), ok_bind, hag, ok_bind]
  dsimp only
  rw [h1, ok_bind]
  refine recPar64_of hP hN hS h2 h3 (k + 1) [] ⟨0, (k : Int) - 1⟩ (weightOn Hs) _ hI ?_ hW0 hWL ?_ r h
  · simp
  · rw [e]; exact hWL

/-- The 64-bit bisection with the options of the recursion (recursive_bisection.cpp:40-41). -/
def codeBis64 {F : Type} (E : List Bool → Nat → ParBisectEnv F) (opts : Options) (p0 : Nat) (path : List Bool) :
    ParBisector := fun xs =>
  bisectPar64 (E path xs.length) { opts with sampleSize := opts.sampleSize / p0 } xs

theorem rangeSums_le {xs : List RangeOf} (hpos : ∀ x ∈ xs, ∀ v ∈ x.H.vertices, 0 < v.weight) :
    (xs.map (fun x => ((inRange x).map (·.weight)).sum)).sum ≤ weightOn (xs.map (·.H)) := by
  induction xs with
  | nil => simp [weightOn]
  | cons x xs ih =>
    have h1 := ih fun x' hx' => hpos x' (List.mem_cons_of_mem _ hx')
    have h2 : ((inRange x).map (·.weight)).sum ≤ (x.H.vertices.map (·.weight)).sum :=
      slice_sum_le (fun v hv => (hpos x (List.mem_cons_self ..) v hv).le) x.s x.e
    have e : weightOn ((x :: xs).map (·.H)) = (x.H.vertices.map (·.weight)).sum + weightOn (xs.map (·.H)) := by
      simp [weightOn]
    rw [e, List.map_cons, List.sum_cons]
    omega

/-- The bisections of the code with at most `3 * 10^9` of weight. -/
theorem codeSmall {F : Type} {E : List Bool → Nat → ParBisectEnv F} {E1 : List Bool → Env F} {N T p0 : Nat}
    (hE : ∀ path p, 2 ≤ p → ParBisectEnvOk (E path p) p N T) (hE1 : ∀ path, (E1 path).Ok N)
    (hf : ∀ path, (E1 path).fuel = T) (hN : N < 2147483648) {opts : Options}
    (ho : opts.samplingLp = true → 1 ≤ opts.sampleSize / p0) (hpass : opts.klfmMaxPasses ≤ 100)
    {P : ParRecEnv} (hbis : P.bis = codeBis E opts p0)
    (halone : P.alone = fun path H m0 m1 s e l rng =>
      bisectOne (E1 path) H { opts with sampleSize := opts.sampleSize / p0 } m0 m1 s e l rng)
    (hp : p0 ≤ 1000000) (hpN : p0 * N ≤ 2 ^ 60) {eta : ℚ} (heta : 0 ≤ eta) (heta9 : eta ≤ 9) :
    Small P (codeBis64 E opts p0) (fun path H m0 m1 s e l rng =>
        bisectOne64 (E1 path) H { opts with sampleSize := opts.sampleSize / p0 } m0 m1 s e l rng)
      N T p0 3000000000 60000000000 eta := by
  refine ⟨by decide, heta, ?_, ?_, by push_cast; linarith, by omega, by decide⟩
  · intro path xs h2 hxp hDx hrx hposx hTx hWx labels hl max0 max1 b0 b1 rngs' hrn rs hrs
    rw [hbis] at hrs
    unfold codeBis at hrs
    unfold codeBis64
    have hxs : xs ≠ [] := by rintro rfl; simp at h2
    exact C110_moderate (hE path xs.length h2) hxs hDx hrx hposx hN (le_trans (Nat.mul_le_mul_right _ hxp) hpN) hTx
      { opts with sampleSize := opts.sampleSize / p0 } ho hpass (le_trans (rangeSums_le hposx) hWx) b0 b1 hrn hrs
  · intro path H' hf' hTw s e h1 h2 labels hl max0 max1 b0 b1 rng'
    rw [halone]
    exact C104_bisect (hE1 path) hf'.wf hf'.ids hf'.nets hf'.pos (by rw [hf path]; exact hf'.size) h1 h2 labels hl _ b0 b1 hTw
      rng'

/-- Random bisections with at most `10^14` of weight. -/
theorem randomSmall {F : Type} {E : List Bool → Nat → ParBisectEnv F} {N T p p0 : Nat} {opts : Options}
    (hb : opts.bisectionRandom = true) {P : ParRecEnv} (hbis : P.bis = codeBis E opts p0)
    (halone : P.alone = fun _ => bisectRandom) (hp : p ≤ 10000) {eta : ℚ} (heta : 0 ≤ eta) (heta1 : eta ≤ 1) :
    Small P (codeBis64 E opts p0) (fun _ => bisectRandom64) N T p 100000000000000 400000000000000 eta := by
  refine ⟨le_refl _, heta, ?_, ?_, by push_cast; linarith, by omega, by decide⟩
  · intro path xs h2 hxp hDx hrx hposx hTx hWx labels hl max0 max1 b0 b1 rngs' hrn rs hrs
    rw [hbis] at hrs
    unfold codeBis at hrs
    unfold codeBis64
    rw [C110_random_par64 (by exact hb) (fun x hx => (hrx x hx).2) (fun x hx v hv => (hposx x hx v hv).le)]
    · exact hrs
    · intro x hx
      have h3 := le_trans (rangeSums_le hposx) hWx
      have h4 : ((inRange x).map (·.weight)).sum ≤ (xs.map (fun x => ((inRange x).map (·.weight)).sum)).sum := by
        apply entry_le_sum ?_ (List.mem_map.2 ⟨x, hx, rfl⟩)
        intro z hz
        obtain ⟨x', hx', rfl⟩ := List.mem_map.1 hz
        exact sum_map_nonneg _ _ fun v hv => (hposx x' hx' v ((inRange_sub x').subset hv)).le
      omega
  · intro path H' hf' hTw s e h1 h2 labels hl max0 max1 _ _ rng'
    rw [halone]
    have hnn : WeightsNonneg H' := fun v hv => le_of_lt (hf'.pos v hv)
    have := slice_sum_le hnn s e
    exact C104_random hnn h2 (by omega) max0 max1 labels rng'

/-- C111, multilevel or random bisection: if `(1 + epsilon)` times the total weight is below `3 * 10^9`, `eta` is at most 9 and there are at most
a million processors, at most `2^60 / N` processors for `N` nets and at most 100 passes of the refinement, a run of the
recursion that has a result on integers has the same result in 64-bit arithmetic, for any draws, any order of the messages
and any number of parts. -/
theorem C111_recursion_par64 {F : Type} {E : List Bool → Nat → ParBisectEnv F} {E1 : List Bool → Env F} {N T : Nat}
    (hE : ∀ path p, 2 ≤ p → ParBisectEnvOk (E path p) p N T) (hE1 : ∀ path, (E1 path).Ok N)
    (hf : ∀ path, (E1 path).fuel = T) (hN : N < 2147483648) {opts : Options} {Hs : List Hypergraph}
    (ho : opts.samplingLp = true → 1 ≤ opts.sampleSize / Hs.length) (hpass : opts.klfmMaxPasses ≤ 100)
    {P : ParRecEnv} (hrnd : P.rnd = nearest53) (hbis : P.bis = codeBis E opts Hs.length)
    (halone : P.alone = fun path H m0 m1 s e l rng =>
      bisectOne (E1 path) H { opts with sampleSize := opts.sampleSize / Hs.length } m0 m1 s e l rng)
    (hord : ∀ path l, (P.ord path l).Perm l) (hdv : ∀ path, Fair (P.dVert path)) (hdc : ∀ path, Fair (P.dCost path))
    {k : Nat} (hk : 2 ≤ k) (hne : Hs ≠ []) (hD : Distributed N Hs)
    (hpos : ∀ H ∈ Hs, ∀ v ∈ H.vertices, 0 < v.weight) (hT : (Hs.flatMap (·.vertices)).length < T)
    (hp : Hs.length ≤ 1000000) (hpN : Hs.length * N ≤ 2 ^ 60) {epsilon eta : ℚ} (heps : 0 ≤ epsilon)
    (hsmall : (1 + epsilon) * ((Hs.flatMap (·.vertices)).map (·.weight)).sum ≤ 2999999999)
    (heta : 0 ≤ eta) (heta9 : eta ≤ 9) {rngs : List Rng} (hr : rngs.length = Hs.length) {r : GroupResult}
    (h : recursiveBisectPar P k epsilon eta Hs rngs = .ok r) :
    recursiveBisectPar64 { P with
      bis := codeBis64 E opts Hs.length
      alone := fun path H m0 m1 s e l rng =>
        bisectOne64 (E1 path) H { opts with sampleSize := opts.sampleSize / Hs.length } m0 m1 s e l rng }
      k epsilon eta Hs rngs = .ok r := by
  have hP : ParRecEnvOk P N T
      (fun e => opts.bisectionRandom = false ∧ (e = .ub ∨ opts.samplingLp = false ∧ e = .abort)) := by
    refine ⟨?_, ?_, hord, hdv, hdc, ?_, ?_⟩
    · rw [hbis]; exact codeBis_well hE hN ho
    · intro path
      rw [halone, ← hf path]
      exact bisectOne_well (hE1 path) _
    · rw [hrnd]; exact nearest53_keepsInts
    · rw [hrnd]; exact nearest53_rounds
  exact recursion_par_agrees hP hN hk hne hD hpos hT (by omega)
    (codeSmall hE hE1 hf hN ho hpass hbis halone hp hpN heta heta9) heps (le_trans hsmall (by norm_num)) hr h

/-- C111, random bisection: `10^14` is enough room, with at most ten thousand processors. -/
theorem C111_random_par64 {F : Type} {E : List Bool → Nat → ParBisectEnv F} {N T : Nat} (hN : N < 2147483648) {opts : Options}
    (hb : opts.bisectionRandom = true) {P : ParRecEnv} (hrnd : P.rnd = nearest53) {Hs : List Hypergraph} {p0 : Nat}
    (hbis : P.bis = codeBis E opts p0) (halone : P.alone = fun _ => bisectRandom)
    (hord : ∀ path l, (P.ord path l).Perm l) (hdv : ∀ path, Fair (P.dVert path)) (hdc : ∀ path, Fair (P.dCost path))
    {k : Nat} (hk : 2 ≤ k) (hne : Hs ≠ []) (hD : Distributed N Hs)
    (hpos : ∀ H ∈ Hs, ∀ v ∈ H.vertices, 0 < v.weight) (hT : (Hs.flatMap (·.vertices)).length < T)
    (hp : Hs.length ≤ 10000) {epsilon eta : ℚ} (heps : 0 ≤ epsilon)
    (hsmall : (1 + epsilon) * ((Hs.flatMap (·.vertices)).map (·.weight)).sum ≤ 99999999999999)
    (heta : 0 ≤ eta) (heta1 : eta ≤ 1) {rngs : List Rng} (hr : rngs.length = Hs.length) {r : GroupResult}
    (h : recursiveBisectPar P k epsilon eta Hs rngs = .ok r) :
    recursiveBisectPar64 { P with bis := codeBis64 E opts p0, alone := fun _ => bisectRandom64 } k epsilon eta Hs rngs = .ok r := by
  have hP : ParRecEnvOk P N T (fun _ => False) := by
    refine ⟨?_, ?_, hord, hdv, hdc, ?_, ?_⟩
    · rw [hbis]; exact codeBis_random_well E N T p0 hb
    · intro path
      rw [halone]
      intro H' _ s e h1 h2 labels hl max0 max1 rng'
      exact C35_bisect_random h1 h2 labels hl max0 max1 rng'
    · rw [hrnd]; exact nearest53_keepsInts
    · rw [hrnd]; exact nearest53_rounds
  exact recursion_par_agrees hP hN hk hne hD hpos hT (by omega) (randomSmall hb hbis halone hp heta heta1) heps
    (le_trans hsmall (by norm_num)) hr h

theorem totalWeight64_long {H : Hypergraph} {t : Int} (h : totalWeight64 H = .ok t) : long t = .ok t := by
  unfold totalWeight64 at h
  have : ∀ (l : List Vertex) (a : Int), long a = .ok a → ∀ t, l.foldlM (fun t v => long (t + v.weight)) a = .ok t →
      long t = .ok t := by
    intro l
    induction l with
    | nil => intro a ha t ht; cases ht; exact ha
    | cons v l ih =>
      intro a ha t ht
      rw [List.foldlM_cons] at ht
      obtain ⟨b, hb, ht⟩ := bind_eq_ok.1 ht
      refine ih b ?_ t ht
      unfold long at hb ⊢
      split at hb
      · rename_i hc
        injection hb with hb
        subst hb
        rw [if_pos hc]
      · cases hb
  exact this _ _ rfl _ h

/-- C111: on one processor the 64-bit model is that of C107, failures included. -/
theorem C111_one_processor (P : ParRecEnv) {k : Nat} (hk : 1 ≤ k) (epsilon eta : ℚ) (H : Hypergraph) (rng : Rng) :
    recursiveBisectPar64 P k epsilon eta [H] [rng] =
      (recursiveBisect64 (P.recEnv []) H k epsilon rng).map (fun s => ⟨[s.H], [], s.calls⟩) := by
  have hc : (⟨0, (k : Int) - 1⟩ : Interval).count = k := by
    unfold Interval.count Interval.length
    dsimp only
    omega
  unfold recursiveBisectPar64 recursiveBisect64 globalWeight64 bulkSum64
  simp only [List.mapM_cons, List.mapM_nil]
  cases hW : totalWeight64 H with
  | error e => rfl
  | ok W =>
    have hl : long (0 + W) = .ok W := by rw [Int.zero_add]; exact totalWeight64_long hW
    simp only [ok_bind, pure_eq_ok, List.foldlM_cons, List.foldlM_nil, hl, List.map_cons, List.map_nil]
    have hag : agreed [W] = .ok W := by simp [agreed]
    rw [hag, ok_bind]
    rw [show (P.recEnv []).rnd = P.rnd from rfl]
    cases maxWeight64 P.rnd epsilon W k with
    | error e => rfl
    | ok M =>
      simp only [ok_bind, List.zip_cons_cons, List.zip_nil_right, List.map_cons, List.map_nil, recPar64, aloneRun64, hc]
      cases recLoop64 (P.recEnv []) M (2 * k)
          { start := 0, fin := (H.vertices.length : Int), low := 0, high := (k : Int) - 1, weight := W }
          { H := H, rng := rng, jobs := [], cut := [], splits := 0, calls := [] } with
      | error e => rfl
      | ok s => rfl

/-- `exampleRecEnv` with 64-bit bisections. -/
def exampleRecEnv64 : ParRecEnv :=
  { exampleRecEnv with
    bis := codeBis64 (fun _ _ => exampleParEnv) { exampleOpts with bisectionRandom := true } 1
    alone := fun _ => bisectRandom64 }

/-- C111 applies to five parts on three processors (the example of C61, the other conditions are shown there). -/
example {r : GroupResult}
    (h : recursiveBisectPar exampleRecEnv 5 (1 / 4) 0 exampleThree [fun n => n, fun n => n, fun n => n + 1] = .ok r) :
    recursiveBisectPar64 exampleRecEnv64 5 (1 / 4) 0 exampleThree [fun n => n, fun n => n, fun n => n + 1] = .ok r :=
  C111_random_par64 (F := Nat) (E := fun _ _ => exampleParEnv) (N := 4) (T := 10)
    (opts := { exampleOpts with bisectionRandom := true }) (p0 := 1) (P := exampleRecEnv) (by decide) rfl rfl rfl rfl
    exampleRecEnv_ok.ord exampleRecEnv_ok.dVert exampleRecEnv_ok.dCost (by decide) (by decide) exampleThree_dist (by decide)
    (by decide) (by decide) (by norm_num) (by norm_num [exampleThree, Hypergraph.create]) (le_refl _) (by norm_num) rfl h

example : (recursiveBisectPar64 exampleRecEnv64 5 (1 / 4) 0 exampleThree [fun n => n, fun n => n, fun n => n + 1]).toOption.map
    (fun r => (r.Hs.map (fun H => H.vertices.map (fun v => (v.id, v.part))), r.splits.map (fun c => (c.p, c.plow)),
      r.calls.length)) =
    some ([[(1, 1), (7, 0), (3, 1)], [(4, 4), (6, 3), (0, 2), (5, 2)], [(2, 3)]], [(3, 1), (2, 0), (2, 1)], 1) := by
  decide +kernel

/-- Options with multilevel bisection. -/
def multiOpts : Options :=
  { exampleOpts with sampleSize := 3, maxClustersize := 1, coarseningMaxrounds := 1, samplingLp := true }

/-- Multilevel bisection. -/
def multiRecEnv : ParRecEnv :=
  { exampleRecEnv with
    bis := codeBis (fun _ q => plainParEnv q 4 10) multiOpts 3
    alone := fun _ H m0 m1 s e l rng =>
      bisectOne { exampleEnv 4 with fuel := 10 } H { multiOpts with sampleSize := multiOpts.sampleSize / 3 } m0 m1 s e l rng }

/-- `multiRecEnv` with 64-bit bisections. -/
def multiRecEnv64 : ParRecEnv :=
  { multiRecEnv with
    bis := codeBis64 (fun _ q => plainParEnv q 4 10) multiOpts 3
    alone := fun _ H m0 m1 s e l rng =>
      bisectOne64 { exampleEnv 4 with fuel := 10 } H { multiOpts with sampleSize := multiOpts.sampleSize / 3 } m0 m1 s e l rng }

/-- C111 applies to the multilevel bisection of the example into any number of parts. -/
example {k : Nat} (hk : 2 ≤ k) {rngs : List Rng} (hr : rngs.length = 3) {r : GroupResult}
    (h : recursiveBisectPar multiRecEnv k 1 (1 / 2) exampleThree rngs = .ok r) :
    recursiveBisectPar64 multiRecEnv64 k 1 (1 / 2) exampleThree rngs = .ok r :=
  C111_recursion_par64 (F := Nat) (E := fun _ q => plainParEnv q 4 10) (E1 := fun _ => { exampleEnv 4 with fuel := 10 })
    (N := 4) (T := 10) (opts := multiOpts) (P := multiRecEnv) (fun _ q hq => plainParEnv_ok q 4 10 (by omega))
    (fun _ => ⟨fun _ l => .refl l, fun l => .refl l, fun l => .refl l, fun l => .refl l,
      fun _ l => .refl l, fun _ l => .refl l, blockPart_valid 1 4 (by decide)⟩) (fun _ => rfl) (by decide)
    (Hs := exampleThree) (by decide) (by decide) rfl rfl rfl exampleRecEnv_ok.ord exampleRecEnv_ok.dVert exampleRecEnv_ok.dCost
    hk (by decide) exampleThree_dist (by decide) (by decide) (by decide) (by decide) (by norm_num)
    (by norm_num [exampleThree, Hypergraph.create]) (by norm_num) (by norm_num) hr h

example : (recursiveBisectPar64 multiRecEnv64 4 1 (1 / 2) exampleThree [fun n => n, fun n => n, fun n => n + 1]).toOption.map
    (fun r => (r.Hs.map (fun H => H.vertices.map (fun v => (v.id, v.part))), r.splits.map (fun c => (c.p, c.plow)),
      r.calls.length)) =
    some ([[(0, 1), (1, 0), (2, 1)], [(3, 1)], [(6, 2), (7, 3), (5, 2), (4, 2)]], [(3, 2), (2, 0)], 1) := by
  decide +kernel

/-- `exampleThree` with all weights `w`. -/
def threeOf (w : Int) : List Hypergraph :=
  exampleThree.map (fun H => Hypergraph.create 8 4 (H.vertices.map (fun v => ⟨v.id, v.nets, w, v.part⟩)) H.nets)

/-- C111 needs its conditions. With weights of `2^60` the total does not fit, with weights of `10^18` and `epsilon = 1/4`
the product of `maxweight` and the number of parts does not fit, with weights of `9 * 10^17` and `eta = 5` the maximum local
weight does not fit, while the same weights with `eta = 1` are no problem. On integers all four runs succeed. -/
theorem C111_overflow :
    (∀ x ∈ [((5 : Nat), (1 / 4 : ℚ), (0 : ℚ), (1152921504606846976 : Int)), (5, 1 / 4, 0, 1000000000000000000),
        (5, 0, 5, 900000000000000000)],
      recursiveBisectPar64 exampleRecEnv64 x.1 x.2.1 x.2.2.1 (threeOf x.2.2.2) [fun n => n, fun n => n, fun n => n + 1] =
        .error .ub ∧
      (recursiveBisectPar exampleRecEnv x.1 x.2.1 x.2.2.1 (threeOf x.2.2.2)
        [fun n => n, fun n => n, fun n => n + 1]).toOption.isSome) ∧
    (recursiveBisectPar64 exampleRecEnv64 5 0 1 (threeOf 900000000000000000)
      [fun n => n, fun n => n, fun n => n + 1]).toOption.isSome := by
  refine ⟨?_, by decide +kernel⟩
  intro x hx
  simp only [List.mem_cons, List.not_mem_nil, or_false] at hx
  rcases hx with rfl | rfl | rfl
  · exact ⟨eq_of_failsWith (by decide +kernel), by decide +kernel⟩
  · exact ⟨eq_of_failsWith (by decide +kernel), by decide +kernel⟩
  · exact ⟨eq_of_failsWith (by decide +kernel), by decide +kernel⟩

/-- C111: the steps that can leave the range: the weight of a side, the sum of both sides, the maximum local weight, the two
differences (the weights themselves are not negative, so that these overflow only in combination with another error), the
weight sent, the negated surplus and the sum of the surpluses of other processors. -/
theorem C111_overflow_steps :
    sumLongs [4611686018427387904, 4611686018427387904] = .error .ub ∧
    procsLow64 nearest53 4611686018427387904 4611686018427387904 2 2 2 = .error .ub ∧
    newMaxLocal64 nearest53 4611686018427387904 1 1 = .error .ub ∧
    surplusOf64 1 0 ⟨looseOnes 1 1 0, 9223372036854775807, -1, 0⟩ = .error .ub ∧
    surplusOf64 0 0 ⟨looseOnes 1 1 0, 9223372036854775807, 0, -1⟩ = .error .ub ∧
    sendUntil64 2 1 0 9223372036854775807 3 ⟨looseOnes 2 4611686018427387904 0, 0, 0, [], []⟩ = .error .ub ∧
    sendTo64 id 2 0 ⟨looseOnes 2 4611686018427387904 0, 0, -9223372036854775808, 1, 1, [], []⟩ = .error .ub ∧
    reduceSurplus64 id 3 0 0 [-1, -9000000000000000000, -9000000000000000000] ⟨looseOnes 1 1 0, [], []⟩ = .error .ub := by
  refine ⟨?_, ?_, ?_, ?_, ?_, ?_, ?_, ?_⟩ <;> exact eq_of_failsWith (by decide +kernel)

/-- Just below, the same steps succeed. -/
example :
    (sumLongs [4611686018427387904, 4611686018427387903]).toOption = some 9223372036854775807 ∧
    (procsLow64 nearest53 4611686018427387904 4611686018427387903 2 2 2).toOption = some 1 ∧
    (newMaxLocal64 nearest53 4611686018427387904 1 0).toOption = some 4611686018427387904 ∧
    (surplusOf64 1 0 ⟨looseOnes 1 1 0, 9223372036854775806, -1, 0⟩).toOption = some (9223372036854775807, 0) ∧
    (sendUntil64 2 1 0 4611686018427387904 3 ⟨looseOnes 2 4611686018427387904 0, 0, 0, [], []⟩).toOption.map (·.sent) =
      some 4611686018427387904 ∧
    (sendTo64 id 2 0 ⟨looseOnes 2 4611686018427387904 0, 0, -9223372036854775807, 1, 1, [], []⟩).toOption.map (·.own) =
      some (-4611686018427387903) ∧
    (reduceSurplus64 id 3 0 0 [-1, -9000000000000000000, -100000000000000000] ⟨looseOnes 1 1 0, [], []⟩).toOption.map (·.2) =
      some (-1) := by
  refine ⟨?_, ?_, ?_, ?_, ?_, ?_, ?_⟩ <;> decide +kernel

end PMondriaan

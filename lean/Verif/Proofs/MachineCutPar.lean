import Verif.Model.MachineCutPar
import Verif.Proofs.MachineRecPar
import Verif.Proofs.RecCutPar

/-
Lemmas for C113: the recursion on several processors with the cut-net metric in 64 bits.
-/

namespace PMondriaan

open Spec

/-! ### Programs that do the same -/

/-- The second program does what the first one does, as long as that does not fail: it sends the same at each synchronization,
whatever sets of ids have been received before, and ends with the same result. -/
def CutProg.Follows {α : Type} : CutProg α → CutProg α → Prop
  | .ret (.error _), _ => True
  | .ret (.ok a), y => y = .ret (.ok a)
  | .sync sends next, y => ∃ next', y = .sync sends next' ∧ ∀ (ids : List Nat) (ins : List (List Nat)),
      ins.length = sends.length → (∀ i ∈ ins, ∀ e, e ∈ i ↔ e ∈ ids) → (next ins).Follows (next' ins)

theorem CutProg.Follows.refl {α : Type} (x : CutProg α) : x.Follows x := by
  induction x with
  | ret r =>
    cases r with
    | ok a => rfl
    | error e => trivial
  | sync sends next ih => exact ⟨next, rfl, fun _ ins _ _ => ih ins⟩

theorem CutProg.Follows.andThen {α β : Type} {S : Prop} {Q : List Nat → α → Prop} {E : Err → Prop}
    {f f' : α → CutProg β} (hf : ∀ G a, Q G a → (f a).Follows (f' a)) {x : CutProg α} :
    ∀ {y : CutProg α} {n : Nat} {G : List Nat}, x.Ends S Q E n G → x.Follows y →
      (x.andThen f).Follows (y.andThen f') := by
  induction x with
  | ret r =>
    intro y n G hx hy
    cases r with
    | ok a =>
      rw [show y = .ret (.ok a) from hy]
      exact hf G a hx.2
    | error e => trivial
  | sync sends next ih =>
    intro y n G hx hy
    obtain ⟨next', rfl, h⟩ := hy
    exact ⟨_, rfl, fun ids ins h1 h2 => ih ins (hx.2 ids ins h1 h2) (h ids ins h1 h2)⟩

theorem CutProg.Follows.map {α β : Type} (f : α → CutProg β) {x : CutProg α} :
    ∀ {y : CutProg α}, x.Follows y → (x.andThen f).Follows (y.andThen f) := by
  induction x with
  | ret r =>
    intro y hy
    cases r with
    | ok a =>
      rw [show y = .ret (.ok a) from hy]
      exact .refl _
    | error e => trivial
  | sync sends next ih =>
    intro y hy
    obtain ⟨next', rfl, h⟩ := hy
    exact ⟨_, rfl, fun ids ins h1 h2 => ih ins (h ids ins h1 h2)⟩

theorem CutProg.Follows.both {α β : Type} {x : CutProg α} : ∀ {x' : CutProg α} {y y' : CutProg β},
    x.Follows x' → y.Follows y' → (x.both y).Follows (x'.both y') := by
  induction x with
  | ret r =>
    intro x' y y' hx hy
    cases r with
    | ok a =>
      rw [show x' = .ret (.ok a) from hx]
      cases y with
      | ret r' =>
        cases r' with
        | ok b => rw [show y' = .ret (.ok b) from hy]; rfl
        | error e => trivial
      | sync s nx => trivial
    | error e => trivial
  | sync sends next ih =>
    intro x' y y' hx hy
    obtain ⟨next', rfl, h⟩ := hx
    cases y with
    | ret r' =>
      cases r' with
      | ok b => trivial
      | error e => trivial
    | sync s nx =>
      obtain ⟨nx', rfl, h'⟩ := hy
      refine ⟨_, rfl, fun ids ins h1 h2 => ?_⟩
      rw [List.length_append] at h1
      refine ih _ (h ids _ ?_ ?_) (h' ids _ ?_ ?_)
      · rw [List.length_take]; omega
      · exact fun i hi => h2 i (List.mem_of_mem_take hi)
      · rw [List.length_drop]; omega
      · exact fun i hi => h2 i (List.mem_of_mem_drop hi)

theorem CutProg.Follows.runWorld {α : Type} {d : Nat → Delivery Nat} (hd : ∀ i, Fair (d i)) {x : CutProg α} :
    ∀ {y : CutProg α} (i : Nat) {a : α}, x.Follows y → x.runWorld d i = .ok a → y.runWorld d i = .ok a := by
  induction x with
  | ret r =>
    intro y i a hx h
    have h : r = .ok a := h
    subst h
    rw [show y = .ret (.ok a) from hx]
    rfl
  | sync sends next ih =>
    intro y i a hx h
    obtain ⟨next', rfl, hn⟩ := hx
    refine ih _ (i + 1) (hn sends.flatten _ (by simp) ?_) h
    intro m hm e
    obtain ⟨t, ht, rfl⟩ := List.mem_map.1 hm
    exact (inbox_toEvery (hd i) (List.mem_range.1 ht) sends).mem_iff

/-! ### A processor that is alone -/

theorem core_weight {H H' : Hypergraph} (h : H'.vertices.map coreKey = H.vertices.map coreKey) :
    (H'.vertices.map (·.weight)).sum = (H.vertices.map (·.weight)).sum := by
  have : ∀ vs : List Vertex, vs.map (·.weight) = (vs.map coreKey).map (fun c => c.2.1) := by
    intro vs
    rw [List.map_map]
    rfl
  rw [this, this, h]

theorem aloneLoop64_follows {L : Int} (hL : L ≤ 100000000000000) {P : RecEnv} (hr : RoundsWithin (1 / 2 ^ 53) P.rnd)
    {B : Bisector} {N T k : Nat} (hbis : BisectsWell P.bis N T) (hB : AgreeSmall L B P.bis N T) (hd : Fair P.d1)
    (hc : P.cutMetric = false) {M : Int} (hM : 0 ≤ M) (hMk : M * k ≤ L) (C : CutEnv) (path : List Bool) (base : Nat) :
    ∀ (fuel : Nat) (cur : WorkItem) (s : RecState) (cut : List Net) (G : List Nat),
    RecInv P N T k s.H cur s → CutInv G [(s.H, cut)] → (s.H.vertices.map (·.weight)).sum ≤ L →
    (∀ j ∈ cur :: s.jobs, 0 ≤ j.weight ∧ j.weight ≤ L) →
    (aloneLoop P C path base M fuel cur s cut).Follows (aloneLoop64 { P with bis := B } C path base M fuel cur s cut) := by
  intro fuel
  induction fuel with
  | zero => intro cur s cut G _ _ _ _; trivial
  | succ fuel ih =>
    intro cur s cut G hI hC hT hj
    unfold aloneLoop aloneLoop64
    by_cases hlh : cur.low < cur.high
    · rw [if_pos (by omega), if_pos (by omega)]
      have hl := hI.labels cur (List.mem_cons_self ..)
      have hcw := hj cur (List.mem_cons_self ..)
      have hrg := fun hw => hI.ranges cur (List.mem_cons_self ..) hw hlh
      have hMk' : M * (cur.high - cur.low + 1) ≤ L := by
        refine le_trans (mul_le_mul_of_nonneg_left ?_ hM) hMk
        omega
      rw [splitStep64_eq hL hr hB hM hI.fit hT hlh hMk' hcw.1 hcw.2 hrg]
      rcases splitStep_spec hbis hd M hI.fit hI.nonempty hlh hrg with ⟨-, h⟩ |
        ⟨-, cur', s', h, S', E', H1, H2, w0, w1, a1, a2, a3, a4, a5⟩
      · rw [h]; trivial
      · obtain ⟨hI', hw'⟩ := hI.step hlh a1 a2 a3 a4 a5
        rw [h]
        dsimp only
        have hK : Kept N [s.H] [s'.H] := kept_local (fit_dist hI.fit)
          (.cons ⟨hI'.fit.wf, (hI'.lambda hc).2, hI'.verts, hI'.sizes⟩ .nil)
        have hC2 : CutInv G [(s'.H, cut)] := kept_inv (cuts := [cut]) (fit_dist hI.fit) hK rfl hC
        have hsum : (s'.H.vertices.map (·.weight)).sum = (s.H.vertices.map (·.weight)).sum := by
          have := (hI'.verts.map Prod.snd).sum_eq
          simpa [List.map_map, Function.comp_def] using this
        have hF := relabels_fit a5.relabels hI.fit
        have hnn : WeightsNonneg H1 := fun v hv => le_of_lt (hF.pos v hv)
        have hs1 : (H1.vertices.map (·.weight)).sum = (s.H.vertices.map (·.weight)).sum := by
          rw [forall2_map_eq (relabels_forall2 a5.relabels) (fun a b hab => hab.2.2)]
        have r0 := rangeWeight_between hnn S' E' cur.low
        have r1 := rangeWeight_between hnn S' E' cur.high
        rw [← a5.w0_eq, hs1] at r0
        rw [← a5.w1_eq, hs1] at r1
        have hjobs : ∀ j ∈ cur' :: s'.jobs, 0 ≤ j.weight ∧ j.weight ≤ L := by
          intro j hjm
          rcases List.mem_cons.1 hjm with rfl | hjm
          · rw [a5.cur_weight]; omega
          · rcases a5.reorder with ⟨r, r2, -⟩ | ⟨r, r2, -⟩
            · rw [r2] at hjm
              rcases List.mem_cons.1 hjm with rfl | hjm
              · dsimp only; omega
              · exact hj j (List.mem_cons_of_mem _ hjm)
            · rw [r2] at hjm
              exact hj j (List.mem_cons_of_mem _ hjm)
        refine CutProg.Follows.andThen (S := False) ?_
          (aloneRemove_ends C path base hI'.fit (E := fun _ => True) trivial hC2) (.refl _)
        rintro G' ⟨t, cut'⟩ ⟨b1, b2, b3, b4, b5⟩
        have hR := hI'.rebase hc b2 b3
        dsimp only at b1 b3 b5
        rw [← b1] at hR
        have hjt : t.jobs = s'.jobs := by rw [b1]
        exact ih cur' t cut' G' hR b5 (by rw [core_weight b3, hsum]; exact hT) (by rw [hjt]; exact hjobs)
    · rw [if_neg (by omega), if_neg (by omega)]
      cases hjb : s.jobs with
      | nil => rfl
      | cons j js =>
        obtain ⟨hI', hw'⟩ := hI.pop hlh hjb
        exact ih j { s with jobs := js } cut G hI' hC hT (by
          intro i hi
          refine hj i (List.mem_cons_of_mem _ ?_)
          rw [hjb]
          exact hi)

theorem aloneCut64_follows {P : ParRecEnv} {N T k : Nat} {Bad : Err → Prop} (hP : ParRecEnvOk P N T Bad)
    (hN : N < 2147483648) {B : List Bool → ParBisector} {Al : List Bool → Bisector} {p0 : Nat} {L X : Int} {eta : ℚ}
    (hS : Small P B Al N T p0 L X eta) {M : Int} (hM : 0 ≤ M) (hMk : M * k ≤ L) (C : CutEnv) (path : List Bool)
    (base : Nat) {labels : Interval} {weight : Int} (hw0 : 0 ≤ weight) (hw1 : weight ≤ L) (splits : Nat) {x : RecProc}
    {cut : List Net} (hI : GroupInv N T k labels [x]) (hL : weightOn ([x].map (·.H)) ≤ L) {G : List Nat}
    (hC : CutInv G [(x.H, cut)]) :
    (aloneCut P C M k path base labels weight splits x cut).Follows
      (aloneCut64 { P with bis := B, alone := Al } C M k path base labels weight splits x cut) := by
  have hRI := alone_recInv (P := P) hN path weight hI
  have hle := hI.le
  have hc := count_eq hI.le
  unfold aloneCut aloneCut64
  have h1 := aloneLoop_ends (S := False) (hP.alone path) (fun _ _ => .refl _) rfl C path base M (E := fun _ => True) trivial
    (2 * labels.count)
    { start := 0, fin := x.fin, low := labels.low, high := labels.high, weight := weight }
    { H := x.H, rng := x.rng, jobs := [], cut := [], splits := 0, calls := [] } cut
    G hRI hC (by
      unfold work
      simp only [List.map_nil, List.sum_nil]
      omega) (by intro j hj; cases hj)
  refine CutProg.Follows.andThen (fun _ _ _ => .refl _) h1 ?_
  exact aloneLoop64_follows hS.size (P := P.recEnv path) hP.rounds (B := Al path) (hP.alone path) (hS.alone path)
    (fun _ _ => .refl _) rfl hM hMk C path base (2 * labels.count) _ _ cut G hRI hC (by simpa [weightOn] using hL) (by
      intro j hj
      simp only [List.mem_singleton] at hj
      subst hj
      exact ⟨hw0, hw1⟩)

/-! ### Groups -/

theorem cutRedist64_follows {P : ParRecEnv} {N T k : Nat} {Bad : Err → Prop} (hP : ParRecEnvOk P N T Bad)
    {B : List Bool → ParBisector} {Al : List Bool → Bisector} {p0 : Nat} {L X : Int} {eta : ℚ}
    (hS : Small P B Al N T p0 L X eta) (C : CutEnv) (path : List Bool) (base : Nat) {labels : Interval}
    {xs : List (RecProc × List Net)} (hI : GroupInv N T k labels (xs.map (·.1))) (hlh : labels.low < labels.high)
    (hp : xs.length ≤ p0) (hL : weightOn ((xs.map (·.1)).map (·.H)) ≤ L) {sp : ParSplit} {rs : List RState}
    (hF : SplitFactsPar P eta path N labels (xs.map (·.1)) sp rs) :
    (cutRedist P C eta path base labels sp rs (xs.map (·.2))).Follows
      (cutRedist64 { P with bis := B, alone := Al } C eta path base labels sp rs (xs.map (·.2))) := by
  have hK1 := hF.bis.kept N hI.dist
  have hlen : rs.length = xs.length := by
    have := hF.bis.relabels.length_eq
    rw [List.length_map] at this
    exact this.symm
  have hK2 := kept_cutKept (cuts := xs.map (·.2)) hI.dist hK1 (by simp)
  unfold cutRedist cutRedist64
  refine CutProg.Follows.andThen (S := False) ?_ (removeSync_ends C path base
    (fun x hx => hK2.dist.wf _ (List.mem_map_of_mem hx)) (E := fun _ => True) trivial []) (.refl _)
  rintro G' ys ⟨ids, -, hA, -⟩
  obtain ⟨hW, hH⟩ := withRest_facts rs _ ys (by simp [hlen]) hA
  obtain ⟨rs', hrs'⟩ : ∃ rs', rs' = withRest rs ys := ⟨_, rfl⟩
  rw [← hrs'] at hW hH ⊢
  have hlen' : rs'.length = xs.length := by rw [← hW.length_eq]; exact hlen
  have hWL : weightOn (rs.map (·.H)) ≤ L := by rw [hK1.weightOn]; exact hL
  have hs := sides_le hF.bis.pos (low := labels.low) (high := labels.high) (by omega)
  have f0 := hF.w0
  have f1 := hF.w1
  have hLL := hS.size
  have hXX := hS.le
  have hL0 := hS.nonneg
  have hpr := hI.procs
  have hpl := hF.plow_le
  rw [List.length_map] at hpr hpl
  obtain ⟨e1, e2⟩ := redistArgs64_eq hP.keeps hP.rounds (w0 := sp.w0) (w1 := sp.w1) (L := L) (X := X) (by omega) (by omega)
    (by omega) (by omega) (by omega) (rs := rs') (by rw [hlen']; exact hpr) (plow := sp.plow)
    (by rw [hlen']; exact hpl) hS.etas hS.big hS.lt
  have := redistribute64_eq (X := X) (by omega) (args := redistArgs P.rnd eta sp.w0 sp.w1 sp.plow rs') (by
      rw [redistArgs_length, hlen']
      refine lt_of_le_of_lt (mul_le_mul_of_nonneg_right ?_ ?_) hS.room <;> omega) (by
      intro a ha
      obtain ⟨t, ht⟩ := List.mem_iff_getElem?.1 ha
      have hm := e2 a ha
      obtain ⟨r', hr', rfl⟩ := redistArgs_get ht
      obtain ⟨r, hrm, w0e, w1e, hcore⟩ := forall2_mem_right hW (List.mem_of_getElem? hr')
      have hw := hF.bis.weights r hrm
      have hl := partWeight_le_on hF.bis.pos (low := labels.low) (high := labels.high) (by omega)
        (List.mem_map_of_mem (f := fun r : RState => r.H) hrm)
      refine ⟨?_, hm, by dsimp only; omega, by dsimp only; omega⟩
      intro v hv
      obtain ⟨u, hu, -, ew, -⟩ := core_mem hcore hv
      have h5 := hF.bis.pos _ (List.mem_map_of_mem hrm) u hu
      have h6 := weight_le_on hF.bis.pos (List.mem_map_of_mem (f := fun r : RState => r.H) hrm) hu
      omega) (P.ord path) (P.dVert path) (P.dCost path) sp.plow labels.low labels.high
  dsimp only
  rw [e1, ok_bind, this]
  exact .refl _

theorem CutKept.weightOn {N : Nat} {xs ys : List (Hypergraph × List Net)} (h : CutKept N xs ys) :
    PMondriaan.weightOn (ys.map (·.1)) = PMondriaan.weightOn (xs.map (·.1)) := by
  unfold PMondriaan.weightOn
  have := (h.verts.map Prod.snd).sum_eq
  simpa [List.map_map, Function.comp_def] using this

theorem bare_fst (xs : List (RecProc × List Net)) : (bare xs).map (·.1) = (xs.map (·.1)).map (·.H) := by
  unfold bare
  rw [List.map_map, List.map_map]
  rfl

theorem recCut64_follows {P : ParRecEnv} {N T k : Nat} {Bad : Err → Prop} (hP : ParRecEnvOk P N T Bad)
    (hN : N < 2147483648) {B : List Bool → ParBisector} {Al : List Bool → Bisector} {p0 : Nat} {L X : Int} {eta : ℚ}
    (hS : Small P B Al N T p0 L X eta) {M : Int} (hM : 0 ≤ M) (hMk : M * k ≤ L) (C : CutEnv) : ∀ (fuel : Nat)
    (path : List Bool) (base : Nat) (labels : Interval) (weight : Int) (splits : Nat) (xs : List (RecProc × List Net))
    (G : List Nat), GroupInv N T k labels (xs.map (·.1)) → CutInv G (bare xs) → xs.length ≤ p0 → 0 ≤ weight → weight ≤ L →
    weightOn ((xs.map (·.1)).map (·.H)) ≤ L →
    (recCut P C eta M k fuel path base labels weight splits xs).Follows
      (recCut64 { P with bis := B, alone := Al } C eta M k fuel path base labels weight splits xs) := by
  intro fuel
  induction fuel with
  | zero => intro path base labels weight splits xs G _ _ _ _ _ _; trivial
  | succ f ih =>
    intro path base labels weight splits xs G hI hC hp hw0 hw1 hL
    match xs, hI, hC with
    | [], _, _ => rfl
    | [x], hI, hC => exact aloneCut64_follows hP hN hS hM hMk C path base hw0 hw1 splits hI hL hC
    | x :: y :: l, hI, hC =>
      have hlh : labels.low < labels.high := by
        rcases hI.proper with h | h
        · cases h
        · exact h
      obtain ⟨xs, hxs⟩ : ∃ xs, xs = x :: y :: l := ⟨_, rfl⟩
      have hu : recCut P C eta M k (f + 1) path base labels weight splits (x :: y :: l) =
          (match groupHead P M path labels weight (xs.map (·.1)) with
          | .error e => .ret (.error e)
          | .ok (split, rs, go) =>
            if go then
              (cutRedist P C eta path base labels split rs (xs.map (·.2))).andThen (fun zs =>
                bothSides split.plow zs.length
                  (recCut P C eta M k f (path ++ [true]) base (lowLabels labels) split.w0 (splits + 1)
                    (zs.take split.plow))
                  (recCut P C eta M k f (path ++ [false]) (base + split.plow) (highLabels labels) split.w1
                    (splits + 1) (zs.drop split.plow)))
            else lastRemove C path base k (splits + 1) ((rs.map (·.H)).zip (xs.map (·.2)))) := by
        rw [hxs]
        conv_lhs => unfold recCut
        rw [if_pos (show labels.length > 0 by unfold Interval.length; omega)]
        rfl
      have hu' : recCut64 { P with bis := B, alone := Al } C eta M k (f + 1) path base labels weight splits (x :: y :: l) =
          (match groupHead64 { P with bis := B, alone := Al } M path labels weight (xs.map (·.1)) with
          | .error e => .ret (.error e)
          | .ok (split, rs, go) =>
            if go then
              (cutRedist64 { P with bis := B, alone := Al } C eta path base labels split rs (xs.map (·.2))).andThen (fun zs =>
                bothSides split.plow zs.length
                  (recCut64 { P with bis := B, alone := Al } C eta M k f (path ++ [true]) base (lowLabels labels) split.w0
                    (splits + 1) (zs.take split.plow))
                  (recCut64 { P with bis := B, alone := Al } C eta M k f (path ++ [false]) (base + split.plow)
                    (highLabels labels) split.w1 (splits + 1) (zs.drop split.plow)))
            else lastRemove C path base k (splits + 1) ((rs.map (·.H)).zip (xs.map (·.2)))) := by
        rw [hxs]
        conv_lhs => unfold recCut64
        rw [if_pos (show labels.length > 0 by unfold Interval.length; omega)]
        rfl
      rw [hu, hu']
      rw [← hxs] at hI hC hp hL
      have h2 : 2 ≤ (xs.map (·.1)).length := by rw [hxs]; simp
      clear hu hu' hxs x y l
      rcases groupHead_spec hP hS.etas M path weight hI h2 hlh with ⟨sp, rs, hF, -, -, h⟩ | ⟨e, h, -⟩
      swap
      · rw [h]; trivial
      rw [groupHead64_of hP hS hM path hI h2 hlh (by rw [List.length_map]; exact hp) hw0 hw1 hMk hL h, h]
      dsimp only
      by_cases h3 : 3 ≤ labels.count
      swap
      · rw [if_neg (by simpa using h3), if_neg (by simpa using h3)]
        exact .refl _
      rw [if_pos (by simpa using h3), if_pos (by simpa using h3)]
      refine CutProg.Follows.andThen (S := False) ?_
        (cutRedist_ends hP C path base hI h3 hF (E := fun _ => True) trivial hC)
        (cutRedist64_follows hP hS C path base hI hlh hp hL hF)
      rintro G' zs ⟨hK, hC', g0, g1, hzl⟩
      have b0 : ∀ z ∈ bare (zs.take sp.plow), z ∈ bare zs := by
        unfold bare
        rw [List.map_take]
        exact fun z hz => List.mem_of_mem_take hz
      have b1 : ∀ z ∈ bare (zs.drop sp.plow), z ∈ bare zs := by
        unfold bare
        rw [List.map_drop]
        exact fun z hz => List.mem_of_mem_drop hz
      have hW : weightOn (rs.map (·.H)) ≤ L := by rw [(hF.bis.kept N hI.dist).weightOn]; exact hL
      have hs := sides_le hF.bis.pos (low := labels.low) (high := labels.high) (by omega)
      have f0 := hF.w0
      have f1 := hF.w1
      have hzw := hK.weightOn
      rw [bare_fst, bare_fst] at hzw
      have hsplit : (zs.map (·.1)).map (·.H) =
          ((zs.take sp.plow).map (·.1)).map (·.H) ++ ((zs.drop sp.plow).map (·.1)).map (·.H) := by
        rw [← List.map_append, ← List.map_append, List.take_append_drop]
      rw [hsplit, weightOn_append] at hzw
      have z0 := weightOn_nonneg g0.pos
      have z1 := weightOn_nonneg g1.pos
      have i0 := ih (path ++ [true]) base _ sp.w0 (splits + 1) _ G' g0 (hC'.sub b0) (by rw [List.length_take]; omega)
        (by omega) (by omega) (by omega)
      have i1 := ih (path ++ [false]) (base + sp.plow) _ sp.w1 (splits + 1) _ G' g1 (hC'.sub b1)
        (by rw [List.length_drop]; omega) (by omega) (by omega) (by omega)
      unfold bothSides
      split
      · exact i1
      · split
        · exact i0
        · exact (CutProg.Follows.both i0 i1).map _

end PMondriaan

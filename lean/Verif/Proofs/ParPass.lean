import Verif.Proofs.ParRounds

/-
`KLFM_pass_par`: the start, the return to the best point, and the whole pass.
-/

namespace PMondriaan

open Spec

/-- What the processors hold between two passes. `cut` is the cutsize they agree on. -/
def PassInv (E : Prop) (N : Nat) (Hs : List Hypergraph) (S cut : Int) (P : Nat → Int)
    (ps : List ParResult) : Prop :=
  ∃ (r : Nat → ParResult) (L : Nat → Nat → List Nat), ps = (List.range Hs.length).map r ∧
    GParts01 Hs P ∧ cut = cutNet P (unionH N Hs).nets ∧
    ∀ t, t < Hs.length → (r t).H = conc (hAt Hs t) P (L t) ∧ PinsPerm (hAt Hs t) (L t) ∧
      AllSplit (hAt Hs t) P (L t) ∧ (r t).C = cOf (hAt Hs t) (globF Hs P) ∧
      (r t).L = cOf (hAt Hs t) (exactF P (L t)) ∧ (r t).cut = cut ∧
      (r t).w.w0 + (r t).w.w1 = S ∧ (E → (r t).w = ⟨gw Hs P 0, gw Hs P 1⟩)

theorem mapM_rangeMap {α β : Type} {p : Nat} {r : Nat → α} {f : α → Res β} {g : Nat → β}
    (h : ∀ t, t < p → f (r t) = .ok (g t)) :
    ((List.range p).map r).mapM f = .ok ((List.range p).map g) := by
  rw [List.mapM_map]
  apply mapM_ok
  intro t ht
  exact h t (List.mem_range.1 ht)

/-! ### The start -/

theorem parStart_proc {B E A : Prop} {N : Nat} {Hs : List Hypergraph} {np : NetPart} (b : ParBase N Hs np)
    (hc : ∀ H ∈ Hs, CostsNonneg H) {procs : Nat → List Nat} {own : List OwnerData}
    (ho : OwnSpec N Hs np procs own) {d : Delivery (Nat × Cnt)} (hd : Fair d) {max0 max1 S cut : Int}
    {P : Nat → Int} {ps : List ParResult} (h : PassInv E N Hs S cut P ps)
    (hA : A → ∀ q ∈ ps, q.w.w0 ≤ max0 ∧ q.w.w1 ≤ max1) :
    ∃ (M : Nat → Nat) (q : Nat → ProcState) (n : Nat → Nat),
      parStart d np own ps = .ok ((List.range Hs.length).map q) ∧
      (∀ t, t < Hs.length → MaxCost (hAt Hs t) (M t)) ∧
      (∀ t, t < Hs.length → ProcInv B E A Hs np M max0 max1 S P P cut t (n t) [] (q t)) ∧
      (∀ t, t < Hs.length → n t ≤ (hAt Hs t).vertices.length) ∧
      (∀ t, (q t).done = false) := by
  obtain ⟨r, L, rfl, h01, hcut, hr⟩ := h
  have hwf : ∀ t, t < Hs.length → WF (hAt Hs t) := fun t ht => b.D.wf _ (hAt_mem ht)
  have hex : ∀ t, t < Hs.length → ∃ (M : Nat) (s : GainStructure) (G : Nat → Option Int),
      GainStructure.create (r t).H (r t).C = .ok s ∧ MaxCost (hAt Hs t) M ∧
      GInv (hAt Hs t) M P (L t) (globF Hs P) G s ∧
      ∀ x ∈ (hAt Hs t).vertices, G x.id = some (gainSum (hAt Hs t) (globF Hs P) P x) := by
    intro t ht
    obtain ⟨hH, hL, hS, hC, -⟩ := hr t ht
    rw [hH, hC]
    exact create_ok (hwf t ht) (hc _ (hAt_mem ht)) (h01 _ (hAt_mem ht)) (globF Hs P)
  choose! M s G hcr hM hG hGx using hex
  refine ⟨M, fun t =>
      { u := uOf Hs np P t (s t), L := (r t).L, w := (r t).w, best := (r t).cut, noImp := [],
        done := false, rng := (r t).rng }, fun t => unlocked (hAt Hs t) (G t), ?_, hM, ?_,
      fun t ht => unlocked_le _, fun _ => rfl⟩
  · unfold parStart
    simp only [List.length_map, List.length_range]
    rw [mapM_rangeMap (g := s) (fun t ht => hcr t ht)]
    simp only [ok_bind]
    have e1 : ((List.range Hs.length).map r).map (fun q => (q.H, q.C)) =
        (List.range Hs.length).map (fun t => (conc (hAt Hs t) P (L t), cOf (hAt Hs t) (globF Hs P))) := by
      rw [List.map_map]
      apply List.map_congr_left
      intro t ht
      obtain ⟨hH, -, -, hC, -⟩ := hr t (List.mem_range.1 ht)
      simp only [Function.comp_apply]
      rw [hH, hC]
    rw [e1, initPreviousC_ok b ho hd]
    simp only [ok_bind]
    apply mapM_ok
    intro t ht
    have ht := List.mem_range.1 ht
    rw [vget_ok (rangeMap_get ht _)]; simp only [ok_bind]
    rw [vget_ok (rangeMap_get ht _)]; simp only [ok_bind]
    rw [vget_ok (rangeMap_get ht _)]; simp only [ok_bind, pure_eq_ok]
    obtain ⟨-, -, -, hC, -⟩ := hr t ht
    have : (r t).C.map (·.c0) = c0Of (hAt Hs t) (globF Hs P) := by
      rw [hC]; unfold cOf c0Of; rw [List.map_map]; rfl
    rw [this]; rfl
  · intro t ht
    obtain ⟨hH, hL, hS, hC, hLc, hct, hw, hwB⟩ := hr t ht
    have hv : ∀ n ∈ (hAt Hs t).nets, globF Hs P n.id =
        viewF P (L t) (remF Hs (hAt Hs t) P) n.id := fun n hn => (view_glob (hwf t ht) hL hn).symm
    have gi := hG t ht
    refine ⟨L t, G t, rfl, ⟨⟨gi.hH, ?_, gi.hg, gi.i0, gi.i1, gi.m0, gi.m1⟩, ?_, h01 _ (hAt_mem ht), hL,
      hS, hLc⟩, rfl, hct, by simp, fun _ _ => rfl, hw, fun a => hA a _ (List.mem_map_of_mem
        (List.mem_range.2 ht)), hwB, fun e a => ?_, fun x hx => by simp [hGx t ht x hx]⟩
    · show (s t).C = _
      rw [gi.hC, cOf_congr hv]
    · intro _ x hx g hg
      rw [hGx t ht x hx] at hg
      rw [← Option.some.inj hg]
      exact gainSum_congr (hwf t ht) P hv hx
    · have := hA a _ (List.mem_map_of_mem (List.mem_range.2 ht))
      rw [hwB e] at this
      exact this

/-- The state before the first round. -/
theorem parStart_ok {B E A : Prop} {N : Nat} {Hs : List Hypergraph} {np : NetPart} (b : ParBase N Hs np)
    (hc : ∀ H ∈ Hs, CostsNonneg H) {procs : Nat → List Nat} {own : List OwnerData}
    (ho : OwnSpec N Hs np procs own) {d : Delivery (Nat × Cnt)} (hd : Fair d) {max0 max1 S cut : Int}
    {P : Nat → Int} {ps : List ParResult} (h : PassInv E N Hs S cut P ps)
    (hA : A → ∀ q ∈ ps, q.w.w0 ≤ max0 ∧ q.w.w1 ≤ max1) (Z : Prop) (K : Nat) :
    ∃ M l n, parStart d np own ps = .ok l ∧ (∀ t, t < Hs.length → MaxCost (hAt Hs t) (M t)) ∧
      RoundInv Z B E A N Hs np M max0 max1 S cut K P n l ∧
      (∀ t, t < Hs.length → n t ≤ (hAt Hs t).vertices.length) ∧
      (Hs ≠ [] → ¬ l.all (·.done) = true) := by
  obtain ⟨r, L, rfl, h01, hcut, hr⟩ := id h
  obtain ⟨M, q, n, h1, hM, hq, hn, hd⟩ := parStart_proc b hc ho hd h hA
  refine ⟨M, _, n, h1, hM, ⟨q, P, P, cut, [P], fun _ => [], rfl, h01, h01, hcut, Int.le_refl _, hq,
    fun _ => ?_⟩, hn, ?_⟩
  · have : (fun t => (q t).done) = fun _ => false := funext hd
    rw [this]; exact .start
  · intro hne
    obtain ⟨H, l, rfl⟩ := List.exists_cons_of_ne_nil hne
    simp only [List.all_map, List.all_eq_true, List.mem_range, Function.comp_apply, not_forall]
    exact ⟨0, by simp, by simp [hd]⟩

/-! ### Back to the best point -/

theorem foldl_setInsertN (l s : List Nat) (hs : s.Nodup) :
    (l.foldl setInsert s).Nodup ∧ ∀ x, x ∈ l.foldl setInsert s ↔ x ∈ s ∨ x ∈ l := by
  induction l generalizing s with
  | nil => exact ⟨hs, by simp⟩
  | cons a l ih =>
    obtain ⟨h1, h2⟩ := ih (setInsert s a) (setInsert_nodup _ hs)
    refine ⟨h1, fun x => ?_⟩
    rw [List.foldl_cons, h2, setInsert_spec]
    simp only [List.mem_cons]
    tauto

/-- The reversal on the functional view. -/
structure BInvP (H : Hypergraph) (R : Nat → Cnt) (P0 P : Nat → Int) (L : Nat → List Nat)
    (l : List Nat) (st : BackState) : Prop where
  hH : st.H = conc H P L
  hC : st.C = cOf H (viewF P L R)
  hLc : st.L = cOf H (exactF P L)
  h01 : Parts01 H P
  hL : PinsPerm H L
  hS : AllSplit H P L
  hP : P = flips P0 l
  wc : st.wc = pw H P 0 - pw H P0 0
  wc1 : st.wc = pw H P0 1 - pw H P 1
  nd : st.changed.Nodup
  ch : ∀ e, e ∈ st.changed ↔ ∃ x ∈ H.vertices, x.id ∈ l ∧ e ∈ x.nets

theorem back_ok {H : Hypergraph} (w : WF H) {R : Nat → Cnt} {P : Nat → Int} {L : Nat → List Nat}
    (h01 : Parts01 H P) (hL : PinsPerm H L) (hS : AllSplit H P L) (l : List Nat)
    (hl : ∀ v ∈ l, IsVertex H v) :
    ∃ st L', l.foldlM backStep (BackState.mk (conc H P L) (cOf H (viewF P L R)) (cOf H (exactF P L))
        0 []) = .ok st ∧ BInvP H R P (flips P l) L' l st := by
  obtain ⟨st, h1, L', h2⟩ := foldlM_inv (f := backStep)
    (fun pre _ st => ∃ L', BInvP H R P (flips P pre) L' pre st) l
    (BackState.mk (conc H P L) (cOf H (viewF P L R)) (cOf H (exactF P L)) 0 [])
    ⟨L, rfl, rfl, rfl, h01, hL, hS, rfl, by simp [flips], by simp [flips], by simp, by simp⟩ (by
      rintro pre v post st ⟨L1, h⟩ hpl
      obtain ⟨x, hx, hxv⟩ := List.mem_map.1 (hl v (by rw [hpl]; simp))
      have hxv : x.id = v := hxv
      subst hxv
      obtain ⟨L2, hm, hL2, hS2⟩ := hmoveLoc_conc (R := R) w h.h01 h.hL h.hS hx
      unfold backStep
      rw [h.hH, conc_vertexOf w _ _ hx]
      simp only [ok_bind]
      rw [h.hC, h.hLc, hm]
      simp only [ok_bind, pure_eq_ok]
      have hpx := h.h01 x hx
      refine ⟨_, rfl, L2, ?_⟩
      rw [flips_append]
      obtain ⟨hnd, hmem⟩ := foldl_setInsertN x.nets st.changed h.nd
      refine ⟨rfl, rfl, rfl, flip_01 h.h01 _ hpx, hL2, hS2, (flips_append _ _ _).symm, ?_, ?_, hnd, ?_⟩
      · simp only
        rw [pw_flip w hx hpx (Or.inl rfl), h.wc]
        rcases hpx with hp | hp <;> simp [hp] <;> omega
      · simp only
        rw [pw_flip w hx hpx (Or.inr rfl), h.wc1]
        rcases hpx with hp | hp <;> simp [hp] <;> omega
      · intro e
        simp only
        rw [hmem, h.ch]
        constructor
        · rintro (⟨y, hy, hyl, he⟩ | he)
          · exact ⟨y, hy, by simp [hyl], he⟩
          · exact ⟨x, hx, by simp, he⟩
        · rintro ⟨y, hy, hyl, he⟩
          rcases List.mem_append.1 hyl with hyl | hyl
          · exact Or.inl ⟨y, hy, hyl, he⟩
          · have : y.id = x.id := by simpa using hyl
            rw [List.inj_on_of_nodup_map w.vids hy hx this] at he
            exact Or.inr he)
  exact ⟨st, L', h1, h2⟩

theorem backSends_ok {N p : Nat} {np : NetPart} (hv : np.Valid p N) {H : Hypergraph} (w : WF H)
    (hid : ∀ n ∈ H.nets, n.id < N) {R : Nat → Cnt} {P0 P : Nat → Int} {L : Nat → List Nat}
    {l : List Nat} {st : BackState} (h : BInvP H R P0 P L l st) :
    backSends p np st = .ok (reports np st.changed (fun e => (viewF P L R e).c0)) := by
  unfold backSends reports
  apply mapM_ok
  intro e he
  obtain ⟨x, hx, -, hex⟩ := (h.ch e).1 he
  obtain ⟨n, hn, hne, -⟩ := w.inc_net x hx e hex
  subst hne
  obtain ⟨j, hj⟩ := List.getElem?_of_mem hn
  rw [h.hH, conc_localIdNet, w.localIdNet_of_get hj]
  simp only [ok_bind]
  rw [h.hC, vget_ok (a := viewF P L R n.id) (by simp [cOf, hj])]
  simp only [ok_bind]
  unfold send
  rw [if_pos (hv.owner_lt _ (hid n hn))]

/-- The end of the pass. -/
theorem parFinish_ok {B E A : Prop} {N : Nat} {Hs : List Hypergraph} {np : NetPart} {M : Nat → Nat}
    {max0 max1 : Int} {fuel : Nat} (c : PassCtx B E A N Hs np M max0 max1 fuel)
    {procs : Nat → List Nat} {own : List OwnerData} (ho : OwnSpec N Hs np procs own)
    {pe : PassEnv} (hpe : PassFair pe) {Z : Prop} {S best0 : Int} {K : Nat} {P0 : Nat → Int}
    {n : Nat → Nat} {l : List ProcState}
    (h : RoundInv Z B E A N Hs np M max0 max1 S best0 K P0 n l) (hdone : l.all (·.done) = true) :
    ∃ ps cut P, parFinish pe np own l = .ok ps ∧ PassInv E N Hs S cut P ps ∧ cut ≤ best0 ∧
      (E → A → ∀ q ∈ ps, q.w.w0 ≤ max0 ∧ q.w.w1 ≤ max1) ∧ (Z → ParKeeps N Hs max0 max1 K P0 P) := by
  obtain ⟨q, P, Pb, best, vs, ls, rfl, h01, h01b, hbest, hb0, hq, hrun⟩ := h
  choose! Lq Gq hu hl hn hqb hni hPb hS hbA hwE hbE hlk using hq
  have hwf : ∀ t, t < Hs.length → WF (hAt Hs t) := fun t ht => c.b.D.wf _ (hAt_mem ht)
  have hex : ∀ t, t < Hs.length → ∃ st L', (q t).noImp.foldlM backStep
      { H := (q t).u.gs.H, C := (q t).u.gs.C, L := (q t).L, wc := 0, changed := [] } = .ok st ∧
      BInvP (hAt Hs t) (remF Hs (hAt Hs t) P) P (flips P (q t).noImp) L' (q t).noImp st := by
    intro t ht
    have hI := hl t ht
    rw [hI.inv.hH, hI.inv.hC, hI.hLc]
    exact back_ok (hwf t ht) hI.h01 hI.hL hI.hS _ (hni t ht)
  choose! bs Lb hbs hbi using hex
  unfold parFinish
  simp only [List.length_map, List.length_range]
  rw [mapM_rangeMap (g := bs) (fun t ht => hbs t ht)]
  simp only [ok_bind]
  rw [mapM_rangeMap (g := fun t => reports np (bs t).changed (fun e =>
    (viewF (flips P (q t).noImp) (Lb t) (remF Hs (hAt Hs t) P) e).c0))
    (fun t ht => backSends_ok c.b.hv (hwf t ht) (fun n hn => c.b.D.ids _ (hAt_mem ht) n hn) (hbi t ht))]
  simp only [ok_bind]
  have hloc : ∀ t, t < Hs.length → ∀ u, IsVertex (hAt Hs t) u → flips P (q t).noImp u = Pb u :=
    fun t ht u hu => (hPb t ht u hu).symm
  have hin : ∀ t, t < Hs.length → ∀ e ∈ (bs t).changed, e ∈ (hAt Hs t).nets.map (·.id) := by
    intro t ht e he
    obtain ⟨x, hx, -, hex⟩ := ((hbi t ht).ch e).1 he
    obtain ⟨n, hn, hne, -⟩ := (hwf t ht).inc_net x hx e hex
    rw [← hne]; exact List.mem_map_of_mem hn
  have houts : (List.range Hs.length).map (fun t => reports np (bs t).changed (fun e =>
      (viewF (flips P (q t).noImp) (Lb t) (remF Hs (hAt Hs t) P) e).c0)) =
      (List.range Hs.length).map (fun t => reports np (bs t).changed (claim0 Hs P Pb t)) := by
    apply List.map_congr_left
    intro t ht
    have ht := List.mem_range.1 ht
    apply reports_congr
    intro e he
    obtain ⟨nn, hnn, hne⟩ := List.mem_map.1 (hin t ht e he)
    have hne : nn.id = e := hne
    rw [← hne]
    unfold claim0
    rw [locF_exact (hwf t ht) (hbi t ht).hL hnn,
      ← exactF_congrP (hwf t ht) (hbi t ht).hL (hloc t ht) hnn]
    rfl
  have hzip : (List.zip ((List.range Hs.length).map q) ((List.range Hs.length).map bs)).map
      (fun x => { x.1.u with gs := { x.1.u.gs with H := x.2.H, C := x.2.C } }) =
      (List.range Hs.length).map (fun t => uOf Hs np P t
        { (q t).u.gs with H := (bs t).H, C := (bs t).C }) := by
    rw [List.zip_map', List.map_map]
    apply List.map_congr_left
    intro t ht
    have ht := List.mem_range.1 ht
    simp only [Function.comp_apply]
    have := hu t ht
    generalize (q t).u = u at this ⊢
    rw [this]; rfl
  rw [houts, hzip]
  have hupd := updateC_out (B := True) c.b ho h01 h01b hpe.lastUp hpe.lastDown (fun t => (bs t).changed)
    (fun s hs => (hbi s hs).nd) hin
    (fun s hs nn hnn hnot => by
      have e1 : locF (hAt Hs s) Pb nn.id = locF (hAt Hs s) P nn.id := by
        unfold locF exactF
        rw [pinsOf_eq (hwf s hs) hnn]
        have hsame : ∀ u ∈ nn.vertices, Pb u = P u := by
          intro u huu
          obtain ⟨x, hx, hxu, hxn⟩ := (hwf s hs).inc_vtx nn hnn u huu
          rw [← hloc s hs u (by rw [← hxu]; exact List.mem_map_of_mem hx)]
          apply flips_notMem
          intro hmem
          exact hnot (((hbi s hs).ch nn.id).2 ⟨x, hx, by rw [hxu]; exact hmem, hxn⟩)
        have : ∀ z : Int, nn.vertices.countP (fun u => decide (Pb u = z)) =
            nn.vertices.countP (fun u => decide (P u = z)) := by
          intro z
          apply List.countP_congr
          intro u huu
          rw [hsame u huu]
        rw [this 0, this 1]
      rw [e1])
    Lb (fun t ht => (hbi t ht).hL) (fun t => { (q t).u.gs with H := (bs t).H, C := (bs t).C })
    (fun t ht => by
      simp only
      rw [(hbi t ht).hH, conc_congrP _ (hloc t ht)]) false (fun _ _ => True)
    (fun t ht => by
      unfold runIf
      rw [if_neg (by simp)]
      refine Outcome.pure' ⟨?_, trivial⟩
      simp only
      rw [(hbi t ht).hH, conc_congrP _ (hloc t ht)])
  rcases hupd with ⟨us, hus1, hulen, hus⟩ | ⟨hf, -⟩
  swap
  · exact absurd trivial hf
  rw [hus1]; simp only [ok_bind]
  have huget : ∀ t, t < Hs.length → ∃ u, us[t]? = some u := by
    intro t ht
    exact ⟨us[t], List.getElem?_eq_getElem (by omega)⟩
  choose! uf huf using huget
  choose! sf hsu _ hsH hsC using fun t (ht : t < Hs.length) => hus t (uf t) (huf t ht)
  set change := (((List.range Hs.length).map bs).map (·.wc)).foldl (· + ·) 0 with hch
  have hchange : change = gw Hs Pb 0 - gw Hs P 0 ∧ change = gw Hs P 1 - gw Hs Pb 1 := by
    rw [hch, foldl_add_sum, List.map_map]
    unfold gw
    rw [← sum_map_sub_range, ← sum_map_sub_range]
    constructor
    · congr 1
      apply List.map_congr_left
      intro t ht
      have ht := List.mem_range.1 ht
      simp only [Function.comp_apply]
      rw [(hbi t ht).wc, pw_congr (hloc t ht)]
    · congr 1
      apply List.map_congr_left
      intro t ht
      have ht := List.mem_range.1 ht
      simp only [Function.comp_apply]
      rw [(hbi t ht).wc1, pw_congr (hloc t ht)]
  refine ⟨_, best, Pb, mapM_ok (g := fun t =>
    { cut := (q t).best, H := (uf t).gs.H, C := (uf t).gs.C, L := (bs t).L,
      w := ⟨(q t).w.w0 + change, (q t).w.w1 - change⟩, rng := (q t).rng }) _ ?_,
    ⟨_, Lb, rfl, h01b, hbest, ?_⟩, hb0, ?_, fun z => ⟨P, vs, ls, _, hrun z, fun t ht => ?_⟩⟩
  · intro t ht
    have ht := List.mem_range.1 ht
    rw [vget_ok (rangeMap_get ht _)]; simp only [ok_bind]
    rw [vget_ok (rangeMap_get ht _)]; simp only [ok_bind]
    rw [vget_ok (huf t ht)]; simp only [ok_bind, pure_eq_ok]
  · intro t ht
    have hgs : (uf t).gs = sf t := by rw [hsu t ht]; rfl
    have hb := hbi t ht
    refine ⟨?_, hb.hL, ?_, ?_, ?_, hqb t ht, ?_, ?_⟩
    · simp only; rw [hgs, hsH t ht]
    · intro nn hnn
      obtain ⟨z, o, h1, h2, h3⟩ := hb.hS nn hnn
      refine ⟨z, o, h1, ?_, ?_⟩
      · intro u hu
        rw [← hloc t ht u (pin_vertex (hwf t ht) hb.hL hnn (by rw [h1]; simp [hu]))]
        exact h2 u hu
      · intro u hu
        rw [← hloc t ht u (pin_vertex (hwf t ht) hb.hL hnn (by rw [h1]; simp [hu]))]
        exact h3 u hu
    · simp only; rw [hgs, hsC t ht]
    · simp only
      rw [hb.hLc]
      exact cOf_congr (fun nn hnn => exactF_congrP (hwf t ht) hb.hL (hloc t ht) hnn)
    · simp only
      have := hS t ht
      omega
    · intro e
      simp only
      rw [hwE t ht e]
      simp only [W2.mk.injEq]
      obtain ⟨e0, e1⟩ := hchange
      constructor <;> omega
  · intro e a q' hq'
    obtain ⟨t, ht, rfl⟩ := List.mem_map.1 hq'
    have ht := List.mem_range.1 ht
    have h1 := hbE t ht e a
    have h2 := hwE t ht e
    obtain ⟨e0, e1⟩ := hchange
    dsimp only
    rw [h2]
    dsimp only
    omega
  · simp only [List.all_map, List.all_eq_true, List.mem_range, Function.comp_apply] at hdone
    exact hdone t ht

/-! ### The pass -/

/-- What stays fixed during `KLFM_par`. `B` excludes that anything is rejected, under `E` the reported
weights are the true ones, under `A` they start within the bounds. -/
structure ParCtx (B E A : Prop) (N : Nat) (Hs : List Hypergraph) (np : NetPart) (max0 max1 : Int)
    (fuel rounds : Nat) : Prop where
  b : ParBase N Hs np
  hc : ∀ H ∈ Hs, CostsNonneg H
  hne : B → ∀ H ∈ Hs, ∀ n ∈ H.nets, n.vertices ≠ []
  bE : B → E
  calm : B → Calm A Hs max0 max1
  hA : A → E ∧ ∀ H ∈ Hs, WeightsNonneg H
  hf : ∀ H ∈ Hs, H.vertices.length < fuel
  hr : (Hs.map (fun H => H.vertices.length)).sum < rounds

theorem KLFMPassPar_out {B E A : Prop} {N : Nat} {Hs : List Hypergraph} {np : NetPart} {max0 max1 : Int}
    {fuel rounds : Nat} (c : ParCtx B E A N Hs np max0 max1 fuel rounds) {procs : Nat → List Nat}
    {own : List OwnerData} (ho : OwnSpec N Hs np procs own) {pe : PassEnv} (hpe : PassFair pe)
    (hE : E → Calm A Hs max0 max1 ∨ (SameWeights Hs ∧ SameOrder pe))
    (K : Nat) {S cut : Int} {P : Nat → Int} {ps : List ParResult} (h : PassInv E N Hs S cut P ps)
    (hb : A → ∀ q ∈ ps, q.w.w0 ≤ max0 ∧ q.w.w1 ≤ max1) :
    Outcome B (KLFMPassPar rounds fuel K pe np max0 max1 own ps) (fun ps' => ∃ cut' P',
      PassInv E N Hs S cut' P' ps' ∧ cut' ≤ cut ∧
      (A → ∀ q ∈ ps', q.w.w0 ≤ max0 ∧ q.w.w1 ≤ max1) ∧
      (B → Hs ≠ [] → ParKeeps N Hs max0 max1 K P P')) := by
  unfold KLFMPassPar
  obtain ⟨M, l, n, h1, hM, hR, hn, hnd⟩ := parStart_ok (B := B) (A := A) (max0 := max0) (max1 := max1)
    c.b c.hc ho hpe.init h hb (B ∧ Hs ≠ []) K
  have cc : PassCtx B E A N Hs np M max0 max1 fuel :=
    ⟨c.b, c.hc, hM, c.hne, c.bE, c.calm, fun a => (c.hA a).2, c.hf⟩
  rw [h1]; simp only [ok_bind]
  refine (parRounds_out cc ho hpe hE rounds 0 hR (fun z => ⟨z.1, hnd z.2⟩)
    (lt_of_le_of_lt ?_ c.hr)).bind ?_
  · rw [map_hAt]
    exact sum_map_le (fun t ht => hn t (List.mem_range.1 ht))
  · rintro l' ⟨n', hR', hd⟩
    obtain ⟨ps', cut', P', h2, h3, h4, h5, h6⟩ := parFinish_ok cc ho hpe hR' hd
    exact Outcome.of_ok ⟨ps', h2, cut', P', h3, h4, fun a => h5 (c.hA a).1 a,
      fun hB hne => h6 ⟨hB, hne⟩⟩

theorem PassInv.cuts {E : Prop} {N : Nat} {Hs : List Hypergraph} {S cut : Int} {P : Nat → Int}
    {ps : List ParResult} (h : PassInv E N Hs S cut P ps) : ∀ q ∈ ps, q.cut = cut := by
  obtain ⟨r, L, rfl, -, -, hr⟩ := h
  intro q hq
  obtain ⟨t, ht, rfl⟩ := List.mem_map.1 hq
  exact (hr t (List.mem_range.1 ht)).2.2.2.2.2.1

/-- The loop over the passes. -/
theorem parPasses_out {B E A : Prop} {N : Nat} {Hs : List Hypergraph} {np : NetPart} {max0 max1 : Int}
    {fuel rounds : Nat} (c : ParCtx B E A N Hs np max0 max1 fuel rounds) {procs : Nat → List Nat}
    {own : List OwnerData} (ho : OwnSpec N Hs np procs own) {pes : Nat → PassEnv}
    (hpe : ∀ i, PassFair (pes i))
    (hE : E → Calm A Hs max0 max1 ∨ (SameWeights Hs ∧ ∀ i, SameOrder (pes i)))
    (K : Nat) {S : Int} (k : Nat) :
    ∀ {cut : Int} {P : Nat → Int} {ps : List ParResult} (i : Nat), PassInv E N Hs S cut P ps →
    (A → ∀ q ∈ ps, q.w.w0 ≤ max0 ∧ q.w.w1 ≤ max1) →
    Outcome B (parPasses rounds fuel K pes np max0 max1 own k i ps) (fun ps' => ∃ cut' P',
      PassInv E N Hs S cut' P' ps' ∧ cut' ≤ cut ∧
      (A → ∀ q ∈ ps', q.w.w0 ≤ max0 ∧ q.w.w1 ≤ max1) ∧
      (B → Hs ≠ [] → ParPassRun N Hs max0 max1 K k P P')) := by
  induction k with
  | zero =>
    intro cut P ps i h hbd
    exact Outcome.pure' ⟨cut, P, h, Int.le_refl _, hbd, fun _ _ => .none⟩
  | succ k ih =>
    intro cut P ps i h hbd
    unfold parPasses
    refine (KLFMPassPar_out c ho (hpe i) (fun e => (hE e).imp id (fun x => ⟨x.1, x.2 i⟩)) K h
      hbd).bind ?_
    rintro qs ⟨cut1, P1, hq, hle, hbd1, hkeep⟩
    have hcp := h.cuts
    have hcv : cut = cutNet P (unionH N Hs).nets := by
      obtain ⟨_, _, -, -, h1, -⟩ := h
      exact h1
    have hcv1 : cut1 = cutNet P1 (unionH N Hs).nets := by
      obtain ⟨_, _, -, -, h1, -⟩ := hq
      exact h1
    have hcq := hq.cuts
    have hb : ∀ x ∈ (List.zip ps qs).map (fun x => decide (x.2.cut < x.1.cut)), x = decide (cut1 < cut) := by
      intro x hx
      obtain ⟨⟨a, b⟩, hab, rfl⟩ := List.mem_map.1 hx
      have := List.of_mem_zip hab
      simp only
      rw [hcp a this.1, hcq b this.2]
    by_cases hlt : cut1 < cut
    · have : (List.zip ps qs).map (fun x => decide (x.2.cut < x.1.cut)) |>.all (· = true) := by
        rw [List.all_eq_true]
        intro x hx
        rw [hb x hx]; simp [hlt]
      simp only [this, if_true]
      refine (ih (i + 1) hq hbd1).mono ?_
      rintro ps' ⟨cut2, P2, h2, h3, hbd2, h4⟩
      exact ⟨cut2, P2, h2, by omega, hbd2, fun hB hne => .more (hkeep hB hne) (by omega) (h4 hB hne)⟩
    · have heq : cut1 = cut := by omega
      have hall : (List.zip ps qs).map (fun x => decide (x.2.cut < x.1.cut)) |>.all (· = false) := by
        rw [List.all_eq_true]
        intro x hx
        rw [hb x hx]; simp [hlt]
      have hres : (List.zip ps qs).map (fun x => { x.2 with cut := x.1.cut }) = qs := by
        obtain ⟨r, L, hps, -⟩ := h
        obtain ⟨r', L', hqs, -⟩ := hq
        subst hps; subst hqs
        rw [List.zip_map', List.map_map]
        apply List.map_congr_left
        intro t ht
        simp only [Function.comp_apply]
        rw [hcp _ (List.mem_map_of_mem ht), ← heq, ← hcq _ (List.mem_map_of_mem ht)]
      by_cases hall2 : (List.zip ps qs).map (fun x => decide (x.2.cut < x.1.cut)) |>.all (· = true)
      · -- no processors at all
        simp only [hall2, if_true]
        refine (ih (i + 1) hq hbd1).mono ?_
        rintro ps' ⟨cut2, P2, h2, h3, hbd2, -⟩
        refine ⟨cut2, P2, h2, by omega, hbd2, fun _ hne => ?_⟩
        exfalso
        obtain ⟨r, L, hps, -⟩ := h
        obtain ⟨r', L', hqs, -⟩ := hq
        obtain ⟨H, l, rfl⟩ := List.exists_cons_of_ne_nil hne
        have h0 : (r 0, r' 0) ∈ List.zip ps qs := by
          subst hps; subst hqs
          rw [List.zip_map']
          exact List.mem_map_of_mem (List.mem_range.2 (by simp))
        have h1 := hb _ (List.mem_map_of_mem h0)
        have h2 := List.all_eq_true.1 hall2 _ (List.mem_map_of_mem h0)
        simp only [hlt, decide_false] at h1
        rw [h1] at h2
        simp at h2
      · simp only [hall2, hall, if_true, hres]
        exact Outcome.pure' ⟨cut1, P1, hq, hle, hbd1, fun hB hne => .last (hkeep hB hne) (by omega)⟩

end PMondriaan

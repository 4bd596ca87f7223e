import Verif.Proofs.ParRound

/-
The rounds of `KLFM_pass_par`.
-/

namespace PMondriaan

open Spec

/-- Every message arrives exactly once, and `std::sort` returns a permutation. -/
structure PassFair (pe : PassEnv) : Prop where
  init : Fair pe.dInit
  moves : ∀ r, Fair (pe.dMoves r)
  up : ∀ r, Fair (pe.dUp r)
  down : ∀ r, Fair (pe.dDown r)
  lastUp : Fair pe.dLastUp
  lastDown : Fair pe.dLastDown
  srt : ∀ l, (pe.srt l).Perm l

/-- All processors bring the same proposals into the same order. -/
def SameOrder (pe : PassEnv) : Prop :=
  ∀ r s t l, pe.srt (pe.dMoves r s l) = pe.srt (pe.dMoves r t l)

theorem inbox_all {p t : Nat} (ht : t < p) (d : Delivery QMove) (mv : Nat → List MoveP) :
    inbox d ((List.range p).map (fun s => moveSends p s (mv s))) t = d t (qAll p mv) := by
  unfold inbox
  congr 1
  unfold qAll
  induction List.range p with
  | nil => rfl
  | cons s l ih =>
    rw [List.map_cons, List.flatten_cons, List.filter_append, List.map_append, ih,
      moveSends_filter ht, List.flatMap_cons]

/-- All processors between two rounds. `Z` is the condition under which the rounds are followed. -/
def RoundInv (Z B E A : Prop) (N : Nat) (Hs : List Hypergraph) (np : NetPart) (M : Nat → Nat)
    (max0 max1 S best0 : Int) (K : Nat) (P0 : Nat → Int) (n : Nat → Nat) (l : List ProcState) : Prop :=
  ∃ (q : Nat → ProcState) (P Pb : Nat → Int) (best : Int) (vs : List (Nat → Int))
    (ls : Nat → List Nat), l = (List.range Hs.length).map q ∧
    GParts01 Hs P ∧ GParts01 Hs Pb ∧ best = cutNet Pb (unionH N Hs).nets ∧ best ≤ best0 ∧
    (∀ t, t < Hs.length → ProcInv B E A Hs np M max0 max1 S P Pb best t (n t) (ls t) (q t)) ∧
    (Z → ParRun N Hs max0 max1 K P0 P Pb vs ls (fun t => (q t).done))

theorem found_eq (l : List (Option MoveP)) : l.filterMap (fun o => o.map (·.v)) = (kept l).map (·.v) := by
  unfold kept
  rw [List.map_filterMap]
  apply List.filterMap_congr
  intro o _
  cases o <;> rfl

theorem foldl_add_sum (l : List Int) : l.foldl (· + ·) 0 = l.sum := by
  have := foldl_add_eq_sum (fun x : Int => x) l 0
  simpa using this

theorem sum_map_le {l : List Nat} {f g : Nat → Nat} (h : ∀ i ∈ l, f i ≤ g i) :
    (l.map f).sum ≤ (l.map g).sum := by
  induction l with
  | nil => simp
  | cons a l ih =>
    have := ih (fun i hi => h i (by simp [hi]))
    have := h a (by simp)
    simp only [List.map_cons, List.sum_cons]; omega

theorem sum_map_lt {l : List Nat} {f g : Nat → Nat} (h : ∀ i ∈ l, f i ≤ g i) {t : Nat} (ht : t ∈ l)
    (hlt : f t < g t) : (l.map f).sum < (l.map g).sum := by
  induction l with
  | nil => cases ht
  | cons a l ih =>
    simp only [List.map_cons, List.sum_cons]
    have h1 := h a (by simp)
    have h2 := sum_map_le (l := l) (fun i hi => h i (by simp [hi]))
    rcases List.mem_cons.1 ht with rfl | ht
    · omega
    · have := ih (fun i hi => h i (by simp [hi])) ht
      omega

section
variable {B E A : Prop} {N : Nat} {Hs : List Hypergraph} {np : NetPart} {M : Nat → Nat}
  {max0 max1 : Int} {fuel : Nat} (c : PassCtx B E A N Hs np M max0 max1 fuel)
  {procs : Nat → List Nat} {own : List OwnerData} (ho : OwnSpec N Hs np procs own)
  {pe : PassEnv} (hpe : PassFair pe)
  (hE : E → Calm A Hs max0 max1 ∨ (SameWeights Hs ∧ SameOrder pe))
include c ho hpe hE

theorem parRound_out {Z : Prop} {K : Nat} {S best0 : Int} {P0 : Nat → Int} {n : Nat → Nat}
    {l : List ProcState} (h : RoundInv Z B E A N Hs np M max0 max1 S best0 K P0 n l)
    (hZ : Z → B ∧ ¬ l.all (·.done) = true) (r : Nat) :
    Outcome B (parRound fuel K r pe np max0 max1 own l) (fun l' => ∃ n',
      RoundInv Z B E A N Hs np M max0 max1 S best0 K P0 n' l' ∧ (∀ t, t < Hs.length → n' t ≤ n t) ∧
      (¬ l'.all (·.done) = true → ∃ t, t < Hs.length ∧ n' t < n t)) := by
  obtain ⟨q, P, Pb, best, vs, ls, rfl, h01, h01b, hbest, hb0, hq, hrun⟩ := h
  choose! Lq Gq hu hl hn hqb hni hPb hS hbA hwE hbE hlk using hq
  unfold parRound
  simp only [List.length_map, List.length_range]
  -- proposals
  refine (Outcome.rangeFn (fun t (st : TopState) => ∃ P' L' G' l', TopInv B (gainAt (unionH N Hs))
    (hAt Hs t) (M t) (remF Hs (hAt Hs t) P) max0 max1 K P (Gq t) (q t).w (ls t) P' L' G' l' st ∧
    (B → TopOver (gainAt (unionH N Hs)) (hAt Hs t) max0 max1 K P' st.w st.moves l'))
    (fun t ht => ?_)).bind ?_
  · rw [vget_ok (rangeMap_get ht _)]; simp only [ok_bind]
    exact findTop_ok (c.b.D.wf _ (hAt_mem ht)) (fun _ => c.hc _ (hAt_mem ht)) (c.hM t ht)
      (remF_nonneg c.b.D.wf (hAt_mem ht) P) (fun _ => gainsOf_union c.b.D h01 ht) (hl t ht) (hlk t ht)
      (c.hf _ (hAt_mem ht)) _ _
  rintro _ ⟨tops, rfl, hT0⟩
  choose! Pt Lt Gt ls' hTi hov using hT0
  have hT : ∀ t, t < Hs.length → ∃ P' L' G', TopInv B (gainAt (unionH N Hs)) (hAt Hs t) (M t)
      (remF Hs (hAt Hs t) P) max0 max1 K P (Gq t) (q t).w (ls t) P' L' G' (ls' t) (tops t) :=
    fun t ht => ⟨_, _, _, hTi t ht⟩
  have houts : ((List.range Hs.length).map tops).zipIdx.map (fun x => moveSends Hs.length x.2 x.1.moves) =
      (List.range Hs.length).map (fun s => moveSends Hs.length s (tops s).moves) := by
    apply List.ext_getElem?
    intro k
    by_cases hk : k < Hs.length
    · rw [rangeMap_get hk, List.getElem?_map, List.getElem?_zipIdx, rangeMap_get hk]
      simp
    · simp [hk]
  rw [houts]
  -- rejections
  obtain ⟨rj, hrj⟩ := rejectPhase_ok c h01 (K := K) (S := S) (G0 := Gq) (qs := q) (tops := tops)
    (fun t ht => ⟨hu t ht, hS t ht, hbA t ht, hwE t ht⟩) hT
    (queue := fun t => pe.srt (inbox (pe.dMoves r) ((List.range Hs.length).map
      (fun s => moveSends Hs.length s (tops s).moves)) t))
    (fun t ht => (hpe.srt _).trans (inbox_moves ht (hpe.moves r) _))
    (fun e => (hE e).imp id (fun h => ⟨h.1, fun s t hs ht => by
      rw [inbox_all hs, inbox_all ht]; exact h.2 r s t _⟩))
  refine Outcome.bind (Q := fun ms => ∃ mids : Nat → MidState, ms = (List.range Hs.length).map mids ∧
    ∀ t, t < Hs.length → MidInv B E A Hs np M max0 max1 S P (fun s => (tops s).moves) rj t (n t)
      (ls' t) (mids t))
    (Outcome.rangeFn _ (fun t ht => ?_)) ?_
  · rw [vget_ok (rangeMap_get ht _)]; simp only [ok_bind]
    rw [vget_ok (rangeMap_get ht _)]; simp only [ok_bind]
    obtain ⟨m, h1, h2⟩ := hrj t ht
    rw [hn t ht] at h2
    exact Outcome.of_ok ⟨m, h1, h2⟩
  rintro _ ⟨mids, rfl, hmid⟩
  choose! Lm Gm mu ml mn mkept mnd msend mS mbA mB mE mlk using hmid
  -- the new partition
  set ks : Nat → List Nat := fun t => (kept (mids t).moves).map (·.v) with hks
  set P' := flips P ((List.range Hs.length).flatMap ks) with hP'
  have hTv : ∀ t, t < Hs.length → ∀ m ∈ (tops t).moves, IsVertex (hAt Hs t) m.v := by
    intro t ht m hm
    obtain ⟨_, _, _, T⟩ := hT t ht
    obtain ⟨x, hx, hxm, -⟩ := T.hv m hm
    rw [← hxm]; exact List.mem_map_of_mem hx
  have hkv : ∀ t, t < Hs.length → ∀ v ∈ ks t, IsVertex (hAt Hs t) v := by
    intro t ht v hv
    obtain ⟨m, hm, rfl⟩ := List.mem_map.1 hv
    exact hTv t ht m (mkept t ht m hm)
  have hloc : ∀ t, t < Hs.length → ∀ u, IsVertex (hAt Hs t) u → flips P (ks t) u = P' u :=
    fun t ht u hu => (flips_all c.b.D P hkv ht hu).symm
  have h01' : GParts01 Hs P' := by
    intro H hH
    obtain ⟨t, ht, rfl⟩ := mem_hAt hH
    intro x hx
    rw [← hloc t ht x.id (List.mem_map_of_mem hx)]
    exact flips_01 (h01 _ hH) (hkv t ht) x hx
  have hwf : ∀ t, t < Hs.length → WF (hAt Hs t) := fun t ht => c.b.D.wf _ (hAt_mem ht)
  -- the local states seen with the new partition
  have hl' : ∀ t, t < Hs.length → LInv B (hAt Hs t) (M t) (remF Hs (hAt Hs t) P) P' (Lm t) (Gm t)
      (mids t).u.gs (mids t).L := fun t ht => (ml t ht).congrP (hwf t ht) (hloc t ht)
  have hview : ∀ t, t < Hs.length → ∀ nn ∈ (hAt Hs t).nets,
      (viewF (flips P (ks t)) (Lm t) (remF Hs (hAt Hs t) P) nn.id).c0 = claim0 Hs P P' t nn.id := by
    intro t ht nn hnn
    unfold claim0
    rw [locF_exact (hwf t ht) (hl' t ht).hL hnn,
      ← exactF_congrP (hwf t ht) (hl' t ht).hL (hloc t ht) hnn]
    rfl
  let Ch : Nat → List Nat := fun t => changedNets (hAt Hs t) (globF Hs P)
    (viewF (flips P (ks t)) (Lm t) (remF Hs (hAt Hs t) P))
  have hsends : ((List.range Hs.length).map mids).map (·.sends) =
      (List.range Hs.length).map (fun t => reports np (Ch t) (claim0 Hs P P' t)) := by
    rw [List.map_map]
    apply List.map_congr_left
    intro t ht
    have ht := List.mem_range.1 ht
    simp only [Function.comp_apply]
    rw [msend t ht]
    apply reports_congr
    intro e he
    obtain ⟨nn, hnn, hne⟩ := List.mem_map.1 (changedNets_sub _ _ he)
    have hne : nn.id = e := hne
    rw [← hne]
    exact hview t ht nn hnn
  have hus : ((List.range Hs.length).map mids).map (·.u) =
      (List.range Hs.length).map (fun t => uOf Hs np P t (mids t).u.gs) := by
    rw [List.map_map]
    apply List.map_congr_left
    intro t ht
    have ht := List.mem_range.1 ht
    simp only [Function.comp_apply]
    exact mu t ht
  rw [hsends, hus]
  have hupd := updateC_out (B := B) c.b ho h01 h01' (hpe.up r) (hpe.down r) Ch
    (fun s hs => changedNets_nodup (hwf s hs) _ _) (fun s hs e he => changedNets_sub _ _ he)
    (fun s hs nn hnn hnot => by
      have h1 := changedNets_not hnn hnot
      rw [hview s hs nn hnn] at h1
      unfold claim0 remF at h1
      simp only at h1
      omega)
    Lm (fun t ht => (hl' t ht).hL) (fun t => (mids t).u.gs) (fun t ht => (hl' t ht).inv.hH) true
    (fun t s => ∃ G', LInv B (hAt Hs t) (M t) (remF Hs (hAt Hs t) P') P' (Lm t) G' s (mids t).L ∧
      ∀ u, G' u = none ↔ Gm t u = none)
    (fun t ht => by
      have hre := refreshGains_out (hwf t ht) (fun _ => c.hc _ (hAt_mem ht)) (c.hM t ht)
        (remF_nonneg c.b.D.wf (hAt_mem ht) P) (remF_nonneg c.b.D.wf (hAt_mem ht) P')
        (c.b.rsize (hAt_mem ht) h01) (c.b.rsize (hAt_mem ht) h01')
        (fun hB => c.hne hB _ (hAt_mem ht)) (hl' t ht)
      have e1 : c0Of (hAt Hs t) (viewF P' (Lm t) (remF Hs (hAt Hs t) P')) =
          c0Of (hAt Hs t) (globF Hs P') := by
        unfold c0Of
        apply List.map_congr_left
        intro nn hnn
        rw [view_glob (hwf t ht) (hl' t ht).hL hnn]
      have e2 : cOf (hAt Hs t) (viewF P' (Lm t) (remF Hs (hAt Hs t) P')) =
          cOf (hAt Hs t) (globF Hs P') :=
        cOf_congr (fun nn hnn => view_glob (hwf t ht) (hl' t ht).hL hnn)
      rw [e1, e2] at hre
      unfold runIf
      rw [if_pos rfl]
      refine hre.mono ?_
      rintro s ⟨G', h1, h2, h3⟩
      exact ⟨h2, G', h1, h3⟩)
  refine hupd.bind ?_
  rintro us ⟨hulen, hus⟩
  -- the new cutsize
  have huget : ∀ t, t < Hs.length → ∃ u, us[t]? = some u := by
    intro t ht
    exact ⟨us[t], List.getElem?_eq_getElem (by omega)⟩
  choose! uf huf using huget
  have huseq : us = (List.range Hs.length).map uf := by
    apply List.ext_getElem?
    intro k
    by_cases hk : k < Hs.length
    · rw [rangeMap_get hk, huf k hk]
    · simp [hk, hulen]
  choose! sf hsu hsQ hsH hsC using fun t (ht : t < Hs.length) => hus t (uf t) (huf t ht)
  have hcut : (us.map (·.cutMine)).foldl (· + ·) 0 = cutNet P' (unionH N Hs).nets := by
    rw [foldl_add_sum, ← ownCut_sum c.b h01', huseq, List.map_map]
    congr 1
    apply List.map_congr_left
    intro t ht
    have ht := List.mem_range.1 ht
    simp only [Function.comp_apply]
    rw [hsu t ht]; rfl
  rw [hcut]
  set cut := cutNet P' (unionH N Hs).nets with hcutdef
  choose! Gf hGl hGn using hsQ
  -- the weights
  have hgw : E → ∀ t, t < Hs.length → (mids t).w = ⟨gw Hs P' 0, gw Hs P' 1⟩ := by
    intro e t ht
    have hg := gw_moves c h01 (mv := fun s => kept (mids s).moves)
      (fun s hs m hm => by
        obtain ⟨_, _, _, Ts⟩ := hT s hs
        exact Ts.hv m (mkept s hs m hm))
      (fun s hs => mnd s hs)
    have hsum : (List.range Hs.length).map (fun s => moveSum (kept (mids s).moves)) =
        (List.range Hs.length).map (fun s => moveSum (tops s).moves - rj s) := by
      apply List.map_congr_left
      intro s hs
      exact (mE s (List.mem_range.1 hs) e).1
    rw [hsum] at hg
    rw [(mE t ht e).2, hP', hg.1, hg.2]
  -- bookkeeping
  refine (Outcome.rangeFn (fun t (q' : ProcState) =>
    ProcInv B E A Hs np M max0 max1 S P' (if cut > best then Pb else P')
      (if cut > best then best else cut) t (unlocked (hAt Hs t) (Gf t)) (ls' t) q' ∧
      (q'.done = false → (tops t).moves ≠ []) ∧
      (B → (q'.done = true ↔ (q t).done = true ∨ (tops t).moves = [] ∨
        ∀ v, IsVertex (hAt Hs t) v → v ∈ ls' t))) (fun t ht => ?_)).mono ?_
  · rw [vget_ok (rangeMap_get ht _)]; simp only [ok_bind]
    rw [vget_ok (rangeMap_get ht _)]; simp only [ok_bind]
    rw [vget_ok (huf t ht)]; simp only [ok_bind]
    unfold accountMoves
    have hLI := hGl t ht
    obtain ⟨d, s', hd, hI', hdiff⟩ := gdone_ok hLI.inv
    have hlk' : ∀ x ∈ (hAt Hs t).vertices, (Gf t x.id = none ↔ x.id ∈ ls' t) := by
      intro x hx
      rw [hGn t ht x.id]
      exact mlk t ht x hx
    have hgs : (uf t).gs = sf t := by rw [hsu t ht]; rfl
    rw [hgs, hd]
    simp only [ok_bind, found_eq]
    refine Outcome.pure' ⟨⟨Lm t, Gf t, ?_, hLI.congrInv hI', rfl, ?_, ?_, ?_, mS t ht, mbA t ht,
      fun e => hgw e t ht, ?_, hlk'⟩, ?_, ?_⟩
    · simp only
      rw [hsu t ht]; rfl
    · simp only; rw [hqb t ht]
    · simp only
      rw [hqb t ht]
      intro v hv
      split at hv
      · rcases List.mem_append.1 hv with hv | hv
        · exact hni t ht v hv
        · exact hkv t ht v hv
      · cases hv
    · intro u hu
      simp only
      rw [hqb t ht]
      split
      · rw [hPb t ht u hu]
        have e1 : flips P' ((q t).noImp ++ ks t) u = flips P' (ks t ++ (q t).noImp) u := by
          rw [flips_perm P' List.perm_append_comm]
        have e2 : flips P' (ks t ++ (q t).noImp) u = flips (flips P (ks t)) (ks t ++ (q t).noImp) u :=
          flips_at (hloc t ht u hu).symm _
        rw [e1, e2, flips_app, flips_cancel]
        intro v hv
        have := hkv t ht v hv
        obtain ⟨x, hx, hxv⟩ := List.mem_map.1 this
        have hxv : x.id = v := hxv
        rw [← hxv]
        exact h01 _ (hAt_mem ht) x hx
      · rfl
    · intro e a
      split
      · exact hbE t ht e a
      · have := mbA t ht a
        rw [hgw e t ht] at this
        exact this
    · simp only [Bool.or_eq_false_iff]
      rintro ⟨-, hf⟩ hnil
      have : ks t = [] := by
        rw [List.eq_nil_iff_forall_not_mem]
        intro v hv
        obtain ⟨m, hm, -⟩ := List.mem_map.1 hv
        have : m ∈ (tops t).moves := mkept t ht m hm
        rw [hnil] at this
        cases this
      rw [hks] at this
      simp only at this
      rw [this] at hf
      cases hf
    · intro hB
      have hd1 : d = true ↔ ∀ v, IsVertex (hAt Hs t) v → v ∈ ls' t := by
        rw [hdiff]
        constructor
        · intro hall v hv
          obtain ⟨x, hx, hxv⟩ := List.mem_map.1 hv
          have hxv : x.id = v := hxv
          subst hxv
          rw [← hlk' x hx]
          cases hG : Gf t x.id with
          | none => rfl
          | some g => exact absurd ⟨hv, rfl, hG⟩ (hall _ (hLI.h01 x hx) x.id g)
        · rintro hall p - u g ⟨h1, -, h3⟩
          obtain ⟨x, hx, hxv⟩ := List.mem_map.1 h1
          have hxv : x.id = u := hxv
          subst hxv
          rw [(hlk' x hx).2 (hall _ h1)] at h3
          cases h3
      have hd2 : ((kept (mids t).moves).map (·.v)).isEmpty = true ↔ (tops t).moves = [] := by
        have hperm := mB t ht hB
        rw [List.isEmpty_iff, List.map_eq_nil_iff]
        constructor
        · intro h
          rw [h] at hperm
          exact List.nil_perm.1 hperm
        · intro h
          dsimp only at hperm
          rw [h] at hperm
          exact List.perm_nil.1 hperm
      simp only [Bool.or_eq_true]
      rw [hd1, hd2, or_assoc, or_comm (a := ∀ v, IsVertex (hAt Hs t) v → v ∈ ls' t)]
  · rintro _ ⟨q', rfl, hq'⟩
    have hle : ∀ t, t < Hs.length → unlocked (hAt Hs t) (Gf t) + (tops t).moves.length ≤ n t := by
      intro t ht
      have h1 := mn t ht
      have h2 : unlocked (hAt Hs t) (Gf t) = unlocked (hAt Hs t) (Gm t) := by
        unfold unlocked
        apply List.countP_congr
        intro v hv
        have := hGn t ht v.id
        cases h3 : Gf t v.id <;> cases h4 : Gm t v.id <;> rw [h3, h4] at this <;> simp at this ⊢
      rw [h2]; exact h1
    refine ⟨fun t => unlocked (hAt Hs t) (Gf t), ⟨q', P', _, _, P' :: vs, ls', rfl, h01', ?_, ?_, ?_,
      fun t ht => (hq' t ht).1, ?_⟩, ?_, ?_⟩
    · split
      · exact h01b
      · exact h01'
    · split
      · exact hbest
      · rfl
    · split
      · exact hb0
      · omega
    · intro z
      obtain ⟨hB, hnd⟩ := hZ z
      have hat : ∀ t H, Hs[t]? = some H → t < Hs.length ∧ H = hAt Hs t := by
        intro t H hH
        have ht : t < Hs.length := (List.getElem?_eq_some_iff.1 hH).1
        refine ⟨ht, ?_⟩
        rw [hAt_get ht] at hH
        exact (Option.some.inj hH).symm
      have := ParRun.round (P' := P') (ls' := ls') (fin' := fun t => (q' t).done)
        (fun t => (tops t).moves) (hrun z) (by
          simp only [List.all_map, List.all_eq_true, List.mem_range, Function.comp_apply,
            not_forall] at hnd
          obtain ⟨t, ht, hd⟩ := hnd
          exact ⟨t, ht, by simpa using hd⟩) (by
          intro t H hH
          obtain ⟨ht, rfl⟩ := hat t H hH
          rw [← gw_weightIn, ← gw_weightIn, ← hwE t ht (c.bE hB)]
          exact ⟨_, _, (hTi t ht).run hB, hov t ht hB⟩) (by
          intro t H hH v hv
          obtain ⟨ht, rfl⟩ := hat t H hH
          have hperm : (ks t).Perm ((tops t).moves.map (·.v)) := (mB t ht hB).map _
          obtain ⟨x, hx, hxv⟩ := List.mem_map.1 hv
          have hxv : x.id = v := hxv
          rw [← hloc t ht v hv, flips_perm P hperm, flips_at_nodup (hTi t ht).nd]
          rw [← hxv]
          exact h01 _ (hAt_mem ht) x hx) (by
          intro t H hH
          obtain ⟨ht, rfl⟩ := hat t H hH
          exact (hq' t ht).2.2 hB)
      rw [← hbest] at this
      exact this
    · intro t ht
      have := hle t ht
      dsimp only
      omega
    · intro hall
      simp only [List.all_map, List.all_eq_true, List.mem_range, Function.comp_apply, not_forall] at hall
      obtain ⟨t, ht, hd⟩ := hall
      refine ⟨t, ht, ?_⟩
      have h1 := hle t ht
      have h2 := (hq' t ht).2.1 (by simpa using hd)
      have := List.length_pos_iff.2 h2
      dsimp only
      omega

/-- The while loop ends after at most as many rounds as there are movable vertices, plus one. -/
theorem parRounds_out {Z : Prop} {K : Nat} {S best0 : Int} {P0 : Nat → Int} (f : Nat) :
    ∀ {n : Nat → Nat} {l : List ProcState} (r : Nat),
      RoundInv Z B E A N Hs np M max0 max1 S best0 K P0 n l → (Z → B ∧ ¬ l.all (·.done) = true) →
      ((List.range Hs.length).map n).sum < f →
    Outcome B (parRounds fuel K pe np max0 max1 own f r l) (fun l' => ∃ n',
      RoundInv Z B E A N Hs np M max0 max1 S best0 K P0 n' l' ∧ l'.all (·.done) = true) := by
  induction f with
  | zero => intro n l r _ _ hf; omega
  | succ f ih =>
    intro n l r h hZ hf
    unfold parRounds
    refine (parRound_out c ho hpe hE h hZ r).bind ?_
    rintro l' ⟨n', h', hle, hlt⟩
    by_cases hd : l'.all (·.done) = true
    · rw [if_pos hd]
      exact Outcome.pure' ⟨n', h', hd⟩
    · rw [if_neg hd]
      apply ih (r + 1) h' (fun z => ⟨(hZ z).1, hd⟩)
      obtain ⟨t, ht, hlt⟩ := hlt hd
      have hs : ((List.range Hs.length).map n').sum < ((List.range Hs.length).map n).sum :=
        sum_map_lt (fun i hi => hle i (List.mem_range.1 hi)) (List.mem_range.2 ht) hlt
      omega

end

end PMondriaan

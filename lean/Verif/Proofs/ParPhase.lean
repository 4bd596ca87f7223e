import Verif.Proofs.ParInit

/-
The local phases of a round of `KLFM_pass_par`: reversal of rejected moves, the queue of moves, and
the messages about changed counts.
-/

namespace PMondriaan

open Spec

/-! ### Flipping lists of vertices -/

theorem flips_app (P : Nat → Int) (a b : List Nat) : flips P (a ++ b) = flips (flips P a) b := by
  simp [flips, List.foldl_append]

theorem flips_perm (P : Nat → Int) {l l' : List Nat} (h : l.Perm l') : flips P l = flips P l' := by
  induction h generalizing P with
  | nil => rfl
  | cons a _ ih => exact ih (flip P a)
  | swap a b l =>
    show flips (flip (flip P b) a) l = flips (flip (flip P a) b) l
    rw [flip_comm]
  | trans _ _ ih1 ih2 => rw [ih1, ih2]

/-- Flipping the same vertices again undoes the flips. -/
theorem flips_cancel {P : Nat → Int} {l : List Nat} (h : ∀ v ∈ l, P v = 0 ∨ P v = 1) :
    flips (flips P l) l = P := by
  induction l generalizing P with
  | nil => rfl
  | cons a l ih =>
    have ha := h a (by simp)
    have e1 : flips P (a :: l) = flip (flips P l) a := by
      rw [← flips_flip]; rfl
    have e2 : flips (flip (flips P l) a) (a :: l) = flips (flip (flip (flips P l) a) a) l := rfl
    rw [e1, e2]
    have h01 : flips P l a = 0 ∨ flips P l a = 1 := by
      clear ih e1 e2
      have : ∀ (l : List Nat) (P : Nat → Int), (P a = 0 ∨ P a = 1) → (flips P l a = 0 ∨ flips P l a = 1) := by
        intro l
        induction l with
        | nil => intro P h; exact h
        | cons b l ih =>
          intro P h
          apply ih
          unfold flip upd
          split
          · subst_vars; exact other_01 h
          · exact h
      exact this l P ha
    rw [flip_flip h01, ih (fun v hv => h v (by simp [hv]))]

theorem flips_at {P P' : Nat → Int} {u : Nat} (h : P u = P' u) (l : List Nat) :
    flips P l u = flips P' l u := by
  induction l generalizing P P' with
  | nil => exact h
  | cons a l ih =>
    apply ih
    unfold flip upd
    split
    · subst_vars; rw [h]
    · exact h

/-- If everything is flipped and then `U` flipped back, what remains is the flips of the rest. -/
theorem flips_back {P : Nat → Int} {all kept U : List Nat} (h : ∀ v ∈ all, P v = 0 ∨ P v = 1)
    (hp : (kept ++ U).Perm all) : flips (flips P all) U = flips P kept := by
  have h1 : flips (flips P (kept ++ U)) U = flips P kept := by
    rw [flips_perm P List.perm_append_comm, flips_app]
    have : flips (flips (flips P U) kept) U = flips (flips (flips P U) U) kept := by
      rw [← flips_app (flips P U), ← flips_app (flips P U)]
      exact flips_perm _ List.perm_append_comm
    rw [this, flips_cancel]
    intro v hv
    exact h v (hp.mem_iff.1 (by simp [hv]))
  rw [← h1, flips_perm P hp]

/-! ### Changing the view -/

theorem pin_vertex {H : Hypergraph} (w : WF H) {L : Nat → List Nat} (hL : PinsPerm H L) {n : Net}
    (hn : n ∈ H.nets) {u : Nat} (hu : u ∈ L n.id) : IsVertex H u := by
  have hu' : u ∈ n.vertices := (hL n hn).mem_iff.1 hu
  obtain ⟨x, hx, rfl, -⟩ := w.inc_vtx n hn u hu'
  exact List.mem_map_of_mem hx

theorem exactF_congrP {H : Hypergraph} (w : WF H) {P P' : Nat → Int} {L : Nat → List Nat}
    (hL : PinsPerm H L) (h : ∀ u, IsVertex H u → P u = P' u) {n : Net} (hn : n ∈ H.nets) :
    exactF P L n.id = exactF P' L n.id := by
  unfold exactF
  have : ∀ q : Int, (L n.id).countP (fun u => decide (P u = q)) = (L n.id).countP (fun u => decide (P' u = q)) := by
    intro q
    apply List.countP_congr
    intro u hu
    rw [h u (pin_vertex w hL hn hu)]
  rw [this 0, this 1]

theorem locF_congrP {H : Hypergraph} (w : WF H) {P P' : Nat → Int}
    (h : ∀ u, IsVertex H u → P u = P' u) (e : Nat) : locF H P e = locF H P' e := by
  by_cases he : e ∈ H.nets.map (·.id)
  · obtain ⟨n, hn, hne⟩ := List.mem_map.1 he
    have hne : n.id = e := hne
    subst hne
    exact exactF_congrP w (fun n hn => by rw [pinsOf_eq w hn]) h hn
  · rw [locF_absent he, locF_absent he]

theorem conc_congrP {H : Hypergraph} {P P' : Nat → Int} (L : Nat → List Nat)
    (h : ∀ u, IsVertex H u → P u = P' u) : conc H P L = conc H P' L := by
  unfold conc
  congr 1
  apply List.map_congr_left
  intro x hx
  rw [h x.id (List.mem_map_of_mem hx)]

theorem exactF_perm {H : Hypergraph} {P : Nat → Int} {L L' : Nat → List Nat} (hL : PinsPerm H L)
    (hL' : PinsPerm H L') {n : Net} (hn : n ∈ H.nets) : exactF P L n.id = exactF P L' n.id := by
  unfold exactF
  have hp := (hL n hn).trans (hL' n hn).symm
  rw [hp.countP_eq, hp.countP_eq]

theorem LInv.congrP {B : Prop} {H : Hypergraph} (w : WF H) {M : Nat} {R : Nat → Cnt}
    {P P' : Nat → Int} {L : Nat → List Nat} {G : Nat → Option Int} {s : GainStructure} {Lc : List Cnt}
    (h : LInv B H M R P L G s Lc) (hP : ∀ u, IsVertex H u → P u = P' u) :
    LInv B H M R P' L G s Lc := by
  have hv : ∀ n ∈ H.nets, viewF P L R n.id = viewF P' L R n.id := by
    intro n hn
    unfold viewF
    rw [exactF_congrP w h.hL hP hn]
  have hb : ∀ p u g, InBucket H P G p u g ↔ InBucket H P' G p u g := by
    intro p u g
    unfold InBucket
    constructor
    · rintro ⟨h1, h2, h3⟩; exact ⟨h1, by rw [← hP u h1]; exact h2, h3⟩
    · rintro ⟨h1, h2, h3⟩; exact ⟨h1, by rw [hP u h1]; exact h2, h3⟩
  refine ⟨⟨?_, ?_, h.inv.hg, h.inv.i0.congr (hb 0), h.inv.i1.congr (hb 1), h.inv.m0.congr (hb 0),
    h.inv.m1.congr (hb 1)⟩, ?_, ?_, h.hL, ?_, ?_⟩
  · rw [h.inv.hH, conc_congrP L hP]
  · rw [h.inv.hC, cOf_congr hv]
  · intro hB x hx g hg
    rw [h.ok hB x hx g hg, gainSum_congr w P hv hx]
    unfold gainSum
    rw [hP x.id (List.mem_map_of_mem hx)]
  · intro x hx
    rw [← hP x.id (List.mem_map_of_mem hx)]
    exact h.h01 x hx
  · intro n hn
    obtain ⟨z, o, h1, h2, h3⟩ := h.hS n hn
    refine ⟨z, o, h1, ?_, ?_⟩
    · intro u hu
      rw [← hP u (pin_vertex w h.hL hn (by rw [h1]; simp [hu]))]
      exact h2 u hu
    · intro u hu
      rw [← hP u (pin_vertex w h.hL hn (by rw [h1]; simp [hu]))]
      exact h3 u hu
  · rw [h.hLc]
    exact cOf_congr (fun n hn => exactF_congrP w h.hL hP hn)

/-- After the reversal of moves of locked vertices the buckets still fit the stored gains. -/
theorem LInv.undo {B : Prop} {H : Hypergraph} (w : WF H) {M : Nat} {R : Nat → Cnt}
    {P P' : Nat → Int} {L L' : Nat → List Nat} {G : Nat → Option Int} {s : GainStructure}
    {Lc : List Cnt} (h : LInv B H M R P L G s Lc) {st : UndoState} (u : UInv H R P' L' st)
    (hP : ∀ v, G v ≠ none → P' v = P v) (hB : B → P' = P) :
    LInv B H M R P' L' G { s with H := st.H, C := st.C } st.L := by
  have hb : ∀ p v g, InBucket H P G p v g ↔ InBucket H P' G p v g := by
    intro p v g
    unfold InBucket
    constructor
    · rintro ⟨h1, h2, h3⟩; exact ⟨h1, by rw [hP v (by rw [h3]; simp)]; exact h2, h3⟩
    · rintro ⟨h1, h2, h3⟩; exact ⟨h1, by rw [← hP v (by rw [h3]; simp)]; exact h2, h3⟩
  refine ⟨⟨u.hH, u.hC, h.inv.hg, h.inv.i0.congr (hb 0), h.inv.i1.congr (hb 1), h.inv.m0.congr (hb 0),
    h.inv.m1.congr (hb 1)⟩, ?_, u.h01, u.hL, u.hS, u.hLc⟩
  intro hBt x hx g hg
  have hPP := hB hBt
  subst hPP
  rw [h.ok hBt x hx g hg]
  apply gainSum_congr w _ _ hx
  intro n hn
  unfold viewF
  rw [exactF_perm h.hL u.hL hn]

/-! ### Reversal of the rejected moves -/

theorem kept_append (a b : List (Option MoveP)) : kept (a ++ b) = kept a ++ kept b := by
  simp [kept]

theorem kept_reverse (l : List (Option MoveP)) : kept l.reverse = (kept l).reverse := by
  simp [kept, List.filterMap_reverse]

theorem kept_slots (l : List MoveP) (k : Nat) :
    kept (l.map some ++ List.replicate k none) = l := by
  rw [kept_append]
  have h1 : kept (l.map some) = l := by
    unfold kept; rw [List.filterMap_map]; simp
  have h2 : kept (List.replicate k none) = [] := by
    unfold kept; simp
  rw [h1, h2, List.append_nil]

theorem countP_undoes (pos : Bool) (l : List (Option MoveP)) :
    l.countP (undoes pos) = (kept l).countP (fun m => undoes pos (some m)) := by
  induction l with
  | nil => rfl
  | cons o l ih =>
    cases o with
    | none => rw [List.countP_cons, ih]; simp [kept, undoes]
    | some m =>
      have : kept (some m :: l) = m :: kept l := by simp [kept]
      rw [List.countP_cons, this, List.countP_cons, ih]

theorem undoMoves_ok {H : Hypergraph} (w : WF H) {R : Nat → Cnt} (pos : Bool) (k : Nat)
    {P : Nat → Int} {L : Nat → List Nat} {st : UndoState} (h : UInv H R P L st)
    (hk : k ≤ (kept st.moves).countP (fun m => undoes pos (some m)))
    (hv : ∀ m ∈ kept st.moves, IsVertex H m.v) :
    ∃ st' L', undoMoves (sgn pos k) st = .ok st' ∧
      UInv H R (flips P ((undoRev pos k st.moves.reverse).2.map (·.v))) L' st' ∧
      st'.moves = (undoRev pos k st.moves.reverse).1.reverse := by
  have key : ∃ st' L', undoLoop pos st.moves.length k st = .ok st' ∧
      UInv H R (flips P ((undoRev pos k st.moves.reverse).2.map (·.v))) L' st' ∧
      st'.moves = (undoRev pos k st.moves.reverse).1.reverse := by
    obtain ⟨st', L', h1, h2, h3⟩ := undoLoop_ok w pos st.moves.reverse [] k h (by simp) (by
      rw [countP_undoes, kept_reverse, List.countP_reverse]; exact hk) (by
      intro m hm
      rw [kept_reverse] at hm
      exact hv m (List.mem_reverse.1 hm))
    rw [List.length_reverse] at h1
    exact ⟨st', L', h1, h2, by simpa using h3⟩
  cases k with
  | zero =>
    refine ⟨st, L, ?_, by simpa [undoRev, flips] using h, by simp [undoRev]⟩
    unfold undoMoves sgn
    cases pos <;> simp [undoLoop, pure_eq_ok]
  | succ k =>
    unfold undoMoves sgn
    cases pos with
    | true =>
      rw [if_pos rfl, if_pos (by omega)]
      simpa using key
    | false =>
      rw [if_neg (by simp), if_neg (by simp)]
      have e : (-(-((k + 1 : Nat) : Int))).toNat = k + 1 := by omega
      rw [e]
      exact key

/-! ### The queue of moves -/

/-- The queue entries of processor `s`. -/
def qOf (s : Nat) (l : List MoveP) : List QMove :=
  l.zipIdx.map (fun x => ⟨x.1.gain, x.1.change, s, x.2⟩)

/-- All queue entries. -/
def qAll (p : Nat) (mv : Nat → List MoveP) : List QMove :=
  (List.range p).flatMap (fun s => qOf s (mv s))

theorem moveSends_filter {p s t : Nat} (ht : t < p) (l : List MoveP) :
    ((moveSends p s l).filter (fun x => x.1 = t)).map (·.2) = qOf s l := by
  unfold moveSends qOf
  induction l.zipIdx with
  | nil => rfl
  | cons x l ih =>
    rw [List.flatMap_cons, List.filter_append, List.map_append, ih, List.map_cons, List.filter_map,
      List.map_map]
    have : (List.range p).filter ((fun x : Nat × QMove => decide (x.1 = t)) ∘
        fun t => (t, (⟨x.1.gain, x.1.change, s, x.2⟩ : QMove))) = [t] := by
      have e : ((fun x : Nat × QMove => decide (x.1 = t)) ∘
        fun t => (t, (⟨x.1.gain, x.1.change, s, x.2⟩ : QMove))) = fun k => decide (k = t) := by
        funext k; rfl
      rw [e]
      have h1 : ∀ l : List Nat, l.Nodup → l.filter (fun k => decide (k = t)) = if t ∈ l then [t] else [] := by
        intro l hl
        induction l with
        | nil => rfl
        | cons a l ih =>
          obtain ⟨ha, hl'⟩ := List.nodup_cons.1 hl
          rw [List.filter_cons, ih hl']
          by_cases hat : a = t
          · subst hat; simp [ha]
          · simp [hat, Ne.symm hat]
      rw [h1 _ List.nodup_range, if_pos (List.mem_range.2 ht)]
    rw [this]; rfl

theorem inbox_moves {p t : Nat} (ht : t < p) {d : Delivery QMove} (hd : Fair d)
    (mv : Nat → List MoveP) :
    (inbox d ((List.range p).map (fun s => moveSends p s (mv s))) t).Perm (qAll p mv) := by
  refine (inbox_perm hd _ _).trans (List.Perm.of_eq ?_)
  unfold qAll
  induction List.range p with
  | nil => rfl
  | cons s l ih =>
    rw [List.map_cons, List.flatten_cons, List.filter_append, List.map_append, ih,
      moveSends_filter ht, List.flatMap_cons]

theorem qOf_proc {s : Nat} {l : List MoveP} {m : QMove} (h : m ∈ qOf s l) : m.proc = s := by
  obtain ⟨x, _, rfl⟩ := List.mem_map.1 h
  rfl

theorem qAll_proc {p : Nat} {mv : Nat → List MoveP} {m : QMove} (h : m ∈ qAll p mv) : m.proc < p := by
  obtain ⟨s, hs, hm⟩ := List.mem_flatMap.1 h
  rw [qOf_proc hm]
  exact List.mem_range.1 hs

theorem qOf_change (s : Nat) (l : List MoveP) : (qOf s l).map (·.change) = l.map (·.change) := by
  unfold qOf
  rw [List.map_map]
  have : l.zipIdx.map (((fun m : QMove => m.change)) ∘ fun x => (⟨x.1.gain, x.1.change, s, x.2⟩ : QMove)) =
      (l.zipIdx.map Prod.fst).map (·.change) := by
    rw [List.map_map]; rfl
  rw [this, List.zipIdx_map_fst]

theorem changeSum_qAll (p : Nat) (mv : Nat → List MoveP) :
    changeSum (qAll p mv) = ((List.range p).map (fun s => moveSum (mv s))).sum := by
  unfold changeSum qAll
  induction List.range p with
  | nil => rfl
  | cons s l ih =>
    rw [List.flatMap_cons, List.map_append, List.sum_append, ih, qOf_change, List.map_cons,
      List.sum_cons]
    rfl

theorem ofSign_qAll (pos : Bool) {p t : Nat} (ht : t < p) (mv : Nat → List MoveP) :
    ofSign pos t (qAll p mv) = (qOf t (mv t)).filter (fun m => signed pos m.change) := by
  unfold ofSign qAll
  have : ∀ l : List Nat, l.Nodup →
      (l.flatMap (fun s => qOf s (mv s))).filter (fun m => m.proc = t ∧ signed pos m.change) =
      if t ∈ l then (qOf t (mv t)).filter (fun m => signed pos m.change) else [] := by
    intro l hl
    induction l with
    | nil => simp
    | cons s l ih =>
      obtain ⟨hs, hl'⟩ := List.nodup_cons.1 hl
      rw [List.flatMap_cons, List.filter_append, ih hl']
      by_cases hst : s = t
      · subst hst
        rw [if_neg hs, if_pos (by simp), List.append_nil]
        apply List.filter_congr
        intro m hm
        simp [qOf_proc hm]
      · have : (qOf s (mv s)).filter (fun m => m.proc = t ∧ signed pos m.change) = [] := by
          rw [List.filter_eq_nil_iff]
          intro m hm
          simp [qOf_proc hm, hst]
        rw [this, List.nil_append]
        simp [Ne.symm hst]
  rw [this _ List.nodup_range, if_pos (List.mem_range.2 ht)]

theorem ofSign_perm (pos : Bool) (t : Nat) {l l' : List QMove} (h : l.Perm l') :
    (ofSign pos t l).Perm (ofSign pos t l') := h.filter _

theorem ofSign_count (pos : Bool) {p t : Nat} (ht : t < p) (mv : Nat → List MoveP) {q : List QMove}
    (hq : q.Perm (qAll p mv)) :
    (ofSign pos t q).length = (mv t).countP (fun m => undoes pos (some m)) := by
  rw [(ofSign_perm pos t hq).length_eq, ofSign_qAll pos ht, ← List.countP_eq_length_filter]
  have h1 : (qOf t (mv t)).countP (fun m => signed pos m.change) =
      ((qOf t (mv t)).map (·.change)).countP (fun c => signed pos c) := by
    rw [List.countP_map]; rfl
  rw [h1, qOf_change, List.countP_map]
  rfl

/-! ### Messages about changed counts -/

/-- The nets whose count of part 0 differs. -/
def changedNets (H : Hypergraph) (A F : Nat → Cnt) : List Nat :=
  (H.nets.filter (fun n => (A n.id).c0 ≠ (F n.id).c0)).map (·.id)

theorem changeSends_ok {N p : Nat} {np : NetPart} (hv : np.Valid p N) {H : Hypergraph}
    (hid : ∀ n ∈ H.nets, n.id < N) (P : Nat → Int) (L : Nat → List Nat) (A F : Nat → Cnt) :
    changeSends p np (conc H P L) (cOf H F) (c0Of H A) =
      .ok (reports np (changedNets H A F) (fun e => (F e).c0)) := by
  unfold changeSends
  have hz : (conc H P L).nets.zipIdx =
      H.nets.zipIdx.map (fun x => ({ x.1 with vertices := L x.1.id }, x.2)) := by
    unfold conc
    rw [List.zipIdx_map]; rfl
  rw [hz, List.mapM_map]
  rw [mapM_zipIdx_map (g := fun n : Net => if (A n.id).c0 ≠ (F n.id).c0 then
    [(np.owner n.id, (n.id, (F n.id).c0))] else [])]
  · simp only [ok_bind, pure_eq_ok]
    congr 1
    unfold reports changedNets
    induction H.nets with
    | nil => rfl
    | cons n l ih =>
      rw [List.map_cons, List.flatten_cons, ih, List.filter_cons]
      by_cases h : (A n.id).c0 = (F n.id).c0 <;> simp [h]
  · intro i n hi
    simp only [Function.comp_apply]
    rw [vget_ok (a := (A n.id).c0) (by simp [c0Of, hi])]
    simp only [ok_bind]
    rw [vget_ok (a := F n.id) (by simp [cOf, hi])]
    simp only [ok_bind]
    split
    · unfold send
      rw [if_pos (hv.owner_lt _ (hid n (List.mem_of_getElem? hi)))]
      rfl
    · rfl

theorem changedNets_nodup {H : Hypergraph} (w : WF H) (A F : Nat → Cnt) : (changedNets H A F).Nodup :=
  (w.nids).sublist ((List.filter_sublist).map _)

theorem changedNets_sub {H : Hypergraph} (A F : Nat → Cnt) {e : Nat} (h : e ∈ changedNets H A F) :
    e ∈ H.nets.map (·.id) := by
  obtain ⟨n, hn, rfl⟩ := List.mem_map.1 h
  exact List.mem_map_of_mem (List.mem_filter.1 hn).1

theorem changedNets_not {H : Hypergraph} {A F : Nat → Cnt} {n : Net} (hn : n ∈ H.nets)
    (h : n.id ∉ changedNets H A F) : (A n.id).c0 = (F n.id).c0 := by
  by_contra hne
  exact h (List.mem_map_of_mem (List.mem_filter.2 ⟨hn, by simpa using hne⟩))

theorem reports_congr (np : NetPart) {E : List Nat} {f g : Nat → Int} (h : ∀ e ∈ E, f e = g e) :
    reports np E f = reports np E g := by
  unfold reports
  apply List.map_congr_left
  intro e he
  rw [h e he]

end PMondriaan

import Verif.Model.GainChecks
import Verif.Props.Refine
import Verif.Props.Report

/-
Property C103: the functions that show gain buckets and check gains tell the truth.
-/

namespace PMondriaan

open Spec

theorem gainOf_self {H : Hypergraph} (w : WF H) (hb : Bipartitioned H) {C : List Cnt} (hC : CountsExact H C) {x : Vertex}
    (hx : x ∈ H.vertices) : GainStructure.gainOf H C x = .ok (trueGain H x.id) := by
  have h01 := parts01_self w hb
  have h := gainOf_conc (L := pinsOf H) (F := exactF (partOf H) (pinsOf H)) w hx (h01 x hx)
  have hp : ({ x with part := partOf H x.id } : Vertex) = x := by rw [w.partOf_eq hx]
  rw [hp, trueGain_conc w h01 (pinsPerm_self w) hx, conc_self w, ← counts_self w hC] at h
  exact h

/-- The messages for one vertex. -/
def gainMsgs (H : Hypergraph) (gains : List (Option Int)) (x : Vertex × Nat) : List GainMsg :=
  match gains[x.2]? with
  | some (some g) => if trueGain H x.1.id ≠ g then [(x.1.id, g, trueGain H x.1.id)] else []
  | _ => []

theorem checkGains_eq {s : GainStructure} (w : WF s.H) (hb : Bipartitioned s.H) (hC : CountsExact s.H s.C)
    (hl : s.H.vertices.length ≤ s.gains.length) :
    s.checkGains = .ok ((s.H.vertices.zipIdx.map (gainMsgs s.H s.gains)).flatten) := by
  unfold GainStructure.checkGains
  have hm : s.H.vertices.zipIdx.mapM s.checkGain = .ok (s.H.vertices.zipIdx.map (gainMsgs s.H s.gains)) := by
    apply mapM_ok
    rintro ⟨v, i⟩ hvi
    have hget := List.mem_zipIdx_iff_getElem?.1 hvi
    have hi : i < s.gains.length := by
      have := (List.getElem?_eq_some_iff.1 hget).1
      omega
    unfold GainStructure.checkGain gainMsgs
    dsimp only
    rw [vget_ok (List.getElem?_eq_getElem hi), ok_bind, List.getElem?_eq_getElem hi]
    cases s.gains[i] with
    | none => rfl
    | some g =>
      dsimp only
      rw [gainOf_self w hb hC (List.mem_of_getElem? hget), ok_bind]
      rfl
  rw [hm, ok_bind]
  rfl

/-- C103: when the counts are exact, `check_gains` names exactly the vertices that are not locked and whose
stored gain is not the true change of the cut, and gives both numbers. -/
theorem C103_check_gains {s : GainStructure} (w : WF s.H) (hb : Bipartitioned s.H) (hC : CountsExact s.H s.C)
    (hl : s.H.vertices.length ≤ s.gains.length) :
    ∃ ms, s.checkGains = .ok ms ∧ ∀ (u : Nat) (g g' : Int), (u, g, g') ∈ ms ↔
      ∃ (i : Nat) (v : Vertex), s.H.vertices[i]? = some v ∧ v.id = u ∧ s.gains[i]? = some (some g) ∧ g' = trueGain s.H u ∧ g ≠ g' := by
  refine ⟨_, checkGains_eq w hb hC hl, fun u g g' => ?_⟩
  rw [List.mem_flatten]
  constructor
  · rintro ⟨l, hl1, hl2⟩
    obtain ⟨⟨v, i⟩, hvi, rfl⟩ := List.mem_map.1 hl1
    have hget := List.mem_zipIdx_iff_getElem?.1 hvi
    unfold gainMsgs at hl2
    dsimp only at hl2 hget
    split at hl2
    · rename_i g0 hg0
      split at hl2
      · rename_i hne
        rw [List.mem_singleton] at hl2
        cases hl2
        exact ⟨i, v, hget, rfl, hg0, rfl, fun h => hne h.symm⟩
      · cases hl2
    · cases hl2
  · rintro ⟨i, v, hget, rfl, hg, rfl, hne⟩
    refine ⟨_, List.mem_map_of_mem (List.mem_zipIdx_iff_getElem?.2 (show s.H.vertices[((v, i) : Vertex × Nat).2]? = some (v, i).1 from hget)), ?_⟩
    unfold gainMsgs
    dsimp only
    rw [hg]
    dsimp only
    rw [if_pos (fun h => hne h.symm)]
    exact List.mem_singleton.2 rfl

/-- C103: `check_gains` is silent exactly when every stored gain is right. -/
theorem C103_silent_iff {s : GainStructure} (w : WF s.H) (hb : Bipartitioned s.H) (hC : CountsExact s.H s.C)
    (hl : s.H.vertices.length ≤ s.gains.length) :
    s.checkGains = .ok [] ↔
      ∀ (i : Nat) (v : Vertex) (g : Int), s.H.vertices[i]? = some v → s.gains[i]? = some (some g) → g = trueGain s.H v.id := by
  obtain ⟨ms, h1, h2⟩ := C103_check_gains w hb hC hl
  rw [h1, Except.ok.injEq]
  constructor
  · intro h i v g hv hg
    by_contra hne
    have := (h2 v.id g _).2 ⟨i, v, hv, rfl, hg, rfl, hne⟩
    rw [h] at this
    cases this
  · intro h
    rw [List.eq_nil_iff_forall_not_mem]
    rintro ⟨u, g, g'⟩ hm
    obtain ⟨i, v, hv, rfl, hg, rfl, hne⟩ := (h2 u g g').1 hm
    exact hne (h i v g hv hg)

/-- C103: on one processor it is silent after every history of moves and removals. -/
theorem C103_silent {H : Hypergraph} (w : WF H) (hc : CostsNonneg H) (hb : Bipartitioned H)
    (hs : SortedOnPart H) {C : List Cnt} (hC : CountsExact H C) {s : GainStructure} {l : List Nat}
    (hr : Reach H C s l) : s.checkGains = .ok [] := by
  obtain ⟨M, P, L, G, hM, hS, hl⟩ := reach_inv w hc hb hs hC hr
  have hg := (C16_gains_exact w hc hb hs hC hr).1
  have hH := hS.inv.hH
  have hlen : s.H.vertices.length = H.vertices.length := by rw [hH]; simp [conc]
  have hgl : H.vertices.length ≤ s.gains.length := by
    by_contra hlt
    have hlt : s.gains.length < H.vertices.length := by omega
    have := hg _ _ (List.getElem?_eq_getElem hlt)
    rw [List.getElem?_eq_none (Nat.le_refl _)] at this
    cases this
  have w' : WF s.H := by rw [hH]; exact conc_wf w _ _ hS.hL
  have hb' : Bipartitioned s.H := by rw [hH]; exact bipartitioned_conc hS.h01
  have hC' : CountsExact s.H s.C := by rw [hH, hS.inv.hC]; exact countsExact_conc w _ _ hS.hL
  rw [C103_silent_iff w' hb' hC' (by omega)]
  intro i v g hv hgi
  have hv' : ∃ x, H.vertices[i]? = some x ∧ x.id = v.id := by
    rw [hH] at hv
    unfold conc at hv
    rw [List.getElem?_map, Option.map_eq_some_iff] at hv
    obtain ⟨x, hx, rfl⟩ := hv
    exact ⟨x, hx, rfl⟩
  obtain ⟨x, hx, he⟩ := hv'
  have h3 := hg i x hx
  rw [hgi] at h3
  rw [← he]
  split at h3
  · cases h3
  · exact Option.some.inj (Option.some.inj h3)

/-- A state with a wrong gain and what is said about it. -/
def wrongGain (s : GainStructure) : GainStructure := { s with gains := s.gains.set 0 (some 5) }

set_option synthInstance.maxSize 1000 in
example : (GainStructure.create exampleS exampleC).toOption.map (fun s => (s.checkGains.toOption, (wrongGain s).checkGains.toOption)) =
    some (some [], some [(1, 5, 0)]) := by
  decide +kernel

/-! ### The printed buckets -/

theorem gainLine_newline {l : List Char} {x : Int × List Nat} (h : GainLine l x) : '\n' ∉ l := by
  obtain ⟨d, ds, h1, h2, rfl⟩ := h
  simp only [List.mem_append, List.mem_cons, List.mem_flatMap]
  rintro (h | h | h | ⟨e, he, h | h⟩)
  · exact signed_not_mem h1 (by decide) (by decide) h
  · exact absurd h (by decide)
  · exact absurd h (by decide)
  · obtain ⟨n, -, hn⟩ := forall2_mem_left h2 he
    exact decimal_not_mem hn (by decide) h
  · exact absurd h (by decide)

theorem gainLine_unique {l : List Char} {x y : Int × List Nat} (h : GainLine l x) (h' : GainLine l y) : x = y := by
  obtain ⟨d, ds, h1, h2, rfl⟩ := h
  obtain ⟨d', ds', g1, g2, g3⟩ := h'
  obtain ⟨e1, e2⟩ := split_first (signed_not_mem h1 (by decide) (by decide)) (signed_not_mem g1 (by decide) (by decide)) g3
  rw [e1] at h1
  exact Prod.ext (signed_unique h1 g1) (nets_unique h2 g2 (List.cons.inj e2).2)

/-- A text shows one list of gains and vertices only. -/
theorem gainsAs_unique {text : List Char} {xs ys : List (Int × List Nat)} (h : GainsAs text xs) (h' : GainsAs text ys) :
    xs = ys := by
  obtain ⟨ls, h1, rfl⟩ := h
  obtain ⟨ls', g1, g2⟩ := h'
  replace g2 := List.append_cancel_left g2
  induction h1 generalizing ys ls' with
  | nil =>
    cases g1 with
    | nil => rfl
    | cons _ _ => simp at g2
  | cons a1 a2 ih =>
    cases g1 with
    | nil => simp at g2
    | cons b1 b2 =>
      simp only [List.flatMap_cons, List.append_assoc, List.singleton_append] at g2
      obtain ⟨e1, e2⟩ := split_first (gainLine_newline a1) (gainLine_newline b1) g2
      rw [e1] at a1
      rw [gainLine_unique a1 b1, ih _ b2 e2]

/-- C103: `print` writes a line for every bucket, in order, with its gain (the middle bucket has gain 0) and its vertices. -/
theorem C103_printed (b : Buckets) : GainsAs (bucketsText b)
    (b.buckets.zipIdx.map (fun x => ((x.2 : Int) - (b.buckets.length / 2 : Nat), x.1))) := by
  refine ⟨b.buckets.zipIdx.map (fun x => decimalInt ((x.2 : Int) - (b.buckets.length / 2 : Nat)) ++
    ':' :: ' ' :: (x.1.map decimal).flatMap (fun e => e ++ [' '])), ?_, ?_⟩
  · rw [List.forall₂_map_left_iff, List.forall₂_map_right_iff]
    apply List.forall₂_same.2
    intro x _
    refine ⟨_, x.1.map decimal, decimalInt_ok _, ?_, rfl⟩
    rw [List.forall₂_map_left_iff]
    exact List.forall₂_same.2 (fun n _ => decimal_ok n)
  · unfold bucketsText
    rw [List.flatMap_map]
    congr 1
    apply List.flatMap_congr
    intro x _
    unfold bucketLine Buckets.indexToGain
    rw [List.flatMap_map]
    simp

/-- C103: two structures print the same exactly when they have the same buckets; the limits are not shown. -/
theorem C103_unique (b b' : Buckets) : bucketsText b = bucketsText b' ↔ b.buckets = b'.buckets := by
  constructor
  · intro h
    have h1 := C103_printed b
    rw [h] at h1
    have h2 := congrArg (List.map Prod.snd) (gainsAs_unique h1 (C103_printed b'))
    have e : ∀ c : Buckets, (c.buckets.zipIdx.map (fun x => ((x.2 : Int) - (c.buckets.length / 2 : Nat), x.1))).map Prod.snd =
        c.buckets := by
      intro c
      rw [List.map_map]
      exact List.zipIdx_map_fst 0 c.buckets
    rwa [e, e] at h2
  · intro h
    unfold bucketsText
    have e : bucketLine b = bucketLine b' := by
      funext x
      unfold bucketLine Buckets.indexToGain
      rw [h]
    rw [h, e]

example : (GainStructure.create exampleS exampleC).toOption.map (fun s => bucketsText s.b0) =
    some ("Buckets: \n-8: \n-7: \n-6: \n-5: \n-4: \n-3: \n-2: \n-1: \n0: 1 \n1: \n2: \n3: \n4: \n5: 3 \n6: \n7: \n8: \n".toList) := by
  decide +kernel

/-- What a printed line of gain `g` should show for part `p`. -/
def TrueLine (H : Hypergraph) (l : List Nat) (p : Int) (x : Int × List Nat) : Prop :=
  x.2.Nodup ∧ ∀ u, u ∈ x.2 ↔ IsVertex H u ∧ u ∉ l ∧ partOf H u = p ∧ trueGain H u = x.1

/-- C103: after every history on one processor the print of the buckets of a part shows, under increasing gains, exactly the
vertices of the part that are not locked, each once and under its true gain. -/
theorem C103_reach_printed {H : Hypergraph} (w : WF H) (hc : CostsNonneg H) (hb : Bipartitioned H)
    (hs : SortedOnPart H) {C : List Cnt} (hC : CountsExact H C) {s : GainStructure} {l : List Nat}
    (hr : Reach H C s l) {p : Int} {b : Buckets} (hbk : s.bucket p = .ok b) :
    ∃ xs, GainsAs (bucketsText b) xs ∧ (xs.map Prod.fst).Pairwise (· < ·) ∧ (∀ x ∈ xs, TrueLine s.H l p x) ∧
      ∀ u, IsVertex s.H u → u ∉ l → partOf s.H u = p → ∃ ids, (trueGain s.H u, ids) ∈ xs ∧ u ∈ ids := by
  obtain ⟨M, P, L, G, hM, hS, hl⟩ := reach_inv w hc hb hs hC hr
  have hval : ∀ x ∈ H.vertices, x.id ∉ l → G x.id = some (trueGain s.H x.id) := by
    intro x hx hnl
    obtain ⟨g, hg⟩ := Option.ne_none_iff_exists'.1 (fun h => hnl ((hl x hx).1 h))
    rw [hg, hS.ok x hx g hg, trueGain_conc w hS.h01 hS.hL hx, hS.inv.hH]
  have hpart : ∀ x ∈ H.vertices, partOf s.H x.id = P x.id := by
    intro x hx; rw [hS.inv.hH]; exact conc_partOf _ _ hx
  have hiv : ∀ u, IsVertex s.H u ↔ IsVertex H u := by
    intro u
    unfold IsVertex
    rw [hS.inv.hH, conc_vids]
  have hin : ∀ u g, InBucket H P G p u g ↔
      (IsVertex s.H u ∧ u ∉ l ∧ partOf s.H u = p ∧ trueGain s.H u = g) := by
    intro u g
    rw [hiv]
    unfold InBucket
    constructor
    · rintro ⟨h1, h2, h3⟩
      obtain ⟨x, hx, rfl⟩ := List.mem_map.1 h1
      have hnl : x.id ∉ l := by
        intro hm; rw [(hl x hx).2 hm] at h3; cases h3
      rw [hval x hx hnl] at h3
      exact ⟨h1, hnl, by rw [hpart x hx]; exact h2, Option.some.inj h3⟩
    · rintro ⟨h1, h2, h3, h4⟩
      obtain ⟨x, hx, rfl⟩ := List.mem_map.1 h1
      exact ⟨h1, by rw [← hpart x hx]; exact h3, by rw [hval x hx h2, h4]⟩
  have hI : BInv M b (InBucket H P G p) := by
    unfold GainStructure.bucket at hbk
    split at hbk
    · rename_i h0; cases hbk; rw [h0]; exact hS.inv.i0
    · split at hbk
      · rename_i h1; cases hbk; rw [h1]; exact hS.inv.i1
      · cases hbk
  have hM2 : b.buckets.length / 2 = M := by rw [hI.len]; omega
  refine ⟨_, C103_printed b, ?_, ?_, ?_⟩
  · rw [hM2, List.pairwise_map, List.pairwise_map, List.pairwise_iff_getElem]
    intro i j hi hj hij
    simp only [List.getElem_zipIdx]
    omega
  · intro x hx
    obtain ⟨⟨ids, i⟩, hi, rfl⟩ := List.mem_map.1 hx
    have hget := List.mem_zipIdx_iff_getElem?.1 hi
    dsimp only at hget
    rw [hM2]
    refine ⟨hI.nd ids (List.mem_of_getElem? hget), fun u => ?_⟩
    exact (hI.mem i ids u hget).trans (hin u _)
  · intro u h1 h2 h3
    have hR := (hin u (trueGain s.H u)).2 ⟨h1, h2, h3, rfl⟩
    obtain ⟨r1, r2⟩ := hI.rng u _ hR
    obtain ⟨i, hi⟩ : ∃ i : Nat, (i : Int) = trueGain s.H u + M := ⟨(trueGain s.H u + M).toNat, by omega⟩
    have hlt : i < b.buckets.length := by rw [hI.len]; omega
    have hget := List.getElem?_eq_getElem hlt
    refine ⟨b.buckets[i], List.mem_map.2 ⟨(b.buckets[i], i), List.mem_zipIdx_iff_getElem?.2 hget, ?_⟩, ?_⟩
    · dsimp only
      rw [hM2, hi]
      congr 1
      omega
    · rw [hI.mem i _ u hget]
      have : (i : Int) - M = trueGain s.H u := by omega
      rw [this]
      exact hR

end PMondriaan

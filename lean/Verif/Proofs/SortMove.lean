import Verif.Proofs.Counts

/-
`sort_vertices_on_part` and `move_sorted`.
-/

namespace PMondriaan

open Spec

/-- The list is split: first the vertices of part 0, then those of part 1. -/
def Split (P : Nat → Int) (l : List Nat) : Prop :=
  ∃ z o, l = z ++ o ∧ (∀ u ∈ z, P u = 0) ∧ (∀ u ∈ o, P u = 1)

theorem countP_zero_split {P : Nat → Int} {z o : List Nat}
    (hz : ∀ u ∈ z, P u = 0) (ho : ∀ u ∈ o, P u = 1) :
    (z ++ o).countP (fun u => P u = 0) = z.length ∧
    (z ++ o).countP (fun u => P u = 1) = o.length := by
  rw [List.countP_append, List.countP_append]
  have h1 : z.countP (fun u => decide (P u = 0)) = z.length := by
    rw [List.countP_eq_length]; intro u hu; simp [hz u hu]
  have h2 : o.countP (fun u => decide (P u = 0)) = 0 := by
    rw [List.countP_eq_zero]; intro u hu; simp [ho u hu]
  have h3 : o.countP (fun u => decide (P u = 1)) = o.length := by
    rw [List.countP_eq_length]; intro u hu; simp [ho u hu]
  have h4 : z.countP (fun u => decide (P u = 1)) = 0 := by
    rw [List.countP_eq_zero]; intro u hu; simp [hz u hu]
  omega

theorem skipOnes_ok {H : Hypergraph} {P : Nat → Int} {l : List Nat}
    (hP : ∀ u ∈ l, H.partOfV u = .ok (P u)) :
    ∀ e, e ≤ l.length → (∃ k u, k < e ∧ l[k]? = some u ∧ P u ≠ 1) →
    ∃ m u, H.skipOnes l e = .ok (m + 1) ∧ m < e ∧ l[m]? = some u ∧ P u ≠ 1 ∧
      ∀ k u, m < k → k < e → l[k]? = some u → P u = 1 := by
  intro e
  induction e with
  | zero => rintro _ ⟨k, u, hk, _⟩; omega
  | succ e ih =>
    intro he hex
    have hlt : e < l.length := by omega
    have hget : l[e]? = some l[e] := by simp [hlt]
    unfold Hypergraph.skipOnes
    rw [vget_ok hget]
    simp only [ok_bind, hP l[e] (List.getElem_mem hlt)]
    by_cases h1 : P l[e] = 1
    · rw [if_pos h1]
      obtain ⟨m, u, hm, hme, hu, hne, hall⟩ := ih (by omega) (by
        obtain ⟨k, u, hk, hu, hne⟩ := hex
        refine ⟨k, u, ?_, hu, hne⟩
        rcases Nat.lt_or_ge k e with h | h
        · exact h
        · exfalso
          have : k = e := by omega
          subst this
          rw [hget] at hu
          cases hu
          exact hne h1)
      refine ⟨m, u, hm, by omega, hu, hne, ?_⟩
      intro k u' hk1 hk2 hu'
      rcases Nat.lt_or_ge k e with h | h
      · exact hall k u' hk1 h hu'
      · have : k = e := by omega
        subst this
        rw [hget] at hu'
        cases hu'
        exact h1
    · rw [if_neg h1]
      refine ⟨e, l[e], rfl, by omega, hget, h1, ?_⟩
      intro k u hk1 hk2; omega

theorem vswap_ok {α : Type} {l : List α} {i j : Nat} (hi : i < l.length) (hj : j < l.length) :
    vswap l i j = .ok ((l.set i l[j]).set j l[i]) := by
  unfold vswap
  rw [vget_ok (a := l[i]) (by simp [hi]), vget_ok (a := l[j]) (by simp [hj])]
  rfl

theorem swap_perm {α : Type} {l : List α} {i j : Nat} (hi : i < l.length) (hj : j < l.length) :
    ((l.set i l[j]).set j l[i]).Perm l :=
  List.set_set_perm hi hj

/-- The count of elements satisfying `p` when positions up to `a` all do and position `a` not:
another such position lies beyond. -/
theorem exists_zero_beyond {P : Nat → Int} (l : List Nat) (index : Nat)
    (hpos : index < l.countP (fun u => P u = 0)) (hlt : index < l.length) (hbad : P l[index] ≠ 0) :
    ∃ k u, index < k ∧ l[k]? = some u ∧ P u = 0 := by
  by_contra hno
  push Not at hno
  have hdrop : (l.drop (index + 1)).countP (fun u => decide (P u = 0)) = 0 := by
    rw [List.countP_eq_zero]
    intro u hu
    obtain ⟨k, hk⟩ := List.mem_iff_getElem?.1 hu
    rw [List.getElem?_drop] at hk
    simpa using hno (index + 1 + k) u (by omega) hk
  have hsplit : l = l.take index ++ l[index] :: l.drop (index + 1) := by
    rw [List.cons_getElem_drop_succ, List.take_append_drop]
  have : l.countP (fun u => decide (P u = 0)) ≤ index := by
    conv_lhs => rw [hsplit]
    rw [List.countP_append, List.countP_cons, hdrop]
    have h1 : (l.take index).countP (fun u => decide (P u = 0)) ≤ (l.take index).length :=
      List.countP_le_length
    have h2 : (l.take index).length ≤ index := by simp
    simp [hbad]
    omega
  omega

/-- The loop that sorts one net. -/
theorem sortNetLoop_ok {H : Hypergraph} {P : Nat → Int} (l0 : List Nat) (c : Nat)
    (hPV : ∀ u ∈ l0, H.partOfV u = .ok (P u)) (h01 : ∀ u ∈ l0, P u = 0 ∨ P u = 1)
    (hc : l0.countP (fun u => P u = 0) = c) :
    ∀ (f : Nat) (l : List Nat) (index e1 : Nat), l.Perm l0 → index ≤ c → e1 ≤ l.length →
      (∀ k u, k < index → l[k]? = some u → P u = 0) →
      (∀ k u, e1 ≤ k → l[k]? = some u → P u = 1) →
      2 * (c - index) + 1 + (if (l[index]?).map P = some 0 ∧ index < c then 0 else
        if index < c then 1 else 0) ≤ f + (if index < c then 1 else 0) →
      ∃ l', Hypergraph.sortNetLoop H c f l index e1 = .ok l' ∧ l'.Perm l0 ∧ Split P l' := by
  intro f
  induction f with
  | zero =>
    intro l index e1 hperm hic he1 hlow hhigh hf
    exfalso
    by_cases h : index < c
    · simp [h] at hf
      omega
    · simp [h] at hf
  | succ f ih =>
    intro l index e1 hperm hic he1 hlow hhigh hf
    have hcl : l.countP (fun u => decide (P u = 0)) = c := by
      rw [hperm.countP_eq]; exact hc
    have hclen : c ≤ l.length := by rw [← hcl]; exact List.countP_le_length
    unfold Hypergraph.sortNetLoop
    by_cases hlt : index < c
    · rw [if_pos (by exact_mod_cast hlt)]
      have hil : index < l.length := by omega
      have hget : l[index]? = some l[index] := by simp [hil]
      have hmem : l[index] ∈ l0 := hperm.mem_iff.1 (List.getElem_mem hil)
      rw [vget_ok hget]
      simp only [ok_bind, hPV _ hmem]
      by_cases h0 : P l[index] = 0
      · simp only [h0, ne_eq, not_true, if_false]
        apply ih l (index + 1) e1 hperm (by omega) he1
        · intro k u hk hu
          rcases Nat.lt_or_ge k index with h | h
          · exact hlow k u h hu
          · have : k = index := by omega
            subst this
            rw [hget] at hu
            cases hu; exact h0
        · exact hhigh
        · simp only [hget, Option.map_some, h0, hlt, and_self, if_true] at hf
          split_ifs <;> omega
      · rw [if_pos h0]
        have h1 : P l[index] = 1 := (h01 _ hmem).resolve_left h0
        obtain ⟨k, u, hk, hu, hu0⟩ := exists_zero_beyond (P := P) l index (by omega) hil h0
        have hke : k < e1 := by
          rcases Nat.lt_or_ge k e1 with h | h
          · exact h
          · exfalso
            have := hhigh k u h hu
            omega
        obtain ⟨m, x, hm, hme, hx, hx1, hall⟩ := skipOnes_ok (H := H) (P := P) (l := l)
          (fun u hu => hPV u (hperm.mem_iff.1 hu)) e1 he1 ⟨k, u, hke, hu, by omega⟩
        have hml : m < l.length := by omega
        have hxm : l[m] = x := by
          rw [List.getElem?_eq_some_iff] at hx; obtain ⟨_, h⟩ := hx; exact h
        have hx0 : P x = 0 := by
          have : x ∈ l0 := hperm.mem_iff.1 (List.mem_of_getElem? hx)
          exact (h01 x this).resolve_right hx1
        have him : index < m := by
          rcases Nat.lt_trichotomy index m with h | h | h
          · exact h
          · exfalso; subst h; rw [hxm] at h0; exact h0 hx0
          · exfalso
            have := hall k u (by omega) hke hu
            omega
        rw [hm]
        simp only [ok_bind, Nat.add_sub_cancel]
        rw [vswap_ok hil hml]
        simp only [ok_bind]
        apply ih _ index m ((swap_perm hil hml).trans hperm) hic (by simp; omega)
        · intro q y hq hy
          rw [List.getElem?_set_ne (by omega), List.getElem?_set_ne (by omega)] at hy
          exact hlow q y hq hy
        · intro q y hq hy
          rcases Nat.eq_or_lt_of_le hq with h | h
          · subst h
            rw [List.getElem?_set_self (by simpa using hml)] at hy
            cases hy; exact h1
          · rw [List.getElem?_set_ne (by omega), List.getElem?_set_ne (by omega)] at hy
            rcases Nat.lt_or_ge q e1 with h' | h'
            · exact hall q y h h' hy
            · exact hhigh q y h' hy
        · rw [List.getElem?_set_ne (by omega), List.getElem?_set_self (by simpa using hil)]
          simp only [Option.map_some, hxm, hx0, hlt, and_self, if_true]
          simp only [hget, Option.map_some, h1, hlt] at hf
          simp at hf
          omega
    · rw [if_neg (by exact_mod_cast hlt)]
      have hic' : index = c := by omega
      refine ⟨l, rfl, hperm, l.take c, l.drop c, (List.take_append_drop c l).symm, ?_, ?_⟩
      · intro u hu
        obtain ⟨k, hk⟩ := List.mem_iff_getElem?.1 hu
        rw [List.getElem?_take] at hk
        split at hk
        · exact hlow k u (by omega) hk
        · cases hk
      · intro u hu
        have hmem : u ∈ l0 := hperm.mem_iff.1 (List.mem_of_mem_drop hu)
        rcases h01 u hmem with h0 | h1
        · exfalso
          have h2 : (l.take c).countP (fun u => decide (P u = 0)) = c := by
            have : (l.take c).countP (fun u => decide (P u = 0)) = (l.take c).length := by
              rw [List.countP_eq_length]
              intro x hx
              obtain ⟨k, hk⟩ := List.mem_iff_getElem?.1 hx
              rw [List.getElem?_take] at hk
              split at hk
              · simpa using hlow k x (by omega) hk
              · cases hk
            rw [this]; simp; omega
          have h3 : 0 < (l.drop c).countP (fun u => decide (P u = 0)) := by
            rw [List.countP_pos_iff]; exact ⟨u, hu, by simpa using h0⟩
          have h4 : l.countP (fun u => decide (P u = 0)) =
              (l.take c).countP (fun u => decide (P u = 0)) +
              (l.drop c).countP (fun u => decide (P u = 0)) := by
            rw [← List.countP_append, List.take_append_drop]
          omega
        · exact h1

/-- Generic: `mapM` over the nets with their positions. -/
theorem mapM_zipIdx_ok {α β : Type} (l : List α) (f : α × Nat → Res β)
    (R : α → β → Prop)
    (h : ∀ i a, l[i]? = some a → ∃ b, f (a, i) = .ok b ∧ R a b) :
    ∃ l', (l.zipIdx).mapM f = .ok l' ∧ List.Forall₂ R l l' := by
  suffices H : ∀ (l : List α) (k : Nat),
      (∀ i a, l[i]? = some a → ∃ b, f (a, k + i) = .ok b ∧ R a b) →
      ∃ l', (l.zipIdx k).mapM f = .ok l' ∧ List.Forall₂ R l l' by
    have := H l 0 (by simpa using h)
    exact this
  intro l
  induction l with
  | nil => intro k _; exact ⟨[], rfl, List.Forall₂.nil⟩
  | cons a l ih =>
    intro k h
    obtain ⟨b, hb, hR⟩ := h 0 a (by simp)
    obtain ⟨l', hl', hF⟩ := ih (k + 1) (by
      intro i x hx
      have := h (i + 1) x (by simpa using hx)
      rwa [show k + 1 + i = k + (i + 1) by omega])
    refine ⟨b :: l', ?_, List.Forall₂.cons hR hF⟩
    rw [List.zipIdx_cons, List.mapM_cons]
    simp only [Nat.add_zero] at hb
    rw [hb]
    simp only [ok_bind]
    rw [hl']
    rfl

theorem forall₂_map_key {α β γ : Type} (key : α → Nat) (mk : α → γ → β) (Q : α → γ → Prop)
    (dflt : Nat → γ) (l : List α) (l' : List β) (hk : (l.map key).Nodup)
    (h : List.Forall₂ (fun a b => ∃ x, b = mk a x ∧ Q a x) l l') :
    ∃ L : Nat → γ, l' = l.map (fun a => mk a (L (key a))) ∧ ∀ a ∈ l, Q a (L (key a)) := by
  induction h with
  | nil => exact ⟨dflt, rfl, by simp⟩
  | @cons a b l l' hab _ ih =>
    obtain ⟨x, rfl, hQ⟩ := hab
    rw [List.map_cons, List.nodup_cons] at hk
    obtain ⟨L, rfl, hL⟩ := ih hk.2
    have hne : ∀ c ∈ l, key c ≠ key a := by
      intro c hc he
      exact hk.1 (he ▸ List.mem_map_of_mem hc)
    refine ⟨upd L (key a) x, ?_, ?_⟩
    · simp only [List.map_cons, upd_same, List.cons.injEq, true_and]
      apply List.map_congr_left
      intro c hc
      rw [upd_other _ _ (hne c hc)]
    · intro c hc
      rcases List.mem_cons.1 hc with rfl | hc
      · simpa using hQ
      · rw [upd_other _ _ (hne c hc)]
        exact hL c hc

/-- `partOfV` on the functional view. -/
theorem conc_partOfV {H : Hypergraph} (w : WF H) (P : Nat → Int) (L : Nat → List Nat)
    {n : Net} (hn : n ∈ H.nets) {u : Nat} (hu : u ∈ n.vertices) :
    (conc H P L).partOfV u = .ok (P u) := by
  obtain ⟨v, hv, rfl, -⟩ := w.inc_vtx n hn u hu
  unfold Hypergraph.partOfV
  rw [conc_vertexOf w P L hv]
  rfl

/-- The parts of all vertices are 0 or 1. -/
def Parts01 (H : Hypergraph) (P : Nat → Int) : Prop := ∀ v ∈ H.vertices, P v.id = 0 ∨ P v.id = 1

/-- The pin lists are permutations of those of the base hypergraph. -/
def PinsPerm (H : Hypergraph) (L : Nat → List Nat) : Prop :=
  ∀ n ∈ H.nets, (L n.id).Perm n.vertices

/-- All pin lists are split by part. -/
def AllSplit (H : Hypergraph) (P : Nat → Int) (L : Nat → List Nat) : Prop :=
  ∀ n ∈ H.nets, Split P (L n.id)

theorem Parts01.pin {H : Hypergraph} (w : WF H) {P : Nat → Int} (h : Parts01 H P)
    {n : Net} (hn : n ∈ H.nets) {u : Nat} (hu : u ∈ n.vertices) : P u = 0 ∨ P u = 1 := by
  obtain ⟨v, hv, rfl, -⟩ := w.inc_vtx n hn u hu
  exact h v hv

theorem sortVerticesOnPart_conc {H : Hypergraph} (w : WF H) {P : Nat → Int} {L : Nat → List Nat}
    (h01 : Parts01 H P) (hL : PinsPerm H L) :
    ∃ L', (conc H P L).sortVerticesOnPart (cOf H (exactF P L)) = .ok (conc H P L') ∧
      PinsPerm H L' ∧ AllSplit H P L' := by
  unfold Hypergraph.sortVerticesOnPart
  have key := mapM_zipIdx_ok (conc H P L).nets
    (fun p : Net × Nat => do
      let c ← vget (cOf H (exactF P L)) p.2
      let l ← Hypergraph.sortNetLoop (conc H P L) c.c0 (2 * p.1.vertices.length + 1) p.1.vertices 0
        p.1.vertices.length
      pure { p.1 with vertices := l })
    (fun n n' => ∃ l, n' = { n with vertices := l } ∧
      ((∀ m ∈ H.nets, m.id = n.id → l.Perm m.vertices) ∧ Split P l))
    (by
      intro i n' hn'
      simp only [conc, List.getElem?_map, Option.map_eq_some_iff] at hn'
      obtain ⟨n, hi, rfl⟩ := hn'
      have hn := List.mem_of_getElem? hi
      have hp := hL n hn
      simp only
      rw [vget_ok (cOf_get hi)]
      simp only [ok_bind, exactF]
      obtain ⟨l', hl', hperm, hsplit⟩ := sortNetLoop_ok (H := conc H P L) (P := P) (L n.id)
        ((L n.id).countP (fun u => P u = 0))
        (fun u hu => conc_partOfV w P L hn (hp.mem_iff.1 hu))
        (fun u hu => h01.pin w hn (hp.mem_iff.1 hu)) rfl
        (2 * (L n.id).length + 1) (L n.id) 0 (L n.id).length (List.Perm.refl _)
        (Nat.zero_le _) (le_refl _) (by intro k u hk; omega)
        (by
          intro k u hk hu
          rw [List.getElem?_eq_none (by omega)] at hu
          cases hu)
        (by
          have : (L n.id).countP (fun u => decide (P u = 0)) ≤ (L n.id).length :=
            List.countP_le_length
          split_ifs <;> omega)
      rw [hl']
      refine ⟨_, rfl, l', rfl, ?_, hsplit⟩
      intro m hm hmn
      rw [w.net_inj hm hn hmn]
      exact hperm.trans hp)
  obtain ⟨nets', hnets', hF⟩ := key
  have hF' : List.Forall₂ (fun (n : Net) (n' : Net) => ∃ l, n' = { n with vertices := l } ∧
      ((∀ m ∈ H.nets, m.id = n.id → l.Perm m.vertices) ∧ Split P l)) H.nets nets' := by
    unfold conc at hF
    simp only [List.forall₂_map_left_iff] at hF
    exact hF
  obtain ⟨L', hL', hQ⟩ := forall₂_map_key (fun n : Net => n.id)
    (fun n l => { n with vertices := l }) 
    (fun n l => (∀ m ∈ H.nets, m.id = n.id → l.Perm m.vertices) ∧ Split P l) L _ _ w.nids hF'
  refine ⟨L', ?_, fun n hn => (hQ n hn).1 n hn rfl, fun n hn => (hQ n hn).2⟩
  refine (congrArg (fun x => x >>= _) hnets').trans ?_
  simp only [ok_bind, pure_eq_ok]
  subst hL'
  rfl

/-! ### `move_sorted` -/

theorem findFrom_append {z o : List Nat} {v : Nat} {x y : List Nat} (ho : o = x ++ v :: y)
    (hx : v ∉ x) : findFrom (z ++ o) z.length v = .ok (z.length + x.length) := by
  unfold findFrom
  have h1 : (z ++ o).drop z.length = o := by simp
  rw [h1, if_pos (by rw [ho]; simp), ho, List.idxOf_append_of_notMem hx]
  simp

theorem findFrom_zero {x y : List Nat} {v : Nat} (hx : v ∉ x) :
    findFrom (x ++ v :: y) 0 v = .ok x.length := by
  have := findFrom_append (z := []) (o := x ++ v :: y) rfl hx
  simpa using this

theorem swap_append {z x y : List Nat} {a v : Nat} :
    vswap (z ++ a :: (x ++ v :: y)) (z.length + (x.length + 1)) z.length =
      .ok (z ++ v :: (x ++ a :: y)) := by
  rw [vswap_ok (by simp) (by simp)]
  congr 1
  apply List.ext_getElem?
  intro k
  simp only [List.getElem?_set, List.getElem_append, List.length_append, List.length_cons,
    List.length_set, List.getElem?_append, List.getElem?_cons]
  grind

theorem swap_append' {z x y : List Nat} {a v : Nat} :
    vswap (z ++ a :: (x ++ v :: y)) z.length (z.length + (x.length + 1)) =
      .ok (z ++ v :: (x ++ a :: y)) := by
  rw [vswap_ok (by simp) (by simp)]
  congr 1
  apply List.ext_getElem?
  intro k
  simp only [List.getElem?_set, List.getElem_append, List.length_append, List.length_cons,
    List.length_set, List.getElem?_append, List.getElem?_cons]
  grind

/-- How one pin list changes when `v` (in the list) crosses the border. -/
def Crossed (P : Nat → Int) (v : Nat) (l l' : List Nat) : Prop :=
  ∃ z o, l = z ++ o ∧ (∀ u ∈ z, P u = 0) ∧ (∀ u ∈ o, P u = 1) ∧
    ((P v = 1 ∧ ∃ o', l' = z ++ v :: o' ∧ (v :: o').Perm o) ∨
     (P v = 0 ∧ ∃ z', l' = z' ++ v :: o ∧ (z' ++ [v]).Perm z))

theorem borderSwap_ok {P : Nat → Int} {v : Nat} {l : List Nat} (hs : Split P l) (hv : v ∈ l)
    (c0 : Int) (hc : c0 = (l.countP (fun u => P u = 0) : Nat)) (h01 : P v = 0 ∨ P v = 1) :
    ∃ l', Hypergraph.borderSwap l c0 v (other (P v)) = .ok l' ∧ Crossed P v l l' := by
  obtain ⟨z, o, rfl, hz, ho⟩ := hs
  rw [(countP_zero_split hz ho).1] at hc
  subst hc
  rcases h01 with h | h
  · -- from part 0 to part 1
    have hvz : v ∈ z := by
      rcases List.mem_append.1 hv with h' | h'
      · exact h'
      · exact absurd (ho v h') (by omega)
    obtain ⟨x, y, hxy, hx⟩ := List.eq_append_cons_of_mem hvz
    have hnp : ¬ other (P v) = 0 := by rw [h]; decide
    unfold Hypergraph.borderSwap
    rw [if_neg hnp]
    subst hxy
    have hzl : (0 : Int) ≤ ((x ++ v :: y).length : Nat) - 1 := by simp; omega
    rw [show x ++ v :: y ++ o = x ++ v :: (y ++ o) by simp, findFrom_zero hx]
    simp only [ok_bind]
    rw [if_neg (by omega)]
    have hidx : (((x ++ v :: y).length : Int) - 1).toNat = x.length + y.length := by
      simp; omega
    rw [hidx]
    rcases List.eq_nil_or_concat y with rfl | ⟨y', b, rfl⟩
    · refine ⟨x ++ v :: o, ?_, x ++ [v], o, by simp, by simpa using hz, ho, Or.inr ⟨h, x, rfl, List.Perm.refl _⟩⟩
      simp only [List.nil_append, List.length_nil, Nat.add_zero]
      rw [vswap_ok (by simp) (by simp)]
      congr 1
      simp
    · refine ⟨x ++ b :: y' ++ v :: o, ?_, x ++ v :: (y' ++ [b]), o, by simp, by simpa using hz, ho,
        Or.inr ⟨h, x ++ b :: y', rfl, ?_⟩⟩
      · have := swap_append' (z := x) (a := v) (x := y') (v := b) (y := o)
        simpa using this
      · rw [List.perm_iff_count]
        intro c
        simp only [List.count_append, List.count_cons, List.count_nil]
        omega
  · -- from part 1 to part 0
    have hvo : v ∈ o := by
      rcases List.mem_append.1 hv with h' | h'
      · exact absurd (hz v h') (by omega)
      · exact h'
    obtain ⟨x, y, hxy, hx⟩ := List.eq_append_cons_of_mem hvo
    have hnp : other (P v) = 0 := by rw [h]; decide
    unfold Hypergraph.borderSwap
    rw [if_pos hnp, if_neg (by omega)]
    simp only [Int.toNat_natCast]
    rw [findFrom_append hxy hx]
    simp only [ok_bind]
    rcases x with _ | ⟨a, x⟩
    · refine ⟨z ++ v :: y, ?_, z, o, rfl, hz, ho, Or.inl ⟨h, y, rfl, by simp [hxy]⟩⟩
      subst hxy
      simp only [List.nil_append, List.length_nil, Nat.add_zero]
      rw [vswap_ok (by simp) (by simp)]
      congr 1
      simp
    · refine ⟨z ++ v :: (x ++ a :: y), ?_, z, o, rfl, hz, ho, Or.inl ⟨h, x ++ a :: y, rfl, ?_⟩⟩
      · subst hxy
        exact swap_append
      · subst hxy
        rw [List.perm_iff_count]
        intro c
        simp only [List.cons_append, List.count_append, List.count_cons]
        omega

end PMondriaan

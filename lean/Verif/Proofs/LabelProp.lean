import Verif.Model.LabelProp
import Verif.Proofs.Counts
import Verif.Proofs.Bridge
import Verif.Spec.LabelProp
import Verif.Spec.Labels
import Mathlib.Logic.Function.Basic

/-
Proofs about label propagation.
-/

namespace PMondriaan

open Spec

/-! ### Updating one row per net of a vertex -/

/-- Rows indexed like the nets: `F'` for the nets in `es`, `F` for the others. -/
def rowsOf {ρ : Type} (H : Hypergraph) (F F' : Net → ρ) (es : List Nat) : List ρ :=
  H.nets.map (fun n => if n.id ∈ es then F' n else F n)

theorem rowsOf_get {ρ : Type} {H : Hypergraph} {F F' : Net → ρ} {es : List Nat} {j : Nat} {n : Net}
    (h : H.nets[j]? = some n) (hn : n.id ∉ es) : (rowsOf H F F' es)[j]? = some (F n) := by
  unfold rowsOf
  rw [List.getElem?_map, h, Option.map_some, if_neg hn]

theorem rowsOf_set {ρ : Type} {H : Hypergraph} (w : WF H) {F F' : Net → ρ} {es : List Nat} {j : Nat}
    {n : Net} (h : H.nets[j]? = some n) :
    (rowsOf H F F' es).set j (F' n) = rowsOf H F F' (es ++ [n.id]) := by
  unfold rowsOf
  apply List.ext_getElem?
  intro i
  rw [List.getElem?_set, List.getElem?_map]
  by_cases hij : j = i
  · subst hij
    have hlt : j < H.nets.length := by rw [List.getElem?_eq_some_iff] at h; exact h.1
    rw [if_pos rfl, if_pos (by simpa using hlt), List.getElem?_map, h, Option.map_some,
      if_pos (by simp)]
  · rw [if_neg hij, List.getElem?_map]
    cases hm : H.nets[i]? with
    | none => rfl
    | some m =>
      rw [Option.map_some, Option.map_some]
      have : m.id ≠ n.id := fun hid => hij (w.nindex_inj h hm hid.symm)
      simp [this]

theorem netFold_ok {ρ σ : Type} {H : Hypergraph} (w : WF H) {F F' : Net → ρ} {es : List Nat}
    (hnd : es.Nodup) (hes : ∀ e ∈ es, IsNet H e) {step : List ρ × σ → Nat → Res (List ρ × σ)}
    {I : List Nat → σ → Prop}
    (hstep : ∀ (C : List ρ) (s : σ) (j : Nat) (n : Net) (pre : List Nat), H.nets[j]? = some n →
      n.id ∈ es → n.id ∉ pre → C[j]? = some (F n) → I pre s →
      ∃ s', step (C, s) n.id = .ok (C.set j (F' n), s') ∧ I (pre ++ [n.id]) s')
    {s0 : σ} (h0 : I [] s0) :
    ∃ s', es.foldlM step (H.nets.map F, s0) = .ok (rowsOf H F F' es, s') ∧ I es s' := by
  obtain ⟨s, h1, h2, h3⟩ := foldlM_inv (f := step)
    (fun pre _ (s : List ρ × σ) => s.1 = rowsOf H F F' pre ∧ I pre s.2) es (H.nets.map F, s0)
    (by refine ⟨?_, h0⟩; simp [rowsOf]) (by
      rintro pre e post ⟨C, s⟩ ⟨rfl, hI⟩ hl
      have he : e ∈ es := by rw [hl]; simp
      obtain ⟨n, hn, hne⟩ := List.mem_map.1 (hes e he)
      have hne : n.id = e := hne
      subst hne
      obtain ⟨j, hj⟩ := List.mem_iff_getElem?.1 hn
      have hnot : n.id ∉ pre := by
        rw [hl] at hnd
        intro h
        exact (List.nodup_append.1 hnd).2.2 _ h _ (by simp) rfl
      obtain ⟨s', a1, a2⟩ := hstep _ s j n pre hj he hnot (rowsOf_get hj hnot) hI
      refine ⟨_, a1, ?_, a2⟩
      exact rowsOf_set w hj)
  exact ⟨s.2, by rw [h1, ← h2], h3⟩

theorem sum_set_zero {l : List Int} {j : Nat} {x : Int} (h : l[j]? = some 0) :
    (l.set j x).sum = l.sum + x := by
  induction l generalizing j with
  | nil => simp at h
  | cons a l ih =>
    cases j with
    | zero => simp at h; subst h; simp [add_comm]
    | succ j =>
      simp only [List.getElem?_cons_succ] at h
      simp only [List.set_cons_succ, List.sum_cons, ih h]
      ring

/-- The sum of `f` over the nets in `es`. -/
def netSum (H : Hypergraph) (f : Net → Int) (es : List Nat) : Int :=
  (rowsOf H (fun _ => (0 : Int)) f es).sum

theorem netSum_nil (H : Hypergraph) (f : Net → Int) : netSum H f [] = 0 := by
  unfold netSum rowsOf
  simp

theorem netSum_snoc {H : Hypergraph} (w : WF H) (f : Net → Int) {es : List Nat} {j : Nat} {n : Net}
    (h : H.nets[j]? = some n) (hn : n.id ∉ es) :
    netSum H f (es ++ [n.id]) = netSum H f es + f n := by
  unfold netSum
  rw [← rowsOf_set w h, sum_set_zero (rowsOf_get (F := fun _ => (0 : Int)) h hn)]

theorem netFold1_ok {ρ : Type} {H : Hypergraph} (w : WF H) {F F' : Net → ρ} {es : List Nat}
    (hnd : es.Nodup) (hes : ∀ e ∈ es, IsNet H e) {step : List ρ → Nat → Res (List ρ)}
    (hstep : ∀ (C : List ρ) (j : Nat) (n : Net), H.nets[j]? = some n → n.id ∈ es →
      C[j]? = some (F n) → step C n.id = .ok (C.set j (F' n))) :
    es.foldlM step (H.nets.map F) = .ok (rowsOf H F F' es) := by
  obtain ⟨s, h1, h2⟩ := foldlM_inv (f := step)
    (fun pre _ (s : List ρ) => s = rowsOf H F F' pre) es (H.nets.map F)
    (by simp [rowsOf]) (by
      rintro pre e post C rfl hl
      have he : e ∈ es := by rw [hl]; simp
      obtain ⟨n, hn, hne⟩ := List.mem_map.1 (hes e he)
      have hne : n.id = e := hne
      subst hne
      obtain ⟨j, hj⟩ := List.mem_iff_getElem?.1 hn
      have hnot : n.id ∉ pre := by
        rw [hl] at hnd
        intro h
        exact (List.nodup_append.1 hnd).2.2 _ h _ (by simp) rfl
      exact ⟨_, hstep _ j n hj he (rowsOf_get hj hnot), rowsOf_set w hj⟩)
  rw [h1, h2]

/-! ### Counting pins after a change of one label -/

theorem pinCount_update_out (P : Nat → Int) (n : Net) (u : Nat) (x k : Int) (h : u ∉ n.vertices) :
    pinCount (Function.update P u x) n k = pinCount P n k := by
  unfold pinCount
  apply List.countP_congr
  intro a ha
  have : a ≠ u := fun hau => h (hau ▸ ha)
  rw [Function.update_of_ne this]

theorem pinCount_update_in (P : Nat → Int) (n : Net) (u : Nat) (x k : Int) (h : u ∈ n.vertices)
    (hnd : n.vertices.Nodup) : (pinCount (Function.update P u x) n k : Int) =
      pinCount P n k - (if P u = k then 1 else 0) + (if x = k then 1 else 0) := by
  unfold pinCount
  generalize n.vertices = l at h hnd
  induction l with
  | nil => simp at h
  | cons a l ih =>
    rw [List.nodup_cons] at hnd
    rw [List.countP_cons, List.countP_cons]
    by_cases hau : a = u
    · subst hau
      have : l.countP (fun y => decide (Function.update P a x y = k)) =
          l.countP (fun y => decide (P y = k)) := by
        apply List.countP_congr
        intro y hy
        have : y ≠ a := fun h => hnd.1 (h ▸ hy)
        rw [Function.update_of_ne this]
      rw [this]
      simp only [Function.update_self, decide_eq_true_eq]
      push_cast
      ring
    · have hul : u ∈ l := by
        rcases List.mem_cons.1 h with h | h
        · exact absurd h.symm hau
        · exact h
      have := ih hul hnd.2
      simp only [Function.update_of_ne hau, decide_eq_true_eq]
      push_cast
      rw [this]
      ring

theorem mem_pins_iff {H : Hypergraph} (w : WF H) {v : Vertex} (hv : v ∈ H.vertices) {n : Net}
    (hn : n ∈ H.nets) : n.id ∈ v.nets ↔ v.id ∈ n.vertices := by
  constructor
  · intro h
    obtain ⟨m, hm, h1, h2⟩ := w.inc_net v hv _ h
    rw [w.net_inj hm hn h1] at h2
    exact h2
  · intro h
    obtain ⟨v', hv', h1, h2⟩ := w.inc_vtx n hn _ h
    rw [w.vertex_inj hv' hv h1] at h2
    exact h2

theorem sum_cast_map {α : Type} (l : List α) (f : α → Nat) :
    (((l.map f).sum : Nat) : Int) = (l.map (fun x => (f x : Int))).sum := by
  induction l with
  | nil => rfl
  | cons a l ih => simp [ih]

theorem netSum_links {H : Hypergraph} (w : WF H) {v : Vertex} (hv : v ∈ H.vertices) (P : Nat → Int)
    {a : Int} (ha : a ≠ -1) :
    netSum H (fun n => (pinCount (Function.update P v.id (-1)) n a : Int)) v.nets =
      links H P v a := by
  unfold netSum rowsOf links
  rw [sum_cast_map]
  congr 1
  apply List.map_congr_left
  intro n hn
  by_cases h : n.id ∈ v.nets
  · rw [if_pos h, if_pos ((mem_pins_iff w hv hn).1 h)]
    unfold pinCount
    dsimp only
    congr 1
    apply List.countP_congr
    intro u _
    by_cases hu : u = v.id
    · subst hu; simp [ha.symm]
    · simp [hu]
  · rw [if_neg h, if_neg (fun h' => h ((mem_pins_iff w hv hn).2 h'))]
    rfl

theorem relabel_update (P : Nat → Int) (v : Vertex) (a : Int) :
    relabel P v a = Function.update P v.id a := by
  funext u
  unfold relabel
  by_cases h : u = v.id
  · subst h; simp
  · simp [h]

/-- The labels as a function of the vertex id; −1 for positions that have no label yet. -/
def labelFun (H : Hypergraph) (L : List Int) (u : Nat) : Int :=
  match H.vmap u with
  | some i => (L[i]?).getD (-1)
  | none => -1

theorem labelFun_get {H : Hypergraph} (w : WF H) {L : List Int} {i : Nat} {v : Vertex} {x : Int}
    (hv : H.vertices[i]? = some v) (hx : L[i]? = some x) : labelFun H L v.id = x := by
  unfold labelFun
  have : H.vmap v.id = some i := (w.vmap_iff _ _).2 ⟨v, hv, rfl⟩
  simp [this, hx]

theorem labelFun_set {H : Hypergraph} (w : WF H) {L : List Int} {i : Nat} {v : Vertex} {x : Int}
    (hv : H.vertices[i]? = some v) (hi : i < L.length) :
    labelFun H (L.set i x) = Function.update (labelFun H L) v.id x := by
  funext u
  by_cases hu : u = v.id
  · subst hu
    rw [Function.update_self]
    exact labelFun_get w hv (by simp [hi])
  · rw [Function.update_of_ne hu]
    unfold labelFun
    cases hm : H.vmap u with
    | none => rfl
    | some j =>
      simp only
      have : i ≠ j := by
        rintro rfl
        obtain ⟨v', h1, h2⟩ := (w.vmap_iff _ _).1 hm
        rw [hv] at h1
        cases h1
        exact hu h2.symm
      rw [List.getElem?_set_ne this]

/-! ### label_propagation_bisect -/

/-- The counts of two labels. -/
def cnt2 (H : Hypergraph) (P : Nat → Int) : List Cnt :=
  H.nets.map (fun n => (⟨pinCount P n 0, pinCount P n 1⟩ : Cnt))

theorem vnets_isNet {H : Hypergraph} (w : WF H) {v : Vertex} (hv : v ∈ H.vertices) :
    ∀ e ∈ v.nets, IsNet H e := by
  intro e he
  obtain ⟨n, hn, hne, -⟩ := w.inc_net v hv e he
  exact List.mem_map.2 ⟨n, hn, hne⟩

theorem lpbCount_ok {H : Hypergraph} (w : WF H) {v : Vertex} (hv : v ∈ H.vertices) {P : Nat → Int}
    {k : Int} (hk : k = 0 ∨ k = 1) (hP : P v.id = -1) :
    v.nets.foldlM (lpbCount H k 1) (cnt2 H P) = .ok (cnt2 H (Function.update P v.id k)) := by
  have h := netFold1_ok (F := fun n => (⟨pinCount P n 0, pinCount P n 1⟩ : Cnt))
    (F' := fun n => (⟨pinCount (Function.update P v.id k) n 0,
      pinCount (Function.update P v.id k) n 1⟩ : Cnt)) w (w.vnets v hv) (vnets_isNet w hv)
    (step := lpbCount H k 1) (by
      intro C j n hj hn hC
      have hn' : n ∈ H.nets := List.mem_of_getElem? hj
      have hin : v.id ∈ n.vertices := (mem_pins_iff w hv hn').1 hn
      unfold lpbCount cAdd
      rw [w.localIdNet_of_get hj, ok_bind, vget_ok hC, ok_bind,
        pinCount_update_in P n v.id k 0 hin (w.npins n hn'),
        pinCount_update_in P n v.id k 1 hin (w.npins n hn'), hP]
      rcases hk with rfl | rfl <;> simp [Cnt.add])
  unfold cnt2
  rw [h]
  congr 1
  unfold rowsOf
  apply List.map_congr_left
  intro n hn
  by_cases hin : n.id ∈ v.nets
  · rw [if_pos hin]
  · rw [if_neg hin]
    have : v.id ∉ n.vertices := fun h => hin ((mem_pins_iff w hv hn).2 h)
    rw [pinCount_update_out _ _ _ _ _ this, pinCount_update_out _ _ _ _ _ this]

theorem lpbGather_ok {H : Hypergraph} (w : WF H) {v : Vertex} (hv : v ∈ H.vertices) {P : Nat → Int}
    {k : Int} (hk : k = 0 ∨ k = 1) (hP : P v.id = k) :
    v.nets.foldlM (lpbGather H k) (cnt2 H P, 0, 0) =
      .ok (cnt2 H (Function.update P v.id (-1)), (links H P v 0 : Int), (links H P v 1 : Int)) := by
  obtain ⟨t, h, h0, h1⟩ := netFold_ok (F := fun n => (⟨pinCount P n 0, pinCount P n 1⟩ : Cnt))
    (F' := fun n => (⟨pinCount (Function.update P v.id (-1)) n 0,
      pinCount (Function.update P v.id (-1)) n 1⟩ : Cnt)) (σ := Int × Int) w (w.vnets v hv)
    (vnets_isNet w hv) (step := lpbGather H k) 
    (I := fun es t =>
      t.1 = netSum H (fun n => (pinCount (Function.update P v.id (-1)) n 0 : Int)) es ∧
      t.2 = netSum H (fun n => (pinCount (Function.update P v.id (-1)) n 1 : Int)) es) (by
      rintro C s j n pre hj hn hpre hC ⟨hI0, hI1⟩
      have hn' : n ∈ H.nets := List.mem_of_getElem? hj
      have hin : v.id ∈ n.vertices := (mem_pins_iff w hv hn').1 hn
      have hlt : j < C.length := by rw [List.getElem?_eq_some_iff] at hC; exact hC.1
      have e0 := pinCount_update_in P n v.id (-1) 0 hin (w.npins n hn')
      have e1 := pinCount_update_in P n v.id (-1) 1 hin (w.npins n hn')
      rw [hP] at e0 e1
      refine ⟨(s.1 + pinCount (Function.update P v.id (-1)) n 0,
        s.2 + pinCount (Function.update P v.id (-1)) n 1), ?_, ?_, ?_⟩
      case refine_2 => rw [netSum_snoc w _ hj hpre, ← hI0]
      case refine_3 => rw [netSum_snoc w _ hj hpre, ← hI1]
      have hadd : cAdd C j k (-1) = .ok (C.set j ⟨pinCount (Function.update P v.id (-1)) n 0,
          pinCount (Function.update P v.id (-1)) n 1⟩) := by
        unfold cAdd
        rw [vget_ok hC, ok_bind, e0, e1]
        rcases hk with rfl | rfl <;> simp [Cnt.add] <;> rfl
      unfold lpbGather
      simp only [w.localIdNet_of_get hj, ok_bind, hadd]
      rw [vget_ok (a := (⟨pinCount (Function.update P v.id (-1)) n 0,
        pinCount (Function.update P v.id (-1)) n 1⟩ : Cnt)) (by simp [hlt])]
      rfl) (s0 := (0, 0)) ⟨(netSum_nil _ _).symm, (netSum_nil _ _).symm⟩
  rw [netSum_links w hv P (by decide)] at h0 h1
  unfold cnt2
  rw [h]
  obtain ⟨t0, t1⟩ := t
  dsimp only at h0 h1
  subst h0 h1
  congr 2
  unfold rowsOf
  apply List.map_congr_left
  intro n hn
  by_cases hin : n.id ∈ v.nets
  · rw [if_pos hin]
  · rw [if_neg hin]
    have : v.id ∉ n.vertices := fun h => hin ((mem_pins_iff w hv hn).2 h)
    rw [pinCount_update_out _ _ _ _ _ this, pinCount_update_out _ _ _ _ _ this]

/-- Everything `argmaxLoop` finds: indices in range; something, if an entry is at least the start
value or something was there. -/
theorem argmaxLoop_spec (T : List Int) (j : Nat) (m : Int) (ls : List Nat)
    (hl : ∀ x ∈ ls, x < j) : (∀ x ∈ (argmaxLoop T j m ls).2, x < j + T.length) ∧
      (ls ≠ [] ∨ (∃ t ∈ T, m ≤ t) → (argmaxLoop T j m ls).2 ≠ []) ∧
      m ≤ (argmaxLoop T j m ls).1 := by
  induction T generalizing j m ls with
  | nil =>
    unfold argmaxLoop
    exact ⟨by simpa using hl, by simp, le_refl _⟩
  | cons t T ih =>
    unfold argmaxLoop
    by_cases h1 : t = m
    · rw [if_pos h1]
      obtain ⟨a, b, c⟩ := ih (j + 1) m (ls ++ [j]) (by
        intro x hx
        rcases List.mem_append.1 hx with h | h
        · have := hl x h; omega
        · simp at h; omega)
      refine ⟨?_, ?_, c⟩
      · intro x hx; have := a x hx; rw [List.length_cons]; omega
      · intro _; exact b (Or.inl (by simp))
    · rw [if_neg h1]
      by_cases h2 : t > m
      · rw [if_pos h2]
        obtain ⟨a, b, c⟩ := ih (j + 1) t [j] (by simp)
        refine ⟨?_, ?_, by omega⟩
        · intro x hx; have := a x hx; rw [List.length_cons]; omega
        · intro _; exact b (Or.inl (by simp))
      · rw [if_neg h2]
        obtain ⟨a, b, c⟩ := ih (j + 1) m ls (by intro x hx; have := hl x hx; omega)
        refine ⟨?_, ?_, c⟩
        · intro x hx; have := a x hx; rw [List.length_cons]; omega
        · rintro (h | ⟨y, hy, hm⟩)
          · exact b (Or.inl h)
          · rcases List.mem_cons.1 hy with rfl | hy
            · omega
            · exact b (Or.inr ⟨y, hy, hm⟩)

/-- Everything `argmaxLoop` finds attains the maximum. -/
theorem argmaxLoop_max (T : List Int) (j : Nat) (m : Int) (ls : List Nat) :
    m ≤ (argmaxLoop T j m ls).1 ∧ (∀ t ∈ T, t ≤ (argmaxLoop T j m ls).1) ∧
      ∀ x ∈ (argmaxLoop T j m ls).2, (x ∈ ls ∧ (argmaxLoop T j m ls).1 = m) ∨
        (j ≤ x ∧ T[x - j]? = some (argmaxLoop T j m ls).1) := by
  induction T generalizing j m ls with
  | nil =>
    unfold argmaxLoop
    exact ⟨le_refl _, by simp, fun x hx => Or.inl ⟨hx, rfl⟩⟩
  | cons t T ih =>
    have hcons : ∀ (x : Nat) (y : Int), j + 1 ≤ x → T[x - (j + 1)]? = some y →
        (t :: T)[x - j]? = some y := by
      intro x y h1 h2
      obtain ⟨d, rfl⟩ : ∃ d, x = j + 1 + d := ⟨x - (j + 1), by omega⟩
      rw [show j + 1 + d - j = d + 1 by omega, List.getElem?_cons_succ]
      rwa [show j + 1 + d - (j + 1) = d by omega] at h2
    unfold argmaxLoop
    by_cases h1 : t = m
    · rw [if_pos h1]
      obtain ⟨a, b, c⟩ := ih (j + 1) m (ls ++ [j])
      refine ⟨a, ?_, ?_⟩
      · intro y hy
        rcases List.mem_cons.1 hy with rfl | hy
        · omega
        · exact b y hy
      · intro x hx
        rcases c x hx with ⟨h, h'⟩ | ⟨h, h'⟩
        · rcases List.mem_append.1 h with h | h
          · exact Or.inl ⟨h, h'⟩
          · simp only [List.mem_singleton] at h
            subst h
            exact Or.inr ⟨le_refl _, by simp [h', h1]⟩
        · exact Or.inr ⟨by omega, hcons _ _ h h'⟩
    · rw [if_neg h1]
      by_cases h2 : t > m
      · rw [if_pos h2]
        obtain ⟨a, b, c⟩ := ih (j + 1) t [j]
        refine ⟨by omega, ?_, ?_⟩
        · intro y hy
          rcases List.mem_cons.1 hy with rfl | hy
          · exact a
          · exact b y hy
        · intro x hx
          rcases c x hx with ⟨h, h'⟩ | ⟨h, h'⟩
          · simp only [List.mem_singleton] at h
            subst h
            exact Or.inr ⟨le_refl _, by simp [h']⟩
          · exact Or.inr ⟨by omega, hcons _ _ h h'⟩
      · rw [if_neg h2]
        obtain ⟨a, b, c⟩ := ih (j + 1) m ls
        refine ⟨a, ?_, ?_⟩
        · intro y hy
          rcases List.mem_cons.1 hy with rfl | hy
          · omega
          · exact b y hy
        · intro x hx
          rcases c x hx with h | ⟨h, h'⟩
          · exact Or.inl h
          · exact Or.inr ⟨by omega, hcons _ _ h h'⟩

/-- What is found by the search from −1 is a position of the maximum. -/
theorem argmaxLoop_top {T : List Int} {x : Nat}
    (hx : x ∈ (argmaxLoop T 0 (-1) []).2) : ∃ y, T[x]? = some y ∧ ∀ t ∈ T, t ≤ y := by
  obtain ⟨-, b, c⟩ := argmaxLoop_max T 0 (-1) []
  rcases c x hx with ⟨h, -⟩ | ⟨-, h⟩
  · simp at h
  · exact ⟨_, h, b⟩

/-! ### The course of a sweep -/

/-- The outcome of a visit: nothing changed, or the flag is set and the vertex has a new label. -/
def StepOut (step : (Nat → Int) → Vertex → (Nat → Int) → Prop) (P : Nat → Int) (v : Vertex)
    (c : Bool) (P' : Nat → Int) (c' : Bool) : Prop :=
  step P v P' ∧ ((c' = c ∧ P' = P) ∨
    (c' = true ∧ P' v.id ≠ P v.id ∧ ∀ u, u ≠ v.id → P' u = P u))

/-- The visits so far, and what the flag says about them. -/
structure Course (step : (Nat → Int) → Vertex → (Nat → Int) → Prop) (P0 : Nat → Int)
    (vs : List Vertex) (c : Bool) (P : Nat → Int) : Prop where
  run : Visits step vs P0 P
  same : c = false → P = P0
  diff : c = true → ∃ v ∈ vs, P v.id ≠ P0 v.id
  out : ∀ u, u ∉ vs.map (·.id) → P u = P0 u

theorem Course.snoc {step : (Nat → Int) → Vertex → (Nat → Int) → Prop} {P0 P P' : Nat → Int}
    {vs : List Vertex} {c c' : Bool} {v : Vertex} (h : Course step P0 vs c P)
    (hv : v.id ∉ vs.map (·.id)) (ho : StepOut step P v c P' c') :
    Course step P0 (vs ++ [v]) c' P' := by
  obtain ⟨hs, ho⟩ := ho
  rcases ho with ⟨rfl, rfl⟩ | ⟨rfl, h1, h2⟩
  · refine ⟨Visits.snoc h.run hs, h.same, ?_, ?_⟩
    · intro hc
      obtain ⟨x, hx, hne⟩ := h.diff hc
      exact ⟨x, by simp [hx], hne⟩
    · intro u hu
      exact h.out u (fun hm => hu (by simp only [List.map_append, List.mem_append]; exact Or.inl hm))
  · refine ⟨Visits.snoc h.run hs, by simp, ?_, ?_⟩
    · intro _
      exact ⟨v, by simp, by rw [← h.out v.id hv]; exact h1⟩
    · intro u hu
      simp only [List.map_append, List.mem_append, List.map_cons, List.map_nil,
        List.mem_singleton, not_or] at hu
      rw [h2 u hu.2]
      exact h.out u hu.1

/-- The vertices at the given positions. -/
def vsOf (H : Hypergraph) (idx : List Nat) : List Vertex := idx.filterMap (fun i => H.vertices[i]?)

theorem vsOf_range (H : Hypergraph) : vsOf H (List.range H.vertices.length) = H.vertices := by
  unfold vsOf
  generalize H.vertices = vs
  induction vs with
  | nil => rfl
  | cons a vs ih =>
    rw [List.length_cons, List.range_succ_eq_map, List.filterMap_cons]
    simp only [List.getElem?_cons_zero, List.filterMap_map]
    congr 1

theorem vsOf_perm {H : Hypergraph} {idx : List Nat}
    (h : idx.Perm (List.range H.vertices.length)) : (vsOf H idx).Perm H.vertices := by
  have := h.filterMap (fun i => H.vertices[i]?)
  rw [← vsOf_range H]
  exact this

theorem vsOf_snoc {H : Hypergraph} {idx : List Nat} {i : Nat} {v : Vertex}
    (h : H.vertices[i]? = some v) : vsOf H (idx ++ [i]) = vsOf H idx ++ [v] := by
  unfold vsOf
  simp [List.filterMap_append, h]

theorem vsOf_not_mem {H : Hypergraph} (w : WF H) {idx : List Nat} {i : Nat} {v : Vertex}
    (h : H.vertices[i]? = some v) (hi : i ∉ idx) : v.id ∉ (vsOf H idx).map (·.id) := by
  intro hm
  obtain ⟨x, hx, hid⟩ := List.mem_map.1 hm
  obtain ⟨j, hj, hjx⟩ := List.mem_filterMap.1 hx
  have h1 := (w.vmap_iff v.id i).2 ⟨v, h, rfl⟩
  have h2 := (w.vmap_iff v.id j).2 ⟨x, hjx, hid⟩
  rw [h1] at h2
  cases h2
  exact hi hj

/-- Total weight of the positions with label `k`. -/
def labelWeight (H : Hypergraph) (L : List Int) (k : Int) : Int :=
  ((H.vertices.zip L).map (fun x => if x.2 = k then x.1.weight else 0)).sum

theorem labelWeight_set {H : Hypergraph} {L : List Int} {i : Nat} {v : Vertex} {x y : Int}
    (hv : H.vertices[i]? = some v) (hx : L[i]? = some x) (k : Int) :
    labelWeight H (L.set i y) k = labelWeight H L k - (if x = k then v.weight else 0) +
      (if y = k then v.weight else 0) := by
  unfold labelWeight
  generalize H.vertices = vs at hv
  induction vs generalizing L i with
  | nil => simp at hv
  | cons a vs ih =>
    cases L with
    | nil => simp at hx
    | cons b L =>
      cases i with
      | zero =>
        simp only [List.getElem?_cons_zero, Option.some.injEq] at hv hx
        subst hv; subst hx
        simp only [List.set_cons_zero, List.zip_cons_cons, List.map_cons, List.sum_cons]
        ring
      | succ i =>
        simp only [List.getElem?_cons_succ] at hv hx
        simp only [List.set_cons_succ, List.zip_cons_cons, List.map_cons, List.sum_cons,
          ih hx hv]
        ring

theorem hasLabels_labelFun {H : Hypergraph} (w : WF H) {L : List Int}
    (hl : L.length = H.vertices.length) : HasLabels H (labelFun H L) L := by
  unfold HasLabels
  apply List.ext_getElem?
  intro i
  rw [List.getElem?_map]
  cases hv : H.vertices[i]? with
  | none =>
    rw [List.getElem?_eq_none_iff] at hv
    rw [List.getElem?_eq_none (by omega)]
    rfl
  | some v =>
    have hi : i < L.length := by
      rw [List.getElem?_eq_some_iff] at hv
      obtain ⟨hv, -⟩ := hv
      omega
    have hx : L[i]? = some L[i] := by simp [hi]
    rw [hx, Option.map_some, labelFun_get w hv hx]

theorem labelWeight_map (H : Hypergraph) (P : Nat → Int) (k : Int) :
    labelWeight H (H.vertices.map (fun v => P v.id)) k = weightIn H P k := by
  unfold labelWeight weightIn
  generalize H.vertices = vs
  induction vs with
  | nil => rfl
  | cons a vs ih =>
    simp only [List.map_cons, List.zip_cons_cons, List.sum_cons, ih, List.filter_cons]
    by_cases h : P a.id = k <;> simp [h]

theorem labelWeight_weightIn {H : Hypergraph} (w : WF H) {L : List Int}
    (hl : L.length = H.vertices.length) (k : Int) :
    labelWeight H L k = weightIn H (labelFun H L) k := by
  rw [← labelWeight_map, ← hasLabels_labelFun w hl]

/-- Invariant of the sweeps. -/
structure LPBInv (H : Hypergraph) (max0 max1 : Int) (s : LPBState) : Prop where
  len : s.L.length = H.vertices.length
  labels : ∀ x ∈ s.L, x = 0 ∨ x = 1
  counts : s.C = cnt2 H (labelFun H s.L)
  room0 : s.r0 = max0 - labelWeight H s.L 0
  room1 : s.r1 = max1 - labelWeight H s.L 1

/-- Both labels are within their bounds. -/
def LPBState.fits (s : LPBState) : Prop := 0 ≤ s.r0 ∧ 0 ≤ s.r1

theorem lpbSweepStep_ok {H : Hypergraph} (w : WF H) {max0 max1 : Int}
    {s : LPBState} (hI : LPBInv H max0 max1 s) {i : Nat} (hi : i < H.vertices.length) :
    ∃ s', lpbSweepStep H s i = .ok s' ∧ LPBInv H max0 max1 s' ∧
      (WeightsNonneg H → s.fits → s'.fits) ∧ ∀ v, H.vertices[i]? = some v →
        StepOut (BisectStep H max0 max1) (labelFun H s.L) v s.change (labelFun H s'.L) s'.change := by
  have hgv : H.vertices[i]? = some H.vertices[i] := by simp [hi]
  set v := H.vertices[i] with hvdef
  have hvm : v ∈ H.vertices := List.getElem_mem hi
  have hiL : i < s.L.length := by rw [hI.len]; exact hi
  have hgl : s.L[i]? = some s.L[i] := by simp [hiL]
  set k := s.L[i] with hkdef
  have hk : k = 0 ∨ k = 1 := hI.labels k (List.getElem_mem hiL)
  have hPk : labelFun H s.L v.id = k := labelFun_get w hgv hgl
  have hg := lpbGather_ok w hvm hk hPk
  rw [← hI.counts] at hg
  obtain ⟨t0, ht0⟩ : ∃ t : Int, t = links H (labelFun H s.L) v 0 := ⟨_, rfl⟩
  obtain ⟨t1, ht1⟩ : ∃ t : Int, t = links H (labelFun H s.L) v 1 := ⟨_, rfl⟩
  rw [← ht0, ← ht1] at hg
  -- the choice
  have hch : ∃ b r, lpbChoose s k v.weight (argmaxLoop [t0, t1] 0 (-1) []) = .ok (b, r) ∧
      ∃ a : Int, (a = 0 ∨ a = 1) ∧
        links H (labelFun H s.L) v (1 - a) ≤ links H (labelFun H s.L) v a ∧
        ((b = k ∧ (k = a ∨ s.room a - v.weight < 0)) ∨
          (b = a ∧ b ≠ k ∧ s.room b - v.weight ≥ 0)) := by
    obtain ⟨a1, a2, a3⟩ := argmaxLoop_spec [t0, t1] 0 (-1) [] (by simp)
    have a4 := fun x hx => argmaxLoop_top (T := [t0, t1]) (x := x) hx
    have a5 := (argmaxLoop_max [t0, t1] 0 (-1) []).2.1 t0 (by simp)
    have a2 := a2 (Or.inr ⟨t0, by simp, by omega⟩)
    set m := argmaxLoop [t0, t1] 0 (-1) [] with hm
    unfold lpbChoose
    by_cases h1 : m.1 = -1
    · omega
    · rw [if_neg h1]
      have hpos : 0 < m.2.length := List.length_pos_of_ne_nil a2
      rw [if_neg (by omega)]
      have hlt := Nat.mod_lt s.rng.draw.1 hpos
      rw [vget_ok (a := m.2[s.rng.draw.1 % m.2.length]) (by simp [hlt]), ok_bind]
      have hb := a1 _ (List.getElem_mem hlt)
      obtain ⟨y, hy1, hy2⟩ := a4 _ (List.getElem_mem hlt)
      generalize m.2[s.rng.draw.1 % m.2.length] = x at hb hy1
      simp only [List.length_cons, List.length_nil] at hb
      have hmost : links H (labelFun H s.L) v (1 - (x : Int)) ≤ links H (labelFun H s.L) v x := by
        have := hy2 t0 (by simp)
        have := hy2 t1 (by simp)
        obtain rfl | rfl : x = 0 ∨ x = 1 := by omega
        · simp only [List.getElem?_cons_zero, Option.some.injEq] at hy1
          simp only [Nat.cast_zero, sub_zero]
          omega
        · simp only [List.getElem?_cons_succ, List.getElem?_cons_zero, Option.some.injEq] at hy1
          simp only [Nat.cast_one, sub_self]
          omega
      split
      · rename_i hc
        exact ⟨_, _, rfl, x, by omega, hmost, Or.inr ⟨rfl, hc⟩⟩
      · rename_i hc
        refine ⟨k, _, rfl, x, by omega, hmost, Or.inl ⟨rfl, ?_⟩⟩
        by_cases hkx : k = x
        · exact Or.inl hkx
        · right
          by_contra hn
          exact hc ⟨fun h => hkx h.symm, by omega⟩
  obtain ⟨b, r, hb1, a, ha01, hmost, hb2⟩ := hch
  have hb01 : b = 0 ∨ b = 1 := by
    rcases hb2 with ⟨rfl, -⟩ | ⟨rfl, -⟩
    · exact hk
    · exact ha01
  have hroomI : ∀ x : Int, x = 0 ∨ x = 1 →
      s.room x = limitOf max0 max1 x - weightIn H (labelFun H s.L) x := by
    intro x hx
    unfold LPBState.room limitOf
    rcases hx with rfl | rfl
    · rw [if_pos rfl, if_pos rfl, hI.room0, labelWeight_weightIn w hI.len]
    · rw [if_neg (by decide), if_neg (by decide), hI.room1, labelWeight_weightIn w hI.len]
  have hcnt : v.nets.foldlM (lpbCount H b 1) (cnt2 H (Function.update (labelFun H s.L) v.id (-1))) =
      .ok (cnt2 H (Function.update (labelFun H s.L) v.id b)) := by
    rw [lpbCount_ok w hvm hb01 (Function.update_self _ _ _), Function.update_idem]
  have hstep : lpbSweepStep H s i = (if b ≠ k then
      .ok { L := s.L.set i b, C := cnt2 H (Function.update (labelFun H s.L) v.id b),
            r0 := if k = 0 then s.r0 + v.weight else s.r0 - v.weight,
            r1 := if k = 0 then s.r1 - v.weight else s.r1 + v.weight, rng := r, change := true }
      else .ok { s with C := cnt2 H (Function.update (labelFun H s.L) v.id b), rng := r }) := by
    unfold lpbSweepStep
    have hva : H.vertexAt i = .ok v := by unfold Hypergraph.vertexAt; rw [hgv]
    simp only [hva, ok_bind, vget_ok hgl, hg, hb1, hcnt, pure_eq_ok]
  rw [hstep]
  by_cases hbk : b = k
  · rw [if_neg (by simpa using hbk)]
    refine ⟨_, rfl, ⟨hI.len, hI.labels, ?_, hI.room0, hI.room1⟩, fun _ h => h, ?_⟩
    · simp only
      congr 1
      rw [hbk, ← hPk, Function.update_eq_self]
    · intro v' hv'
      rw [hgv] at hv'
      cases hv'
      refine ⟨BisectStep.stay a ha01 hmost ?_, Or.inl ⟨rfl, rfl⟩⟩
      rw [hPk]
      rcases hb2 with ⟨-, h | h⟩ | ⟨-, h, -⟩
      · exact Or.inl h
      · right
        rw [hroomI a ha01] at h
        omega
      · exact absurd hbk h
  · rw [if_pos hbk]
    obtain ⟨hba, -, hroom⟩ := hb2.resolve_left (fun h => hbk h.1)
    refine ⟨_, rfl, ⟨?_, ?_, ?_, ?_, ?_⟩, ?_, ?_⟩
    · simp [hI.len]
    · intro x hx
      rcases List.mem_or_eq_of_mem_set hx with h | h
      · exact hI.labels x h
      · rw [h]; exact hb01
    · simp only
      rw [labelFun_set w hgv hiL]
    · simp only
      rw [labelWeight_set hgv hgl, hI.room0]
      rcases hk with h | h <;> rcases hb01 with h' | h' <;> simp [h, h'] at hbk ⊢ <;> ring
    · simp only
      rw [labelWeight_set hgv hgl, hI.room1]
      rcases hk with h | h <;> rcases hb01 with h' | h' <;> simp [h, h'] at hbk ⊢ <;> ring
    · rintro hwn ⟨f0, f1⟩
      have hw0 := hwn v hvm
      unfold LPBState.room at hroom
      unfold LPBState.fits
      rcases hk with h | h <;> rcases hb01 with h' | h' <;> simp [h, h'] at hbk hroom ⊢ <;> omega
    · intro v' hv'
      rw [hgv] at hv'
      cases hv'
      have hset : labelFun H (s.L.set i b) = relabel (labelFun H s.L) v b := by
        rw [labelFun_set w hgv hiL, relabel_update]
      have hrm := hroomI b hb01
      subst hba
      simp only [hset]
      refine ⟨BisectStep.take b ha01 hmost (fun h => hbk (by rw [← h, hPk])) (by omega),
        Or.inr ⟨rfl, ?_, ?_⟩⟩
      · unfold relabel
        rw [if_pos rfl, hPk]
        exact hbk
      · intro u hu
        unfold relabel
        rw [if_neg hu]

theorem lpbSweeps_quiet (shuf : Shuffle) (H : Hypergraph) (k : Nat) {s : LPBState}
    (h : s.change = false) (idx : List Nat) : lpbSweeps shuf H k s idx = .ok s := by
  cases k with
  | zero => rfl
  | succ k => unfold lpbSweeps; rw [h]; rfl

theorem lpbSweeps_ok {shuf : Shuffle} (hsh : ∀ r l, (shuf r l).1.Perm l) {H : Hypergraph} (w : WF H)
    {max0 max1 : Int} : ∀ (k : Nat) (s : LPBState) (idx : List Nat),
    LPBInv H max0 max1 s → idx.Perm (List.range H.vertices.length) →
    ∃ s', lpbSweeps shuf H k s idx = .ok s' ∧ LPBInv H max0 max1 s' ∧
      (WeightsNonneg H → s.fits → s'.fits) ∧ (s.change = true →
        LabelSweeps H (BisectStep H max0 max1) k (labelFun H s.L) (labelFun H s'.L)) := by
  intro k
  induction k with
  | zero => intro s idx hI _; exact ⟨s, rfl, hI, fun _ h => h, fun _ => LabelSweeps.done⟩
  | succ k ih =>
    intro s idx hI hidx
    unfold lpbSweeps
    cases hch : s.change with
    | false => exact ⟨s, rfl, hI, fun _ h => h, by simp⟩
    | true =>
      have hp := (hsh s.rng idx).trans hidx
      obtain ⟨s1, h1, h2, h3, h4⟩ := foldlM_inv (f := lpbSweepStep H)
        (fun pre _ (s' : LPBState) => LPBInv H max0 max1 s' ∧ (WeightsNonneg H → s.fits → s'.fits) ∧
          Course (BisectStep H max0 max1) (labelFun H s.L) (vsOf H pre) s'.change
            (labelFun H s'.L)) (shuf s.rng idx).1
        { s with rng := (shuf s.rng idx).2, change := false }
        ⟨⟨hI.len, hI.labels, hI.counts, hI.room0, hI.room1⟩, fun _ h => h,
          ⟨Visits.nil, fun _ => rfl, by simp, fun _ _ => rfl⟩⟩ (by
          rintro pre i post s' ⟨hI', hf, hcs⟩ hl
          have hi : i < H.vertices.length := by
            have : i ∈ (shuf s.rng idx).1 := by rw [hl]; simp
            simpa using hp.mem_iff.1 this
          have hnot : i ∉ pre := by
            have hnd := hp.nodup_iff.2 List.nodup_range
            rw [hl] at hnd
            intro h
            exact (List.nodup_append.1 hnd).2.2 _ h _ (by simp) rfl
          have hgv : H.vertices[i]? = some H.vertices[i] := by simp [hi]
          obtain ⟨s'', a, b, c, d⟩ := lpbSweepStep_ok w hI' hi
          refine ⟨s'', a, b, fun hw h => c hw (hf hw h), ?_⟩
          rw [vsOf_snoc hgv]
          exact hcs.snoc (vsOf_not_mem w hgv hnot) (d _ hgv))
      obtain ⟨s2, g1, g2, g3, g4⟩ := ih s1 (shuf s.rng idx).1 h2 hp
      refine ⟨s2, ?_, g2, fun hw h => g3 hw (h3 hw h), ?_⟩
      · simp only [if_true]
        rw [h1, ok_bind]
        exact g1
      · intro _
        cases hc1 : s1.change with
        | false =>
          rw [lpbSweeps_quiet shuf H k hc1] at g1
          cases g1
          have hs := h4.same hc1
          rw [hs]
          exact LabelSweeps.quiet (vsOf_perm hp) (hs ▸ h4.run)
        | true =>
          obtain ⟨v, hv, hne⟩ := h4.diff hc1
          exact LabelSweeps.more (vsOf_perm hp) h4.run ⟨v, (vsOf_perm hp).mem_iff.1 hv, hne⟩ (g4 hc1)

theorem labelFun_none {H : Hypergraph} (w : WF H) {L : List Int} {i : Nat} {v : Vertex}
    (hv : H.vertices[i]? = some v) (hi : L.length ≤ i) : labelFun H L v.id = -1 := by
  unfold labelFun
  have : H.vmap v.id = some i := (w.vmap_iff _ _).2 ⟨v, hv, rfl⟩
  simp [this, hi]

theorem labelFun_snoc {H : Hypergraph} (w : WF H) {L : List Int} {v : Vertex} {x : Int}
    (hv : H.vertices[L.length]? = some v) :
    labelFun H (L ++ [x]) = Function.update (labelFun H L) v.id x := by
  funext u
  by_cases hu : u = v.id
  · subst hu
    rw [Function.update_self]
    exact labelFun_get w hv (by simp)
  · rw [Function.update_of_ne hu]
    unfold labelFun
    cases hm : H.vmap u with
    | none => rfl
    | some j =>
      simp only
      have : j ≠ L.length := by
        rintro rfl
        obtain ⟨v', h1, h2⟩ := (w.vmap_iff _ _).1 hm
        rw [hv] at h1
        cases h1
        exact hu h2.symm
      rw [List.getElem?_append]
      split
      · rfl
      · rw [List.getElem?_eq_none (by simp; omega), List.getElem?_eq_none (by omega)]

theorem labelWeight_snoc {H : Hypergraph} {L : List Int} {v : Vertex} {y : Int}
    (hv : H.vertices[L.length]? = some v) (k : Int) :
    labelWeight H (L ++ [y]) k = labelWeight H L k + (if y = k then v.weight else 0) := by
  unfold labelWeight
  generalize H.vertices = vs at hv
  induction vs generalizing L with
  | nil => simp at hv
  | cons a vs ih =>
    cases L with
    | nil => simp at hv; subst hv; simp
    | cons b L =>
      simp only [List.length_cons, List.getElem?_cons_succ] at hv
      simp only [List.cons_append, List.zip_cons_cons, List.map_cons, List.sum_cons, ih hv]
      ring

theorem cnt2_start (H : Hypergraph) :
    List.replicate H.nets.length (⟨0, 0⟩ : Cnt) = cnt2 H (labelFun H []) := by
  unfold cnt2
  have h : ∀ n : Net, ∀ k : Int, k = 0 ∨ k = 1 → pinCount (labelFun H []) n k = 0 := by
    intro n k hk
    unfold pinCount
    rw [List.countP_eq_zero]
    intro u _
    have : labelFun H [] u = -1 := by unfold labelFun; split <;> simp
    rw [this]
    rcases hk with rfl | rfl <;> simp
  rw [← List.map_const']
  apply List.map_congr_left
  intro n _
  rw [h n 0 (Or.inl rfl), h n 1 (Or.inr rfl)]
  rfl

theorem lpbPick_spec (r0 r1 w : Int) (d : Nat) :
    (lpbPick r0 r1 w d = 0 ∧ (w ≤ r0 ∨ r1 < w)) ∨ (lpbPick r0 r1 w d = 1 ∧ (w ≤ r1 ∨ r0 < w)) := by
  unfold lpbPick other
  have : d % 2 = 0 ∨ d % 2 = 1 := by omega
  rcases this with h | h <;> simp only [h] <;> split <;> simp_all <;> omega

theorem labelWeight_total {H : Hypergraph} {L : List Int} (h01 : ∀ x ∈ L, x = 0 ∨ x = 1) :
    labelWeight H L 0 + labelWeight H L 1 = ((H.vertices.take L.length).map (·.weight)).sum := by
  unfold labelWeight
  generalize H.vertices = vs
  induction vs generalizing L with
  | nil => simp
  | cons a vs ih =>
    cases L with
    | nil => simp
    | cons b L =>
      simp only [List.zip_cons_cons, List.map_cons, List.sum_cons, List.length_cons,
        List.take_succ_cons]
      have := ih (L := L) (fun x hx => h01 x (by simp [hx]))
      rcases h01 b (by simp) with rfl | rfl <;> simp only [if_true, one_ne_zero, zero_ne_one, if_false] <;> omega

theorem prefix_weight_le {H : Hypergraph} (hwn : WeightsNonneg H) {k : Nat} {v : Vertex}
    (hv : H.vertices[k]? = some v) :
    ((H.vertices.take k).map (·.weight)).sum + v.weight ≤ allWeight H := by
  unfold allWeight
  unfold WeightsNonneg at hwn
  generalize H.vertices = vs at hv hwn
  induction vs generalizing k with
  | nil => simp at hv
  | cons a vs ih =>
    have hpos : ∀ l : List Vertex, (∀ v ∈ l, 0 ≤ v.weight) → 0 ≤ (l.map (·.weight)).sum := by
      intro l
      induction l with
      | nil => simp
      | cons b l ih => intro h; simp only [List.map_cons, List.sum_cons]; have := h b (by simp)
                       have := ih (fun v hv => h v (by simp [hv])); omega
    cases k with
    | zero =>
      simp at hv; subst hv
      have := hpos vs (fun v hv => hwn v (by simp [hv]))
      simp; omega
    | succ k =>
      simp only [List.getElem?_cons_succ] at hv
      have := ih hv (fun v hv => hwn v (by simp [hv]))
      simp only [List.take_succ_cons, List.map_cons, List.sum_cons]
      omega

/-- The state after position `i` got label `k`. -/
def lpbNext (H : Hypergraph) (s : LPBState) (i : Nat) (k wt : Int) : LPBState :=
  { s with L := s.L.set i k, C := cnt2 H (labelFun H (s.L.take i ++ [k])),
           r0 := if k = 0 then s.r0 - wt else s.r0, r1 := if k = 0 then s.r1 else s.r1 - wt,
           rng := s.rng.draw.2 }

/-- The label of position `j` in the random start, given the labels of the positions before it. -/
def startLabel (H : Hypergraph) (max0 max1 : Int) (rng : Nat → Nat) (L : List Int) (j : Nat)
    (v : Vertex) : Int :=
  if labelWeight H (L.take j) (rng j % 2 : Nat) + v.weight ≤ limitOf max0 max1 (rng j % 2 : Nat)
  then ((rng j % 2 : Nat) : Int) else 1 - ((rng j % 2 : Nat) : Int)

theorem labelWeight_take {H : Hypergraph} (w : WF H) {L : List Int}
    (hl : L.length = H.vertices.length) (j : Nat) (k : Int) :
    labelWeight H (L.take j) k = weightBefore H (labelFun H L) j k := by
  have h := hasLabels_labelFun w hl
  unfold HasLabels at h
  generalize labelFun H L = P at h
  subst h
  unfold labelWeight weightBefore
  generalize H.vertices = vs
  induction vs generalizing j with
  | nil => simp
  | cons a vs ih =>
    cases j with
    | zero => simp
    | succ j =>
      simp only [List.map_cons, List.take_succ_cons, List.zip_cons_cons, List.sum_cons, ih,
        List.filter_cons]
      by_cases h : P a.id = k <;> simp [h]

theorem lpbStart_ok {H : Hypergraph} (w : WF H) (max0 max1 : Int) (rng : Rng) :
    ∃ s, lpbStart H (List.replicate H.nets.length ⟨0, 0⟩) max0 max1 rng = .ok s ∧
      LPBInv H max0 max1 s ∧
      (WeightsNonneg H → 0 ≤ max0 → 0 ≤ max1 →
        (∀ v ∈ H.vertices, allWeight H + v.weight ≤ max0 + max1 + 1) → s.fits) ∧
      s.change = true ∧ BisectStart H max0 max1 rng (labelFun H s.L) := by
  unfold lpbStart
  obtain ⟨s, h1, h2⟩ := foldlM_inv (f := lpbStartStep H)
    (fun pre _ (s : LPBState) => s.L.length = H.vertices.length ∧ (∀ x ∈ s.L, x = 0 ∨ x = 1) ∧
      s.C = cnt2 H (labelFun H (s.L.take pre.length)) ∧
      s.r0 = max0 - labelWeight H (s.L.take pre.length) 0 ∧
      s.r1 = max1 - labelWeight H (s.L.take pre.length) 1 ∧
      (WeightsNonneg H → 0 ≤ max0 → 0 ≤ max1 →
        (∀ v ∈ H.vertices, allWeight H + v.weight ≤ max0 + max1 + 1) → s.fits) ∧
      s.change = true ∧ (∀ n, s.rng n = rng (n + pre.length)) ∧
      ∀ (j : Nat) (v : Vertex), j < pre.length → H.vertices[j]? = some v →
        s.L[j]? = some (startLabel H max0 max1 rng s.L j v))
    (List.range H.vertices.length)
    { L := List.replicate H.vertices.length 0, C := List.replicate H.nets.length ⟨0, 0⟩,
      r0 := max0, r1 := max1, rng := rng, change := true }
    (by
      refine ⟨by simp, by simp, ?_, by simp [labelWeight], by simp [labelWeight], ?_, rfl,
        fun _ => rfl, by simp⟩
      · simp only [List.length_nil, List.take_zero]; exact cnt2_start H
      · intro _ h0 h1 _; exact ⟨h0, h1⟩) (by
      rintro pre i post s ⟨hlen, h01, hC, hr0, hr1, hfit, hchg, hrng, hst⟩ hl
      have hi : i = pre.length := by
        have := congrArg (fun l => l[pre.length]?) hl
        simp only [List.getElem?_append_right (le_refl _), Nat.sub_self,
          List.getElem?_cons_zero] at this
        rw [List.getElem?_range] at this
        · simpa using this.symm
        · have := congrArg List.length hl
          simp at this; omega
      have hlt : i < H.vertices.length := by
        have := congrArg List.length hl
        simp at this; omega
      have hgv : H.vertices[i]? = some H.vertices[i] := by simp [hlt]
      set v := H.vertices[i] with hvdef
      have hvm : v ∈ H.vertices := List.getElem_mem hlt
      set k := lpbPick s.r0 s.r1 v.weight s.rng.draw.1 with hk
      have hk01 : k = 0 ∨ k = 1 := by
        rcases lpbPick_spec s.r0 s.r1 v.weight s.rng.draw.1 with h | h
        · exact Or.inl h.1
        · exact Or.inr h.1
      rw [← hi] at hC hr0 hr1
      have htl : (s.L.take i).length = i := by simp; omega
      have hgv' : H.vertices[(s.L.take i).length]? = some v := by rw [htl]; exact hgv
      have htake : (s.L.set i k).take (i + 1) = s.L.take i ++ [k] := by
        rw [List.take_add_one, List.take_set_of_le (le_refl _)]
        simp [show i < s.L.length by omega]
      have hcnt : v.nets.foldlM (lpbCount H k 1) s.C =
          .ok (cnt2 H (labelFun H (s.L.take i ++ [k]))) := by
        rw [hC, lpbCount_ok w hvm hk01 (labelFun_none w hgv (by omega)), labelFun_snoc w hgv']
      have hstep : lpbStartStep H s i = .ok (lpbNext H s i k v.weight) := by
        unfold lpbStartStep lpbNext
        have hva : H.vertexAt i = .ok v := by unfold Hypergraph.vertexAt; rw [hgv]
        simp only [hva, ok_bind, ← hk, vset_ok (show i < s.L.length by omega), hcnt, pure_eq_ok]
      refine ⟨_, hstep, by simp [lpbNext, hlen], ?_, ?_, ?_, ?_, ?_, hchg, ?_, ?_⟩
      · intro x hx
        rcases List.mem_or_eq_of_mem_set hx with h | h
        · exact h01 x h
        · rw [h]; exact hk01
      · simp only [lpbNext, List.length_append, List.length_singleton, ← hi, htake]
      · simp only [lpbNext, List.length_append, List.length_singleton, ← hi, htake]
        rw [labelWeight_snoc hgv', hr0]
        rcases hk01 with h | h <;> simp only [h, if_true, one_ne_zero, if_false] <;> ring
      · simp only [lpbNext, List.length_append, List.length_singleton, ← hi, htake]
        rw [labelWeight_snoc hgv', hr1]
        rcases hk01 with h | h <;> simp only [h, if_true, one_ne_zero, zero_ne_one, if_false] <;> ring
      · intro hwn hm0 hm1 hbig
        obtain ⟨f0, f1⟩ := hfit hwn hm0 hm1 hbig
        have htot := labelWeight_total (H := H) (L := s.L.take i)
          (fun x hx => h01 x (List.mem_of_mem_take hx))
        rw [htl] at htot
        have hpre := prefix_weight_le hwn hgv
        have hb := hbig v hvm
        unfold LPBState.fits lpbNext
        rcases lpbPick_spec s.r0 s.r1 v.weight s.rng.draw.1 with ⟨h, h'⟩ | ⟨h, h'⟩
        · rw [← hk] at h
          simp only [h, if_true]
          constructor
          · omega
          · exact f1
        · rw [← hk] at h
          simp only [h]
          constructor
          · exact f0
          · simp only [one_ne_zero, if_false]; omega
      · intro n
        show s.rng (n + 1) = _
        rw [hrng]
        simp only [List.length_append, List.length_singleton]
        congr 1
        omega
      · intro j v' hj hv'
        simp only [List.length_append, List.length_singleton] at hj
        have hstart : startLabel H max0 max1 rng (s.L.set i k) j v' =
            startLabel H max0 max1 rng s.L j v' := by
          unfold startLabel
          rw [List.take_set_of_le (by omega)]
        show (s.L.set i k)[j]? = some (startLabel H max0 max1 rng (s.L.set i k) j v')
        rw [hstart]
        by_cases hji : j = i
        · subst hji
          have hvv : v' = v := by
            rw [hgv] at hv'
            exact (Option.some.inj hv').symm
          rw [List.getElem?_set_self (by omega), hk, hvv]
          congr 1
          have hd : s.rng.draw.1 = rng j := by
            show s.rng 0 = _
            rw [hrng, Nat.zero_add, ← hi]
          rw [hd]
          unfold lpbPick startLabel other limitOf
          obtain h | h : rng j % 2 = 0 ∨ rng j % 2 = 1 := by omega
          · rw [h]
            simp only [Nat.cast_zero, if_true]
            rw [hr0]
            split <;> split <;> first | rfl | omega
          · rw [h]
            simp only [Nat.cast_one, one_ne_zero, if_false]
            rw [hr1]
            split <;> split <;> first | rfl | omega
        · rw [List.getElem?_set_ne (Ne.symm hji)]
          exact hst j v' (by omega) hv')
  refine ⟨s, h1, ?_⟩
  obtain ⟨a, b, c, d, e, f, g, -, h⟩ := h2
  rw [List.length_range, List.take_of_length_le (by omega)] at c d e
  refine ⟨⟨a, b, c, d, e⟩, f, g, ?_⟩
  intro i v hv
  have hi : i < H.vertices.length := by rw [List.getElem?_eq_some_iff] at hv; exact hv.1
  have := h i v (by simpa using hi) hv
  rw [labelFun_get w hv this]
  unfold startLabel
  rw [labelWeight_take w a]

theorem lpBisect_ok {shuf : Shuffle} (hsh : ∀ r l, (shuf r l).1.Perm l) {H : Hypergraph} (w : WF H)
    (maxIter : Nat) (max0 max1 : Int) (rng : Rng) :
    ∃ s0 s, lpbStart H (List.replicate H.nets.length ⟨0, 0⟩) max0 max1 rng = .ok s0 ∧
      lpBisect shuf H (List.replicate H.nets.length ⟨0, 0⟩) maxIter max0 max1 rng = .ok s ∧
      LPBInv H max0 max1 s0 ∧ LPBInv H max0 max1 s ∧
      (WeightsNonneg H → s0.fits → s.fits) ∧
      (WeightsNonneg H → 0 ≤ max0 → 0 ≤ max1 →
        (∀ v ∈ H.vertices, allWeight H + v.weight ≤ max0 + max1 + 1) → s0.fits) ∧
      BisectStart H max0 max1 rng (labelFun H s0.L) ∧
      LabelSweeps H (BisectStep H max0 max1) maxIter (labelFun H s0.L) (labelFun H s.L) := by
  obtain ⟨s0, h1, h2, h3, hc, hb⟩ := lpbStart_ok w max0 max1 rng
  obtain ⟨s, h4, h5, h6, h7⟩ := lpbSweeps_ok hsh w maxIter s0 (List.range H.vertices.length) h2
    (List.Perm.refl _)
  refine ⟨s0, s, h1, ?_, h2, h5, h6, h3, hb, h7 hc⟩
  unfold lpBisect
  rw [h1, ok_bind, h4]

/-! ### From labels to parts -/

theorem withLabels_conc {H : Hypergraph} (w : WF H) {L : List Int}
    (hl : L.length = H.vertices.length) :
    withLabels H L = conc H (labelFun H L) (pinsOf H) := by
  have h2 : H.nets.map (fun n => { n with vertices := pinsOf H n.id }) = H.nets := by
    conv_rhs => rw [← List.map_id H.nets]
    apply List.map_congr_left
    intro n hn
    rw [pinsOf_eq w hn]; rfl
  have h1 : List.zipWith (fun (v : Vertex) (p : Int) => { v with part := p }) H.vertices L =
      H.vertices.map (fun v => { v with part := labelFun H L v.id }) := by
    apply List.ext_getElem?
    intro i
    rw [List.getElem?_zipWith, List.getElem?_map]
    cases hv : H.vertices[i]? with
    | none => simp
    | some v =>
      have hi : i < L.length := by
        rw [List.getElem?_eq_some_iff] at hv; rw [hl]; exact hv.1
      have hx : L[i]? = some L[i] := by simp [hi]
      simp only [hx, Option.map_some]
      rw [labelFun_get w hv hx]
  unfold withLabels conc
  rw [h1, h2]

theorem withLabels_wf {H : Hypergraph} (w : WF H) {L : List Int}
    (hl : L.length = H.vertices.length) : WF (withLabels H L) := by
  rw [withLabels_conc w hl]
  exact conc_wf w _ _ (pinsPerm_self w)

theorem withLabels_same {H : Hypergraph} (w : WF H) {L : List Int}
    (hl : L.length = H.vertices.length) : SameUpToParts H (withLabels H L) := by
  rw [withLabels_conc w hl]
  exact conc_sameUpToParts _ _ (pinsPerm_self w)

theorem withLabels_bip {H : Hypergraph} {L : List Int} (h01 : ∀ x ∈ L, x = 0 ∨ x = 1) :
    Bipartitioned (withLabels H L) := by
  intro v hv
  unfold withLabels at hv
  simp only [List.mem_iff_getElem?, List.getElem?_zipWith] at hv
  obtain ⟨i, hi⟩ := hv
  cases h1 : H.vertices[i]? with
  | none => simp [h1] at hi
  | some x =>
    cases h2 : L[i]? with
    | none => simp [h2] at hi
    | some p =>
      simp only [h1, h2, Option.some.injEq] at hi
      subst hi
      exact h01 p (List.mem_of_getElem? h2)

theorem withLabels_weight {H : Hypergraph} {L : List Int} (k : Int) :
    partWeight (withLabels H L) k = labelWeight H L k := by
  unfold partWeight withLabels labelWeight
  simp only
  generalize H.vertices = vs
  induction vs generalizing L with
  | nil => simp
  | cons a vs ih =>
    cases L with
    | nil => simp
    | cons b L =>
      simp only [List.zipWith_cons_cons, List.zip_cons_cons, List.map_cons, List.sum_cons,
        List.filter_cons]
      by_cases hb : b = k
      · simp [hb, ← ih]
      · simp [hb, ← ih]

theorem withLabels_counts {H : Hypergraph} (w : WF H) {L : List Int}
    (hl : L.length = H.vertices.length) : CountsExact (withLabels H L) (cnt2 H (labelFun H L)) := by
  rw [withLabels_conc w hl]
  have h := countsExact_conc w (labelFun H L) (pinsOf H) (pinsPerm_self w)
  have : cOf H (exactF (labelFun H L) (pinsOf H)) = cnt2 H (labelFun H L) := by
    unfold cOf exactF cnt2 pinCount
    apply List.map_congr_left
    intro n hn
    rw [pinsOf_eq w hn]
  rw [← this]
  exact h

/-! ### label_propagation -/

/-- The counts of `l` labels. -/
def cntL (H : Hypergraph) (l : Nat) (P : Nat → Int) : List (List Int) :=
  H.nets.map (fun n => (List.range l).map (fun (k : Nat) => (pinCount P n (k : Int) : Int)))

/-- A list of `l` entries given by a function. -/
def tab (l : Nat) (f : Nat → Int) : List Int := (List.range l).map f

theorem tab_get {l : Nat} {f : Nat → Int} {k : Nat} (hk : k < l) : (tab l f)[k]? = some (f k) := by
  simp [tab, hk]

theorem tab_set {l : Nat} {f g : Nat → Int} {k : Nat} {x : Int} (hx : x = g k)
    (h : ∀ a, a ≠ k → g a = f a) : (tab l f).set k x = tab l g := by
  unfold tab
  apply List.ext_getElem?
  intro i
  rw [List.getElem?_set]
  by_cases hi : i < l
  · by_cases hki : k = i
    · subst hki; simp [hi, hx]
    · simp [hki, hi, h i (Ne.symm hki)]
  · simp [hi]; intro hki; omega

theorem matAdd_tab {C : List (List Int)} {l j k : Nat} {f g : Nat → Int} {d : Int}
    (hC : C[j]? = some (tab l f)) (hk : k < l) (hg : g k = f k + d) (h : ∀ a, a ≠ k → g a = f a) :
    matAdd C j k d = .ok (C.set j (tab l g)) := by
  unfold matAdd
  rw [vget_ok hC, ok_bind, vget_ok (tab_get hk), ok_bind, tab_set hg.symm h]
  rfl

theorem lpCount_ok {H : Hypergraph} (w : WF H) {v : Vertex} (hv : v ∈ H.vertices) {P : Nat → Int}
    {l k : Nat} (hk : k < l) (hP : P v.id = -1) :
    v.nets.foldlM (lpCount H k 1) (cntL H l P) = .ok (cntL H l (Function.update P v.id k)) := by
  have h := netFold1_ok (F := fun n => tab l (fun a => (pinCount P n (a : Int) : Int)))
    (F' := fun n => tab l (fun a => (pinCount (Function.update P v.id k) n (a : Int) : Int)))
    w (w.vnets v hv) (vnets_isNet w hv) (step := lpCount H k 1) (by
      intro C j n hj hn hC
      have hn' : n ∈ H.nets := List.mem_of_getElem? hj
      have hin : v.id ∈ n.vertices := (mem_pins_iff w hv hn').1 hn
      unfold lpCount
      rw [w.localIdNet_of_get hj, ok_bind]
      apply matAdd_tab hC hk
      · rw [pinCount_update_in P n v.id k k hin (w.npins n hn'), hP, if_neg (by omega), if_pos rfl]
        ring
      · intro a ha
        rw [pinCount_update_in P n v.id k a hin (w.npins n hn'), hP, if_neg (by omega),
          if_neg (by omega)]
        ring)
  show v.nets.foldlM (lpCount H k 1)
    (H.nets.map (fun n => tab l (fun a => (pinCount P n (a : Int) : Int)))) = _
  rw [h]
  congr 1
  unfold rowsOf cntL
  apply List.map_congr_left
  intro n hn
  by_cases hin : n.id ∈ v.nets
  · rw [if_pos hin]; rfl
  · rw [if_neg hin]
    have : v.id ∉ n.vertices := fun h => hin ((mem_pins_iff w hv hn).2 h)
    unfold tab
    apply List.map_congr_left
    intro a _
    rw [pinCount_update_out _ _ _ _ _ this]

theorem lpGather_ok {H : Hypergraph} (w : WF H) {v : Vertex} (hv : v ∈ H.vertices) {P : Nat → Int}
    {l k : Nat} (hk : k < l) (hP : P v.id = k) :
    v.nets.foldlM (lpGather H k) (cntL H l P, List.replicate l 0) =
      .ok (cntL H l (Function.update P v.id (-1)), tab l (fun a => (links H P v (a : Int) : Int))) := by
  obtain ⟨t, h, h0⟩ := netFold_ok
    (F := fun n => tab l (fun a => (pinCount P n (a : Int) : Int)))
    (F' := fun n => tab l (fun a => (pinCount (Function.update P v.id (-1)) n (a : Int) : Int)))
    (σ := List Int) w (w.vnets v hv) (vnets_isNet w hv) (step := lpGather H k)
    (I := fun es T => T = tab l (fun a =>
      netSum H (fun n => (pinCount (Function.update P v.id (-1)) n (a : Int) : Int)) es)) (by
      intro C s j n pre hj hn hpre hC hI
      have hn' : n ∈ H.nets := List.mem_of_getElem? hj
      have hin : v.id ∈ n.vertices := (mem_pins_iff w hv hn').1 hn
      have hlt : j < C.length := by rw [List.getElem?_eq_some_iff] at hC; exact hC.1
      have hadd : matAdd C j k (-1) = .ok (C.set j
          (tab l (fun a => (pinCount (Function.update P v.id (-1)) n (a : Int) : Int)))) := by
        apply matAdd_tab hC hk
        · rw [pinCount_update_in P n v.id (-1) k hin (w.npins n hn'), hP, if_pos rfl,
            if_neg (by omega)]
          ring
        · intro a ha
          rw [pinCount_update_in P n v.id (-1) a hin (w.npins n hn'), hP, if_neg (by omega),
            if_neg (by omega)]
          ring
      refine ⟨List.zipWith (· + ·) s
        (tab l (fun a => (pinCount (Function.update P v.id (-1)) n (a : Int) : Int))), ?_, ?_⟩
      · unfold lpGather
        simp only [w.localIdNet_of_get hj, ok_bind, hadd]
        rw [vget_ok (by simp [hlt]; rfl)]
        rfl
      · rw [hI]
        unfold tab
        apply List.ext_getElem?
        intro i
        rw [List.getElem?_zipWith, List.getElem?_map, List.getElem?_map, List.getElem?_map]
        cases (List.range l)[i]? with
        | none => rfl
        | some a => simp only [Option.map_some, netSum_snoc w _ hj hpre])
    (s0 := List.replicate l 0) (by
      unfold tab
      simp only [netSum_nil]
      rw [List.map_const', List.length_range])
  have h0 : t = tab l (fun a => (links H P v (a : Int) : Int)) := by
    rw [h0]
    unfold tab
    apply List.map_congr_left
    intro a _
    exact netSum_links w hv P (by omega)
  subst h0
  show v.nets.foldlM (lpGather H k)
    (H.nets.map (fun n => tab l (fun a => (pinCount P n (a : Int) : Int))), List.replicate l 0) = _
  rw [h]
  congr 2
  unfold rowsOf cntL
  apply List.map_congr_left
  intro n hn
  by_cases hin : n.id ∈ v.nets
  · rw [if_pos hin]; rfl
  · rw [if_neg hin]
    have : v.id ∉ n.vertices := fun h => hin ((mem_pins_iff w hv hn).2 h)
    unfold tab
    apply List.map_congr_left
    intro a _
    rw [pinCount_update_out _ _ _ _ _ this]

/-- The labels as integers. -/
def intL (L : List Nat) : List Int := L.map (fun (x : Nat) => (x : Int))

theorem intL_get {L : List Nat} {i x : Nat} (h : L[i]? = some x) : (intL L)[i]? = some (x : Int) := by
  simp [intL, h]

/-- Invariant of the sweeps. -/
structure LPInv (H : Hypergraph) (l : Nat) (s : LPState) : Prop where
  len : s.L.length = H.vertices.length
  labels : ∀ x ∈ s.L, x < l
  counts : s.C = cntL H l (labelFun H (intL s.L))
  size : s.size = tab l (fun a => (s.L.count a : Int))

/-- No label falls below `m`, or below what it had. -/
def KeepsSize (m : Int) (s s' : LPState) : Prop :=
  ∀ a, min m (s.L.count a : Int) ≤ (s'.L.count a : Int)

theorem KeepsSize.trans {m : Int} {a b c : LPState} (h1 : KeepsSize m a b)
    (h2 : KeepsSize m b c) : KeepsSize m a c := by
  intro x
  have := h1 x
  have := h2 x
  omega

/-- The state after position `i` moved from `k` to `k'`. -/
def lpMoved (H : Hypergraph) (l : Nat) (s : LPState) (i k' : Nat) : LPState :=
  { L := s.L.set i k', size := tab l (fun a => ((s.L.set i k').count a : Int)),
    C := cntL H l (labelFun H (intL (s.L.set i k'))), rng := s.rng.draw.2, change := true }

theorem labelSize_count {H : Hypergraph} (w : WF H) {L : List Nat}
    (hl : L.length = H.vertices.length) (k : Nat) :
    labelSize H (labelFun H (intL L)) k = L.count k := by
  have h := hasLabels_labelFun w (L := intL L) (by simpa [intL] using hl)
  unfold HasLabels at h
  have h1 : (intL L).countP (fun x => decide (x = (k : Int))) = L.count k := by
    unfold intL
    rw [List.countP_map, List.count]
    apply List.countP_congr
    intro x _
    simp
  rw [← h1, h, List.countP_map]
  unfold labelSize
  rw [← h]
  rfl

theorem lpSweepStep_ok {H : Hypergraph} (w : WF H) {l : Nat} {minSize : Int} {s : LPState}
    (hI : LPInv H l s) {i : Nat} (hi : i < H.vertices.length) :
    ∃ s', lpSweepStep H l minSize s i = .ok s' ∧ LPInv H l s' ∧ KeepsSize minSize s s' ∧
      ∀ v, H.vertices[i]? = some v → StepOut (LabelStep H l minSize) (labelFun H (intL s.L)) v
        s.change (labelFun H (intL s'.L)) s'.change := by
  have hgv : H.vertices[i]? = some H.vertices[i] := by simp [hi]
  set v := H.vertices[i] with hvdef
  have hvm : v ∈ H.vertices := List.getElem_mem hi
  have hiL : i < s.L.length := by rw [hI.len]; exact hi
  have hgl : s.L[i]? = some s.L[i] := by simp [hiL]
  set k := s.L[i] with hkdef
  have hk : k < l := hI.labels k (List.getElem_mem hiL)
  have hgs : s.size[k]? = some (s.L.count k : Int) := by rw [hI.size]; exact tab_get hk
  have hPk : labelFun H (intL s.L) v.id = k := labelFun_get w hgv (intL_get hgl)
  have hg := lpGather_ok w hvm hk hPk
  rw [← hI.counts] at hg
  obtain ⟨T, hT⟩ : ∃ T, T = tab l (fun a => (links H (labelFun H (intL s.L)) v (a : Int) : Int)) :=
    ⟨_, rfl⟩
  rw [← hT] at hg
  have hTl : T.length = l := by rw [hT]; simp [tab]
  have hT0 : ∀ t ∈ T, 0 ≤ t := by
    intro t ht
    rw [hT] at ht
    obtain ⟨a, -, rfl⟩ := List.mem_map.1 ht
    omega
  have hsize : labelSize H (labelFun H (intL s.L)) (labelFun H (intL s.L) v.id) = s.L.count k := by
    rw [hPk]
    exact labelSize_count w hI.len k
  by_cases hsz : (s.L.count k : Int) > minSize
  · obtain ⟨a1, a2, -⟩ := argmaxLoop_spec T 0 (-1) [] (by simp)
    have a2 := a2 (Or.inr (by
      have : 0 < T.length := by omega
      refine ⟨T[0], List.getElem_mem this, ?_⟩
      have := hT0 _ (List.getElem_mem this)
      omega))
    set best := (argmaxLoop T 0 (-1) []).2 with hbest
    have hpos : 0 < best.length := List.length_pos_of_ne_nil a2
    have hlt := Nat.mod_lt s.rng.draw.1 hpos
    have hgb : best[s.rng.draw.1 % best.length]? = some best[s.rng.draw.1 % best.length] := by
      simp [hlt]
    set k' := best[s.rng.draw.1 % best.length] with hk'
    have hk'l : k' < l := by
      have := a1 _ (List.getElem_mem hlt)
      omega
    have hmost : ∀ b : Nat, b < l → links H (labelFun H (intL s.L)) v b ≤
        links H (labelFun H (intL s.L)) v k' := by
      intro b hb
      obtain ⟨y, hy1, hy2⟩ := argmaxLoop_top (T := T) (List.getElem_mem hlt)
      rw [hT] at hy1 hy2
      change (tab l _)[k']? = some y at hy1
      rw [tab_get hk'l] at hy1
      have := hy2 _ (List.mem_of_getElem? (tab_get hb))
      simp only [Option.some.injEq] at hy1
      omega
    have hcnt : v.nets.foldlM (lpCount H k' 1)
        (cntL H l (Function.update (labelFun H (intL s.L)) v.id (-1))) =
        .ok (cntL H l (Function.update (labelFun H (intL s.L)) v.id k')) := by
      rw [lpCount_ok w hvm hk'l (Function.update_self _ _ _), Function.update_idem]
    have hset : intL (s.L.set i k') = (intL s.L).set i k' := by
      unfold intL; rw [List.map_set]
    have hPk' : Function.update (labelFun H (intL s.L)) v.id (k' : Int) =
        labelFun H (intL (s.L.set i k')) := by
      rw [hset, labelFun_set w hgv (by simpa [intL] using hiL)]
    have hsz1 : (s.size).set k ((s.L.count k : Int) - 1) =
        tab l (fun a => if a = k then (s.L.count k : Int) - 1 else (s.L.count a : Int)) := by
      rw [hI.size]
      apply tab_set
      · simp
      · intro a ha; simp [ha]
    by_cases hkk : k' = k
    · refine ⟨{ s with C := cntL H l (labelFun H (intL s.L)), rng := s.rng.draw.2 }, ?_,
        ⟨hI.len, hI.labels, rfl, hI.size⟩, fun a => by simp only; omega, ?_⟩
      case refine_2 =>
        intro v' hv'
        rw [hgv] at hv'
        cases hv'
        refine ⟨?_, Or.inl ⟨rfl, rfl⟩⟩
        have := LabelStep.take (H := H) (l := l) (minSize := minSize)
          (P := labelFun H (intL s.L)) (v := v) k' (by rw [hsize]; exact hsz) hk'l hmost
        rw [relabel_update, hkk, ← hPk, Function.update_eq_self] at this
        exact this
      unfold lpSweepStep
      have hva : H.vertexAt i = .ok v := by unfold Hypergraph.vertexAt; rw [hgv]
      have hup : Function.update (labelFun H (intL s.L)) v.id (k' : Int) =
          labelFun H (intL s.L) := by
        rw [hkk, ← hPk, Function.update_eq_self]
      rw [hup] at hcnt
      simp only [vget_ok hgl, ok_bind, vget_ok hgs, if_pos hsz, hva, hg, ← hbest,
        if_neg (show ¬ best.length = 0 by omega), vget_ok hgb, hsz1, vget_ok (tab_get hk'l), hcnt,
        if_neg (show ¬ k' ≠ k by simpa using hkk), pure_eq_ok]
    · refine ⟨lpMoved H l s i k', ?_, ⟨by simp [lpMoved, hI.len], ?_, rfl, rfl⟩, ?_, ?_⟩
      · unfold lpSweepStep
        have hva : H.vertexAt i = .ok v := by unfold Hypergraph.vertexAt; rw [hgv]
        have hsz2 : (tab l (fun a => if a = k then (s.L.count k : Int) - 1
            else (s.L.count a : Int))).set k' ((if k' = k then (s.L.count k : Int) - 1
            else (s.L.count k' : Int)) + 1) = tab l (fun a => ((s.L.set i k').count a : Int)) := by
          apply tab_set
          · rw [List.count_set hiL, ← hkdef]
            simp [hkk, Ne.symm hkk]
          · intro a ha
            rw [List.count_set hiL, ← hkdef]
            have hpos : 0 < s.L.count k := List.count_pos_iff.2 (List.getElem_mem hiL)
            by_cases hak : a = k
            · subst hak; simp [Ne.symm ha]; omega
            · simp [Ne.symm ha, hak, Ne.symm hak]
        simp only [vget_ok hgl, ok_bind, vget_ok hgs, if_pos hsz, hva, hg, ← hbest,
          if_neg (show ¬ best.length = 0 by omega), vget_ok hgb, hsz1, vget_ok (tab_get hk'l), hcnt,
          if_pos (show k' ≠ k from hkk), pure_eq_ok, hsz2, hPk']
        rfl
      · intro x hx
        rcases List.mem_or_eq_of_mem_set hx with h | h
        · exact hI.labels x h
        · rw [h]; exact hk'l
      · intro a
        show min minSize (s.L.count a : Int) ≤ ((s.L.set i k').count a : Int)
        rw [List.count_set hiL, ← hkdef]
        have hpos : 0 < s.L.count k := List.count_pos_iff.2 (List.getElem_mem hiL)
        by_cases hak : k = a
        · subst hak
          simp [hkk]; omega
        · simp only [beq_iff_eq, if_neg hak]
          split <;> omega
      · intro v' hv'
        rw [hgv] at hv'
        cases hv'
        have hst := LabelStep.take (H := H) (l := l) (minSize := minSize)
          (P := labelFun H (intL s.L)) (v := v) k' (by rw [hsize]; exact hsz) hk'l hmost
        have hset' : labelFun H (intL (lpMoved H l s i k').L) =
            relabel (labelFun H (intL s.L)) v k' := by
          rw [relabel_update, hPk']
          rfl
        rw [hset']
        refine ⟨hst, Or.inr ⟨rfl, ?_, ?_⟩⟩
        · unfold relabel
          rw [if_pos rfl, hPk]
          omega
        · intro u hu
          unfold relabel
          rw [if_neg hu]
  · refine ⟨s, ?_, hI, fun a => by omega, ?_⟩
    case refine_2 =>
      intro v' hv'
      rw [hgv] at hv'
      cases hv'
      exact ⟨LabelStep.stay (by rw [hsize]; omega), Or.inl ⟨rfl, rfl⟩⟩
    unfold lpSweepStep
    simp only [vget_ok hgl, ok_bind, vget_ok hgs, if_neg hsz, pure_eq_ok]

theorem lpSweeps_quiet (shuf : Shuffle) (H : Hypergraph) (l : Nat) (m : Int) (k : Nat) {s : LPState}
    (h : s.change = false) (idx : List Nat) : lpSweeps shuf H l m k s idx = .ok s := by
  cases k with
  | zero => rfl
  | succ k => unfold lpSweeps; rw [h]; rfl

theorem lpSweeps_ok {shuf : Shuffle} (hsh : ∀ r l, (shuf r l).1.Perm l) {H : Hypergraph} (w : WF H)
    {l : Nat} {minSize : Int} : ∀ (k : Nat) (s : LPState) (idx : List Nat),
    LPInv H l s → idx.Perm (List.range H.vertices.length) →
    ∃ s', lpSweeps shuf H l minSize k s idx = .ok s' ∧ LPInv H l s' ∧ KeepsSize minSize s s' ∧
      (s.change = true → LabelSweeps H (LabelStep H l minSize) k (labelFun H (intL s.L))
        (labelFun H (intL s'.L))) := by
  intro k
  induction k with
  | zero => intro s idx hI _; exact ⟨s, rfl, hI, fun a => by omega, fun _ => LabelSweeps.done⟩
  | succ k ih =>
    intro s idx hI hidx
    unfold lpSweeps
    cases hch : s.change with
    | false => exact ⟨s, rfl, hI, fun a => by omega, by simp⟩
    | true =>
      have hp := (hsh s.rng idx).trans hidx
      obtain ⟨s1, h1, h2, h3, h4⟩ := foldlM_inv (f := lpSweepStep H l minSize)
        (fun pre _ (s' : LPState) => LPInv H l s' ∧ KeepsSize minSize s s' ∧
          Course (LabelStep H l minSize) (labelFun H (intL s.L)) (vsOf H pre) s'.change
            (labelFun H (intL s'.L))) (shuf s.rng idx).1
        { s with rng := (shuf s.rng idx).2, change := false }
        ⟨⟨hI.len, hI.labels, hI.counts, hI.size⟩, fun a => by simp only; omega,
          ⟨Visits.nil, fun _ => rfl, by simp, fun _ _ => rfl⟩⟩ (by
          rintro pre i post s' ⟨hI', hf, hcs⟩ hl
          have hi : i < H.vertices.length := by
            have : i ∈ (shuf s.rng idx).1 := by rw [hl]; simp
            simpa using hp.mem_iff.1 this
          have hnot : i ∉ pre := by
            have hnd := hp.nodup_iff.2 List.nodup_range
            rw [hl] at hnd
            intro h
            exact (List.nodup_append.1 hnd).2.2 _ h _ (by simp) rfl
          have hgv : H.vertices[i]? = some H.vertices[i] := by simp [hi]
          obtain ⟨s'', a, b, c, d⟩ := lpSweepStep_ok w hI' hi
          refine ⟨s'', a, b, hf.trans c, ?_⟩
          rw [vsOf_snoc hgv]
          exact hcs.snoc (vsOf_not_mem w hgv hnot) (d _ hgv))
      obtain ⟨s2, g1, g2, g3, g4⟩ := ih s1 (shuf s.rng idx).1 h2 hp
      refine ⟨s2, ?_, g2, h3.trans g3, ?_⟩
      · simp only [if_true]
        rw [h1, ok_bind]
        exact g1
      · intro _
        cases hc1 : s1.change with
        | false =>
          rw [lpSweeps_quiet shuf H l minSize k hc1] at g1
          cases g1
          have hs := h4.same hc1
          rw [hs]
          exact LabelSweeps.quiet (vsOf_perm hp) (hs ▸ h4.run)
        | true =>
          obtain ⟨v, hv, hne⟩ := h4.diff hc1
          exact LabelSweeps.more (vsOf_perm hp) h4.run ⟨v, (vsOf_perm hp).mem_iff.1 hv, hne⟩ (g4 hc1)

theorem cntL_start (H : Hypergraph) (l : Nat) :
    List.replicate H.nets.length (List.replicate l (0 : Int)) = cntL H l (labelFun H []) := by
  unfold cntL
  rw [← List.map_const']
  apply List.map_congr_left
  intro n _
  have h : ∀ k : Nat, pinCount (labelFun H []) n (k : Int) = 0 := by
    intro k
    unfold pinCount
    rw [List.countP_eq_zero]
    intro u _
    have : labelFun H [] u = -1 := by unfold labelFun; split <;> simp
    rw [this]
    simp
  simp [h]

/-- The state after position `i` got label `k`. -/
def lpNext (H : Hypergraph) (l : Nat) (s : LPState) (i k : Nat) : LPState :=
  { s with L := s.L.set i k, size := tab l (fun a => ((s.L.take i ++ [k]).count a : Int)),
           C := cntL H l (labelFun H (intL (s.L.take i ++ [k]))), rng := s.rng.draw.2 }

theorem lpStart_ok {H : Hypergraph} (w : WF H) {l : Nat} (hl1 : 1 ≤ l) (rng : Rng) :
    ∃ s, lpStart H l rng = .ok s ∧ LPInv H l s ∧ s.change = true ∧
      LabelStart H l rng (labelFun H (intL s.L)) := by
  unfold lpStart
  obtain ⟨s, h1, h2⟩ := foldlM_inv (f := lpStartStep H l)
    (fun pre _ (s : LPState) => s.L.length = H.vertices.length ∧ (∀ x ∈ s.L, x < l) ∧
      s.C = cntL H l (labelFun H (intL (s.L.take pre.length))) ∧
      s.size = tab l (fun a => ((s.L.take pre.length).count a : Int)) ∧
      s.change = true ∧ (∀ n, s.rng n = rng (n + pre.length)) ∧
      ∀ j : Nat, j < pre.length → s.L[j]? = some (rng j % l))
    (List.range H.vertices.length)
    { L := List.replicate H.vertices.length 0, size := List.replicate l 0,
      C := List.replicate H.nets.length (List.replicate l 0), rng := rng, change := true }
    (by
      refine ⟨by simp, ?_, ?_, ?_, rfl, fun _ => rfl, by simp⟩
      · intro x hx; simp only [List.mem_replicate] at hx; omega
      · simp only [List.length_nil, List.take_zero]; exact cntL_start H l
      · simp only [List.length_nil, List.take_zero, List.count_nil, tab]
        simp) (by
      rintro pre i post s ⟨hlen, hlab, hC, hsz, hchg, hrng, hst⟩ hl
      have hi : i = pre.length := by
        have := congrArg (fun l => l[pre.length]?) hl
        simp only [List.getElem?_append_right (le_refl _), Nat.sub_self,
          List.getElem?_cons_zero] at this
        rw [List.getElem?_range] at this
        · simpa using this.symm
        · have := congrArg List.length hl
          simp at this; omega
      have hlt : i < H.vertices.length := by
        have := congrArg List.length hl
        simp at this; omega
      have hgv : H.vertices[i]? = some H.vertices[i] := by simp [hlt]
      set v := H.vertices[i] with hvdef
      have hvm : v ∈ H.vertices := List.getElem_mem hlt
      have hk : s.rng.draw.1 % l < l := Nat.mod_lt _ hl1
      set k := s.rng.draw.1 % l with hkdef
      rw [← hi] at hC hsz
      have htl : (intL (s.L.take i)).length = i := by simp [intL]; omega
      have hgv' : H.vertices[(intL (s.L.take i)).length]? = some v := by rw [htl]; exact hgv
      have htake : (s.L.set i k).take (i + 1) = s.L.take i ++ [k] := by
        rw [List.take_add_one, List.take_set_of_le (le_refl _)]
        simp [show i < s.L.length by omega]
      have happ : intL (s.L.take i ++ [k]) = intL (s.L.take i) ++ [(k : Int)] := by simp [intL]
      have hcnt : v.nets.foldlM (lpCount H k 1) s.C =
          .ok (cntL H l (labelFun H (intL (s.L.take i ++ [k])))) := by
        rw [hC, lpCount_ok w hvm hk (labelFun_none w hgv (by omega)), happ, labelFun_snoc w hgv']
      have hsz' : s.size.set k (((s.L.take i).count k : Int) + 1) =
          tab l (fun a => ((s.L.take i ++ [k]).count a : Int)) := by
        rw [hsz]
        apply tab_set
        · simp
        · intro a ha; simp [Ne.symm ha]
      have hgs : s.size[k]? = some ((s.L.take i).count k : Int) := by rw [hsz]; exact tab_get hk
      have hstep : lpStartStep H l s i = .ok (lpNext H l s i k) := by
        unfold lpStartStep lpNext
        have hva : H.vertexAt i = .ok v := by unfold Hypergraph.vertexAt; rw [hgv]
        simp only [if_neg (show ¬ l = 0 by omega), hva, ok_bind, ← hkdef,
          vset_ok (show i < s.L.length by omega), vget_ok hgs, hcnt, hsz', pure_eq_ok]
      refine ⟨_, hstep, by simp [lpNext, hlen], ?_, ?_, ?_, hchg, ?_, ?_⟩
      · intro x hx
        rcases List.mem_or_eq_of_mem_set hx with h | h
        · exact hlab x h
        · rw [h]; exact hk
      · simp only [lpNext, List.length_append, List.length_singleton, ← hi, htake]
      · simp only [lpNext, List.length_append, List.length_singleton, ← hi, htake]
      · intro n
        show s.rng (n + 1) = _
        rw [hrng]
        simp only [List.length_append, List.length_singleton]
        congr 1
        omega
      · intro j hj
        simp only [List.length_append, List.length_singleton] at hj
        show (s.L.set i k)[j]? = _
        by_cases hji : j = i
        · subst hji
          rw [List.getElem?_set_self (by omega), hkdef]
          have hd : s.rng.draw.1 = rng j := by
            show s.rng 0 = _
            rw [hrng, Nat.zero_add, ← hi]
          rw [hd]
        · rw [List.getElem?_set_ne (Ne.symm hji)]
          exact hst j (by omega))
  refine ⟨s, h1, ?_⟩
  obtain ⟨a, b, c, d, e, -, f⟩ := h2
  rw [List.length_range, List.take_of_length_le (by omega)] at c d
  refine ⟨⟨a, b, c, d⟩, e, ?_⟩
  intro i v hv
  have hi : i < H.vertices.length := by rw [List.getElem?_eq_some_iff] at hv; exact hv.1
  exact labelFun_get w hv (intL_get (f i (by simpa using hi)))

theorem labelPropagation_ok {shuf : Shuffle} (hsh : ∀ r l, (shuf r l).1.Perm l) {H : Hypergraph}
    (w : WF H) {l : Nat} (hl1 : 1 ≤ l) (maxIter : Nat) (minSize : Int) (rng : Rng) :
    ∃ s0 s, lpStart H l rng = .ok s0 ∧
      labelPropagation shuf H l maxIter minSize rng = .ok (s.L, s.rng) ∧
      LPInv H l s0 ∧ LPInv H l s ∧ KeepsSize minSize s0 s ∧
      LabelStart H l rng (labelFun H (intL s0.L)) ∧
      LabelSweeps H (LabelStep H l minSize) maxIter (labelFun H (intL s0.L))
        (labelFun H (intL s.L)) := by
  obtain ⟨s0, h1, h2, hc, hb⟩ := lpStart_ok w hl1 rng
  obtain ⟨s, h4, h5, h6, h7⟩ := lpSweeps_ok hsh w (minSize := minSize) maxIter s0
    (List.range H.vertices.length) h2 (List.Perm.refl _)
  refine ⟨s0, s, h1, ?_, h2, h5, h6, hb, h7 hc⟩
  unfold labelPropagation
  rw [h1, ok_bind, h4]
  rfl

end PMondriaan

import Verif.Proofs.ResolutionH
import Verif.Proofs.ResolutionD
import Verif.Proofs.TogetherD

/-!
# Finer leaves: spatiotemporal data
-/

namespace Lp
open Spec
open scoped BigOperators
variable {c n m leaves root : Nat} {parents : List Int} {md md' : HMeta}

/-- What piece number `s` of every leaf sees of a rectangle of the finer hierarchy. -/
def sSample (c leaves s : Nat) (r : Rect) : Option Rect :=
  if leaves * c ≤ r.node then some ⟨r.node - leaves * c, r.first, r.last⟩
  else if r.node % c = s then some ⟨r.node / c, r.first, r.last⟩
  else none

/-- The rectangle of the finer hierarchy with the same cells. -/
def leafPieces (c leaves : Nat) (r : Rect) : Rect := ⟨leaves * c + r.node, r.first, r.last⟩

theorem leaf_under (t : IsTree leaves parents root) {x y : Nat} (hx : x < leaves) (hu : Under parents x y) : y = x := by
  have := t.leavesLe
  have hno := (t.leaf x (by omega)).mp hx
  rw [under_iff] at hu
  rcases hu with h | ⟨z, hz, _⟩
  · exact h
  · exact absurd ⟨z, hz⟩ hno

theorem sSample_has (t : IsTree leaves parents root) {s : Nat} (hs : s < c) {r : Rect} {l i : Nat} (hl : l < leaves) :
    r.Has (finerTree c leaves parents) (c * l + s) i ↔ ∃ r', sSample c leaves s r = some r' ∧ r'.Has parents l i := by
  have hx : c * l + s < leaves * c := (piece_lt hs).mpr hl
  obtain ⟨y, f, e⟩ := r
  unfold sSample Rect.Has
  simp only
  split
  · rename_i h
    obtain ⟨a, rfl⟩ := Nat.exists_eq_add_of_le h
    rw [finer_under_new hx, piece_div hs]
    simp only [Option.some.injEq, exists_eq_left', Nat.add_sub_cancel_left]
  · rename_i h
    have hy : y < leaves * c := by omega
    split
    · rename_i hm
      simp only [Option.some.injEq, exists_eq_left']
      refine and_congr_left (fun _ => ?_)
      constructor
      · intro hu
        have := finer_under_leaf hy hu
        rw [← this, piece_div hs]
        exact .self
      · intro hu
        have := leaf_under t (div_lt_leaves hy) hu
        rw [this, ← hm, Nat.div_add_mod]
        exact .self
    · rename_i hm
      simp only [reduceCtorEq, false_and, exists_false, iff_false, not_and]
      intro hu
      have := finer_under_leaf hy hu
      rw [← this, Nat.mul_add_mod, Nat.mod_eq_of_lt hs] at hm
      exact absurd rfl hm

theorem sSample_bounds {s : Nat} {r r' : Rect} (e : sSample c leaves s r = some r') : r'.first = r.first ∧ r'.last = r.last := by
  unfold sSample at e
  split at e
  · obtain rfl := Option.some.inj e; exact ⟨rfl, rfl⟩
  · split at e
    · obtain rfl := Option.some.inj e; exact ⟨rfl, rfl⟩
    · cases e

theorem sSample_node (t : IsTree leaves parents root) {s : Nat} {r r' : Rect} (e : sSample c leaves s r = some r')
    (hr : r.node < (finerTree c leaves parents).length) : r'.node < parents.length := by
  have := t.leavesLe
  rw [finerTree_length] at hr
  unfold sSample at e
  split at e
  · obtain rfl := Option.some.inj e; show r.node - leaves * c < _; omega
  · rename_i h
    have := div_lt_leaves (not_le.mp h)
    split at e
    · obtain rfl := Option.some.inj e; show r.node / c < _; omega
    · cases e

theorem sSample_cover (t : IsTree leaves parents root) {s : Nat} (hs : s < c) {M : List Rect}
    (h : CellCover (leaves * c) (finerTree c leaves parents) n M) :
    CellCover leaves parents n (M.filterMap (sSample c leaves s)) := by
  classical
  constructor
  · intro r hr
    obtain ⟨b, hb, e⟩ := List.mem_filterMap.mp hr
    have hb := h.1 b hb
    obtain ⟨e1, e2⟩ := sSample_bounds e
    exact ⟨sSample_node t e hb.1, by rw [e1, e2]; exact hb.2⟩
  · intro l i hl hi
    have := h.2 (c * l + s) i ((piece_lt hs).mpr hl) hi
    rw [exactlyOne_countP] at this ⊢
    rw [List.countP_filterMap, ← this]
    apply List.countP_congr
    intro r _
    rw [decide_eq_true_eq, sSample_has t hs hl]
    cases e : sSample c leaves s r with
    | none => simp
    | some r' => simp

theorem sSample_lift {s : Nat} {r r' : Rect} (e : sSample c leaves s r = some r') :
    r.node = leaves * c + r'.node ∨ (r.node < leaves * c ∧ r'.node = r.node / c) := by
  unfold sSample at e
  split at e
  · obtain rfl := Option.some.inj e; left; show r.node = leaves * c + (r.node - leaves * c); omega
  · rename_i h
    split at e
    · obtain rfl := Option.some.inj e; exact .inr ⟨not_le.mp h, rfl⟩
    · cases e

theorem sSample_coarse (t : IsTree leaves parents root) {s : Nat} {M : List Rect} (h : CoarseFirst (finerTree c leaves parents) M) :
    CoarseFirst parents (M.filterMap (sSample c leaves s)) := by
  intro r' hr' t' ht' hne hu
  obtain ⟨r, hr, e⟩ := List.mem_filterMap.mp hr'
  obtain ⟨u, hu', e'⟩ := List.mem_filterMap.mp ht'
  obtain ⟨_, b2⟩ := sSample_bounds e
  obtain ⟨b3, _⟩ := sSample_bounds e'
  rw [b2, b3]
  rcases sSample_lift e with k1 | ⟨k1, k2⟩
  · rcases sSample_lift e' with k3 | ⟨k3, k4⟩
    · refine h r hr u hu' (by omega) ?_
      rw [k1, k3]; exact finer_under_old.mpr hu
    · refine h r hr u hu' (by omega) ?_
      rw [k1, finer_under_new k3, ← k4]; exact hu
  · have := leaf_under t (by rw [k2]; exact div_lt_leaves k1) hu
    exact absurd this.symm hne

open Classical in
/-- Cells whose piece number `s` is in the rectangle. -/
noncomputable def sSamp (leaves : Nat) (parents : List Int) (c : Nat) (r : Rect) (s : Nat) : Finset (Nat × Nat) :=
  (Finset.range leaves ×ˢ Finset.Icc r.first r.last).filter (fun x : Nat × Nat => Under (finerTree c leaves parents) r.node (c * x.1 + s))

theorem mem_sSamp {r : Rect} {s : Nat} {x : Nat × Nat} (hs : s < c) :
    x ∈ sSamp leaves parents c r s ↔ (c * x.1 + s, x.2) ∈ dCells (leaves * c) (finerTree c leaves parents) r := by
  classical
  unfold sSamp
  rw [mem_dCells, Finset.mem_filter, Finset.mem_product, Finset.mem_range, Finset.mem_Icc, piece_lt hs]
  unfold Rect.Has
  tauto

theorem s_sampled (hc : 0 < c) {I : Finset (Nat × Nat)} {samp : Nat → Finset (Nat × Nat)}
    (h : ∀ s < c, ∀ x, x ∈ samp s ↔ (c * x.1 + s, x.2) ∈ I) :
    Sampled c (fun s (x : Nat × Nat) => (c * x.1 + s, x.2)) I samp :=
  .of (fun y => y.1 % c) (fun y => (y.1 / c, y.2)) (fun y => ⟨Nat.mod_lt _ hc, by rw [Nat.div_add_mod]⟩)
    (fun s hs x => ⟨by show (c * x.1 + s) % c = s; rw [Nat.mul_add_mod, Nat.mod_eq_of_lt hs],
      by show ((c * x.1 + s) / c, x.2) = x; rw [piece_div hs]⟩) h

theorem s_samples (t : IsTree leaves parents md.root) (hc : 0 < c) (hn : 0 < n) {M : List Rect}
    (h : CellCover (leaves * c) (finerTree c leaves parents) n M) :
    Samples c (fun s (x : Nat × Nat) => (c * x.1 + s, x.2)) (dCells leaves parents) (dCells (leaves * c) (finerTree c leaves parents))
      (sSamp leaves parents c) M (fun s => M.filterMap (sSample c leaves s)) (dCells leaves parents ⟨md.root, 0, n - 1⟩) := by
  have hlist : ∀ s < c, ∀ f : Finset (Nat × Nat) → ℝ, f ∅ = 0 →
      ((M.filterMap (sSample c leaves s)).map (fun a => f (dCells leaves parents a))).sum =
        (M.map (fun b => f (sSamp leaves parents c b s))).sum := by
    intro s hs f h0
    refine filterMap_sum (samp := fun b => sSamp leaves parents c b s) ?_ ?_ f h0 M
    · intro b a hb
      ext x
      rw [mem_sSamp hs, mem_dCells, mem_dCells, piece_lt hs]
      refine and_congr_right (fun hl => ?_)
      rw [sSample_has t hs hl, hb]
      simp
    · intro b hb
      rw [Finset.eq_empty_iff_forall_notMem]
      intro x hx
      rw [mem_sSamp hs, mem_dCells, piece_lt hs] at hx
      rw [sSample_has t hs hx.1, hb] at hx
      simp at hx
  refine ⟨fun b _ => s_sampled hc (fun s hs x => mem_sSamp hs), hlist, ?_, ?_⟩
  · intro s hs b hb x hx
    have hb := h.1 b hb
    rw [mem_sSamp hs, mem_dCells, piece_lt hs] at hx
    simp only [dCells, Finset.mem_product, Finset.mem_Icc]
    rw [leavesUnder_root t, Finset.mem_range]
    have := hx.2.2
    exact ⟨hx.1, Nat.zero_le _, by omega⟩
  · intro s hs v
    rw [← hlist s hs (fun X => ∑ x ∈ X, v x) (by simp)]
    exact (cellCover_cuts t (sSample_cover t hs h) hn).sum v

theorem s_pieces (hc : 0 < c) (r : Rect) : Sampled c (fun s (x : Nat × Nat) => (c * x.1 + s, x.2))
    (dCells (leaves * c) (finerTree c leaves parents) (leafPieces c leaves r)) (fun _ => dCells leaves parents r) := by
  refine s_sampled hc (fun s hs x => ?_)
  rw [mem_dCells, mem_dCells, piece_lt hs]
  refine and_congr_right (fun hl => ?_)
  unfold Rect.Has leafPieces
  rw [finer_under_new ((piece_lt hs).mpr hl), piece_div hs]

theorem finerS_piece {V : Nat → Nat × Nat → ℝ} {k s : Nat} {x : Nat × Nat} (hs : s < c) :
    finerS c V k (c * x.1 + s, x.2) = V k x / c := by
  unfold finerS
  rw [piece_div hs]

/-- Numbers of the corresponding decisions: at an old leaf the finer hierarchy has one more, to take the pieces. -/
def sNum (leaves : Nat) (s : Nat × Nat) (k : Nat) : Nat := if s.1 < leaves then (if k = 0 then 0 else k + 1) else k


theorem s_sim {children children' : List (List Nat)} (hlen : leaves ≤ parents.length)
    (hch : ∀ h, h < parents.length → ¬ h < leaves →
      (children'[leaves * c + h]?).getD [] = ((children[h]?).getD []).map (fun x => leaves * c + x))
    (hok : ∀ h, h < parents.length → ∀ x ∈ (children[h]?).getD [], x < parents.length)
    (hnew : ∀ h, h < leaves → ∃ x l, (children'[leaves * c + h]?).getD [] = x :: l ∧ x < leaves * c) :
    Sim (dDecs leaves children n) (dDecs (leaves * c) children' n) (fun s => (leaves * c + s.1, s.2)) (leafPieces c leaves)
      (sNum leaves) (fun s => s.1 < parents.length ∧ s.2 < n) (fun r => leaves * c ≤ r.node) where
  step := by
    rintro ⟨h, i⟩ hi k e succ hk
    simp only at hi
    have hno : ¬ leaves * c + h < leaves * c := by omega
    rcases dDecs_cases hk with ⟨rfl, rfl, rfl⟩ | ⟨hl, rfl, rfl, rfl⟩ | ⟨d, h1, h2, rfl, rfl, rfl⟩
    · refine ⟨?_, by simp⟩
      have e0 : sNum leaves (h, i) 0 = 0 := by unfold sNum; split <;> simp
      rw [e0]
      rfl
    · refine ⟨?_, by
        intro s' hs'
        obtain ⟨x, hx, rfl⟩ := List.mem_map.mp hs'
        exact ⟨hok h hi.1 x hx, hi.2⟩⟩
      have e1 : sNum leaves (h, i) 1 = 1 := by unfold sNum; rw [if_neg hl]
      rw [e1]
      simp only [dDecs, hno, if_false, List.getElem?_cons_succ, List.cons_append, List.nil_append, List.getElem?_cons_zero, List.map_nil]
      rw [hch h hi.1 hl, List.map_map, List.map_map]
      rfl
    · refine ⟨?_, by simp; omega⟩
      have e1 : sNum leaves (h, i) (d - i + (if h < leaves then 1 else 2)) = d - i + (if leaves * c + h < leaves * c then 1 else 2) := by
        unfold sNum
        rw [if_neg hno]
        by_cases hl : h < leaves
        · simp only [hl, if_true]; rw [if_neg (by omega)]
        · simp only [hl, if_false]
      rw [e1, dDecs_cut h1 h2]
      rfl
  mono := by
    rintro ⟨h, i⟩ _ k l _ _ _ _ hkl
    unfold sNum
    simp only
    split_ifs <;> omega
  inv := by
    rintro ⟨h, i⟩ hi k' e' succ' hk hgood hsol
    simp only at hi hk
    have hno : ¬ leaves * c + h < leaves * c := by omega
    rcases dDecs_cases hk with ⟨rfl, rfl, rfl⟩ | ⟨_, rfl, rfl, rfl⟩ | ⟨d, h1, h2, rfl, rfl, rfl⟩
    · exact ⟨0, [⟨h, i, n - 1⟩], [], rfl, by unfold sNum; split <;> simp⟩
    · by_cases hl : h < leaves
      · exfalso
        obtain ⟨rest, ds, M, hs, hg⟩ := hsol
        obtain ⟨x, l, hx, hxl⟩ := hnew h hl
        rw [hx, List.map_cons, List.cons_append] at hs
        obtain ⟨st, hst⟩ : ∃ st, st = (x, i) :: (l.map (fun c => (c, i)) ++ rest) := ⟨_, rfl⟩
        rw [← hst] at hs
        cases hs with
        | nil => cases hst
        | @cons s rest' k e succ ds L hk2 _ =>
          obtain ⟨rfl, _⟩ := List.cons.inj hst
          rcases dDecs_cases hk2 with ⟨_, rfl, _⟩ | ⟨hxn, _⟩ | ⟨d, _, _, _, rfl, _⟩
          · have := hg ⟨x, i, n - 1⟩ (by simp)
            simp only at this
            omega
          · exact hxn hxl
          · have := hg ⟨x, i, d⟩ (by simp)
            simp only at this
            omega
      · refine ⟨1, [], ((children[h]?).getD []).map (fun c => (c, i)), by simp [dDecs, hl], ?_⟩
        unfold sNum; rw [if_neg hl]
    · refine ⟨d - i + (if h < leaves then 1 else 2), _, _, dDecs_cut h1 h2, ?_⟩
      unfold sNum
      rw [if_neg hno]
      by_cases hl : h < leaves
      · simp only [hl, if_true]; rw [if_neg (by omega)]
      · simp only [hl, if_false]

/-- Rectangles of a partition of the finer data whose pieces all see the same sums are rectangles of old nodes. -/
theorem s_old (t : IsTree leaves parents root) (hc : 1 < c) {V : Nat → Nat × Nat → ℝ}
    (hpos : ∀ h i, h < leaves → i < n → ∃ k < m, 0 < V k (h, i)) (h0 : ∀ k h i, k < m → h < leaves → i < n → 0 ≤ V k (h, i))
    {M : List Rect} (h : CellCover (leaves * c) (finerTree c leaves parents) n M)
    (hs : ∀ r ∈ M, ∀ k < m, ∀ s < c, ∀ t < c, ∑ x ∈ sSamp leaves parents c r s, V k x = ∑ x ∈ sSamp leaves parents c r t, V k x) :
    ∀ r ∈ M, leaves * c ≤ r.node := by
  intro r hr
  by_contra hlt
  have hlt := not_le.mp hlt
  have hb := h.1 r hr
  have hd := div_lt_leaves hlt
  obtain ⟨k, hk, hV⟩ := hpos (r.node / c) r.first hd (by omega)
  have hm := Nat.mod_lt r.node (show 0 < c by omega)
  obtain ⟨s', hs', hne⟩ : ∃ s', s' < c ∧ s' ≠ r.node % c := by
    by_cases h0 : r.node % c = 0
    · exact ⟨1, hc, by omega⟩
    · exact ⟨0, by omega, fun h => h0 h.symm⟩
  have e := hs r hr k hk (r.node % c) hm s' hs'
  have hempty : sSamp leaves parents c r s' = ∅ := by
    rw [Finset.eq_empty_iff_forall_notMem]
    intro x hx
    rw [mem_sSamp hs', mem_dCells] at hx
    have := finer_under_leaf hlt hx.2.1
    rw [← this, Nat.mul_add_mod, Nat.mod_eq_of_lt hs'] at hne
    exact hne rfl
  rw [hempty, Finset.sum_empty] at e
  have hin : ∀ x ∈ sSamp leaves parents c r (r.node % c), x.1 < leaves ∧ x.2 < n := by
    intro x hx
    rw [mem_sSamp hm, mem_dCells, piece_lt hm] at hx
    have := hx.2.2
    exact ⟨hx.1, by omega⟩
  have hz := (Finset.sum_eq_zero_iff_of_nonneg (fun x hx => h0 k x.1 x.2 hk (hin x hx).1 (hin x hx).2)).mp e (r.node / c, r.first) (by
    rw [mem_sSamp hm, mem_dCells, piece_lt hm]
    refine ⟨hd, ?_⟩
    unfold Rect.Has
    rw [Nat.div_add_mod]
    exact ⟨.self, le_refl _, hb.2.1⟩)
  linarith

end Lp

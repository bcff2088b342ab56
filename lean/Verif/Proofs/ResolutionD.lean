import Verif.Proofs.Resolution

/-!
# Finer time slices: spatiotemporal data
-/

namespace Lp
open Spec
open scoped BigOperators
variable {c n m leaves : Nat} {parents : List Int} {md : HMeta}

/-- Sample number `s` of a rectangle, if not empty. -/
def dSample (c s : Nat) (r : Rect) : Option Rect :=
  if firstFrom c s r.first < firstFrom c s (r.last + 1) then
    some ⟨r.node, firstFrom c s r.first, firstFrom c s (r.last + 1) - 1⟩
  else none

theorem dSample_cover {s : Nat} (hs : s < c) {M : List Rect} (h : CellCover leaves parents (n * c) M) :
    CellCover leaves parents n (M.filterMap (dSample c s)) := by
  classical
  constructor
  · intro r hr
    obtain ⟨b, hb, e⟩ := List.mem_filterMap.mp hr
    have hb := h.1 b hb
    unfold dSample at e
    split at e
    · rename_i hlt
      obtain rfl := Option.some.inj e
      have : firstFrom c s (b.last + 1) ≤ firstFrom c s (n * c) := firstFrom_mono (by omega)
      rw [firstFrom_mul hs] at this
      exact ⟨hb.1, by show firstFrom c s b.first ≤ firstFrom c s (b.last + 1) - 1; omega, by show firstFrom c s (b.last + 1) - 1 < n; omega⟩
    · cases e
  · intro l t hl ht
    have hct : c * t + s < n * c := by
      have := Nat.mul_le_mul_left c (show t + 1 ≤ n by omega)
      rw [Nat.mul_add, Nat.mul_comm c n] at this
      omega
    have := h.2 l (c * t + s) hl hct
    rw [exactlyOne_countP] at this ⊢
    rw [List.countP_filterMap, ← this]
    apply List.countP_congr
    intro r _
    unfold dSample
    split
    · rename_i hlt
      rw [Option.map_some, Option.getD_some, decide_eq_true_eq, decide_eq_true_eq]
      show Under parents r.node l ∧ firstFrom c s r.first ≤ t ∧ t ≤ firstFrom c s (r.last + 1) - 1 ↔
        Under parents r.node l ∧ r.first ≤ c * t + s ∧ c * t + s ≤ r.last
      rw [firstFrom_le hs, ← Nat.lt_add_one_iff (m := t), Nat.sub_add_cancel (by omega), lt_firstFrom hs, Nat.lt_add_one_iff]
    · rename_i hlt
      rw [Option.map_none, Option.getD_none, decide_eq_true_eq]
      refine ⟨fun h => by simp at h, ?_⟩
      rintro ⟨_, h1, h2⟩
      exfalso
      rw [← firstFrom_le hs] at h1
      rw [← Nat.lt_add_one_iff, ← lt_firstFrom hs] at h2
      omega

theorem dSample_coarse {s : Nat} {M : List Rect} (h : CoarseFirst parents M) : CoarseFirst parents (M.filterMap (dSample c s)) := by
  intro r' hr' t' ht' hne hu
  obtain ⟨r, hr, e⟩ := List.mem_filterMap.mp hr'
  obtain ⟨t, ht, e'⟩ := List.mem_filterMap.mp ht'
  unfold dSample at e e'
  split at e
  · split at e'
    · obtain rfl := Option.some.inj e
      obtain rfl := Option.some.inj e'
      have := h r hr t ht hne hu
      have : firstFrom c s (r.last + 1) ≤ firstFrom c s t.first := firstFrom_mono (by omega)
      show firstFrom c s (r.last + 1) - 1 < firstFrom c s t.first
      omega
    · cases e'
  · cases e

/-- Cells whose piece number `s` is in the rectangle. -/
noncomputable def dSamp (leaves : Nat) (parents : List Int) (c : Nat) (r : Rect) (s : Nat) : Finset (Nat × Nat) :=
  leavesUnder leaves parents r.node ×ˢ oSamp c (r.first, r.last) s

theorem mem_dSamp {r : Rect} {s : Nat} {x : Nat × Nat} (hs : s < c) :
    x ∈ dSamp leaves parents c r s ↔ (x.1, c * x.2 + s) ∈ dCells leaves parents r := by
  unfold dSamp dCells
  rw [Finset.mem_product, Finset.mem_product, mem_oSamp hs]
  rfl

theorem d_sampled (hc : 0 < c) {I : Finset (Nat × Nat)} {samp : Nat → Finset (Nat × Nat)}
    (h : ∀ s < c, ∀ x, x ∈ samp s ↔ (x.1, c * x.2 + s) ∈ I) :
    Sampled c (fun s (x : Nat × Nat) => (x.1, c * x.2 + s)) I samp :=
  .of (fun y => y.2 % c) (fun y => (y.1, y.2 / c)) (fun y => ⟨Nat.mod_lt _ hc, by rw [Nat.div_add_mod]⟩)
    (fun s hs x => ⟨by show (c * x.2 + s) % c = s; rw [Nat.mul_add_mod, Nat.mod_eq_of_lt hs],
      by show (x.1, (c * x.2 + s) / c) = x; rw [Nat.mul_add_div hc, Nat.div_eq_of_lt hs, Nat.add_zero]⟩) h

theorem d_samples (t : IsTree leaves parents md.root) (hc : 0 < c) (hn : 0 < n) {M : List Rect}
    (h : CellCover leaves parents (n * c) M) :
    Samples c (fun s (x : Nat × Nat) => (x.1, c * x.2 + s)) (dCells leaves parents) (dCells leaves parents) (dSamp leaves parents c) M
      (fun s => M.filterMap (dSample c s)) (dCells leaves parents ⟨md.root, 0, n - 1⟩) := by
  have hlist : ∀ s < c, ∀ f : Finset (Nat × Nat) → ℝ, f ∅ = 0 →
      ((M.filterMap (dSample c s)).map (fun a => f (dCells leaves parents a))).sum =
        (M.map (fun b => f (dSamp leaves parents c b s))).sum := by
    intro s _ f h0
    refine filterMap_sum (samp := fun b => dSamp leaves parents c b s) ?_ ?_ f h0 M
    · intro b a hb
      unfold dSample at hb
      split at hb
      · obtain rfl := Option.some.inj hb
        ext x
        simp only [dCells, dSamp, oSamp, Finset.mem_product, Finset.mem_Icc, Finset.mem_Ico]
        constructor
        · rintro ⟨h1, h2⟩; exact ⟨h1, by omega⟩
        · rintro ⟨h1, h2⟩; exact ⟨h1, by omega⟩
      · cases hb
    · intro b hb
      unfold dSample at hb
      split at hb
      · cases hb
      · rename_i hlt
        unfold dSamp oSamp
        rw [Finset.Ico_eq_empty hlt, Finset.product_empty]
  refine ⟨fun b _ => d_sampled hc (fun s hs x => mem_dSamp hs), hlist, ?_, ?_⟩
  · intro s hs b hb x hx
    have hb := h.1 b hb
    rw [mem_dSamp hs] at hx
    simp only [dCells, Finset.mem_product, Finset.mem_Icc] at hx ⊢
    rw [leavesUnder_root t, Finset.mem_range]
    refine ⟨(mem_leavesUnder.mp hx.1).1, Nat.zero_le _, ?_⟩
    have : c * x.2 < c * n := by rw [Nat.mul_comm c n]; omega
    have := Nat.lt_of_mul_lt_mul_left this
    omega
  · intro s hs v
    rw [← hlist s hs (fun X => ∑ x ∈ X, v x) (by simp)]
    exact (cellCover_cuts t (dSample_cover hs h) hn).sum v

theorem d_pieces (hc : 0 < c) (r : Rect) : Sampled c (fun s (x : Nat × Nat) => (x.1, c * x.2 + s)) (dCells leaves parents (slicePiecesD c r))
    (fun _ => dCells leaves parents r) := by
  refine d_sampled hc (fun s hs x => ?_)
  simp only [dCells, slicePiecesD, Finset.mem_product, Finset.mem_Icc]
  refine and_congr_right (fun _ => ?_)
  constructor
  · rintro ⟨h1, h2⟩
    have := Nat.mul_le_mul_left c h1
    have := Nat.mul_le_mul_left c h2
    omega
  · rintro ⟨h1, h2⟩
    constructor
    · by_contra hlt
      have := Nat.mul_le_mul_left c (show x.2 + 1 ≤ r.first by omega)
      rw [Nat.mul_add] at this
      omega
    · by_contra hlt
      have := Nat.mul_le_mul_left c (show r.last + 1 ≤ x.2 by omega)
      rw [Nat.mul_add] at this
      omega

theorem finerD_piece (hc : 0 < c) {V : Nat → Nat × Nat → ℝ} {k s : Nat} {x : Nat × Nat} (hs : s < c) :
    finerD c V k (x.1, c * x.2 + s) = V k x / c := by
  unfold finerD
  rw [Nat.mul_add_div hc, Nat.div_eq_of_lt hs, Nat.add_zero]

/-- Both ends of the rectangle are ends of slices. -/
def OnSlicesD (c : Nat) (r : Rect) : Prop := OnSlices c (r.first, r.last)

/-- Numbers of the corresponding decisions. -/
def dNum (leaves c : Nat) (s : Nat × Nat) (k : Nat) : Nat :=
  if s.1 < leaves then c * k else if k ≤ 1 then k else c * (k - 1) + 1

theorem dDecs_prefix {children : List (List Nat)} {h i e : Nat} (h1 : i ≤ e) (h2 : e < n - 1) :
    (dDecs leaves children n (h, i))[e - i + (if h < leaves then 1 else 2)]? = some ([⟨h, i, e⟩], [(h, e + 1)]) := by
  have hr : (List.range' i (n - 1 - i))[e - i]? = some e := by
    rw [List.getElem?_range' (by omega)]; simp; omega
  unfold dDecs
  by_cases hl : h < leaves
  · simp [hl, hr]
  · simp [hl, hr]

theorem d_sim (hc : 0 < c) (children : List (List Nat)) :
    Sim (dDecs leaves children n) (dDecs leaves children (n * c)) (fun s => (s.1, c * s.2)) (slicePiecesD c) (dNum leaves c)
      (fun s => s.2 < n) (OnSlicesD c) where
  step := by
    rintro ⟨h, i⟩ hi k e succ hk
    simp only at hi
    rcases dDecs_cases hk with ⟨rfl, rfl, rfl⟩ | ⟨hl, rfl, rfl, rfl⟩ | ⟨d, h1, h2, rfl, rfl, rfl⟩
    · refine ⟨?_, by simp⟩
      obtain ⟨r, rfl⟩ : ∃ r, n = r + 1 := ⟨n - 1, by omega⟩
      have e0 : dNum leaves c (h, i) 0 = 0 := by unfold dNum; split <;> simp
      rw [e0]
      simp only [dDecs, List.getElem?_cons_zero, List.map_cons, List.map_nil, slicePiecesD]
      congr 5
      rw [Nat.add_mul, Nat.mul_comm r c]
      simp only [Nat.add_sub_cancel]
      omega
    · refine ⟨?_, by simpa using fun _ _ => hi⟩
      have e1 : dNum leaves c (h, i) 1 = 1 := by unfold dNum; rw [if_neg hl, if_pos (by omega)]
      rw [e1]
      simp [dDecs, hl]
    · refine ⟨?_, by simp; omega⟩
      obtain ⟨t, rfl⟩ := Nat.exists_eq_add_of_le h1
      obtain ⟨r, rfl⟩ : ∃ r, n = i + t + 2 + r := ⟨n - (i + t + 2), by omega⟩
      have e1 : dNum leaves c (h, i) (i + t - i + (if h < leaves then 1 else 2)) =
          (c * (i + t) + (c - 1)) - c * i + (if h < leaves then 1 else 2) := by
        unfold dNum
        by_cases hl : h < leaves
        · simp only [hl, if_true]
          rw [Nat.add_sub_cancel_left, Nat.mul_add, Nat.mul_add]; omega
        · simp only [hl, if_false]
          rw [if_neg (by omega), show i + t - i + 2 - 1 = t + 1 by omega, Nat.mul_add, Nat.mul_add]; omega
      rw [e1, dDecs_prefix]
      · simp only [List.map_cons, List.map_nil, slicePiecesD]
        congr 4
        rw [Nat.mul_add c (i + t) 1, Nat.mul_one, Nat.add_assoc, Nat.sub_add_cancel hc]
      · show c * i ≤ c * (i + t) + (c - 1)
        rw [Nat.mul_add]; omega
      · have : (i + t + 2 + r) * c = c * (i + t) + 2 * c + r * c := by ring
        rw [this]
        omega
  mono := by
    rintro ⟨h, i⟩ _ k l _ _ _ _ hkl
    unfold dNum
    by_cases hl : h < leaves
    · simp only [hl, if_true]; exact Nat.mul_lt_mul_of_pos_left hkl hc
    · simp only [hl, if_false]
      by_cases hk : k ≤ 1
      · by_cases hl' : l ≤ 1
        · rw [if_pos hk, if_pos hl']; exact hkl
        · rw [if_pos hk, if_neg hl']
          have := Nat.mul_le_mul_left c (show 1 ≤ l - 1 by omega)
          omega
      · rw [if_neg hk, if_neg (by omega)]
        have := Nat.mul_lt_mul_of_pos_left (show k - 1 < l - 1 by omega) hc
        omega
  inv := by
    rintro ⟨h, i⟩ hi k' e' succ' hk hgood _
    simp only at hi
    rcases dDecs_cases hk with ⟨rfl, rfl, rfl⟩ | ⟨hl, rfl, rfl, rfl⟩ | ⟨d, h1, h2, rfl, rfl, rfl⟩
    · exact ⟨0, [⟨h, i, n - 1⟩], [], rfl, by unfold dNum; split <;> simp⟩
    · refine ⟨1, [], ((children[h]?).getD []).map (fun c => (c, i)), by simp [dDecs, hl], ?_⟩
      unfold dNum; rw [if_neg hl, if_pos (by omega)]
    · obtain ⟨t, ht⟩ := (hgood ⟨h, c * i, d⟩ (by simp)).2
      simp only at ht h1
      show ∃ k e succ, _ ∧ _ = d - c * i + _
      have h4 : i < t := by
        apply Nat.lt_of_mul_lt_mul_left (a := c)
        omega
      have h5 : t < n := by
        apply Nat.lt_of_mul_lt_mul_left (a := c)
        rw [Nat.mul_comm c n]; omega
      refine ⟨t - 1 - i + (if h < leaves then 1 else 2), _, _, dDecs_prefix (by omega) (by omega), ?_⟩
      have hm : c * (t - i) = c * t - c * i := Nat.mul_sub c t i
      unfold dNum
      by_cases hl : h < leaves
      · simp only [hl, if_true]
        rw [show t - 1 - i + 1 = t - i by omega]
        omega
      · simp only [hl, if_false]
        rw [if_neg (by omega), show t - 1 - i + 2 - 1 = t - i by omega]
        omega

theorem d_onSlices (t : IsTree leaves parents md.root) (hc : 0 < c) {V : Nat → Nat × Nat → ℝ}
    (h0 : ∀ k h i, k < m → h < leaves → i < n → 0 ≤ V k (h, i))
    (hpos : ∀ h i, h < leaves → i < n → ∃ k < m, 0 < V k (h, i)) {M : List Rect} (h : CellCover leaves parents (n * c) M)
    (hs : ∀ r ∈ M, ∀ k < m, ∀ s < c, ∀ t < c, ∑ x ∈ dSamp leaves parents c r s, V k x = ∑ x ∈ dSamp leaves parents c r t, V k x) :
    ∀ r ∈ M, OnSlicesD c r := by
  classical
  -- the end of a rectangle that begins with a slice
  have hend : ∀ r ∈ M, c ∣ r.first → c ∣ r.last + 1 := by
    rintro ⟨h', f, e⟩ hr ha
    have hb := h.1 _ hr
    simp only at ha hb ⊢
    by_contra hnd
    obtain ⟨i, rfl⟩ := ha
    obtain ⟨l, hl, hu⟩ := t.exists_leaf hb.1
    obtain ⟨j, hj⟩ : ∃ j, j = (e + 1) / c := ⟨_, rfl⟩
    have hdm := Nat.div_add_mod (e + 1) c
    rw [← hj] at hdm
    have hm := Nat.mod_lt (e + 1) hc
    have hm0 : (e + 1) % c ≠ 0 := fun h => hnd (Nat.dvd_of_mod_eq_zero h)
    have hjn : j < n := by
      apply Nat.lt_of_mul_lt_mul_left (a := c)
      rw [Nat.mul_comm c n]; omega
    obtain ⟨k, hk, hVk⟩ := hpos l j hl hjn
    have e0 := hs _ hr k hk 0 hc (c - 1) (by omega)
    have hij : i ≤ j := by
      by_contra hlt
      have := Nat.mul_le_mul_left c (show j + 1 ≤ i by omega)
      rw [Nat.mul_add] at this
      omega
    have hsub : insert (l, j) (dSamp leaves parents c ⟨h', c * i, e⟩ (c - 1)) ⊆ dSamp leaves parents c ⟨h', c * i, e⟩ 0 := by
      intro x hx
      rw [Finset.mem_insert] at hx
      rw [mem_dSamp hc]
      simp only [dCells, Finset.mem_product, Finset.mem_Icc]
      rcases hx with rfl | hx
      · have := Nat.mul_le_mul_left c hij
        exact ⟨mem_leavesUnder.mpr ⟨hl, hu⟩, by show c * i ≤ c * j + 0 ∧ c * j + 0 ≤ e; omega⟩
      · rw [mem_dSamp (by omega)] at hx
        simp only [dCells, Finset.mem_product, Finset.mem_Icc] at hx
        refine ⟨hx.1, ?_, by omega⟩
        by_contra hlt
        have h9 : c * x.2 < c * i := by omega
        have := Nat.mul_le_mul_left c (Nat.lt_of_mul_lt_mul_left h9)
        rw [Nat.succ_eq_add_one, Nat.mul_add] at this
        omega
    have hnot : (l, j) ∉ dSamp leaves parents c ⟨h', c * i, e⟩ (c - 1) := by
      rw [mem_dSamp (by omega)]
      simp only [dCells, Finset.mem_product, Finset.mem_Icc]
      omega
    have hin : ∀ x ∈ dSamp leaves parents c ⟨h', c * i, e⟩ 0, x.1 < leaves ∧ x.2 < n := by
      intro x hx
      rw [mem_dSamp hc] at hx
      simp only [dCells, Finset.mem_product, Finset.mem_Icc] at hx
      refine ⟨(mem_leavesUnder.mp hx.1).1, ?_⟩
      apply Nat.lt_of_mul_lt_mul_left (a := c)
      rw [Nat.mul_comm c n]; omega
    have hle := Finset.sum_le_sum_of_subset_of_nonneg (f := V k) hsub
      (fun x hx _ => h0 k x.1 x.2 hk (hin x hx).1 (hin x hx).2)
    rw [Finset.sum_insert hnot] at hle
    linarith
  -- where rectangles begin
  have hbegin : ∀ (f : Nat), ∀ r ∈ M, r.first = f → c ∣ f := by
    intro f
    induction f using Nat.strong_induction_on with
    | _ f ih =>
      intro r hr hf
      rcases Nat.eq_zero_or_pos f with rfl | hfp
      · exact Dvd.intro 0 (by simp)
      · have hb := h.1 r hr
        obtain ⟨l, hl, hu⟩ := t.exists_leaf hb.1
        obtain ⟨k1, ⟨r1, hk1, hr1⟩, _⟩ := h.2 l (f - 1) hl (by omega)
        obtain ⟨k2, _, huniq⟩ := h.2 l f hl (by omega)
        obtain ⟨kr, hkr⟩ := List.getElem?_of_mem hr
        have hr1m := List.mem_of_getElem? hk1
        have hlast : r1.last = f - 1 := by
          by_contra hne
          have h1 := huniq k1 ⟨r1, hk1, hr1.1, by have := hr1.2; omega, by have := hr1.2; omega⟩
          have h2 := huniq kr ⟨r, hkr, hu, by omega, by omega⟩
          rw [h1, ← h2, hkr] at hk1
          obtain rfl := Option.some.inj hk1
          have := hr1.2.1
          omega
        have hd := hend r1 hr1m (ih r1.first (by have := hr1.2.1; omega) r1 hr1m rfl)
        rwa [hlast, Nat.sub_add_cancel hfp] at hd
  exact fun r hr => ⟨hbegin r.first r hr rfl, hend r hr (hbegin r.first r hr rfl)⟩

/-- The best partitions of the data and of the finer data. -/
theorem dBest_finer {F : Type} [FloatP F ℝ] (r : RightMeta leaves parents md) (hc : 0 < c) (hn : 0 < n) (hnc : n * c ≤ 65535)
    {V : Nat → Nat × Nat → ℝ} (h0 : ∀ k h i, k < m → h < leaves → i < n → 0 ≤ V k (h, i)) {q q' : List (UTM (Quality ℝ))}
    (hq : MRep q parents.length n (fun h i j => entQ m V (dCells leaves parents ⟨h, i, j⟩)))
    (hq' : MRep q' parents.length (n * c) (fun h i j => entQ m (finerD c V) (dCells leaves parents ⟨h, i, j⟩)))
    (p : F) (ha : (0 : ℝ) ≤ wGain p) (hb : (0 : ℝ) ≤ wLoss p) :
    ∃ (P P' : DPartition F ℝ) (L L' : List Rect), dBestPartition q md p = .ok P ∧ dBestPartition q' md p = .ok P' ∧
      P.parts = L.map (dPartOf md (fun h i j => entQ m V (dCells leaves parents ⟨h, i, j⟩))) ∧
      P'.parts = L'.map (dPartOf md (fun h i j => entQ m (finerD c V) (dCells leaves parents ⟨h, i, j⟩))) ∧
      P'.quality = ⟨P.quality.gain + total m V (Finset.range leaves ×ˢ Finset.range n) * Real.logb 2 c, P.quality.loss⟩ ∧
      ((∀ h i, h < leaves → i < n → ∃ k < m, 0 < V k (h, i)) → L' = L.map (slicePiecesD c)) := by
  have hn1 : n ≤ 65535 := le_trans (Nat.le_mul_of_pos_right n hc) hnc
  obtain ⟨P, ds, L, h1, h2, h3, _, h5⟩ := dBest_first r hq hn hn1 p
  obtain ⟨P', ds', L', g1, g2, g3, _, g5⟩ := dBest_first r hq' (Nat.mul_pos hn hc) hnc p
  refine ⟨P, P', L, L', h1, g1, h2, g2, ?_⟩
  have t := r.tree
  have hU : dCells leaves parents ⟨md.root, 0, n - 1⟩ = Finset.range leaves ×ˢ Finset.range n := by
    ext x
    simp only [dCells, Finset.mem_product, leavesUnder_root t, Finset.mem_Icc, Finset.mem_range]
    omega
  have hw : ∀ k < m, ∀ s < c, ∀ x ∈ dCells leaves parents ⟨md.root, 0, n - 1⟩, finerD c V k (x.1, c * x.2 + s) = V k x / c :=
    fun k _ s hs x _ => finerD_piece hc hs
  have h0' : ∀ k < m, ∀ x ∈ dCells leaves parents ⟨md.root, 0, n - 1⟩, 0 ≤ V k x := by
    intro k hk x hx
    rw [hU, Finset.mem_product, Finset.mem_range, Finset.mem_range] at hx
    exact h0 k x.1 x.2 hk hx.1 hx.2
  have hok : ∀ s ∈ [(md.root, 0)], s.2 < n := by simpa using hn
  have hst : [(md.root, 0)].map (fun s : Nat × Nat => (s.1, c * s.2)) = [(md.root, 0)] := by simp
  have hup : ∀ ds L, Sol (dDecs leaves md.children n) [(md.root, 0)] ds L →
      gainOf (fun x => entQ m (finerD c V) (dCells leaves parents x)) (L.map (slicePiecesD c)) =
        gainOf (fun x => entQ m V (dCells leaves parents x)) L + total m V (dCells leaves parents ⟨md.root, 0, n - 1⟩) * Real.logb 2 c ∧
      lossOf (fun x => entQ m (finerD c V) (dCells leaves parents x)) (L.map (slicePiecesD c)) =
        lossOf (fun x => entQ m V (dCells leaves parents x)) L := by
    intro ds L hs
    have hcut := cellCover_cuts t (dSol_cellCover r hn hs) hn
    exact pieces_sum hcut (fun I hI => entQ_pieces hc (d_pieces hc I) (fun k hk s hs x hx => hw k hk s hs x (hcut.sub I hI hx))
        (fun k hk x hx => h0' k hk x (hcut.sub I hI hx)))
  have hsam : ∀ ds M, Sol (dDecs leaves md.children (n * c)) ([(md.root, 0)].map (fun s : Nat × Nat => (s.1, c * s.2))) ds M →
      CellCover leaves parents (n * c) M ∧ CoarseFirst parents M := by
    intro ds M hs
    rw [hst] at hs
    exact ⟨dSol_cellCover r (Nat.mul_pos hn hc) hs, dSol_coarse r (Nat.mul_pos hn hc) hs⟩
  obtain ⟨⟨e1, s1⟩, s2, s3⟩ := h5.stretch (d_sim hc md.children) hok ha hb hc hup (fun M s => M.filterMap (dSample c s)) (by
    intro ds M hs
    obtain ⟨ht, hf⟩ := hsam ds M hs
    have hS := d_samples t hc hn ht
    refine ⟨?_, (hS.gain hc hw h0').1, hS.loss hc hw h0' ?_⟩
    · intro s hs
      exact coarse_dSol r hn (dSample_cover hs ht) (dSample_coarse hf)
    · intro k hk b hb y hy
      have := ht.1 b hb
      simp only [dCells, Finset.mem_product, Finset.mem_Icc] at hy
      unfold finerD
      refine div_nonneg (h0 k _ _ hk (mem_leavesUnder.mp hy.1).1 ?_) (by positivity)
      rw [Nat.div_lt_iff_lt_mul hc]; omega)
  rw [hst] at s1 s2 s3
  obtain ⟨q1, q2⟩ := g5.quality_eq s1 s2
  obtain ⟨u1, u2⟩ := hup ds L h5.mem
  refine ⟨?_, fun hpos => ?_⟩
  · rw [g3, h3, ← hU]
    exact congrArg₂ Quality.mk (q1.trans u1) (q2.trans u2)
  · obtain ⟨e2, s4⟩ := s3 (fun e M hM heq => by
      rw [← hst] at hM
      obtain ⟨ht, _⟩ := hsam e M hM
      exact d_onSlices t hc h0 hpos ht (((d_samples t hc hn ht).gain hc hw h0').2 heq))
    exact g5.unique s4

end Lp

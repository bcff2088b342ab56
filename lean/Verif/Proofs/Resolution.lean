import Verif.Proofs.Simulate
import Verif.Proofs.CoarseFirst
import Verif.Spec.Stretch

/-!
# Finer time slices
-/

namespace Lp
open Spec
open scoped BigOperators
variable {c n m : Nat}

/-! ### Samples -/

theorem Sampled.of {ι J : Type} {pc : Nat → ι → J} {I : Finset J} {samp : Nat → Finset ι} (num : J → Nat) (own : J → ι)
    (h1 : ∀ y, num y < c ∧ pc (num y) (own y) = y) (h2 : ∀ s < c, ∀ x, num (pc s x) = s ∧ own (pc s x) = x)
    (h3 : ∀ s < c, ∀ x, x ∈ samp s ↔ pc s x ∈ I) : Sampled c pc I samp := by
  intro f
  rw [Finset.sum_sigma']
  refine Finset.sum_bij' (fun y _ => ⟨num y, own y⟩) (fun z _ => pc z.1 z.2) ?_ ?_ ?_ ?_ ?_
  · intro y hy
    rw [Finset.mem_sigma, Finset.mem_range]
    refine ⟨(h1 y).1, ?_⟩
    rw [h3 _ (h1 y).1, (h1 y).2]
    exact hy
  · intro z hz
    rw [Finset.mem_sigma, Finset.mem_range] at hz
    exact (h3 _ hz.1 _).mp hz.2
  · intro y _; exact (h1 y).2
  · intro z hz
    rw [Finset.mem_sigma, Finset.mem_range] at hz
    obtain ⟨e1, e2⟩ := h2 _ hz.1 z.2
    exact Sigma.ext e1 (by rw [heq_iff_eq]; exact e2)
  · intro y _; rw [(h1 y).2]

/-- First slice whose piece number `s` comes at or after `a`. -/
def firstFrom (c s a : Nat) : Nat := (a + (c - 1 - s)) / c

theorem firstFrom_le {s a x : Nat} (hs : s < c) : firstFrom c s a ≤ x ↔ a ≤ c * x + s := by
  unfold firstFrom
  rw [Nat.div_le_iff_le_mul (by omega), Nat.mul_comm x c]
  omega

theorem lt_firstFrom {s a x : Nat} (hs : s < c) : x < firstFrom c s a ↔ c * x + s < a := by
  rw [← not_le, firstFrom_le hs, not_le]

theorem firstFrom_zero {s : Nat} (hs : s < c) : firstFrom c s 0 = 0 := Nat.le_zero.mp ((firstFrom_le hs).mpr (by omega))

theorem firstFrom_mul {s : Nat} (hs : s < c) : firstFrom c s (n * c) = n := by
  unfold firstFrom
  rw [Nat.mul_comm n c, Nat.mul_add_div (by omega), Nat.div_eq_of_lt (by omega), Nat.add_zero]

theorem firstFrom_mono {s a b : Nat} (h : a ≤ b) : firstFrom c s a ≤ firstFrom c s b :=
  Nat.div_le_div_right (by omega)

theorem filterMap_sum {A B ι : Type} {g : B → Option A} {cellsA : A → Finset ι} {samp : B → Finset ι}
    (h1 : ∀ b a, g b = some a → cellsA a = samp b) (h2 : ∀ b, g b = none → samp b = ∅) (f : Finset ι → ℝ) (h0 : f ∅ = 0) (M : List B) :
    ((M.filterMap g).map (fun a => f (cellsA a))).sum = (M.map (fun b => f (samp b))).sum := by
  induction M with
  | nil => rfl
  | cons b M ih =>
    cases hg : g b with
    | none =>
      rw [List.filterMap_cons_none hg, List.map_cons, List.sum_cons, h2 b hg, h0, zero_add, ih]
    | some a =>
      rw [List.filterMap_cons_some hg, List.map_cons, List.map_cons, List.sum_cons, List.sum_cons, h1 b a hg, ih]

theorem Cuts.sum {A ι : Type} {cells : A → Finset ι} {L : List A} {U : Finset ι} (h : Cuts cells L U) (v : ι → ℝ) :
    (L.map (fun a => ∑ x ∈ cells a, v x)).sum = ∑ x ∈ U, v x := by
  classical
  have e1 : (L.map (fun a => ∑ x ∈ cells a, v x)).sum = ∑ i : Fin L.length, ∑ x ∈ cells L[i], v x := by
    rw [← Fin.sum_univ_fun_getElem L (fun a => ∑ x ∈ cells a, v x)]
    rfl
  rw [e1, ← Finset.sum_biUnion (fun i _ j _ hij => h.disj hij)]
  congr 1
  ext x
  simp only [Finset.mem_biUnion, Finset.mem_univ, true_and]
  constructor
  · rintro ⟨i, hi⟩; exact h.sub _ (List.getElem_mem _) hi
  · intro hx
    obtain ⟨i, hi, _⟩ := exactlyOne_fin (h.one x hx)
    exact ⟨i, hi⟩

theorem pieces_sum {A B ι J : Type} {cells : A → Finset ι} {cells' : B → Finset J} {g : A → B} {L : List A} {U : Finset ι} {V : Nat → ι → ℝ}
    {w : Nat → J → ℝ} (h : Cuts cells L U)
    (e : ∀ I ∈ L, entQ m w (cells' (g I)) =
      ⟨gainSeries m (cells I) V + total m V (cells I) * Real.logb 2 c, lossSeries m (cells I) V⟩) :
    gainOf (fun I => entQ m w (cells' I)) (L.map g) = gainOf (fun I => entQ m V (cells I)) L + total m V U * Real.logb 2 c ∧
    lossOf (fun I => entQ m w (cells' I)) (L.map g) = lossOf (fun I => entQ m V (cells I)) L := by
  have ht : (L.map (fun I => total m V (cells I))).sum = total m V U := by
    unfold total
    rw [list_sum_comm]
    exact Finset.sum_congr rfl (fun k _ => h.sum (V k))
  constructor
  · unfold gainOf
    rw [List.map_map, List.map_congr_left (g := fun I => (entQ m V (cells I)).gain + total m V (cells I) * Real.logb 2 c)
      (fun I hI => by show (entQ m w (cells' (g I))).gain = _; rw [e I hI]; rfl), List.sum_map_add, List.sum_map_mul_right, ht]
  · unfold lossOf
    rw [List.map_map, List.map_congr_left (g := fun I => (entQ m V (cells I)).loss)
      (fun I hI => by show (entQ m w (cells' (g I))).loss = _; rw [e I hI]; rfl)]

/-! ### Ordered -/

/-- Sample number `s` of an interval, if not empty. -/
def oSample (c s : Nat) (I : Nat × Nat) : Option (Nat × Nat) :=
  if firstFrom c s I.1 < firstFrom c s (I.2 + 1) then some (firstFrom c s I.1, firstFrom c s (I.2 + 1) - 1) else none

theorem oSample_tiles {s a b : Nat} {M : List (Nat × Nat)} (h : Tiles a b M) :
    Tiles (firstFrom c s a) (firstFrom c s b) (M.filterMap (oSample c s)) := by
  induction h with
  | nil a => exact .nil _
  | @cons a b e M h1 h2 h3 ih =>
    have hle := h3.le
    by_cases hlt : firstFrom c s a < firstFrom c s (e + 1)
    · rw [List.filterMap_cons_some (by unfold oSample; rw [if_pos hlt])]
      have : firstFrom c s (e + 1) ≤ firstFrom c s b := firstFrom_mono (by omega)
      refine .cons ?_ ?_ ?_
      · show firstFrom c s a ≤ firstFrom c s (e + 1) - 1; omega
      · show firstFrom c s (e + 1) - 1 < _; omega
      · show Tiles (firstFrom c s (e + 1) - 1 + 1) _ _
        rwa [Nat.sub_add_cancel (by omega)]
    · rw [List.filterMap_cons_none (by unfold oSample; rw [if_neg hlt])]
      have : firstFrom c s a ≤ firstFrom c s (e + 1) := firstFrom_mono (by omega)
      rw [show firstFrom c s a = firstFrom c s (e + 1) by omega]
      exact ih

/-- Slices whose piece number `s` is in the interval. -/
def oSamp (c : Nat) (I : Nat × Nat) (s : Nat) : Finset Nat := Finset.Ico (firstFrom c s I.1) (firstFrom c s (I.2 + 1))

theorem mem_oSamp {I : Nat × Nat} {s x : Nat} (hs : s < c) : x ∈ oSamp c I s ↔ c * x + s ∈ oCells I := by
  unfold oSamp oCells
  rw [Finset.mem_Ico, Finset.mem_Icc, firstFrom_le hs, lt_firstFrom hs, Nat.lt_add_one_iff]

theorem o_sampled (hc : 0 < c) {I : Finset Nat} {samp : Nat → Finset Nat} (h : ∀ s < c, ∀ x, x ∈ samp s ↔ c * x + s ∈ I) :
    Sampled c (fun s x => c * x + s) I samp :=
  .of (fun y => y % c) (fun y => y / c) (fun y => ⟨Nat.mod_lt _ hc, Nat.div_add_mod y c⟩)
    (fun s hs x => ⟨by rw [Nat.mul_add_mod, Nat.mod_eq_of_lt hs], by rw [Nat.mul_add_div hc, Nat.div_eq_of_lt hs, Nat.add_zero]⟩) h

theorem o_samples (hc : 0 < c) (hn : 0 < n) {M : List (Nat × Nat)} (h : Tiles 0 (n * c) M) :
    Samples c (fun s x => c * x + s) oCells oCells (oSamp c) M (fun s => M.filterMap (oSample c s)) (oCells (0, n - 1)) := by
  have hL : ∀ s < c, Tiles 0 n (M.filterMap (oSample c s)) := by
    intro s hs
    have := oSample_tiles (c := c) (s := s) h
    rwa [firstFrom_zero hs, firstFrom_mul hs] at this
  have hlist : ∀ s < c, ∀ f : Finset Nat → ℝ, f ∅ = 0 →
      ((M.filterMap (oSample c s)).map (fun a => f (oCells a))).sum = (M.map (fun b => f (oSamp c b s))).sum := by
    intro s _ f h0
    refine filterMap_sum (samp := fun b => oSamp c b s) ?_ ?_ f h0 M
    · intro b a hb
      unfold oSample at hb
      split at hb
      · obtain rfl := Option.some.inj hb
        ext x
        simp only [oCells, oSamp, Finset.mem_Icc, Finset.mem_Ico]
        omega
      · cases hb
    · intro b hb
      unfold oSample at hb
      split at hb
      · cases hb
      · unfold oSamp
        rw [Finset.Ico_eq_empty_iff]; assumption
  refine ⟨fun b _ => o_sampled hc (fun s hs x => mem_oSamp hs), hlist, ?_, ?_⟩
  · intro s hs b hb x hx
    have hb := h.bounds b hb
    rw [mem_oSamp hs] at hx
    simp only [oCells, Finset.mem_Icc] at hx ⊢
    refine ⟨Nat.zero_le _, ?_⟩
    have : c * x < c * n := by rw [Nat.mul_comm c n]; omega
    have := Nat.lt_of_mul_lt_mul_left this
    omega
  · intro s hs v
    rw [← hlist s hs (fun X => ∑ x ∈ X, v x) (by simp)]
    exact (tiles_cuts (hL s hs) hn).sum v

theorem o_pieces (hc : 0 < c) (I : Nat × Nat) : Sampled c (fun s x => c * x + s) (oCells (slicePieces c I)) (fun _ => oCells I) := by
  refine o_sampled hc (fun s hs x => ?_)
  simp only [oCells, slicePieces, Finset.mem_Icc]
  constructor
  · rintro ⟨h1, h2⟩
    have := Nat.mul_le_mul_left c h1
    have := Nat.mul_le_mul_left c h2
    omega
  · rintro ⟨h1, h2⟩
    constructor
    · by_contra hlt
      have := Nat.mul_le_mul_left c (show x + 1 ≤ I.1 by omega)
      rw [Nat.mul_add] at this
      omega
    · by_contra hlt
      have := Nat.mul_le_mul_left c (show I.2 + 1 ≤ x by omega)
      rw [Nat.mul_add] at this
      omega

theorem finer_piece (hc : 0 < c) {V : Nat → Nat → ℝ} {k s x : Nat} (hs : s < c) : finer c V k (c * x + s) = V k x / c := by
  unfold finer
  rw [Nat.mul_add_div hc, Nat.div_eq_of_lt hs, Nat.add_zero]

/-- Both ends of the interval are ends of slices. -/
def OnSlices (c : Nat) (I : Nat × Nat) : Prop := c ∣ I.1 ∧ c ∣ I.2 + 1

theorem oDecs_get {i e : Nat} (h1 : i ≤ e) (h2 : e < n - 1) : (oDecs n i)[e - i + 1]? = some ([(i, e)], [e + 1]) := by
  unfold oDecs
  rw [List.getElem?_cons_succ, List.getElem?_map, List.getElem?_range' (by omega)]
  simp [show i + (e - i) = e by omega]

theorem o_sim (hc : 0 < c) : Sim (oDecs n) (oDecs (n * c)) (fun i => c * i) (slicePieces c) (fun _ k => c * k) (fun i => i < n) (OnSlices c) where
  step := by
    intro i hi k e succ hk
    rcases headRange_get hk with ⟨rfl, h⟩ | ⟨d, rfl, h1, h2, h⟩
    · obtain ⟨rfl, rfl⟩ := Prod.mk.inj h
      refine ⟨?_, by simp⟩
      obtain ⟨r, rfl⟩ : ∃ r, n = r + 1 := ⟨n - 1, by omega⟩
      simp only [oDecs, Nat.mul_zero, List.getElem?_cons_zero, List.map_cons, List.map_nil, slicePieces]
      congr 5
      rw [Nat.add_mul, Nat.mul_comm r c]
      simp only [Nat.add_sub_cancel]
      omega
    · obtain ⟨rfl, rfl⟩ := Prod.mk.inj h
      refine ⟨?_, by simp; omega⟩
      obtain ⟨t, rfl⟩ := Nat.exists_eq_add_of_le h1
      obtain ⟨r, rfl⟩ : ∃ r, n = i + t + 2 + r := ⟨n - (i + t + 2), by omega⟩
      have e1 : c * (i + t - i + 1) = (c * (i + t) + (c - 1)) - c * i + 1 := by
        rw [Nat.add_sub_cancel_left, Nat.mul_add, Nat.mul_add]; omega
      rw [e1, oDecs_get]
      · simp only [List.map_cons, List.map_nil, slicePieces]
        congr 3
        rw [Nat.mul_add c (i + t) 1, Nat.mul_one, Nat.add_assoc, Nat.sub_add_cancel hc]
      · rw [Nat.mul_add]; omega
      · have : (i + t + 2 + r) * c = c * (i + t) + 2 * c + r * c := by ring
        rw [this]
        omega
  mono := fun s _ k l _ _ _ _ h => Nat.mul_lt_mul_of_pos_left h hc
  inv := by
    intro i hi k' e' succ' hk hgood _
    rcases headRange_get hk with ⟨rfl, h⟩ | ⟨d, rfl, h1, h2, h⟩
    · exact ⟨0, [(i, n - 1)], [], rfl, by simp⟩
    · obtain ⟨rfl, rfl⟩ := Prod.mk.inj h
      obtain ⟨t, ht⟩ := (hgood (c * i, d) (by simp)).2
      simp only at ht
      have h4 : i < t := by
        apply Nat.lt_of_mul_lt_mul_left (a := c)
        omega
      have h5 : t < n := by
        apply Nat.lt_of_mul_lt_mul_left (a := c)
        rw [Nat.mul_comm c n]; omega
      refine ⟨t - 1 - i + 1, _, _, oDecs_get (by omega) (by omega), ?_⟩
      rw [show t - 1 - i + 1 = t - i by omega, Nat.mul_sub]
      omega

theorem oStart_map (hc : 0 < c) : (oStart n 0).map (fun i => c * i) = oStart (n * c) 0 := by
  unfold oStart
  by_cases h : 0 < n
  · rw [if_pos h, if_pos (Nat.mul_pos h hc)]; simp
  · rw [if_neg h, if_neg (by rw [Nat.eq_zero_of_not_pos h]; simp)]; rfl

theorem o_onSlices (hc : 0 < c) {V : Nat → Nat → ℝ} (h0 : ∀ k i, k < m → i < n → 0 ≤ V k i) (hpos : ∀ i < n, ∃ k < m, 0 < V k i)
    {a b : Nat} {M : List (Nat × Nat)} (h : Tiles a b M) : b = n * c → c ∣ a →
    (∀ I ∈ M, ∀ k < m, ∀ s < c, ∀ t < c, ∑ x ∈ oSamp c I s, V k x = ∑ x ∈ oSamp c I t, V k x) → ∀ I ∈ M, OnSlices c I := by
  induction h with
  | nil a => intro _ _ _; simp
  | @cons a b e M h1 h2 h3 ih =>
    intro hb ha hs
    have hd : c ∣ e + 1 := by
      by_contra hnd
      obtain ⟨i, rfl⟩ := ha
      -- the slice `j` that is cut
      obtain ⟨j, hj⟩ : ∃ j, j = (e + 1) / c := ⟨_, rfl⟩
      have hdm := Nat.div_add_mod (e + 1) c
      rw [← hj] at hdm
      have hm := Nat.mod_lt (e + 1) hc
      have hm0 : (e + 1) % c ≠ 0 := fun h => hnd (Nat.dvd_of_mod_eq_zero h)
      have hjn : j < n := by
        apply Nat.lt_of_mul_lt_mul_left (a := c)
        rw [Nat.mul_comm c n]; omega
      obtain ⟨k, hk, hVk⟩ := hpos j hjn
      have e0 := hs (c * i, e) (by simp) k hk 0 hc (c - 1) (by omega)
      have hij : i ≤ j := by
        by_contra hlt
        have := Nat.mul_le_mul_left c (show j + 1 ≤ i by omega)
        rw [Nat.mul_add] at this
        omega
      have hsub : insert j (oSamp c (c * i, e) (c - 1)) ⊆ oSamp c (c * i, e) 0 := by
        intro x hx
        rw [Finset.mem_insert] at hx
        rw [mem_oSamp hc]
        simp only [oCells, Finset.mem_Icc]
        rcases hx with rfl | hx
        · have := Nat.mul_le_mul_left c hij
          omega
        · rw [mem_oSamp (by omega)] at hx
          simp only [oCells, Finset.mem_Icc] at hx
          refine ⟨?_, by omega⟩
          by_contra hlt
          have h9 : c * x < c * i := by omega
          have := Nat.mul_le_mul_left c (Nat.lt_of_mul_lt_mul_left h9)
          rw [Nat.succ_eq_add_one, Nat.mul_add] at this
          omega
      have hnot : j ∉ oSamp c (c * i, e) (c - 1) := by
        rw [mem_oSamp (by omega)]
        simp only [oCells, Finset.mem_Icc]
        omega
      have hin : ∀ x ∈ oSamp c (c * i, e) 0, x < n := by
        intro x hx
        rw [mem_oSamp hc] at hx
        simp only [oCells, Finset.mem_Icc] at hx
        apply Nat.lt_of_mul_lt_mul_left (a := c)
        rw [Nat.mul_comm c n]; omega
      have hle := Finset.sum_le_sum_of_subset_of_nonneg (f := V k) hsub (fun x hx _ => h0 k x hk (hin x hx))
      rw [Finset.sum_insert hnot] at hle
      linarith
    intro I hI
    rcases List.mem_cons.mp hI with rfl | hI
    · exact ⟨ha, hd⟩
    · exact ih hb hd (fun I hI => hs I (by simp [hI])) I hI

/-- The best partitions of the data and of the finer data. -/
theorem oBest_finer {F : Type} [FloatP F ℝ] (hc : 0 < c) (hn : 0 < n) {V : Nat → Nat → ℝ}
    (h0 : ∀ k i, k < m → i < n → 0 ≤ V k i) {q q' : UTM (Quality ℝ)}
    (hq : q.Rep n (fun i j => entQ m V (oCells (i, j)))) (hq' : q'.Rep (n * c) (fun i j => entQ m (finer c V) (oCells (i, j))))
    (p : F) (ha : (0 : ℝ) ≤ wGain p) (hb : (0 : ℝ) ≤ wLoss p) :
    ∃ (P P' : OPartition F ℝ) (L L' : List (Nat × Nat)), oBestPartition q p = .ok P ∧ oBestPartition q' p = .ok P' ∧
      P.parts = L.map (oPartOf (fun i j => entQ m V (oCells (i, j)))) ∧
      P'.parts = L'.map (oPartOf (fun i j => entQ m (finer c V) (oCells (i, j)))) ∧
      P.quality = ⟨gainOf (fun I => entQ m V (oCells I)) L, lossOf (fun I => entQ m V (oCells I)) L⟩ ∧
      P'.quality = ⟨P.quality.gain + total m V (Finset.range n) * Real.logb 2 c, P.quality.loss⟩ ∧
      ((∀ i < n, ∃ k < m, 0 < V k i) → L' = L.map (slicePieces c)) := by
  obtain ⟨P, ds, L, h1, h2, h3, _, h5⟩ := oBest_lex hq p
  obtain ⟨P', ds', L', g1, g2, g3, _, g5⟩ := oBest_lex hq' p
  refine ⟨P, P', L, L', h1, g1, h2, g2, h3, ?_⟩
  have hU : oCells (0, n - 1) = Finset.range n := by
    ext x; simp only [oCells, Finset.mem_Icc, Finset.mem_range]; omega
  have hw : ∀ k < m, ∀ s < c, ∀ x ∈ oCells (0, n - 1), finer c V k (c * x + s) = V k x / c := fun k _ s hs x _ => finer_piece hc hs
  have h0' : ∀ k < m, ∀ x ∈ oCells (0, n - 1), 0 ≤ V k x := fun k hk x hx => h0 k x hk (by rw [hU] at hx; exact Finset.mem_range.mp hx)
  have hok : ∀ s ∈ oStart n 0, s < n := by
    intro s hs; unfold oStart at hs; rw [if_pos hn] at hs; simp at hs; omega
  have hup : ∀ ds L, Sol (oDecs n) (oStart n 0) ds L →
      gainOf (fun I => entQ m (finer c V) (oCells I)) (L.map (slicePieces c)) =
        gainOf (fun I => entQ m V (oCells I)) L + total m V (oCells (0, n - 1)) * Real.logb 2 c ∧
      lossOf (fun I => entQ m (finer c V) (oCells I)) (L.map (slicePieces c)) = lossOf (fun I => entQ m V (oCells I)) L := by
    intro ds L hs
    have ht := oSol_tiles hs 0 rfl (by omega)
    have hcut := tiles_cuts ht hn
    have e : ∀ I ∈ L, entQ m (finer c V) (oCells (slicePieces c I)) =
        ⟨gainSeries m (oCells I) V + total m V (oCells I) * Real.logb 2 c, lossSeries m (oCells I) V⟩ := fun I hI =>
      entQ_pieces hc (o_pieces hc I) (fun k hk s hs x hx => hw k hk s hs x (hcut.sub I hI hx))
        (fun k hk x hx => h0' k hk x (hcut.sub I hI hx))
    exact pieces_sum hcut e
  have hsam : ∀ ds M, Sol (oDecs (n * c)) ((oStart n 0).map (fun i => c * i)) ds M → Tiles 0 (n * c) M := by
    intro ds M hs
    rw [oStart_map hc] at hs
    exact oSol_tiles hs 0 rfl (by omega)
  obtain ⟨⟨e1, s1⟩, s2, s3⟩ := h5.stretch (o_sim hc) hok ha hb hc hup (fun M s => M.filterMap (oSample c s)) (by
    intro ds M hs
    have ht := hsam ds M hs
    have hS := o_samples hc hn ht
    refine ⟨?_, (hS.gain hc hw h0').1, hS.loss hc hw h0' ?_⟩
    · intro s hs
      have := oSample_tiles (c := c) (s := s) ht
      rw [firstFrom_zero hs, firstFrom_mul hs] at this
      obtain ⟨d, hd⟩ := tiles_oSol this
      exact ⟨d, _, hd, .refl _⟩
    · intro k hk b hb y hy
      have := ht.bounds b hb
      simp only [oCells, Finset.mem_Icc] at hy
      unfold finer
      refine div_nonneg (h0 k _ hk ?_) (by positivity)
      rw [Nat.div_lt_iff_lt_mul hc]; omega)
  rw [oStart_map hc] at s1 s2 s3
  obtain ⟨q1, q2⟩ := g5.quality_eq s1 s2
  obtain ⟨u1, u2⟩ := hup ds L h5.mem
  refine ⟨?_, fun hpos => ?_⟩
  · rw [g3, h3, ← hU]
    exact congrArg₂ Quality.mk (q1.trans u1) (q2.trans u2)
  · obtain ⟨e2, s4⟩ := s3 (fun e M hM heq => by
      rw [← oStart_map hc] at hM
      have ht := hsam e M hM
      exact o_onSlices hc h0 hpos ht rfl (Dvd.intro 0 (by simp)) (((o_samples hc hn ht).gain hc hw h0').2 heq))
    exact g5.unique s4

end Lp

import Verif.Proofs.Simulate

/-!
# Averages over copies

Cells that hold the same values may be exchanged: `pc s` maps every cell to one with the same values, so that every cell is
used `c` times in all.  The parts of a partition pulled back along `pc s` have, on the average over `s`, at least the gain
and at most the loss of the partition.
-/

namespace Lp
open Spec
open scoped BigOperators
variable {ι A σ : Type} [DecidableEq ι] {c m : Nat} {U I : Finset ι} {pc : Nat → ι → ι} {V : ι → ℝ}

/-- Every cell is the image of `c` cells in all. -/
structure Copying (c : Nat) (U : Finset ι) (pc : Nat → ι → ι) : Prop where
  pos : 0 < c
  maps : ∀ s < c, ∀ x ∈ U, pc s x ∈ U
  count : ∀ y ∈ U, ∑ s ∈ Finset.range c, (U.filter (fun x => pc s x = y)).card = c

/-- The cells whose image is in `I`. -/
def preCells (U : Finset ι) (pc : Nat → ι → ι) (I : Finset ι) (s : Nat) : Finset ι := U.filter (fun x => pc s x ∈ I)

theorem copies_sum (h : Copying c U pc) (hI : I ⊆ U) (f : ι → ℝ) :
    ∑ s ∈ Finset.range c, ∑ x ∈ preCells U pc I s, f (pc s x) = c * ∑ y ∈ I, f y := by
  have e : ∀ s ∈ Finset.range c, ∑ x ∈ preCells U pc I s, f (pc s x) =
      ∑ y ∈ I, ((U.filter (fun x => pc s x = y)).card : ℝ) * f y := by
    intro s _
    rw [← Finset.sum_fiberwise_of_maps_to (s := preCells U pc I s) (t := I) (g := pc s) (fun x hx => (Finset.mem_filter.mp hx).2)]
    refine Finset.sum_congr rfl (fun y hy => ?_)
    have : (preCells U pc I s).filter (fun x => pc s x = y) = U.filter (fun x => pc s x = y) := by
      ext x
      simp only [preCells, Finset.mem_filter]
      constructor
      · rintro ⟨⟨h1, _⟩, h2⟩; exact ⟨h1, h2⟩
      · rintro ⟨h1, h2⟩; exact ⟨⟨h1, h2 ▸ hy⟩, h2⟩
    rw [this, ← nsmul_eq_mul, ← Finset.sum_const]
    refine Finset.sum_congr rfl (fun x hx => ?_)
    rw [(Finset.mem_filter.mp hx).2]
  rw [Finset.sum_congr rfl e, Finset.sum_comm, Finset.mul_sum]
  refine Finset.sum_congr rfl (fun y hy => ?_)
  rw [← Finset.sum_mul]
  congr 1
  exact_mod_cast h.count y (hI hy)

variable (hV : ∀ s < c, ∀ x ∈ U, V (pc s x) = V x)
include hV

theorem copies_eq (h : Copying c U pc) (hI : I ⊆ U) (g : ℝ → ℝ) :
    ∑ s ∈ Finset.range c, ∑ x ∈ preCells U pc I s, g (V x) = c * ∑ y ∈ I, g (V y) := by
  rw [← copies_sum h hI (fun y => g (V y))]
  refine Finset.sum_congr rfl (fun s hs => Finset.sum_congr rfl (fun x hx => ?_))
  rw [hV s (Finset.mem_range.mp hs) x (Finset.mem_filter.mp hx).1]

theorem copies_gain (h : Copying c U pc) (hI : I ⊆ U) (h0 : ∀ x ∈ U, 0 ≤ V x) :
    c * gainOver I V ≤ ∑ s ∈ Finset.range c, gainOver (preCells U pc I s) V ∧
    (c * gainOver I V = ∑ s ∈ Finset.range c, gainOver (preCells U pc I s) V ↔
      ∀ s < c, ∀ t < c, ∑ x ∈ preCells U pc I s, V x = ∑ x ∈ preCells U pc I t, V x) := by
  have hc' : (0 : ℝ) < c := by exact_mod_cast h.pos
  have hj := xlog2_jensen (t := Finset.range c) (n := fun _ => 1) (x := fun s => ∑ x ∈ preCells U pc I s, V x) (fun _ _ => one_pos)
    (fun s _ => Finset.sum_nonneg (fun x hx => h0 x (Finset.mem_filter.mp hx).1)) ⟨0, Finset.mem_range.mpr h.pos⟩
  simp only [one_mul, Finset.sum_const, nsmul_eq_mul, mul_one, Finset.card_range, Finset.mem_range] at hj
  have e1 := copies_eq hV h hI (fun y => y)
  have e2 := copies_eq hV h hI xlog2
  rw [e1, mul_div_cancel_left₀ _ hc'.ne'] at hj
  unfold gainOver
  rw [Finset.sum_sub_distrib, e2, mul_sub]
  refine ⟨by linarith [hj.1], ?_⟩
  rw [sub_left_inj, hj.2]

theorem copies_loss (h : Copying c U pc) (hI : I ⊆ U) (h0 : ∀ x ∈ U, 0 ≤ V x) :
    ∑ s ∈ Finset.range c, lossOver (preCells U pc I s) V ≤ c * lossOver I V := by
  have hc' : (0 : ℝ) < c := by exact_mod_cast h.pos
  let samp : Nat → Finset ι := preCells U pc I
  let T := (Finset.range c).filter (fun s => (samp s).Nonempty)
  have toT : ∀ f : Nat → ℝ, (∀ s, samp s = ∅ → f s = 0) → ∑ s ∈ Finset.range c, f s = ∑ s ∈ T, f s := by
    intro f hf
    rw [Finset.sum_filter]
    refine Finset.sum_congr rfl (fun s _ => ?_)
    split
    · rfl
    · rename_i hs
      exact hf s (Finset.not_nonempty_iff_eq_empty.mp hs)
  have mem : ∀ s ∈ T, s < c ∧ (samp s).Nonempty := fun s hs => by
    have := Finset.mem_filter.mp hs
    exact ⟨Finset.mem_range.mp this.1, this.2⟩
  have nn : ∀ s, ∀ x ∈ samp s, 0 ≤ V x := fun s x hx => h0 x (Finset.mem_filter.mp hx).1
  have ecard : ∑ s ∈ Finset.range c, ((samp s).card : ℝ) = c * I.card := by
    have := copies_eq hV h hI (fun _ => 1)
    simpa [samp] using this
  have e1 := copies_eq hV h hI (fun y => y)
  have e2 := copies_eq hV h hI xlog2
  rcases I.eq_empty_or_nonempty with rfl | hIne
  · have : ∀ s, samp s = ∅ := fun s => by simp [samp, preCells]
    simp [show ∀ s, preCells U pc ∅ s = ∅ from this, lossOver, gainOver, xlog2]
  have hIpos : (0 : ℝ) < I.card := by exact_mod_cast hIne.card_pos
  have hT : T.Nonempty := by
    by_contra hT
    rw [Finset.not_nonempty_iff_eq_empty] at hT
    rw [toT _ (fun s hs => by simp [hs]), hT, Finset.sum_empty] at ecard
    have := mul_pos hc' hIpos
    linarith
  have hpos : ∀ s ∈ T, (0 : ℝ) < (samp s).card := fun s hs => by exact_mod_cast (mem s hs).2.card_pos
  have hj := (xlog2_jensen (t := T) (n := fun s => ((samp s).card : ℝ)) (x := fun s => (∑ x ∈ samp s, V x) / (samp s).card) hpos
    (fun s hs => div_nonneg (Finset.sum_nonneg (nn s)) (hpos s hs).le) hT).1
  have e3 : ∑ s ∈ T, ((samp s).card : ℝ) * ((∑ x ∈ samp s, V x) / (samp s).card) = c * ∑ y ∈ I, V y := by
    rw [← e1, toT (fun s => ∑ x ∈ samp s, V x) (fun s hs => by simp [hs])]
    refine Finset.sum_congr rfl (fun s hs => ?_)
    have := (hpos s hs).ne'
    field_simp
  have e4 : ∑ s ∈ T, ((samp s).card : ℝ) = c * I.card := by
    rw [← ecard]; exact (toT _ (fun s hs => by simp [hs])).symm
  rw [e3, e4, mul_div_mul_left _ _ hc'.ne'] at hj
  have e5 : ∑ s ∈ Finset.range c, lossOver (preCells U pc I s) V = ∑ s ∈ T, (∑ x ∈ samp s, xlog2 (V x)) -
      ∑ s ∈ T, ((samp s).card : ℝ) * xlog2 ((∑ x ∈ samp s, V x) / (samp s).card) := by
    rw [← Finset.sum_sub_distrib, toT (fun s => lossOver (samp s) V) (fun s hs => by simp [hs, lossOver, gainOver, xlog2])]
    refine Finset.sum_congr rfl (fun s hs => ?_)
    rw [loss_gap (mem s hs).2 (nn s)]
  rw [e5, loss_gap hIne (fun x hx => h0 x (hI hx)), mul_sub, ← e2, toT (fun s => ∑ x ∈ samp s, xlog2 (V x)) (fun s hs => by simp [hs])]
  linarith

end Lp

namespace Lp
open Spec
open scoped BigOperators
variable {ι A σ : Type} [DecidableEq ι] {c m : Nat} {U : Finset ι} {pc : Nat → ι → ι} {V : Nat → ι → ℝ}
  {cells : A → Finset ι} {M : List A} {Ls : Nat → List A}

/-- If a best solution can be pulled back along the copies, the pulled back solutions are best too and every part has the same
sums in all of them. -/
theorem LexFirst.copies {decs : Decs σ A} {st : List σ} {a b : ℝ} (ha : 0 ≤ a) (hb : 0 ≤ b) {ds : List Nat}
    (hM : LexFirst (Sol decs st) a b (fun x => entQ m V (cells x)) ds M) (h : Copying c U pc)
    (hV : ∀ k < m, ∀ s < c, ∀ x ∈ U, V k (pc s x) = V k x) (h0 : ∀ k < m, ∀ x ∈ U, 0 ≤ V k x)
    (hsub : ∀ x ∈ M, cells x ⊆ U)
    (hlist : ∀ s < c, ∀ f : Finset ι → ℝ, f ∅ = 0 →
      ((Ls s).map (fun x => f (cells x))).sum = (M.map (fun x => f (preCells U pc (cells x) s))).sum)
    (hsol : ∀ s < c, ∃ ds L', Sol decs st ds L' ∧ L'.Perm (Ls s)) :
    ∀ x ∈ M, ∀ k < m, ∀ s < c, ∀ t < c,
      ∑ y ∈ preCells U pc (cells x) s, V k y = ∑ y ∈ preCells U pc (cells x) t, V k y := by
  have core : ∀ x ∈ M, ∀ k < m, _ := fun x hx k hk => copies_gain (V := V k) (hV k hk) h (hsub x hx) (h0 k hk)
  have eL : c * gainOf (fun x => entQ m V (cells x)) M =
      (M.map (fun x => ∑ k ∈ Finset.range m, c * gainOver (cells x) (V k))).sum := by
    unfold gainOf entQ gainSeries
    rw [← List.sum_map_mul_left]
    simp only [Finset.mul_sum]
  have eR : ∑ s ∈ Finset.range c, gainOf (fun x => entQ m V (cells x)) (Ls s) =
      (M.map (fun x => ∑ k ∈ Finset.range m, ∑ s ∈ Finset.range c, gainOver (preCells U pc (cells x) s) (V k))).sum := by
    rw [list_sum_comm]
    simp only [list_sum_comm]
    rw [Finset.sum_comm]
    refine Finset.sum_congr rfl (fun s hs => ?_)
    rw [← list_sum_comm]
    exact hlist s (Finset.mem_range.mp hs) (fun X => gainSeries m X V) gainSeries_empty
  have hle : ∀ x ∈ M, ∑ k ∈ Finset.range m, c * gainOver (cells x) (V k) ≤ ∑ k ∈ Finset.range m, ∑ s ∈ Finset.range c,
      gainOver (preCells U pc (cells x) s) (V k) :=
    fun x hx => Finset.sum_le_sum (fun k hk => (core x hx k (Finset.mem_range.mp hk)).1)
  have hg : c * gainOf (fun x => entQ m V (cells x)) M ≤ ∑ s ∈ Finset.range c, gainOf (fun x => entQ m V (cells x)) (Ls s) := by
    rw [eL, eR]; exact list_sum_le hle
  have hl : ∑ s ∈ Finset.range c, lossOf (fun x => entQ m V (cells x)) (Ls s) ≤ c * lossOf (fun x => entQ m V (cells x)) M := by
    have eL : c * lossOf (fun x => entQ m V (cells x)) M =
        (M.map (fun x => ∑ k ∈ Finset.range m, c * lossOver (cells x) (V k))).sum := by
      unfold lossOf entQ lossSeries
      rw [← List.sum_map_mul_left]
      simp only [Finset.mul_sum]
    have eR : ∑ s ∈ Finset.range c, lossOf (fun x => entQ m V (cells x)) (Ls s) =
        (M.map (fun x => ∑ k ∈ Finset.range m, ∑ s ∈ Finset.range c, lossOver (preCells U pc (cells x) s) (V k))).sum := by
      rw [list_sum_comm]
      simp only [list_sum_comm]
      rw [Finset.sum_comm]
      refine Finset.sum_congr rfl (fun s hs => ?_)
      rw [← list_sum_comm]
      exact hlist s (Finset.mem_range.mp hs) (fun X => lossSeries m X V) lossSeries_empty
    rw [eL, eR]
    exact list_sum_le (fun x hx => Finset.sum_le_sum (fun k hk =>
      copies_loss (hV k (Finset.mem_range.mp hk)) h (hsub x hx) (h0 k (Finset.mem_range.mp hk))))
  have hs : ∀ s < c, NumLe a b (gainOf (fun x => entQ m V (cells x)) (Ls s)) (lossOf (fun x => entQ m V (cells x)) (Ls s))
      (gainOf (fun x => entQ m V (cells x)) M) (lossOf (fun x => entQ m V (cells x)) M) := by
    intro s hs
    obtain ⟨d, L', hd, hp⟩ := hsol s hs
    rw [← gainOf_perm hp, ← lossOf_perm hp]
    exact hM.best d _ hd
  have e := (avg_best (S := 0) h.pos ha hb hs (by rw [add_zero]; exact numLe_refl _ _ _ _) (by simpa using hg) hl).2.2
  simp only [add_zero] at e
  rw [eL, eR] at e
  intro x hx k hk
  have e1 := list_sum_eq hle e x hx
  have e2 := (Finset.sum_eq_sum_iff_of_le (fun k hk => (core x hx k (Finset.mem_range.mp hk)).1)).mp e1 k (Finset.mem_range.mpr hk)
  exact (core x hx k hk).2.mp e2

end Lp

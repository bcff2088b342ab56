import Verif.Proofs.SilentH
import Verif.Proofs.Nested
import Verif.Proofs.Extreme
import Verif.Spec.Uniform

/-!
# A uniform series rewards coarse partitions
-/

namespace Lp
open Spec
open scoped BigOperators
variable {A ι : Type} {m : Nat} {V : Nat → ι → ℝ} {cells : A → Finset ι} {L M : List A} {U : Finset ι} {c c' : ℝ}

theorem gainOver_uniform (hc : 0 ≤ c) (s : Finset ι) : gainOver s (fun _ => c) = c * xlog2 s.card := by
  unfold gainOver xlog2
  simp only [Finset.sum_const, nsmul_eq_mul]
  rcases hc.eq_or_lt with rfl | hc
  · simp
  rcases Nat.eq_zero_or_pos s.card with h | h
  · simp [h]
  · have h' : (0 : ℝ) < s.card := by exact_mod_cast h
    rw [Real.logb_mul h'.ne' hc.ne']
    ring

theorem entQ_uniform (hc : 0 ≤ c) (s : Finset ι) :
    entQ (m + 1) (withUniform m V c) s = ⟨(entQ m V s).gain + c * xlog2 s.card, (entQ m V s).loss⟩ := by
  have same : ∀ k ∈ Finset.range m, withUniform m V c k = V k := by
    intro k hk
    have := Finset.mem_range.mp hk
    unfold withUniform
    funext x
    rw [if_neg (by omega)]
  have last : withUniform m V c m = fun _ => c := by
    unfold withUniform
    funext x
    rw [if_pos rfl]
  unfold entQ gainSeries lossSeries
  rw [Finset.sum_range_succ, Finset.sum_range_succ, last, gainOver_uniform hc,
    Finset.sum_congr rfl (g := fun k => gainOver s (V k)) (fun k hk => by rw [same k hk]),
    Finset.sum_congr rfl (f := fun k => lossOver s (withUniform m V c k)) (g := fun k => lossOver s (V k)) (fun k hk => by rw [same k hk])]
  have : lossOver s (fun _ : ι => c) = 0 := by
    unfold lossOver
    rw [gainOver_uniform hc]
    unfold xlog2
    rw [Finset.sum_const, nsmul_eq_mul]
    ring
  rw [this, add_zero]

/-- `Σ N log₂ N` over the parts. -/
noncomputable def coarseOf (cells : A → Finset ι) (L : List A) : ℝ := (L.map (fun a => xlog2 ((cells a).card : ℝ))).sum

theorem coarseOf_eq (cells : A → Finset ι) (L : List A) : coarseOf cells L = coarseness (L.map (fun a => (cells a).card)) := by
  unfold coarseOf coarseness
  rw [List.map_map]
  rfl

theorem gainOf_uniform (hc : 0 ≤ c) (L : List A) :
    gainOf (fun a => entQ (m + 1) (withUniform m V c) (cells a)) L = gainOf (fun a => entQ m V (cells a)) L + c * coarseOf cells L ∧
    lossOf (fun a => entQ (m + 1) (withUniform m V c) (cells a)) L = lossOf (fun a => entQ m V (cells a)) L := by
  unfold gainOf lossOf coarseOf
  induction L with
  | nil => simp
  | cons a L ih =>
    simp only [List.map_cons, List.sum_cons]
    rw [ih.1, ih.2, entQ_uniform hc]
    exact ⟨by dsimp only; ring, rfl⟩

theorem xlog2_le {x y : ℝ} (hx : 0 ≤ x) (h : x ≤ y) : xlog2 x ≤ x * Real.logb 2 y := by
  unfold xlog2
  rcases hx.eq_or_lt with rfl | hx
  · simp
  · exact mul_le_mul_of_nonneg_left (Real.logb_le_logb_of_le (by norm_num) hx h) hx.le

theorem Cuts.cards (h : Cuts cells L U) : (L.map (fun a => ((cells a).card : ℝ))).sum = U.card := by
  have := h.sum (fun _ => (1 : ℝ))
  simpa using this

theorem coarseOf_le (h : Cuts cells L U) {y : ℝ} (hy : ∀ a ∈ L, ((cells a).card : ℝ) ≤ y) : coarseOf cells L ≤ U.card * Real.logb 2 y := by
  have : ∀ L : List A, (∀ a ∈ L, ((cells a).card : ℝ) ≤ y) →
      coarseOf cells L ≤ (L.map (fun a => ((cells a).card : ℝ))).sum * Real.logb 2 y := by
    intro L
    unfold coarseOf
    induction L with
    | nil => simp
    | cons a L ih =>
      intro h
      simp only [List.map_cons, List.sum_cons, add_mul]
      exact add_le_add (xlog2_le (by positivity) (h a (by simp))) (ih (fun b hb => h b (by simp [hb])))
  rw [← h.cards]
  exact this L hy

/-- More than one part: at least one bit below the whole. -/
theorem coarseOf_gap (h : Cuts cells L U) (hU : U.Nonempty) (hl : L.length ≠ 1) : coarseOf cells L + 1 ≤ xlog2 (U.card : ℝ) := by
  classical
  have small : ∀ i : Fin L.length, (cells L[i]).card + 1 ≤ U.card := by
    intro i
    obtain ⟨j, hj⟩ : ∃ j : Fin L.length, j ≠ i := by
      by_cases h0 : (i : Nat) = 0
      · exact ⟨⟨1, by have := i.2; omega⟩, fun e => by have := congrArg Fin.val e; simp only at this; omega⟩
      · exact ⟨⟨0, by have := i.2; omega⟩, fun e => by have := congrArg Fin.val e; simp only at this; omega⟩
    have d := h.disj hj
    obtain ⟨x, hx⟩ := h.ne _ (List.getElem_mem j.2)
    refine Nat.succ_le_of_lt (Finset.card_lt_card ⟨h.sub _ (List.getElem_mem _), fun hs => ?_⟩)
    exact Finset.disjoint_left.mp d hx (hs (h.sub _ (List.getElem_mem _) hx))
  have hLne : 0 < L.length := by
    obtain ⟨x, hx⟩ := hU
    obtain ⟨k, ⟨a, ha, _⟩, _⟩ := h.one x hx
    exact (List.getElem?_eq_some_iff.mp ha).1.pos
  have two : 2 ≤ U.card := by
    have h1 := small ⟨0, hLne⟩
    have h2 := Finset.card_pos.mpr (h.ne _ (List.getElem_mem hLne))
    simp only [Fin.getElem_fin] at h1
    omega
  have hle : coarseOf cells L ≤ U.card * Real.logb 2 ((U.card : ℝ) - 1) := by
    refine coarseOf_le h (fun a ha => ?_)
    obtain ⟨i, hi, rfl⟩ := List.mem_iff_getElem.mp ha
    have := small ⟨i, hi⟩
    have h3 : (((cells L[i]).card + 1 : Nat) : ℝ) ≤ (U.card : ℝ) := by exact_mod_cast this
    push_cast at h3
    linarith
  have hN : (2 : ℝ) ≤ U.card := by exact_mod_cast two
  refine le_trans (add_le_add_left hle 1) ?_
  obtain ⟨N, hNe⟩ : ∃ N : ℝ, N = U.card := ⟨_, rfl⟩
  rw [← hNe] at hN ⊢
  unfold xlog2 Real.logb
  have l2 : 0 < Real.log 2 := Real.log_pos (by norm_num)
  have l2' : Real.log 2 ≤ 1 := by
    have := Real.log_le_sub_one_of_pos (show (0 : ℝ) < 2 by norm_num)
    linarith
  have h1 : Real.log (N - 1) ≤ Real.log N - 1 / N := by
    have hp : 0 < (N - 1) / N := div_pos (by linarith) (by linarith)
    have := Real.log_le_sub_one_of_pos hp
    rw [Real.log_div (by linarith) (by linarith)] at this
    have e : (N - 1) / N - 1 = - (1 / N) := by field_simp; ring
    linarith
  have h2 : N * Real.log (N - 1) ≤ N * Real.log N - 1 := by
    have := mul_le_mul_of_nonneg_left h1 (show (0 : ℝ) ≤ N by linarith)
    have e : N * (Real.log N - 1 / N) = N * Real.log N - 1 := by field_simp
    linarith
  rw [mul_div_assoc', mul_div_assoc', div_add' _ _ _ l2.ne', div_le_div_iff_of_pos_right l2]
  linarith

section best
variable {a b : ℝ}

/-- A larger uniform series never makes the best partition finer in the sense of `Σ N log₂ N`. -/
theorem coarse_mono (ha : 0 ≤ a) (hc : 0 ≤ c) (hcc : c < c')
    (h1 : LexLe a b (fun x => entQ (m + 1) (withUniform m V c) (cells x)) M L)
    (h2 : LexLe a b (fun x => entQ (m + 1) (withUniform m V c') (cells x)) L M) : coarseOf cells L ≤ coarseOf cells M := by
  unfold LexLe valueOf at h1 h2
  rw [(gainOf_uniform hc L).1, (gainOf_uniform hc M).1, (gainOf_uniform hc L).2, (gainOf_uniform hc M).2] at h1
  have hc' : 0 ≤ c' := hc.trans hcc.le
  rw [(gainOf_uniform hc' L).1, (gainOf_uniform hc' M).1, (gainOf_uniform hc' L).2, (gainOf_uniform hc' M).2] at h2
  generalize gainOf (fun a => entQ m V (cells a)) L = gL at *
  generalize gainOf (fun a => entQ m V (cells a)) M = gM at *
  generalize lossOf (fun a => entQ m V (cells a)) L = lL at *
  generalize lossOf (fun a => entQ m V (cells a)) M = lM at *
  generalize coarseOf cells L = sL at *
  generalize coarseOf cells M = sM at *
  by_contra hlt
  push Not at hlt
  have d : 0 < (c' - c) * (sL - sM) := mul_pos (by linarith) (by linarith)
  have v1 : a * (gM + c * sM) - b * lM ≤ a * (gL + c * sL) - b * lL := by rcases h1 with h | ⟨h, _⟩ <;> linarith
  have v2 : a * (gL + c' * sL) - b * lL ≤ a * (gM + c' * sM) - b * lM := by rcases h2 with h | ⟨h, _⟩ <;> linarith
  rcases ha.eq_or_lt with rfl | ha
  · rcases h1 with h1 | ⟨_, h1⟩
    · rcases h2 with h2 | ⟨h2, _⟩ <;> linarith
    rcases h2 with h2 | ⟨_, h2⟩
    · linarith
    have g1 : gM + c * sM ≤ gL + c * sL := by rcases h1 with h | ⟨h, _⟩ <;> linarith
    have g2 : gL + c' * sL ≤ gM + c' * sM := by rcases h2 with h | ⟨h, _⟩ <;> linarith
    nlinarith
  · have := mul_pos ha d
    nlinarith

/-- The whole stays the whole. -/
theorem whole_stays (hL : Cuts cells L U) (hM : Cuts cells M U) (hU : U.Nonempty) (h : coarseOf cells L ≤ coarseOf cells M)
    (h1 : L.length = 1) : M.length = 1 := by
  by_contra hne
  have g := coarseOf_gap hM hU hne
  obtain ⟨x, rfl⟩ := List.length_eq_one_iff.mp h1
  have e : U = cells x := by
    refine Finset.Subset.antisymm (fun y hy => ?_) (hL.sub x (by simp))
    obtain ⟨k, ⟨z, hz, hyz⟩, _⟩ := hL.one y hy
    have := List.mem_of_getElem? hz
    simp only [List.mem_singleton] at this
    exact this ▸ hyz
  unfold coarseOf at h
  simp only [List.map_cons, List.map_nil, List.sum_cons, List.sum_nil, add_zero] at h
  rw [e] at g
  unfold coarseOf at g
  linarith

/-- A large enough uniform series makes one part of everything. -/
theorem whole_wins (ha : 0 ≤ a) (hb : 0 ≤ b) (hc : 0 < c) {w : A} (hL : Cuts cells L (cells w)) (hU : (cells w).Nonempty)
    (hv : ∀ k < m, ∀ x ∈ cells w, 0 ≤ V k x) (hbig : b * lossSeries m (cells w) V ≤ a * c)
    (h : LexLe a b (fun x => entQ (m + 1) (withUniform m V c) (cells x)) [w] L) : L.length = 1 := by
  by_contra hne
  have g := coarseOf_gap hL hU hne
  have hw := hL.whole (m := m) (V := V) hU hv
  have hn := (hL.nonneg hv).2
  unfold LexLe valueOf at h
  rw [(gainOf_uniform hc.le L).1, (gainOf_uniform hc.le [w]).1, (gainOf_uniform hc.le L).2, (gainOf_uniform hc.le [w]).2] at h
  have e1 : gainOf (fun a => entQ m V (cells a)) [w] = (entQ m V (cells w)).gain := by simp [gainOf]
  have e2 : lossOf (fun a => entQ m V (cells a)) [w] = lossSeries m (cells w) V := by simp [lossOf, entQ]
  have e3 : coarseOf cells [w] = xlog2 ((cells w).card : ℝ) := by simp [coarseOf]
  rw [e1, e2, e3] at h
  generalize gainOf (fun a => entQ m V (cells a)) L = gL at *
  generalize lossOf (fun a => entQ m V (cells a)) L = lL at *
  generalize lossSeries m (cells w) V = lw at *
  generalize coarseOf cells L = sL at *
  generalize xlog2 ((cells w).card : ℝ) = sw at *
  have d1 := mul_le_mul_of_nonneg_left hw.1 ha
  have d2 := mul_nonneg hb hn
  have d3 : a * c ≤ a * c * (sw - sL) := le_mul_of_one_le_right (mul_nonneg ha hc.le) (by linarith)
  have d4 : 0 < c * (sw - sL) := mul_pos hc (by linarith)
  rcases h with h | ⟨_, h | ⟨h, _⟩⟩ <;> nlinarith

end best
end Lp

namespace Lp
open Spec
open scoped BigOperators
variable {A ι : Type} {cells : A → Finset ι} {L M : List A} {U : Finset ι}

/-- Merging makes partitions coarser. -/
theorem coarseOf_coarsen (hL : Cuts cells L U) (hM : Cuts cells M U) (hr : ∀ a ∈ L, ∃ b ∈ M, cells a ⊆ cells b) :
    coarseOf cells L ≤ coarseOf cells M := by
  have h := (hL.coarsen (m := 0 + 1) (V := withUniform 0 (fun _ _ => 0) 1) hM hr (fun k hk x _ => by
    unfold withUniform
    rw [if_pos (by omega)]
    norm_num)).1
  rw [(gainOf_uniform zero_le_one L).1, (gainOf_uniform zero_le_one M).1] at h
  have z : ∀ N : List A, gainOf (fun a => entQ 0 (fun _ _ => (0 : ℝ)) (cells a)) N = 0 := by
    intro N
    unfold gainOf entQ gainSeries
    simp
  rw [z, z] at h
  linarith

section
variable {K : Type} [Field K] [LinearOrder K] [IsStrictOrderedRing K] {leaves : Nat} {parents : List Int}

/-- Two tables of qualities; from the first to the second, merging gains value. -/
theorem h_nested_tables {root : Nat} (t : IsTree leaves parents root) {Q Q' : Nat → Quality K} {a b : K}
    (hB : ∀ L M, LeafCover leaves parents L → LeafCover leaves parents M → Refines parents L M →
      valueOf a b Q' L - valueOf a b Q L ≤ valueOf a b Q' M - valueOf a b Q M) {L L' : List Nat}
    (hL : LeafCover leaves parents L) (hL' : LeafCover leaves parents L')
    (h1 : ∀ M, LeafCover leaves parents M → valueOf a b Q M ≤ valueOf a b Q L)
    (h2 : ∀ M, LeafCover leaves parents M → valueOf a b Q' M ≤ valueOf a b Q' L' ∧
      (valueOf a b Q' M = valueOf a b Q' L' → Refines parents M L')) : Refines parents L L' := by
  classical
  intro x hx
  by_contra hno
  push Not at hno
  obtain ⟨y, hy, hxy, hne⟩ := below_cover t hL' (hL.1 x hx) hno
  obtain ⟨hM, _⟩ := merge_cover t hL' (hL.1 x hx) hy hxy hne
  have hN := split_cover hL hL' hx hno
  obtain ⟨S, hS⟩ : ∃ S, S = L'.filter (fun y => Under parents x y) := ⟨_, rfl⟩
  obtain ⟨R, hR⟩ : ∃ R, R = L'.filter (fun y => ¬ Under parents x y) := ⟨_, rfl⟩
  rw [← hS] at hN
  rw [← hR] at hM
  have hperm : (S ++ R).Perm L' := by
    rw [hS, hR]
    have := List.filter_append_perm (fun y => decide (Under parents x y)) L'
    simpa using this
  have e1 := h1 _ hN
  rw [valueOf_append, valueOf_permK (List.perm_cons_erase hx), valueOf_cons] at e1
  have hg := hB L' (x :: R) hL' hM (by
    intro z hz
    by_cases hxz : Under parents x z
    · exact ⟨x, by simp, hxz⟩
    · exact ⟨z, by rw [hR]; simp [hz, hxz], .self⟩)
  rw [← valueOf_permK (q := Q) hperm, valueOf_append (q := Q), valueOf_cons (q := Q)] at hg
  have e3 : valueOf a b Q' L' ≤ valueOf a b Q' (x :: R) := by linarith
  obtain ⟨z, hz, hzx⟩ := (h2 _ hM).2 (le_antisymm (h2 _ hM).1 e3) x (by simp)
  exact hno z hz hzx

end
end Lp

import Verif.Proofs.Ent
import Verif.Proofs.Norm
import Verif.Props.C05
import Verif.Proofs.Samples

/-!
# C11 — normalization of ordered qualities
-/

namespace Lp.C11
open Spec

/-- For any arithmetic and any table with entries `f`: `normalize()` on an object with values of `n` slices divides
every entry by the entry of the whole interval, component by component. -/
theorem divides {K : Type} [LD K] (v : OValues K) (n : Nat) (hv : v.osize = n) (h0 : 0 < n)
    (q : UTM (Quality K)) (f : Nat → Nat → Quality K) (hq : q.Rep n f) :
    ∃ q', (OQualities.mk (some v) (some q)).normalize = .ok ⟨some v, some q'⟩ ∧ q'.size = n ∧
      ∀ i j, i ≤ j → j < n →
        q'.get i j = .ok ⟨(f i j).gain / (f 0 (n - 1)).gain, (f i j).loss / (f 0 (n - 1)).loss⟩ := by
  obtain ⟨q', e, h⟩ := oqNormalize_spec hq h0
  exact ⟨q', oNormalize_object hv h0 e, h.size, fun i j hij hj => h.get hij hj⟩

/-- Exact arithmetic, whole not zero: the whole gets (1,1) and a second `normalize()` changes nothing. -/
theorem idempotent {K : Type} [Field K] [LinearOrder K] (v : OValues K) (n : Nat) (hv : v.osize = n)
    (h0 : 0 < n) (q : UTM (Quality K)) (f : Nat → Nat → Quality K) (hq : q.Rep n f)
    (hg : (f 0 (n - 1)).gain ≠ 0) (hl : (f 0 (n - 1)).loss ≠ 0) :
    ∃ o, (OQualities.mk (some v) (some q)).normalize = .ok o ∧ o.normalize = .ok o ∧
      ∃ q', o.qualities = some q' ∧ q'.get 0 (n - 1) = .ok ⟨1, 1⟩ := by
  obtain ⟨q', e, h⟩ := oqNormalize_spec hq h0
  obtain ⟨q'', e', h'⟩ := oqNormalize_spec h h0
  have one := Quality.div_self' hg hl
  have hu : q'' = q' := by
    refine h'.unique (h.congr (fun i j _ _ => ?_))
    rw [one, Quality.div_one']
  subst hu
  refine ⟨⟨some v, some q''⟩, oNormalize_object hv h0 e, oNormalize_object hv h0 e', q'', rfl, ?_⟩
  rw [h.get (Nat.zero_le _) (by omega), one]

/-- Non-negative data whose whole interval has non-zero gain and loss: after `computeQualities()` and `normalize()`
every gain and every loss lies in `[0,1]`, the whole interval has (1,1), and a second `normalize()` changes nothing. -/
theorem unitInterval (v : OValues ℝ) (m n : Nat) (V : Nat → Nat → ℝ) (hv : OData v m n V) (h0 : 0 < n) (hn : n ≤ 65535)
    (hpos : ∀ k i, k < m → i < n → 0 ≤ V k i) (hg : gainSeries m (Finset.Icc 0 (n - 1)) V ≠ 0)
    (hl : lossSeries m (Finset.Icc 0 (n - 1)) V ≠ 0) :
    ∃ o q', ((OQualities.ofValues v).computeQualities >>= OQualities.normalize) = .ok o ∧
      o.normalize = .ok o ∧ o.qualities = some q' ∧ q'.get 0 (n - 1) = .ok ⟨1, 1⟩ ∧
      ∀ i j, i ≤ j → j < n → ∃ x, q'.get i j = .ok x ∧ 0 ≤ x.gain ∧ x.gain ≤ 1 ∧ 0 ≤ x.loss ∧ x.loss ≤ 1 := by
  obtain ⟨q, e, hq⟩ := oq_object hv hn hpos
  obtain ⟨o, h1, h2, q', h3, h4⟩ := idempotent v n hv.osize h0 q _ hq hg hl
  obtain ⟨q'', h5, _, h7⟩ := divides v n hv.osize h0 q _ hq
  have : o = ⟨some v, some q''⟩ := Except.ok.inj (h1.symm.trans h5)
  subst this
  obtain rfl : q'' = q' := Option.some.inj h3
  refine ⟨_, q'', by rw [e]; exact h1, h2, rfl, h4, fun i j hij hj => ⟨_, h7 i j hij hj, ?_⟩⟩
  have pos := nonneg_oCells (i := 0) hpos (show n - 1 < n by omega)
  have mono := entQ_mono (m := m) (V := V) (s := oCells (i, j)) (t := oCells (0, n - 1))
    (Finset.Icc_subset_Icc (Nat.zero_le _) (by omega)) (Finset.nonempty_Icc.mpr hij) pos
  have p := nonneg_oCells (i := i) hpos hj
  have g0 : 0 ≤ (entQ m V (oCells (i, j))).gain := gainSeries_nonneg p
  have l0 : 0 ≤ (entQ m V (oCells (i, j))).loss := lossSeries_nonneg p
  exact ⟨div_nonneg g0 (gainSeries_nonneg pos), div_le_one_of_le₀ mono.1 (gainSeries_nonneg pos),
    div_nonneg l0 (lossSeries_nonneg pos), div_le_one_of_le₀ mono.2 (lossSeries_nonneg pos)⟩

/-- The hypotheses are met by the data 1, 0, 2 (zero values included): neither the gain nor the loss of the whole
is 0. -/
example : ∃ o q', ((OQualities.ofValues (OValuesN1.ofVec [1, 0, 2]).toOValues).computeQualities >>= OQualities.normalize)
      = .ok o ∧ o.normalize = .ok o ∧ o.qualities = some q' ∧ q'.get 0 2 = .ok ⟨1, 1⟩ ∧
      ∀ i j, i ≤ j → j < 3 → ∃ x : Quality ℝ, q'.get i j = .ok x ∧ 0 ≤ x.gain ∧ x.gain ≤ 1 ∧ 0 ≤ x.loss ∧ x.loss ≤ 1 := by
  have hp : ∀ k i : Nat, k < 1 → i < 3 → 0 ≤ (fun _ i => if i = 2 then (2 : ℝ) else if i = 1 then 0 else 1) k i :=
    fun k i _ _ => by dsimp only; split_ifs <;> norm_num
  refine unitInterval _ 1 3 _
    (OValuesN1.ofVec_holds (O := 3) (fun i => if i = 2 then (2 : ℝ) else if i = 1 then 0 else 1)).data
    (by norm_num) (by norm_num) hp ?_ ?_
  · rw [ne_eq, gainSeries_zero_iff (fun k hk x hx => hp k x hk (by simp at hx; omega))]
    intro h
    have := h 0 (by norm_num) 0 (by norm_num) 2 (by norm_num) (by norm_num) (by norm_num)
    omega
  · rw [ne_eq, lossSeries_zero_iff (fun k hk x hx => hp k x hk (by simp at hx; omega))]
    intro h
    have := h 0 (by norm_num) 0 (by norm_num) 2 (by norm_num)
    norm_num at this

/-! ## The hypotheses are met by concrete inputs (`Proofs/Samples.lean`) -/

example := divides (Sample.oOf fun _ _ => (1 : ℚ)) 3 rfl (by decide) Sample.oQ _ Sample.oRep
example := idempotent (Sample.oOf fun _ _ => (1 : ℚ)) 3 rfl (by decide) Sample.oQ _ Sample.oRep (by decide) (by decide)

end Lp.C11

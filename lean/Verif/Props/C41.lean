import Verif.Proofs.Series
import Verif.Props.C05
import Verif.Props.C06
import Verif.Props.C07
import Mathlib.Tactic.IntervalCases
import Verif.Proofs.Samples

/-!
# C41 — the order of the series and all-zero series do not matter

`SameSeries dom m V m' V'` (`Spec/Series.lean`): the second data are the first with the series in another order and any number
of all-zero series added anywhere.  Data of any sign.  Both containers get the very same table of qualities, so everything
computed from it (normalized qualities, partitions, parameters) is the same.
-/

namespace Lp.C41
open Spec

/-- Ordered data. -/
theorem ordered (v v' : OValues ℝ) (m m' n : Nat) (V V' : Nat → Nat → ℝ) (hv : OData v m n V) (hv' : OData v' m' n V')
    (hn : n ≤ 65535) (hs : SameSeries (fun i => i < n) m V m' V') :
    ∃ q, (OQualities.ofValues v).computeQualities = .ok ⟨some v, some q⟩ ∧
      (OQualities.ofValues v').computeQualities = .ok ⟨some v', some q⟩ := by
  obtain ⟨q, e, hq⟩ := oq_objectAny hv hn
  obtain ⟨q', e', hq'⟩ := oq_objectAny hv' hn
  refine ⟨q, e, ?_⟩
  rw [e', hq.unique (hq'.congr (fun i j hij hj => ?_))]
  refine SameSeries.anyQ hs (fun x hx => ?_)
  simp only [oCells, Finset.mem_Icc] at hx
  omega

/-- Hierarchical data (over the same hierarchy). -/
theorem hierarchical (leaves : Nat) (parents : List Int) (v v' : HValues ℝ) (hmd : RightMeta leaves parents v.md)
    (hmd' : v'.md = v.md) (hlt : leaves < parents.length) (m m' : Nat) (V V' : Nat → Nat → ℝ) (hv : HData v m leaves V)
    (hv' : HData v' m' leaves V') (hs : SameSeries (fun h => h < leaves) m V m' V') :
    ∃ q, (HQualities.ofValues v).computeQualities = .ok ⟨some v, some q, v.md⟩ ∧
      (HQualities.ofValues v').computeQualities = .ok ⟨some v', some q, v.md⟩ := by
  obtain ⟨q, e, hq⟩ := hq_objectAny hmd hlt hv
  obtain ⟨q', e', hq'⟩ := hq_objectAny (by rw [hmd']; exact hmd) hlt hv'
  refine ⟨q, e, ?_⟩
  rw [e', hmd', hq.unique (hq'.congr (fun h hh => ?_))]
  exact SameSeries.anyQ hs (fun x hx => (mem_leavesUnder.mp hx).1)

/-- Spatiotemporal data (over the same hierarchy). -/
theorem spatiotemporal (leaves : Nat) (parents : List Int) (v v' : DValues ℝ) (hmd : RightMeta leaves parents v.md)
    (hmd' : v'.md = v.md) (hlt : leaves < parents.length) (m m' n : Nat) (hn : n ≤ 65535)
    (hb : leaves * n < 2147483648) (V V' : Nat → Nat × Nat → ℝ) (hv : DData v m leaves n V) (hv' : DData v' m' leaves n V')
    (hs : SameSeries (fun x => x.1 < leaves ∧ x.2 < n) m V m' V') :
    ∃ q, (DQualities.ofValues v).computeQualities = .ok ⟨some v, some q, v.md⟩ ∧
      (DQualities.ofValues v').computeQualities = .ok ⟨some v', some q, v.md⟩ := by
  obtain ⟨q, e, hq⟩ := dq_objectAny hmd hlt hn hb hv
  obtain ⟨q', e', hq'⟩ := dq_objectAny (by rw [hmd']; exact hmd) hlt hn hb hv'
  refine ⟨q, e, ?_⟩
  rw [e', hmd', hq.unique (hq'.congr (fun h i j hh hij hj => ?_))]
  refine SameSeries.anyQ hs (fun x hx => ?_)
  simp only [dCells, Finset.mem_product, mem_leavesUnder, Finset.mem_Icc] at hx
  exact ⟨hx.1.1, by omega⟩

/-- `SameSeries` is met by the exchange of two series and an all-zero series between them:
`[1,2],[3,4]` and `[3,4],[0,0],[1,2]`. -/
theorem example_aux : SameSeries (fun i => i < 2) 2 (fun k i => ([[1, 2], [3, 4]] : List (List ℝ)).getD k [] |>.getD i 0) 3
    (fun k i => ([[3, 4], [0, 0], [1, 2]] : List (List ℝ)).getD k [] |>.getD i 0) := by
  refine ⟨fun k => if k = 0 then 2 else 0, ?_, ?_, ?_, ?_⟩
  · intro k _; dsimp only; split <;> omega
  · intro k l hk hl h; dsimp only at h; split at h <;> split at h <;> omega
  · intro k x hk hx
    interval_cases k <;> interval_cases x <;> simp
  · intro k x hk h hx
    interval_cases k
    · exact absurd rfl (h 1 (by omega))
    · interval_cases x <;> simp
    · exact absurd rfl (h 0 (by omega))

example : ∃ w w' q,
    (OQualities.ofValues (OValuesN2.ofVec ([[1, 2], [3, 4]] : List (List ℝ))).toOValues).computeQualities = .ok ⟨w, some q⟩ ∧
    (OQualities.ofValues (OValuesN2.ofVec ([[3, 4], [0, 0], [1, 2]] : List (List ℝ))).toOValues).computeQualities =
      .ok ⟨w', some q⟩ := by
  have h1 := (OValuesN2.ofVec_holds (V := 2) (O := 2) (by norm_num)
    (fun x => ([[1, 2], [3, 4]] : List (List ℝ)).getD x.1 [] |>.getD x.2 0)).data
  have h2 := (OValuesN2.ofVec_holds (V := 3) (O := 2) (by norm_num)
    (fun x => ([[3, 4], [0, 0], [1, 2]] : List (List ℝ)).getD x.1 [] |>.getD x.2 0)).data
  obtain ⟨q, e1, e2⟩ := ordered _ _ 2 3 2 _ _ h1 h2 (by norm_num) example_aux
  exact ⟨_, _, q, e1, e2⟩

/-! ## The hypotheses are met by concrete inputs (`Proofs/Samples.lean`) -/

theorem exSwap_aux {ι : Type} (dom : ι → Prop) (V : Nat → ι → ℝ) : SameSeries dom 2 V 2 (fun k => V (1 - k)) := by
  refine ⟨fun k => 1 - k, fun k _ => by dsimp only; omega, fun k l _ _ h => by dsimp only at h; omega, fun k x hk _ => ?_, fun k x hk h _ => absurd ?_ (h (1 - k) (by omega))⟩
  · dsimp only; congr 1; omega
  · dsimp only; omega

/-- The same two series in the other order. -/
example := hierarchical 4 Sample.tree Sample.hV (Sample.hOf fun k => Sample.val (1 - k)) Sample.right (Eq.refl Sample.md) (by decide) 2 2 _ _ Sample.h (Sample.hData _)
  (exSwap_aux _ _)
example := spatiotemporal 4 Sample.tree Sample.dV (Sample.dOf fun k => Sample.dVal (1 - k)) Sample.right (Eq.refl Sample.md) (by decide) 2 2 3 (by decide) (by decide) _ _ Sample.d
  (Sample.dData _) (exSwap_aux _ _)

end Lp.C41

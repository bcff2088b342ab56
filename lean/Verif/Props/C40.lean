import Verif.Proofs.Extreme
import Verif.Props.C05
import Verif.Props.C06
import Verif.Props.C07
import Verif.Proofs.Samples

/-!
# C40 — homogeneous data give one part

If in every series all values are equal (zero allowed), the best partition is the single whole, for every parameter `p ≥ 0` and any
rounding of the weight `1-p`.
-/

namespace Lp.C40
open Spec
variable {F : Type} [FloatP F ℝ]

/-- Ordered data. -/
theorem ordered (v : OValues ℝ) (m n : Nat) (c : Nat → ℝ) (hc : ∀ k, k < m → 0 ≤ c k) (hv : OData v m n (fun k _ => c k))
    (hn0 : 0 < n) (hn : n ≤ 65535) :
    ∃ q, (OQualities.ofValues v).computeQualities = .ok ⟨some v, some q⟩ ∧
      ∀ p : F, (0 : ℝ) ≤ FloatP.toK p → ∃ P, oBestPartition q p = .ok P ∧
        P.parts.map (fun x => (x.start, x.end)) = [(0, ((n - 1 : Nat) : Int))] ∧ P.quality.loss = 0 := by
  obtain ⟨q, e, hq⟩ := oq_object hv hn (fun k i hk _ => hc k hk)
  refine ⟨q, e, fun p hp => ?_⟩
  obtain ⟨P, ds, L, e1, e2, e3, _, e5⟩ := oBest_lex hq p
  have hnn : ∀ k < m, ∀ x ∈ oCells (0, n - 1), 0 ≤ (fun k (_ : Nat) => c k) k x := fun k hk x _ => hc k hk
  have hz : (entQ m (fun k (_ : Nat) => c k) (oCells (0, n - 1))).loss = 0 :=
    (lossSeries_zero_iff hnn).mpr (fun k hk x _ y _ => rfl)
  have hL := LexFirst.homog (cells := oCells) hp e5 (fun ds L hs => tiles_cuts (oSol_tiles hs 0 rfl (by omega)) hn0) hnn
    (oWhole_sol hn0) rfl (by simp [oCells]) hz
  subst hL
  refine ⟨P, e1, by rw [e2]; rfl, ?_⟩
  rw [e3]
  simpa using hz

/-- Hierarchical data: the single root. -/
theorem hierarchical (leaves : Nat) (parents : List Int) (v : HValues ℝ) (hmd : RightMeta leaves parents v.md)
    (hlt : leaves < parents.length) (m : Nat) (c : Nat → ℝ) (hc : ∀ k, k < m → 0 ≤ c k)
    (hv : HData v m leaves (fun k _ => c k)) :
    ∃ q, (HQualities.ofValues v).computeQualities = .ok ⟨some v, some q, v.md⟩ ∧
      ∀ p : F, (0 : ℝ) ≤ FloatP.toK p → ∃ P, hBestPartition q v.md p = .ok P ∧
        P.parts.map HPart.h = [v.md.root] ∧ P.quality.loss = 0 := by
  obtain ⟨q, e, hq⟩ := hq_object hmd hlt hv (fun k i hk _ => hc k hk)
  refine ⟨q, e, fun p hp => ?_⟩
  obtain ⟨P, ds, L, e1, e2, e3, _, e5, _⟩ := hBest_first hmd hlt hq p
  have hnn : ∀ k < m, ∀ x ∈ leavesUnder leaves parents v.md.root, 0 ≤ (fun k (_ : Nat) => c k) k x := fun k hk x _ => hc k hk
  have hz : (entQ m (fun k (_ : Nat) => c k) (leavesUnder leaves parents v.md.root)).loss = 0 :=
    (lossSeries_zero_iff hnn).mpr (fun k hk x _ y _ => rfl)
  have hL := ValFirst.homog (cells := leavesUnder leaves parents) hp e5
    (fun ds L hs => leafCover_cuts hmd.tree (hSol_leafCover hmd hs)) hnn hWhole_sol rfl
    (leaves_nonempty hmd.tree hmd.tree.rootLt) hz
  subst hL
  refine ⟨P, e1, by rw [e2]; rfl, ?_⟩
  rw [e3]
  simpa using hz

/-- Spatiotemporal data: the root over all slices. -/
theorem spatiotemporal (leaves : Nat) (parents : List Int) (v : DValues ℝ) (hmd : RightMeta leaves parents v.md)
    (hlt : leaves < parents.length) (m n : Nat) (hn0 : 0 < n) (hn : n ≤ 65535) (hb : leaves * n < 2147483648)
    (c : Nat → ℝ) (hc : ∀ k, k < m → 0 ≤ c k) (hv : DData v m leaves n (fun k _ => c k)) :
    ∃ q, (DQualities.ofValues v).computeQualities = .ok ⟨some v, some q, v.md⟩ ∧
      ∀ p : F, (0 : ℝ) ≤ FloatP.toK p → ∃ P, dBestPartition q v.md p = .ok P ∧
        P.parts.map (fun x => (x.h, x.start, x.end)) = [(v.md.root, 0, n - 1)] ∧ P.quality.loss = 0 := by
  obtain ⟨q, e, hq⟩ := dq_object hmd hlt hn hb hv (fun k h i hk _ _ => hc k hk)
  refine ⟨q, e, fun p hp => ?_⟩
  obtain ⟨P, ds, L, e1, e2, e3, _, e5⟩ := dBest_first hmd hq hn0 hn p
  have hnn : ∀ k < m, ∀ x ∈ dCells leaves parents ⟨v.md.root, 0, n - 1⟩, 0 ≤ (fun k (_ : Nat × Nat) => c k) k x :=
    fun k hk x _ => hc k hk
  have hz : (entQ m (fun k (_ : Nat × Nat) => c k) (dCells leaves parents ⟨v.md.root, 0, n - 1⟩)).loss = 0 :=
    (lossSeries_zero_iff hnn).mpr (fun k hk x _ y _ => rfl)
  have hL := LexFirst.homog (cells := dCells leaves parents) hp e5
    (fun ds L hs => cellCover_cuts hmd.tree (dSol_cellCover hmd hn0 hs) hn0) hnn dWhole_sol rfl
    ((leaves_nonempty hmd.tree hmd.tree.rootLt).product (Finset.nonempty_Icc.mpr (Nat.zero_le _))) hz
  subst hL
  refine ⟨P, e1, by rw [e2]; rfl, ?_⟩
  rw [e3]
  simpa [rq] using hz

/-- Four equal values, `p = 1/2`. -/
example : ∃ w q P, (OQualities.ofValues (OValuesN1.ofVec ([5, 5, 5, 5] : List ℝ)).toOValues).computeQualities = .ok ⟨w, some q⟩ ∧
    oBestPartition q (1 / 2 : ℝ) = .ok P ∧ P.parts.map (fun x => (x.start, x.end)) = [(0, 3)] := by
  have hd : OData (OValuesN1.ofVec ([5, 5, 5, 5] : List ℝ)).toOValues 1 4 (fun _ _ => (5 : ℝ)) :=
    (OValuesN1.ofVec_holds (O := 4) (fun _ => (5 : ℝ))).data
  obtain ⟨q, h1, h2⟩ := ordered (F := ℝ) _ 1 4 (fun _ => 5) (fun _ _ => by norm_num) hd (by norm_num) (by norm_num)
  obtain ⟨P, e, h, _⟩ := h2 (1 / 2) (by simp)
  exact ⟨_, q, P, h1, e, h⟩

/-! ## The hypotheses are met by concrete inputs (`Proofs/Samples.lean`) -/

example := hierarchical (F := ℝ) 4 Sample.tree (Sample.hOf fun k _ => (k : ℝ) + 5) Sample.right (by decide) 2 (fun k => k + 5) (fun k _ => by positivity)
  (Sample.hData _)
example := spatiotemporal (F := ℝ) 4 Sample.tree (Sample.dOf fun k _ => (k : ℝ) + 5) Sample.right (by decide) 2 3 (by decide) (by decide) (by decide)
  (fun k => k + 5) (fun k _ => by positivity) (Sample.dData _)

end Lp.C40

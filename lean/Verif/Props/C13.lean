import Verif.Model.QHistory
import Verif.Props.C11
import Verif.Props.C12
import Verif.Proofs.Samples

/-!
# C13 — life cycle of a qualities object

`forEach QCall.runX calls o` performs the calls one after the other.  For an object built from values the state after
a history that starts with `computeQualities()` is one of two: the raw qualities if the last call was
`computeQualities()`, the normalized ones if it was `normalize()`.
-/

namespace Lp.C13
open Spec

/-- The abstract argument: two states, `compute` leads to `raw`, `normalize` to `nrm`. -/
theorem twoStates_aux {S : Type} (run : QCall → S → Res S) (raw nrm : S)
    (h1 : run .compute raw = .ok raw) (h2 : run .compute nrm = .ok raw) (h3 : run .normalize raw = .ok nrm)
    (h4 : run .normalize nrm = .ok nrm) (calls : List QCall) (s : S) (hs : s = raw ∨ s = nrm) :
    forEach run calls s = .ok (match calls.getLast? with | none => s | some .compute => raw | some .normalize => nrm) := by
  induction calls generalizing s with
  | nil => rfl
  | cons c cs ih =>
    have key : ∃ s', run c s = .ok s' ∧ s' = (match c with | .compute => raw | .normalize => nrm) := by
      cases c with
      | compute => rcases hs with rfl | rfl <;> [exact ⟨_, h1, rfl⟩; exact ⟨_, h2, rfl⟩]
      | normalize => rcases hs with rfl | rfl <;> [exact ⟨_, h3, rfl⟩; exact ⟨_, h4, rfl⟩]
    obtain ⟨s', e, hs'⟩ := key
    have hs'' : s' = raw ∨ s' = nrm := by cases c <;> simp only at hs' <;> [exact Or.inl hs'; exact Or.inr hs']
    rw [forEach]
    simp only [e]
    rw [ih s' hs'']
    cases cs with
    | nil => cases c <;> simp [hs']
    | cons c' cs' =>
      rw [List.getLast?_cons_cons, List.getLast?_cons]
      cases cs'.getLast?.getD c' <;> rfl

/-- Ordered data (non-negative, non-zero whole): all histories starting with `computeQualities()`. -/
theorem ordered (v : OValues ℝ) (m n : Nat) (V : Nat → Nat → ℝ) (hv : OData v m n V) (h0 : 0 < n) (hn : n ≤ 65535)
    (hpos : ∀ k i, k < m → i < n → 0 ≤ V k i) (hg : gainSeries m (Finset.Icc 0 (n - 1)) V ≠ 0)
    (hl : lossSeries m (Finset.Icc 0 (n - 1)) V ≠ 0) :
    ∃ raw nrm : OQualities ℝ, (OQualities.ofValues v).computeQualities = .ok raw ∧ raw.normalize = .ok nrm ∧
      ∀ calls : List QCall, forEach QCall.runO (.compute :: calls) (OQualities.ofValues v) =
        .ok (match (QCall.compute :: calls).getLast? with | some .normalize => nrm | _ => raw) := by
  obtain ⟨q, e, hq⟩ := oq_object hv hn hpos
  obtain ⟨nrm, h1, h2, q', h3, _⟩ := C11.idempotent v n hv.osize h0 q _ hq hg hl
  obtain ⟨q'', h5, _⟩ := C11.divides v n hv.osize h0 q _ hq
  have hn' : nrm = ⟨some v, some q''⟩ := Except.ok.inj (h1.symm.trans h5)
  have ec : ∀ x, (OQualities.mk (some v) x).computeQualities = .ok ⟨some v, some q⟩ := fun x => e
  refine ⟨_, nrm, e, h1, fun calls => ?_⟩
  rw [forEach]
  simp only [QCall.runO, e]
  rw [twoStates_aux QCall.runO ⟨some v, some q⟩ nrm (ec (some q)) (by rw [hn']; exact ec (some q'')) h1 h2 calls _ (Or.inl rfl)]
  rw [List.getLast?_cons]
  cases calls.getLast? with
  | none => rfl
  | some c => cases c <;> rfl

/-- Hierarchical data. -/
theorem hierarchical (leaves : Nat) (parents : List Int) (v : HValues ℝ) (hmd : RightMeta leaves parents v.md)
    (hlt : leaves < parents.length) (m : Nat) (V : Nat → Nat → ℝ)
    (hv : HData v m leaves V) (hpos : ∀ k h, k < m → h < leaves → 0 ≤ V k h)
    (hg : gainSeries m (Finset.range leaves) V ≠ 0) (hl : lossSeries m (Finset.range leaves) V ≠ 0) :
    ∃ raw nrm : HQualities ℝ, (HQualities.ofValues v).computeQualities = .ok raw ∧ raw.normalize = .ok nrm ∧
      ∀ calls : List QCall, forEach QCall.runH (.compute :: calls) (HQualities.ofValues v) =
        .ok (match (QCall.compute :: calls).getLast? with | some .normalize => nrm | _ => raw) := by
  obtain ⟨q, e, hq⟩ := hq_object hmd hlt hv hpos
  have er := leavesUnder_root hmd.tree
  obtain ⟨q', h1, h2, _⟩ := C12.hierarchicalExact (some v) v.md parents.length hmd.tree.rootLt q _ hq
    (by simp only [entQ, er]; exact hg) (by simp only [entQ, er]; exact hl)
  have ec : ∀ x, (HQualities.mk (some v) x v.md).computeQualities = .ok ⟨some v, some q, v.md⟩ := fun x => e
  refine ⟨_, _, e, h1, fun calls => ?_⟩
  rw [forEach]
  simp only [QCall.runH, e]
  rw [twoStates_aux QCall.runH ⟨some v, some q, v.md⟩ ⟨some v, some q', v.md⟩ (ec (some q)) (ec (some q')) h1 h2 calls _ (Or.inl rfl)]
  rw [List.getLast?_cons]
  cases calls.getLast? with
  | none => rfl
  | some c => cases c <;> rfl

/-- Spatiotemporal data. -/
theorem spatiotemporal (leaves : Nat) (parents : List Int) (v : DValues ℝ) (hmd : RightMeta leaves parents v.md)
    (hlt : leaves < parents.length) (m n : Nat) (hn0 : 0 < n) (hn : n ≤ 65535)
    (hb : leaves * n < 2147483648) (V : Nat → Nat × Nat → ℝ) (hv : DData v m leaves n V)
    (hpos : ∀ k h x, k < m → h < leaves → x < n → 0 ≤ V k (h, x))
    (hg : gainSeries m (Finset.range leaves ×ˢ Finset.Icc 0 (n - 1)) V ≠ 0)
    (hl : lossSeries m (Finset.range leaves ×ˢ Finset.Icc 0 (n - 1)) V ≠ 0) :
    ∃ raw nrm : DQualities ℝ, (DQualities.ofValues v).computeQualities = .ok raw ∧ raw.normalize = .ok nrm ∧
      ∀ calls : List QCall, forEach QCall.runD (.compute :: calls) (DQualities.ofValues v) =
        .ok (match (QCall.compute :: calls).getLast? with | some .normalize => nrm | _ => raw) := by
  obtain ⟨q, e, hq⟩ := dq_object hmd hlt hn hb hv hpos
  have er := leavesUnder_root hmd.tree
  obtain ⟨q', h1, h2, _⟩ := C12.spatiotemporalExact v v.md parents.length n hmd.tree.rootLt hmd.hsize hv.osize hn0 hn
    q _ hq (by simp only [entQ, dCells, er]; exact hg) (by simp only [entQ, dCells, er]; exact hl)
  have ec : ∀ x, (DQualities.mk (some v) x v.md).computeQualities = .ok ⟨some v, some q, v.md⟩ := fun x => e
  refine ⟨_, _, e, h1, fun calls => ?_⟩
  rw [forEach]
  simp only [QCall.runD, e]
  rw [twoStates_aux QCall.runD ⟨some v, some q, v.md⟩ ⟨some v, some q', v.md⟩ (ec (some q)) (ec (some q')) h1 h2 calls _ (Or.inl rfl)]
  rw [List.getLast?_cons]
  cases calls.getLast? with
  | none => rfl
  | some c => cases c <;> rfl

/-- Whatever the arithmetic and the data: `computeQualities()` depends on the values only, not on the qualities the
object had before. -/
theorem recompute {K : Type} [LDLog K] (v : OValues K) (hv : HValues K) (dv : DValues K) (md : HMeta)
    (x x' : Option (UTM (Quality K))) (y y' : Option (List (Quality K))) (z z' : Option (List (UTM (Quality K)))) :
    (OQualities.mk (some v) x).computeQualities = (OQualities.mk (some v) x').computeQualities ∧
    (HQualities.mk (some hv) y md).computeQualities = (HQualities.mk (some hv) y' md).computeQualities ∧
    (DQualities.mk (some dv) z md).computeQualities = (DQualities.mk (some dv) z' md).computeQualities :=
  ⟨rfl, rfl, rfl⟩

/-- An object built from ready-made qualities ignores `computeQualities()`, however often it is called: it goes on holding
the given qualities. -/
theorem readyMade {K : Type} [LDLog K] (calls : List QCall) (hc : ∀ c ∈ calls, c = .compute) (md : HMeta)
    (x : UTM (Quality K)) (y : List (Quality K)) (z : List (UTM (Quality K))) :
    forEach QCall.runO calls (OQualities.ofQualities x) = .ok ⟨none, some x⟩ ∧
    forEach QCall.runH calls (HQualities.ofQualities y md) = .ok ⟨none, some y, md⟩ ∧
    forEach QCall.runD calls (DQualities.ofQualities z md) = .ok ⟨none, some z, md⟩ := by
  induction calls with
  | nil => exact ⟨rfl, rfl, rfl⟩
  | cons c cs ih =>
    obtain rfl := hc c (by simp)
    exact ih (fun c hc' => hc c (by simp [hc']))

/-- The hypotheses of `ordered` are met by the data 1, 0, 2. -/
example : ∃ raw nrm : OQualities ℝ, (OQualities.ofValues (OValuesN1.ofVec [1, 0, 2]).toOValues).computeQualities = .ok raw ∧
      raw.normalize = .ok nrm ∧
      forEach QCall.runO [.compute, .normalize, .normalize, .compute] (OQualities.ofValues (OValuesN1.ofVec [1, 0, 2]).toOValues)
        = .ok raw ∧
      forEach QCall.runO [.compute, .compute, .normalize, .normalize] (OQualities.ofValues (OValuesN1.ofVec [1, 0, 2]).toOValues)
        = .ok nrm := by
  have hp : ∀ k i : Nat, k < 1 → i < 3 → 0 ≤ (fun _ i => if i = 2 then (2 : ℝ) else if i = 1 then 0 else 1) k i :=
    fun k i _ _ => by dsimp only; split_ifs <;> norm_num
  obtain ⟨raw, nrm, h1, h2, h3⟩ := ordered (OValuesN1.ofVec [1, 0, 2]).toOValues 1 3 _
    (OValuesN1.ofVec_holds (O := 3) (fun i => if i = 2 then (2 : ℝ) else if i = 1 then 0 else 1)).data
    (by norm_num) (by norm_num) hp (by
      rw [ne_eq, gainSeries_zero_iff (fun k hk x hx => hp k x hk (by simp at hx; omega))]
      intro h
      have := h 0 (by norm_num) 0 (by norm_num) 2 (by norm_num) (by norm_num) (by norm_num)
      omega) (by
      rw [ne_eq, lossSeries_zero_iff (fun k hk x hx => hp k x hk (by simp at hx; omega))]
      intro h
      have := h 0 (by norm_num) 0 (by norm_num) 2 (by norm_num)
      norm_num at this)
  exact ⟨raw, nrm, h1, h2, h3 _, h3 _⟩

/-! ## The hypotheses are met by concrete inputs (`Proofs/Samples.lean`) -/

example := hierarchical 4 Sample.tree Sample.hV Sample.right (by decide) 2 _ Sample.h Sample.h_nonneg Sample.h_whole.1 Sample.h_whole.2
example := spatiotemporal 4 Sample.tree Sample.dV Sample.right (by decide) 2 3 (by decide) (by decide) (by decide) _ Sample.d Sample.d_nonneg
  Sample.d_whole.1 Sample.d_whole.2
example (x : UTM (Quality ℝ)) (y : List (Quality ℝ)) (z : List (UTM (Quality ℝ))) := readyMade [.compute, .compute] (by simp) Sample.md x y z

end Lp.C13

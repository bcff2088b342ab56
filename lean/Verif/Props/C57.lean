import Verif.Proofs.DSum
import Verif.Proofs.Data
import Verif.Spec.Rounded
import Verif.Props.C03

/-!
# C57 — in every arithmetic, each value of a part is used exactly once

Nothing is assumed of the arithmetic: `K` may be any type with operations, so rounding, infinities and NaN are included.  The
quality of a part is built, one series after another, from one sum of the values of the part and one sum of their `x log x`
(`Measured`, `SumOf` in `Spec/SumOf.lean`): every value of the part is used exactly once in each sum, no other value is
used, and only the order of the additions is left open.  A single value has quality zero, exactly, even where the formula
would give a small rounding error or NaN.
-/

namespace Lp.C57
open Spec
variable {K : Type} [LDLog K]

/-- Ordered data. -/
theorem ordered (v : OValues K) (m n : Nat) (V : Nat → Nat → K) (hv : OData v m n V) (hn : n ≤ 65535) :
    ∃ (q : UTM (Quality K)) (f : Nat → Nat → Quality K),
      (OQualities.ofValues v).computeQualities = .ok ⟨some v, some q⟩ ∧
      (∀ i j, i ≤ j → j < n → q.get i j = .ok (f i j)) ∧
      (∀ i, i < n → f i i = ⟨0, 0⟩) ∧
      ∀ i j, i < j → j < n → Measured V (Finset.Icc i j) (Finset.Icc i j).card m (f i j) := by
  obtain ⟨q, f, e, h1, h2, h3⟩ := oqCompute_sum hv hn
  refine ⟨q, f, ?_, fun i j hij hj => h1.get hij hj, h2, ?_⟩
  · unfold OQualities.computeQualities OQualities.ofValues
    simp only [e, okBind, pureOk]
  · intro i j hij hj
    rw [← card_Icc i j hij.le]
    exact h3 i j hij hj

/-- Hierarchies. -/
theorem hierarchical (leaves : Nat) (parents : List Int) (v : HValues K) (hmd : RightMeta leaves parents v.md)
    (hlt : leaves < parents.length) (m : Nat) (V : Nat → Nat → K) (hv : HData v m leaves V) :
    ∃ (q : List (Quality K)) (f : Nat → Quality K),
      (HQualities.ofValues v).computeQualities = .ok ⟨some v, some q, v.md⟩ ∧
      (∀ h, h < parents.length → q[h]? = some (f h)) ∧
      (∀ h, h < leaves → f h = ⟨0, 0⟩) ∧
      ∀ h, leaves ≤ h → h < parents.length →
        Measured V (leavesUnder leaves parents h) (leavesUnder leaves parents h).card m (f h) := by
  obtain ⟨q, f, e, h1, h2, h3⟩ := hqCompute_sum hmd hv hlt
  refine ⟨q, f, ?_, fun h hh => h1.2 h hh, h2, fun h hl hh => h3 h (by omega) hh⟩
  unfold HQualities.computeQualities HQualities.ofValues
  simp only [e, okBind, pureOk]

/-- Hierarchy × time. -/
theorem spatiotemporal (leaves : Nat) (parents : List Int) (v : DValues K) (hmd : RightMeta leaves parents v.md)
    (hlt : leaves < parents.length) (m n : Nat) (hn : n ≤ 65535) (hb : leaves * n < 2147483648)
    (V : Nat → Nat × Nat → K) (hv : DData v m leaves n V) :
    ∃ (q : List (UTM (Quality K))) (f : Nat → Nat → Nat → Quality K),
      (DQualities.ofValues v).computeQualities = .ok ⟨some v, some q, v.md⟩ ∧
      (∀ h i j, h < parents.length → i ≤ j → j < n → mget q h i j = .ok (f h i j)) ∧
      (∀ h i, h < leaves → i < n → f h i i = ⟨0, 0⟩) ∧
      ∀ h i j, h < parents.length → i ≤ j → j < n → ¬ (h < leaves ∧ i = j) →
        Measured V (leavesUnder leaves parents h ×ˢ Finset.Icc i j) (leavesUnder leaves parents h ×ˢ Finset.Icc i j).card m
          (f h i j) := by
  obtain ⟨q, f, e, h1, h2⟩ := dqCompute_sum hmd hlt hv hn hb
  refine ⟨q, f, ?_, fun h i j hh hij hj => h1.get hh hij hj, ?_, ?_⟩
  · unfold DQualities.computeQualities DQualities.ofValues
    simp only [e, okBind, pureOk]
  · intro h i hl hi
    have := h2 h i i (lt_of_lt_of_le hl hmd.tree.leavesLe) (le_refl i) hi
    unfold DMeas at this
    rwa [if_pos ⟨hl, rfl⟩] at this
  · intro h i j hh hij hj hne
    have := h2 h i j hh hij hj
    unfold DMeas at this
    rwa [if_neg hne] at this

/-! ## What `SumOf` means -/

/-- In exact arithmetic there is only one such sum. -/
theorem exactSum {ι : Type} [DecidableEq ι] (f : ι → ℝ) (s : Finset ι) (x : ℝ) (h : SumOf f s x) : x = ∑ i ∈ s, f i := by
  induction h with
  | none => simp
  | one i => simp
  | add hd _ _ ih1 ih2 => rw [Finset.sum_union hd, ← ih1, ← ih2]

/-- In general the order matters: with 3 significant bits `(4 + 1/2) + 1/2 = 4` but `4 + (1/2 + 1/2) = 5`; both are
sums of the three values. -/
theorem orderMatters :
    let R := truncation 2
    let f : Nat → Rounded R := fun i => if i = 0 then R.to 4 else R.to (1 / 2)
    ∃ x y, SumOf f {0, 1, 2} x ∧ SumOf f {0, 1, 2} y ∧ x.1 = 4 ∧ y.1 = 5 := by
  intro R f
  refine ⟨(f 0 + f 1) + f 2, f 0 + (f 1 + f 2), ?_, ?_, by decide +kernel, by decide +kernel⟩
  · exact .add (s := {0} ∪ {1}) (t := {2}) (by decide) (.add (by decide) (.one 0) (.one 1)) (.one 2)
  · exact .add (s := {0}) (t := {1} ∪ {2}) (by decide) (.one 0) (.add (by decide) (.one 1) (.one 2))

/-! ## The theorems applied -/

/-- A deliberately lawless arithmetic: expressions.  Every operation is recorded, nothing is evaluated, and every comparison
holds. -/
inductive Expr
  | zero | one | val (i : Nat) | add (a b : Expr) | sub (a b : Expr) | mul (a b : Expr) | div (a b : Expr)
  | log (a : Expr) | logInt (z : Int) | ln | int (z : Int)
  deriving DecidableEq

instance : LDLog Expr where
  zero := .zero
  one := .one
  add := .add
  sub := .sub
  mul := .mul
  div := .div
  lt _ _ := True
  decLt _ _ := inferInstanceAs (Decidable True)
  log := .log
  logInt := .logInt
  ln := .ln
  ofInt := .int

/-- What the code computes for the whole of three values, as an expression: `gain` is
`0 + ((S * log S) / ln - I)`, where `S = (x₂ + x₁) + x₀`. -/
example : ((oqCompute (OValuesN1.ofVec [Expr.val 0, .val 1, .val 2]).toOValues).bind (fun q => q.get 0 2)).map Quality.gain =
    (let e : Expr → Expr := fun x => ((x * LDLog.log x) / LDLog.ln) - 0
     let S : Expr := (Expr.val 2 + .val 1) + .val 0
     let I : Expr := (e (.val 2) + e (.val 1)) + e (.val 0)
     .ok (0 + (((S * LDLog.log S) / LDLog.ln) - I))) := by
  decide +kernel

example : ∃ (v : OValues Expr) (q : UTM (Quality Expr)) (f : Nat → Nat → Quality Expr),
    v = (OValuesN1.ofVec (table1 3 Expr.val)).toOValues ∧
    (OQualities.ofValues v).computeQualities = .ok ⟨some v, some q⟩ ∧
    (∀ i j, i ≤ j → j < 3 → q.get i j = .ok (f i j)) ∧
    Measured (fun _ => Expr.val) (Finset.Icc 0 2) 3 1 (f 0 2) := by
  obtain ⟨q, f, h1, h2, _, h4⟩ := ordered _ 1 3 (fun _ => Expr.val) (OValuesN1.ofVec_holds (O := 3) Expr.val).data (by decide)
  exact ⟨_, q, f, rfl, h1, h2, h4 0 2 (by decide) (by decide)⟩

theorem meta_aux : ∃ md, mkMeta 4 [4, 4, 5, 5, 6, 6, -1] = .ok md ∧ RightMeta 4 [4, 4, 5, 5, 6, 6, -1] md := by
  have t : IsTree 4 [4, 4, 5, 5, 6, 6, -1] 6 :=
    .ofCheck (fun h => if h < 4 then 2 else if h < 6 then 1 else 0) (by decide) (by decide) (by decide) (by decide)
  obtain ⟨md, h1, _, h3⟩ := C03.right 4 [4, 4, 5, 5, 6, 6, -1] 6 t
    (balanced_nearestFirst t (.ofCheck (fun h => if h < 4 then 0 else if h < 6 then 1 else 2) (by decide) (by decide) (by decide)))
  exact ⟨md, h1, h3⟩

example : ∃ (v : HValues Expr) (q : List (Quality Expr)) (f : Nat → Quality Expr),
    (HQualities.ofValues v).computeQualities = .ok ⟨some v, some q, v.md⟩ ∧
    (∀ h, h < 7 → q[h]? = some (f h)) ∧
    Measured (fun _ => Expr.val) (leavesUnder 4 [4, 4, 5, 5, 6, 6, -1] 6) (leavesUnder 4 [4, 4, 5, 5, 6, 6, -1] 6).card 1 (f 6) := by
  obtain ⟨md, _, r⟩ := meta_aux
  have h : (⟨1, md, table1 4 Expr.val⟩ : HValuesN1 Expr).Holds 4 md Expr.val := ⟨rfl, rfl, rfl⟩
  obtain ⟨q, f, h1, h2, _, h4⟩ := hierarchical 4 [4, 4, 5, 5, 6, 6, -1] _ r (by decide) 1 _ h.data
  exact ⟨_, q, f, h1, h2, h4 6 (by decide) (by decide)⟩

example : ∃ (v : DValues Expr) (q : List (UTM (Quality Expr))) (f : Nat → Nat → Nat → Quality Expr),
    (DQualities.ofValues v).computeQualities = .ok ⟨some v, some q, v.md⟩ ∧
    (∀ h i j, h < 7 → i ≤ j → j < 2 → mget q h i j = .ok (f h i j)) ∧
    Measured (fun _ x => Expr.val (2 * x.1 + x.2)) (leavesUnder 4 [4, 4, 5, 5, 6, 6, -1] 6 ×ˢ Finset.Icc 0 1)
      (leavesUnder 4 [4, 4, 5, 5, 6, 6, -1] 6 ×ˢ Finset.Icc 0 1).card 1 (f 6 0 1) := by
  obtain ⟨md, _, r⟩ := meta_aux
  have h : (⟨1, 2, md, table2 4 2 (fun x => Expr.val (2 * x.1 + x.2))⟩ : DValuesN2 Expr).Holds 4 2 md
      (fun x => Expr.val (2 * x.1 + x.2)) := ⟨rfl, rfl, rfl, rfl⟩
  obtain ⟨q, f, h1, h2, _, h4⟩ := spatiotemporal 4 [4, 4, 5, 5, 6, 6, -1] _ r (by decide) 1 2 (by decide)
    (by decide) _ h.data
  exact ⟨_, q, f, h1, h2, h4 6 0 1 (by decide) (by decide) (by decide) (by decide)⟩

end Lp.C57

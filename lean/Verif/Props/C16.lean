import Verif.Proofs.OExact
import Verif.Proofs.Choice
import Verif.Spec.Float
import Mathlib.Tactic.NormNum
import Mathlib.Tactic.IntervalCases

/-!
# C16 — the ordered partition is optimal
-/

namespace Lp.C16
open Spec

/-- For exact qualities and any rounding of the weights `p` and `1-p`: the returned parts form a tiling `L`, the
reported quality is that of `L`, and every other tiling has a smaller value, or the same value and a smaller gain,
or the same value and gain and at least the loss. -/
theorem optimal {F K : Type} [Field K] [LinearOrder K] [IsStrictOrderedRing K] [FloatP F K]
    (q : UTM (Quality K)) (n : Nat) (f : Nat → Nat → Quality K) (hq : q.Rep n f) (p : F) :
    ∃ (P : OPartition F K) (L : List (Nat × Nat)), oBestPartition q p = .ok P ∧ Tiles 0 n L ∧
      P.parts = L.map (fun I => ⟨I.1, I.2, f I.1 I.2⟩) ∧
      P.quality = ⟨gainOf (fun I => f I.1 I.2) L, lossOf (fun I => f I.1 I.2) L⟩ ∧
      ∀ L', Tiles 0 n L' →
        let v := valueOf (FloatP.toK p) (FloatP.toK (FloatP.oneSub p)) (fun I : Nat × Nat => f I.1 I.2)
        let gain := gainOf (fun I : Nat × Nat => f I.1 I.2)
        let loss := lossOf (fun I : Nat × Nat => f I.1 I.2)
        v L' < v L ∨ (v L' = v L ∧ (gain L' < gain L ∨ (gain L' = gain L ∧ loss L ≤ loss L'))) := by
  obtain ⟨P, ds, L, h1, h2, h3, _, h5, h6⟩ := oBest_first hq p
  refine ⟨P, L, h1, oSol_tiles h5 0 rfl (by omega), h2, h3, ?_⟩
  intro L' hL'
  obtain ⟨ds', hs'⟩ := tiles_oSol hL'
  exact (wsum_obq_le p _ L' L).mp (h6 ds' L' hs').1

/-- With exact parameter arithmetic the criterion is `p*gain-(1-p)*loss`. -/
theorem optimal_exact {K : Type} [Field K] [LinearOrder K] [IsStrictOrderedRing K]
    (q : UTM (Quality K)) (n : Nat) (f : Nat → Nat → Quality K) (hq : q.Rep n f) (p : K) :
    ∃ (P : OPartition K K), oBestPartition q p = .ok P ∧
      ∀ L', Tiles 0 n L' →
        p * gainOf (fun I => f I.1 I.2) L' - (1 - p) * lossOf (fun I => f I.1 I.2) L' ≤
          p * P.quality.gain - (1 - p) * P.quality.loss := by
  obtain ⟨P, L, h1, _, _, h4, h5⟩ := optimal q n f hq p
  refine ⟨P, h1, ?_⟩
  intro L' hL'
  rw [h4]
  exact LexLe.value (h5 L' hL')

/-! ## A concrete case -/

/-- Matrix of size 3: gains and losses of the intervals `[0,0] [1,1] [2,2] [0,1] [1,2] [0,2]`. -/
def exQ : UTM (Quality ℚ) := ⟨3, [⟨0, 0⟩, ⟨0, 0⟩, ⟨0, 0⟩, ⟨2, 1⟩, ⟨3, 3⟩, ⟨6, 8⟩]⟩

/-- Contents of `exQ`. -/
def exF (i j : Nat) : Quality ℚ := (exQ.data[UTM.index 3 i j]?).getD ⟨0, 0⟩

theorem exRep : exQ.Rep 3 exF := by
  refine ⟨by decide, rfl, rfl, ?_⟩
  intro i j hij hj
  have : UTM.index 3 i j < exQ.data.length := UTM.index_lt (n := 3) (by decide) hij hj
  simp [exF, this]

/-- At `p = 1/2` the best partition of `exQ` is `[0,1] [2,2]`, at `p = 9/10` it is the whole interval. -/
example : (oBestPartition exQ (1 / 2 : ℚ)).map (fun P => (P.parts.map (fun x => (x.start, x.end)), P.quality)) =
    .ok ([(0, 1), (2, 2)], ⟨2, 1⟩) := by decide +kernel
example : (oBestPartition exQ (9 / 10 : ℚ)).map (fun P => P.parts.map (fun x => (x.start, x.end))) =
    .ok [(0, 2)] := by decide +kernel

/-- The theorem applied to it. -/
example : ∃ P : OPartition ℚ ℚ, oBestPartition exQ (1 / 2 : ℚ) = .ok P ∧
    ∀ L', Tiles 0 3 L' → 1 / 2 * gainOf (fun I => exF I.1 I.2) L' - (1 - 1 / 2) * lossOf (fun I => exF I.1 I.2) L' ≤
      1 / 2 * P.quality.gain - (1 - 1 / 2) * P.quality.loss :=
  optimal_exact exQ 3 exF exRep (1 / 2)

/-! ## The hypotheses are met by concrete inputs -/

example := optimal exQ 3 exF exRep (1 / 2 : ℚ)

end Lp.C16

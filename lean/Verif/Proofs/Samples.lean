import Verif.Props.C03
import Verif.Proofs.Data
import Verif.Proofs.Series
import Verif.Proofs.MRep
import Verif.Spec.Float
import Mathlib.Tactic.IntervalCases

/-!
# Concrete inputs for the examples beside the theorems

A tree of seven nodes (leaves 0-3 below 4 and 5, these below the root 6), tables of qualities of that size, and positive data with two series.
-/

namespace Lp.Sample
open Spec

/-- Parents: leaves 0, 1 below 4; leaves 2, 3 below 5; 4 and 5 below the root 6. -/
abbrev tree : List Int := [4, 4, 5, 5, 6, 6, -1]

theorem isTree : IsTree 4 tree 6 :=
  .ofCheck (fun h => if h < 4 then 2 else if h < 6 then 1 else 0) (by decide) (by decide) (by decide) (by decide)

theorem balanced : Balanced 4 tree :=
  .ofCheck (fun h => if h < 4 then 0 else if h < 6 then 1 else 2) (by decide) (by decide) (by decide)

theorem nearest : NearestFirst 4 tree := balanced_nearestFirst isTree balanced

/-- What the constructors derive from the parents. -/
def md : HMeta :=
  match mkMeta 4 tree with
  | .ok m => m
  | .error _ => ⟨0, 0, [], [], fun _ => none, [], 0⟩

theorem mk : mkMeta 4 tree = .ok md := by
  obtain ⟨m, h, _⟩ := C03.right 4 tree 6 isTree nearest
  unfold md
  rw [h]

theorem right : RightMeta 4 tree md := by
  obtain ⟨m, h, _, r⟩ := C03.right 4 tree 6 isTree nearest
  rw [mk] at h
  rw [Except.ok.inj h]; exact r

theorem root : md.root = 6 := by
  obtain ⟨m, h, r, _⟩ := C03.right 4 tree 6 isTree nearest
  rw [mk] at h
  rw [Except.ok.inj h]; exact r

/-! ## Tables of qualities -/

/-- Gain and loss of a node. -/
def hF (h : Nat) : Quality ℚ := if h < 4 then ⟨0, 0⟩ else if h = 4 then ⟨3, 1⟩ else if h = 5 then ⟨2, 3⟩ else ⟨8, 7⟩

def hQ : List (Quality ℚ) := (List.range 7).map hF

theorem hRep : VRep hQ 7 hF := ⟨rfl, fun h hh => by simp [hQ, hh]⟩

/-- A table for three slices. -/
def triangle {α : Type} (f : Nat → Nat → α) : UTM α := ⟨3, [f 0 0, f 1 1, f 2 2, f 0 1, f 1 2, f 0 2]⟩

theorem triangleRep {α : Type} (f : Nat → Nat → α) : (triangle f).Rep 3 f := by
  refine ⟨by decide, rfl, by simp [triangle]; decide, fun i j hij hj => ?_⟩
  interval_cases j <;> interval_cases i <;> rfl

/-- Gain and loss of an interval. -/
def oF (i j : Nat) : Quality ℚ := if i = j then ⟨0, 0⟩ else if j = 1 then ⟨2, 1⟩ else if i = 1 then ⟨3, 3⟩ else ⟨6, 8⟩

def oQ : UTM (Quality ℚ) := triangle oF

theorem oRep : oQ.Rep 3 oF := triangleRep oF

/-- Gain and loss of a node over an interval. -/
def dF (h i j : Nat) : Quality ℚ := ⟨(hF h).gain + (oF i j).gain, (hF h).loss + 2 * (oF i j).loss⟩

def dQ : List (UTM (Quality ℚ)) := (List.range 7).map (fun h => triangle (dF h))

theorem dRep : MRep dQ 7 3 dF := ⟨rfl, fun h hh => ⟨triangle (dF h), by simp [dQ, hh], triangleRep (dF h)⟩⟩

/-- A table for one slice. -/
theorem sliceRep : MRep ((List.range 7).map (fun h => (⟨1, [hF h]⟩ : UTM (Quality ℚ)))) 7 1 (fun h _ _ => hF h) := by
  refine ⟨rfl, fun h hh => ⟨⟨1, [hF h]⟩, by simp [hh], by decide, rfl, by simp; decide, fun i j hij hj => ?_⟩⟩
  interval_cases j
  interval_cases i
  rfl

/-! ## Data: two series -/

/-- The values. -/
noncomputable def val (k x : Nat) : ℝ := k + x + 1

theorem val_pos (k x : Nat) : 0 < val k x := by unfold val; positivity

/-- Two series of three given values. -/
def oOf {K : Type} (V : Nat → Nat → K) : OValues K := (OValuesN2.ofVec (table2 2 3 (fun x => V x.1 x.2))).toOValues

theorem oData {K : Type} (V : Nat → Nat → K) : OData (oOf V) 2 3 V :=
  (OValuesN2.ofVec_holds (V := 2) (O := 3) (by decide) (fun x => V x.1 x.2)).data

/-- Ordered data: series 0: 1, 2, 3; series 1: 2, 3, 4. -/
noncomputable def oV : OValues ℝ := oOf val

theorem o : OData oV 2 3 val := oData val

theorem o_nonneg : ∀ k i, k < 2 → i < 3 → 0 ≤ val k i := fun k i _ _ => (val_pos k i).le

/-- Two series of values on the leaves of the tree. -/
def hOf {K : Type} (V : Nat → Nat → K) : HValues K := (⟨2, md, table2 4 2 (fun x => V x.2 x.1)⟩ : HValuesN2 K).toHValues

theorem hHolds {K : Type} (V : Nat → Nat → K) :
    (⟨2, md, table2 4 2 (fun x => V x.2 x.1)⟩ : HValuesN2 K).Holds 4 2 md (fun x => V x.2 x.1) := ⟨rfl, rfl, rfl⟩

theorem hData {K : Type} (V : Nat → Nat → K) : HData (hOf V) 2 4 V := (hHolds V).data

/-- The numbers of `oV` and one more per series, on the leaves. -/
noncomputable def hV : HValues ℝ := hOf val

theorem h : HData hV 2 4 val := hData val

theorem hRight : RightMeta 4 tree hV.md := right

theorem hRoot : hV.md.root = tree.length - 1 := root

theorem h_nonneg : ∀ k l, k < 2 → l < 4 → 0 ≤ val k l := fun k l _ _ => (val_pos k l).le

/-- Leaf `l` in slice `i`. -/
noncomputable def dVal (k : Nat) (x : Nat × Nat) : ℝ := val k (x.1 + 2 * x.2)

theorem dVal_pos (k : Nat) (x : Nat × Nat) : 0 < dVal k x := val_pos _ _

/-- Two series of values on the leaves of the tree in three slices. -/
def dOf {K : Type} (V : Nat → Nat × Nat → K) : DValues K :=
  (⟨2, 3, md, table3 4 2 3 (fun x => V x.2.1 (x.1, x.2.2))⟩ : DValuesN3 K).toDValues

theorem dHolds {K : Type} (V : Nat → Nat × Nat → K) :
    (⟨2, 3, md, table3 4 2 3 (fun x => V x.2.1 (x.1, x.2.2))⟩ : DValuesN3 K).Holds 4 2 3 md (fun x => V x.2.1 (x.1, x.2.2)) :=
  ⟨rfl, rfl, rfl, rfl⟩

theorem dData {K : Type} (V : Nat → Nat × Nat → K) : DData (dOf V) 2 4 3 V := (dHolds V).data

noncomputable def dV : DValues ℝ := dOf dVal

theorem d : DData dV 2 4 3 dVal := dData dVal

theorem dRight : RightMeta 4 tree dV.md := right

theorem dRoot : dV.md.root = tree.length - 1 := root

theorem d_nonneg : ∀ k l i, k < 2 → l < 4 → i < 3 → 0 ≤ dVal k (l, i) := fun k l i _ _ _ => (dVal_pos k (l, i)).le

theorem whole_aux {ι : Type} {m : Nat} {V : Nat → ι → ℝ} {s : Finset ι} (hm : 0 < m) (hv : ∀ k < m, ∀ x ∈ s, 0 ≤ V k x) {a b : ι}
    (ha : a ∈ s) (hb : b ∈ s) (hab : V 0 a ≠ V 0 b) (pa : 0 < V 0 a) (pb : 0 < V 0 b) :
    gainSeries m s V ≠ 0 ∧ lossSeries m s V ≠ 0 := by
  constructor
  · rw [ne_eq, gainSeries_zero_iff hv]
    intro h
    exact hab (congrArg _ (h 0 hm a ha b hb pa pb))
  · rw [ne_eq, lossSeries_zero_iff hv]
    intro h
    exact hab (h 0 hm a ha b hb)

theorem o_whole : gainSeries 2 (Finset.Icc 0 (3 - 1)) val ≠ 0 ∧ lossSeries 2 (Finset.Icc 0 (3 - 1)) val ≠ 0 :=
  whole_aux (by decide) (fun k _ x _ => (val_pos k x).le) (a := 0) (b := 1) (by decide) (by decide) (by norm_num [val])
    (val_pos _ _) (val_pos _ _)

theorem h_whole : gainSeries 2 (Finset.range 4) val ≠ 0 ∧ lossSeries 2 (Finset.range 4) val ≠ 0 :=
  whole_aux (by decide) (fun k _ x _ => (val_pos k x).le) (a := 0) (b := 1) (by decide) (by decide) (by norm_num [val])
    (val_pos _ _) (val_pos _ _)

theorem d_whole : gainSeries 2 (Finset.range 4 ×ˢ Finset.Icc 0 (3 - 1)) dVal ≠ 0 ∧
    lossSeries 2 (Finset.range 4 ×ˢ Finset.Icc 0 (3 - 1)) dVal ≠ 0 :=
  whole_aux (by decide) (fun k _ x _ => (dVal_pos k x).le) (a := (0, 0)) (b := (1, 0)) (by decide) (by decide) (by norm_num [dVal, val])
    (dVal_pos _ _) (dVal_pos _ _)

end Lp.Sample

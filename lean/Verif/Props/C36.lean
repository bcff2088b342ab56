import Verif.Proofs.Aggregation
import Verif.Proofs.OPart
import Verif.Proofs.OEntropy
import Mathlib.Tactic.NormNum
import Mathlib.Tactic.FieldSimp
import Verif.Proofs.Samples

/-!
# C36 — ordered aggregates

Exact arithmetic.  `c.Holds .. f` says that the container `c` has the given dimensions and contents `f` (C02 proves
this for containers after any history of writes).
-/

namespace Lp.C36
open Spec

/-- The part `[s, e]` with some quality. -/
abbrev part (s e : Nat) (q : Quality ℝ) : OPart ℝ := ⟨s, e, q⟩

/-- The mean the property asks for. -/
noncomputable abbrev mean (x : Nat → ℝ) (s e : Nat) : ℝ := intervalTotal x s e / ((e : ℝ) - s + 1)

/-- The number that is divided by is the size of the part, and multiplying the mean by it gives the sum. -/
theorem meanTimesSize (x : Nat → ℝ) (s e : Nat) (q : Quality ℝ) (hse : s ≤ e) :
    mean x s e * ((part s e q).getSize : ℝ) = intervalTotal x s e ∧ (part s e q).getSize = ((Finset.Icc s e).card : Int) := by
  have h0 : ((e : ℝ) - s + 1) ≠ 0 := by
    have : (s : ℝ) ≤ e := by exact_mod_cast hse
    linarith
  constructor
  · have : (((part s e q).getSize : Int) : ℝ) = (e : ℝ) - s + 1 := by
      simp only [OPart.getSize]; push_cast; rfl
    rw [this]
    unfold mean
    exact div_mul_cancel₀ _ h0
  · rw [Nat.card_Icc]
    simp only [OPart.getSize]
    omega

/-! ## One aggregate -/

/-- One series. -/
theorem aggregateN1 (c : OValuesN1 ℝ) (O : Nat) (f : Nat → ℝ) (hc : c.Holds O f) (s e : Nat) (q : Quality ℝ)
    (hse : s ≤ e) (he : e < O) :
    oAggregateN1 c (part s e q) = .ok ⟨part s e q, intervalTotal f s e, mean f s e⟩ := by
  unfold oAggregateN1
  rw [oAggCell_ok q hse (fun o _ h2 => hc.read (by omega))]
  rfl

/-- Several series. -/
theorem aggregateN2 (c : OValuesN2 ℝ) (V O : Nat) (f : Nat × Nat → ℝ) (hc : c.Holds V O f) (s e : Nat)
    (q : Quality ℝ) (hse : s ≤ e) (he : e < O) :
    oAggregateN2 c (part s e q) = .ok ⟨part s e q,
      table1 V fun a => intervalTotal (fun o => f (a, o)) s e,
      table1 V fun a => mean (fun o => f (a, o)) s e⟩ := by
  unfold oAggregateN2
  rw [hc.vsize, build_ok (fun a ha => oAggCell_ok q hse (fun o _ h2 => hc.read ha (by omega)))]
  simp only [okBind, pureOk, table1_map]

/-- Two-dimensional series. -/
theorem aggregateN3 (c : OValuesN3 ℝ) (I J O : Nat) (f : Nat × Nat × Nat → ℝ) (hc : c.Holds I J O f) (s e : Nat)
    (q : Quality ℝ) (hse : s ≤ e) (he : e < O) :
    oAggregateN3 c (part s e q) = .ok ⟨part s e q,
      table2 I J fun x => intervalTotal (fun o => f (x.1, x.2, o)) s e,
      table2 I J fun x => mean (fun o => f (x.1, x.2, o)) s e⟩ := by
  unfold oAggregateN3
  rw [hc.i, hc.j, build_ok (fun a ha => build_ok (fun b hb => oAggCell_ok q hse (fun o _ h2 => hc.read ha hb (by omega))))]
  simp only [okBind, pureOk, table1_map]
  rfl

/-- Three-dimensional series. -/
theorem aggregateN4 (c : OValuesN4 ℝ) (I J Z O : Nat) (f : Nat × Nat × Nat × Nat → ℝ) (hc : c.Holds I J Z O f)
    (s e : Nat) (q : Quality ℝ) (hse : s ≤ e) (he : e < O) :
    oAggregateN4 c (part s e q) = .ok ⟨part s e q,
      table3 I J Z fun x => intervalTotal (fun o => f (x.1, x.2.1, x.2.2, o)) s e,
      table3 I J Z fun x => mean (fun o => f (x.1, x.2.1, x.2.2, o)) s e⟩ := by
  unfold oAggregateN4
  rw [hc.i, hc.j, hc.k, build_ok (fun a ha => build_ok (fun b hb => build_ok (fun k hk =>
    oAggCell_ok q hse (fun o _ h2 => hc.read ha hb hk (by omega)))))]
  simp only [okBind, pureOk, table1_map]
  rfl

/-! ## All aggregates of a partition -/

/-- The parts with the intervals of `L`. -/
abbrev partsOf (qs : Nat × Nat → Quality ℝ) (L : List (Nat × Nat)) : List (OPart ℝ) :=
  L.map fun I => part I.1 I.2 (qs I)

/-- One series: one aggregate per part in the order of the parts, and the sums add up to the total of the data. -/
theorem partitionN1 (c : OValuesN1 ℝ) (O : Nat) (f : Nat → ℝ) (hc : c.Holds O f) (L : List (Nat × Nat))
    (hL : Tiles 0 O L) (qs : Nat × Nat → Quality ℝ) :
    ∃ as, aggregation (oAggregateN1 c) (partsOf qs L) = .ok as ∧
      as = L.map (fun I => ⟨part I.1 I.2 (qs I), intervalTotal f I.1 I.2, mean f I.1 I.2⟩) ∧
      (as.map (fun a => a.sum)).sum = ∑ o ∈ Finset.range O, f o := by
  refine ⟨(partsOf qs L).map (fun p => ⟨p, intervalTotal f p.start.toNat p.end.toNat,
    mean f p.start.toNat p.end.toNat⟩), aggregation_ok ?_, ?_, ?_⟩
  · intro p hp
    obtain ⟨I, hI, rfl⟩ := List.mem_map.mp hp
    have hb := hL.bounds I hI
    exact aggregateN1 c O f hc I.1 I.2 (qs I) hb.2.1 hb.2.2
  · simp [partsOf]
  · rw [Finset.range_eq_Ico, ← tiles_total hL f]
    simp [partsOf, Function.comp_def]

/-- Several series. -/
theorem partitionN2 (c : OValuesN2 ℝ) (V O : Nat) (f : Nat × Nat → ℝ) (hc : c.Holds V O f) (L : List (Nat × Nat))
    (hL : Tiles 0 O L) (qs : Nat × Nat → Quality ℝ) :
    ∃ as, aggregation (oAggregateN2 c) (partsOf qs L) = .ok as ∧
      as = L.map (fun I => ⟨part I.1 I.2 (qs I), table1 V fun a => intervalTotal (fun o => f (a, o)) I.1 I.2,
        table1 V fun a => mean (fun o => f (a, o)) I.1 I.2⟩) ∧
      ∀ a, a < V → (as.map (fun x => (x.sum[a]?).getD 0)).sum = ∑ o ∈ Finset.range O, f (a, o) := by
  refine ⟨(partsOf qs L).map (fun p => ⟨p, table1 V fun a => intervalTotal (fun o => f (a, o)) p.start.toNat p.end.toNat,
    table1 V fun a => mean (fun o => f (a, o)) p.start.toNat p.end.toNat⟩), aggregation_ok ?_, ?_, ?_⟩
  · intro p hp
    obtain ⟨I, hI, rfl⟩ := List.mem_map.mp hp
    have hb := hL.bounds I hI
    exact aggregateN2 c V O f hc I.1 I.2 (qs I) hb.2.1 hb.2.2
  · simp [partsOf]
  · intro a ha
    rw [Finset.range_eq_Ico, ← tiles_total hL (fun o => f (a, o))]
    simp [partsOf, Function.comp_def, table1, List.getElem?_map, List.getElem?_range, ha]

/-- Two-dimensional series. -/
theorem partitionN3 (c : OValuesN3 ℝ) (I J O : Nat) (f : Nat × Nat × Nat → ℝ) (hc : c.Holds I J O f)
    (L : List (Nat × Nat)) (hL : Tiles 0 O L) (qs : Nat × Nat → Quality ℝ) :
    ∃ as, aggregation (oAggregateN3 c) (partsOf qs L) = .ok as ∧
      as = L.map (fun X => ⟨part X.1 X.2 (qs X),
        table2 I J fun x => intervalTotal (fun o => f (x.1, x.2, o)) X.1 X.2,
        table2 I J fun x => mean (fun o => f (x.1, x.2, o)) X.1 X.2⟩) ∧
      ∀ a b, a < I → b < J → (as.map (fun x => (((x.sum[a]?).getD [])[b]?).getD 0)).sum =
        ∑ o ∈ Finset.range O, f (a, b, o) := by
  refine ⟨(partsOf qs L).map (fun p => ⟨p,
    table2 I J fun x => intervalTotal (fun o => f (x.1, x.2, o)) p.start.toNat p.end.toNat,
    table2 I J fun x => mean (fun o => f (x.1, x.2, o)) p.start.toNat p.end.toNat⟩), aggregation_ok ?_, ?_, ?_⟩
  · intro p hp
    obtain ⟨X, hX, rfl⟩ := List.mem_map.mp hp
    have hb := hL.bounds X hX
    exact aggregateN3 c I J O f hc X.1 X.2 (qs X) hb.2.1 hb.2.2
  · simp [partsOf]
  · intro a b ha hb
    rw [Finset.range_eq_Ico, ← tiles_total hL (fun o => f (a, b, o))]
    simp [partsOf, Function.comp_def, table1, table2, List.getElem?_map, List.getElem?_range, ha, hb]

/-- Three-dimensional series. -/
theorem partitionN4 (c : OValuesN4 ℝ) (I J Z O : Nat) (f : Nat × Nat × Nat × Nat → ℝ) (hc : c.Holds I J Z O f)
    (L : List (Nat × Nat)) (hL : Tiles 0 O L) (qs : Nat × Nat → Quality ℝ) :
    ∃ as, aggregation (oAggregateN4 c) (partsOf qs L) = .ok as ∧
      as = L.map (fun X => ⟨part X.1 X.2 (qs X),
        table3 I J Z fun x => intervalTotal (fun o => f (x.1, x.2.1, x.2.2, o)) X.1 X.2,
        table3 I J Z fun x => mean (fun o => f (x.1, x.2.1, x.2.2, o)) X.1 X.2⟩) ∧
      ∀ a b k, a < I → b < J → k < Z →
        (as.map (fun x => (((((x.sum[a]?).getD [])[b]?).getD [])[k]?).getD 0)).sum =
          ∑ o ∈ Finset.range O, f (a, b, k, o) := by
  refine ⟨(partsOf qs L).map (fun p => ⟨p,
    table3 I J Z fun x => intervalTotal (fun o => f (x.1, x.2.1, x.2.2, o)) p.start.toNat p.end.toNat,
    table3 I J Z fun x => mean (fun o => f (x.1, x.2.1, x.2.2, o)) p.start.toNat p.end.toNat⟩), aggregation_ok ?_, ?_, ?_⟩
  · intro p hp
    obtain ⟨X, hX, rfl⟩ := List.mem_map.mp hp
    have hb := hL.bounds X hX
    exact aggregateN4 c I J Z O f hc X.1 X.2 (qs X) hb.2.1 hb.2.2
  · simp [partsOf]
  · intro a b k ha hb hk
    rw [Finset.range_eq_Ico, ← tiles_total hL (fun o => f (a, b, k, o))]
    simp [partsOf, Function.comp_def, table1, table2, table3, List.getElem?_map, List.getElem?_range, ha, hb, hk]

/-- End to end, for any parameter: the aggregates of the partition that `computeBestPartition` returns add up to the
total of the data. -/
theorem bestPartitionN2 {F : Type} [FloatP F ℝ] (c : OValuesN2 ℝ) (V O : Nat) (f : Nat × Nat → ℝ) (hc : c.Holds V O f)
    (q : UTM (Quality ℝ)) (g : Nat → Nat → Quality ℝ) (hq : q.Rep O g) (p : F) :
    ∃ (P : OPartition F ℝ) (as : List (Aggregate (OPart ℝ) (List ℝ))), oBestPartition q p = .ok P ∧
      aggregation (oAggregateN2 c) P.parts = .ok as ∧ as.map (fun x => x.part) = P.parts ∧
      ∀ a, a < V → (as.map (fun x => (x.sum[a]?).getD 0)).sum = ∑ o ∈ Finset.range O, f (a, o) := by
  obtain ⟨P, T, C, ds, L, h1, _, h3, h4, _, h6⟩ := oBest_spec hq p
  have hT := oSol_tiles h3.sol 0 rfl (by omega)
  obtain ⟨as, ha, hb, hd⟩ := partitionN2 c V O f hc L hT (fun I => g I.1 I.2)
  refine ⟨P, as, h1, by rw [h4]; exact ha, ?_, hd⟩
  rw [hb, h4, List.map_map]
  rfl

/-- The same with one series. -/
theorem bestPartitionN1 {F : Type} [FloatP F ℝ] (c : OValuesN1 ℝ) (O : Nat) (f : Nat → ℝ) (hc : c.Holds O f)
    (q : UTM (Quality ℝ)) (g : Nat → Nat → Quality ℝ) (hq : q.Rep O g) (p : F) :
    ∃ (P : OPartition F ℝ) (as : List (Aggregate (OPart ℝ) ℝ)), oBestPartition q p = .ok P ∧
      aggregation (oAggregateN1 c) P.parts = .ok as ∧ as.map (fun x => x.part) = P.parts ∧
      (as.map (fun x => x.sum)).sum = ∑ o ∈ Finset.range O, f o := by
  obtain ⟨P, T, C, ds, L, h1, _, h3, h4, _, h6⟩ := oBest_spec hq p
  have hT := oSol_tiles h3.sol 0 rfl (by omega)
  obtain ⟨as, ha, hb, hd⟩ := partitionN1 c O f hc L hT (fun I => g I.1 I.2)
  refine ⟨P, as, h1, by rw [h4]; exact ha, ?_, hd⟩
  rw [hb, h4, List.map_map]
  rfl

/-- The same with two-dimensional series. -/
theorem bestPartitionN3 {F : Type} [FloatP F ℝ] (c : OValuesN3 ℝ) (I J O : Nat) (f : Nat × Nat × Nat → ℝ)
    (hc : c.Holds I J O f) (q : UTM (Quality ℝ)) (g : Nat → Nat → Quality ℝ) (hq : q.Rep O g) (p : F) :
    ∃ (P : OPartition F ℝ) (as : List (Aggregate (OPart ℝ) (List (List ℝ)))), oBestPartition q p = .ok P ∧
      aggregation (oAggregateN3 c) P.parts = .ok as ∧ as.map (fun x => x.part) = P.parts ∧
      ∀ a b, a < I → b < J →
        (as.map (fun x => (((x.sum[a]?).getD [])[b]?).getD 0)).sum = ∑ o ∈ Finset.range O, f (a, b, o) := by
  obtain ⟨P, T, C, ds, L, h1, _, h3, h4, _, h6⟩ := oBest_spec hq p
  have hT := oSol_tiles h3.sol 0 rfl (by omega)
  obtain ⟨as, ha, hb, hd⟩ := partitionN3 c I J O f hc L hT (fun I => g I.1 I.2)
  refine ⟨P, as, h1, by rw [h4]; exact ha, ?_, hd⟩
  rw [hb, h4, List.map_map]
  rfl

/-- The same with three-dimensional series. -/
theorem bestPartitionN4 {F : Type} [FloatP F ℝ] (c : OValuesN4 ℝ) (I J Z O : Nat) (f : Nat × Nat × Nat × Nat → ℝ)
    (hc : c.Holds I J Z O f) (q : UTM (Quality ℝ)) (g : Nat → Nat → Quality ℝ) (hq : q.Rep O g) (p : F) :
    ∃ (P : OPartition F ℝ) (as : List (Aggregate (OPart ℝ) (List (List (List ℝ))))), oBestPartition q p = .ok P ∧
      aggregation (oAggregateN4 c) P.parts = .ok as ∧ as.map (fun x => x.part) = P.parts ∧
      ∀ a b k, a < I → b < J → k < Z →
        (as.map (fun x => (((((x.sum[a]?).getD [])[b]?).getD [])[k]?).getD 0)).sum =
          ∑ o ∈ Finset.range O, f (a, b, k, o) := by
  obtain ⟨P, T, C, ds, L, h1, _, h3, h4, _, h6⟩ := oBest_spec hq p
  have hT := oSol_tiles h3.sol 0 rfl (by omega)
  obtain ⟨as, ha, hb, hd⟩ := partitionN4 c I J Z O f hc L hT (fun I => g I.1 I.2)
  refine ⟨P, as, h1, by rw [h4]; exact ha, ?_, hd⟩
  rw [hb, h4, List.map_map]
  rfl

/-! ## A concrete case -/

/-- Two series of 4 values cut into `[0,2] [3,3]`. -/
example : (OValuesN2.ofVec (table2 2 4 fun x => ((10 * x.1 + x.2 : Nat) : ℝ))).Holds 2 4
    (fun x => ((10 * x.1 + x.2 : Nat) : ℝ)) ∧ Tiles 0 4 [(0, 2), (3, 3)] ∧
    intervalTotal (fun o => ((10 * 1 + o : Nat) : ℝ)) 0 2 = 33 ∧ mean (fun o => ((10 * 1 + o : Nat) : ℝ)) 0 2 = 11 := by
  refine ⟨OValuesN2.ofVec_holds (by decide) _, .cons (by decide) (by decide) (.cons (by decide) (by decide) (.nil 4)), ?_, ?_⟩
  · unfold intervalTotal
    rw [show Finset.Icc 0 2 = ({0, 1, 2} : Finset Nat) by decide]
    norm_num
  · unfold mean intervalTotal
    rw [show Finset.Icc 0 2 = ({0, 1, 2} : Finset Nat) by decide]
    norm_num

/-! ## The hypotheses are met by concrete inputs (`Proofs/Samples.lean`) -/

example := aggregateN1 _ 3 _ (OValuesN1.ofVec_holds fun o => (o : ℝ) + 1) 0 1 ⟨2, 1⟩ (by decide) (by decide)
example := aggregateN2 _ 2 3 _ (OValuesN2.ofVec_holds (by decide) fun x => (x.1 : ℝ) + x.2) 0 1 ⟨2, 1⟩ (by decide) (by decide)
example := aggregateN3 _ 2 2 3 _ (OValuesN3.ofVec_holds (by decide) (by decide) (by decide) fun x => (x.1 : ℝ) + x.2.2) 0 1 ⟨2, 1⟩ (by decide) (by decide)
example := aggregateN4 _ 2 2 2 3 _ (OValuesN4.ofVec_holds (by decide) (by decide) (by decide) (by decide) fun x => (x.1 : ℝ) + x.2.2.2) 0 1 ⟨2, 1⟩ (by decide)
  (by decide)
example := partitionN1 _ 3 _ (OValuesN1.ofVec_holds fun o => (o : ℝ) + 1) [(0, 1), (2, 2)]
  (.cons (by decide) (by decide) (.cons (by decide) (by decide) (.nil 3)))
example := partitionN2 _ 2 3 _ (OValuesN2.ofVec_holds (by decide) fun x => (x.1 : ℝ) + x.2) [(0, 1), (2, 2)]
  (.cons (by decide) (by decide) (.cons (by decide) (by decide) (.nil 3)))
example := partitionN3 _ 2 2 3 _ (OValuesN3.ofVec_holds (by decide) (by decide) (by decide) fun x => (x.1 : ℝ) + x.2.2) [(0, 1), (2, 2)]
  (.cons (by decide) (by decide) (.cons (by decide) (by decide) (.nil 3)))
example := partitionN4 _ 2 2 2 3 _ (OValuesN4.ofVec_holds (by decide) (by decide) (by decide) (by decide) fun x => (x.1 : ℝ) + x.2.2.2) [(0, 1), (2, 2)]
  (.cons (by decide) (by decide) (.cons (by decide) (by decide) (.nil 3)))
example := bestPartitionN1 (F := ℝ) _ 3 _ (OValuesN1.ofVec_holds fun o => (o : ℝ) + 1) _ _ (Sample.triangleRep fun i j => (⟨(j : ℝ) - i, (i : ℝ) * j⟩ : Quality ℝ))
example := bestPartitionN2 (F := ℝ) _ 2 3 _ (OValuesN2.ofVec_holds (by decide) fun x => (x.1 : ℝ) + x.2) _ _
  (Sample.triangleRep fun i j => (⟨(j : ℝ) - i, (i : ℝ) * j⟩ : Quality ℝ))
example := bestPartitionN3 (F := ℝ) _ 2 2 3 _ (OValuesN3.ofVec_holds (by decide) (by decide) (by decide) fun x => (x.1 : ℝ) + x.2.2) _ _
  (Sample.triangleRep fun i j => (⟨(j : ℝ) - i, (i : ℝ) * j⟩ : Quality ℝ))
example := bestPartitionN4 (F := ℝ) _ 2 2 2 3 _ (OValuesN4.ofVec_holds (by decide) (by decide) (by decide) (by decide) fun x => (x.1 : ℝ) + x.2.2.2) _ _
  (Sample.triangleRep fun i j => (⟨(j : ℝ) - i, (i : ℝ) * j⟩ : Quality ℝ))

end Lp.C36

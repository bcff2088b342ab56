import Verif.Proofs.Shift
import Verif.Props.C47
import Verif.Props.C19
import Verif.Proofs.Samples

/-!
# C48 — locality: a part of the result depends only on the data it concerns

Statements about the partitions hold for any arithmetic (rounding, NaN), those about data for real data.
-/

namespace Lp.C48
open Spec
open scoped BigOperators

section Tables
variable {F K : Type} [LD K] [FloatP F K]

theorem map_split_aux {α β : Type} {g : α → β} {L : List α} {A : List β} {x : β} {B : List β} (h : L.map g = A ++ x :: B) :
    ∃ A' x' B', L = A' ++ x' :: B' ∧ g x' = x ∧ B'.map g = B := by
  obtain ⟨A', M, h1, _, h3⟩ := List.map_eq_append_iff.mp h
  obtain ⟨x', B', h4, h5, h6⟩ := List.map_eq_cons_iff.mp h3
  exact ⟨A', x', B', by rw [h1, h4], h5, h6⟩

/-- Ordered analysis.  `q` is a table of qualities of `n` slices, `q'` the table of the slices from `k` on.  If the best
partition of `q` has a part that starts at slice `k`, that part and all later ones are the best partition of `q'`. -/
theorem ordered (q q' : UTM (Quality K)) (n k : Nat) (f : Nat → Nat → Quality K) (hq : q.Rep n f)
    (hq' : q'.Rep (n - k) (fun i j => f (i + k) (j + k))) (p : F) :
    ∃ P P' : OPartition F K, oBestPartition q p = .ok P ∧ oBestPartition q' p = .ok P' ∧
      ∀ A x B, P.parts = A ++ x :: B → x.start = (k : Int) →
        x :: B = P'.parts.map (fun y => ⟨y.start + k, y.end + k, y.quality⟩) := by
  obtain ⟨P, P', L, L', h1, h2, h3, h4, h5⟩ := oBest_suffix hq hq' p
  refine ⟨P, P', h1, h2, ?_⟩
  intro A x B hP hx
  rw [h3] at hP
  obtain ⟨A', x', B', e1, e2, e3⟩ := map_split_aux hP
  have := h5 A' x' B' e1 (by rw [← e2] at hx; simpa [oPartOf] using hx)
  rw [← e2, ← e3, ← List.map_cons, this, h4, List.map_map, List.map_map]
  rfl

/-- Spatiotemporal analysis.  What follows a part of the whole hierarchy that ends with slice `k - 1` is the best partition
of the slices from `k` on. -/
theorem spatiotemporal (leaves : Nat) (parents : List Int) (md : HMeta) (hmd : RightMeta leaves parents md)
    (q q' : List (UTM (Quality K))) (n k : Nat) (hk : k < n) (hn : n ≤ 65535) (Q : Nat → Nat → Nat → Quality K)
    (hq : MRep q parents.length n Q) (hq' : MRep q' parents.length (n - k) (fun h i j => Q h (i + k) (j + k))) (p : F) :
    ∃ P P' : DPartition F K, dBestPartition q md p = .ok P ∧ dBestPartition q' md p = .ok P' ∧
      ∀ A x B, P.parts = A ++ x :: B → x.h = md.root → x.end + 1 = k →
        B = P'.parts.map (fun y => ⟨y.h, y.hsize, y.start + k, y.end + k, y.quality⟩) := by
  obtain ⟨P, P', L, L', h1, h2, h3, h4, h5⟩ := dBest_suffix hmd hk hn hq hq' p
  refine ⟨P, P', h1, h2, ?_⟩
  intro A x B hP hx hxk
  rw [h3] at hP
  obtain ⟨A', x', B', e1, e2, e3⟩ := map_split_aux hP
  have := h5 A' x' B' e1 (by rw [← e2] at hx; exact hx) (by rw [← e2] at hxk; exact hxk)
  rw [← e3, this, h4, List.map_map, List.map_map]
  rfl

/-- Hierarchical analysis.  Two tables of qualities that agree on the nodes below `h`: if neither best partition has a part
strictly above `h`, the parts below `h` are the same. -/
theorem hierarchical (leaves : Nat) (parents : List Int) (md : HMeta) (hmd : RightMeta leaves parents md)
    (hlt : leaves < parents.length) (q q' : List (Quality K)) (Q Q' : Nat → Quality K)
    (hq : VRep q parents.length Q) (hq' : VRep q' parents.length Q') (h : Nat) (hh : h < parents.length)
    (hQ : ∀ x, Under parents h x → Q x = Q' x) (p : F) :
    ∃ P P' : HPartition F K, hBestPartition q md p = .ok P ∧ hBestPartition q' md p = .ok P' ∧
      ((∀ y ∈ P.parts, Under parents y.h h → y.h = h) → (∀ y ∈ P'.parts, Under parents y.h h → y.h = h) →
        ∀ x, Under parents h x.h → (x ∈ P.parts ↔ x ∈ P'.parts)) := by
  obtain ⟨P, P', L, L', h1, h2, h3, h4, h5⟩ := hBest_local hmd hlt hq hq' hh hQ p
  refine ⟨P, P', h1, h2, ?_⟩
  intro ha ha' x hx
  have := h5 (fun y hy => ha _ (by rw [h3]; exact List.mem_map_of_mem hy))
    (fun y hy => ha' _ (by rw [h4]; exact List.mem_map_of_mem hy))
  rw [h3, h4, List.mem_map, List.mem_map]
  constructor
  · rintro ⟨y, hy, rfl⟩
    exact ⟨y, (this y hx).mp hy, by unfold hPartOf; rw [hQ y hx]⟩
  · rintro ⟨y, hy, rfl⟩
    exact ⟨y, (this y hx).mpr hy, by unfold hPartOf; rw [hQ y hx]⟩

end Tables

/-! ## From data -/

theorem icc_aux (i j k : Nat) : Finset.Icc (i + k) (j + k) = (Finset.Icc i j).map ⟨fun x => x + k, fun a b h => by simpa using h⟩ := by
  ext x
  simp only [Finset.mem_Icc, Finset.mem_map]
  constructor
  · rintro ⟨h1, h2⟩
    exact ⟨x - k, ⟨by omega, by omega⟩, Nat.sub_add_cancel (by omega)⟩
  · rintro ⟨y, ⟨h1, h2⟩, rfl⟩
    exact ⟨Nat.add_le_add_right h1 k, Nat.add_le_add_right h2 k⟩

theorem prod_aux (s : Finset Nat) (i j k : Nat) : s ×ˢ Finset.Icc (i + k) (j + k) =
    (s ×ˢ Finset.Icc i j).map ⟨fun x => (x.1, x.2 + k), fun a b h => by
      have h1 := (Prod.mk.inj h).1
      have h2 := (Prod.mk.inj h).2
      exact Prod.ext h1 (by simpa using h2)⟩ := by
  ext ⟨a, b⟩
  simp only [Finset.mem_product, Finset.mem_Icc, Finset.mem_map]
  constructor
  · rintro ⟨h1, h2, h3⟩
    exact ⟨(a, b - k), ⟨h1, by dsimp only; omega, by dsimp only; omega⟩,
      Prod.ext rfl (Nat.sub_add_cancel (show k ≤ b by omega))⟩
  · rintro ⟨⟨a', b'⟩, ⟨h1, h2, h3⟩, e⟩
    cases e
    exact ⟨h1, Nat.add_le_add_right h2 k, Nat.add_le_add_right h3 k⟩

/-- Ordered data of any sign.  `v` has `n` slices, `v'` the slices of `v` from `k` on.  At every parameter, the parts of the
best partition of `v` from a part that starts at slice `k` on are the best partition of `v'`: what happened before slice `k`
has no influence on them. -/
theorem orderedData (v v' : OValues ℝ) (m n k : Nat) (V : Nat → Nat → ℝ) (hv : OData v m n V) (hk : k ≤ n)
    (hv' : OData v' m (n - k) (fun s i => V s (i + k))) (hn : n ≤ 65535) {F : Type} [FloatP F ℝ] (p : F) :
    ∃ q q', (OQualities.ofValues v).computeQualities = .ok ⟨some v, some q⟩ ∧
      (OQualities.ofValues v').computeQualities = .ok ⟨some v', some q'⟩ ∧
      ∃ P P' : OPartition F ℝ, oBestPartition q p = .ok P ∧ oBestPartition q' p = .ok P' ∧
        ∀ A x B, P.parts = A ++ x :: B → x.start = (k : Int) →
          x :: B = P'.parts.map (fun y => ⟨y.start + k, y.end + k, y.quality⟩) := by
  obtain ⟨q, e, h⟩ := oqCompute_spec hv hn
  obtain ⟨q', e', h'⟩ := oqCompute_spec hv' (by omega)
  refine ⟨q, q', ?_, ?_, ordered q q' n k _ h (h'.congr ?_) p⟩
  · unfold OQualities.computeQualities OQualities.ofValues
    simp only [e, okBind, pureOk]
  · unfold OQualities.computeQualities OQualities.ofValues
    simp only [e', okBind, pureOk]
  · intro i j hij hj
    unfold oCell
    rw [qSeries_any (card_Icc i j hij), qSeries_any (card_Icc (i + k) (j + k) (by omega)), icc_aux]
    simp only [(C47.any_aux _ _ _).1, (C47.any_aux _ _ _).2]
    rfl

/-- Spatiotemporal data of any sign: what follows a part of the whole hierarchy that ends with slice `k - 1` is the best
partition of the data from slice `k` on. -/
theorem spatiotemporalData (leaves : Nat) (parents : List Int) (v v' : DValues ℝ) (hmd : RightMeta leaves parents v.md)
    (hmd' : v'.md = v.md) (hlt : leaves < parents.length) (m n k : Nat) (hk : k < n) (hn : n ≤ 65535)
    (hb : leaves * n < 2147483648) (V : Nat → Nat × Nat → ℝ) (hv : DData v m leaves n V)
    (hv' : DData v' m leaves (n - k) (fun s x => V s (x.1, x.2 + k))) {F : Type} [FloatP F ℝ] (p : F) :
    ∃ q q', (DQualities.ofValues v).computeQualities = .ok ⟨some v, some q, v.md⟩ ∧
      (DQualities.ofValues v').computeQualities = .ok ⟨some v', some q', v.md⟩ ∧
      ∃ P P' : DPartition F ℝ, dBestPartition q v.md p = .ok P ∧ dBestPartition q' v.md p = .ok P' ∧
        ∀ A x B, P.parts = A ++ x :: B → x.h = v.md.root → x.end + 1 = k →
          B = P'.parts.map (fun y => ⟨y.h, y.hsize, y.start + k, y.end + k, y.quality⟩) := by
  have hb' : leaves * (n - k) < 2147483648 := lt_of_le_of_lt (Nat.mul_le_mul_left _ (Nat.sub_le _ _)) hb
  obtain ⟨q, e, h⟩ := dqCompute_spec hmd hlt hv hn hb
  obtain ⟨q', e', h'⟩ := dqCompute_spec hmd hlt hv' (by omega) hb'
  refine ⟨q, q', ?_, ?_, spatiotemporal leaves parents v.md hmd q q' n k hk hn _ h (h'.congr ?_) p⟩
  · unfold DQualities.computeQualities DQualities.ofValues
    simp only [e, okBind, pureOk]
  · unfold DQualities.computeQualities DQualities.ofValues
    simp only [hmd', e', okBind, pureOk]
  · intro x i j hx hij hj
    have card : ∀ a b : Nat, a ≤ b → (((leavesUnder leaves parents x ×ˢ Finset.Icc a b).card : Int)) =
        ((b : Int) - a + 1) * ((leavesUnder leaves parents x).card : Int) := by
      intro a b hab
      rw [Finset.card_product, Nat.cast_mul, card_Icc a b hab]; ring
    unfold dCell
    simp only [leafSum_W]
    rw [qSeries_any, qSeries_any, prod_aux]
    · simp only [(C47.any_aux _ _ _).1, (C47.any_aux _ _ _).2]
      rfl
    · rw [card _ _ (by omega)]
    · rw [card _ _ (by omega)]

/-- Hierarchical data of any sign, same hierarchy: if two containers hold the same values for the leaves below `h` and
neither best partition has a part strictly above `h`, the parts below `h` are the same, with the same qualities. -/
theorem hierarchicalData (leaves : Nat) (parents : List Int) (v v' : HValues ℝ) (hmd : RightMeta leaves parents v.md)
    (hmd' : v'.md = v.md) (hlt : leaves < parents.length) (m : Nat) (V V' : Nat → Nat → ℝ) (hv : HData v m leaves V)
    (hv' : HData v' m leaves V') (h : Nat) (hh : h < parents.length)
    (hV : ∀ k l, k < m → l < leaves → Under parents h l → V k l = V' k l) {F : Type} [FloatP F ℝ] (p : F) :
    ∃ q q', (HQualities.ofValues v).computeQualities = .ok ⟨some v, some q, v.md⟩ ∧
      (HQualities.ofValues v').computeQualities = .ok ⟨some v', some q', v.md⟩ ∧
      ∃ P P' : HPartition F ℝ, hBestPartition q v.md p = .ok P ∧ hBestPartition q' v.md p = .ok P' ∧
        ((∀ y ∈ P.parts, Under parents y.h h → y.h = h) → (∀ y ∈ P'.parts, Under parents y.h h → y.h = h) →
          ∀ x, Under parents h x.h → (x ∈ P.parts ↔ x ∈ P'.parts)) := by
  obtain ⟨q, e, hl, hc⟩ := C06.hierarchicalAnySign leaves parents v hmd hlt m V hv
  obtain ⟨q', e', hl', hc'⟩ := C06.hierarchicalAnySign leaves parents v' (by rw [hmd']; exact hmd) hlt m V' hv'
  rw [hmd'] at e'
  refine ⟨q, q', e, e', hierarchical leaves parents v.md hmd hlt q q' _ _ ⟨hl, hc⟩ ⟨hl', hc'⟩ h hh ?_ p⟩
  intro x hx
  have hs : ∀ k ∈ Finset.range m, ∀ l ∈ leavesUnder leaves parents x, V k l = V' k l := by
    intro k hk l hl
    obtain ⟨h1, h2⟩ := mem_leavesUnder.mp hl
    exact hV k l (Finset.mem_range.mp hk) h1 (hx.trans h2)
  have hg : ∀ k ∈ Finset.range m, gainAny (leavesUnder leaves parents x) (V k) = gainAny (leavesUnder leaves parents x) (V' k) ∧
      lossAny (leavesUnder leaves parents x) (V k) = lossAny (leavesUnder leaves parents x) (V' k) := by
    intro k hk
    have g : gainAny (leavesUnder leaves parents x) (V k) = gainAny (leavesUnder leaves parents x) (V' k) := by
      unfold gainAny
      have e2 : ∑ l ∈ leavesUnder leaves parents x, glog2 (V k l) = ∑ l ∈ leavesUnder leaves parents x, glog2 (V' k l) :=
        Finset.sum_congr rfl (fun l hl => by rw [hs k hk l hl])
      rw [Finset.sum_congr rfl (hs k hk), e2]
    refine ⟨g, ?_⟩
    unfold lossAny
    rw [g, Finset.sum_congr rfl (hs k hk)]
  rw [Finset.sum_congr rfl (fun k hk => (hg k hk).1), Finset.sum_congr rfl (fun k hk => (hg k hk).2)]

/-! ## Concrete cases -/

/-- Four slices; at `p = 1/2` the best partition is `[0] [1] [2,3]`; the table of the slices from 1 on has `[0] [1,2]`. -/
def exQ : UTM (Quality ℚ) := ⟨4, [⟨0, 0⟩, ⟨0, 0⟩, ⟨0, 0⟩, ⟨0, 0⟩, ⟨1, 2⟩, ⟨1, 3⟩, ⟨2, 1⟩, ⟨3, 5⟩, ⟨3, 7⟩, ⟨4, 9⟩]⟩
def exQ1 : UTM (Quality ℚ) := ⟨3, [⟨0, 0⟩, ⟨0, 0⟩, ⟨0, 0⟩, ⟨1, 3⟩, ⟨2, 1⟩, ⟨3, 7⟩]⟩

example : (oBestPartition exQ (1 / 2 : ℚ)).map (fun P => P.parts.map (fun x => (x.start, x.end))) =
    .ok [(0, 0), (1, 1), (2, 3)] := by decide +kernel
example : (oBestPartition exQ1 (1 / 2 : ℚ)).map (fun P => P.parts.map (fun x => (x.start, x.end))) =
    .ok [(0, 0), (1, 2)] := by decide +kernel

def exF (i j : Nat) : Quality ℚ := (exQ.data[UTM.index 4 i j]?).getD ⟨0, 0⟩

theorem exRep_aux : exQ.Rep 4 exF := by
  refine ⟨by decide, rfl, rfl, ?_⟩
  intro i j hij hj
  have : UTM.index 4 i j < exQ.data.length := UTM.index_lt (n := 4) (by decide) hij hj
  simp [exF, this]

theorem exRep1_aux : exQ1.Rep (4 - 1) (fun i j => exF (i + 1) (j + 1)) := by
  refine ⟨by decide, rfl, rfl, ?_⟩
  intro i j hij hj
  have : j = 0 ∨ j = 1 ∨ j = 2 := by omega
  rcases this with rfl | rfl | rfl <;> (have : i = 0 ∨ i = 1 ∨ i = 2 := by omega) <;>
    rcases this with rfl | rfl | rfl <;> first | rfl | omega

example : ∃ P P' : OPartition ℚ ℚ, oBestPartition exQ (1 / 2 : ℚ) = .ok P ∧ oBestPartition exQ1 (1 / 2 : ℚ) = .ok P' ∧
    ∀ A x B, P.parts = A ++ x :: B → x.start = ((1 : Nat) : Int) →
      x :: B = P'.parts.map (fun y => ⟨y.start + (1 : Nat), y.end + (1 : Nat), y.quality⟩) :=
  ordered exQ exQ1 4 1 exF exRep_aux exRep1_aux _

/-- The tree of C03 with three slices: at `p = 1/2` the best partition is the root over slice 0, then smaller parts; the
table of the slices from 1 on has these parts, shifted. -/
example : (do let md ← mkMeta 4 [4, 4, 6, 6, 5, -1, 5]
              let z : UTM (Quality ℚ) := UTM.mk' 3 ⟨0, 1⟩
              let P ← dBestPartition [z, z, z, z, UTM.mk' 3 ⟨1, 0⟩, ⟨3, [⟨9, 0⟩, ⟨0, 1⟩, ⟨0, 1⟩, ⟨0, 1⟩, ⟨0, 1⟩, ⟨0, 1⟩]⟩, z] md (1 / 2 : ℚ)
              return P.parts.map (fun x => (x.h, x.start, x.end)) : Res (List (Nat × Nat × Nat))) =
    .ok [(5, 0, 0), (4, 1, 1), (4, 2, 2), (6, 1, 2)] := by decide +kernel
example : (do let md ← mkMeta 4 [4, 4, 6, 6, 5, -1, 5]
              let z : UTM (Quality ℚ) := UTM.mk' 2 ⟨0, 1⟩
              let P ← dBestPartition [z, z, z, z, UTM.mk' 2 ⟨1, 0⟩, z, z] md (1 / 2 : ℚ)
              return P.parts.map (fun x => (x.h, x.start, x.end)) : Res (List (Nat × Nat × Nat))) =
    .ok [(4, 0, 0), (4, 1, 1), (6, 0, 1)] := by decide +kernel

/-- Hierarchical: changing the qualities of nodes 5 and 6 does not change what happens below node 4. -/
def exH : List (Quality ℚ) := [⟨0, 0⟩, ⟨0, 0⟩, ⟨0, 0⟩, ⟨0, 0⟩, ⟨3, 1⟩, ⟨1, 7⟩, ⟨3, 2⟩]

example : (do let md ← mkMeta 4 [4, 4, 6, 6, 5, -1, 5]
              let P ← hBestPartition exH md (1 / 2 : ℚ)
              return P.parts.map HPart.h : Res (List Nat)) = .ok [4, 6] := by decide +kernel

theorem under4_aux {x : Nat} (h : Under [4, 4, 6, 6, 5, -1, 5] 4 x) : x = 4 ∨ x = 0 ∨ x = 1 := by
  induction h with
  | self => exact Or.inl rfl
  | @up y p hp _ ih =>
    have hy : y < 7 := hp.lt
    unfold ParentIs at hp
    rcases ih with rfl | rfl | rfl <;>
      (have : y = 0 ∨ y = 1 ∨ y = 2 ∨ y = 3 ∨ y = 4 ∨ y = 5 ∨ y = 6 := by omega) <;>
      rcases this with rfl | rfl | rfl | rfl | rfl | rfl | rfl <;> simp at hp ⊢

example : ∃ (md : HMeta) (P P' : HPartition ℚ ℚ), mkMeta 4 [4, 4, 6, 6, 5, -1, 5] = .ok md ∧
    hBestPartition C19.exQ md (1 / 2 : ℚ) = .ok P ∧ hBestPartition exH md (1 / 2 : ℚ) = .ok P' ∧
    ((∀ y ∈ P.parts, Under [4, 4, 6, 6, 5, -1, 5] y.h 4 → y.h = 4) →
      (∀ y ∈ P'.parts, Under [4, 4, 6, 6, 5, -1, 5] y.h 4 → y.h = 4) →
      ∀ x, Under [4, 4, 6, 6, 5, -1, 5] 4 x.h → (x ∈ P.parts ↔ x ∈ P'.parts)) := by
  obtain ⟨md, hm, _, hr⟩ := C03.right 4 [4, 4, 6, 6, 5, -1, 5] 5
    (.ofCheck (fun h => if h < 4 then 2 else if h = 5 then 0 else 1) (by decide) (by decide) (by decide) (by decide))
    C03.sevenNearest
  let i : Inhabited (Quality ℚ) := ⟨⟨0, 0⟩⟩
  obtain ⟨P, P', h1, h2, h3⟩ := hierarchical (F := ℚ) 4 _ md hr (by decide) C19.exQ exH _ _
    (VRep.of (α := Quality ℚ) C19.exQ) (VRep.of (α := Quality ℚ) exH) 4 (by decide) (by
      intro x hx
      rcases under4_aux hx with rfl | rfl | rfl <;> rfl) (1 / 2)
  exact ⟨md, P, P', hm, h1, h2, h3⟩

/-! ## The hypotheses are met by concrete inputs (`Proofs/Samples.lean`) -/

example := spatiotemporal (F := ℚ) 4 Sample.tree Sample.md Sample.right _ _ 3 0 (by decide) (by decide) _ Sample.dRep Sample.dRep (1 / 2)

end Lp.C48

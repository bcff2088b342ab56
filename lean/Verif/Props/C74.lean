import Verif.Proofs.Together
import Verif.Proofs.TogetherS
import Verif.Proofs.TogetherH
import Verif.Spec.Float
import Verif.Props.C16
import Verif.Props.C24
import Verif.Props.C48

/-!
# C74 — what is equal stays together

Where the data show no difference the best partitions make none: no ordered part ends between two neighbouring slices with the
same values; no spatiotemporal part under a node ends between two slices whose values are the same below that node; a node whose
leaves all have the same series is never divided.  The exception, for ordered and spatiotemporal data, are values that are all
zero.  `p` is a parameter of `[0,1]`, in any float arithmetic with the stated laws.
-/

namespace Lp.C74
open Spec
variable {F : Type} [FloatP F ℝ] {u : ℝ}

/-- Ordered data: if slices `i` and `i + 1` have the same values in every series, a part may end with slice `i` only if these
values are all zero. -/
theorem ordered (fl : FloatLaws F ℝ u) (v : OValues ℝ) (m n : Nat) (V : Nat → Nat → ℝ) (hn0 : 0 < n) (hn : n ≤ 65535)
    (hv : OData v m n V) (h0 : ∀ k i, k < m → i < n → 0 ≤ V k i) :
    ∃ q : UTM (Quality ℝ), (OQualities.ofValues v).computeQualities = .ok ⟨some v, some q⟩ ∧
      ∀ p : F, (0 : ℝ) ≤ FloatP.toK p → (FloatP.toK p : ℝ) ≤ 1 →
        ∃ P, oBestPartition q p = .ok P ∧
          ∀ i : Nat, i + 1 < n → (∀ k < m, V k (i + 1) = V k i) → (∃ x ∈ P.parts, x.end = i) → ∀ k < m, V k i = 0 := by
  obtain ⟨q, e, hq⟩ := oq_object hv hn h0
  refine ⟨q, e, fun p hp0 hp1 => ?_⟩
  obtain ⟨P, _, _, h1, _⟩ := oBest_lex hq p
  refine ⟨P, h1, ?_⟩
  rintro i hi heq ⟨x, hx, he⟩ k hk
  by_contra hne
  obtain ⟨P', L, h1', h2, h3⟩ := oBest_together h0 hq p hp0 (wLoss_nonneg fl hp1) hi heq
    ⟨k, hk, lt_of_le_of_ne (h0 k i hk (by omega)) (Ne.symm hne)⟩
  obtain rfl := C24.res_aux h1 h1'
  rw [h2, List.mem_map] at hx
  obtain ⟨I, hI, rfl⟩ := hx
  have he : ((I.2 : Nat) : Int) = i := he
  exact h3 I hI (by exact_mod_cast he)

/-- Spatiotemporal data, in time: if slices `i` and `i + 1` have the same values at all leaves under `g` and in every series, a part
whose node is under `g` may end with slice `i` only if all its values in slice `i` are zero. -/
theorem spatiotemporalSlices (fl : FloatLaws F ℝ u) (leaves : Nat) (parents : List Int) (v : DValues ℝ)
    (hmd : RightMeta leaves parents v.md) (hlt : leaves < parents.length) (m n : Nat) (hn0 : 0 < n) (hn : n ≤ 65535)
    (hb : leaves * n < 2147483648) (V : Nat → Nat × Nat → ℝ) (hv : DData v m leaves n V)
    (h0 : ∀ k h x, k < m → h < leaves → x < n → 0 ≤ V k (h, x)) :
    ∃ q : List (UTM (Quality ℝ)), (DQualities.ofValues v).computeQualities = .ok ⟨some v, some q, v.md⟩ ∧
      ∀ p : F, (0 : ℝ) ≤ FloatP.toK p → (FloatP.toK p : ℝ) ≤ 1 →
        ∃ P, dBestPartition q v.md p = .ok P ∧
          ∀ g i : Nat, i + 1 < n → (∀ k l, k < m → l < leaves → Under parents g l → V k (l, i + 1) = V k (l, i)) →
            ∀ x ∈ P.parts, Under parents g x.h → x.end = i →
              ∀ k l, k < m → l < leaves → Under parents x.h l → V k (l, i) = 0 := by
  obtain ⟨q, e, hq⟩ := dq_object hmd hlt hn hb hv h0
  refine ⟨q, e, fun p hp0 hp1 => ?_⟩
  obtain ⟨P, L, h1, h2, h3⟩ := dBest_time hmd hn0 hn h0 hq p hp0 (wLoss_nonneg fl hp1)
  refine ⟨P, h1, ?_⟩
  intro g i hi heq x hx hg hend
  rw [h2, List.mem_map] at hx
  obtain ⟨R, hR, rfl⟩ := hx
  exact h3 g i hi heq R hR hg hend

/-- Spatiotemporal data, in space: if all leaves under `g` have the same series, a part whose node is under `g` has all leaves of
`g`, or all values of `g` in the slices of the part are zero. -/
theorem spatiotemporalLeaves (fl : FloatLaws F ℝ u) (leaves : Nat) (parents : List Int) (v : DValues ℝ)
    (hmd : RightMeta leaves parents v.md) (hlt : leaves < parents.length) (m n : Nat) (hn0 : 0 < n) (hn : n ≤ 65535)
    (hb : leaves * n < 2147483648) (V : Nat → Nat × Nat → ℝ) (hv : DData v m leaves n V)
    (h0 : ∀ k h x, k < m → h < leaves → x < n → 0 ≤ V k (h, x)) :
    ∃ q : List (UTM (Quality ℝ)), (DQualities.ofValues v).computeQualities = .ok ⟨some v, some q, v.md⟩ ∧
      ∀ p : F, (0 : ℝ) ≤ FloatP.toK p → (FloatP.toK p : ℝ) ≤ 1 →
        ∃ P, dBestPartition q v.md p = .ok P ∧
          ∀ g : Nat, g < parents.length →
            (∀ k l l' i, k < m → l < leaves → l' < leaves → i < n → Under parents g l → Under parents g l' →
              V k (l, i) = V k (l', i)) →
            ∀ x ∈ P.parts, Under parents g x.h →
              (∀ l < leaves, Under parents g l → Under parents x.h l) ∨
              ∀ k l i, k < m → l < leaves → Under parents g l → x.start ≤ i → i ≤ x.end → V k (l, i) = 0 := by
  obtain ⟨q, e, hq⟩ := dq_object hmd hlt hn hb hv h0
  refine ⟨q, e, fun p hp0 hp1 => ?_⟩
  obtain ⟨P, L, h1, h2, h3⟩ := dBest_leaves hmd hn0 hn h0 hq p hp0 (wLoss_nonneg fl hp1)
  refine ⟨P, h1, ?_⟩
  intro g hg heq x hx hu
  rw [h2, List.mem_map] at hx
  obtain ⟨R, hR, rfl⟩ := hx
  exact h3 g hg heq R hR hu

/-- Hierarchical data: if all leaves under `g` have the same values in every series, no part is strictly under `g`. -/
theorem hierarchical (fl : FloatLaws F ℝ u) (leaves : Nat) (parents : List Int) (v : HValues ℝ)
    (hmd : RightMeta leaves parents v.md) (hlt : leaves < parents.length) (m : Nat) (V : Nat → Nat → ℝ)
    (hv : HData v m leaves V) (h0 : ∀ k h, k < m → h < leaves → 0 ≤ V k h) :
    ∃ q : List (Quality ℝ), (HQualities.ofValues v).computeQualities = .ok ⟨some v, some q, v.md⟩ ∧
      ∀ p : F, (0 : ℝ) ≤ FloatP.toK p → (FloatP.toK p : ℝ) ≤ 1 →
        ∃ P, hBestPartition q v.md p = .ok P ∧
          ∀ g : Nat, g < parents.length →
            (∀ k l l', k < m → l < leaves → l' < leaves → Under parents g l → Under parents g l' → V k l = V k l') →
            ∀ x ∈ P.parts, Under parents g x.h → x.h = g := by
  obtain ⟨q, e, hq⟩ := hq_object hmd hlt hv h0
  refine ⟨q, e, fun p hp0 hp1 => ?_⟩
  obtain ⟨P, L, h1, h2, h3⟩ := hBest_leaves hmd hlt h0 hq p hp0 (wLoss_nonneg fl hp1)
  refine ⟨P, h1, ?_⟩
  intro g hg heq x hx hu
  rw [h2, List.mem_map] at hx
  obtain ⟨y, hy, rfl⟩ := hx
  exact h3 g hg heq y hy hu

/-- Ordered values 1, 2, 2, 5: at no parameter does a part end with slice 1. -/
example (p : ℝ) (hp0 : 0 ≤ p) (hp1 : p ≤ 1) : ∃ w q P,
    (OQualities.ofValues (OValuesN1.ofVec ([1, 2, 2, 5] : List ℝ)).toOValues).computeQualities = .ok ⟨w, some q⟩ ∧
    oBestPartition (F := ℝ) q p = .ok P ∧ ∀ x ∈ P.parts, x.end ≠ 1 := by
  let f : Nat → ℝ := fun i => ([1, 2, 2, 5] : List ℝ).getD i 0
  have hd : OData (OValuesN1.ofVec ([1, 2, 2, 5] : List ℝ)).toOValues 1 4 (fun _ => f) := (OValuesN1.ofVec_holds (O := 4) f).data
  obtain ⟨q, h1, h2⟩ := ordered (F := ℝ) (exactLaws ℝ) _ 1 4 _ (by norm_num) (by norm_num) hd (by
    intro k i _ hi
    match i, hi with
    | 0, _ => simp [f]
    | 1, _ => simp [f]
    | 2, _ => simp [f]
    | 3, _ => simp [f])
  obtain ⟨P, e1, e2⟩ := h2 p hp0 hp1
  refine ⟨_, q, P, h1, e1, fun x hx he => ?_⟩
  have := e2 1 (by norm_num) (fun k _ => by simp [f]) ⟨x, hx, by rw [he]; rfl⟩ 0 one_pos
  simp [f] at this

/-- Zeros may be separated: slices 0 and 1 have no value and slice 2 has value 1 (the qualities are those of C05). -/
example : (do let P ← oBestPartition (⟨3, [⟨0, 0⟩, ⟨0, 0⟩, ⟨0, 0⟩, ⟨0, 0⟩, ⟨0, 1⟩, ⟨0, 2⟩]⟩ : UTM (Quality ℚ)) (1 / 2 : ℚ)
              return P.parts.map (fun x => (x.start, x.end)) : Res (List (Int × Int))) =
    .ok [(0, 0), (1, 1), (2, 2)] := by decide +kernel

/-- Spatiotemporal: the tree of C03 with 4 leaves and 3 slices, values `h + 1` in every slice: every part has all slices. -/
example (p : ℝ) (hp0 : 0 ≤ p) (hp1 : p ≤ 1) : ∃ c q P,
    DValuesN2.ofVec (table2 4 3 (fun x => (x.1 + 1 : ℝ))) [4, 4, 6, 6, 5, -1, 5] = .ok c ∧
    (DQualities.ofValues c.toDValues).computeQualities = .ok ⟨some c.toDValues, some q, c.md⟩ ∧
    dBestPartition (F := ℝ) q c.md p = .ok P ∧ ∀ x ∈ P.parts, x.h < 7 → x.end ≠ 0 ∧ x.end ≠ 1 := by
  obtain ⟨md, hm, _, hr⟩ := C03.right 4 [4, 4, 6, 6, 5, -1, 5] 5 C03.sevenTree C03.sevenNearest
  have hc : DValuesN2.ofVec (table2 4 3 (fun x => (x.1 + 1 : ℝ))) [4, 4, 6, 6, 5, -1, 5] =
      .ok ⟨1, 3, md, table2 4 3 (fun x => (x.1 + 1 : ℝ))⟩ := by
    unfold DValuesN2.ofVec
    rw [SIZE1_table2, hm, SIZE2_table2 (by norm_num)]
    rfl
  obtain ⟨_, _, hh⟩ := DValuesN2.ofVec_holds (by norm_num) _ hc
  obtain ⟨q, h1, h2⟩ := spatiotemporalSlices (F := ℝ) (exactLaws ℝ) 4 _
    (DValuesN2.toDValues ⟨1, 3, md, table2 4 3 (fun x => (x.1 + 1 : ℝ))⟩) hr (by decide) 1 3
    (by norm_num) (by norm_num) (by norm_num) (fun _ x => (x.1 + 1 : ℝ)) hh.data (fun k h x _ _ _ => by positivity)
  obtain ⟨P, e1, e2⟩ := h2 p hp0 hp1
  refine ⟨_, q, P, hc, h1, e1, fun x hx hx7 => ?_⟩
  obtain ⟨l, hl, hu⟩ := hr.tree.exists_leaf (h := x.h) hx7
  have hroot : Under [4, 4, 6, 6, 5, -1, 5] md.root x.h := hr.tree.reach _ hx7
  constructor <;> intro he
  · have := e2 md.root 0 (by norm_num) (fun k l _ _ _ => rfl) x hx hroot he 0 l one_pos hl hu
    have : (0 : ℝ) < l + 1 := by positivity
    linarith
  · have := e2 md.root 1 (by norm_num) (fun k l _ _ _ => rfl) x hx hroot he 0 l one_pos hl hu
    have : (0 : ℝ) < l + 1 := by positivity
    linarith

/-- Spatiotemporal: the same tree, values `i + 1` in slice `i` at every leaf: every part has all leaves. -/
example (p : ℝ) (hp0 : 0 ≤ p) (hp1 : p ≤ 1) : ∃ c q P,
    DValuesN2.ofVec (table2 4 3 (fun x => (x.2 + 1 : ℝ))) [4, 4, 6, 6, 5, -1, 5] = .ok c ∧
    (DQualities.ofValues c.toDValues).computeQualities = .ok ⟨some c.toDValues, some q, c.md⟩ ∧
    dBestPartition (F := ℝ) q c.md p = .ok P ∧
    ∀ x ∈ P.parts, x.h < 7 → x.start ≤ x.end → ∀ l < 4, Under [4, 4, 6, 6, 5, -1, 5] x.h l := by
  obtain ⟨md, hm, _, hr⟩ := C03.right 4 [4, 4, 6, 6, 5, -1, 5] 5 C03.sevenTree C03.sevenNearest
  have hc : DValuesN2.ofVec (table2 4 3 (fun x => (x.2 + 1 : ℝ))) [4, 4, 6, 6, 5, -1, 5] =
      .ok ⟨1, 3, md, table2 4 3 (fun x => (x.2 + 1 : ℝ))⟩ := by
    unfold DValuesN2.ofVec
    rw [SIZE1_table2, hm, SIZE2_table2 (by norm_num)]
    rfl
  obtain ⟨_, _, hh⟩ := DValuesN2.ofVec_holds (by norm_num) _ hc
  obtain ⟨q, h1, h2⟩ := spatiotemporalLeaves (F := ℝ) (exactLaws ℝ) 4 _
    (DValuesN2.toDValues ⟨1, 3, md, table2 4 3 (fun x => (x.2 + 1 : ℝ))⟩) hr (by decide) 1 3
    (by norm_num) (by norm_num) (by norm_num) (fun _ x => (x.2 + 1 : ℝ)) hh.data (fun k h x _ _ _ => by positivity)
  obtain ⟨P, e1, e2⟩ := h2 p hp0 hp1
  refine ⟨_, q, P, hc, h1, e1, fun x hx hx7 hse l hl => ?_⟩
  have hroot : Under [4, 4, 6, 6, 5, -1, 5] md.root x.h := hr.tree.reach _ hx7
  rcases e2 md.root hr.tree.rootLt (fun k l l' i _ _ _ _ _ _ => rfl) x hx hroot with h | h
  · exact h l hl (hr.tree.reach l (by show l < 7; omega))
  · have := h 0 l x.start one_pos hl (hr.tree.reach l (by show l < 7; omega)) (le_refl _) hse
    have : (0 : ℝ) < x.start + 1 := by positivity
    linarith

/-- Hierarchical: the same tree, values 1, 1, 2, 3: node 4, with leaves 0 and 1, is never divided. -/
example (p : ℝ) (hp0 : 0 ≤ p) (hp1 : p ≤ 1) : ∃ c q P,
    HValuesN1.ofVec (table1 4 (fun i => ([1, 1, 2, 3] : List ℝ).getD i 0)) [4, 4, 6, 6, 5, -1, 5] = .ok c ∧
    (HQualities.ofValues c.toHValues).computeQualities = .ok ⟨some c.toHValues, some q, c.md⟩ ∧
    hBestPartition (F := ℝ) q c.md p = .ok P ∧ ∀ x ∈ P.parts, x.h ≠ 0 ∧ x.h ≠ 1 := by
  let f : Nat → ℝ := fun i => ([1, 1, 2, 3] : List ℝ).getD i 0
  obtain ⟨md, hm, _, hr⟩ := C03.right 4 [4, 4, 6, 6, 5, -1, 5] 5 C03.sevenTree C03.sevenNearest
  obtain ⟨c, hc, hcm⟩ : ∃ c : HValuesN1 ℝ, HValuesN1.ofVec (table1 4 f) [4, 4, 6, 6, 5, -1, 5] = .ok c ∧ c.md = md := by
    unfold HValuesN1.ofVec
    rw [SIZE1_table1, hm]
    exact ⟨_, rfl, rfl⟩
  obtain ⟨_, _, hh⟩ := HValuesN1.ofVec_holds _ hc
  obtain ⟨q, h1, h2⟩ := hierarchical (F := ℝ) (exactLaws ℝ) 4 _ c.toHValues (by subst hcm; exact hr) (by decide) 1 _ hh.data (by
    intro k i _ hi
    match i, hi with
    | 0, _ => simp [f]
    | 1, _ => simp [f]
    | 2, _ => simp [f]
    | 3, _ => simp [f])
  obtain ⟨P, e1, e2⟩ := h2 p hp0 hp1
  have hu : ∀ l, l < 4 → Under [4, 4, 6, 6, 5, -1, 5] 4 l → l = 0 ∨ l = 1 := by
    intro l hl h
    rcases C48.under4_aux h with rfl | rfl | rfl <;> omega
  have key := e2 4 (by decide) (by
    intro k l l' _ hl hl' h h'
    rcases hu l hl h with rfl | rfl <;> rcases hu l' hl' h' with rfl | rfl <;> simp [f])
  refine ⟨c, q, P, hc, h1, e1, fun x hx => ⟨fun h => ?_, fun h => ?_⟩⟩
  · have := key x hx (by rw [h]; exact .up (p := 4) rfl .self)
    omega
  · have := key x hx (by rw [h]; exact .up (p := 4) rfl .self)
    omega

end Lp.C74

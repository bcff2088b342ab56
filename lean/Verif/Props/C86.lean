import Verif.Proofs.Continuity
import Verif.Props.C16
import Verif.Props.C19
import Verif.Props.C21
import Verif.Props.C57

/-!
# C86 — small errors in the data do little harm

For every size of the data, every bound on the values and every tolerance `η` there is a precision `δ` such that, whenever the values are known up to `δ`:
gain and loss of every part are right up to `η`; the partition computed from the inexact values is, for the true values, at most `η` worse than the best one;
the reported value `p*gain-(1-p)*loss` is right up to `η`; and if a partition is better than all unacceptable ones by more than `η`, an
acceptable one is returned.  The precision does not depend on the data or on `p`.  (Exact arithmetic; for rounding see C58, C83.)
-/

namespace Lp.C86
open Spec
open scoped BigOperators
variable {F : Type} [FloatP F ℝ] {A ι : Type}

/-- The true values `V` and the known ones `V'`: between 0 and `B`, at most `δ` apart. -/
def Known (B δ : ℝ) (m : Nat) (V V' : Nat → ι → ℝ) (U : Finset ι) : Prop :=
  ∀ k < m, ∀ x ∈ U, 0 ≤ V k x ∧ V k x ≤ B ∧ 0 ≤ V' k x ∧ V' k x ≤ B ∧ |V k x - V' k x| ≤ δ

/-- `x` and `x'` are at most `η` apart. -/
def Apart (η : ℝ) (x x' : Quality ℝ) : Prop := |x.gain - x'.gain| ≤ η ∧ |x.loss - x'.loss| ≤ η

/-- The weights of a parameter in `[0,1]`. -/
def Proper (p : F) : Prop := |FloatP.toK p| ≤ 1 ∧ |FloatP.toK (FloatP.oneSub p)| ≤ 1

/-- The true value of the partition `L`. -/
noncomputable def worth (p : F) (m : Nat) (V : Nat → ι → ℝ) (pos : A → Finset ι) (L : List A) : ℝ :=
  FloatP.toK p * (L.map (fun I => gainSeries m (pos I) V)).sum - FloatP.toK (FloatP.oneSub p) * (L.map (fun I => lossSeries m (pos I) V)).sum

/-- The partition `L'`, of reported quality `x'`, was computed from inexact data; `x` is the quality of the one computed from the true data `V`;
`other` are the partitions to choose from. -/
def LittleHarm (η : ℝ) (p : F) (m : Nat) (V : Nat → ι → ℝ) (pos : A → Finset ι) (other : List A → Prop) (L' : List A) (x x' : Quality ℝ) : Prop :=
  (∀ M, other M → worth p m V pos M ≤ worth p m V pos L' + η) ∧
  |(FloatP.toK p * x.gain - FloatP.toK (FloatP.oneSub p) * x.loss) - (FloatP.toK p * x'.gain - FloatP.toK (FloatP.oneSub p) * x'.loss)| ≤ η ∧
  ∀ (W : List A) (Acceptable : List A → Prop), other W → (∀ M, other M → ¬ Acceptable M → worth p m V pos M + η < worth p m V pos W) → Acceptable L'

theorem worth_aux (p : F) (m : Nat) (V : Nat → ι → ℝ) (pos : A → Finset ι) (L : List A) :
    worth p m V pos L = valueOf (FloatP.toK p) (FloatP.toK (FloatP.oneSub p)) (fun a => entQ m V (pos a)) L := rfl

/-- The precision. -/
theorem precision_aux (N m : Nat) (B : ℝ) {η : ℝ} (hη : 0 < η) :
    ∃ δ > 0, ∀ (U : Finset ι) (V V' : Nat → ι → ℝ), U.card ≤ N → Known B δ m V V' U →
      (∀ s ⊆ U, Apart η (entQ m V s) (entQ m V' s)) ∧
      ∀ {A : Type} (pos : A → Finset ι) (other : List A → Prop) (p : F), Proper p → (∀ L, other L → Cuts pos L U) →
        ∀ L L' : List A, other L → other L' →
          (∀ M, other M → worth p m V pos M ≤ worth p m V pos L) → (∀ M, other M → worth p m V' pos M ≤ worth p m V' pos L') →
          LittleHarm η p m V pos other L' ⟨gainOf (fun a => entQ m V (pos a)) L, lossOf (fun a => entQ m V (pos a)) L⟩
            ⟨gainOf (fun a => entQ m V' (pos a)) L', lossOf (fun a => entQ m V' (pos a)) L'⟩ := by
  have hN0 : (0 : ℝ) ≤ N := Nat.cast_nonneg N
  set ε : ℝ := η / (4 * (N + 1)) with hε
  have hε0 : 0 < ε := by positivity
  have hεη : ε * (4 * (N + 1)) = η := by rw [hε]; field_simp
  obtain ⟨δ, hδ, h⟩ := series_modulus (ι := ι) N m B hε0
  refine ⟨δ, hδ, fun U V V' hU hK => ?_⟩
  have cell : ∀ s ⊆ U, |gainSeries m s V - gainSeries m s V'| ≤ ε ∧ |lossSeries m s V - lossSeries m s V'| ≤ ε := fun s hs =>
    h s V V' (le_trans (Finset.card_le_card hs) hU) (fun k hk x hx => hK k hk x (hs hx))
  have hle : ε ≤ η := by nlinarith
  refine ⟨fun s hs => ⟨le_trans (cell s hs).1 hle, le_trans (cell s hs).2 hle⟩, ?_⟩
  intro A pos other p hp hcut L L' hL hL' b b'
  have val : ∀ M, other M → |worth p m V pos M - worth p m V' pos M| ≤ η / 2 := by
    intro M hM
    have hc := hcut M hM
    have h1 := valueApart hp.1 hp.2 hε0.le M (q := fun a => entQ m V (pos a)) (q' := fun a => entQ m V' (pos a))
      (fun x hx => cell (pos x) (hc.sub x hx))
    have h2 : (M.length : ℝ) ≤ N := by exact_mod_cast le_trans hc.length_le hU
    rw [worth_aux, worth_aux]
    refine le_trans h1 ?_
    nlinarith
  have near : ∀ M, other M → worth p m V pos M ≤ worth p m V pos L' + η := by
    intro M hM
    have h1 := abs_le.mp (val M hM)
    have h2 := abs_le.mp (val L' hL')
    have h3 := b' M hM
    linarith
  refine ⟨near, ?_, fun W Acc hW hA => by_contra fun hn => ?_⟩
  · show |worth p m V pos L - worth p m V' pos L'| ≤ η
    have h1 := abs_le.mp (val L hL)
    have h2 := abs_le.mp (val L' hL')
    have h3 := b' L hL
    have h4 := b L' hL'
    rw [abs_le]
    constructor <;> linarith
  · have := hA L' hL' hn
    have := near W hW
    linarith

/-- Ordered data. -/
theorem ordered (m n : Nat) (hn0 : 0 < n) (hn : n ≤ 65535) (B η : ℝ) (hη : 0 < η) :
    ∃ δ > 0, ∀ (V V' : Nat → Nat → ℝ), Known B δ m V V' (Finset.Icc 0 (n - 1)) →
      ∀ v v' : OValues ℝ, OData v m n V → OData v' m n V' →
      ∃ q q', (OQualities.ofValues v).computeQualities = .ok ⟨some v, some q⟩ ∧
        (OQualities.ofValues v').computeQualities = .ok ⟨some v', some q'⟩ ∧
        (∀ i j, i ≤ j → j < n → ∃ x x', q.get i j = .ok x ∧ q'.get i j = .ok x' ∧ Apart η x x') ∧
        ∀ p : F, Proper p → ∃ (P P' : OPartition F ℝ) (L' : List (Nat × Nat)), oBestPartition q p = .ok P ∧ oBestPartition q' p = .ok P' ∧
          Tiles 0 n L' ∧ P'.parts.map (fun x => (x.start, x.end)) = L'.map (fun I => ((I.1 : Int), (I.2 : Int))) ∧
          LittleHarm η p m V (fun I : Nat × Nat => Finset.Icc I.1 I.2) (Tiles 0 n) L' P.quality P'.quality := by
  obtain ⟨δ, hδ, h⟩ := precision_aux (F := F) (ι := Nat) n m B hη
  refine ⟨δ, hδ, fun V V' hK v v' hv hv' => ?_⟩
  have hin : ∀ i, i < n → i ∈ Finset.Icc 0 (n - 1) := fun i hi => by rw [Finset.mem_Icc]; omega
  obtain ⟨q, e, hq⟩ := oq_object hv hn (fun k i hk hi => (hK k hk i (hin i hi)).1)
  obtain ⟨q', e', hq'⟩ := oq_object hv' hn (fun k i hk hi => (hK k hk i (hin i hi)).2.2.1)
  obtain ⟨h1, h2⟩ := h (Finset.Icc 0 (n - 1)) V V' (by rw [Nat.card_Icc]; omega) hK
  refine ⟨q, q', e, e', fun i j hij hj => ⟨_, _, hq.get hij hj, hq'.get hij hj, h1 _ (fun x hx => ?_)⟩, fun p hp => ?_⟩
  · simp only [oCells, Finset.mem_Icc] at hx
    exact hin x (by omega)
  obtain ⟨P, L, a1, a2, a3, a4, a5⟩ := C16.optimal q n _ hq p
  obtain ⟨P', L', b1, b2, b3, b4, b5⟩ := C16.optimal q' n _ hq' p
  refine ⟨P, P', L', a1, b1, b2, by rw [b3, List.map_map]; rfl, ?_⟩
  rw [a4, b4]
  refine h2 oCells (Tiles 0 n) p hp (fun M hM => tiles_cuts hM hn0) L L' a2 b2 (fun M hM => ?_) (fun M hM => ?_)
  · rcases a5 M hM with x | ⟨x, _⟩
    · exact x.le
    · exact x.le
  · rcases b5 M hM with x | ⟨x, _⟩
    · exact x.le
    · exact x.le

/-- Hierarchies. -/
theorem hierarchical (m leaves : Nat) (parents : List Int) (hlt : leaves < parents.length) (B η : ℝ) (hη : 0 < η) :
    ∃ δ > 0, ∀ (V V' : Nat → Nat → ℝ), Known B δ m V V' (Finset.range leaves) →
      ∀ v v' : HValues ℝ, RightMeta leaves parents v.md → RightMeta leaves parents v'.md → HData v m leaves V → HData v' m leaves V' →
      ∃ q q', (HQualities.ofValues v).computeQualities = .ok ⟨some v, some q, v.md⟩ ∧
        (HQualities.ofValues v').computeQualities = .ok ⟨some v', some q', v'.md⟩ ∧
        (∀ h, h < parents.length → ∃ x x', q[h]? = some x ∧ q'[h]? = some x' ∧ Apart η x x') ∧
        ∀ p : F, Proper p → ∃ (P P' : HPartition F ℝ), hBestPartition q v.md p = .ok P ∧ hBestPartition q' v'.md p = .ok P' ∧
          LeafCover leaves parents (P'.parts.map (fun x => x.h)) ∧
          LittleHarm η p m V (leavesUnder leaves parents) (LeafCover leaves parents) (P'.parts.map (fun x => x.h)) P.quality P'.quality := by
  obtain ⟨δ, hδ, h⟩ := precision_aux (F := F) (ι := Nat) leaves m B hη
  refine ⟨δ, hδ, fun V V' hK v v' hmd hmd' hv hv' => ?_⟩
  obtain ⟨q, e, hq⟩ := hq_object hmd hlt hv (fun k i hk hi => (hK k hk i (by simpa using hi)).1)
  obtain ⟨q', e', hq'⟩ := hq_object hmd' hlt hv' (fun k i hk hi => (hK k hk i (by simpa using hi)).2.2.1)
  obtain ⟨h1, h2⟩ := h (Finset.range leaves) V V' (by simp) hK
  refine ⟨q, q', e, e', fun x hx => ⟨_, _, hq.cell x hx, hq'.cell x hx, h1 _ (fun l hl => ?_)⟩, fun p hp => ?_⟩
  · simpa using (mem_leavesUnder.mp hl).1
  obtain ⟨P, L, a1, a2, a3, a4, a5⟩ := C19.optimal leaves parents v.md hmd hlt q _ hq p
  obtain ⟨P', L', b1, b2, b3, b4, b5⟩ := C19.optimal leaves parents v'.md hmd' hlt q' _ hq' p
  have eL : P'.parts.map (fun x => x.h) = L' := by
    have := congrArg (List.map Prod.fst) b3
    simpa [List.map_map, Function.comp_def] using this
  refine ⟨P, P', a1, b1, by rw [eL]; exact b2, ?_⟩
  rw [a4, b4, eL]
  exact h2 (leavesUnder leaves parents) (LeafCover leaves parents) p hp
    (fun M hM => by have := leafCover_cuts hmd.tree hM; rwa [leavesUnder_root hmd.tree] at this) L L' a2 b2 (fun M hM => (a5 M hM).1)
    (fun M hM => (b5 M hM).1)

/-- Hierarchy × time: the partitions to choose from are the coarse-first ones (see C21). -/
theorem spatiotemporal (m leaves n : Nat) (parents : List Int) (hlt : leaves < parents.length) (hn0 : 0 < n) (hn : n ≤ 65535)
    (hb : leaves * n < 2147483648) (B η : ℝ) (hη : 0 < η) :
    ∃ δ > 0, ∀ (V V' : Nat → Nat × Nat → ℝ), Known B δ m V V' (Finset.range leaves ×ˢ Finset.Icc 0 (n - 1)) →
      ∀ v v' : DValues ℝ, RightMeta leaves parents v.md → RightMeta leaves parents v'.md → DData v m leaves n V → DData v' m leaves n V' →
      ∃ q q', (DQualities.ofValues v).computeQualities = .ok ⟨some v, some q, v.md⟩ ∧
        (DQualities.ofValues v').computeQualities = .ok ⟨some v', some q', v'.md⟩ ∧
        (∀ h i j, h < parents.length → i ≤ j → j < n → ∃ x x', mget q h i j = .ok x ∧ mget q' h i j = .ok x' ∧ Apart η x x') ∧
        ∀ p : F, Proper p → ∃ (P P' : DPartition F ℝ), dBestPartition q v.md p = .ok P ∧ dBestPartition q' v'.md p = .ok P' ∧
          CellCover leaves parents n (P'.parts.map (fun x => (⟨x.h, x.start, x.end⟩ : Rect))) ∧
          LittleHarm η p m V (fun r : Rect => leavesUnder leaves parents r.node ×ˢ Finset.Icc r.first r.last)
            (fun M => CellCover leaves parents n M ∧ CoarseFirst parents M) (P'.parts.map (fun x => (⟨x.h, x.start, x.end⟩ : Rect)))
            P.quality P'.quality := by
  obtain ⟨δ, hδ, h⟩ := precision_aux (F := F) (ι := Nat × Nat) (leaves * n) m B hη
  refine ⟨δ, hδ, fun V V' hK v v' hmd hmd' hv hv' => ?_⟩
  have hin : ∀ i t, i < leaves → t < n → (i, t) ∈ Finset.range leaves ×ˢ Finset.Icc 0 (n - 1) := fun i t hi ht => by
    simp only [Finset.mem_product, Finset.mem_range, Finset.mem_Icc]
    omega
  obtain ⟨q, e, hq⟩ := dq_object hmd hlt hn hb hv (fun k i t hk hi ht => (hK k hk _ (hin i t hi ht)).1)
  obtain ⟨q', e', hq'⟩ := dq_object hmd' hlt hn hb hv' (fun k i t hk hi ht => (hK k hk _ (hin i t hi ht)).2.2.1)
  obtain ⟨h1, h2⟩ := h (Finset.range leaves ×ˢ Finset.Icc 0 (n - 1)) V V' (by
    rw [Finset.card_product, Finset.card_range, Nat.card_Icc, show n - 1 + 1 - 0 = n by omega]) hK
  refine ⟨q, q', e, e', fun h i j hh hij hj => ⟨_, _, hq.get hh hij hj, hq'.get hh hij hj, h1 _ (fun c hc => ?_)⟩, fun p hp => ?_⟩
  · simp only [dCells, Finset.mem_product, mem_leavesUnder, Finset.mem_Icc] at hc
    exact hin c.1 c.2 hc.1.1 (by omega)
  obtain ⟨P, L, a1, a2, ac, a3, a4, a5⟩ := C21.optimal leaves parents v.md hmd n hn0 hn q _ hq p
  obtain ⟨P', L', b1, b2, bc, b3, b4, b5⟩ := C21.optimal leaves parents v'.md hmd' n hn0 hn q' _ hq' p
  have eL : P'.parts.map (fun x => (⟨x.h, x.start, x.end⟩ : Rect)) = L' := by
    have := congrArg (List.map Prod.fst) b3
    simpa [List.map_map, Function.comp_def] using this
  refine ⟨P, P', a1, b1, by rw [eL]; exact b2, ?_⟩
  rw [a4, b4, eL]
  refine h2 (dCells leaves parents) (fun M => CellCover leaves parents n M ∧ CoarseFirst parents M) p hp
    (fun M hM => by have := cellCover_cuts hmd.tree hM.1 hn0; unfold dCells at this; rw [leavesUnder_root hmd.tree] at this; exact this)
    L L' ⟨a2, ac⟩ ⟨b2, bc⟩ (fun M hM => ?_) (fun M hM => ?_)
  · rcases a5 M hM.1 hM.2 with x | ⟨x, _⟩
    · exact x.le
    · exact x.le
  · rcases b5 M hM.1 hM.2 with x | ⟨x, _⟩
    · exact x.le
    · exact x.le

/-! ## A concrete case: the values 1, 2, 1, … known up to half of the precision -/

/-- The true values. -/
def exV (i : Nat) : ℝ := if i = 1 then 2 else 1

theorem exKnown_aux {ι : Type} (g : ι → Nat) (m : Nat) (U : Finset ι) {δ : ℝ} (hδ : 0 < δ) :
    Known 3 δ m (fun _ x => exV (g x)) (fun _ x => exV (g x) + min δ 1) U := by
  intro k _ x _
  have h1 : 0 < min δ 1 := lt_min hδ one_pos
  have h2 : min δ 1 ≤ 1 := min_le_right _ _
  have h3 : min δ 1 ≤ δ := min_le_left _ _
  have h4 : 1 ≤ exV (g x) ∧ exV (g x) ≤ 2 := by unfold exV; split_ifs <;> norm_num
  refine ⟨by linarith, by linarith, by linarith, by linarith, ?_⟩
  rw [abs_le]
  constructor <;> linarith

theorem exProper_aux : Proper (1 / 2 : ℝ) := by
  constructor
  · show |(1 / 2 : ℝ)| ≤ 1
    rw [abs_le]; constructor <;> norm_num
  · show |(1 - 1 / 2 : ℝ)| ≤ 1
    rw [abs_le]; constructor <;> norm_num

example : ∃ ε > 0, ∃ q q', (OQualities.ofValues (OValuesN1.ofVec (table1 3 exV)).toOValues).computeQualities =
      .ok ⟨some (OValuesN1.ofVec (table1 3 exV)).toOValues, some q⟩ ∧
    (OQualities.ofValues (OValuesN1.ofVec (table1 3 (fun i => exV i + ε))).toOValues).computeQualities =
      .ok ⟨some (OValuesN1.ofVec (table1 3 (fun i => exV i + ε))).toOValues, some q'⟩ ∧
    ∃ (P P' : OPartition ℝ ℝ) (L' : List (Nat × Nat)), oBestPartition q (1 / 2 : ℝ) = .ok P ∧ oBestPartition q' (1 / 2 : ℝ) = .ok P' ∧
      LittleHarm (1 / 1000) (1 / 2 : ℝ) 1 (fun _ => exV) (fun I : Nat × Nat => Finset.Icc I.1 I.2) (Tiles 0 3) L' P.quality P'.quality := by
  obtain ⟨δ, hδ, h⟩ := ordered (F := ℝ) 1 3 (by decide) (by decide) 3 (1 / 1000) (by norm_num)
  obtain ⟨q, q', e, e', _, h2⟩ := h _ _ (exKnown_aux (fun i => i) 1 (Finset.Icc 0 (3 - 1)) hδ) _ _ (OValuesN1.ofVec_holds (O := 3) exV).data
    (OValuesN1.ofVec_holds (O := 3) (fun i => exV i + min δ 1)).data
  obtain ⟨P, P', L', g1, g2, _, _, g3⟩ := h2 (1 / 2 : ℝ) exProper_aux
  exact ⟨min δ 1, lt_min hδ one_pos, q, q', e, e', P, P', L', g1, g2, g3⟩

example : ∃ (ε : ℝ) (v v' : HValues ℝ) (q q' : List (Quality ℝ)), 0 < ε ∧ (HQualities.ofValues v).computeQualities = .ok ⟨some v, some q, v.md⟩ ∧
    (HQualities.ofValues v').computeQualities = .ok ⟨some v', some q', v'.md⟩ ∧
    ∃ (P P' : HPartition ℝ ℝ), hBestPartition q v.md (1 / 2 : ℝ) = .ok P ∧ hBestPartition q' v'.md (1 / 2 : ℝ) = .ok P' ∧
      LittleHarm (1 / 1000) (1 / 2 : ℝ) 1 (fun _ => exV) (leavesUnder 4 [4, 4, 5, 5, 6, 6, -1]) (LeafCover 4 [4, 4, 5, 5, 6, 6, -1])
        (P'.parts.map (fun x => x.h)) P.quality P'.quality := by
  obtain ⟨md, _, r⟩ := C57.meta_aux
  obtain ⟨δ, hδ, h⟩ := hierarchical (F := ℝ) 1 4 [4, 4, 5, 5, 6, 6, -1] (by decide) 3 (1 / 1000) (by norm_num)
  have h1 : (⟨1, md, table1 4 exV⟩ : HValuesN1 ℝ).Holds 4 md exV := ⟨rfl, rfl, rfl⟩
  have h2 : (⟨1, md, table1 4 (fun i => exV i + min δ 1)⟩ : HValuesN1 ℝ).Holds 4 md (fun i => exV i + min δ 1) := ⟨rfl, rfl, rfl⟩
  obtain ⟨q, q', e, e', _, h3⟩ := h _ _ (exKnown_aux (fun i => i) 1 (Finset.range 4) hδ) _ _ r r h1.data h2.data
  obtain ⟨P, P', g1, g2, _, g3⟩ := h3 (1 / 2 : ℝ) exProper_aux
  exact ⟨min δ 1, _, _, q, q', lt_min hδ one_pos, e, e', P, P', g1, g2, g3⟩

example : ∃ (ε : ℝ) (v v' : DValues ℝ) (q q' : List (UTM (Quality ℝ))), 0 < ε ∧
    (DQualities.ofValues v).computeQualities = .ok ⟨some v, some q, v.md⟩ ∧
    (DQualities.ofValues v').computeQualities = .ok ⟨some v', some q', v'.md⟩ ∧
    ∃ (P P' : DPartition ℝ ℝ), dBestPartition q v.md (1 / 2 : ℝ) = .ok P ∧ dBestPartition q' v'.md (1 / 2 : ℝ) = .ok P' ∧
      CellCover 4 [4, 4, 5, 5, 6, 6, -1] 2 (P'.parts.map (fun x => (⟨x.h, x.start, x.end⟩ : Rect))) := by
  obtain ⟨md, _, r⟩ := C57.meta_aux
  obtain ⟨δ, hδ, h⟩ := spatiotemporal (F := ℝ) 1 4 2 [4, 4, 5, 5, 6, 6, -1] (by decide) (by decide) (by decide) (by decide) 3 (1 / 1000)
    (by norm_num)
  have h1 : (⟨1, 2, md, table2 4 2 (fun x => exV (x.1 + x.2))⟩ : DValuesN2 ℝ).Holds 4 2 md (fun x => exV (x.1 + x.2)) := ⟨rfl, rfl, rfl, rfl⟩
  have h2 : (⟨1, 2, md, table2 4 2 (fun x => exV (x.1 + x.2) + min δ 1)⟩ : DValuesN2 ℝ).Holds 4 2 md (fun x => exV (x.1 + x.2) + min δ 1) :=
    ⟨rfl, rfl, rfl, rfl⟩
  obtain ⟨q, q', e, e', _, h3⟩ := h _ _ (exKnown_aux (fun x : Nat × Nat => x.1 + x.2) 1 _ hδ) _ _ r r h1.data h2.data
  obtain ⟨P, P', g1, g2, g3, _⟩ := h3 (1 / 2 : ℝ) exProper_aux
  exact ⟨min δ 1, _, _, q, q', lt_min hδ one_pos, e, e', P, P', g1, g2, g3⟩

end Lp.C86

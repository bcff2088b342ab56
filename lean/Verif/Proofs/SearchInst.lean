import Verif.Proofs.Search
import Verif.Proofs.Weights
import Verif.Props.C25
import Verif.Props.C38
import Verif.Spec.Partitioner

/-!
# The three partitioners satisfy the assumptions of the search
-/

namespace Lp
open Spec
variable {F K : Type}

section any
variable [LD K] [FloatP F K]

theorem oSearch {q : UTM (Quality K)} {n : Nat} {f : Nat → Nat → Quality K} (hq : q.Rep n f) :
    ∃ B : F → OPartition F K, SearchOps (oOps q) B := by
  have hex : ∀ p : F, ∃ P, oBestPartition q p = .ok P ∧ P.parameter = p := by
    intro p
    obtain ⟨P, _, _, _, _, h1, _, _, _, _, h6⟩ := oBest_spec hq p
    exact ⟨P, h1, h6⟩
  choose B hB hP using hex
  exact ⟨B, hB, hP, fun p => C38.equivalence.1.refl _, fun p q h => C38.equivalence.1.symm h,
    fun p q r h h' => C38.equivalence.1.trans h h'⟩

theorem hSearch {leaves : Nat} {parents : List Int} {md : HMeta}
    (hmd : RightMeta leaves parents md) (hlt : leaves < parents.length)
    {q : List (Quality K)} {Q : Nat → Quality K} (hq : VRep q parents.length Q) :
    ∃ B : F → HPartition F K, SearchOps (hOps q md) B := by
  have hex : ∀ p : F, ∃ P, hBestPartition q md p = .ok P ∧ P.parameter = p := by
    intro p
    obtain ⟨P, _, _, _, _, h1, _, _, _, _, h6⟩ := hBest_spec hmd hlt hq p
    exact ⟨P, h1, h6⟩
  choose B hB hP using hex
  exact ⟨B, hB, hP, fun p => C38.equivalence.2.refl _, fun p q h => C38.equivalence.2.symm h,
    fun p q r h h' => C38.equivalence.2.trans h h'⟩

theorem dSearch {leaves : Nat} {parents : List Int} {md : HMeta}
    (hmd : RightMeta leaves parents md) {n : Nat} (h0 : 0 < n) (hn : n ≤ 65535)
    {q : List (UTM (Quality K))} {Q : Nat → Nat → Nat → Quality K} (hq : MRep q parents.length n Q) :
    ∃ B : F → DPartition F K, SearchOps (dOps q md) B := by
  have hex : ∀ p : F, ∃ P, dBestPartition q md p = .ok P ∧ P.parameter = p := by
    intro p
    obtain ⟨P, _, _, _, _, h1, _, _, _, _, h6⟩ := dBest_spec hmd hq h0 hn p
    exact ⟨P, h1, h6⟩
  choose B hB hP using hex
  have hs : ∀ p p', DPartition.eqOp (B p) (B p') = true ↔ C38.rects (B p) = C38.rects (B p') := fun p p' =>
    C38.spatiotemporal leaves parents md hmd n h0 hn q q Q Q hq hq p p' _ _ (hB p) (hB p')
  exact ⟨B, hB, hP, fun p => (hs p p).mpr rfl, fun p q h => (hs q p).mpr ((hs p q).mp h).symm,
    fun p q r h h' => (hs p r).mpr (((hs p q).mp h).trans ((hs q r).mp h'))⟩

theorem isPartitioner_ops {P T : Type} {ops : PartOps F K P T} (h : IsPartitioner ops) : ∃ B, SearchOps ops B := by
  cases h with
  | ordered q n f hq => exact oSearch hq
  | hierarchical leaves parents md q Q hmd hlt hq => exact hSearch hmd hlt hq
  | spatiotemporal leaves parents md n q Q hmd h0 hn hq => exact dSearch hmd h0 hn hq

end any

variable [Field K] [LinearOrder K] [IsStrictOrderedRing K] [FloatP F K] {u : K}

theorem oInterval (fl : FloatLaws F K u) {q : UTM (Quality K)} {n : Nat} {f : Nat → Nat → Quality K} (hq : q.Rep n f)
    {B : F → OPartition F K} (so : SearchOps (oOps q) B) : IntervalOps (K := K) (oOps q) B := by
  intro a p b h0 hap hpb h1 hs
  rcases lt_or_eq_of_le (le_trans hap hpb) with hlt | he
  · obtain ⟨R1, ds1, L1, a1, a2, _, _, _⟩ := oBest_lex hq a
    obtain ⟨R2, ds2, L2, c1, c2, _, _, _⟩ := oBest_lex hq b
    have hk : ∀ x y : OPart K, OPart.eqOp x y = true ↔ (x.start, x.end) = (y.start, y.end) := by
      intro a b; simp [OPart.eqOp]
    have e1 := C24.res_aux (so.best a) a1
    have e2 := C24.res_aux (so.best b) c1
    have hL : L1 = L2 := by
      have := (allEq_iff hk _ _).mp hs
      rw [e1, e2, a2, c2, List.map_map, List.map_map] at this
      exact C25.inj_aux (by rintro ⟨x, y⟩ ⟨x', y'⟩ h; simp [oPartOf] at h; ext <;> simp <;> omega) this
    have hparts : (B a).parts = (B b).parts := by rw [e1, e2, a2, c2, hL]
    have := C25.ordered fl q n f hq a p b h0 hap hpb hlt h1 _ _ _ (so.best a) (so.best p) (so.best b) hparts
    exact (allEq_iff hk _ _).mpr (by rw [this])
  · have : p = a := fl.inj _ _ (le_antisymm (by rw [he]; exact hpb) hap)
    rw [this]; exact so.refl a

theorem hInterval (fl : FloatLaws F K u) {leaves : Nat} {parents : List Int} {md : HMeta}
    (hmd : RightMeta leaves parents md) (hleaf : leaves < parents.length)
    {q : List (Quality K)} {Q : Nat → Quality K} (hq : VRep q parents.length Q)
    {B : F → HPartition F K} (so : SearchOps (hOps q md) B) : IntervalOps (K := K) (hOps q md) B := by
  intro a p b h0 hap hpb h1 hs
  rcases lt_or_eq_of_le (le_trans hap hpb) with hlt | he
  · obtain ⟨R1, ds1, L1, a1, a2, _, _, _, _⟩ := hBest_first hmd hleaf hq a
    obtain ⟨R2, ds2, L2, c1, c2, _, _, _, _⟩ := hBest_first hmd hleaf hq b
    have hk : ∀ x y : HPart K, HPart.eqOp x y = true ↔ (x.size, x.h) = (y.size, y.h) := by
      intro a b; simp [HPart.eqOp]
    have e1 := C24.res_aux (so.best a) a1
    have e2 := C24.res_aux (so.best b) c1
    have hL : L1 = L2 := by
      have := (allEq_iff hk _ _).mp hs
      rw [e1, e2, a2, c2, List.map_map, List.map_map] at this
      exact C25.inj_aux (by intro x y h; simp [hPartOf] at h; exact h.2) this
    have hparts : (B a).parts = (B b).parts := by rw [e1, e2, a2, c2, hL]
    have := C25.hierarchical fl leaves parents md hmd hleaf q Q hq a p b h0 hap hpb hlt h1 _ _ _ (so.best a) (so.best p)
      (so.best b) hparts
    exact (allEq_iff hk _ _).mpr (by rw [this])
  · have : p = a := fl.inj _ _ (le_antisymm (by rw [he]; exact hpb) hap)
    rw [this]; exact so.refl a

theorem dInterval (fl : FloatLaws F K u) {leaves : Nat} {parents : List Int} {md : HMeta}
    (hmd : RightMeta leaves parents md) {n : Nat} (hn0 : 0 < n) (hn : n ≤ 65535)
    {q : List (UTM (Quality K))} {Q : Nat → Nat → Nat → Quality K} (hq : MRep q parents.length n Q)
    {B : F → DPartition F K} (so : SearchOps (dOps q md) B) : IntervalOps (K := K) (dOps q md) B := by
  intro a p b h0 hap hpb h1 hs
  rcases lt_or_eq_of_le (le_trans hap hpb) with hlt | he
  · obtain ⟨R1, ds1, L1, a1, a2, _, _, a5⟩ := dBest_first hmd hq hn0 hn a
    obtain ⟨R2, ds2, L2, c1, c2, _, _, c5⟩ := dBest_first hmd hq hn0 hn b
    have e1 := C24.res_aux (so.best a) a1
    have e2 := C24.res_aux (so.best b) c1
    have hset := (C38.spatiotemporal leaves parents md hmd n hn0 hn q q Q Q hq hq a b _ _ (so.best a) (so.best b)).mp hs
    have hrect : ∀ (R : DPartition F K) (M : List Rect), R.parts = M.map (dPartOf md Q) →
        ∀ r, r ∈ C38.rects R ↔ r ∈ M := by
      intro R M hR r; unfold C38.rects; rw [hR]; simp [dPartOf]
    have hmem : ∀ r, r ∈ L1 ↔ r ∈ L2 := by
      intro r
      rw [← hrect (B a) L1 (by rw [e1, a2]) r, ← hrect (B b) L2 (by rw [e2, c2]) r, hset]
    have hperm : L1.Perm L2 := (List.perm_ext_iff_of_nodup
      (Lp.CellCover.nodup hmd.tree (dSol_cellCover hmd hn0 a5.mem))
      (Lp.CellCover.nodup hmd.tree (dSol_cellCover hmd hn0 c5.mem))).mpr hmem
    have hg : gainOf (rq Q) L1 = gainOf (rq Q) L2 := by unfold gainOf; exact (hperm.map _).sum_eq
    have hl : lossOf (rq Q) L1 = lossOf (rq Q) L2 := by unfold lossOf; exact (hperm.map _).sum_eq
    have hds : ds1 = ds2 := by
      rcases a5.first ds2 L2 c5.mem hg.symm hl.symm with e | e
      · exact e
      · rcases c5.first ds1 L1 a5.mem hg hl with e' | e'
        · exact e'.symm
        · exact absurd e' e.asymm
    subst hds
    have hL := a5.mem.unique c5.mem
    have hparts : (B a).parts = (B b).parts := by rw [e1, e2, a2, c2, hL]
    have hp := C25.spatiotemporal fl leaves parents md hmd n hn0 hn q Q hq a p b h0 hap hpb hlt h1 _ _ _ (so.best a)
      (so.best p) (so.best b) hparts
    refine (C38.spatiotemporal leaves parents md hmd n hn0 hn q q Q Q hq hq a p _ _ (so.best a) (so.best p)).mpr ?_
    unfold C38.rects; rw [hp]
  · have : p = a := fl.inj _ _ (le_antisymm (by rw [he]; exact hpb) hap)
    rw [this]; exact so.refl a

theorem isPartitioner_interval (fl : FloatLaws F K u) {P T : Type} {ops : PartOps F K P T} (h : IsPartitioner ops)
    {B : F → P} (so : SearchOps ops B) : IntervalOps (K := K) ops B := by
  cases h with
  | ordered q n f hq => exact oInterval fl hq so
  | hierarchical leaves parents md q Q hmd hlt hq => exact hInterval fl hmd hlt hq so
  | spatiotemporal leaves parents md n q Q hmd h0 hn hq => exact dInterval fl hmd h0 hn hq so

end Lp

import Verif.Model.Unequal
import Verif.Proofs.Same
import Verif.Props.C15
import Verif.Props.C16
import Verif.Props.C18
import Verif.Props.C20
import Verif.Proofs.SampleBest

/-!
# C38 — partition equality
-/

namespace Lp.C38
open Spec
variable {F K : Type}

/-- The set of intervals of an ordered partition. -/
def intervals (P : OPartition F K) : Set (Int × Int) := {I | ∃ x ∈ P.parts, (x.start, x.end) = I}
/-- The set of nodes of a hierarchical partition. -/
def nodes (P : HPartition F K) : Set Nat := {h | ∃ x ∈ P.parts, x.h = h}
/-- The set of rectangles of a spatiotemporal partition. -/
def rects (P : DPartition F K) : Set Rect := {r | ∃ x ∈ P.parts, (⟨x.h, x.start, x.end⟩ : Rect) = r}

/-- On any objects whatsoever `==` of ordered (hierarchical) partitions is an equivalence relation. -/
theorem equivalence :
    Equivalence (fun P P' : OPartition F K => P.eqOp P' = true) ∧
    Equivalence (fun P P' : HPartition F K => P.eqOp P' = true) := by
  have ho : ∀ a b : OPart K, OPart.eqOp a b = true ↔ (a.start, a.end) = (b.start, b.end) := by
    intro a b; simp [OPart.eqOp]
  have hh : ∀ a b : HPart K, HPart.eqOp a b = true ↔ (a.size, a.h) = (b.size, b.h) := by
    intro a b; simp [HPart.eqOp]
  constructor
  · refine ⟨fun P => (allEq_iff ho _ _).mpr rfl, fun {P P'} h => (allEq_iff ho _ _).mpr ((allEq_iff ho _ _).mp h).symm,
      fun {P P' P''} h h' => (allEq_iff ho _ _).mpr (((allEq_iff ho _ _).mp h).trans ((allEq_iff ho _ _).mp h'))⟩
  · refine ⟨fun P => (allEq_iff hh _ _).mpr rfl, fun {P P'} h => (allEq_iff hh _ _).mpr ((allEq_iff hh _ _).mp h).symm,
      fun {P P' P''} h h' => (allEq_iff hh _ _).mpr (((allEq_iff hh _ _).mp h).trans ((allEq_iff hh _ _).mp h'))⟩

/-- Ordered partitions of the same number of elements, computed with any arithmetic from any two tables and for any
two parameters: equal exactly when they have the same set of intervals. -/
theorem ordered [LD K] [FloatP F K] (n : Nat) (q q' : UTM (Quality K)) (f f' : Nat → Nat → Quality K)
    (hq : q.Rep n f) (hq' : q'.Rep n f') (p p' : F) (P P' : OPartition F K)
    (e : oBestPartition q p = .ok P) (e' : oBestPartition q' p' = .ok P') :
    P.eqOp P' = true ↔ intervals P = intervals P' := by
  have ho : ∀ a b : OPart K, OPart.eqOp a b = true ↔ (a.start, a.end) = (b.start, b.end) := by
    intro a b; simp [OPart.eqOp]
  unfold OPartition.eqOp
  rw [allEq_iff ho]
  constructor
  · intro h
    ext I
    have : ∀ R : OPartition F K, I ∈ intervals R ↔ I ∈ R.parts.map (fun a => (a.start, a.end)) := by
      intro R; simp [intervals]
    rw [this, this, h]
  · intro h
    obtain ⟨R, T, C, ds, L, a1, _, a3, a4, _, _⟩ := oBest_spec hq p
    obtain ⟨R', T', C', ds', L', b1, _, b3, b4, _, _⟩ := oBest_spec hq' p'
    rw [e] at a1; obtain rfl := Except.ok.inj a1
    rw [e'] at b1; obtain rfl := Except.ok.inj b1
    have t := oSol_tiles a3.sol 0 rfl (by omega)
    have t' := oSol_tiles b3.sol 0 rfl (by omega)
    have : L = L' := by
      refine Lp.Tiles.set_unique t t' ?_
      intro I
      have h2 : ((I.1 : Int), (I.2 : Int)) ∈ intervals P ↔ ((I.1 : Int), (I.2 : Int)) ∈ intervals P' := by rw [h]
      have : ∀ (R : OPartition F K) (g : Nat → Nat → Quality K) (M : List (Nat × Nat)), R.parts = M.map (oPartOf g) →
          (((I.1 : Int), (I.2 : Int)) ∈ intervals R ↔ I ∈ M) := by
        intro R g M hR
        unfold intervals
        rw [hR]
        simp only [List.mem_map, exists_exists_and_eq_and, Set.mem_setOf_eq, oPartOf, Prod.mk.injEq]
        constructor
        · rintro ⟨J, hJ, h1, h2⟩
          have : J = I := by ext <;> omega
          exact this ▸ hJ
        · intro hI; exact ⟨I, hI, rfl, rfl⟩
      rw [this P f L a4, this P' f' L' b4] at h2
      exact h2
    rw [a4, b4, this, List.map_map, List.map_map]
    rfl

/-- Hierarchical partitions of the same hierarchy, any arithmetic, tables and parameters: equal exactly when they
have the same set of nodes. -/
theorem hierarchical [LD K] [FloatP F K] (leaves : Nat) (parents : List Int) (md : HMeta)
    (hmd : RightMeta leaves parents md) (hlt : leaves < parents.length)
    (q q' : List (Quality K)) (Q Q' : Nat → Quality K) (hq : VRep q parents.length Q) (hq' : VRep q' parents.length Q')
    (p p' : F) (P P' : HPartition F K) (e : hBestPartition q md p = .ok P) (e' : hBestPartition q' md p' = .ok P') :
    P.eqOp P' = true ↔ nodes P = nodes P' := by
  have hh : ∀ a b : HPart K, HPart.eqOp a b = true ↔ (a.size, a.h) = (b.size, b.h) := by
    intro a b; simp [HPart.eqOp]
  unfold HPartition.eqOp
  rw [allEq_iff hh]
  obtain ⟨R, T, C, ds, L, a1, _, a3, a4, _, _⟩ := hBest_spec hmd hlt hq p
  obtain ⟨R', T', C', ds', L', b1, _, b3, b4, _, _⟩ := hBest_spec hmd hlt hq' p'
  rw [e] at a1; obtain rfl := Except.ok.inj a1
  rw [e'] at b1; obtain rfl := Except.ok.inj b1
  have mem : ∀ (R : HPartition F K) (g : Nat → Quality K) (M : List Nat) (x : Nat), R.parts = M.map (hPartOf md g) →
      (x ∈ nodes R ↔ x ∈ M) := by
    intro R g M x hR; unfold nodes; rw [hR]; simp [hPartOf]
  rw [a4, b4, List.map_map, List.map_map]
  constructor
  · intro h
    have hL : L = L' := by
      have := congrArg (List.map Prod.snd) h
      rw [List.map_map, List.map_map] at this
      simpa [Function.comp_def, hPartOf] using this
    ext x; rw [mem P Q L x a4, mem P' Q' L' x b4, hL]
  · intro h
    have : L = L' := hSol_root_unique hmd a3.sol b3.sol (fun x => by
      rw [← mem P Q L x a4, ← mem P' Q' L' x b4, h])
    rw [this]
    rfl

/-- Spatiotemporal partitions of the same hierarchy and number of slices: equal exactly when they have the same set
of rectangles (so this is an equivalence relation too). -/
theorem spatiotemporal [LD K] [FloatP F K] (leaves : Nat) (parents : List Int) (md : HMeta)
    (hmd : RightMeta leaves parents md) (n : Nat) (h0 : 0 < n) (hn : n ≤ 65535)
    (q q' : List (UTM (Quality K))) (Q Q' : Nat → Nat → Nat → Quality K) (hq : MRep q parents.length n Q)
    (hq' : MRep q' parents.length n Q')
    (p p' : F) (P P' : DPartition F K) (e : dBestPartition q md p = .ok P) (e' : dBestPartition q' md p' = .ok P') :
    P.eqOp P' = true ↔ rects P = rects P' := by
  obtain ⟨R, L, a1, a2, a3, _⟩ := C20.cover leaves parents md hmd n h0 hn q Q hq p
  obtain ⟨R', L', b1, b2, b3, _⟩ := C20.cover leaves parents md hmd n h0 hn q' Q' hq' p'
  rw [e] at a1; obtain rfl := Except.ok.inj a1
  rw [e'] at b1; obtain rfl := Except.ok.inj b1
  have nd := Lp.CellCover.nodup hmd.tree a2
  have nd' := Lp.CellCover.nodup hmd.tree b2
  have r1 : rects P = {r | r ∈ L} := by ext r; unfold rects; rw [a3]; simp
  have r2 : rects P' = {r | r ∈ L'} := by ext r; unfold rects; rw [b3]; simp
  have key : P.eqOp P' = true ↔ (L.length = L'.length ∧ ∀ r ∈ L, r ∈ L') := by
    unfold DPartition.eqOp
    rw [a3, b3]
    simp only [List.length_map, ne_eq, Bool.ite_eq_true_distrib, List.all_eq_true, List.mem_map,
      List.any_eq_true, exists_exists_and_eq_and, forall_exists_index, and_imp]
    by_cases hl : L.length = L'.length
    · simp only [hl, not_true_eq_false, if_false, true_and]
      constructor
      · intro h r hr
        obtain ⟨r', hr', he⟩ := h _ r hr rfl
        simp [DPart.eqOp] at he
        have : r = r' := by cases r; cases r'; simp at he ⊢; tauto
        exact this ▸ hr'
      · rintro h x r hr rfl
        exact ⟨r, h r hr, by simp [DPart.eqOp, DPart.getSize]⟩
    · simp [hl]
  rw [key, r1, r2]
  constructor
  · rintro ⟨h1, h2⟩
    have := (nd.subperm h2).perm_of_length_le (by omega)
    ext r; exact this.mem_iff
  · intro h
    have hm : ∀ r, r ∈ L ↔ r ∈ L' := fun r => Set.ext_iff.mp h r
    exact ⟨((List.perm_ext_iff_of_nodup nd nd').mpr hm).length_eq, fun r hr => (hm r).mp hr⟩

/-- `!=` of parts: some number differs, whatever the qualities. -/
theorem unequalParts (a b : OPart K) (c d : HPart K) (x y : DPart K) :
    (a.neOp b = true ↔ a.start ≠ b.start ∨ a.end ≠ b.end) ∧
    (c.neOp d = true ↔ c.size ≠ d.size ∨ c.h ≠ d.h) ∧
    (x.neOp y = true ↔ x.start ≠ y.start ∨ x.end ≠ y.end ∨ x.h ≠ y.h ∨ x.getSize ≠ y.getSize) := by
  refine ⟨?_, ?_, ?_⟩
  · simp only [OPart.neOp, OPart.eqOp, Bool.not_eq_true', Bool.and_eq_false_iff, beq_eq_false_iff_ne]
  · simp only [HPart.neOp, HPart.eqOp, Bool.not_eq_true', Bool.and_eq_false_iff, beq_eq_false_iff_ne]
  · simp only [DPart.neOp, DPart.eqOp, Bool.not_eq_true', Bool.and_eq_false_iff, beq_eq_false_iff_ne, or_assoc]

/-- `!=` of computed ordered partitions: other intervals. -/
theorem orderedUnequal [LD K] [FloatP F K] (n : Nat) (q q' : UTM (Quality K)) (f f' : Nat → Nat → Quality K)
    (hq : q.Rep n f) (hq' : q'.Rep n f') (p p' : F) (P P' : OPartition F K)
    (e : oBestPartition q p = .ok P) (e' : oBestPartition q' p' = .ok P') :
    P.neOp P' = true ↔ intervals P ≠ intervals P' := by
  rw [Ne, ← ordered n q q' f f' hq hq' p p' P P' e e']
  simp [OPartition.neOp]

/-- `!=` of computed hierarchical partitions: other nodes. -/
theorem hierarchicalUnequal [LD K] [FloatP F K] (leaves : Nat) (parents : List Int) (md : HMeta)
    (hmd : RightMeta leaves parents md) (hlt : leaves < parents.length)
    (q q' : List (Quality K)) (Q Q' : Nat → Quality K) (hq : VRep q parents.length Q) (hq' : VRep q' parents.length Q')
    (p p' : F) (P P' : HPartition F K) (e : hBestPartition q md p = .ok P) (e' : hBestPartition q' md p' = .ok P') :
    P.neOp P' = true ↔ nodes P ≠ nodes P' := by
  rw [Ne, ← hierarchical leaves parents md hmd hlt q q' Q Q' hq hq' p p' P P' e e']
  simp [HPartition.neOp]

/-- `!=` of computed spatiotemporal partitions: other rectangles. -/
theorem spatiotemporalUnequal [LD K] [FloatP F K] (leaves : Nat) (parents : List Int) (md : HMeta)
    (hmd : RightMeta leaves parents md) (n : Nat) (h0 : 0 < n) (hn : n ≤ 65535)
    (q q' : List (UTM (Quality K))) (Q Q' : Nat → Nat → Nat → Quality K) (hq : MRep q parents.length n Q)
    (hq' : MRep q' parents.length n Q')
    (p p' : F) (P P' : DPartition F K) (e : dBestPartition q md p = .ok P) (e' : dBestPartition q' md p' = .ok P') :
    P.neOp P' = true ↔ rects P ≠ rects P' := by
  rw [Ne, ← spatiotemporal leaves parents md hmd n h0 hn q q' Q Q' hq hq' p p' P P' e e']
  simp [DPartition.neOp]

/-- The hypotheses are met by the table of `C16` at two parameters with different partitions. -/
example : (do let P1 ← oBestPartition C16.exQ (1 / 2 : ℚ)
              let P2 ← oBestPartition C16.exQ (9 / 10 : ℚ)
              return P1.eqOp P2 : Res Bool) = .ok false := by decide +kernel
example (P P' : OPartition ℚ ℚ) (e : oBestPartition C16.exQ (1 / 2 : ℚ) = .ok P)
    (e' : oBestPartition C16.exQ (9 / 10 : ℚ) = .ok P') : P.eqOp P' = true ↔ intervals P = intervals P' :=
  ordered 3 _ _ _ _ C16.exRep C16.exRep _ _ P P' e e'

/-! ## The hypotheses are met by concrete inputs (`Proofs/Samples.lean`) -/

example := hierarchical 4 Sample.tree Sample.md Sample.right (by decide) Sample.hQ Sample.hQ _ _ Sample.hRep Sample.hRep 0 1 _ _ (Sample.hPok 0) (Sample.hPok 1)
example := spatiotemporal 4 Sample.tree Sample.md Sample.right 3 (by decide) (by decide) Sample.dQ Sample.dQ _ _ Sample.dRep Sample.dRep 0 1 _ _ (Sample.dPok 0)
  (Sample.dPok 1)
example := hierarchicalUnequal 4 Sample.tree Sample.md Sample.right (by decide) Sample.hQ Sample.hQ _ _ Sample.hRep Sample.hRep 0 1 _ _ (Sample.hPok 0) (Sample.hPok 1)
example := spatiotemporalUnequal 4 Sample.tree Sample.md Sample.right 3 (by decide) (by decide) Sample.dQ Sample.dQ _ _ Sample.dRep Sample.dRep 0 1 _ _ (Sample.dPok 0)
  (Sample.dPok 1)
example : (do let P1 ← oBestPartition C16.exQ (1 / 2 : ℚ)
              let P2 ← oBestPartition C16.exQ (9 / 10 : ℚ)
              return P1.neOp P2 : Res Bool) = .ok true := by decide +kernel

end Lp.C38

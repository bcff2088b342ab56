import Verif.Proofs.Norm
import Verif.Proofs.Ent
import Verif.Model.QHistory
import Verif.Proofs.Samples

/-!
# C44 — life cycle errors of the qualities objects

Which calls dereference a null pointer, for any arithmetic, data and qualities.
-/

namespace Lp.C44
open Spec
variable {K : Type}

/-- An object built from values on which `computeQualities()` has not been called yet: `normalize()` and `size()`
dereference a null pointer. -/
theorem beforeCompute [LD K] (v : OValues K) (hv : HValues K) (dv : DValues K) :
    (OQualities.ofValues v).normalize = .error .nullDeref ∧ (OQualities.ofValues v).size = .error .nullDeref ∧
    (HQualities.ofValues hv).normalize = .error .nullDeref ∧ (HQualities.ofValues hv).size = .error .nullDeref ∧
    (DQualities.ofValues dv).normalize = .error .nullDeref ∧ (DQualities.ofValues dv).size = .error .nullDeref :=
  ⟨rfl, rfl, rfl, rfl, rfl, rfl⟩

/-- An object built from ready-made qualities: `normalize()` dereferences a null pointer on ordered and
spatiotemporal qualities, but works on hierarchical ones; `size()` works on all three. -/
theorem readyMade [LD K] (q : UTM (Quality K)) (hq : List (Quality K)) (dq : List (UTM (Quality K))) (md : HMeta)
    (hr : md.root < hq.length) :
    (OQualities.ofQualities q).normalize = .error .nullDeref ∧ (OQualities.ofQualities q).size = .ok q.size ∧
    (∃ hq', (HQualities.ofQualities hq md).normalize = .ok (HQualities.ofQualities hq' md) ∧ hq'.length = hq.length) ∧
    (HQualities.ofQualities hq md).size = .ok hq.length ∧
    (DQualities.ofQualities dq md).normalize = .error .nullDeref ∧ (DQualities.ofQualities dq md).size = .ok dq.length := by
  refine ⟨rfl, rfl, ?_, rfl, rfl, rfl⟩
  obtain ⟨q', e, h⟩ := hqNormalize_spec (md := md) (⟨rfl, fun i hi => by simp [hi]⟩ :
    VRep hq hq.length (fun i => (hq[i]?).getD Quality.zero)) hr
  exact ⟨q', hNormalize_object e, h.len⟩

/-- After `computeQualities()` on any data, `normalize()` and `size()` are defined, and remain so after any
further sequence of `computeQualities()` and `normalize()` calls (ordered data, at least one slice). -/
theorem afterCompute (v : OValues ℝ) (m n : Nat) (V : Nat → Nat → ℝ) (hv : OData v m n V) (h0 : 0 < n) (hn : n ≤ 65535)
    (calls : List QCall) :
    ∃ o, forEach QCall.runO (.compute :: calls) (OQualities.ofValues v) = .ok o ∧ o.size = .ok n ∧
      ∃ o', o.normalize = .ok o' := by
  have key : ∀ (calls : List QCall) (q : UTM (Quality ℝ)) (f : Nat → Nat → Quality ℝ), q.Rep n f →
      ∃ q' f', forEach QCall.runO calls ⟨some v, some q⟩ = .ok ⟨some v, some q'⟩ ∧ q'.Rep n f' := by
    intro calls
    induction calls with
    | nil => intro q f hq; exact ⟨q, f, rfl, hq⟩
    | cons c cs ih =>
      intro q f hq
      cases c with
      | compute =>
        obtain ⟨q1, e, h⟩ := oqCompute_spec hv hn
        obtain ⟨q', f', e', h'⟩ := ih q1 _ h
        refine ⟨q', f', ?_, h'⟩
        rw [forEach]
        simp only [QCall.runO, OQualities.computeQualities, e, okBind, pureOk]
        exact e'
      | normalize =>
        obtain ⟨q1, e, h⟩ := oqNormalize_spec hq h0
        obtain ⟨q', f', e', h'⟩ := ih q1 _ h
        refine ⟨q', f', ?_, h'⟩
        rw [forEach]
        simp only [QCall.runO]
        erw [oNormalize_object hv.osize h0 e]
        exact e'
  obtain ⟨q1, e, h⟩ := oqCompute_spec hv hn
  obtain ⟨q', f', e', h'⟩ := key calls q1 _ h
  refine ⟨⟨some v, some q'⟩, ?_, ?_, ?_⟩
  · rw [forEach]
    simp only [QCall.runO, OQualities.computeQualities, OQualities.ofValues, e, okBind, pureOk]
    exact e'
  · exact congrArg Except.ok h'.size
  · obtain ⟨q2, e2, _⟩ := oqNormalize_spec h' h0
    exact ⟨_, oNormalize_object hv.osize h0 e2⟩

/-- The same for hierarchical data (right metadata with at least one inner node). -/
theorem afterComputeH (leaves : Nat) (parents : List Int) (v : HValues ℝ) (hmd : RightMeta leaves parents v.md)
    (hlt : leaves < parents.length) (m : Nat) (V : Nat → Nat → ℝ) (hv : HData v m leaves V) (calls : List QCall) :
    ∃ o, forEach QCall.runH (.compute :: calls) (HQualities.ofValues v) = .ok o ∧ o.size = .ok parents.length ∧
      ∃ o', o.normalize = .ok o' := by
  obtain ⟨q0, e0, r0⟩ := hqCompute_spec hmd hv hlt
  have key : ∀ (calls : List QCall) (q : List (Quality ℝ)) (f : Nat → Quality ℝ), VRep q parents.length f →
      ∃ q' f', forEach QCall.runH calls ⟨some v, some q, v.md⟩ = .ok ⟨some v, some q', v.md⟩ ∧
        VRep q' parents.length f' := by
    intro calls
    induction calls with
    | nil => intro q f hq; exact ⟨q, f, rfl, hq⟩
    | cons c cs ih =>
      intro q f hq
      cases c with
      | compute =>
        obtain ⟨q', f', e', h'⟩ := ih q0 _ r0
        refine ⟨q', f', ?_, h'⟩
        rw [forEach]
        simp only [QCall.runH, HQualities.computeQualities, e0, okBind, pureOk]
        exact e'
      | normalize =>
        obtain ⟨q1, e, h⟩ := hqNormalize_spec hq hmd.tree.rootLt
        obtain ⟨q', f', e', h'⟩ := ih q1 _ h
        refine ⟨q', f', ?_, h'⟩
        rw [forEach]
        simp only [QCall.runH]
        erw [hNormalize_object e]
        exact e'
  obtain ⟨q', f', e', h'⟩ := key calls q0 _ r0
  refine ⟨⟨some v, some q', v.md⟩, ?_, ?_, ?_⟩
  · rw [forEach]
    simp only [QCall.runH, HQualities.computeQualities, HQualities.ofValues, e0, okBind, pureOk]
    exact e'
  · exact congrArg Except.ok h'.len
  · obtain ⟨q2, e2, _⟩ := hqNormalize_spec h' hmd.tree.rootLt
    exact ⟨_, hNormalize_object e2⟩

/-- The same for spatiotemporal data. -/
theorem afterComputeD (leaves : Nat) (parents : List Int) (v : DValues ℝ) (hmd : RightMeta leaves parents v.md)
    (hlt : leaves < parents.length) (m n : Nat) (h0 : 0 < n) (hn : n ≤ 65535) (hb : leaves * n < 2147483648)
    (V : Nat → Nat × Nat → ℝ) (hv : DData v m leaves n V) (calls : List QCall) :
    ∃ o, forEach QCall.runD (.compute :: calls) (DQualities.ofValues v) = .ok o ∧ o.size = .ok parents.length ∧
      ∃ o', o.normalize = .ok o' := by
  obtain ⟨q0, e0, r0⟩ := dqCompute_spec hmd hlt hv hn hb
  have key : ∀ (calls : List QCall) (q : List (UTM (Quality ℝ))) (f : Nat → Nat → Nat → Quality ℝ),
      MRep q parents.length n f →
      ∃ q' f', forEach QCall.runD calls ⟨some v, some q, v.md⟩ = .ok ⟨some v, some q', v.md⟩ ∧
        MRep q' parents.length n f' := by
    intro calls
    induction calls with
    | nil => intro q f hq; exact ⟨q, f, rfl, hq⟩
    | cons c cs ih =>
      intro q f hq
      cases c with
      | compute =>
        obtain ⟨q', f', e', h'⟩ := ih q0 _ r0
        refine ⟨q', f', ?_, h'⟩
        rw [forEach]
        simp only [QCall.runD, DQualities.computeQualities, e0, okBind, pureOk]
        exact e'
      | normalize =>
        obtain ⟨q1, e, h⟩ := dqNormalize_spec hq hmd.tree.rootLt hmd.hsize h0 hn
        obtain ⟨q', f', e', h'⟩ := ih q1 _ h
        refine ⟨q', f', ?_, h'⟩
        rw [forEach]
        simp only [QCall.runD]
        erw [dNormalize_object hv.osize h0 e]
        exact e'
  obtain ⟨q', f', e', h'⟩ := key calls q0 _ r0
  refine ⟨⟨some v, some q', v.md⟩, ?_, ?_, ?_⟩
  · rw [forEach]
    simp only [QCall.runD, DQualities.computeQualities, DQualities.ofValues, e0, okBind, pureOk]
    exact e'
  · exact congrArg Except.ok h'.len
  · obtain ⟨q2, e2, _⟩ := dqNormalize_spec h' hmd.tree.rootLt hmd.hsize h0 hn
    exact ⟨_, dNormalize_object hv.osize h0 e2⟩

theorem downZero_aux {σ : Type} (f : Nat → Nat → σ → Res σ) (m : Nat) (s : σ) :
    forUp 0 m (fun k s => forDown 0 (f k) s) s = .ok s := by
  obtain ⟨s', h1, h2⟩ := forUp_inv (f := fun k s => forDown 0 (f k) s) (lo := 0) (hi := m) (s := s) (fun _ t => t = s)
    (Nat.zero_le _) rfl (fun i t _ _ ht => ⟨t, rfl, ht⟩)
  rw [h1, h2]

/-- Without any slice `normalize()` reads outside the empty table, although `computeQualities()` (shown for ordered data) and
`size()` work. -/
theorem noSlice [LDLog K] (v : OValues K) (h : v.osize = 0) (q : UTM (Quality K)) (dv : DValues K) (h' : dv.osize = 0)
    (dq : List (UTM (Quality K))) (md : HMeta) :
    (∃ o, (OQualities.ofValues v).computeQualities = .ok o ∧ o.size = .ok 0 ∧ o.normalize = .error .outOfBounds) ∧
    (OQualities.mk (some v) (some q)).normalize = .error .outOfBounds ∧
    (DQualities.mk (some dv) (some dq) md).normalize = .error .outOfBounds := by
  refine ⟨⟨⟨some v, some (UTM.mk' 0 Quality.zero)⟩, ?_, rfl, ?_⟩, ?_, ?_⟩
  · unfold OQualities.computeQualities OQualities.ofValues oqCompute
    simp only [h]
    rw [downZero_aux]
    rfl
  · unfold OQualities.normalize; simp [h]
  · unfold OQualities.normalize; simp [h]
  · unfold DQualities.normalize; simp [h']

/-- Concretely: ready-made ordered qualities of size 2 cannot be normalized. -/
example : (OQualities.ofQualities (UTM.mk' 2 (⟨1, 1⟩ : Quality ℚ))).normalize = .error .nullDeref := rfl

/-- Three slices: `normalize()` and `size()` work after any history starting with `computeQualities()`. -/
example (calls : List QCall) :
    ∃ o, forEach QCall.runO (.compute :: calls) (OQualities.ofValues (OValuesN1.ofVec ([1, 0, 2] : List ℝ)).toOValues) = .ok o ∧
      o.size = .ok 3 ∧ ∃ o', o.normalize = .ok o' :=
  afterCompute _ 1 3 _
    (OValuesN1.ofVec_holds (O := 3) (fun i => if i = 2 then (2 : ℝ) else if i = 1 then 0 else 1)).data
    (by norm_num) (by norm_num) calls

/-! ## The hypotheses are met by concrete inputs (`Proofs/Samples.lean`) -/

example := afterComputeH 4 Sample.tree Sample.hV Sample.right (by decide) 2 _ Sample.h [.normalize, .compute, .normalize]
example := afterComputeD 4 Sample.tree Sample.dV Sample.right (by decide) 2 3 (by decide) (by decide) (by decide) _ Sample.d [.normalize, .compute, .normalize]

end Lp.C44

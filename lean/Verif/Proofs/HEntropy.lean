import Verif.Proofs.TreeSum
import Verif.Proofs.Entropy
import Verif.Model.HQualities
import Verif.Spec.Data

/-!
# `HQualities::computeQualities` computes the entropy measures
-/

namespace Lp
open Spec
variable {leaves : Nat} {parents : List Int} {md : HMeta}

/-- Quality of node `h` for one series. -/
noncomputable def hCell (leaves : Nat) (parents : List Int) (w : Nat → ℝ) (h : Nat) : Quality ℝ :=
  codeQ (leafSum leaves parents w h) (leafSum leaves parents (fun l => er0 (w l)) h)
    ((leavesUnder leaves parents h).card : Nat)

theorem hCell_leaf (r : RightMeta leaves parents md) (w : Nat → ℝ) {h : Nat} (hl : h < leaves) :
    hCell leaves parents w h = ⟨0, 0⟩ := by
  unfold hCell
  rw [leafSum_leaf r _ hl, leafSum_leaf r _ hl, leavesUnder_leaf r.tree hl, Finset.card_singleton]
  exact codeQ_single _

/-- Sum of two qualities. -/
noncomputable def qplus (a b : Quality ℝ) : Quality ℝ := ⟨a.gain + b.gain, a.loss + b.loss⟩

theorem qplus_zero (a : Quality ℝ) : qplus a ⟨0, 0⟩ = a := by simp [qplus]

/-- Invariant after the nodes `done`. -/
structure HQInv (leaves : Nat) (parents : List Int) (w : Nat → ℝ) (q0 : Nat → Quality ℝ) (done : List Nat)
    (s : HSt ℝ) : Prop where
  sum : VRep s.sum parents.length (acc leaves parents w done)
  info : VRep s.info parents.length (acc leaves parents (fun l => er0 (w l)) done)
  q : VRep s.q parents.length (fun h => if h ∈ done then qplus (q0 h) (hCell leaves parents w h) else q0 h)

theorem vaddTo_spec {v : List ℝ} {n : Nat} {f : Nat → ℝ} (h : VRep v n f) {i : Nat} (x : ℝ) (hi : i < n) :
    ∃ v', vaddTo v i x = .ok v' ∧ VRep v' n (vupd f i (f i + x)) := by
  unfold vaddTo
  rw [h.get hi]
  simp only [okBind]
  exact h.set _ hi

theorem hqLeaf_spec (r : RightMeta leaves parents md) {v : HValues ℝ} {m : Nat} {V : Nat → Nat → ℝ}
    (hv : HData v m leaves V) {c : Nat} (hc : c < m) {q0 : Nat → Quality ℝ} {k : Nat} (hk : k < leaves)
    (hlt : leaves < parents.length) {s : HSt ℝ} (hi : HQInv leaves parents (V c) q0 (md.path.take k) s) :
    ∃ s', hqLeaf v md c k s = .ok s' ∧ HQInv leaves parents (V c) q0 (md.path.take (k + 1)) s' := by
  have hp := r.pathLeaves k hk
  obtain ⟨p, hpar, hpl, hpo, -⟩ := r.par hp (by omega)
  have hpi := parent_inner r hpar
  have hkp : p ≠ k := by rintro rfl; exact hpi hk
  have hkl : k < parents.length := by omega
  unfold hqLeaf
  rw [vget_eq_ok.mpr hp]
  simp only [okBind]
  rw [hv.val c k hc hk]
  simp only [okBind]
  obtain ⟨s1, e1, r1⟩ := hi.sum.set (V c k) hkl
  obtain ⟨s2, e2, r2⟩ := vaddTo_spec r1 (V c k) hpl
  obtain ⟨i1, e3, r3⟩ := hi.info.set (er0 (V c k)) hkl
  obtain ⟨i2, e4, r4⟩ := vaddTo_spec r3 (er0 (V c k)) hpl
  unfold er0 at e3 e4
  rw [e1, hpo]
  simp only [okBind]
  rw [e2, e3]
  simp only [okBind]
  rw [e4]
  refine ⟨_, rfl, ?_, ?_, ?_⟩
  · refine r2.congr (fun x hx => ?_)
    rw [RightMeta.take_succ hp, acc_leaf r _ hk hpar hpi, vupd_ne hkp]
  · refine r4.congr (fun x hx => ?_)
    rw [RightMeta.take_succ hp, acc_leaf r _ hk hpar hpi, vupd_ne hkp]
  · refine hi.q.congr (fun x hx => ?_)
    rw [RightMeta.take_succ hp]
    by_cases e : x = k
    · subst e
      rw [if_neg (r.notMem_take hp), if_pos (by simp), hCell_leaf r _ hk, qplus_zero]
    · simp [e]

theorem hqAdd_spec (r : RightMeta leaves parents md) {w : Nat → ℝ} {q0 fq : Nat → Quality ℝ} {s : HSt ℝ}
    {fs fi : Nat → ℝ} {h : Nat} (hl : h < parents.length) (h1 : VRep s.sum parents.length fs)
    (h2 : VRep s.info parents.length fi) (h3 : VRep s.q parents.length fq)
    (e1 : fs h = leafSum leaves parents w h) (e2 : fi h = leafSum leaves parents (fun l => er0 (w l)) h)
    (e3 : fq h = q0 h) :
    ∃ s', hqAdd md h s = .ok s' ∧ s'.sum = s.sum ∧ s'.info = s.info ∧
      VRep s'.q parents.length (vupd fq h (qplus (q0 h) (hCell leaves parents w h))) := by
  unfold hqAdd
  rw [h1.get hl, h2.get hl, h3.get hl]
  simp only [okBind]
  rw [e1, e2, e3, r.sizeOf hl, add_code]
  obtain ⟨q, e4, h4⟩ := h3.set (qplus (q0 h) (hCell leaves parents w h)) hl
  unfold qplus hCell at e4
  rw [e4]
  exact ⟨_, rfl, rfl, rfl, h4⟩

theorem hq_enter (r : RightMeta leaves parents md) {w : Nat → ℝ} {q0 : Nat → Quality ℝ} {k h : Nat}
    (hk : md.path[k]? = some h) (x : Nat) :
    vupd (fun h => if h ∈ md.path.take k then qplus (q0 h) (hCell leaves parents w h) else q0 h) h
      (qplus (q0 h) (hCell leaves parents w h)) x =
    if x ∈ md.path.take (k + 1) then qplus (q0 x) (hCell leaves parents w x) else q0 x := by
  rw [RightMeta.take_succ hk]
  by_cases e : x = h
  · subst e; simp
  · rw [vupd_ne e]; simp [e]

theorem hqInner_spec (r : RightMeta leaves parents md) {w : Nat → ℝ} {q0 : Nat → Quality ℝ} {k : Nat}
    (hk1 : leaves ≤ k) (hk2 : k + 1 < parents.length) {s : HSt ℝ}
    (hi : HQInv leaves parents w q0 (md.path.take k) s) :
    ∃ s', hqInner md k s = .ok s' ∧ HQInv leaves parents w q0 (md.path.take (k + 1)) s' := by
  obtain ⟨h, hp, hl⟩ := r.at_ (show k < parents.length by omega)
  have hin : ¬ h < leaves := by rw [r.leafIff hp]; omega
  obtain ⟨p, hpar, hpl, hpo, hnp⟩ := r.par hp hk2
  have hpi := parent_inner r hpar
  have hph : h ≠ p := by
    rintro rfl
    exact hnp (by rw [RightMeta.take_succ hp]; simp)
  unfold hqInner
  rw [vget_eq_ok.mpr hp]
  simp only [okBind]
  rw [hpo]
  simp only [okBind]
  rw [hi.sum.get hl]
  simp only [okBind]
  obtain ⟨s2, e2, r2⟩ := vaddTo_spec hi.sum (acc leaves parents w (md.path.take k) h) hpl
  rw [e2]
  simp only [okBind]
  rw [hi.info.get hl]
  simp only [okBind]
  obtain ⟨i2, e4, r4⟩ := vaddTo_spec hi.info (acc leaves parents (fun l => er0 (w l)) (md.path.take k) h) hpl
  rw [e4]
  simp only [okBind]
  obtain ⟨s', e5, e6, e7, h5⟩ := hqAdd_spec (w := w) (q0 := q0) r (s := ⟨s2, i2, s.q⟩) hl r2 r4 hi.q
    (by rw [vupd_ne hph, acc_ready r w hp hin]) (by rw [vupd_ne hph, acc_ready r _ hp hin])
    (by simp [r.notMem_take hp])
  refine ⟨s', e5, ?_, ?_, ?_⟩
  · rw [e6]
    refine r2.congr (fun x hx => ?_)
    rw [RightMeta.take_succ hp, acc_inner _ hin hpar hpi, acc_ready r w hp hin]
  · rw [e7]
    refine r4.congr (fun x hx => ?_)
    rw [RightMeta.take_succ hp, acc_inner _ hin hpar hpi, acc_ready r _ hp hin]
  · exact h5.congr (fun x hx => hq_enter r hp x)

theorem hqSeries_spec (r : RightMeta leaves parents md) {v : HValues ℝ} {m : Nat} {V : Nat → Nat → ℝ}
    (hv : HData v m leaves V) {c : Nat} (hc : c < m) {q0 : Nat → Quality ℝ} (hlt : leaves < parents.length)
    {q : List (Quality ℝ)} (hq : VRep q parents.length q0) :
    ∃ q', hqSeries v md c q = .ok q' ∧
      VRep q' parents.length (fun h => qplus (q0 h) (hCell leaves parents (V c) h)) := by
  unfold hqSeries
  rw [r.hsize, r.leaveSize]
  obtain ⟨s1, e1, h1⟩ := forUp_inv (lo := 0) (hi := leaves) (f := fun i s => hqLeaf v md c i s)
    (s := ⟨List.replicate parents.length 0, List.replicate parents.length 0, q⟩)
    (fun k s => HQInv leaves parents (V c) q0 (md.path.take k) s) (Nat.zero_le _)
    (by
      refine ⟨?_, ?_, ?_⟩
      · exact (VRep.replicate _ _).congr (fun x _ => by rw [List.take_zero, acc_nil])
      · exact (VRep.replicate _ _).congr (fun x _ => by rw [List.take_zero, acc_nil])
      · exact hq.congr (fun x _ => by simp))
    (fun k s _ hk hi => hqLeaf_spec r hv hc hk hlt hi)
  rw [e1]
  simp only [okBind]
  obtain ⟨y, hy, -⟩ := r.at_ hlt
  rw [vget_eq_ok.mpr hy]
  simp only [okBind]
  obtain ⟨s2, e2, h2⟩ := forUp_inv (lo := leaves) (hi := parents.length - 1) (f := fun i s => hqInner md i s)
    (s := s1) (fun k s => HQInv leaves parents (V c) q0 (md.path.take k) s) (by omega) h1
    (fun k s hk1 hk2 hi => hqInner_spec r hk1 (by omega) hi)
  rw [e2]
  simp only [okBind]
  rw [show max leaves (parents.length - 1) = parents.length - 1 by omega, vget_eq_ok.mpr r.last]
  simp only [okBind]
  have hin := r.rootInner hlt
  obtain ⟨s', e5, e6, e7, h5⟩ := hqAdd_spec (w := V c) (q0 := q0) r (s := s2) r.tree.rootLt h2.sum h2.info h2.q
    (acc_ready r _ r.last hin) (acc_ready r _ r.last hin) (by simp [r.notMem_take r.last])
  rw [e5]
  refine ⟨s'.q, rfl, h5.congr (fun x hx => ?_)⟩
  rw [hq_enter r r.last, if_pos]
  rw [show parents.length - 1 + 1 = md.path.length by rw [r.pathLen]; have := r.tree.rootLt; omega, List.take_length,
    r.pathMem]
  exact hx

/-- Contents of the table computed by `computeQualities`, whatever the signs of the data. -/
theorem hqCompute_spec (r : RightMeta leaves parents md) {v : HValues ℝ} {m : Nat} {V : Nat → Nat → ℝ}
    (hv : HData v m leaves V) (hlt : leaves < parents.length) :
    ∃ q, hqCompute v md = .ok q ∧
      VRep q parents.length (fun h => qSeries m (fun k => hCell leaves parents (V k) h)) := by
  unfold hqCompute
  rw [r.hsize, hv.vsize]
  obtain ⟨q, e, h⟩ := forUp_inv (lo := 0) (hi := m) (f := fun k q => hqSeries v md k q)
    (s := List.replicate parents.length Quality.zero)
    (fun k q => VRep q parents.length (fun h => qSeries k (fun k => hCell leaves parents (V k) h))) (Nat.zero_le _)
    ((VRep.replicate _ _).congr (fun x _ => by rw [qSeries_zero]; rfl))
    (fun k q _ hk hi => by
      obtain ⟨q', e, h⟩ := hqSeries_spec r hv hk hlt hi
      exact ⟨q', e, h.congr (fun x _ => (qSeries_succ k _).symm)⟩)
  exact ⟨q, e, h⟩

/-- For non-negative values the table contains the entropy measures. -/
theorem hqCompute_entropy (r : RightMeta leaves parents md) {v : HValues ℝ} {m : Nat} {V : Nat → Nat → ℝ}
    (hv : HData v m leaves V) (hlt : leaves < parents.length) (h0 : ∀ k h, k < m → h < leaves → 0 ≤ V k h) :
    ∃ q, hqCompute v md = .ok q ∧ VRep q parents.length
      (fun h => ⟨gainSeries m (leavesUnder leaves parents h) V, lossSeries m (leavesUnder leaves parents h) V⟩) := by
  obtain ⟨q, e, h⟩ := hqCompute_spec r hv hlt
  refine ⟨q, e, h.congr (fun x hx => ?_)⟩
  unfold hCell leafSum
  exact qSeries_eq (fun k hk l hl => h0 k l hk (mem_leavesUnder.mp hl).1) rfl

end Lp

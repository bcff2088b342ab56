import Verif.Proofs.Entropy
import Verif.Proofs.UTM
import Verif.Proofs.Vec
import Verif.Model.OQualities
import Verif.Spec.Data
import Mathlib.Order.Interval.Finset.Nat

/-!
# `OQualities::computeQualities` computes the entropy measures
-/

namespace Lp
open Spec

theorem table1_rep {α : Type} (n : Nat) (f : Nat → α) : VRep (table1 n f) n f :=
  ⟨by simp [table1], fun i hi => by simp [table1, hi]⟩

theorem sum_Icc_step (f : Nat → ℝ) {i j : Nat} (h : i < j) :
    ∑ x ∈ Finset.Icc i j, f x = ∑ x ∈ Finset.Icc (i + 1) j, f x + f i := by
  rw [← Finset.insert_Icc_succ_left_eq_Icc h.le, Finset.sum_insert (by simp), add_comm]
  rfl

/-- Quality of the interval `[i,j]` for one series. -/
noncomputable def oCell (f : Nat → ℝ) (i j : Nat) : Quality ℝ :=
  codeQ (∑ x ∈ Finset.Icc i j, f x) (∑ x ∈ Finset.Icc i j, er0 (f x)) ((j : Int) - i + 1)

/-- The cells with `i < a`, and those of row `i` before column `j`, are finished. -/
def ODone (i j a b : Nat) : Prop := i < a ∨ (a = i ∧ b < j)

instance (i j a b : Nat) : Decidable (ODone i j a b) := inferInstanceAs (Decidable (_ ∨ _))

/-- Loop invariant. -/
structure OQInv (n : Nat) (f : Nat → ℝ) (q0 : Nat → Nat → Quality ℝ) (i j : Nat) (s : OSt ℝ)
    (fs fi : Nat → Nat → ℝ) (fq : Nat → Nat → Quality ℝ) : Prop where
  sum : s.sum.Rep n fs
  info : s.info.Rep n fi
  q : s.q.Rep n fq
  sumEq : ∀ a b, a ≤ b → b < n → ODone i j a b → fs a b = ∑ x ∈ Finset.Icc a b, f x
  infoEq : ∀ a b, a ≤ b → b < n → ODone i j a b → fi a b = ∑ x ∈ Finset.Icc a b, er0 (f x)
  qEq : ∀ a b, a ≤ b → b < n → fq a b =
    if ODone i j a b then ⟨(q0 a b).gain + (oCell f a b).gain, (q0 a b).loss + (oCell f a b).loss⟩ else q0 a b

theorem oCell_diag (f : Nat → ℝ) (i : Nat) : oCell f i i = ⟨0, 0⟩ := by
  unfold oCell
  simp only [Finset.Icc_self, Finset.sum_singleton, sub_self, zero_add]
  exact codeQ_single _

theorem oqCell_spec {n : Nat} {f : Nat → ℝ} {q0 : Nat → Nat → Quality ℝ} {i j : Nat} {s : OSt ℝ}
    {fs fi : Nat → Nat → ℝ} {fq : Nat → Nat → Quality ℝ} (h : OQInv n f q0 i j s fs fi fq) (hij : i < j) (hj : j < n) :
    ∃ s' fs' fi' fq', oqCell i j s = .ok s' ∧ OQInv n f q0 i (j + 1) s' fs' fi' fq' := by
  unfold oqCell
  have hs1 := h.sumEq (i + 1) j hij hj (Or.inl (by omega))
  have hs2 := h.sumEq i i (le_refl _) (by omega) (Or.inr ⟨rfl, hij⟩)
  have hi1 := h.infoEq (i + 1) j hij hj (Or.inl (by omega))
  have hi2 := h.infoEq i i (le_refl _) (by omega) (Or.inr ⟨rfl, hij⟩)
  rw [h.sum.get (show i + 1 ≤ j by omega) hj, h.sum.get (le_refl i) (by omega)]
  simp only [okBind]
  rw [hs1, hs2]
  simp only [Finset.Icc_self, Finset.sum_singleton]
  obtain ⟨sum, e1, r1⟩ := h.sum.set (∑ x ∈ Finset.Icc (i + 1) j, f x + f i) hij.le hj
  rw [e1]
  simp only [okBind]
  rw [h.info.get (show i + 1 ≤ j by omega) hj, h.info.get (le_refl i) (by omega)]
  simp only [okBind]
  rw [hi1, hi2]
  simp only [Finset.Icc_self, Finset.sum_singleton]
  obtain ⟨info, e2, r2⟩ := h.info.set (∑ x ∈ Finset.Icc (i + 1) j, er0 (f x) + er0 (f i)) hij.le hj
  rw [e2]
  simp only [okBind]
  rw [r1.get hij.le hj, r2.get hij.le hj, h.q.get hij.le hj]
  simp only [okBind, UTM.upd_same]
  obtain ⟨q1, e3, r3⟩ := h.q.set ((fq i j).addToGain (entropyReduction (∑ x ∈ Finset.Icc (i + 1) j, f x + f i)
    (∑ x ∈ Finset.Icc (i + 1) j, er0 (f x) + er0 (f i)))) hij.le hj
  rw [e3]
  simp only [okBind]
  rw [r3.get hij.le hj]
  simp only [okBind, UTM.upd_same]
  obtain ⟨q2, e4, r4⟩ := r3.set (((fq i j).addToGain (entropyReduction (∑ x ∈ Finset.Icc (i + 1) j, f x + f i)
    (∑ x ∈ Finset.Icc (i + 1) j, er0 (f x) + er0 (f i)))).addToLoss (divergence ((j : Int) - i + 1)
      (∑ x ∈ Finset.Icc (i + 1) j, f x + f i) (∑ x ∈ Finset.Icc (i + 1) j, er0 (f x) + er0 (f i)))) hij.le hj
  rw [e4]
  simp only [okBind]
  have hd : ∀ a b, ¬ (a = i ∧ b = j) → (ODone i (j + 1) a b ↔ ODone i j a b) := by
    intro a b hne; unfold ODone; omega
  have hme : ODone i (j + 1) i j := Or.inr ⟨rfl, by omega⟩
  refine ⟨_, _, _, _, rfl, r1, r2, r4, ?_, ?_, ?_⟩
  · intro a b hab hb hdone
    by_cases e : a = i ∧ b = j
    · obtain ⟨rfl, rfl⟩ := e
      rw [UTM.upd_same, sum_Icc_step _ hij]
    · rw [UTM.upd_ne e]
      exact h.sumEq a b hab hb ((hd a b e).mp hdone)
  · intro a b hab hb hdone
    by_cases e : a = i ∧ b = j
    · obtain ⟨rfl, rfl⟩ := e
      rw [UTM.upd_same, sum_Icc_step _ hij]
    · rw [UTM.upd_ne e]
      exact h.infoEq a b hab hb ((hd a b e).mp hdone)
  · intro a b hab hb
    by_cases e : a = i ∧ b = j
    · obtain ⟨rfl, rfl⟩ := e
      rw [UTM.upd_same, if_pos hme, h.qEq a b hab hb, if_neg (by unfold ODone; omega), add_code, ← sum_Icc_step _ hij,
        ← sum_Icc_step (fun x => er0 (f x)) hij]
      rfl
    · rw [UTM.upd_ne e, UTM.upd_ne e, h.qEq a b hab hb]
      simp only [hd a b e]

theorem oqRow_spec {v : OValues ℝ} {m n : Nat} {V : Nat → Nat → ℝ} (hv : OData v m n V) {k : Nat} (hk : k < m)
    {q0 : Nat → Nat → Quality ℝ} {i : Nat} (hi : i < n) {s : OSt ℝ}
    {fs fi : Nat → Nat → ℝ} {fq : Nat → Nat → Quality ℝ} (h : OQInv n (V k) q0 i 0 s fs fi fq) :
    ∃ s' fs' fi' fq', oqRow v k i s = .ok s' ∧ OQInv n (V k) q0 i n s' fs' fi' fq' := by
  unfold oqRow
  have hr := table1_rep n (V k)
  rw [hv.row k hk]
  simp only [okBind]
  rw [hr.get hi]
  simp only [okBind]
  obtain ⟨sum, e1, r1⟩ := h.sum.set (V k i) (le_refl i) hi
  obtain ⟨info, e2, r2⟩ := h.info.set (er0 (V k i)) (le_refl i) hi
  unfold er0 at e2
  rw [e1, e2]
  simp only [okBind]
  have hd : ∀ a b, a ≤ b → ¬ (a = i ∧ b = i) → (ODone i (i + 1) a b ↔ ODone i 0 a b) := by
    intro a b hab hne; unfold ODone; omega
  have hstart : OQInv n (V k) q0 i (i + 1) ⟨sum, info, s.q⟩ (UTM.upd fs i i (V k i)) (UTM.upd fi i i (er0 (V k i))) fq := by
    refine ⟨r1, r2, h.q, ?_, ?_, ?_⟩
    · intro a b hab hb hdone
      by_cases e : a = i ∧ b = i
      · obtain ⟨rfl, rfl⟩ := e; simp
      · rw [UTM.upd_ne e]; exact h.sumEq a b hab hb ((hd a b hab e).mp hdone)
    · intro a b hab hb hdone
      by_cases e : a = i ∧ b = i
      · obtain ⟨rfl, rfl⟩ := e; simp
      · rw [UTM.upd_ne e]; exact h.infoEq a b hab hb ((hd a b hab e).mp hdone)
    · intro a b hab hb
      rw [h.qEq a b hab hb]
      by_cases e : a = i ∧ b = i
      · obtain ⟨rfl, rfl⟩ := e
        rw [oCell_diag, if_neg (by unfold ODone; omega), if_pos (by unfold ODone; omega), add_zero, add_zero]
      · simp only [hd a b hab e]
  obtain ⟨s', e3, fs', fi', fq', h3⟩ := forUp_inv (lo := i + 1) (hi := v.osize) (f := fun j s => oqCell i j s)
    (s := ⟨sum, info, s.q⟩)
    (fun j s => ∃ fs fi fq, OQInv n (V k) q0 i j s fs fi fq) (by rw [hv.osize]; omega) ⟨_, _, _, hstart⟩ (by
      rintro j s hj1 hj2 ⟨fs, fi, fq, h⟩
      obtain ⟨s', fs', fi', fq', e, h'⟩ := oqCell_spec h (by omega) (by rw [hv.osize] at hj2; exact hj2)
      exact ⟨s', e, fs', fi', fq', h'⟩)
  rw [hv.osize] at h3
  exact ⟨s', fs', fi', fq', e3, h3⟩

theorem oqSeries_spec {v : OValues ℝ} {m n : Nat} {V : Nat → Nat → ℝ} (hv : OData v m n V) {k : Nat} (hk : k < m)
    {q0 : Nat → Nat → Quality ℝ} {s : OSt ℝ} {fs fi : Nat → Nat → ℝ} (h1 : s.sum.Rep n fs) (h2 : s.info.Rep n fi)
    (h3 : s.q.Rep n q0) :
    ∃ s' fs' fi', forDown v.osize (fun i s => oqRow v k i s) s = .ok s' ∧ s'.sum.Rep n fs' ∧ s'.info.Rep n fi' ∧
      s'.q.Rep n (fun a b => ⟨(q0 a b).gain + (oCell (V k) a b).gain, (q0 a b).loss + (oCell (V k) a b).loss⟩) := by
  obtain ⟨s', e, fs', fi', fq', h⟩ := forDown_inv (f := fun i s => oqRow v k i s)
    (fun i s => ∃ fs fi fq, OQInv n (V k) q0 i n s fs fi fq) v.osize s
    (by
      rw [hv.osize]
      refine ⟨fs, fi, q0, h1, h2, h3, ?_, ?_, ?_⟩
      · intro a b hab hb hd; unfold ODone at hd; omega
      · intro a b hab hb hd; unfold ODone at hd; omega
      · intro a b hab hb; rw [if_neg (by unfold ODone; omega)])
    (by
      rintro i s hi ⟨fs, fi, fq, h⟩
      rw [hv.osize] at hi
      have hd : ∀ a b, a ≤ b → b < n → (ODone (i + 1) n a b ↔ ODone i 0 a b) := by
        intro a b hab hb; unfold ODone; omega
      have h0 : OQInv n (V k) q0 i 0 s fs fi fq :=
        ⟨h.sum, h.info, h.q, fun a b hab hb hdo => h.sumEq a b hab hb ((hd a b hab hb).mpr hdo),
          fun a b hab hb hdo => h.infoEq a b hab hb ((hd a b hab hb).mpr hdo),
          fun a b hab hb => by rw [h.qEq a b hab hb]; simp only [hd a b hab hb]⟩
      obtain ⟨s', fs', fi', fq', e, h'⟩ := oqRow_spec hv hk hi h0
      exact ⟨s', e, fs', fi', fq', h'⟩)
  refine ⟨s', fs', fi', e, h.sum, h.info, h.q.congr ?_⟩
  intro a b hab hb
  rw [h.qEq a b hab hb, if_pos (by unfold ODone; omega)]

/-- Contents of the table computed by `computeQualities`. -/
theorem oqCompute_spec {v : OValues ℝ} {m n : Nat} {V : Nat → Nat → ℝ} (hv : OData v m n V) (hn : n ≤ 65535) :
    ∃ q, oqCompute v = .ok q ∧ q.Rep n (fun a b => qSeries m (fun k => oCell (V k) a b)) := by
  unfold oqCompute
  obtain ⟨s', e, fs, fi, h1, h2, h3⟩ := forUp_inv (lo := 0) (hi := v.vsize)
    (f := fun k s => forDown v.osize (fun i s => oqRow v k i s) s)
    (s := ⟨UTM.mk' v.osize 0, UTM.mk' v.osize 0, UTM.mk' v.osize Quality.zero⟩)
    (fun k s => ∃ fs fi, s.sum.Rep n fs ∧ s.info.Rep n fi ∧
      s.q.Rep n (fun a b => qSeries k (fun k => oCell (V k) a b))) (Nat.zero_le _)
    (by
      rw [hv.osize]
      refine ⟨_, _, UTM.Rep.mk' hn _, UTM.Rep.mk' hn _, (UTM.Rep.mk' hn _).congr ?_⟩
      intro a b _ _; rw [qSeries_zero]; rfl)
    (by
      rintro k s _ hk ⟨fs, fi, h1, h2, h3⟩
      rw [hv.vsize] at hk
      obtain ⟨s', fs', fi', e, g1, g2, g3⟩ := oqSeries_spec hv hk h1 h2 h3
      exact ⟨s', e, fs', fi', g1, g2, g3.congr (fun a b _ _ => (qSeries_succ k _).symm)⟩)
  rw [e]
  refine ⟨s'.q, rfl, ?_⟩
  rw [hv.vsize] at h3
  exact h3

theorem card_Icc (i j : Nat) (h : i ≤ j) : (j : Int) - i + 1 = (Finset.Icc i j).card := by
  rw [Nat.card_Icc]; omega

/-- For non-negative values the table contains the entropy measures. -/
theorem oqCompute_entropy {v : OValues ℝ} {m n : Nat} {V : Nat → Nat → ℝ} (hv : OData v m n V) (hn : n ≤ 65535)
    (h0 : ∀ k i, k < m → i < n → 0 ≤ V k i) :
    ∃ q, oqCompute v = .ok q ∧
      q.Rep n (fun a b => ⟨gainSeries m (Finset.Icc a b) V, lossSeries m (Finset.Icc a b) V⟩) := by
  obtain ⟨q, e, h⟩ := oqCompute_spec hv hn
  refine ⟨q, e, h.congr ?_⟩
  intro a b hab hb
  unfold oCell
  exact qSeries_eq (fun k hk x hx => h0 k x hk (by rw [Finset.mem_Icc] at hx; omega)) (card_Icc a b hab)

end Lp

import Verif.Spec.SumOf
import Verif.Proofs.OEntropy

/-!
# `OQualities::computeQualities` in any arithmetic
-/

namespace Lp
open Spec
variable {K : Type} [LDLog K]

theorem SumOf.icc {f : Nat → K} {i j : Nat} {x y : K} (h : i < j) (hx : SumOf f (Finset.Icc (i + 1) j) x)
    (hy : SumOf f (Finset.Icc i i) y) : SumOf f (Finset.Icc i j) (x + y) := by
  have hd : Disjoint (Finset.Icc (i + 1) j) (Finset.Icc i i) := by
    rw [Finset.disjoint_left]; intro a; simp only [Finset.mem_Icc]; omega
  have hu : Finset.Icc i j = Finset.Icc (i + 1) j ∪ Finset.Icc i i := by
    ext a; simp only [Finset.mem_Icc, Finset.mem_union]; omega
  rw [hu]
  exact .add hd hx hy

/-- Loop invariant for series `k`. -/
structure OSInv (n : Nat) (V : Nat → Nat → K) (k i j : Nat) (s : OSt K)
    (fs fi : Nat → Nat → K) (fq : Nat → Nat → Quality K) : Prop where
  sum : s.sum.Rep n fs
  info : s.info.Rep n fi
  q : s.q.Rep n fq
  sumEq : ∀ a b, a ≤ b → b < n → ODone i j a b → SumOf (V k) (Finset.Icc a b) (fs a b)
  infoEq : ∀ a b, a ≤ b → b < n → ODone i j a b → SumOf (fun x => entropyReduction (V k x) 0) (Finset.Icc a b) (fi a b)
  qDiag : ∀ a, a < n → fq a a = ⟨0, 0⟩
  qEq : ∀ a b, a < b → b < n →
    Measured V (Finset.Icc a b) ((b : Int) - a + 1) (if ODone i j a b then k + 1 else k) (fq a b)

theorem oqCell_sum {n : Nat} {V : Nat → Nat → K} {k i j : Nat} {s : OSt K}
    {fs fi : Nat → Nat → K} {fq : Nat → Nat → Quality K} (h : OSInv n V k i j s fs fi fq) (hij : i < j) (hj : j < n) :
    ∃ s' fs' fi' fq', oqCell i j s = .ok s' ∧ OSInv n V k i (j + 1) s' fs' fi' fq' := by
  unfold oqCell
  have hs1 := h.sumEq (i + 1) j hij hj (Or.inl (by omega))
  have hs2 := h.sumEq i i (le_refl _) (by omega) (Or.inr ⟨rfl, hij⟩)
  have hi1 := h.infoEq (i + 1) j hij hj (Or.inl (by omega))
  have hi2 := h.infoEq i i (le_refl _) (by omega) (Or.inr ⟨rfl, hij⟩)
  have hs := SumOf.icc hij hs1 hs2
  have hi := SumOf.icc hij hi1 hi2
  rw [h.sum.get (show i + 1 ≤ j by omega) hj, h.sum.get (le_refl i) (by omega)]
  simp only [okBind]
  obtain ⟨sum, e1, r1⟩ := h.sum.set (fs (i + 1) j + fs i i) hij.le hj
  rw [e1]
  simp only [okBind]
  rw [h.info.get (show i + 1 ≤ j by omega) hj, h.info.get (le_refl i) (by omega)]
  simp only [okBind]
  obtain ⟨info, e2, r2⟩ := h.info.set (fi (i + 1) j + fi i i) hij.le hj
  rw [e2]
  simp only [okBind]
  rw [r1.get hij.le hj, r2.get hij.le hj, h.q.get hij.le hj]
  simp only [okBind, UTM.upd_same]
  obtain ⟨q1, e3, r3⟩ := h.q.set ((fq i j).addToGain (entropyReduction (fs (i + 1) j + fs i i) (fi (i + 1) j + fi i i))) hij.le hj
  rw [e3]
  simp only [okBind]
  rw [r3.get hij.le hj]
  simp only [okBind, UTM.upd_same]
  obtain ⟨q2, e4, r4⟩ := r3.set (((fq i j).addToGain (entropyReduction (fs (i + 1) j + fs i i)
    (fi (i + 1) j + fi i i))).addToLoss (divergence ((j : Int) - i + 1) (fs (i + 1) j + fs i i) (fi (i + 1) j + fi i i))) hij.le hj
  rw [e4]
  simp only [okBind]
  have hd : ∀ a b, ¬ (a = i ∧ b = j) → (ODone i (j + 1) a b ↔ ODone i j a b) := by
    intro a b hne; unfold ODone; omega
  have hme : ODone i (j + 1) i j := Or.inr ⟨rfl, by omega⟩
  refine ⟨_, _, _, _, rfl, r1, r2, r4, ?_, ?_, ?_, ?_⟩
  · intro a b hab hb hdone
    by_cases e : a = i ∧ b = j
    · obtain ⟨rfl, rfl⟩ := e
      rw [UTM.upd_same]; exact hs
    · rw [UTM.upd_ne e]
      exact h.sumEq a b hab hb ((hd a b e).mp hdone)
  · intro a b hab hb hdone
    by_cases e : a = i ∧ b = j
    · obtain ⟨rfl, rfl⟩ := e
      rw [UTM.upd_same]; exact hi
    · rw [UTM.upd_ne e]
      exact h.infoEq a b hab hb ((hd a b e).mp hdone)
  · intro a ha
    rw [UTM.upd_ne (by omega), UTM.upd_ne (by omega)]
    exact h.qDiag a ha
  · intro a b hab hb
    by_cases e : a = i ∧ b = j
    · obtain ⟨rfl, rfl⟩ := e
      rw [UTM.upd_same, if_pos hme]
      have := h.qEq a b hab hb
      rw [if_neg (by unfold ODone; omega)] at this
      exact .next this hs hi
    · rw [UTM.upd_ne e, UTM.upd_ne e]
      simp only [hd a b e]
      exact h.qEq a b hab hb

theorem oqRow_sum {v : OValues K} {m n : Nat} {V : Nat → Nat → K} (hv : OData v m n V) {k : Nat} (hk : k < m)
    {i : Nat} (hi : i < n) {s : OSt K}
    {fs fi : Nat → Nat → K} {fq : Nat → Nat → Quality K} (h : OSInv n V k i 0 s fs fi fq) :
    ∃ s' fs' fi' fq', oqRow v k i s = .ok s' ∧ OSInv n V k i n s' fs' fi' fq' := by
  unfold oqRow
  have hr := table1_rep n (V k)
  rw [hv.row k hk]
  simp only [okBind]
  rw [hr.get hi]
  simp only [okBind]
  obtain ⟨sum, e1, r1⟩ := h.sum.set (V k i) (le_refl i) hi
  obtain ⟨info, e2, r2⟩ := h.info.set (entropyReduction (V k i) 0) (le_refl i) hi
  rw [e1, e2]
  simp only [okBind]
  have hd : ∀ a b, a ≤ b → ¬ (a = i ∧ b = i) → (ODone i (i + 1) a b ↔ ODone i 0 a b) := by
    intro a b hab hne; unfold ODone; omega
  have hstart : OSInv n V k i (i + 1) ⟨sum, info, s.q⟩ (UTM.upd fs i i (V k i)) (UTM.upd fi i i (entropyReduction (V k i) 0)) fq := by
    refine ⟨r1, r2, h.q, ?_, ?_, h.qDiag, ?_⟩
    · intro a b hab hb hdone
      by_cases e : a = i ∧ b = i
      · obtain ⟨rfl, rfl⟩ := e
        rw [UTM.upd_same, Finset.Icc_self]; exact .one _
      · rw [UTM.upd_ne e]; exact h.sumEq a b hab hb ((hd a b hab e).mp hdone)
    · intro a b hab hb hdone
      by_cases e : a = i ∧ b = i
      · obtain ⟨rfl, rfl⟩ := e
        rw [UTM.upd_same, Finset.Icc_self]; exact .one (f := fun x => entropyReduction (V k x) 0) _
      · rw [UTM.upd_ne e]; exact h.infoEq a b hab hb ((hd a b hab e).mp hdone)
    · intro a b hab hb
      simp only [hd a b hab.le (by omega)]
      exact h.qEq a b hab hb
  obtain ⟨s', e3, fs', fi', fq', h3⟩ := forUp_inv (lo := i + 1) (hi := v.osize) (f := fun j s => oqCell i j s)
    (s := ⟨sum, info, s.q⟩)
    (fun j s => ∃ fs fi fq, OSInv n V k i j s fs fi fq) (by rw [hv.osize]; omega) ⟨_, _, _, hstart⟩ (by
      rintro j s hj1 hj2 ⟨fs, fi, fq, h⟩
      obtain ⟨s', fs', fi', fq', e, h'⟩ := oqCell_sum h (by omega) (by rw [hv.osize] at hj2; exact hj2)
      exact ⟨s', e, fs', fi', fq', h'⟩)
  rw [hv.osize] at h3
  exact ⟨s', fs', fi', fq', e3, h3⟩

/-- The table computed by `computeQualities`, in any arithmetic. -/
theorem oqCompute_sum {v : OValues K} {m n : Nat} {V : Nat → Nat → K} (hv : OData v m n V) (hn : n ≤ 65535) :
    ∃ q f, oqCompute v = .ok q ∧ q.Rep n f ∧ (∀ a, a < n → f a a = ⟨0, 0⟩) ∧
      ∀ a b, a < b → b < n → Measured V (Finset.Icc a b) ((b : Int) - a + 1) m (f a b) := by
  unfold oqCompute
  obtain ⟨s', e, fs, fi, fq, h1, h2, h3, h4, h5⟩ := forUp_inv (lo := 0) (hi := v.vsize)
    (f := fun k s => forDown v.osize (fun i s => oqRow v k i s) s)
    (s := ⟨UTM.mk' v.osize 0, UTM.mk' v.osize 0, UTM.mk' v.osize Quality.zero⟩)
    (fun k s => ∃ fs fi fq, s.sum.Rep n fs ∧ s.info.Rep n fi ∧ s.q.Rep n fq ∧ (∀ a, a < n → fq a a = ⟨0, 0⟩) ∧
      ∀ a b, a < b → b < n → Measured V (Finset.Icc a b) ((b : Int) - a + 1) k (fq a b)) (Nat.zero_le _)
    (by
      rw [hv.osize]
      exact ⟨_, _, _, UTM.Rep.mk' hn _, UTM.Rep.mk' hn _, UTM.Rep.mk' hn _, fun _ _ => rfl, fun _ _ _ _ => .zero⟩)
    (by
      rintro k s _ hk ⟨fs, fi, fq, h1, h2, h3, h4, h5⟩
      rw [hv.vsize] at hk
      obtain ⟨s', e, fs', fi', fq', h⟩ := forDown_inv (f := fun i s => oqRow v k i s)
        (fun i s => ∃ fs fi fq, OSInv n V k i n s fs fi fq) v.osize s
        (by
          rw [hv.osize]
          refine ⟨fs, fi, fq, h1, h2, h3, ?_, ?_, h4, ?_⟩
          · intro a b hab hb hd; unfold ODone at hd; omega
          · intro a b hab hb hd; unfold ODone at hd; omega
          · intro a b hab hb; rw [if_neg (by unfold ODone; omega)]; exact h5 a b hab hb)
        (by
          rintro i s hi ⟨fs, fi, fq, h⟩
          rw [hv.osize] at hi
          have hd : ∀ a b, a ≤ b → b < n → (ODone (i + 1) n a b ↔ ODone i 0 a b) := by
            intro a b hab hb; unfold ODone; omega
          have h0 : OSInv n V k i 0 s fs fi fq :=
            ⟨h.sum, h.info, h.q, fun a b hab hb hdo => h.sumEq a b hab hb ((hd a b hab hb).mpr hdo),
              fun a b hab hb hdo => h.infoEq a b hab hb ((hd a b hab hb).mpr hdo), h.qDiag,
              fun a b hab hb => by have := h.qEq a b hab hb; simp only [hd a b hab.le hb] at this; exact this⟩
          obtain ⟨s', fs', fi', fq', e, h'⟩ := oqRow_sum hv hk hi h0
          exact ⟨s', e, fs', fi', fq', h'⟩)
      refine ⟨s', e, fs', fi', fq', h.sum, h.info, h.q, h.qDiag, ?_⟩
      intro a b hab hb
      have := h.qEq a b hab hb
      rw [if_pos (by unfold ODone; omega)] at this
      exact this)
  rw [e]
  rw [hv.vsize] at h5
  exact ⟨s'.q, fq, rfl, h3, h4, h5⟩

end Lp

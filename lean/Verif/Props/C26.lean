import Verif.Proofs.SearchInst
import Verif.Spec.Binary
import Verif.Proofs.SampleRuns

/-!
# C26 — the parameter search terminates for a sensible threshold

`computeBestPartitions` is modelled with a bound `fuel` on the recursion depth; "terminates" = some bound suffices,
"never terminates" = no bound does.  (The iterator question of the final loop is `C39`; here `strict = false`.)
-/

namespace Lp.C26
open Spec

section
variable {F K : Type} [Field K] [LinearOrder K] [IsStrictOrderedRing K] [Archimedean K] [FloatP F K] {u : K}

/-- For every threshold `t > 0` that is at least 11 times the resolution there is a bound, depending on `t` only,
within which every search of every partitioner on every range `0 ≤ lo < hi ≤ 1` returns. -/
theorem terminates (fl : FloatLaws F K u) (t : F) (ht : (0 : K) < FloatP.toK t) (hu : 11 * u ≤ FloatP.toK t) :
    ∃ N : Nat, ∀ {P T : Type} (ops : PartOps F K P T), IsPartitioner ops →
      ∀ (lo hi : F), (0 : K) ≤ FloatP.toK lo → (FloatP.toK lo : K) < FloatP.toK hi → (FloatP.toK hi : K) ≤ 1 →
      ∀ (fuel : Nat), N ≤ fuel → ∀ (st : PState F K P T),
        ∃ st', computeBestPartitions ops false fuel t lo hi st = .ok st' := by
  have hu0 := fl.err_nonneg
  have hpos : (0 : K) < FloatP.toK t - u := by
    rcases lt_or_eq_of_le hu0 with h | h
    · linarith
    · rw [← h]; linarith
  obtain ⟨N, hN⟩ := pow_unbounded_of_one_lt (1 / (FloatP.toK t - u) : K) (show (1 : K) < 4 / 3 by linarith)
  refine ⟨N + 1, fun ops ho lo hi h0 hlt h1 fuel hf st => ?_⟩
  obtain ⟨B, so⟩ := isPartitioner_ops ho
  rw [div_lt_iff₀ hpos] at hN
  obtain ⟨s1, e⟩ := addBest_total fl so ht hu N lo hi h0 hlt.le h1 (by simp only [num]; linarith) fuel (by omega)
    ⟨[lo], [lo].map (fun p => (p, B p))⟩
  obtain ⟨S, st', h, _⟩ := search_ok fl so (st := st) h0 hlt h1 e
  exact ⟨st', h⟩

omit [IsStrictOrderedRing K] [Archimedean K] in
/-- When the threshold is below the difference of any two parameters of the range, and the partitions at the ends
differ, the search never returns. -/
theorem never (fl : FloatLaws F K u) {P T : Type} (ops : PartOps F K P T) (ho : IsPartitioner ops) (t lo hi : F)
    (h0 : (0 : K) ≤ FloatP.toK lo) (hle : (FloatP.toK lo : K) ≤ FloatP.toK hi) (h1 : (FloatP.toK hi : K) ≤ 1)
    (hgap : ∀ a b : F, (FloatP.toK lo : K) ≤ FloatP.toK a → (FloatP.toK a : K) < FloatP.toK b →
      (FloatP.toK b : K) ≤ FloatP.toK hi → FloatP.lt t (FloatP.sub b a) = true)
    (Pl Ph : P) (el : ops.best lo = .ok Pl) (eh : ops.best hi = .ok Ph) (hd : ops.same Pl Ph = false)
    (strict : Bool) (st : PState F K P T) :
    ∀ fuel, computeBestPartitions ops strict fuel t lo hi st = .error .outOfFuel := by
  obtain ⟨B, so⟩ := isPartitioner_ops ho
  have key : ∀ (fuel : Nat) (a b : F), (FloatP.toK lo : K) ≤ FloatP.toK a → (FloatP.toK a : K) ≤ FloatP.toK b →
      (FloatP.toK b : K) ≤ FloatP.toK hi → ops.same (B a) (B b) = false →
      ∀ s, addBest ops t fuel (B a) (B b) s = .error .outOfFuel := by
    intro fuel
    induction fuel with
    | zero => intro a b _ _ _ _ s; rfl
    | succ fuel ih =>
      intro a b ha hab hb hs s
      have hlt : (FloatP.toK a : K) < FloatP.toK b := by
        rcases lt_or_eq_of_le hab with h | h
        · exact h
        · rw [fl.inj _ _ h, so.refl] at hs; simp at hs
      rw [addBest_eq so, hs, hgap a b ha hlt hb]
      simp only [Bool.not_false, Bool.and_self, if_true]
      have hm := fl.mid a b (le_trans h0 ha) hab (le_trans hb h1)
      change (FloatP.toK a : K) ≤ FloatP.toK (midp a b) ∧ (FloatP.toK (midp a b) : K) ≤ FloatP.toK b at hm
      cases hs1 : ops.same (B a) (B (midp a b)) with
      | false =>
        rw [ih a (midp a b) ha hm.1 (le_trans hm.2 hb) hs1 s]; rfl
      | true =>
        have hs2 : ops.same (B (midp a b)) (B b) = false := by
          rw [Bool.eq_false_iff]; intro h
          rw [so.trans _ _ _ hs1 h] at hs; simp at hs
        cases fuel with
        | zero => rfl
        | succ f =>
          rw [addBest_eq so t f a (midp a b), hs1]
          simp only [Bool.not_true, Bool.false_and, Bool.false_eq_true, if_false, okBind]
          exact ih (midp a b) b (le_trans ha hm.1) hm.2 hb hs2 _
  intro fuel
  unfold computeBestPartitions
  simp only [so.best, okBind]
  rw [so.best] at el eh
  obtain rfl := Except.ok.inj el
  obtain rfl := Except.ok.inj eh
  rw [key fuel lo hi (le_refl _) hle (le_refl _) hd]
  rfl

/-- Exact parameters: a threshold `≤ 0` never terminates when the ends differ, a positive one always terminates. -/
theorem exactNever {P T : Type} (ops : PartOps K K P T) (ho : IsPartitioner ops) (t lo hi : K) (ht : t ≤ 0)
    (h0 : 0 ≤ lo) (hle : lo ≤ hi) (h1 : hi ≤ 1)
    (Pl Ph : P) (el : ops.best lo = .ok Pl) (eh : ops.best hi = .ok Ph) (hd : ops.same Pl Ph = false)
    (strict : Bool) (st : PState K K P T) (fuel : Nat) :
    computeBestPartitions ops strict fuel t lo hi st = .error .outOfFuel :=
  never (exactLaws K) ops ho t lo hi h0 hle h1
    (fun a b _ hab _ => by
      change decide (t < b - a) = true
      have : a < b := hab
      exact decide_eq_true (by linarith)) Pl Ph el eh hd strict st fuel

end

/-! ## binary32 parameters, whatever the rounding mode -/

/-- Thresholds from `11 * 2^-23` (about 1.3e-6) on always terminate. -/
theorem binary32 (R : Rounding) (t : B32 R) (ht : 11 / 2 ^ 23 ≤ t.1) :
    ∃ N : Nat, ∀ {P T : Type} (ops : PartOps (B32 R) ℚ P T), IsPartitioner ops →
      ∀ (lo hi : B32 R), 0 ≤ lo.1 → lo.1 < hi.1 → hi.1 ≤ 1 →
      ∀ (fuel : Nat), N ≤ fuel → ∀ (st : PState (B32 R) ℚ P T),
        ∃ st', computeBestPartitions ops false fuel t lo hi st = .ok st' :=
  terminates (b32Laws R) t
    (by
      change 0 < t.1
      have : (0 : ℚ) < 11 / 2 ^ 23 := by positivity
      linarith)
    (by change 11 * (1 / 2 ^ 23) ≤ t.1; rw [mul_one_div]; exact ht)

/-- Thresholds `≤ 0` never terminate when the partitions at the ends differ; on ranges within `[1/2,1]` the same
holds for all thresholds below `2^-24`. -/
theorem binary32Never (R : Rounding) {P T : Type} (ops : PartOps (B32 R) ℚ P T) (ho : IsPartitioner ops)
    (t lo hi : B32 R) (h0 : 0 ≤ lo.1) (hle : lo.1 ≤ hi.1) (h1 : hi.1 ≤ 1)
    (ht : t.1 ≤ 0 ∨ (1 / 2 ≤ lo.1 ∧ t.1 < 1 / 2 ^ 24))
    (Pl Ph : P) (el : ops.best lo = .ok Pl) (eh : ops.best hi = .ok Ph) (hd : ops.same Pl Ph = false)
    (strict : Bool) (st : PState (B32 R) ℚ P T) (fuel : Nat) :
    computeBestPartitions ops strict fuel t lo hi st = .error .outOfFuel := by
  refine never (b32Laws R) ops ho t lo hi h0 hle h1 (fun a b ha hab _ => ?_) Pl Ph el eh hd strict st fuel
  change decide (t.1 < R.rnd (b.1 - a.1)) = true
  apply decide_eq_true
  rcases ht with ht | ⟨h2, ht⟩
  · have := b32_sub_pos R (a := a) (b := b) hab; linarith
  · change lo.1 ≤ a.1 at ha
    have := b32_sub_gap R (a := a) (b := b) (by linarith) hab; linarith

/-! ## Concrete cases -/

/-- The table of `C16` is a partitioner with different partitions at `1/2` and `9/10`. -/
example : IsPartitioner (oOps (F := ℚ) C16.exQ) := .ordered _ 3 _ C16.exRep

example (fuel : Nat) (st) : computeBestPartitions (oOps C16.exQ) true fuel (0 : ℚ) (1 / 2) (9 / 10) st =
    .error .outOfFuel := by
  have h : (do let P1 ← oBestPartition C16.exQ (1 / 2 : ℚ)
               let P2 ← oBestPartition C16.exQ (9 / 10 : ℚ)
               return P1.eqOp P2 : Res Bool) = .ok false := by decide +kernel
  obtain ⟨P1, _, e1, _⟩ := C16.optimal C16.exQ 3 C16.exF C16.exRep (1 / 2 : ℚ)
  obtain ⟨P2, _, e2, _⟩ := C16.optimal C16.exQ 3 C16.exF C16.exRep (9 / 10 : ℚ)
  rw [e1, e2] at h
  exact exactNever _ (.ordered _ 3 _ C16.exRep) 0 (1 / 2) (9 / 10) (le_refl _) (by norm_num) (by norm_num) (by norm_num)
    P1 P2 e1 e2 (Except.ok.inj h) true st fuel

/-- With threshold `1/100` the search on the same table returns. -/
example : (computeBestPartitions (oOps C16.exQ) false 10 (1 / 100 : ℚ) 0 1 PState.empty).map
    (fun st => st.pList.length) = .ok 3 := by decide +kernel

/-- A rounding exists. -/
noncomputable example : Rounding := roundToZero

/-! ## The hypotheses are met by concrete inputs (`Proofs/Samples.lean`) -/

example := terminates (F := ℚ) (exactLaws ℚ) (1 / 16) (by decide +kernel) (by decide +kernel)
example : ∃ fuel, ∃ st, computeBestPartitions (oOps Sample.oQ) false fuel (1 / 16 : ℚ) 0 1 PState.empty = .ok st := by
  obtain ⟨N, h⟩ := terminates (F := ℚ) (exactLaws ℚ) (1 / 16) (by decide +kernel) (by decide +kernel)
  exact ⟨N, h _ Sample.oIs 0 1 (by decide +kernel) (by decide +kernel) (by decide +kernel) N le_rfl _⟩

end Lp.C26

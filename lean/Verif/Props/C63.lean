import Verif.Proofs.SearchCost
import Verif.Spec.Binary
import Verif.Proofs.SampleRuns

/-!
# C63 — how much work a search does

The expensive step of a search is `computeBestPartition` for one parameter.  `computeBestPartitionsC` is the search with the list
of the parameters of these calls (`Model/SearchCalls.lean`).
-/

namespace Lp.C63
open Spec
variable {F K P T : Type}

/-- Recording the calls does not change the search (any arithmetic, any partitioner). -/
theorem recorded [FloatP F K] (ops : PartOps F K P T) (strict : Bool) (fuel : Nat) (t lo hi : F) (st : PState F K P T) :
    (computeBestPartitionsC ops strict fuel t lo hi st).map Prod.fst = computeBestPartitions ops strict fuel t lo hi st :=
  computeBestPartitionsC_fst ops strict fuel t lo hi st

variable [Field K] [LinearOrder K] [IsStrictOrderedRing K] [FloatP F K] {u : K}

omit [IsStrictOrderedRing K] in
theorem main_aux (fl : FloatLaws F K u) (ops : PartOps F K P T) (ho : IsPartitioner ops) (t lo hi : F)
    (h0 : (0 : K) ≤ FloatP.toK lo) (hlt : (FloatP.toK lo : K) < FloatP.toK hi) (h1 : (FloatP.toK hi : K) ≤ 1)
    (N : Nat) (st st' : PState F K P T) (calls : List F)
    (h : computeBestPartitionsC ops false (N + 1) t lo hi st = .ok (st', calls)) :
    calls.Nodup ∧ (∀ x ∈ calls, (FloatP.toK lo : K) ≤ FloatP.toK x ∧ (FloatP.toK x : K) ≤ FloatP.toK hi) ∧
      (∀ x ∈ st'.pList, x ∈ calls) ∧
      calls.length ≤ 2 + N * (st'.pList.length - 1) ∧ calls.length ≤ 2 ^ N + 1 := by
  obtain ⟨B, so⟩ := isPartitioner_ops ho
  have e1 : (mapInsert lo (B lo) [] : List (F × P)) = [lo].map (fun p => (p, B p)) := rfl
  have hc : computeBestPartitions ops false (N + 1) t lo hi st = .ok st' := by
    rw [← computeBestPartitionsC_fst, h]; rfl
  obtain ⟨A, hA, hcalls⟩ : ∃ A, addBestC ops t (N + 1) (B lo) (B hi) (⟨[lo], [lo].map (fun p => (p, B p))⟩, [lo, hi]) = .ok A ∧
      A.2 = calls := by
    unfold computeBestPartitionsC at h
    simp only [so.best, okBind, List.nil_append] at h
    rw [e1] at h
    cases hA : addBestC ops t (N + 1) (B lo) (B hi) (⟨[lo], [lo].map (fun p => (p, B p))⟩, [lo, hi]) with
    | error e => rw [hA] at h; cases h
    | ok A =>
      rw [hA] at h
      simp only [okBind] at h
      cases hd : dedup ops false ((A.1.pList ++ [hi]).length - 1) ⟨A.1.pList ++ [hi], mapInsert hi (B hi) A.1.partitions⟩ with
      | error e => rw [hd] at h; cases h
      | ok a =>
        rw [hd] at h
        exact ⟨A, rfl, congrArg Prod.snd (Except.ok.inj h)⟩
  have hA' : addBest ops t (N + 1) (B lo) (B hi) ⟨[lo], [lo].map (fun p => (p, B p))⟩ = .ok A.1 := by
    rw [← addBestC_fst ops t _ _ _ _ [lo, hi], hA]; rfl
  obtain ⟨S, C, p1, p2, p3⟩ := addBestC_perm ops t _ _ _ _ _ _ hA
  obtain ⟨S', c1, c2⟩ := addBest_count so t N lo hi _ _ hA'
  have c3 := addBest_tree so t N lo hi _ _ hA'
  obtain ⟨S2, d1, d2, d3⟩ := addBest_spec fl so t (N + 1) lo hi [lo] A.1 h0 hlt h1 (by simp) hA'
  have es : S' = S := by rw [p1] at c1; exact (List.append_cancel_left c1).symm
  have es2 : S2 = S := by
    have : A.1.pList = [lo] ++ S2 := by rw [d1]
    rw [p1] at this; exact (List.append_cancel_left this).symm
  subst es es2
  obtain ⟨S3, st3, f0, f1, f2, f3, f4, _⟩ := search_ok_list fl so (st := st) h0 hlt h1 hA'
  have f1' : st3 = st' := by rw [hc] at f1; exact (Except.ok.inj f1).symm
  subst f1'
  have es3 : S3 = S2 := by
    rw [p1] at f0
    exact (List.cons.inj f0).2.symm
  subst es3
  have perm : calls.Perm (lo :: S3 ++ [hi]) := by
    rw [← hcalls, p2]
    have : [lo, hi] ++ C = lo :: (hi :: C) := rfl
    rw [this]
    refine List.Perm.cons _ ?_
    exact (List.perm_append_singleton hi C).symm.trans (p3.append_right _)
  have hpair := resolved_pairwise f2
  have hnd : (lo :: S3 ++ [hi]).Nodup := hpair.imp (fun {x y} hxy e => by subst e; exact lt_irrefl _ hxy)
  have hlen : calls.length = S3.length + 2 := by rw [perm.length_eq]; simp
  have hk : st3.pList.length = changes (fun x y => ops.same (B x) (B y)) (lo :: S3 ++ [hi]) + 1 := by
    rw [f4]; exact keep_length _ _ _
  refine ⟨perm.nodup_iff.mpr hnd, fun x hx => samples_range (K := K) hlt f3 x (perm.mem_iff.mp hx), fun x hx => ?_, ?_, ?_⟩
  · rw [f4] at hx
    exact perm.mem_iff.mpr ((keep_sublist _).subset hx)
  · rw [hk, hlen, Nat.add_sub_cancel]
    omega
  · rw [p1] at c3
    simp only [List.length_append, List.length_cons, List.length_nil] at c3
    omega

/-- Rounded parameters with resolution `u`: if `2^N` thresholds less the rounding cover the range, the search computes every
partition at most once, only for parameters of the range, at most `N` of them per change of the partition in the result and two
more, and never more than `2^N + 1` (whatever the bound `fuel > N` on the depth of the recursion). -/
theorem work (fl : FloatLaws F K u) (ops : PartOps F K P T) (ho : IsPartitioner ops) (t lo hi : F)
    (h0 : (0 : K) ≤ FloatP.toK lo) (hlt : (FloatP.toK lo : K) < FloatP.toK hi) (h1 : (FloatP.toK hi : K) ≤ 1)
    (N : Nat) (hN : (FloatP.toK hi : K) - FloatP.toK lo ≤ 2 ^ N * (FloatP.toK t - 6 * u) + 5 * u)
    (fuel : Nat) (hf : N < fuel) (st : PState F K P T) :
    ∃ st' calls, computeBestPartitionsC ops false fuel t lo hi st = .ok (st', calls) ∧
      calls.Nodup ∧ (∀ x ∈ calls, (FloatP.toK lo : K) ≤ FloatP.toK x ∧ (FloatP.toK x : K) ≤ FloatP.toK hi) ∧
      (∀ x ∈ st'.pList, x ∈ calls) ∧
      calls.length ≤ 2 + N * (st'.pList.length - 1) ∧ calls.length ≤ 2 ^ N + 1 := by
  obtain ⟨B, so⟩ := isPartitioner_ops ho
  obtain ⟨s1, e⟩ := addBest_depth fl so N lo hi h0 hlt.le h1 hN ⟨[lo], [lo].map (fun p => (p, B p))⟩
  obtain ⟨S, st', h, _⟩ := search_ok fl so (st := st) h0 hlt h1 e
  rw [← computeBestPartitionsC_fst] at h
  cases hC : computeBestPartitionsC ops false (N + 1) t lo hi st with
  | error e => rw [hC] at h; cases h
  | ok r =>
    refine ⟨r.1, r.2, ?_, main_aux fl ops ho t lo hi h0 hlt h1 N st r.1 r.2 hC⟩
    obtain ⟨d, rfl⟩ : ∃ d, fuel = N + 1 + d := ⟨fuel - (N + 1), by omega⟩
    induction d with
    | zero => exact hC
    | succ d ih => exact computeBestPartitionsC_mono _ _ _ _ _ _ _ _ (ih (by omega))

/-- Exact parameters. -/
theorem workExact (ops : PartOps K K P T) (ho : IsPartitioner ops) (t lo hi : K) (h0 : 0 ≤ lo) (hlt : lo < hi) (h1 : hi ≤ 1)
    (N : Nat) (hN : hi - lo ≤ 2 ^ N * t) (fuel : Nat) (hf : N < fuel) (st : PState K K P T) :
    ∃ st' calls, computeBestPartitionsC ops false fuel t lo hi st = .ok (st', calls) ∧
      calls.length ≤ 2 + N * (st'.pList.length - 1) ∧ calls.length ≤ 2 ^ N + 1 := by
  obtain ⟨st', calls, h, _, _, _, h4, h5⟩ := work (exactLaws K) ops ho t lo hi h0 hlt h1 N (by simpa using hN) fuel hf st
  exact ⟨st', calls, h, h4, h5⟩

/-- binary32, whatever the rounding mode: with a threshold of at least 0.001 (the value of the R examples) at most ten
computations per change of the partition and two more. -/
theorem workBinary32 (R : Rounding) {P T : Type} (ops : PartOps (B32 R) ℚ P T) (ho : IsPartitioner ops) (t lo hi : B32 R)
    (h0 : 0 ≤ lo.1) (hlt : lo.1 < hi.1) (h1 : hi.1 ≤ 1) (ht : 1 / 1000 ≤ t.1)
    (fuel : Nat) (hf : 10 < fuel) (st : PState (B32 R) ℚ P T) :
    ∃ st' calls, computeBestPartitionsC ops false fuel t lo hi st = .ok (st', calls) ∧
      calls.length ≤ 2 + 10 * (st'.pList.length - 1) := by
  obtain ⟨st', calls, h, _, _, _, h4, _⟩ := work (b32Laws R) ops ho t lo hi h0 hlt h1 10 (by
    change hi.1 - lo.1 ≤ 2 ^ 10 * (t.1 - 6 * (1 / 2 ^ 23)) + 5 * (1 / 2 ^ 23)
    have : hi.1 - lo.1 ≤ 1 := by linarith
    have h2 : (2 : ℚ) ^ 10 * (1 / 1000 - 6 * (1 / 2 ^ 23)) + 5 * (1 / 2 ^ 23) ≥ 1 := by norm_num
    have h3 : (2 : ℚ) ^ 10 * (1 / 1000 - 6 * (1 / 2 ^ 23)) ≤ 2 ^ 10 * (t.1 - 6 * (1 / 2 ^ 23)) := by
      refine mul_le_mul_of_nonneg_left ?_ (by norm_num)
      linarith
    linarith) fuel hf st
  exact ⟨st', calls, h, h4⟩

/-- A table of two elements whose partition changes at `p = 1/3`; threshold `1/10`: six computations (0, 1 and four midpoints)
for two partitions. -/
theorem exWork :
    (computeBestPartitionsC (oOps (⟨2, [⟨0, 0⟩, ⟨0, 0⟩, ⟨2, 1⟩]⟩ : UTM (Quality ℚ))) false 5 (1 / 10 : ℚ) 0 1 PState.empty).map
      (fun r => (r.1.pList, r.2)) = .ok ([0, 3 / 8], [0, 1, 1 / 2, 1 / 4, 3 / 8, 5 / 16]) := by
  decide +kernel

/-! ## The hypotheses are met by concrete inputs (`Proofs/Samples.lean`) -/

example := work (exactLaws ℚ) _ Sample.oIs (1 / 16) 0 1 (by decide +kernel) (by decide +kernel) (by decide +kernel) 4 (by decide +kernel) 20 (by decide) PState.empty
example := work (exactLaws ℚ) _ Sample.dIs (1 / 16) 0 1 (by decide +kernel) (by decide +kernel) (by decide +kernel) 4 (by decide +kernel) 20 (by decide) PState.empty
example := workExact _ Sample.hIs (1 / 16 : ℚ) 0 1 (by decide +kernel) (by decide +kernel) (by decide +kernel) 4 (by decide +kernel) 20 (by decide) PState.empty

end Lp.C63

import Verif.Proofs.SearchList
import Verif.Spec.Binary
import Verif.Proofs.SampleRuns

/-!
# C27 — the parameter search misses nothing wider than the threshold

`ops.same` is `operator==` of the partitions (`C38`: equality of the sets of parts).
-/

namespace Lp.C27
open Spec
variable {F K P T : Type} [Field K] [LinearOrder K] [IsStrictOrderedRing K] [FloatP F K] {u : K}

/-- For every parameter `p` of the range: the partition of `p` is one of those returned, or `p` lies strictly
between two parameters `x < y` of the range whose difference does not exceed the threshold and whose partitions,
both returned, differ. -/
theorem complete (fl : FloatLaws F K u) (ops : PartOps F K P T) (ho : IsPartitioner ops) (t lo hi : F)
    (h0 : (0 : K) ≤ FloatP.toK lo) (hlt : (FloatP.toK lo : K) < FloatP.toK hi) (h1 : (FloatP.toK hi : K) ≤ 1)
    (fuel : Nat) (st st' : PState F K P T) (h : computeBestPartitions ops false fuel t lo hi st = .ok st')
    (p : F) (hl : (FloatP.toK lo : K) ≤ FloatP.toK p) (hh : (FloatP.toK p : K) ≤ FloatP.toK hi)
    (Pp : P) (ep : ops.best p = .ok Pp) :
    (∃ e ∈ st'.partitions, ops.same Pp e.2 = true) ∨
    ∃ x y Px Py, (FloatP.toK lo : K) ≤ FloatP.toK x ∧ (FloatP.toK x : K) < FloatP.toK p ∧
      (FloatP.toK p : K) < FloatP.toK y ∧ (FloatP.toK y : K) ≤ FloatP.toK hi ∧
      FloatP.lt t (FloatP.sub y x) = false ∧
      ops.best x = .ok Px ∧ ops.best y = .ok Py ∧ ops.same Px Py = false ∧
      (∃ e ∈ st'.partitions, ops.same Px e.2 = true) ∧ (∃ e ∈ st'.partitions, ops.same Py e.2 = true) := by
  obtain ⟨B, so⟩ := isPartitioner_ops ho
  have hint := isPartitioner_interval fl ho so
  obtain ⟨S, hc, hb, e1, _, e2, _, _⟩ := search_full fl so h0 hlt h1 h
  rw [so.best] at ep
  obtain rfl := Except.ok.inj ep
  have hr := samples_range (K := K) hlt hb
  rcases chain_between (K := K) S lo hi hc hl hh with ⟨x, hx, e⟩ | ⟨x, hx, y, hy, ⟨_, hres⟩, hxp, hpy⟩
  · left
    rw [← fl.inj _ _ e]
    exact sample_returned so e1 e2 hx
  · obtain ⟨ex, hex, sx⟩ := sample_returned so e1 e2 hx
    obtain ⟨ey, hey, sy⟩ := sample_returned so e1 e2 hy
    cases hs : ops.same (B x) (B y) with
    | true =>
      left
      have hxp' := hint x p y (le_trans h0 (hr x hx).1) hxp.le hpy.le (le_trans (hr y hy).2 h1) hs
      have hmem : ∃ z, ex = (z, B z) := by
        rw [e2] at hex; obtain ⟨z, _, rfl⟩ := List.mem_map.mp hex; exact ⟨z, rfl⟩
      obtain ⟨z, rfl⟩ := hmem
      exact ⟨(z, B z), hex, so.trans _ _ _ (so.symm _ _ hxp') sx⟩
    | false =>
      right
      refine ⟨x, y, B x, B y, (hr x hx).1, hxp, hpy, (hr y hy).2, ?_, so.best x, so.best y, hs, ⟨ex, hex, sx⟩,
        ⟨ey, hey, sy⟩⟩
      rcases hres with h | h
      · rw [hs] at h; simp at h
      · exact h

/-- A partition that is the best one at two parameters of the range more than `threshold` apart (difference
computed by the program) is returned. -/
theorem wide (fl : FloatLaws F K u) (ops : PartOps F K P T) (ho : IsPartitioner ops) (t lo hi : F)
    (h0 : (0 : K) ≤ FloatP.toK lo) (hlt : (FloatP.toK lo : K) < FloatP.toK hi) (h1 : (FloatP.toK hi : K) ≤ 1)
    (fuel : Nat) (st st' : PState F K P T) (h : computeBestPartitions ops false fuel t lo hi st = .ok st')
    (p p' : F) (hl : (FloatP.toK lo : K) ≤ FloatP.toK p) (hpp : (FloatP.toK p : K) ≤ FloatP.toK p')
    (hh : (FloatP.toK p' : K) ≤ FloatP.toK hi) (hw : FloatP.lt t (FloatP.sub p' p) = true)
    (Pp Pp' : P) (ep : ops.best p = .ok Pp) (ep' : ops.best p' = .ok Pp') (hs : ops.same Pp Pp' = true) :
    ∃ e ∈ st'.partitions, ops.same Pp e.2 = true := by
  obtain ⟨B, so⟩ := isPartitioner_ops ho
  have hint := isPartitioner_interval fl ho so
  rcases complete fl ops ho t lo hi h0 hlt h1 fuel st st' h p hl (le_trans hpp hh) Pp ep with
    h | ⟨x, y, Px, Py, hx, hxp, hpy, hy, hnt, ex, ey, hd, _, ⟨e, he, se⟩⟩
  · exact h
  · rw [so.best] at ep ep' ey
    obtain rfl := Except.ok.inj ep
    obtain rfl := Except.ok.inj ep'
    obtain rfl := Except.ok.inj ey
    rcases lt_or_ge (FloatP.toK p' : K) (FloatP.toK y) with hp'y | hp'y
    · exfalso
      have hm := fl.sub_mono p p' x y (by linarith)
      rw [fl.lt_iff] at hw
      have : FloatP.lt t (FloatP.sub y x) = true := (fl.lt_iff _ _).mpr (lt_of_lt_of_le hw hm)
      rw [hnt] at this; simp at this
    · have hpy' := hint p y p' (le_trans h0 hl) hpy.le hp'y (le_trans hh h1) hs
      obtain ⟨S, hc, hb, e1, _, e2, _, _⟩ := search_full fl so h0 hlt h1 h
      have hmem : ∃ z, e = (z, B z) := by
        rw [e2] at he; obtain ⟨z, _, rfl⟩ := List.mem_map.mp he; exact ⟨z, rfl⟩
      obtain ⟨z, rfl⟩ := hmem
      exact ⟨(z, B z), he, so.trans _ _ _ hpy' se⟩

/-- Exact parameters: all partitions that are best on an interval longer than the threshold are returned. -/
theorem wideExact (ops : PartOps K K P T) (ho : IsPartitioner ops) (t lo hi : K)
    (h0 : 0 ≤ lo) (hlt : lo < hi) (h1 : hi ≤ 1)
    (fuel : Nat) (st st' : PState K K P T) (h : computeBestPartitions ops false fuel t lo hi st = .ok st')
    (p p' : K) (hl : lo ≤ p) (hh : p' ≤ hi) (hpp : p ≤ p') (hw : t < p' - p)
    (Pp Pp' : P) (ep : ops.best p = .ok Pp) (ep' : ops.best p' = .ok Pp') (hs : ops.same Pp Pp' = true) :
    ∃ e ∈ st'.partitions, ops.same Pp e.2 = true :=
  wide (exactLaws K) ops ho t lo hi h0 hlt h1 fuel st st' h p p' hl hpp hh (decide_eq_true hw) Pp Pp' ep ep' hs

/-! ## Concrete cases -/

/-- A partition missed because of the threshold: between samples at most `1/2` apart. The table of `C16` has three
best partitions; with threshold `1` only two are found. -/
example : (computeBestPartitions (oOps C16.exQ) false 10 (1 : ℚ) 0 1 PState.empty).map
    (fun st => st.partitions.map (fun e => e.2.parts.length)) = .ok [3, 1] := by decide +kernel

example : (computeBestPartitions (oOps C16.exQ) false 10 (1 / 100 : ℚ) 0 1 PState.empty).map
    (fun st => st.partitions.map (fun e => e.2.parts.length)) = .ok [3, 2, 1] := by decide +kernel

/-! ## The hypotheses are met by concrete inputs (`Proofs/Samples.lean`) -/

example := complete (exactLaws ℚ) _ Sample.oIs (1 / 16) 0 1 (by decide +kernel) (by decide +kernel) (by decide +kernel) 20 _ _  Sample.oRun (1 / 3) (by decide +kernel) (by decide +kernel) _ (Sample.oPok _)
example := complete (exactLaws ℚ) _ Sample.hIs (1 / 16) 0 1 (by decide +kernel) (by decide +kernel) (by decide +kernel) 20 _ _  Sample.hRun (1 / 3) (by decide +kernel) (by decide +kernel) _ (Sample.hPok _)
example := complete (exactLaws ℚ) _ Sample.dIs (1 / 16) 0 1 (by decide +kernel) (by decide +kernel) (by decide +kernel) 20 _ _  Sample.dRun (1 / 3) (by decide +kernel) (by decide +kernel) _ (Sample.dPok _)
example := wide (exactLaws ℚ) _ Sample.oIs (1 / 16) 0 1 (by decide +kernel) (by decide +kernel) (by decide +kernel) 20 _ _  Sample.oRun (9 / 10) 1 (by decide +kernel) (by decide +kernel) (by decide +kernel) (by decide +kernel) _ _ (Sample.oPok _) (Sample.oPok _)
  (Sample.same_of (Sample.oPok _) (Sample.oPok _) (by decide +kernel))
example := wideExact _ Sample.dIs (1 / 16) 0 1 (by decide +kernel) (by decide +kernel) (by decide +kernel) 20 _ _  Sample.dRun (9 / 10) 1 (by decide +kernel) (by decide +kernel) (by decide +kernel) (by decide +kernel) _ _ (Sample.dPok _) (Sample.dPok _)
  (Sample.same_of (Sample.dPok _) (Sample.dPok _) (by decide +kernel))

end Lp.C27

import Verif.Proofs.SearchList
import Verif.Props.C17
import Verif.Proofs.SampleRuns

/-!
# C33 — the partition table agrees with the partitions

`getPartitionsTuples()`: one row per part, by increasing parameter and in part order, and the gains and losses of
the rows of one parameter add up to the entry of `getQualityList()`.
-/

namespace Lp.C33
open Spec
variable {F K : Type} [Field K] [LinearOrder K] [IsStrictOrderedRing K] [FloatP F K] {u : K}

/-- Rows of the parameter `p`. -/
noncomputable def rowsOf {T : Type} (p : F) (l : List (F × T)) : List (F × T) :=
  haveI := Classical.decEq F; l.filter (fun r => decide (r.1 = p))

omit [FloatP F K] [Field K] [LinearOrder K] [IsStrictOrderedRing K] in
theorem rowsOf_aux {T : Type} (g : F → List (F × T)) (hg : ∀ p, ∀ r ∈ g p, r.1 = p) (x : F) : ∀ l : List F, l.Nodup →
    x ∈ l → rowsOf x (l.flatMap g) = g x := by
  have none : ∀ l : List F, x ∉ l → rowsOf x (l.flatMap g) = [] := by
    intro l h
    unfold rowsOf
    rw [List.filter_eq_nil_iff]
    intro r hr
    obtain ⟨y, hy, hr⟩ := List.mem_flatMap.mp hr
    have := hg y r hr
    simp only [decide_eq_true_eq]
    rintro rfl
    exact h (this ▸ hy)
  intro l
  induction l with
  | nil => intro _ h; simp at h
  | cons y l ih =>
    intro hnd h
    rw [List.nodup_cons] at hnd
    have split : rowsOf x ((y :: l).flatMap g) = rowsOf x (g y) ++ rowsOf x (l.flatMap g) := by
      unfold rowsOf; simp
    rw [split]
    by_cases hxy : x = y
    · subst hxy
      rw [none l hnd.1, List.append_nil]
      unfold rowsOf
      rw [List.filter_eq_self]
      intro r hr
      simp [hg x r hr]
    · rcases List.mem_cons.mp h with e | h
      · exact absurd e hxy
      · rw [ih hnd.2 h]
        have : rowsOf x (g y) = [] := by
          unfold rowsOf
          rw [List.filter_eq_nil_iff]
          intro r hr
          rw [hg y r hr]
          simp [Ne.symm hxy]
        rw [this, List.nil_append]

theorem rows_aux {P T : Type} (ops : PartOps F K P (F × T)) (ho : IsPartitioner ops) (fl : FloatLaws F K u)
    (hrows : ∀ p P, ∀ r ∈ ops.rows p P, r.1 = p) (t lo hi : F)
    (h0 : (0 : K) ≤ FloatP.toK lo) (hlt : (FloatP.toK lo : K) < FloatP.toK hi) (h1 : (FloatP.toK hi : K) ≤ 1)
    (fuel : Nat) (st st' : PState F K P (F × T)) (h : computeBestPartitions ops false fuel t lo hi st = .ok st') :
    st'.tuples = st'.partitions.flatMap (fun e => ops.rows e.1 e.2) ∧
    st'.qualityList.map Prod.fst = st'.partitions.map Prod.fst ∧
    ∀ e ∈ st'.qualityList, ∃ P, ops.best e.1 = .ok P ∧ e.2 = ops.quality P ∧
      rowsOf e.1 st'.tuples = ops.rows e.1 P := by
  obtain ⟨B, so⟩ := isPartitioner_ops ho
  obtain ⟨S, hc, hb, e1, hs, e2, e3, e4⟩ := search_full fl so h0 hlt h1 h
  refine ⟨by rw [e4, e2, List.flatMap_map], by rw [e3, e2, List.map_map, List.map_map]; rfl, ?_⟩
  intro e he
  rw [e3] at he
  obtain ⟨x, hx, rfl⟩ := List.mem_map.mp he
  refine ⟨B x, so.best x, rfl, ?_⟩
  rw [e4]
  exact rowsOf_aux _ (fun p => hrows p (B p)) x _ (hs.imp (fun hlt => by rintro rfl; exact lt_irrefl _ hlt)) hx

/-- Ordered: rows `(parameter, start, end, gain, loss)`. -/
theorem ordered (fl : FloatLaws F K u) (q : UTM (Quality K)) (n : Nat) (f : Nat → Nat → Quality K) (hq : q.Rep n f)
    (t lo hi : F)
    (h0 : (0 : K) ≤ FloatP.toK lo) (hlt : (FloatP.toK lo : K) < FloatP.toK hi) (h1 : (FloatP.toK hi : K) ≤ 1)
    (fuel : Nat) (st st' : PState F K (OPartition F K) (F × Int × Int × K × K))
    (h : computeBestPartitions (oOps q) false fuel t lo hi st = .ok st') :
    st'.tuples = st'.partitions.flatMap (fun e => e.2.parts.map (fun x =>
      (e.1, x.start, x.end, x.quality.gain, x.quality.loss))) ∧
    st'.qualityList.map Prod.fst = st'.partitions.map Prod.fst ∧
    ∀ e ∈ st'.qualityList,
      e.2.gain = ((rowsOf e.1 st'.tuples).map (fun r => r.2.2.2.1)).foldl (· + ·) 0 ∧
      e.2.loss = ((rowsOf e.1 st'.tuples).map (fun r => r.2.2.2.2)).foldl (· + ·) 0 := by
  obtain ⟨h2, h3, h4⟩ := rows_aux (oOps q) (.ordered q n f hq) fl
    (by intro p P r hr; simp only [oOps, List.mem_map] at hr; obtain ⟨x, _, rfl⟩ := hr; rfl) t lo hi h0 hlt h1 fuel st st' h
  refine ⟨h2, h3, ?_⟩
  intro e he
  obtain ⟨P, e1, e2, e3⟩ := h4 e he
  have hs := (C17.returned e.1).1 q P e1
  rw [e2, e3]
  simpa [oOps, C17.Sums, Function.comp_def] using hs

/-- Hierarchical: rows `(parameter, node, size, gain, loss)`. -/
theorem hierarchical (fl : FloatLaws F K u) (leaves : Nat) (parents : List Int) (md : HMeta)
    (hmd : RightMeta leaves parents md) (hleaf : leaves < parents.length) (q : List (Quality K)) (Q : Nat → Quality K)
    (hq : VRep q parents.length Q) (t lo hi : F)
    (h0 : (0 : K) ≤ FloatP.toK lo) (hlt : (FloatP.toK lo : K) < FloatP.toK hi) (h1 : (FloatP.toK hi : K) ≤ 1)
    (fuel : Nat) (st st' : PState F K (HPartition F K) (F × Nat × Nat × K × K))
    (h : computeBestPartitions (hOps q md) false fuel t lo hi st = .ok st') :
    st'.tuples = st'.partitions.flatMap (fun e => e.2.parts.map (fun x =>
      (e.1, x.h, x.size, x.quality.gain, x.quality.loss))) ∧
    st'.qualityList.map Prod.fst = st'.partitions.map Prod.fst ∧
    ∀ e ∈ st'.qualityList,
      e.2.gain = ((rowsOf e.1 st'.tuples).map (fun r => r.2.2.2.1)).foldl (· + ·) 0 ∧
      e.2.loss = ((rowsOf e.1 st'.tuples).map (fun r => r.2.2.2.2)).foldl (· + ·) 0 := by
  obtain ⟨h2, h3, h4⟩ := rows_aux (hOps q md) (.hierarchical leaves parents md q Q hmd hleaf hq) fl
    (by intro p P r hr; simp only [hOps, List.mem_map] at hr; obtain ⟨x, _, rfl⟩ := hr; rfl) t lo hi h0 hlt h1 fuel st st' h
  refine ⟨h2, h3, ?_⟩
  intro e he
  obtain ⟨P, e1, e2, e3⟩ := h4 e he
  have hs := (C17.returned e.1).2.1 q md P e1
  rw [e2, e3]
  simpa [hOps, C17.Sums, Function.comp_def] using hs

/-- Spatiotemporal: rows `(parameter, node, size, start, end, gain, loss)`. -/
theorem spatiotemporal (fl : FloatLaws F K u) (leaves : Nat) (parents : List Int) (md : HMeta)
    (hmd : RightMeta leaves parents md) (n : Nat) (hn0 : 0 < n) (hn : n ≤ 65535)
    (q : List (UTM (Quality K))) (Q : Nat → Nat → Nat → Quality K) (hq : MRep q parents.length n Q) (t lo hi : F)
    (h0 : (0 : K) ≤ FloatP.toK lo) (hlt : (FloatP.toK lo : K) < FloatP.toK hi) (h1 : (FloatP.toK hi : K) ≤ 1)
    (fuel : Nat) (st st' : PState F K (DPartition F K) (F × Nat × Int × Nat × Nat × K × K))
    (h : computeBestPartitions (dOps q md) false fuel t lo hi st = .ok st') :
    st'.tuples = st'.partitions.flatMap (fun e => e.2.parts.map (fun x =>
      (e.1, x.h, (x.hsize : Int) * (x.end - x.start + 1), x.start, x.end, x.quality.gain, x.quality.loss))) ∧
    st'.qualityList.map Prod.fst = st'.partitions.map Prod.fst ∧
    ∀ e ∈ st'.qualityList,
      e.2.gain = ((rowsOf e.1 st'.tuples).map (fun r => r.2.2.2.2.2.1)).foldl (· + ·) 0 ∧
      e.2.loss = ((rowsOf e.1 st'.tuples).map (fun r => r.2.2.2.2.2.2)).foldl (· + ·) 0 := by
  obtain ⟨h2, h3, h4⟩ := rows_aux (dOps q md) (.spatiotemporal leaves parents md n q Q hmd hn0 hn hq) fl
    (by intro p P r hr; simp only [dOps, List.mem_map] at hr; obtain ⟨x, _, rfl⟩ := hr; rfl) t lo hi h0 hlt h1 fuel st st' h
  refine ⟨h2, h3, ?_⟩
  intro e he
  obtain ⟨P, e1, e2, e3⟩ := h4 e he
  have hs := (C17.returned e.1).2.2 q md P e1
  rw [e2, e3]
  simpa [dOps, C17.Sums, Function.comp_def] using hs

/-! ## Concrete case -/

example : (computeBestPartitions (oOps C16.exQ) false 10 (1 / 4 : ℚ) 0 1 PState.empty).map
    (fun st => (st.tuples.length, st.qualityList.length)) = .ok (6, 3) := by decide +kernel

/-! ## The hypotheses are met by concrete inputs (`Proofs/Samples.lean`) -/

example := ordered (exactLaws ℚ) Sample.oQ 3 _ Sample.oRep (1 / 16) 0 1 (by decide +kernel) (by decide +kernel) (by decide +kernel) 20 _ _  Sample.oRun
example := hierarchical (exactLaws ℚ) 4 Sample.tree Sample.md Sample.right (by decide) Sample.hQ _ Sample.hRep (1 / 16) 0 1 (by decide +kernel) (by decide +kernel) (by decide +kernel) 20 _ _  Sample.hRun
example := spatiotemporal (exactLaws ℚ) 4 Sample.tree Sample.md Sample.right 3 (by decide) (by decide) Sample.dQ _ Sample.dRep (1 / 16) 0 1 (by decide +kernel) (by decide +kernel) (by decide +kernel) 20 _ _  Sample.dRun

end Lp.C33

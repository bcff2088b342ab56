import Verif.Proofs.Refine
import Verif.Props.C26

/-!
# C66 — a smaller threshold only adds

Two searches with the same ends and the thresholds `t' ≤ t` that both return (`C26`: they do for thresholds above the
resolution of the parameters).  `st` is the result for `t`, `st'` for `t'`; whatever the partitioner held before does not
matter.
-/

namespace Lp.C66
open Spec
variable {F K P T : Type} [Field K] [LinearOrder K] [FloatP F K] {u : K}

/-- Two searches on the same partitioner with the same ends, the second one with a threshold that is not larger. -/
structure Refines (ops : PartOps F K P T) (t t' lo hi : F) (st st' : PState F K P T) : Prop where
  lo0 : (0 : K) ≤ FloatP.toK lo
  lt : (FloatP.toK lo : K) < FloatP.toK hi
  hi1 : (FloatP.toK hi : K) ≤ 1
  le : (FloatP.toK t' : K) ≤ FloatP.toK t
  coarse : ∃ fuel s0, computeBestPartitions ops false fuel t lo hi s0 = .ok st
  fine : ∃ fuel s0, computeBestPartitions ops false fuel t' lo hi s0 = .ok st'

theorem samples_aux (fl : FloatLaws F K u) {ops : PartOps F K P T} {B : F → P} (so : SearchOps ops B) {t t' lo hi : F}
    {st st' : PState F K P T} (h : Refines ops t t' lo hi st st') :
    ∃ S S' : List F, S.Sublist S' ∧ st.pList = keep (fun x y => ops.same (B x) (B y)) (lo :: S ++ [hi]) ∧
      st'.pList = keep (fun x y => ops.same (B x) (B y)) (lo :: S' ++ [hi]) ∧
      st.partitions = st.pList.map (fun p => (p, B p)) ∧ st'.partitions = st'.pList.map (fun p => (p, B p)) ∧
      (lo :: S' ++ [hi]).Pairwise (fun x y => (num x : K) < num y) := by
  obtain ⟨fuel, s0, hc⟩ := h.coarse
  obtain ⟨fuel', s0', hf⟩ := h.fine
  obtain ⟨s1, S, hA, e0, a1, a2, a3, a4⟩ := search_samples fl so h.lo0 h.lt h.hi1 hc
  obtain ⟨s1', S', hA', e0', a1', a2', a3', a4'⟩ := search_samples fl so h.lo0 h.lt h.hi1 hf
  obtain ⟨S1, S1', x, x', y⟩ := addBest_refine so (t := t) (t' := t') (fun z hz => by
    rw [fl.lt_iff] at hz ⊢
    exact lt_of_le_of_lt h.le hz) _ _ _ _ _ _ _ _ hA hA'
  rw [e0] at x
  rw [e0'] at x'
  simp only [List.singleton_append, List.cons.injEq, true_and] at x x'
  subst x x'
  exact ⟨S, S', y, a3, a3', a4, a4', resolved_pairwise a1'⟩

/-- Every partition found with `t` is found with `t'`, listed under a parameter that is the same or smaller. -/
theorem found (fl : FloatLaws F K u) (ops : PartOps F K P T) (ho : IsPartitioner ops) (t t' lo hi : F)
    (st st' : PState F K P T) (h : Refines ops t t' lo hi st st') (p : F) (X : P) (hX : (p, X) ∈ st.partitions) :
    ∃ p' X', (p', X') ∈ st'.partitions ∧ ops.same X X' = true ∧ (FloatP.toK p' : K) ≤ FloatP.toK p := by
  obtain ⟨B, so⟩ := isPartitioner_ops ho
  obtain ⟨S, S', hs, e1, e1', e2, e2', hp⟩ := samples_aux fl so h
  rw [e2] at hX
  obtain ⟨x, hx, e⟩ := List.mem_map.mp hX
  obtain ⟨rfl, rfl⟩ := Prod.mk.inj e
  rw [e1] at hx
  have hx' : x ∈ lo :: S' ++ [hi] := ((hs.cons_cons lo).append (List.Sublist.refl [hi])).mem ((keep_sublist _).mem hx)
  obtain ⟨y, hy, hsame, hle⟩ := keep_repr_le (K := K) (same := fun x y => ops.same (B x) (B y)) so.refl
    (fun x y z => so.trans x y z) _ hp x hx'
  exact ⟨y, B y, by rw [e2', e1']; exact List.mem_map.mpr ⟨y, hy, rfl⟩, hsame, hle⟩

variable [IsStrictOrderedRing K]

/-- The points of the quality curve for `t` are, in order, among those for `t'`. -/
theorem curve (fl : FloatLaws F K u) (ops : PartOps F K P T) (ho : IsPartitioner ops) (t t' lo hi : F)
    (st st' : PState F K P T) (h : Refines ops t t' lo hi st st') :
    (st.qualityList.map Prod.snd).Sublist (st'.qualityList.map Prod.snd) := by
  obtain ⟨fuel, s0, hc⟩ := h.coarse
  obtain ⟨fuel', s0', hf⟩ := h.fine
  have i := C45.increasing fl ops ho t lo hi h.lo0 h.lt h.hi1 fuel s0 st hc
  have i' := C45.increasing fl ops ho t' lo hi h.lo0 h.lt h.hi1 fuel' s0' st' hf
  obtain ⟨_, _, _, _, hb, hq, _⟩ := C28.list fl ops ho t lo hi h.lo0 h.lt h.hi1 fuel s0 st hc
  obtain ⟨_, _, _, _, hb', hq', _⟩ := C28.list fl ops ho t' lo hi h.lo0 h.lt h.hi1 fuel' s0' st' hf
  have sub : st.qualityList.map Prod.snd ⊆ st'.qualityList.map Prod.snd := by
    intro q hq0
    rw [hq, List.map_map] at hq0
    obtain ⟨⟨p, X⟩, he, rfl⟩ := List.mem_map.mp hq0
    obtain ⟨p', X', he', hs, _⟩ := found fl ops ho t t' lo hi st st' h p X he
    rw [hq', List.map_map]
    refine List.mem_map.mpr ⟨(p', X'), he', ?_⟩
    exact (isPartitioner_sameQ ho p p' X X' (hb _ he) (hb' _ he') hs).symm
  have nd : (st.qualityList.map Prod.snd).Nodup := i.imp (fun h => h.2.2)
  haveI : Std.Antisymm (fun a b : Quality K => a.gain ≤ b.gain ∧ a.loss ≤ b.loss ∧ a ≠ b) := ⟨by
    rintro ⟨a, b⟩ ⟨c, d⟩ ⟨x1, x2, _⟩ ⟨y1, y2, _⟩
    have e1 := le_antisymm x1 y1
    have e2 := le_antisymm x2 y2
    dsimp only at e1 e2
    rw [e1, e2]⟩
  exact List.sublist_of_subperm_of_pairwise (List.subperm_of_subset nd sub) i i'

/-- There are at least as many significant parameters. -/
theorem more (fl : FloatLaws F K u) (ops : PartOps F K P T) (ho : IsPartitioner ops) (t t' lo hi : F)
    (st st' : PState F K P T) (h : Refines ops t t' lo hi st st') : st.pList.length ≤ st'.pList.length := by
  have := (curve fl ops ho t t' lo hi st st' h).length_le
  obtain ⟨B, so⟩ := isPartitioner_ops ho
  obtain ⟨fuel, s0, hc⟩ := h.coarse
  obtain ⟨fuel', s0', hf⟩ := h.fine
  obtain ⟨_, _, _, _, _, _, e, _⟩ := search_full fl so h.lo0 h.lt h.hi1 hc
  obtain ⟨_, _, _, _, _, _, e', _⟩ := search_full fl so h.lo0 h.lt h.hi1 hf
  rw [e, e'] at this
  simpa using this

/-- `computeAUC` is not smaller. -/
theorem auc (fl : FloatLaws F K u) (ops : PartOps F K P T) (ho : IsPartitioner ops) (t t' lo hi : F)
    (st st' : PState F K P T) (h : Refines ops t t' lo hi st st') :
    ∃ a a' : K, computeAUC id st = .ok a ∧ computeAUC id st' = .ok a' ∧ a ≤ a' := by
  have hsub := curve fl ops ho t t' lo hi st st' h
  obtain ⟨fuel, s0, hc⟩ := h.coarse
  obtain ⟨fuel', s0', hf⟩ := h.fine
  refine ⟨_, _, C32.value fl ops ho t lo hi h.lo0 h.lt h.hi1 fuel s0 st hc,
    C32.value fl ops ho t' lo hi h.lo0 h.lt h.hi1 fuel' s0' st' hf, ?_⟩
  have i' := C45.increasing fl ops ho t' lo hi h.lo0 h.lt h.hi1 fuel' s0' st' hf
  have b' := C45.bends fl ops ho t' lo hi h.lo0 h.lt h.hi1 fuel' s0' st' hf
  have ends : ∀ {t : F} {fuel : Nat} {s0 s : PState F K P T}, computeBestPartitions ops false fuel t lo hi s0 = .ok s →
      (∃ X, ops.best lo = .ok X ∧ (s.qualityList.map Prod.snd).head? = some (ops.quality X)) ∧
      ∃ X, ops.best hi = .ok X ∧ (s.qualityList.map Prod.snd).getLast? = some (ops.quality X) := by
    intro t fuel s0 s hs
    obtain ⟨c1, _, _, c4, c5, c6, _, X, e, d1, d2, d3⟩ := C28.list fl ops ho t lo hi h.lo0 h.lt h.hi1 fuel s0 s hs
    constructor
    · rw [c6, List.map_map, List.head?_map]
      rw [← c4, List.head?_map] at c1
      cases hh : s.partitions.head? with
      | none => rw [hh] at c1; simp at c1
      | some y =>
        rw [hh] at c1
        simp only [Option.map_some, Option.some.injEq] at c1
        have := c5 y (List.mem_of_mem_head? hh)
        rw [c1] at this
        exact ⟨_, this, rfl⟩
    · rw [c6, List.map_map, List.getLast?_map, d2]
      refine ⟨X, d1, ?_⟩
      have := c5 e (List.mem_of_getLast? d2)
      simp only [Option.map_some, Function.comp]
      rw [isPartitioner_sameQ ho _ _ _ _ d1 this d3]
  obtain ⟨⟨X, ex, hh⟩, Y, ey, hl⟩ := ends hc
  obtain ⟨⟨X', ex', hh'⟩, Y', ey', hl'⟩ := ends hf
  obtain rfl := Except.ok.inj (ex.symm.trans ex')
  obtain rfl := Except.ok.inj (ey.symm.trans ey')
  generalize st.qualityList.map Prod.snd = L at *
  generalize st'.qualityList.map Prod.snd = L' at *
  cases L with
  | nil => simp at hh
  | cons a l =>
    cases L' with
    | nil => simp at hh'
    | cons a' l' =>
      simp only [List.head?_cons, Option.some.injEq] at hh hh'
      subst hh hh'
      have := area_refine l l' _ (List.cons_sublist_cons.mp hsub) i' b' (hl.trans hl'.symm)
      linarith

/-- The quality at `getP(P_OPT)` is at least as near to `(1, 0)`. -/
theorem optimum (fl : FloatLaws F K u) (ops : PartOps F K P T) (ho : IsPartitioner ops) (t t' lo hi : F)
    (st st' : PState F K P T) (h : Refines ops t t' lo hi st st') (randMax : K) (p : F) (hp : getP randMax 2 st = .ok p) :
    ∃ p' X X', getP randMax 2 st' = .ok p' ∧ (p, X) ∈ st.partitions ∧ (p', X') ∈ st'.partitions ∧
      C31.dist (ops.quality X') ≤ C31.dist (ops.quality X) := by
  have hsub := curve fl ops ho t t' lo hi st st' h
  obtain ⟨fuel, s0, hc⟩ := h.coarse
  obtain ⟨fuel', s0', hf⟩ := h.fine
  obtain ⟨o1, o2⟩ := C31.optimum fl ops ho t lo hi h.lo0 h.lt h.hi1 fuel s0 st hc randMax
  obtain ⟨o1', o2'⟩ := C31.optimum fl ops ho t' lo hi h.lo0 h.lt h.hi1 fuel' s0' st' hf randMax
  have hq := (C28.list fl ops ho t lo hi h.lo0 h.lt h.hi1 fuel s0 st hc).2.2.2.2.2.1
  have hq' := (C28.list fl ops ho t' lo hi h.lo0 h.lt h.hi1 fuel' s0' st' hf).2.2.2.2.2.1
  have ex : ∃ e ∈ st.qualityList, C31.dist e.2 ≤ randMax := by
    by_contra hn
    push Not at hn
    rw [o2 hn] at hp
    cases hp
  have up : ∀ e ∈ st.qualityList, ∃ e' ∈ st'.qualityList, e'.2 = e.2 := by
    intro e he
    obtain ⟨e', he', eq⟩ := List.mem_map.mp (hsub.mem (List.mem_map.mpr ⟨e, he, rfl⟩))
    exact ⟨e', he', eq⟩
  obtain ⟨r, q, g1, g2, g3, _⟩ := o1 ex
  obtain rfl := Except.ok.inj (hp.symm.trans g1)
  obtain ⟨r', q', g1', g2', g3', _⟩ := o1' (by
    obtain ⟨e, he, hd⟩ := ex
    obtain ⟨e', he', eq⟩ := up e he
    exact ⟨e', he', by rw [eq]; exact hd⟩)
  rw [hq] at g2
  rw [hq'] at g2'
  obtain ⟨⟨a, X⟩, hX, eX⟩ := List.mem_map.mp g2
  obtain ⟨⟨a', X'⟩, hX', eX'⟩ := List.mem_map.mp g2'
  obtain ⟨rfl, rfl⟩ := Prod.mk.inj eX
  obtain ⟨rfl, rfl⟩ := Prod.mk.inj eX'
  refine ⟨_, X, X', g1', hX, hX', ?_⟩
  obtain ⟨e', he', eq⟩ := up (a, ops.quality X) (by rw [hq]; exact g2)
  have := g3' e' he'
  rw [eq] at this
  exact this

/-! ## An example: the ordered table of `C16`, thresholds 3/4 and 1/100 -/

/-- The coarse search misses the middle partition, the finer one finds it. -/
theorem exRuns :
    (computeBestPartitions (oOps C16.exQ) false 10 (3 / 4 : ℚ) (1 / 4) 1 PState.empty).map
      (fun st => (st.pList, st.qualityList.map (fun e => e.2))) = .ok ([1 / 4, 1], [⟨0, 0⟩, ⟨6, 8⟩]) ∧
    (computeBestPartitions (oOps C16.exQ) false 10 (1 / 100 : ℚ) (1 / 4) 1 PState.empty).map
      (fun st => (st.pList.length, st.qualityList.map (fun e => e.2))) = .ok (3, [⟨0, 0⟩, ⟨2, 1⟩, ⟨6, 8⟩]) ∧
    (computeBestPartitions (oOps C16.exQ) false 10 (3 / 4 : ℚ) (1 / 4) 1 PState.empty >>= computeAUC id) = .ok (-23) ∧
    (computeBestPartitions (oOps C16.exQ) false 10 (1 / 100 : ℚ) (1 / 4) 1 PState.empty >>= computeAUC id) = .ok (-18) := by
  decide +kernel

/-- The theorems apply to it. -/
example : ∃ st st' : PState ℚ ℚ (OPartition ℚ ℚ) (ℚ × Int × Int × ℚ × ℚ),
    Refines (oOps C16.exQ) (3 / 4 : ℚ) (1 / 100) (1 / 4) 1 st st' ∧ st.pList.length < st'.pList.length := by
  obtain ⟨h1, h2, _⟩ := exRuns
  cases e1 : computeBestPartitions (oOps C16.exQ) false 10 (3 / 4 : ℚ) (1 / 4) 1 PState.empty with
  | error e => rw [e1] at h1; cases h1
  | ok st =>
    cases e2 : computeBestPartitions (oOps C16.exQ) false 10 (1 / 100 : ℚ) (1 / 4) 1 PState.empty with
    | error e => rw [e2] at h2; cases h2
    | ok st' =>
      rw [e1] at h1
      rw [e2] at h2
      have a := congrArg Prod.fst (Except.ok.inj h1)
      have b := congrArg Prod.fst (Except.ok.inj h2)
      refine ⟨st, st', ⟨by norm_num, by norm_num, by norm_num, by norm_num, ⟨_, _, e1⟩, ⟨_, _, e2⟩⟩, ?_⟩
      dsimp only at a b
      rw [a, b]
      decide

end Lp.C66

import Verif.Proofs.Reading
import Verif.Spec.Special

/-!
# C67 — the search in machine arithmetic

The theorems of C26–C33 compute with exact qualities.  Here the arithmetic `K` of gains, losses and values is arbitrary —
rounded, overflowing, with NaN — and only the parameters are assumed to be floats: `val p` is the number that `p` is, and
`FloatLaws (Reading F val) ℚ u` speaks of the operations on parameters alone.  `With (B32 R) c` (binary32, any rounding, any
conversion `c` to `K`) is an instance.
-/

namespace Lp.C67
open Spec
variable {F K P T : Type} [LD K] [FloatP F K] {val : F → ℚ} {u : ℚ}

/-- For every threshold that is positive and at least 11 times the resolution there is a bound on the recursion depth,
depending on the threshold only, within which every search returns. -/
theorem terminates (fl : FloatLaws (Reading F val) ℚ u) (t : F) (ht : 0 < val t) (hu : 11 * u ≤ val t) :
    ∃ N : Nat, ∀ {P T : Type} (ops : PartOps F K P T), IsPartitioner ops →
      ∀ (lo hi : F), 0 ≤ val lo → val lo < val hi → val hi ≤ 1 →
      ∀ (fuel : Nat), N ≤ fuel → ∀ (st : PState F K P T),
        ∃ st', computeBestPartitions ops false fuel t lo hi st = .ok st' := by
  obtain ⟨N, hN⟩ := search_any_ok (K := K) fl t ht hu
  refine ⟨N, fun ops ho => ?_⟩
  obtain ⟨B, so⟩ := isPartitioner_ops ho
  exact hN so

/-- Every search that returns: the parameters start with `lo`, are strictly increasing and stay in the range; each is listed
with its best partition, the quality and the rows of this partition; the last partition is that of `hi`; consecutive partitions
differ, and the change from one to the next lies within the threshold below the second parameter: there is a parameter `w` at
which the first partition is still the best one, and the computed difference of `w` and the second parameter does not exceed
the threshold. -/
theorem list (fl : FloatLaws (Reading F val) ℚ u) (ops : PartOps F K P T) (ho : IsPartitioner ops) (t lo hi : F)
    (h0 : 0 ≤ val lo) (hlt : val lo < val hi) (h1 : val hi ≤ 1)
    (fuel : Nat) (st st' : PState F K P T) (h : computeBestPartitions ops false fuel t lo hi st = .ok st') :
    st'.pList.head? = some lo ∧
    st'.pList.Pairwise (fun x y => val x < val y) ∧
    (∀ x ∈ st'.pList, val lo ≤ val x ∧ val x ≤ val hi) ∧
    st'.partitions.map Prod.fst = st'.pList ∧
    (∀ e ∈ st'.partitions, ops.best e.1 = .ok e.2) ∧
    st'.qualityList = st'.partitions.map (fun e => (e.1, ops.quality e.2)) ∧
    st'.tuples = st'.partitions.flatMap (fun e => ops.rows e.1 e.2) ∧
    List.IsChain (fun e e' => ops.same e.2 e'.2 = false ∧ ∃ w W, val e.1 ≤ val w ∧ val w < val e'.1 ∧
      ops.best w = .ok W ∧ ops.same W e.2 = true ∧ FloatP.lt t (FloatP.sub e'.1 w) = false) st'.partitions ∧
    (∃ Ph e, ops.best hi = .ok Ph ∧ st'.partitions.getLast? = some e ∧ ops.same Ph e.2 = true) := by
  obtain ⟨B, so⟩ := isPartitioner_ops ho
  obtain ⟨S, hc, hb, e1, hs, e2, e3, e4⟩ := search_any fl so h0 hlt h1 h
  refine ⟨by rw [e1]; rfl, hs, ?_, by rw [e2, List.map_map]; exact List.map_id _, ?_, ?_, ?_, ?_, ?_⟩
  · intro x hx
    rw [e1] at hx
    exact samples_range (F := Reading F val) (K := ℚ) (lo := lo) (hi := hi) hlt hb x ((keep_sublist _).mem hx)
  · intro e he
    rw [e2] at he
    obtain ⟨x, _, rfl⟩ := List.mem_map.mp he
    exact so.best x
  · rw [e3, e2, List.map_map]; rfl
  · rw [e4, e2, List.flatMap_map]
  · rw [e2, List.isChain_map, e1]
    refine (keep_located (val := val) (same := fun x y => ops.same (B x) (B y)) (fun x y z => so.trans x y z) so.refl
      (fun x y h => h.1.le) _ hc).imp ?_
    rintro x y ⟨w, s1, l1, ⟨r1, r2⟩, s2⟩
    have s2' : ops.same (B w) (B y) = false := by
      rw [Bool.eq_false_iff] at s2 ⊢
      exact fun h' => s2 (so.symm _ _ h')
    refine ⟨?_, w, B w, l1, r1, so.best w, s1, ?_⟩
    · rw [Bool.eq_false_iff] at s2' ⊢
      exact fun h' => s2' (so.trans _ _ _ s1 h')
    · rcases r2 with r2 | r2
      · rw [s2'] at r2; simp at r2
      · exact r2
  · obtain ⟨k, y, ek, es⟩ := keep_last (same := fun x y => ops.same (B x) (B y)) so.refl (fun x y z => so.trans x y z)
      (lo :: S) hi
    refine ⟨B hi, (y, B y), so.best hi, ?_, es⟩
    rw [e2, e1, ek]
    simp

/-- Every parameter of the range lies between two parameters of the range whose partitions are both returned and are equal or
not more than the threshold apart. -/
theorem complete (fl : FloatLaws (Reading F val) ℚ u) (ops : PartOps F K P T) (ho : IsPartitioner ops) (t lo hi : F)
    (h0 : 0 ≤ val lo) (hlt : val lo < val hi) (h1 : val hi ≤ 1)
    (fuel : Nat) (st st' : PState F K P T) (h : computeBestPartitions ops false fuel t lo hi st = .ok st')
    (p : F) (hl : val lo ≤ val p) (hh : val p ≤ val hi) :
    ∃ x y Px Py, val x ≤ val p ∧ val p ≤ val y ∧ ops.best x = .ok Px ∧ ops.best y = .ok Py ∧
      (∃ e ∈ st'.partitions, ops.same Px e.2 = true) ∧ (∃ e ∈ st'.partitions, ops.same Py e.2 = true) ∧
      (ops.same Px Py = true ∨ FloatP.lt t (FloatP.sub y x) = false) := by
  obtain ⟨B, so⟩ := isPartitioner_ops ho
  obtain ⟨S, hc, hb, e1, hs, e2, e3, e4⟩ := search_any fl so h0 hlt h1 h
  have ret : ∀ x ∈ lo :: S ++ [hi], ∃ e ∈ st'.partitions, ops.same (B x) e.2 = true := by
    intro x hx
    obtain ⟨y, hy, hs⟩ := keep_repr (same := fun x y => ops.same (B x) (B y)) so.refl (fun x y z => so.trans x y z) _ x hx
    exact ⟨(y, B y), by rw [e2, e1]; exact List.mem_map.mpr ⟨y, hy, rfl⟩, hs⟩
  rcases chain_between (F := Reading F val) (K := ℚ) (p := p) S lo hi hc hl hh with ⟨x, hx, e⟩ | ⟨x, hx, y, hy, ⟨_, hres⟩, hxp, hpy⟩
  · have e : val x = val p := e
    exact ⟨x, x, B x, B x, e.le, e.ge, so.best x, so.best x, ret x hx, ret x hx, Or.inl (so.refl x)⟩
  · exact ⟨x, y, B x, B y, hxp.le, hpy.le, so.best x, so.best y, ret x hx, ret y hy, hres⟩

/-- The queries after a search do not fault: `getP(P_MAX)` is the last parameter, `getP(P_OPT)` is a listed parameter or (only if
no score compares as at most `RAND_MAX`) an uninitialised variable, `computeAUC` returns. -/
theorem queries (fl : FloatLaws (Reading F val) ℚ u) (ops : PartOps F K P T) (ho : IsPartitioner ops) (t lo hi : F)
    (h0 : 0 ≤ val lo) (hlt : val lo < val hi) (h1 : val hi ≤ 1)
    (fuel : Nat) (st st' : PState F K P T) (h : computeBestPartitions ops false fuel t lo hi st = .ok st')
    (randMax : K) (rnd : K → K) :
    (∃ p, getP randMax 1 st' = .ok p ∧ st'.pList.getLast? = some p) ∧
    ((∃ p ∈ st'.pList, getP randMax 2 st' = .ok p) ∨ getP randMax 2 st' = .error .uninit ∧
      ∀ e ∈ st'.qualityList, let s := (e.2.gain - 1) * (e.2.gain - 1) + e.2.loss * e.2.loss; ¬ s < randMax ∧ (s == randMax) = false) ∧
    ∃ a, computeAUC rnd st' = .ok a := by
  obtain ⟨B, so⟩ := isPartitioner_ops ho
  obtain ⟨S, hc, hb, e1, hs, e2, e3, e4⟩ := search_any fl so h0 hlt h1 h
  have hne : st'.pList ≠ [] := by rw [e1]; simp [keep]
  have hd : ∀ p ∈ st'.pList, mapDeref p st'.qualityList = .ok (ops.quality (B p)) := by
    intro p hp
    rw [e3]
    exact deref_any (val := val) fl (fun p => ops.quality (B p)) hp
  refine ⟨⟨st'.pList.getLast hne, ?_, List.getLast?_eq_getLast_of_ne_nil hne⟩, ?_, ?_⟩
  · unfold getP
    rw [if_neg (by decide), if_pos rfl, if_neg (by simpa using hne), vget_eq_ok]
    rw [← List.getLast?_eq_getElem?, List.getLast?_eq_getLast_of_ne_nil hne]
  · unfold getP
    rw [if_neg (by decide), if_neg (by decide), if_pos rfl]
    unfold computePOpt
    obtain ⟨r, hr, hP⟩ := forEach_inv (f := fun p (acc : K × Option F) => do
        let q ← mapDeref p st'.qualityList
        let score := (q.gain - 1) * (q.gain - 1) + q.loss * q.loss
        if decide (score < acc.1) || score == acc.1 then return (score, some p) else return acc)
      (fun done acc => (acc.2 = none ∧ acc.1 = randMax ∧ ∀ p ∈ done,
          let q := ops.quality (B p); let s := (q.gain - 1) * (q.gain - 1) + q.loss * q.loss
          ¬ s < randMax ∧ (s == randMax) = false) ∨ ∃ p ∈ st'.pList, acc.2 = some p)
      st'.pList (randMax, none) (Or.inl ⟨rfl, rfl, by simp⟩) (by
        intro pre x post acc hl hacc
        have hx : x ∈ st'.pList := by rw [hl]; simp
        rw [hd x hx]
        simp only [okBind]
        split
        · exact ⟨_, rfl, Or.inr ⟨x, hx, rfl⟩⟩
        · rename_i hn
          refine ⟨_, rfl, ?_⟩
          rcases hacc with ⟨a1, a2, a3⟩ | hacc
          · left
            refine ⟨a1, a2, fun p hp => ?_⟩
            rcases List.mem_append.mp hp with hp | hp
            · exact a3 p hp
            · simp only [List.mem_singleton] at hp
              subst hp
              rw [a2] at hn
              simp only [Bool.or_eq_true, decide_eq_true_eq, not_or, Bool.not_eq_true] at hn
              exact hn
          · exact Or.inr hacc)
    rw [hr]
    simp only [okBind]
    rcases hP with ⟨a1, a2, a3⟩ | ⟨p, hp, e⟩
    · right
      rw [a1]
      refine ⟨rfl, fun e he => ?_⟩
      rw [e3] at he
      obtain ⟨p, hp, rfl⟩ := List.mem_map.mp he
      exact a3 p hp
    · left
      rw [e]
      exact ⟨p, hp, rfl⟩
  · unfold computeAUC
    rw [if_neg (by simpa using hne)]
    obtain ⟨a, ha, _⟩ := forUp_inv (lo := 0) (hi := st'.pList.length - 1) (s := (0 : K)) (f := fun i (auc : K) => do
        let a ← vget st'.pList i
        let b ← vget st'.pList (i + 1)
        let qa ← mapDeref a st'.qualityList
        let qb ← mapDeref b st'.qualityList
        return rnd (auc + (qb.gain - qa.gain) * (qb.loss + qa.loss) / (1 + 1)))
      (fun _ _ => True) (Nat.zero_le _) trivial (by
        intro k s _ hk _
        have k1 : k < st'.pList.length := by omega
        have k2 : k + 1 < st'.pList.length := by omega
        simp only [vget_ok k1, vget_ok k2, okBind]
        rw [hd _ (List.getElem_mem k1), hd _ (List.getElem_mem k2)]
        exact ⟨_, rfl, trivial⟩)
    rw [ha]
    exact ⟨_, rfl⟩

/-- Binary32 parameters with any rounding, next to any arithmetic on the qualities: thresholds from `11/2^23` on. -/
theorem binary32 (R : Rounding) (c : ℚ → K) (t : With (B32 R) c) (ht : 11 / 2 ^ 23 ≤ t.val) :
    ∃ N : Nat, ∀ {P T : Type} (ops : PartOps (With (B32 R) c) K P T), IsPartitioner ops →
      ∀ (lo hi : With (B32 R) c), 0 ≤ lo.val → lo.val < hi.val → hi.val ≤ 1 →
      ∀ (fuel : Nat), N ≤ fuel → ∀ (st : PState (With (B32 R) c) K P T),
        ∃ st', computeBestPartitions ops false fuel t lo hi st = .ok st' ∧
          st'.pList.Pairwise (fun x y => x.val < y.val) ∧ ∀ e ∈ st'.partitions, ops.best e.1 = .ok e.2 := by
  obtain ⟨N, hN⟩ := terminates (K := K) (withLaws (b32Laws R) c) t (lt_of_lt_of_le (by norm_num) ht) (by
    have : (11 : ℚ) * (1 / 2 ^ 23) = 11 / 2 ^ 23 := by norm_num
    rw [this]; exact ht)
  refine ⟨N, fun ops ho lo hi h0 hlt h1 fuel hf st => ?_⟩
  obtain ⟨st', e⟩ := hN ops ho lo hi h0 hlt h1 fuel hf st
  have := list (withLaws (b32Laws R) c) ops ho t lo hi h0 hlt h1 fuel st st' e
  exact ⟨st', e, this.2.1, this.2.2.2.2.1⟩

/-! ## An example: a table with a NaN -/

/-- Three slices; the gain of the first two together is NaN. -/
def exTable : UTM (Quality (Special ℚ)) :=
  ⟨3, [⟨.num 0, .num 0⟩, ⟨.num 0, .num 0⟩, ⟨.num 0, .num 0⟩, ⟨.nan, .num 1⟩, ⟨.num 3, .num 3⟩, ⟨.num 6, .num 8⟩]⟩

/-- Contents of `exTable`. -/
def exEntry (i j : Nat) : Quality (Special ℚ) := (exTable.data[UTM.index 3 i j]?).getD ⟨0, 0⟩

theorem exRep : exTable.Rep 3 exEntry := by
  refine ⟨by decide, rfl, rfl, ?_⟩
  intro i j hij hj
  have : UTM.index 3 i j < exTable.data.length := UTM.index_lt (n := 3) (by decide) hij hj
  simp [exEntry, this]

/-- Exact rational parameters, qualities with infinities and NaN. -/
abbrev exOps : PartOps (With ℚ Special.num) (Special ℚ) (OPartition (With ℚ Special.num) (Special ℚ))
    (With ℚ Special.num × Int × Int × Special ℚ × Special ℚ) := oOps exTable

/-- The theorems apply to it. -/
theorem exPartitioner : IsPartitioner exOps ∧ FloatLaws (Reading (With ℚ (Special.num (K := ℚ))) With.val) ℚ 0 :=
  ⟨.ordered _ 3 _ exRep, withLaws (exactLaws ℚ) _⟩

/-- A search on it finds three partitions. -/
theorem exRun : (computeBestPartitions exOps false 20 ((1 / 10 : ℚ) : With ℚ Special.num) (1 / 4 : ℚ) (1 : ℚ) PState.empty).map
    (fun st => (st.pList.map With.val, st.partitions.map (fun e => e.2.parts.map (fun x => (x.start, x.end))))) =
    .ok ([1 / 4, 17 / 32, 5 / 8], [[(0, 0), (1, 1), (2, 2)], [(0, 0), (1, 2)], [(0, 2)]]) := by decide +kernel

end Lp.C67

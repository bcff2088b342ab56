import Verif.Model.BestCount
import Verif.Proofs.Path
import Mathlib.Algebra.BigOperators.Intervals
import Mathlib.Algebra.Order.BigOperators.Group.Finset
import Mathlib.Tactic.Ring
import Mathlib.Tactic.Linarith

/-!
# How many comparisons one best partition makes
-/

namespace Lp
variable {F K σ τ : Type}

/-- The result with a counter. -/
def withCount (r : Res σ) (k : Nat) : Res (σ × Nat) := r.map (·, k)

@[simp] theorem withCount_ok (s : σ) (k : Nat) : withCount (.ok s : Res σ) k = .ok (s, k) := rfl
@[simp] theorem withCount_err (e : Fault) (k : Nat) : withCount (.error e : Res σ) k = .error e := rfl

theorem withCount_bind (r : Res σ) (f : σ → Res τ) (k m : Nat) :
    (withCount r k >>= fun s => withCount (f s.1) (s.2 + m)) = withCount (r >>= f) (k + m) := by
  cases r <;> rfl

theorem forUpAux_count {f : Nat → σ → Res σ} {g : Nat → σ × Nat → Res (σ × Nat)} {w : Nat → Nat} :
    ∀ (n i : Nat) (s : σ) (k : Nat),
      (∀ c s k, i ≤ c → c < i + n → g c (s, k) = withCount (f c s) (k + w c)) →
      forUpAux g n i (s, k) = withCount (forUpAux f n i s) (k + ∑ c ∈ Finset.Ico i (i + n), w c) := by
  intro n
  induction n with
  | zero => intro i s k _; simp [forUpAux]
  | succ n ih =>
    intro i s k h
    unfold forUpAux
    rw [h i s k (Nat.le_refl _) (by omega)]
    cases e : f i s with
    | error x => rfl
    | ok s' =>
      simp only [withCount_ok]
      rw [ih (i + 1) s' _ (fun c s k h1 h2 => h c s k (by omega) (by omega))]
      congr 1
      rw [Finset.sum_eq_sum_Ico_succ_bot (show i < i + (n + 1) by omega), add_assoc]
      congr 2
      rw [show i + 1 + n = i + (n + 1) by omega]

theorem forUp_count {f : Nat → σ → Res σ} {g : Nat → σ × Nat → Res (σ × Nat)} {w : Nat → Nat} {lo hi : Nat}
    (s : σ) (k : Nat) (h : ∀ c s k, lo ≤ c → c < hi → g c (s, k) = withCount (f c s) (k + w c)) :
    forUp lo hi g (s, k) = withCount (forUp lo hi f s) (k + ∑ c ∈ Finset.Ico lo hi, w c) := by
  unfold forUp
  rw [forUpAux_count (hi - lo) lo s k (fun c s k h1 h2 => h c s k h1 (by omega))]
  by_cases e : lo ≤ hi
  · rw [Nat.add_sub_cancel' e]
  · rw [show hi - lo = 0 by omega, Finset.Ico_eq_empty (by omega), Finset.Ico_eq_empty (by omega)]

theorem forDown_count {f : Nat → σ → Res σ} {g : Nat → σ × Nat → Res (σ × Nat)} {w : Nat → Nat} :
    ∀ (n : Nat) (s : σ) (k : Nat), (∀ c s k, c < n → g c (s, k) = withCount (f c s) (k + w c)) →
      forDown n g (s, k) = withCount (forDown n f s) (k + ∑ c ∈ Finset.range n, w c) := by
  intro n
  induction n with
  | zero => intro s k _; simp [forDown]
  | succ n ih =>
    intro s k h
    unfold forDown
    rw [h n s k (by omega)]
    cases e : f n s with
    | error x => rfl
    | ok s' =>
      simp only [withCount_ok]
      rw [ih s' _ (fun c s k h1 => h c s k (by omega)), Finset.sum_range_succ]
      congr 1
      omega

variable [LD K] [FloatP F K]

/-! ## Ordered -/

theorem obCut_count (q : UTM (Quality K)) (p : F) (i c : Nat) (s : OBest K) (k : Nat) :
    obCutC q p i c (s, k) = withCount (obCut q p i c s) (k + 1) := by
  unfold obCutC obCut
  cases q.get i c <;> simp only [okBind, errBind, withCount_err]
  cases vget s.tr (c + 1) <;> simp only [okBind, errBind, withCount_err]
  cases vget s.tr i <;> simp only [okBind, errBind, withCount_err]
  split
  · cases vset s.cut i (c : Int) <;> simp only [okBind, errBind, withCount_err]
    cases vset s.tr i _ <;> simp only [okBind, errBind, withCount_err, withCount_ok, pureOk]
  · rfl

theorem obRow_count (q : UTM (Quality K)) (p : F) (i : Nat) (s : OBest K) (k : Nat) :
    obRowC q p i (s, k) = withCount (obRow q p i s) (k + (q.size - 1 - i)) := by
  unfold obRowC obRow
  cases q.get i (q.size - 1) <;> simp only [okBind, errBind, withCount_err]
  cases vset s.tr i _ <;> simp only [okBind, errBind, withCount_err]
  rw [forUp_count (w := fun _ => 1) _ _ (fun c s k _ _ => obCut_count q p i c s k)]
  simp

theorem sum_below (n : Nat) : ∑ i ∈ Finset.range n, (n - 1 - i) = n * (n - 1) / 2 := by
  rw [Finset.sum_range_reflect (fun i => i) n, Finset.sum_range_id]

theorem oBest_count (q : UTM (Quality K)) (p : F) :
    oBestPartitionC q p = withCount (oBestPartition q p) (q.size * (q.size - 1) / 2) := by
  unfold oBestPartitionC oBestPartition obLoop
  rw [forDown_count (w := fun i => q.size - 1 - i) q.size _ 0 (fun c s k _ => obRow_count q p c s k), sum_below, zero_add]
  cases forDown q.size (fun i s => obRow q p i s) _ <;> simp only [okBind, errBind, withCount_err, withCount_ok]
  cases mkOPartition _ q p <;> rfl

/-! ## Hierarchical -/

theorem hbChoose_count (h : Nat) (s : HBest K) (k : Nat) :
    hbChooseC h (s, k) = withCount (hbChoose h s) (k + 1) := by
  unfold hbChooseC hbChoose
  cases vget s.tr h <;> simp only [okBind, errBind, withCount_err]
  cases vget s.ch h <;> simp only [okBind, errBind, withCount_err]
  split
  · cases vset s.agg h false <;> simp only [okBind, errBind, withCount_err]
    cases vset s.tr h _ <;> simp only [okBind, errBind, withCount_err, withCount_ok, pureOk]
  · rfl

theorem hbLeaf_count (q : List (Quality K)) (p : F) (md : HMeta) (i : Nat) (s : HBest K) (k : Nat) :
    hbLeafC q p md i (s, k) = withCount (hbLeaf q p md i s) (k + 0) := by
  unfold hbLeafC hbLeaf
  cases vget md.path i <;> simp only [okBind, errBind, withCount_err]
  rename_i h
  cases hbSet q p h s <;> simp only [okBind, errBind, withCount_err]
  rename_i t
  cases hbPush md h t <;> rfl

theorem hbInner_count (q : List (Quality K)) (p : F) (md : HMeta) (i : Nat) (s : HBest K) (k : Nat) :
    hbInnerC q p md i (s, k) = withCount (hbInner q p md i s) (k + 1) := by
  unfold hbInnerC hbInner
  cases vget md.path i <;> simp only [okBind, errBind, withCount_err]
  rename_i h
  cases hbSet q p h s <;> simp only [okBind, errBind, withCount_err]
  rename_i t
  rw [hbChoose_count]
  cases hbChoose h t <;> simp only [okBind, errBind, withCount_err, withCount_ok]
  rename_i t
  cases hbPush md h t <;> rfl

theorem hBest_count (q : List (Quality K)) (md : HMeta) (p : F) :
    hBestPartitionC q md p = withCount (hBestPartition q md p) (md.hsize - 1 - md.leaveSize + 1) := by
  unfold hBestPartitionC hBestPartition hbLoop
  dsimp only
  rw [forUp_count (w := fun _ => 0) _ _ (fun c s k _ _ => hbLeaf_count q p md c s k)]
  cases forUp 0 md.leaveSize (fun i s => hbLeaf q p md i s) _ <;> simp only [okBind, errBind, withCount_err, withCount_ok]
  cases vget md.path md.leaveSize <;> simp only [okBind, errBind, withCount_err]
  rw [forUp_count (w := fun _ => 1) _ _ (fun c s k _ _ => hbInner_count q p md c s k)]
  cases forUp md.leaveSize (md.hsize - 1) (fun i s => hbInner q p md i s) _ <;>
    simp only [okBind, errBind, withCount_err, withCount_ok]
  cases vget md.path (max md.leaveSize (md.hsize - 1)) <;> simp only [okBind, errBind, withCount_err]
  rename_i t h
  cases hbSet q p h t <;> simp only [okBind, errBind, withCount_err]
  rename_i t
  rw [hbChoose_count]
  cases hbChoose h t <;> simp only [okBind, errBind, withCount_err, withCount_ok]
  cases mkHPartition _ q p md <;> simp [withCount, Except.map]

/-! ## Spatiotemporal -/

theorem dbCut_count (q : List (UTM (Quality K))) (p : F) (h i j c : Nat) (s : DBest K) (k : Nat) :
    dbCutC q p h i j c (s, k) = withCount (dbCut q p h i j c s) (k + 1) := by
  unfold dbCutC dbCut
  cases mget q h i c <;> simp only [okBind, errBind, withCount_err]
  cases mset s.tr h i c _ <;> simp only [okBind, errBind, withCount_err]
  cases mget _ h i c <;> simp only [okBind, errBind, withCount_err]
  cases mget _ h (c + 1) j <;> simp only [okBind, errBind, withCount_err]
  cases mget _ h i j <;> simp only [okBind, errBind, withCount_err]
  split
  · cases mset s.cuts h i j (c : Int) <;> simp only [okBind, errBind, withCount_err]
    cases mset _ h i j _ <;> simp only [okBind, errBind, withCount_err, withCount_ok, pureOk]
  · rfl

/-- Comparisons at one cell of the node at position `k` of the path. -/
def cellCount (leaves k i j : Nat) : Nat := (if leaves ≤ k then 1 else 0) + (j - i)

theorem dbCell_count (q : List (UTM (Quality K))) (p : F) (md : HMeta) (m h i j : Nat) (s : DBest K) (k : Nat) :
    dbCellC q p md m h i j (s, k) = withCount (dbCell q p md m h i j s) (k + cellCount md.leaveSize m i j) := by
  unfold dbCellC dbCell cellCount
  cases mset s.cuts h i j (j : Int) <;> simp only [okBind, errBind, withCount_err]
  cases mget q h i j <;> simp only [okBind, errBind, withCount_err]
  cases mset s.tr h i j _ <;> simp only [okBind, errBind, withCount_err]
  have tail : ∀ (t : DBest K) (n : Nat), (do
      let s ← forUp i j (fun c s => dbCutC q p h i j c s) (t, n)
      if m < md.hsize - 1 then do
        let pa ← md.parentOf h
        let a ← mget s.1.ch pa i j
        let t ← mget s.1.tr h i j
        let ch ← mset s.1.ch pa i j (a.add t)
        return ((⟨s.1.cuts, s.1.tr, ch⟩ : DBest K), s.2)
      else return s) = withCount (do
      let s ← forUp i j (fun c s => dbCut q p h i j c s) t
      if m < md.hsize - 1 then do
        let pa ← md.parentOf h
        let a ← mget s.ch pa i j
        let t ← mget s.tr h i j
        let ch ← mset s.ch pa i j (a.add t)
        return (⟨s.cuts, s.tr, ch⟩ : DBest K)
      else return s) (n + (j - i)) := by
    intro t n
    rw [forUp_count (w := fun _ => 1) _ _ (fun c s k _ _ => dbCut_count q p h i j c s k),
      show ∑ c ∈ Finset.Ico i j, 1 = j - i by simp]
    cases forUp i j (fun c s => dbCut q p h i j c s) t <;> simp only [okBind, errBind, withCount_err, withCount_ok]
    split
    · cases md.parentOf h <;> simp only [okBind, errBind, withCount_err]
      cases mget _ _ i j <;> simp only [okBind, errBind, withCount_err]
      cases mget _ h i j <;> simp only [okBind, errBind, withCount_err]
      cases mset _ _ i j _ <;> rfl
    · rfl
  by_cases e : md.leaveSize ≤ m
  · simp only [if_pos e]
    cases mget s.ch h i j <;> simp only [okBind, errBind, withCount_err]
    cases mget _ h i j <;> simp only [okBind, errBind, withCount_err]
    split
    · cases mset _ h i j (-1 : Int) <;> simp only [okBind, errBind, withCount_err]
      cases mset _ h i j _ <;> simp only [okBind, errBind, withCount_err, pureOk]
      exact (tail _ _).trans (by rw [add_assoc]; rfl)
    · simp only [pureOk, okBind]
      exact (tail _ _).trans (by rw [add_assoc]; rfl)
  · simp only [if_neg e, pureOk, okBind, zero_add]
    exact tail _ _

/-- Comparisons at one node: one for each cell of an inner node, and one for each cut of each cell. -/
theorem dbNode_count (q : List (UTM (Quality K))) (p : F) (md : HMeta) (n m h : Nat) (s : DBest K) (k : Nat) :
    dbNodeC q p md n m h (s, k) = withCount (dbNode q p md n m h s)
      (k + ∑ i ∈ Finset.range n, ∑ j ∈ Finset.Ico i n, cellCount md.leaveSize m i j) := by
  unfold dbNodeC dbNode
  exact forDown_count n s k (fun i s k _ => forUp_count s k (fun j s k _ _ => dbCell_count q p md m h i j s k))

theorem cells_sum (n : Nat) : ∑ i ∈ Finset.range n, ∑ _j ∈ Finset.Ico i n, 1 = n * (n + 1) / 2 := by
  simp only [Finset.sum_const, Nat.card_Ico, smul_eq_mul, mul_one]
  have := Finset.sum_range_id_mul_two (n + 1)
  have e : ∑ i ∈ Finset.range n, (n - i) = ∑ i ∈ Finset.range (n + 1), i := by
    rw [← Finset.sum_range_reflect (fun i => i) (n + 1), Finset.sum_range_succ]
    simp
  rw [e]
  have e2 : (n + 1) * (n + 1 - 1) = n * (n + 1) := by rw [Nat.add_sub_cancel, mul_comm]
  rw [e2] at this
  omega

/-- Six times the number of triples `i ≤ c < j`. -/
theorem cuts_sum6 (n : Nat) : 6 * ∑ i ∈ Finset.range n, ∑ j ∈ Finset.Ico i n, (j - i) + n = n ^ 3 := by
  induction n with
  | zero => simp
  | succ n ih =>
    rw [Finset.sum_range_succ]
    have e : ∀ i ∈ Finset.range n, ∑ j ∈ Finset.Ico i (n + 1), (j - i) = ∑ j ∈ Finset.Ico i n, (j - i) + (n - i) := by
      intro i hi
      rw [Finset.sum_Ico_succ_top (by have := Finset.mem_range.mp hi; omega)]
    rw [Finset.sum_congr rfl e, Finset.sum_add_distrib]
    have e1 : ∑ j ∈ Finset.Ico n (n + 1), (j - n) = 0 := by simp
    rw [e1]
    have := cells_sum n
    simp only [Finset.sum_const, Nat.card_Ico, smul_eq_mul, mul_one] at this
    have h2 : 2 * ∑ i ∈ Finset.range n, (n - i) = n * (n + 1) := by
      rw [this]
      exact Nat.mul_div_cancel' (Nat.even_mul_succ_self n).two_dvd
    have : (n + 1) ^ 3 = n ^ 3 + 3 * (n * (n + 1)) + 1 := by ring
    rw [this]
    omega

/-- Comparisons at one node. -/
def nodeCount (leaves n m : Nat) : Nat := (n ^ 3 - n) / 6 + (if leaves ≤ m then n * (n + 1) / 2 else 0)

theorem node_sum (leaves n m : Nat) :
    ∑ i ∈ Finset.range n, ∑ j ∈ Finset.Ico i n, cellCount leaves m i j = nodeCount leaves n m := by
  unfold cellCount nodeCount
  simp only [Finset.sum_add_distrib]
  have h1 := cuts_sum6 n
  have h2 := cells_sum n
  split
  · rw [h2]; omega
  · simp only [Finset.sum_const_zero]; omega

theorem dbPath_count {leaves : Nat} {parents : List Int} {md : HMeta} (r : Spec.RightMeta leaves parents md)
    (q : List (UTM (Quality K))) (p : F) (n : Nat) :
    ∀ (cnt m : Nat) (s : DBest K) (k : Nat), m + cnt = parents.length → 0 < cnt →
      dbPathC q p md n cnt m (s, k) = withCount (dbPath q p md n cnt m s)
        (k + ∑ c ∈ Finset.Ico m parents.length, nodeCount md.leaveSize n c) := by
  intro cnt
  induction cnt with
  | zero => intro m s k _ h; omega
  | succ cnt ih =>
    intro m s k hm _
    obtain ⟨h, hh, _⟩ := r.at_ (show m < parents.length by omega)
    unfold dbPathC dbPath
    rw [vget_eq_ok.mpr hh]
    simp only [okBind]
    rw [dbNode_count, node_sum, Finset.sum_eq_sum_Ico_succ_bot (show m < parents.length by omega), ← add_assoc]
    cases e : dbNode q p md n m h s with
    | error x => rfl
    | ok s' =>
      simp only [withCount_ok, okBind]
      by_cases er : h = md.root
      · rw [if_pos er, if_pos er]
        have : m = parents.length - 1 := r.inj (by rw [hh, er]) r.last
        rw [Finset.Ico_eq_empty (by omega)]
        simp
      · rw [if_neg er, if_neg er]
        have : m ≠ parents.length - 1 := by
          intro e
          apply er
          have := r.last
          rw [← e, hh] at this
          exact Option.some.inj this
        exact ih (m + 1) s' _ (by omega) (by omega)

theorem nodes_sum (leaves n len : Nat) (h : leaves ≤ len) :
    ∑ c ∈ Finset.Ico 0 len, nodeCount leaves n c = len * ((n ^ 3 - n) / 6) + (len - leaves) * (n * (n + 1) / 2) := by
  unfold nodeCount
  rw [Finset.sum_add_distrib, Finset.sum_const, Nat.card_Ico, smul_eq_mul, Nat.sub_zero]
  congr 1
  rw [← Finset.sum_filter, Finset.sum_const, smul_eq_mul]
  congr 1
  have : (Finset.Ico 0 len).filter (fun c => leaves ≤ c) = Finset.Ico leaves len := by
    ext c
    simp only [Finset.mem_filter, Finset.mem_Ico]
    omega
  rw [this, Nat.card_Ico]

theorem dBest_count {leaves : Nat} {parents : List Int} {md : HMeta} (r : Spec.RightMeta leaves parents md)
    (q : List (UTM (Quality K))) (q0 : UTM (Quality K)) (h0 : q[0]? = some q0) (p : F) :
    dBestPartitionC q md p = withCount (dBestPartition q md p)
      (parents.length * ((q0.size ^ 3 - q0.size) / 6) + (parents.length - leaves) * (q0.size * (q0.size + 1) / 2)) := by
  have hpos : 0 < parents.length := by have := r.tree.rootLt; omega
  unfold dBestPartitionC dBestPartition dbLoop
  rw [vget_eq_ok.mpr h0]
  simp only [okBind]
  rw [r.hsize, dbPath_count r q p q0.size parents.length 0 _ 0 (by omega) hpos, r.leaveSize,
    nodes_sum leaves q0.size parents.length r.tree.leavesLe, zero_add]
  cases dbPath q p md q0.size parents.length 0 _ <;> simp only [okBind, errBind, withCount_err, withCount_ok]
  cases mkDPartition _ q p md <;> rfl

end Lp

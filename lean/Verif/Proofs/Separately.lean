import Verif.Proofs.SilentO
import Verif.Proofs.Series
import Verif.Proofs.Nested
import Verif.Proofs.CoarseFirst

/-!
# The series analysed together and one by one
-/

namespace Lp
open Spec
open scoped BigOperators
variable {A ι : Type} {m : Nat} {V : Nat → ι → ℝ} {cells : A → Finset ι} {L M : List A} {a b : ℝ}

/-- The qualities of series `k` alone. -/
noncomputable def oneQ (V : Nat → ι → ℝ) (cells : A → Finset ι) (k : Nat) (x : A) : Quality ℝ := anyQ 1 (fun _ => V k) (cells x)

theorem gainOf_series (L : List A) :
    gainOf (fun x => anyQ m V (cells x)) L = ∑ k ∈ Finset.range m, gainOf (oneQ V cells k) L ∧
    lossOf (fun x => anyQ m V (cells x)) L = ∑ k ∈ Finset.range m, lossOf (oneQ V cells k) L := by
  induction L with
  | nil => simp
  | cons x L ih =>
    simp only [gainOf_cons, lossOf_cons, Finset.sum_add_distrib]
    rw [ih.1, ih.2]
    simp only [oneQ, anyQ, Finset.sum_range_one, and_self]

theorem valueOf_series (L : List A) :
    valueOf a b (fun x => anyQ m V (cells x)) L = ∑ k ∈ Finset.range m, valueOf a b (oneQ V cells k) L := by
  unfold valueOf
  rw [(gainOf_series L).1, (gainOf_series L).2, Finset.sum_sub_distrib, ← Finset.mul_sum, ← Finset.mul_sum]

/-- A partition that is best for every series ties with the best one for all. -/
theorem series_tie (h : ∀ k < m, LexLe a b (oneQ V cells k) M L) (h' : LexLe a b (fun x => anyQ m V (cells x)) L M) :
    ∀ k < m, gainOf (oneQ V cells k) M = gainOf (oneQ V cells k) L ∧ lossOf (oneQ V cells k) M = lossOf (oneQ V cells k) L := by
  have hv := h'.value
  rw [valueOf_series, valueOf_series] at hv
  have le : ∀ k ∈ Finset.range m, valueOf a b (oneQ V cells k) M ≤ valueOf a b (oneQ V cells k) L :=
    fun k hk => (h k (Finset.mem_range.mp hk)).value
  have ev := (Finset.sum_eq_sum_iff_of_le le).mp (le_antisymm (Finset.sum_le_sum le) hv)
  have rest : ∀ k ∈ Finset.range m, gainOf (oneQ V cells k) M < gainOf (oneQ V cells k) L ∨
      gainOf (oneQ V cells k) M = gainOf (oneQ V cells k) L ∧ lossOf (oneQ V cells k) L ≤ lossOf (oneQ V cells k) M := by
    intro k hk
    rcases h k (Finset.mem_range.mp hk) with x | x
    · exact absurd (ev k hk) x.ne
    · exact x.2
  have le2 : ∀ k ∈ Finset.range m, gainOf (oneQ V cells k) M ≤ gainOf (oneQ V cells k) L := by
    intro k hk
    rcases rest k hk with x | x
    · exact x.le
    · exact x.1.le
  have hs : ∑ k ∈ Finset.range m, valueOf a b (oneQ V cells k) L = ∑ k ∈ Finset.range m, valueOf a b (oneQ V cells k) M :=
    Finset.sum_congr rfl (fun k hk => (ev k hk).symm)
  unfold LexLe at h'
  rw [valueOf_series, valueOf_series, (gainOf_series L).1, (gainOf_series L).2, (gainOf_series M).1, (gainOf_series M).2] at h'
  have h2 := (h'.resolve_left (by rw [hs]; exact lt_irrefl _)).2
  have eg := (Finset.sum_eq_sum_iff_of_le le2).mp (le_antisymm (Finset.sum_le_sum le2) (by rcases h2 with x | x; exacts [x.le, x.1.le]))
  have le3 : ∀ k ∈ Finset.range m, lossOf (oneQ V cells k) L ≤ lossOf (oneQ V cells k) M := by
    intro k hk
    rcases rest k hk with x | x
    · exact absurd (eg k hk) x.ne
    · exact x.2
  have hl : ∑ k ∈ Finset.range m, lossOf (oneQ V cells k) M ≤ ∑ k ∈ Finset.range m, lossOf (oneQ V cells k) L := by
    rcases h2 with x | x
    · exact absurd (Finset.sum_congr rfl eg) x.ne'
    · exact x.2
  have el := (Finset.sum_eq_sum_iff_of_le le3).mp (le_antisymm (Finset.sum_le_sum le3) hl)
  exact fun k hk => ⟨eg k (Finset.mem_range.mpr hk), (el k (Finset.mem_range.mpr hk)).symm⟩

theorem series_tie_sum (h : ∀ k < m, gainOf (oneQ V cells k) M = gainOf (oneQ V cells k) L ∧ lossOf (oneQ V cells k) M = lossOf (oneQ V cells k) L) :
    gainOf (fun x => anyQ m V (cells x)) M = gainOf (fun x => anyQ m V (cells x)) L ∧
    lossOf (fun x => anyQ m V (cells x)) M = lossOf (fun x => anyQ m V (cells x)) L := by
  rw [(gainOf_series L).1, (gainOf_series L).2, (gainOf_series M).1, (gainOf_series M).2]
  exact ⟨Finset.sum_congr rfl (fun k hk => (h k (Finset.mem_range.mp hk)).1),
    Finset.sum_congr rfl (fun k hk => (h k (Finset.mem_range.mp hk)).2)⟩

/-- Ordered: the partition that is best for every series alone is the best for all. -/
theorem OTop.agree {n : Nat} (hm : 0 < m) {V : Nat → Nat → ℝ} {L M : List (Nat × Nat)}
    (h : ∀ k < m, OTop a b n (oneQ V oCells k) L) (h' : OTop a b n (fun x => anyQ m V (oCells x)) M) : M = L := by
  have t := series_tie (fun k hk => (h k hk).best M h'.tiles) (h'.best L (h 0 hm).tiles)
  have s := series_tie_sum t
  rcases (h 0 hm).first M h'.tiles (t 0 hm).1 (t 0 hm).2 with x | x
  · exact x.symm
  rcases h'.first L (h 0 hm).tiles s.1.symm s.2.symm with y | y
  · exact y
  exact absurd x y.asymm

/-- The same over the solutions of a recursion. -/
theorem LexFirst.agree {σ : Type} (hm : 0 < m) {decs : Decs σ A} {st : List σ} {ds' : List Nat} {ds : Nat → List Nat}
    (h : ∀ k < m, LexFirst (Sol decs st) a b (oneQ V cells k) (ds k) L)
    (h' : LexFirst (Sol decs st) a b (fun x => anyQ m V (cells x)) ds' M) : M = L := by
  have t := series_tie (fun k hk => (h k hk).best ds' M h'.mem) (h'.best _ L (h 0 hm).mem)
  have s := series_tie_sum t
  have e : ds 0 = ds' := by
    rcases (h 0 hm).first ds' M h'.mem (t 0 hm).1 (t 0 hm).2 with x | x
    · exact x
    rcases h'.first _ L (h 0 hm).mem s.1.symm s.2.symm with y | y
    · exact y.symm
    exact absurd x y.asymm
  exact h'.mem.unique (e ▸ (h 0 hm).mem)

/-- The same for the first solution of the best value. -/
theorem ValFirst.agree {σ : Type} (hm : 0 < m) {decs : Decs σ A} {st : List σ} {ds' : List Nat} {ds : Nat → List Nat}
    (h : ∀ k < m, ValFirst (Sol decs st) a b (oneQ V cells k) (ds k) L)
    (h' : ValFirst (Sol decs st) a b (fun x => anyQ m V (cells x)) ds' M) : M = L := by
  have hv := h'.best _ L (h 0 hm).mem
  rw [valueOf_series, valueOf_series] at hv
  have le : ∀ k ∈ Finset.range m, valueOf a b (oneQ V cells k) M ≤ valueOf a b (oneQ V cells k) L :=
    fun k hk => (h k (Finset.mem_range.mp hk)).best ds' M h'.mem
  have ev := (Finset.sum_eq_sum_iff_of_le le).mp (le_antisymm (Finset.sum_le_sum le) hv)
  have e : ds 0 = ds' := by
    rcases (h 0 hm).first ds' M h'.mem (ev 0 (Finset.mem_range.mpr hm)) with x | x
    · exact x
    rcases h'.first _ L (h 0 hm).mem (by
      rw [valueOf_series, valueOf_series]; exact Finset.sum_congr rfl (fun k hk => (ev k hk).symm)) with y | y
    · exact y.symm
    exact absurd x y.asymm
  exact h'.mem.unique (e ▸ (h 0 hm).mem)

/-- A node that is a part for every series alone is not cut when they are analysed together. -/
theorem series_part {leaves : Nat} {parents : List Int} {root x : Nat} (t : IsTree leaves parents root) {V : Nat → Nat → ℝ}
    {L : Nat → List Nat} {M : List Nat} (hx : ∀ k < m, x ∈ L k) (hm : 0 < m) (hL : ∀ k < m, LeafCover leaves parents (L k))
    (hM : LeafCover leaves parents M)
    (h1 : ∀ k < m, ∀ N, LeafCover leaves parents N → valueOf a b (oneQ V (leavesUnder leaves parents) k) N ≤
      valueOf a b (oneQ V (leavesUnder leaves parents) k) (L k))
    (h2 : ∀ N, LeafCover leaves parents N → valueOf a b (fun h => anyQ m V (leavesUnder leaves parents h)) N ≤
        valueOf a b (fun h => anyQ m V (leavesUnder leaves parents h)) M ∧
      (valueOf a b (fun h => anyQ m V (leavesUnder leaves parents h)) N =
        valueOf a b (fun h => anyQ m V (leavesUnder leaves parents h)) M → Refines parents N M)) :
    ∃ y ∈ M, Under parents y x := by
  classical
  by_contra hno
  push Not at hno
  have hxl := (hL 0 hm).1 x (hx 0 hm)
  obtain ⟨y, hy, hxy, hne⟩ := below_cover t hM hxl hno
  obtain ⟨hM', _⟩ := merge_cover t hM hxl hy hxy hne
  obtain ⟨S, hS⟩ : ∃ S, S = M.filter (fun y => Under parents x y) := ⟨_, rfl⟩
  obtain ⟨R, hR⟩ : ∃ R, R = M.filter (fun y => ¬ Under parents x y) := ⟨_, rfl⟩
  rw [← hR] at hM'
  have hperm : (S ++ R).Perm M := by
    rw [hS, hR]
    have := List.filter_append_perm (fun y => decide (Under parents x y)) M
    simpa using this
  have each : ∀ k < m, valueOf a b (oneQ V (leavesUnder leaves parents) k) S ≤ valueOf a b (oneQ V (leavesUnder leaves parents) k) [x] := by
    intro k hk
    have hN := split_cover (hL k hk) hM (hx k hk) hno
    rw [← hS] at hN
    have e1 := h1 k hk _ hN
    rw [valueOf_append, valueOf_permK (List.perm_cons_erase (hx k hk)), ← List.singleton_append, valueOf_append] at e1
    linarith
  have all : valueOf a b (fun h => anyQ m V (leavesUnder leaves parents h)) S ≤
      valueOf a b (fun h => anyQ m V (leavesUnder leaves parents h)) [x] := by
    rw [valueOf_series, valueOf_series]
    exact Finset.sum_le_sum (fun k hk => each k (Finset.mem_range.mp hk))
  have hge : valueOf a b (fun h => anyQ m V (leavesUnder leaves parents h)) M ≤
      valueOf a b (fun h => anyQ m V (leavesUnder leaves parents h)) (x :: R) := by
    rw [← valueOf_permK hperm, valueOf_append, ← List.singleton_append, valueOf_append]
    linarith
  obtain ⟨z, hz, hzx⟩ := (h2 _ hM').2 (le_antisymm (h2 _ hM').1 hge) x (by simp)
  exact hno z hz hzx

end Lp

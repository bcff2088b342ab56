import Verif.Spec.Sheet
import Verif.Spec.Table
import Mathlib.Algebra.BigOperators.Intervals
import Mathlib.Algebra.BigOperators.Ring.Finset

/-!
# The conversions of the R binding
-/

namespace Lp
open Spec
variable {K : Type}

theorem range_flatMap_get {α : Type} {m : Nat} {g : Nat → List α} (hg : ∀ k, (g k).length = m) :
    ∀ n k x : Nat, k < n → x < m → ((List.range n).flatMap g)[x + k * m]? = (g k)[x]? := by
  intro n
  have hlen : ∀ n, ((List.range n).flatMap g).length = n * m := by
    intro n
    induction n with
    | zero => simp
    | succ n ih => rw [List.range_succ, List.flatMap_append, List.length_append, ih]; simp [hg, Nat.succ_mul]
  induction n with
  | zero => intro k x hk; omega
  | succ n ih =>
    intro k x hk hx
    rw [List.range_succ, List.flatMap_append]
    by_cases h : k = n
    · subst h
      rw [List.getElem?_append_right (by rw [hlen]; omega), hlen]
      simp
    · have hk' : k < n := by omega
      rw [List.getElem?_append_left, ih k x hk' hx]
      rw [hlen]
      calc x + k * m < m + k * m := by omega
        _ = (k + 1) * m := by rw [Nat.succ_mul, Nat.add_comm]
        _ ≤ n * m := Nat.mul_le_mul_right _ hk'

theorem length_range_flatMap {α : Type} {m : Nat} {g : Nat → List α} (hg : ∀ k, (g k).length = m) (n : Nat) :
    ((List.range n).flatMap g).length = n * m := by
  induction n with
  | zero => simp
  | succ n ih => rw [List.range_succ, List.flatMap_append, List.length_append, ih]; simp [hg, Nat.succ_mul]

theorem cube_rArray {d0 d1 d2 : Nat} (f : Nat × Nat × Nat → K) {i j k : Nat} (hi : i < d0) (hj : j < d1) (hk : k < d2) :
    (rArray d0 d1 d2 f).cube i j k = .ok (f (i, j, k)) := by
  unfold RArray.cube rArray
  dsimp only
  rw [vget_eq_ok]
  have h1 : ∀ j k, ((List.range d0).map fun i => f (i, j, k)).length = d0 := by intro j k; simp
  have h2 : ∀ k, ((List.range d1).flatMap fun j => (List.range d0).map fun i => f (i, j, k)).length = d0 * d1 := by
    intro k; rw [length_range_flatMap (fun j => h1 j k), Nat.mul_comm]
  have hb : i + j * d0 < d0 * d1 := by
    calc i + j * d0 < d0 + j * d0 := by omega
      _ = (j + 1) * d0 := by rw [Nat.succ_mul, Nat.add_comm]
      _ ≤ d1 * d0 := Nat.mul_le_mul_right _ hj
      _ = d0 * d1 := Nat.mul_comm _ _
  rw [range_flatMap_get h2 d2 k _ hk hb, range_flatMap_get (fun j => h1 j k) d1 j i hj hi]
  simp [hi]

theorem vget_snoc {α : Type} {A : List α} {x : α} {i : Nat} (h : A.length = i) : vget (A ++ [x]) i = .ok x := by
  rw [vget_eq_ok]; subst h; simp

theorem vset_snoc {α : Type} {A : List α} {x y : α} {i : Nat} (h : A.length = i) : vset (A ++ [x]) i y = .ok (A ++ [y]) := by
  subst h
  rw [vset_ok (by simp)]
  simp

theorem table1_succ {α : Type} (n : Nat) (f : Nat → α) : table1 (n + 1) f = table1 n f ++ [f n] := by
  unfold table1; rw [List.range_succ]; simp

theorem table2_succ {α : Type} (a b : Nat) (f : Nat × Nat → α) :
    table2 (a + 1) b f = table2 a b f ++ [table1 b fun y => f (a, y)] := by
  unfold table2; rw [List.range_succ]; simp

theorem table3_succ {α : Type} (a b c : Nat) (f : Nat × Nat × Nat → α) :
    table3 (a + 1) b c f = table3 a b c f ++ [table2 b c fun y => f (a, y)] := by
  unfold table3; rw [List.range_succ]; simp

theorem length_table1 {α : Type} (n : Nat) (f : Nat → α) : (table1 n f).length = n := by simp [table1]
theorem length_table2 {α : Type} (a b : Nat) (f : Nat × Nat → α) : (table2 a b f).length = a := by simp [table2]
theorem length_table3 {α : Type} (a b c : Nat) (f : Nat × Nat × Nat → α) : (table3 a b c f).length = a := by simp [table3]

theorem convertToMicroModel_rArray (d0 d1 d2 : Nat) (f : Nat × Nat × Nat → K) :
    convertToMicroModel (rArray d0 d1 d2 f) = .ok (table3 d0 d1 d2 f) := by
  unfold convertToMicroModel
  have e : ∀ (a : RArray K), a = rArray d0 d1 d2 f → a.d0 = d0 ∧ a.d1 = d1 ∧ a.d2 = d2 := by rintro a rfl; exact ⟨rfl, rfl, rfl⟩
  obtain ⟨e0, e1, e2⟩ := e _ rfl
  rw [e0, e1, e2]
  refine (fun H => ?_) (forUp_inv (lo := 0) (hi := d0) (s := ([] : V3 K)) (f := fun i mm =>
    forUp 0 d1 (fun j mm => do
      let row ← vget mm i
      let mm ← vset mm i (row ++ [[]])
      forUp 0 d2 (fun k mm => do
        let row ← vget mm i
        let cell ← vget row j
        let x ← (rArray d0 d1 d2 f).cube i j k
        let row ← vset row j (cell ++ [x])
        vset mm i row) mm) (mm ++ [[]])) (fun i mm => mm = table3 i d1 d2 f) (Nat.zero_le _) rfl ?_)
  · obtain ⟨s, h1, rfl⟩ := H
    exact h1
  intro i mm _ hi rfl
  have hlen := length_table3 i d1 d2 f
  obtain ⟨s, h1, rfl⟩ := forUp_inv (lo := 0) (hi := d1) (s := table3 i d1 d2 f ++ [[]]) (f := fun j mm => do
      let row ← vget mm i
      let mm ← vset mm i (row ++ [[]])
      forUp 0 d2 (fun k mm => do
        let row ← vget mm i
        let cell ← vget row j
        let x ← (rArray d0 d1 d2 f).cube i j k
        let row ← vset row j (cell ++ [x])
        vset mm i row) mm) (fun j mm => mm = table3 i d1 d2 f ++ [table2 j d2 fun y => f (i, y)]) (Nat.zero_le _) rfl (by
    intro j mm _ hj rfl
    have hlj := length_table2 j d2 (fun y => f (i, y))
    rw [vget_snoc hlen]
    simp only [okBind]
    rw [vset_snoc hlen]
    simp only [okBind]
    obtain ⟨s, h1, rfl⟩ := forUp_inv (lo := 0) (hi := d2) (s := table3 i d1 d2 f ++ [table2 j d2 (fun y => f (i, y)) ++ [[]]])
      (f := fun k mm => do
        let row ← vget mm i
        let cell ← vget row j
        let x ← (rArray d0 d1 d2 f).cube i j k
        let row ← vset row j (cell ++ [x])
        vset mm i row)
      (fun k mm => mm = table3 i d1 d2 f ++ [table2 j d2 (fun y => f (i, y)) ++ [table1 k fun o => f (i, j, o)]])
      (Nat.zero_le _) rfl (by
      intro k mm _ hk rfl
      refine ⟨_, ?_, rfl⟩
      rw [vget_snoc hlen]
      simp only [okBind]
      rw [vget_snoc hlj]
      simp only [okBind]
      rw [cube_rArray f hi hj hk]
      simp only [okBind]
      rw [vset_snoc hlj]
      simp only [okBind]
      rw [vset_snoc hlen, table1_succ])
    exact ⟨_, h1, by rw [table2_succ]⟩)
  exact ⟨_, h1, by rw [table3_succ]⟩

theorem convertToHierarchy_map (h : List Int) : convertToHierarchy h = h.map (· - 1) := by
  unfold convertToHierarchy
  suffices ∀ (l acc : List Int), l.foldl (fun acc x => acc ++ [x - 1]) acc = acc ++ l.map (· - 1) from by
    simpa using this h []
  intro l
  induction l with
  | nil => simp
  | cons x l ih => intro acc; simp [ih]

end Lp

import Verif.Spec.Table
import Verif.Model.Values
import Mathlib.Data.List.Range
import Mathlib.Data.Nat.ModEq

/-!
# Nested vectors: reading, writing, flat enumeration
-/

namespace Lp
open Spec
variable {α : Type}

theorem range_get {β : Type} {n i : Nat} (f : Nat → β) (h : i < n) : vget ((List.range n).map f) i = .ok (f i) := by
  rw [vget_eq_ok]; simp [h]

theorem range_set {β : Type} {n i : Nat} (f : Nat → β) (x : β) (h : i < n) :
    vset ((List.range n).map f) i x = .ok ((List.range n).map (Function.update f i x)) := by
  rw [vset_ok (by simpa using h)]
  congr 1
  apply List.ext_getElem
  · simp
  · intro k h1 h2
    rw [List.getElem_set]
    by_cases e : i = k
    · subst e; simp
    · simp [e, Function.update_of_ne (Ne.symm e)]

theorem table1_get {n i : Nat} (f : Nat → α) (h : i < n) : vget (table1 n f) i = .ok (f i) := range_get f h

theorem table1_set {n i : Nat} (f : Nat → α) (x : α) (h : i < n) :
    vset (table1 n f) i x = .ok (table1 n (Function.update f i x)) := range_set f x h

theorem table2_row {a b x : Nat} (f : Nat × Nat → α) (hx : x < a) :
    vget (table2 a b f) x = .ok (table1 b fun y => f (x, y)) := range_get _ hx

theorem table2_get {a b x y : Nat} (f : Nat × Nat → α) (hx : x < a) (hy : y < b) :
    get2 (table2 a b f) x y = .ok (f (x, y)) := by
  unfold get2; rw [table2_row f hx]; simp only [okBind]; exact table1_get _ hy

theorem update_pair {β γ δ : Type} [DecidableEq β] [DecidableEq γ] (f : β × γ → δ) (x : β) (y : γ) (v : δ) (x' : β) :
    (fun y' => Function.update f (x, y) v (x', y')) =
      if x' = x then Function.update (fun y' => f (x, y')) y v else fun y' => f (x', y') := by
  funext y'
  by_cases e : x' = x
  · subst e
    by_cases e' : y' = y
    · subst e'; simp
    · simp [Function.update_of_ne, e']
  · rw [if_neg e, Function.update_of_ne]
    simp [e]

theorem table2_set {a b x y : Nat} (f : Nat × Nat → α) (v : α) (hx : x < a) (hy : y < b) :
    set2 (table2 a b f) x y v = .ok (table2 a b (Function.update f (x, y) v)) := by
  unfold set2
  rw [table2_row f hx]
  simp only [okBind]
  rw [table1_set _ v hy]
  simp only [okBind]
  unfold table2
  rw [range_set _ _ hx]
  congr 2
  funext x'
  rw [update_pair]
  by_cases e : x' = x
  · subst e; simp
  · rw [Function.update_of_ne e, if_neg e]

theorem table3_row {a b c x : Nat} (f : Nat × Nat × Nat → α) (hx : x < a) :
    vget (table3 a b c f) x = .ok (table2 b c fun y => f (x, y)) := range_get _ hx

theorem table3_row2 {a b c x y : Nat} (f : Nat × Nat × Nat → α) (hx : x < a) (hy : y < b) :
    get2 (table3 a b c f) x y = .ok (table1 c fun z => f (x, y, z)) := by
  unfold get2; rw [table3_row f hx]; simp only [okBind]; exact table2_row _ hy

theorem table3_get {a b c x y z : Nat} (f : Nat × Nat × Nat → α) (hx : x < a) (hy : y < b) (hz : z < c) :
    get3 (table3 a b c f) x y z = .ok (f (x, y, z)) := by
  unfold get3; rw [table3_row2 f hx hy]; simp only [okBind]; exact table1_get _ hz

theorem table3_set {a b c x y z : Nat} (f : Nat × Nat × Nat → α) (v : α) (hx : x < a) (hy : y < b) (hz : z < c) :
    set3 (table3 a b c f) x y z v = .ok (table3 a b c (Function.update f (x, y, z) v)) := by
  unfold set3
  rw [table3_row f hx]
  simp only [okBind]
  rw [table2_set _ v hy hz]
  simp only [okBind]
  unfold table3
  rw [range_set _ _ hx]
  congr 2
  funext x'
  rw [update_pair]
  by_cases e : x' = x
  · subst e; simp
  · rw [Function.update_of_ne e, if_neg e]

theorem table4_row {a b c d x : Nat} (f : Nat × Nat × Nat × Nat → α) (hx : x < a) :
    vget (table4 a b c d f) x = .ok (table3 b c d fun y => f (x, y)) := range_get _ hx

theorem table4_row2 {a b c d x y : Nat} (f : Nat × Nat × Nat × Nat → α) (hx : x < a) (hy : y < b) :
    get2 (table4 a b c d f) x y = .ok (table2 c d fun z => f (x, y, z)) := by
  unfold get2; rw [table4_row f hx]; simp only [okBind]; exact table3_row _ hy

theorem table4_row3 {a b c d x y z : Nat} (f : Nat × Nat × Nat × Nat → α) (hx : x < a) (hy : y < b) (hz : z < c) :
    get3 (table4 a b c d f) x y z = .ok (table1 d fun u => f (x, y, z, u)) := by
  unfold get3; rw [table4_row2 f hx hy]; simp only [okBind]; exact table2_row _ hz

theorem table4_get {a b c d x y z u : Nat} (f : Nat × Nat × Nat × Nat → α) (hx : x < a) (hy : y < b) (hz : z < c)
    (hu : u < d) : get4 (table4 a b c d f) x y z u = .ok (f (x, y, z, u)) := by
  unfold get4; rw [table4_row3 f hx hy hz]; simp only [okBind]; exact table1_get _ hu

theorem table4_set {a b c d x y z u : Nat} (f : Nat × Nat × Nat × Nat → α) (v : α) (hx : x < a) (hy : y < b)
    (hz : z < c) (hu : u < d) :
    set4 (table4 a b c d f) x y z u v = .ok (table4 a b c d (Function.update f (x, y, z, u) v)) := by
  unfold set4
  rw [table4_row f hx]
  simp only [okBind]
  rw [table3_set _ v hy hz hu]
  simp only [okBind]
  unfold table4
  rw [range_set _ _ hx]
  congr 2
  funext x'
  rw [update_pair]
  by_cases e : x' = x
  · subst e; simp
  · rw [Function.update_of_ne e, if_neg e]

theorem range_const (n : Nat) (x : α) : (List.range n).map (fun _ => x) = List.replicate n x := by
  rw [List.map_const', List.length_range]

theorem rep1_table (a : Nat) (x : α) : List.replicate a x = table1 a (fun _ => x) := (range_const a x).symm
theorem rep2_table (a b : Nat) (x : α) : rep2 a b x = table2 a b (fun _ => x) := by
  unfold rep2 table2; rw [rep1_table b]; exact (range_const _ _).symm
theorem rep3_table (a b c : Nat) (x : α) : rep3 a b c x = table3 a b c (fun _ => x) := by
  unfold rep3 table3; rw [rep2_table]; exact (range_const _ _).symm
theorem rep4_table (a b c d : Nat) (x : α) : rep4 a b c d x = table4 a b c d (fun _ => x) := by
  unfold rep4 table4; rw [rep3_table]; exact (range_const _ _).symm

/-! ### Sizes -/

theorem SIZE1_map {β : Type} (a : Nat) (g : Nat → β) : SIZE1 ((List.range a).map g) = a := by simp [SIZE1]

theorem range_cons {β : Type} {a : Nat} (h : 0 < a) (g : Nat → β) :
    ∃ r, (List.range a).map g = g 0 :: r := by
  obtain ⟨b, rfl⟩ : ∃ b, a = b + 1 := ⟨a - 1, by omega⟩
  rw [List.range_succ_eq_map]
  exact ⟨_, rfl⟩

theorem SIZE2_map {a : Nat} (h : 0 < a) (g : Nat → List α) : SIZE2 ((List.range a).map g) = (g 0).length := by
  obtain ⟨r, e⟩ := range_cons h g
  rw [e]; rfl

theorem SIZE1_table2 (a b : Nat) (f : Nat × Nat → α) : SIZE1 (table2 a b f) = a := SIZE1_map _ _
theorem SIZE1_table3 (a b c : Nat) (f : Nat × Nat × Nat → α) : SIZE1 (table3 a b c f) = a := SIZE1_map _ _
theorem SIZE1_table4 (a b c d : Nat) (f : Nat × Nat × Nat × Nat → α) : SIZE1 (table4 a b c d f) = a := SIZE1_map _ _
theorem SIZE1_table1 (a : Nat) (f : Nat → α) : SIZE1 (table1 a f) = a := SIZE1_map _ _
theorem SIZE2_table2 {a b : Nat} (ha : 0 < a) (f : Nat × Nat → α) : SIZE2 (table2 a b f) = b := by
  unfold table2; rw [SIZE2_map ha]; simp [table1]
theorem SIZE2_table3 {a b c : Nat} (ha : 0 < a) (f : Nat × Nat × Nat → α) : SIZE2 (table3 a b c f) = b := by
  unfold table3; rw [SIZE2_map ha]; simp [table2]
theorem SIZE2_table4 {a b c d : Nat} (ha : 0 < a) (f : Nat × Nat × Nat × Nat → α) : SIZE2 (table4 a b c d f) = b := by
  unfold table4; rw [SIZE2_map ha]; simp [table3]
theorem SIZE3_table3 {a b c : Nat} (ha : 0 < a) (hb : 0 < b) (f : Nat × Nat × Nat → α) : SIZE3 (table3 a b c f) = c := by
  unfold table3
  obtain ⟨r, e⟩ := range_cons ha (fun x => table2 b c fun y => f (x, y))
  obtain ⟨r', e'⟩ := range_cons hb (fun x => table1 c fun y => f (0, x, y))
  rw [e]; unfold table2; rw [e']; simp [SIZE3, table1]
theorem SIZE3_table4 {a b c d : Nat} (ha : 0 < a) (hb : 0 < b) (f : Nat × Nat × Nat × Nat → α) :
    SIZE3 (table4 a b c d f) = c := by
  unfold table4
  obtain ⟨r, e⟩ := range_cons ha (fun x => table3 b c d fun y => f (x, y))
  obtain ⟨r', e'⟩ := range_cons hb (fun x => table2 c d fun y => f (0, x, y))
  rw [e]; unfold table3; rw [e']; simp [SIZE3, table2]
theorem SIZE4_table4 {a b c d : Nat} (ha : 0 < a) (hb : 0 < b) (hc : 0 < c) (f : Nat × Nat × Nat × Nat → α) :
    SIZE4 (table4 a b c d f) = d := by
  unfold table4
  obtain ⟨r, e⟩ := range_cons ha (fun x => table3 b c d fun y => f (x, y))
  obtain ⟨r', e'⟩ := range_cons hb (fun x => table2 c d fun y => f (0, x, y))
  obtain ⟨r'', e''⟩ := range_cons hc (fun x => table1 d fun y => f (0, 0, x, y))
  rw [e]; unfold table3; rw [e']; unfold table2; rw [e'']; simp [SIZE4, table1]

/-! ### Flat enumeration -/

theorem range_mul_map {β : Type} (I J : Nat) (g : Nat → β) :
    (List.range (I * J)).map g = (List.range I).flatMap fun a => (List.range J).map fun b => g (a * J + b) := by
  induction I with
  | zero => simp
  | succ I ih =>
    rw [Nat.succ_mul, List.range_add, List.map_append, ih, List.range_succ, List.flatMap_append]
    simp [List.map_map, Function.comp_def]

theorem to3_flat {J a b : Nat} (hb : b < J) : toI3 J (a * J + b) = a ∧ toJ3 J (a * J + b) = b := by
  unfold toI3 toJ3
  constructor
  · rw [Nat.mul_comm, Nat.mul_add_div (by omega), Nat.div_eq_of_lt hb, Nat.add_zero]
  · rw [Nat.add_comm, Nat.add_mul_mod_self_right, Nat.mod_eq_of_lt hb]

theorem u32_of_lt {n : Nat} (h : n < 2 ^ 32) : u32 n = n := Nat.mod_eq_of_lt h

theorem to4_flat {J K a b c I : Nat} (ha : a < I) (hb : b < J) (hc : c < K) (hf : I * J * K < 2 ^ 32) :
    toI4 J K ((a * J + b) * K + c) = a ∧ toJ4 J K ((a * J + b) * K + c) = b ∧ toK4 K ((a * J + b) * K + c) = c := by
  have h1 := to3_flat (a := a * J + b) hc
  have h2 := to3_flat (a := a) hb
  unfold toI3 toJ3 at h1 h2
  unfold toI4 toJ4 toK4
  refine ⟨?_, ?_, h1.2⟩
  · have hKJ : K * J ≤ I * J * K := by
      rw [show I * J * K = I * (K * J) by ring]
      exact Nat.le_mul_of_pos_left _ (by omega)
    rw [u32_of_lt (by omega), ← Nat.div_div_eq_div_mul, h1.1, h2.1]
  · rw [h1.1, h2.2]

theorem range_mul3_map {β : Type} (I J K : Nat) (g : Nat → β) :
    (List.range (I * J * K)).map g = (List.range I).flatMap fun a => (List.range J).flatMap fun b =>
      (List.range K).map fun c => g ((a * J + b) * K + c) := by
  rw [Nat.mul_assoc, range_mul_map]
  congr 1
  funext a
  rw [range_mul_map]
  congr 1
  funext b
  congr 1
  funext c
  rw [Nat.add_mul, Nat.mul_assoc, Nat.add_assoc]

/-! ### Histories -/

theorem lastWritten_nil {ι : Type} [DecidableEq ι] (f : ι → α) : lastWritten f [] = f := rfl

theorem lastWritten_snoc {ι : Type} [DecidableEq ι] (f : ι → α) (ws : List (ι × α)) (w : ι × α) :
    lastWritten f (ws ++ [w]) = Function.update (lastWritten f ws) w.1 w.2 := by
  funext x
  unfold lastWritten
  rw [List.reverse_append]
  simp only [List.reverse_cons, List.reverse_nil, List.nil_append, List.singleton_append, List.find?_cons]
  by_cases e : w.1 = x
  · subst e; simp
  · rw [Function.update_of_ne (Ne.symm e)]; simp [e]

/-- If every valid write updates the represented function, a history of writes does. -/
theorem writes_hold {ι C : Type} [DecidableEq ι] (write : C → ι → α → Res C) (ok : ι → Prop) (H : C → (ι → α) → Prop)
    (step : ∀ c f x v, H c f → ok x → ∃ c', write c x v = .ok c' ∧ H c' (Function.update f x v))
    {c : C} {f : ι → α} (h : H c f) (ws : List (ι × α)) (hws : ∀ w ∈ ws, ok w.1) :
    ∃ c', forEach (fun w c => write c w.1 w.2) ws c = .ok c' ∧ H c' (lastWritten f ws) := by
  obtain ⟨c', e, hc⟩ := forEach_inv (f := fun w c => write c w.1 w.2) (fun pre c => H c (lastWritten f pre)) ws c h
    (by
      intro pre w post s hl hs
      obtain ⟨c', e, hc⟩ := step s _ w.1 w.2 hs (hws w (by simp [hl]))
      exact ⟨c', e, by rw [lastWritten_snoc]; exact hc⟩)
  exact ⟨c', e, hc⟩

end Lp

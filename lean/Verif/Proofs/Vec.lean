import Verif.Base.Res

/-!
# Contents of a vector as a function
-/

namespace Lp
variable {α : Type}

/-- Pointwise update of a function of one index. -/
def vupd (f : Nat → α) (a : Nat) (x : α) : Nat → α := fun i => if i = a then x else f i

@[simp] theorem vupd_same (f : Nat → α) (a : Nat) (x : α) : vupd f a x a = x := by simp [vupd]
theorem vupd_ne {f : Nat → α} {a i : Nat} {x : α} (h : i ≠ a) : vupd f a x i = f i := by simp [vupd, h]

/-- `v` is a vector of length `n` with element `f i` at index `i`. -/
structure VRep (v : List α) (n : Nat) (f : Nat → α) : Prop where
  len : v.length = n
  cell : ∀ i, i < n → v[i]? = some (f i)

theorem VRep.get {v : List α} {n : Nat} {f : Nat → α} (h : VRep v n f) {i : Nat} (hi : i < n) :
    vget v i = .ok (f i) := vget_eq_ok.mpr (h.cell i hi)

theorem VRep.set {v : List α} {n : Nat} {f : Nat → α} (h : VRep v n f) {i : Nat} (x : α) (hi : i < n) :
    ∃ v', vset v i x = .ok v' ∧ VRep v' n (vupd f i x) := by
  refine ⟨v.set i x, vset_ok (by rw [h.len]; exact hi), by simp [h.len], ?_⟩
  intro j hj
  by_cases e : j = i
  · subst e; simp [h.len, hj]
  · rw [vupd_ne e, List.getElem?_set_ne (Ne.symm e)]; exact h.cell j hj

theorem VRep.replicate (n : Nat) (x : α) : VRep (List.replicate n x) n (fun _ => x) :=
  ⟨by simp, fun i hi => by simp [hi]⟩

theorem VRep.congr {v : List α} {n : Nat} {f g : Nat → α} (h : VRep v n f) (e : ∀ i, i < n → f i = g i) :
    VRep v n g := ⟨h.len, fun i hi => by rw [h.cell i hi, e i hi]⟩

theorem VRep.unique {v v' : List α} {n : Nat} {f : Nat → α} (h : VRep v n f) (h' : VRep v' n f) : v = v' := by
  apply List.ext_getElem?
  intro i
  by_cases hi : i < n
  · rw [h.cell i hi, h'.cell i hi]
  · rw [List.getElem?_eq_none (by rw [h.len]; omega), List.getElem?_eq_none (by rw [h'.len]; omega)]

theorem VRep.of [Inhabited α] (v : List α) : VRep v v.length (fun i => (v[i]?).getD default) :=
  ⟨rfl, fun i hi => by simp [hi]⟩

theorem VRep.eq_map {v : List α} {n : Nat} {f : Nat → α} (h : VRep v n f) : v = (List.range n).map f := by
  apply List.ext_getElem?
  intro i
  by_cases hi : i < n
  · rw [h.cell i hi]; simp [hi]
  · rw [List.getElem?_eq_none (by rw [h.len]; omega), List.getElem?_eq_none (by simp; omega)]

end Lp

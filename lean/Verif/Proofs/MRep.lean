import Verif.Proofs.UTM
import Verif.Proofs.Vec
import Verif.Model.DQualities

/-!
# Contents of a vector of triangular matrices
-/

namespace Lp
variable {α : Type}

/-- Pointwise update of a function of three indices. -/
def mupd (f : Nat → Nat → Nat → α) (h i j : Nat) (x : α) : Nat → Nat → Nat → α :=
  fun h' i' j' => if h' = h ∧ i' = i ∧ j' = j then x else f h' i' j'

@[simp] theorem mupd_same (f : Nat → Nat → Nat → α) (h i j : Nat) (x : α) : mupd f h i j x h i j = x := by
  simp [mupd]

theorem mupd_ne {f : Nat → Nat → Nat → α} {h i j h' i' j' : Nat} {x : α} (e : ¬ (h' = h ∧ i' = i ∧ j' = j)) :
    mupd f h i j x h' i' j' = f h' i' j' := by simp [mupd, e]

/-- `m` consists of `N` matrices of size `n`; cell `(i,j)` of matrix `h` contains `f h i j`. -/
structure MRep (m : List (UTM α)) (N n : Nat) (f : Nat → Nat → Nat → α) : Prop where
  len : m.length = N
  cell : ∀ h, h < N → ∃ t, m[h]? = some t ∧ t.Rep n (f h)

theorem MRep.get {m : List (UTM α)} {N n : Nat} {f : Nat → Nat → Nat → α} (r : MRep m N n f) {h i j : Nat}
    (hh : h < N) (hij : i ≤ j) (hj : j < n) : mget m h i j = .ok (f h i j) := by
  obtain ⟨t, h1, h2⟩ := r.cell h hh
  unfold mget
  rw [vget_eq_ok.mpr h1]
  simp only [okBind]
  exact h2.get hij hj

theorem MRep.set {m : List (UTM α)} {N n : Nat} {f : Nat → Nat → Nat → α} (r : MRep m N n f) {h i j : Nat} (x : α)
    (hh : h < N) (hij : i ≤ j) (hj : j < n) :
    ∃ m', mset m h i j x = .ok m' ∧ MRep m' N n (mupd f h i j x) := by
  obtain ⟨t, h1, h2⟩ := r.cell h hh
  obtain ⟨t', h3, h4⟩ := h2.set x hij hj
  have hl : h < m.length := (List.getElem?_eq_some_iff.mp h1).1
  refine ⟨m.set h t', ?_, by simp [r.len], ?_⟩
  · unfold mset
    rw [vget_eq_ok.mpr h1]
    simp only [okBind, h3]
    exact vset_ok hl
  · intro h' hh'
    by_cases e : h' = h
    · subst e
      refine ⟨t', by simp [hl], h4.congr ?_⟩
      intro a b _ _
      by_cases e' : a = i ∧ b = j
      · obtain ⟨rfl, rfl⟩ := e'; simp
      · rw [UTM.upd_ne e', mupd_ne (by tauto)]
    · obtain ⟨t2, g1, g2⟩ := r.cell h' hh'
      refine ⟨t2, by rw [List.getElem?_set_ne (Ne.symm e)]; exact g1, g2.congr ?_⟩
      intro a b _ _
      rw [mupd_ne (by tauto)]

theorem MRep.replicate {N n : Nat} (hn : n ≤ 65535) (x : α) :
    MRep (List.replicate N (UTM.mk' n x)) N n (fun _ _ _ => x) := by
  refine ⟨by simp, fun h hh => ⟨UTM.mk' n x, by simp [hh], UTM.Rep.mk' hn x⟩⟩

theorem MRep.congr {m : List (UTM α)} {N n : Nat} {f g : Nat → Nat → Nat → α} (r : MRep m N n f)
    (e : ∀ h i j, h < N → i ≤ j → j < n → f h i j = g h i j) : MRep m N n g := by
  refine ⟨r.len, fun h hh => ?_⟩
  obtain ⟨t, h1, h2⟩ := r.cell h hh
  exact ⟨t, h1, h2.congr (fun i j hij hj => e h i j hh hij hj)⟩

theorem MRep.unique {m m' : List (UTM α)} {N n : Nat} {f : Nat → Nat → Nat → α} (r : MRep m N n f)
    (r' : MRep m' N n f) : m = m' := by
  apply List.ext_getElem?
  intro h
  by_cases hh : h < N
  · obtain ⟨t, h1, h2⟩ := r.cell h hh
    obtain ⟨t', h1', h2'⟩ := r'.cell h hh
    rw [h1, h1', h2.unique h2']
  · rw [List.getElem?_eq_none (by rw [r.len]; omega), List.getElem?_eq_none (by rw [r'.len]; omega)]

end Lp

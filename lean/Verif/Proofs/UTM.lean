import Verif.Model.UTM
import Mathlib.Tactic.Ring
import Mathlib.Tactic.Linarith

/-!
# Storage layout of the triangular matrix
-/

namespace Lp.UTM
variable {α : Type}

/-- First slot of diagonal `d`. -/
def diag (n : Nat) : Nat → Nat
  | 0 => 0
  | d + 1 => diag n d + (n - d)

theorem diag_two (n : Nat) : ∀ d, d ≤ n → 2 * diag n d + d * (d - 1) = 2 * (d * n) := by
  intro d
  induction d with
  | zero => intro _; simp [diag]
  | succ d ih =>
    intro h
    have := ih (by omega)
    obtain ⟨k, rfl⟩ : ∃ k, n = d + 1 + k := ⟨n - (d + 1), by omega⟩
    have e : d + 1 + k - d = 1 + k := by omega
    simp only [diag, e, Nat.add_sub_cancel]
    cases d with
    | zero => simp at *; omega
    | succ d =>
      simp only [Nat.add_sub_cancel] at this
      nlinarith

theorem diag_eq (n d : Nat) (h : d ≤ n) : diag n d = d * n - d * (d - 1) / 2 := by
  have := diag_two n d h
  omega

theorem diag_mono {n a b : Nat} (h : a ≤ b) : diag n a ≤ diag n b := by
  induction b with
  | zero => obtain rfl : a = 0 := by omega
            exact Nat.le_refl _
  | succ b ih =>
    by_cases hb : a = b + 1
    · subst hb; exact Nat.le_refl _
    · have := ih (by omega); simp only [diag]; omega

theorem elements_eq {n : Nat} (hn : n ≤ 65535) : elements n = (n + 1) * n / 2 := by
  unfold elements
  have h1 : (n + 1) * n < 4294967296 := by nlinarith
  simp [UInt32.toNat_div, UInt32.toNat_mul, UInt32.toNat_add]
  rw [Nat.mod_eq_of_lt h1]

theorem elements_diag {n : Nat} (hn : n ≤ 65535) : elements n = diag n n := by
  rw [elements_eq hn, diag_eq n n (Nat.le_refl _)]
  cases n with
  | zero => simp
  | succ n =>
    simp only [Nat.add_sub_cancel]
    have a1 : (n + 1 + 1) * (n + 1) = (n + 1) * n + 2 * (n + 1) := by ring
    have a2 : (n + 1) * (n + 1) = (n + 1) * n + (n + 1) := by ring
    obtain ⟨k, hk⟩ : ∃ k, (n + 1) * n = 2 * k := by
      obtain ⟨k, hk⟩ := Nat.even_mul_succ_self n
      exact ⟨k, by rw [Nat.mul_comm]; omega⟩
    omega

theorem index_eq {n i j : Nat} (hn : n ≤ 65535) (hij : i ≤ j) (hj : j < n) :
    index n i j = diag n (j - i) + i := by
  have hd : diag n (j - i) = (j - i) * n - (j - i) * (j - i - 1) / 2 := diag_eq n (j - i) (by omega)
  have htwo := diag_two n (j - i) (by omega)
  rw [hd]
  unfold index
  set d := j - i with hdd
  have hd1 : d < 65535 := by omega
  have b1 : d * n < 4294836225 := by nlinarith
  have b2 : d * (d - 1) < 4294836225 := by
    have : d - 1 < 65535 := by omega
    nlinarith
  have e1 : UInt32.ofNat j - UInt32.ofNat i = UInt32.ofNat d := by
    rw [hdd, UInt32.ofNat_sub hij]
  have e2 : UInt32.ofNat d * (UInt32.ofNat d - 1) = UInt32.ofNat (d * (d - 1)) := by
    by_cases h0 : d = 0
    · simp [h0]
    · have : UInt32.ofNat d - 1 = UInt32.ofNat (d - 1) := by
        rw [UInt32.ofNat_sub (show 1 ≤ d by omega)]; rfl
      rw [this, UInt32.ofNat_mul]
  simp only [e1, e2, ← UInt32.ofNat_mul]
  have e3 : UInt32.ofNat (d * (d - 1)) / 2 = UInt32.ofNat (d * (d - 1) / 2) := by
    apply UInt32.toNat_inj.mp
    have : d * (d - 1) / 2 < 4294967296 := by omega
    simp [UInt32.toNat_div, Nat.mod_eq_of_lt (show d * (d - 1) < 4294967296 by omega),
      Nat.mod_eq_of_lt this]
  have e4 : d * (d - 1) / 2 ≤ d * n := by omega
  rw [e3, ← UInt32.ofNat_sub e4, ← UInt32.ofNat_add]
  simp
  omega

theorem index_lt {n i j : Nat} (hn : n ≤ 65535) (hij : i ≤ j) (hj : j < n) :
    index n i j < elements n := by
  rw [index_eq hn hij hj, elements_diag hn]
  have : diag n (j - i + 1) ≤ diag n n := diag_mono (by omega)
  simp only [diag] at this
  omega

theorem index_inj {n i j i' j' : Nat} (hn : n ≤ 65535) (hij : i ≤ j) (hj : j < n)
    (hij' : i' ≤ j') (hj' : j' < n) (h : index n i j = index n i' j') : i = i' ∧ j = j' := by
  rw [index_eq hn hij hj, index_eq hn hij' hj'] at h
  rcases Nat.lt_trichotomy (j - i) (j' - i') with hlt | heq | hgt
  · have : diag n (j - i + 1) ≤ diag n (j' - i') := diag_mono hlt
    simp only [diag] at this; omega
  · rw [heq] at h; omega
  · have : diag n (j' - i' + 1) ≤ diag n (j - i) := diag_mono hgt
    simp only [diag] at this; omega

theorem diag_find (n : Nat) : ∀ d s, s < diag n d → d ≤ n →
    ∃ e < d, diag n e ≤ s ∧ s < diag n (e + 1) := by
  intro d
  induction d with
  | zero => intro s h; simp [diag] at h
  | succ d ih =>
    intro s h hd
    by_cases h1 : s < diag n d
    · obtain ⟨e, he, h2⟩ := ih s h1 (by omega)
      exact ⟨e, by omega, h2⟩
    · exact ⟨d, by omega, by omega, h⟩

theorem index_surj {n s : Nat} (hn : n ≤ 65535) (hs : s < elements n) :
    ∃ i j, i ≤ j ∧ j < n ∧ index n i j = s := by
  rw [elements_diag hn] at hs
  obtain ⟨e, he, h1, h2⟩ := diag_find n n s hs (Nat.le_refl _)
  simp only [diag] at h2
  refine ⟨s - diag n e, s - diag n e + e, by omega, by omega, ?_⟩
  rw [index_eq hn (by omega) (by omega)]
  have : s - diag n e + e - (s - diag n e) = e := by omega
  rw [this]; omega

theorem index_last {n : Nat} (hn : n ≤ 65535) (h0 : 0 < n) : index n 0 (n - 1) = elements n - 1 := by
  rw [index_eq hn (by omega) (by omega), elements_diag hn]
  have : diag n (n - 1 + 1) = diag n n := by congr 1; omega
  simp only [diag] at this
  simp
  omega

/-! ## Abstract contents -/

/-- `m` is a matrix of size `n` whose cell `(i,j)` contains `f i j`. -/
structure Rep (m : UTM α) (n : Nat) (f : Nat → Nat → α) : Prop where
  le : n ≤ 65535
  size : m.size = n
  len : m.data.length = elements n
  cell : ∀ i j, i ≤ j → j < n → m.data[index n i j]? = some (f i j)

/-- Pointwise update of a function of two indices. -/
def upd (f : Nat → Nat → α) (a b : Nat) (x : α) : Nat → Nat → α :=
  fun i j => if i = a ∧ j = b then x else f i j

@[simp] theorem upd_same (f : Nat → Nat → α) (a b : Nat) (x : α) : upd f a b x a b = x := by simp [upd]

theorem upd_ne {f : Nat → Nat → α} {a b i j : Nat} {x : α} (h : ¬ (i = a ∧ j = b)) :
    upd f a b x i j = f i j := by simp [upd, h]

theorem Rep.get {m : UTM α} {n : Nat} {f : Nat → Nat → α} (h : Rep m n f) {i j : Nat}
    (hij : i ≤ j) (hj : j < n) : m.get i j = .ok (f i j) := by
  unfold UTM.get
  rw [vget_eq_ok, h.size]
  exact h.cell i j hij hj

theorem Rep.set {m : UTM α} {n : Nat} {f : Nat → Nat → α} (h : Rep m n f) {i j : Nat} (x : α)
    (hij : i ≤ j) (hj : j < n) : ∃ m', m.set i j x = .ok m' ∧ Rep m' n (upd f i j x) := by
  have hlt : index n i j < m.data.length := by rw [h.len]; exact index_lt h.le hij hj
  refine ⟨{ m with data := m.data.set (index n i j) x }, ?_, h.le, h.size, by simp [h.len], ?_⟩
  · unfold UTM.set; rw [h.size, vset_ok hlt]; rfl
  · intro a b hab hb
    by_cases e : a = i ∧ b = j
    · obtain ⟨rfl, rfl⟩ := e
      simp [hlt]
    · have : index n i j ≠ index n a b := fun c => by
        have := index_inj h.le hij hj hab hb c
        omega
      rw [upd_ne e]
      simp only [List.getElem?_set_ne this]
      exact h.cell a b hab hb

theorem Rep.mk' {n : Nat} (hn : n ≤ 65535) (v : α) : Rep (UTM.mk' n v) n (fun _ _ => v) := by
  refine ⟨hn, rfl, by simp [UTM.mk'], ?_⟩
  intro i j hij hj
  simp [UTM.mk', index_lt hn hij hj]

theorem Rep.congr {m : UTM α} {n : Nat} {f g : Nat → Nat → α} (h : Rep m n f)
    (hfg : ∀ i j, i ≤ j → j < n → f i j = g i j) : Rep m n g :=
  ⟨h.le, h.size, h.len, fun i j hij hj => by rw [h.cell i j hij hj, hfg i j hij hj]⟩

/-- Two matrices with the same contents are equal. -/
theorem Rep.unique {m m' : UTM α} {n : Nat} {f : Nat → Nat → α} (h : Rep m n f) (h' : Rep m' n f) :
    m = m' := by
  cases m with | mk s d =>
  cases m' with | mk s' d' =>
  obtain rfl : s = n := h.size
  obtain rfl : s' = s := h'.size
  congr 1
  apply List.ext_getElem?
  intro k
  by_cases hk : k < elements s'
  · obtain ⟨i, j, hij, hj, rfl⟩ := index_surj h.le hk
    have a := h.cell i j hij hj
    have b := h'.cell i j hij hj
    simp only at a b
    rw [a, b]
  · have a := h.len; have b := h'.len
    simp only at a b
    rw [List.getElem?_eq_none (by omega), List.getElem?_eq_none (by omega)]

/-- Every well-sized matrix has contents. -/
theorem exists_rep {m : UTM α} [Inhabited α] (hn : m.size ≤ 65535) (hl : m.data.length = elements m.size) :
    ∃ f, Rep m m.size f := by
  refine ⟨fun i j => (m.data[index m.size i j]?).getD default, hn, rfl, hl, ?_⟩
  intro i j hij hj
  have : index m.size i j < m.data.length := by rw [hl]; exact index_lt hn hij hj
  simp [this]

end Lp.UTM

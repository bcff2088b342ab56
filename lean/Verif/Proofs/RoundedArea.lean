import Verif.Spec.RoundedArea
import Verif.Proofs.Near
import Verif.Proofs.Reading

/-!
# Rounding in the area and in the optimum
-/

namespace Lp
open Spec

section
variable {E : Type} [Field E] [LinearOrder E]

theorem polyArea_snoc : ∀ (l : List (Quality E)) (a b : Quality E),
    polyArea (l ++ [a, b]) = polyArea (l ++ [a]) + (b.gain - a.gain) * (b.loss + a.loss) / 2 := by
  intro l
  induction l with
  | nil => intro a b; simp [polyArea]
  | cons x l ih =>
    intro a b
    cases l with
    | nil => simp [polyArea]
    | cons y l =>
      have := ih a b
      simp only [List.cons_append] at this ⊢
      simp only [polyArea]
      rw [this]; ring

theorem areaSize_snoc : ∀ (l : List (Quality E)) (a b : Quality E),
    areaSize (l ++ [a, b]) = areaSize (l ++ [a]) + |(b.gain - a.gain) * (b.loss + a.loss) / 2| := by
  intro l
  induction l with
  | nil => intro a b; simp [areaSize]
  | cons x l ih =>
    intro a b
    cases l with
    | nil => simp [areaSize]
    | cons y l =>
      have := ih a b
      simp only [List.cons_append] at this ⊢
      simp only [areaSize]
      rw [this]; ring

variable [IsStrictOrderedRing E]

/-- A relative error. -/
theorem near_rel {u x v : E} (h : |x - v| ≤ u * |v|) : Near u 1 x v |v| := ⟨by simpa using h, le_refl _⟩

/-- Product of two numbers with relative errors. -/
theorem Near.prod {u : E} (hu : 0 ≤ u) {k k' : Nat} {x v x' v' : E} (h : Near u k x v |v|) (h' : Near u k' x' v' |v'|) :
    Near u (k + k') (x * x') (v * v') |v * v'| := by
  refine ⟨?_, le_refl _⟩
  rw [show x * x' - v * v' = (x - v) * x' + v * (x' - v') by ring, abs_mul]
  have g1 : (1 : E) ≤ (1 + u) ^ k := one_le_pow₀ (by linarith)
  have g2 : (1 : E) ≤ (1 + u) ^ k' := one_le_pow₀ (by linarith)
  have s : |x'| ≤ (1 + u) ^ k' * |v'| := by
    have : |x'| ≤ |x' - v'| + |v'| := by simpa using abs_add_le (x' - v') v'
    have := h'.err
    nlinarith
  have t1 : |(x - v) * x'| ≤ (((1 + u) ^ k - 1) * |v|) * ((1 + u) ^ k' * |v'|) := by
    rw [abs_mul]
    exact mul_le_mul h.err s (abs_nonneg _) (mul_nonneg (by linarith) (abs_nonneg _))
  have t2 : |v * (x' - v')| ≤ |v| * (((1 + u) ^ k' - 1) * |v'|) := by
    rw [abs_mul]
    exact mul_le_mul_of_nonneg_left h'.err (abs_nonneg _)
  refine le_trans (abs_add_le _ _) (le_trans (add_le_add t1 t2) (le_of_eq ?_))
  rw [pow_add]
  ring

theorem Near.weaker {u w : E} (hu : 0 ≤ u) (h : u ≤ w) {k : Nat} {x v m : E} (hn : Near u k x v m) : Near w k x v m := by
  refine ⟨le_trans hn.err (mul_le_mul_of_nonneg_right ?_ hn.pos), hn.mag⟩
  have : (1 + u) ^ k ≤ (1 + w) ^ k := pow_le_pow_left₀ (by linarith) (by linarith) k
  linarith

variable {K : Type} [LD K] {val : K → E} {u w : E} {rnd : K → K}

theorem AreaLaws.pos (laws : AreaLaws val u w rnd) : 0 ≤ w := le_trans laws.unit_nonneg laws.le

/-- One trapezoid. -/
theorem AreaLaws.term (laws : AreaLaws val u w rnd) (a b : Quality K) :
    Near w 4 (val ((b.gain - a.gain) * (b.loss + a.loss) / (1 + 1)))
      (((pointOf val b).gain - (pointOf val a).gain) * ((pointOf val b).loss + (pointOf val a).loss) / 2)
      |((pointOf val b).gain - (pointOf val a).gain) * ((pointOf val b).loss + (pointOf val a).loss) / 2| := by
  have hu := laws.unit_nonneg
  refine Near.weaker hu laws.le ?_
  have n1 := near_rel (laws.sub_err b.gain a.gain)
  have n2 := near_rel (laws.add_err b.loss a.loss)
  have n3 := (n1.prod hu n2).round hu (laws.mul_err _ _)
  have n4 : Near u 3 (val ((b.gain - a.gain) * (b.loss + a.loss)) / 2)
      ((val b.gain - val a.gain) * (val b.loss + val a.loss) / 2) |(val b.gain - val a.gain) * (val b.loss + val a.loss) / 2| := by
    refine ⟨?_, le_refl _⟩
    have := n3.err
    have h2 : |(2 : E)| = 2 := abs_of_pos two_pos
    rw [← sub_div, abs_div, abs_div, h2, ← mul_div_assoc]
    exact div_le_div_of_nonneg_right this two_pos.le
  exact n4.round hu (laws.half_err _)

/-- One step of the sum. -/
theorem AreaLaws.step (laws : AreaLaws val u w rnd) {k : Nat} (hk : 4 ≤ k) {x y : K} {v m v' : E} (h : Near w k (val x) v m)
    (h' : Near w 4 (val y) v' |v'|) : Near w (k + 2) (val (rnd (x + y))) (v + v') (m + |v'|) := by
  have s := h.sum (h'.mono laws.pos hk)
  have r := s.round laws.pos (y := val (x + y)) (le_trans (laws.add_err x y)
    (mul_le_mul_of_nonneg_right laws.le (abs_nonneg _)))
  exact r.round laws.pos (laws.rnd_err _)

theorem AreaLaws.last (laws : AreaLaws val u w rnd) {k : Nat} {x : K} {v m : E} (h : Near w k (val x) v m) :
    Near w (k + 2) (val (rnd (1 - x))) (1 - v) (1 + m) := by
  have s := (Near.exact (k := k) laws.pos (le_of_eq (abs_one (α := E)))).diff h
  have e := laws.sub_err 1 x
  rw [laws.one] at e
  have r := s.round laws.pos (y := val (1 - x)) (le_trans e (mul_le_mul_of_nonneg_right laws.le (abs_nonneg _)))
  exact r.round laws.pos (laws.rnd_err _)

/-- A computed score. -/
theorem AreaLaws.score (laws : AreaLaws val u w rnd) (hu1 : u ≤ 1) (q : Quality K) :
    (1 - u) ^ 4 * distance (pointOf val q) ≤ val ((q.gain - 1) * (q.gain - 1) + q.loss * q.loss) ∧
      val ((q.gain - 1) * (q.gain - 1) + q.loss * q.loss) ≤ (1 + u) ^ 4 * distance (pointOf val q) := by
  have hu := laws.unit_nonneg
  have sq : ∀ (a b v : E), 0 ≤ v → |a - b| ≤ u * |b| → (1 - u) ^ 3 * v ≤ b → b ≤ (1 + u) ^ 3 * v → 0 ≤ b →
      (1 - u) ^ 4 * v ≤ a ∧ a ≤ (1 + u) ^ 4 * v := by
    intro a b v hv h1 h2 h3 hb
    rw [abs_of_nonneg hb, abs_le] at h1
    have p := mul_le_mul_of_nonneg_left h2 (show 0 ≤ 1 - u by linarith)
    have r := mul_le_mul_of_nonneg_left h3 (show 0 ≤ 1 + u by linarith)
    constructor
    · calc (1 - u) ^ 4 * v = (1 - u) * ((1 - u) ^ 3 * v) := by ring
        _ ≤ (1 - u) * b := p
        _ ≤ a := by linarith
    · calc a ≤ (1 + u) * b := by linarith
        _ ≤ (1 + u) * ((1 + u) ^ 3 * v) := r
        _ = (1 + u) ^ 4 * v := by ring
  -- a product of two equal factors with relative error `c`
  have one : ∀ (x d : E), |x - d| ≤ u * |d| → (1 - u) ^ 2 * d ^ 2 ≤ x * x ∧ x * x ≤ (1 + u) ^ 2 * d ^ 2 := by
    intro x d h
    have e1 : |x| ≤ (1 + u) * |d| := by
      have : |x| ≤ |x - d| + |d| := by simpa using abs_add_le (x - d) d
      linarith
    have e2 : (1 - u) * |d| ≤ |x| := by
      have : |d| ≤ |d - x| + |x| := by simpa using abs_add_le (d - x) x
      rw [abs_sub_comm] at this
      linarith
    have q1 : x * x = |x| ^ 2 := by rw [sq_abs]; ring
    have q2 : d ^ 2 = |d| ^ 2 := (sq_abs d).symm
    rw [q1, q2, ← mul_pow, ← mul_pow]
    exact ⟨pow_le_pow_left₀ (mul_nonneg (by linarith) (abs_nonneg _)) e2 2, pow_le_pow_left₀ (abs_nonneg _) e1 2⟩
  have rd : ∀ (a b v : E), |a - b| ≤ u * |b| → 0 ≤ b → (1 - u) ^ 2 * v ≤ b → b ≤ (1 + u) ^ 2 * v →
      (1 - u) ^ 3 * v ≤ a ∧ a ≤ (1 + u) ^ 3 * v ∧ 0 ≤ a := by
    intro a b v h1 hb h2 h3
    rw [abs_of_nonneg hb, abs_le] at h1
    have p := mul_le_mul_of_nonneg_left h2 (show 0 ≤ 1 - u by linarith)
    have r := mul_le_mul_of_nonneg_left h3 (show 0 ≤ 1 + u by linarith)
    have z := mul_nonneg (show 0 ≤ 1 - u by linarith) hb
    refine ⟨?_, ?_, by linarith⟩
    · calc (1 - u) ^ 3 * v = (1 - u) * ((1 - u) ^ 2 * v) := by ring
        _ ≤ (1 - u) * b := p
        _ ≤ a := by linarith
    · calc a ≤ (1 + u) * b := by linarith
        _ ≤ (1 + u) * ((1 + u) ^ 2 * v) := r
        _ = (1 + u) ^ 3 * v := by ring
  have hd := laws.sub_err q.gain 1
  rw [laws.one] at hd
  obtain ⟨a1, a2⟩ := one _ _ hd
  obtain ⟨b1, b2, b3⟩ := rd _ _ _ (laws.mul_err (q.gain - 1) (q.gain - 1)) (mul_self_nonneg _) a1 a2
  obtain ⟨c1, c2⟩ := one (val q.loss) (val q.loss) (by simpa using mul_nonneg hu (abs_nonneg _))
  obtain ⟨d1, d2, d3⟩ := rd _ _ _ (laws.mul_err q.loss q.loss) (mul_self_nonneg _) c1 c2
  refine sq _ _ (distance (pointOf val q)) (by unfold distance; positivity) (laws.add_err _ _) ?_ ?_ (by linarith)
  · unfold distance pointOf
    dsimp only
    rw [mul_add]; linarith
  · unfold distance pointOf
    dsimp only
    rw [mul_add]; linarith

end
end Lp

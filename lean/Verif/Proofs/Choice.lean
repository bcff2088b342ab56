import Verif.Proofs.Exact

/-!
# Consequences of optimality: Pareto, monotonicity in the parameter, interval property
-/

namespace Lp
open Spec
variable {K A : Type} [Field K] [LinearOrder K] [IsStrictOrderedRing K]

/-- Lexicographic comparison of the criteria: `L'` is not better than `L`. -/
def LexLe (a b : K) (q : A → Quality K) (L' L : List A) : Prop :=
  valueOf a b q L' < valueOf a b q L ∨
    (valueOf a b q L' = valueOf a b q L ∧
      (gainOf q L' < gainOf q L ∨ (gainOf q L' = gainOf q L ∧ lossOf q L ≤ lossOf q L')))

theorem wsum_obq_le {F : Type} [FloatP F K] (p : F) (q : A → Quality K) (L' L : List A) :
    wsum (obq p q) L' ≤ wsum (obq p q) L ↔ LexLe (wGain p) (wLoss p) q L' L := by
  rw [wsum_obq, wsum_obq, Prod.Lex.toLex_le_toLex, Prod.Lex.toLex_le_toLex]
  simp only [LexLe, neg_le_neg_iff]

omit [IsStrictOrderedRing K] in
theorem wsum_obq_eq {F : Type} [FloatP F K] (p : F) (q : A → Quality K) (L' L : List A)
    (hg : gainOf q L' = gainOf q L) (hl : lossOf q L' = lossOf q L) :
    wsum (obq p q) L' = wsum (obq p q) L := by
  rw [wsum_obq, wsum_obq]; simp only [valueOf, hg, hl]

/-- `(ds,L)` is the first solution that is optimal for the lexicographic criterion. -/
structure LexFirst (sols : List Nat → List A → Prop) (a b : K) (q : A → Quality K) (ds : List Nat)
    (L : List A) : Prop where
  mem : sols ds L
  best : ∀ ds' L', sols ds' L' → LexLe a b q L' L
  first : ∀ ds' L', sols ds' L' → gainOf q L' = gainOf q L → lossOf q L' = lossOf q L →
    ds = ds' ∨ Before ds ds'

/-- `(ds,L)` is the first solution that is optimal for the value alone. -/
structure ValFirst (sols : List Nat → List A → Prop) (a b : K) (q : A → Quality K) (ds : List Nat)
    (L : List A) : Prop where
  mem : sols ds L
  best : ∀ ds' L', sols ds' L' → valueOf a b q L' ≤ valueOf a b q L
  first : ∀ ds' L', sols ds' L' → valueOf a b q L' = valueOf a b q L → ds = ds' ∨ Before ds ds'

omit [IsStrictOrderedRing K] in
theorem LexLe.value {a b : K} {q : A → Quality K} {L' L : List A} (h : LexLe a b q L' L) :
    valueOf a b q L' ≤ valueOf a b q L := by
  rcases h with h | ⟨h, _⟩
  · exact le_of_lt h
  · exact le_of_eq h

/-- No solution is at least as good in gain and loss and better in one of them. -/
theorem pareto_of_lex {a b : K} {q : A → Quality K} {L' L : List A} (ha : 0 ≤ a) (hb : 0 ≤ b)
    (h : LexLe a b q L' L) : ¬ (gainOf q L ≤ gainOf q L' ∧ lossOf q L' ≤ lossOf q L ∧
      (gainOf q L < gainOf q L' ∨ lossOf q L' < lossOf q L)) := by
  rintro ⟨h1, h2, h3⟩
  have hv : valueOf a b q L ≤ valueOf a b q L' := by
    unfold valueOf
    have := mul_le_mul_of_nonneg_left h1 ha
    have := mul_le_mul_of_nonneg_left h2 hb
    linarith
  rcases h with h | ⟨_, h | ⟨hg, hl⟩⟩
  · linarith
  · linarith
  · rcases h3 with h3 | h3 <;> linarith

/-- The same for the value criterion with positive weights. -/
theorem pareto_of_val {a b : K} {q : A → Quality K} {L' L : List A} (ha : 0 < a) (hb : 0 < b)
    (h : valueOf a b q L' ≤ valueOf a b q L) : ¬ (gainOf q L ≤ gainOf q L' ∧ lossOf q L' ≤ lossOf q L ∧
      (gainOf q L < gainOf q L' ∨ lossOf q L' < lossOf q L)) := by
  rintro ⟨h1, h2, h3⟩
  have e1 := mul_le_mul_of_nonneg_left h1 ha.le
  have e2 := mul_le_mul_of_nonneg_left h2 hb.le
  unfold valueOf at h
  rcases h3 with h3 | h3
  · have := mul_lt_mul_of_pos_left h3 ha; linarith
  · have := mul_lt_mul_of_pos_left h3 hb; linarith

/-- Gain and loss grow when the weights move from loss to gain. -/
theorem mono_of_opt {a b a' b' : K} {q : A → Quality K} {L L' : List A}
    (ha : 0 ≤ a) (hb : 0 ≤ b) (ha' : 0 ≤ a') (hb' : 0 ≤ b') (hc : a * b' < a' * b)
    (h : valueOf a b q L' ≤ valueOf a b q L) (h' : valueOf a' b' q L ≤ valueOf a' b' q L') :
    gainOf q L ≤ gainOf q L' ∧ lossOf q L ≤ lossOf q L' := by
  unfold valueOf at h h'
  set g := gainOf q L
  set g' := gainOf q L'
  set l := lossOf q L
  set l' := lossOf q L'
  have e1 : a * (g' - g) ≤ b * (l' - l) := by linarith
  have e2 : b' * (l' - l) ≤ a' * (g' - g) := by linarith
  have f1 : a * b' * (l' - l) ≤ a' * b * (l' - l) := by
    have x1 := mul_le_mul_of_nonneg_left e1 ha'
    have x2 := mul_le_mul_of_nonneg_left e2 ha
    nlinarith
  have f2 : a * b' * (g' - g) ≤ a' * b * (g' - g) := by
    have x1 := mul_le_mul_of_nonneg_left e1 hb'
    have x2 := mul_le_mul_of_nonneg_left e2 hb
    nlinarith
  have pos : 0 < a' * b - a * b' := by linarith
  constructor
  · have : 0 ≤ (a' * b - a * b') * (g' - g) := by nlinarith
    have := nonneg_of_mul_nonneg_right this pos
    linarith
  · have : 0 ≤ (a' * b - a * b') * (l' - l) := by nlinarith
    have := nonneg_of_mul_nonneg_right this pos
    linarith

/-- Weights between two weights are a cone combination of them. -/
theorem cone {a b a1 b1 a2 b2 : K} (h1 : a1 ≤ a) (h2 : a ≤ a2) (k1 : b ≤ b1) (k2 : b2 ≤ b)
    (ha1 : 0 ≤ a1) (hb2 : 0 ≤ b2) (hc : a1 * b2 < a2 * b1) (hne : 0 < a ∨ 0 < b) :
    ∃ x y : K, 0 ≤ x ∧ 0 ≤ y ∧ (0 < x ∨ 0 < y) ∧ a = x * a1 + y * a2 ∧ b = x * b1 + y * b2 := by
  have pos : 0 < a2 * b1 - a1 * b2 := by linarith
  have hb : 0 ≤ b := le_trans hb2 k2
  have ha : 0 ≤ a := le_trans ha1 h1
  have ex : 0 ≤ a2 * b - a * b2 := by nlinarith
  have ey : 0 ≤ a * b1 - a1 * b := by nlinarith
  have eqa : a = (a2 * b - a * b2) / (a2 * b1 - a1 * b2) * a1 + (a * b1 - a1 * b) / (a2 * b1 - a1 * b2) * a2 := by
    rw [div_mul_eq_mul_div, div_mul_eq_mul_div, ← add_div, eq_div_iff pos.ne']
    ring
  have eqb : b = (a2 * b - a * b2) / (a2 * b1 - a1 * b2) * b1 + (a * b1 - a1 * b) / (a2 * b1 - a1 * b2) * b2 := by
    rw [div_mul_eq_mul_div, div_mul_eq_mul_div, ← add_div, eq_div_iff pos.ne']
    ring
  refine ⟨(a2 * b - a * b2) / (a2 * b1 - a1 * b2), (a * b1 - a1 * b) / (a2 * b1 - a1 * b2),
    div_nonneg ex pos.le, div_nonneg ey pos.le, ?_, eqa, eqb⟩
  by_contra hcon
  push Not at hcon
  have x0 : (a2 * b - a * b2) / (a2 * b1 - a1 * b2) = 0 := le_antisymm hcon.1 (div_nonneg ex pos.le)
  have y0 : (a * b1 - a1 * b) / (a2 * b1 - a1 * b2) = 0 := le_antisymm hcon.2 (div_nonneg ey pos.le)
  rw [x0, y0] at eqa eqb
  simp only [zero_mul, add_zero] at eqa eqb
  rcases hne with h | h <;> linarith

/-- The situation of the interval property: value ties. -/
theorem mid_tie {a b a1 b1 a2 b2 : K} {q : A → Quality K} {L L' : List A}
    (hc : ∃ x y : K, 0 ≤ x ∧ 0 ≤ y ∧ (0 < x ∨ 0 < y) ∧ a = x * a1 + y * a2 ∧ b = x * b1 + y * b2)
    (v1 : valueOf a1 b1 q L' ≤ valueOf a1 b1 q L) (v2 : valueOf a2 b2 q L' ≤ valueOf a2 b2 q L)
    (v : valueOf a b q L ≤ valueOf a b q L') :
    valueOf a b q L = valueOf a b q L' ∧
      (valueOf a1 b1 q L' = valueOf a1 b1 q L ∨ valueOf a2 b2 q L' = valueOf a2 b2 q L) := by
  obtain ⟨x, y, hx, hy, hxy, rfl, rfl⟩ := hc
  have lin : ∀ M : List A, valueOf (x * a1 + y * a2) (x * b1 + y * b2) q M =
      x * valueOf a1 b1 q M + y * valueOf a2 b2 q M := by
    intro M; unfold valueOf; ring
  rw [lin, lin] at v ⊢
  have e1 := mul_le_mul_of_nonneg_left v1 hx
  have e2 := mul_le_mul_of_nonneg_left v2 hy
  refine ⟨by linarith, ?_⟩
  rcases hxy with h | h
  · left
    have : x * (valueOf a1 b1 q L - valueOf a1 b1 q L') = 0 := by linarith
    rcases mul_eq_zero.mp this with h' | h' <;> linarith
  · right
    have : y * (valueOf a2 b2 q L - valueOf a2 b2 q L') = 0 := by linarith
    rcases mul_eq_zero.mp this with h' | h' <;> linarith

/-- Interval property, lexicographic criterion. -/
theorem LexFirst.between {sols : List Nat → List A → Prop} {a b a1 b1 a2 b2 : K} {q : A → Quality K}
    {ds ds' : List Nat} {L L' : List A}
    (hc : ∃ x y : K, 0 ≤ x ∧ 0 ≤ y ∧ (0 < x ∨ 0 < y) ∧ a = x * a1 + y * a2 ∧ b = x * b1 + y * b2)
    (h1 : LexFirst sols a1 b1 q ds L) (h2 : LexFirst sols a2 b2 q ds L)
    (h : LexFirst sols a b q ds' L') : ds = ds' := by
  have l1 := h1.best ds' L' h.mem
  have l2 := h2.best ds' L' h.mem
  have l := h.best ds L h1.mem
  obtain ⟨t, te⟩ := mid_tie hc l1.value l2.value l.value
  have ties : gainOf q L' = gainOf q L ∧ lossOf q L' = lossOf q L := by
    have hmid : gainOf q L < gainOf q L' ∨ (gainOf q L = gainOf q L' ∧ lossOf q L' ≤ lossOf q L) := by
      rcases l with l | l
      · exact absurd t (ne_of_lt l)
      · exact l.2
    have hend : gainOf q L' < gainOf q L ∨ (gainOf q L' = gainOf q L ∧ lossOf q L ≤ lossOf q L') := by
      rcases te with te | te
      · rcases l1 with l1 | l1
        · exact absurd te (ne_of_lt l1)
        · exact l1.2
      · rcases l2 with l2 | l2
        · exact absurd te (ne_of_lt l2)
        · exact l2.2
    rcases hmid with hm | ⟨hm1, hm2⟩ <;> rcases hend with he | ⟨he1, he2⟩
    · exact absurd hm (not_lt.mpr he.le)
    · exact absurd he1.symm (ne_of_lt hm)
    · exact absurd hm1.symm (ne_of_lt he)
    · exact ⟨he1, le_antisymm hm2 he2⟩
  rcases h1.first ds' L' h.mem ties.1 ties.2 with e | e
  · exact e
  · rcases h.first ds L h1.mem ties.1.symm ties.2.symm with e' | e'
    · exact e'.symm
    · exact absurd e' e.asymm

/-- Interval property, value criterion. -/
theorem ValFirst.between {sols : List Nat → List A → Prop} {a b a1 b1 a2 b2 : K} {q : A → Quality K}
    {ds ds' : List Nat} {L L' : List A}
    (hc : ∃ x y : K, 0 ≤ x ∧ 0 ≤ y ∧ (0 < x ∨ 0 < y) ∧ a = x * a1 + y * a2 ∧ b = x * b1 + y * b2)
    (h1 : ValFirst sols a1 b1 q ds L) (h2 : ValFirst sols a2 b2 q ds L)
    (h : ValFirst sols a b q ds' L') : ds = ds' := by
  obtain ⟨t, te⟩ := mid_tie hc (h1.best ds' L' h.mem) (h2.best ds' L' h.mem) (h.best ds L h1.mem)
  have e : ds = ds' ∨ Before ds ds' := by
    rcases te with te | te
    · exact h1.first ds' L' h.mem te
    · exact h2.first ds' L' h.mem te
  rcases e with e | e
  · exact e
  · rcases h.first ds L h1.mem t with e' | e'
    · exact e'.symm
    · exact absurd e' e.asymm

end Lp

import Verif.Spec.RangeMachine
import Verif.Proofs.RangeQ
import Verif.Proofs.RoundedArea
import Verif.Proofs.MachineSheet

/-!
# The area and the optimum with a bounded range of exponents
-/

namespace Lp
open Spec

/-- A rounding with a relative and an absolute error. -/
theorem split_err {x y a s : ℝ} (hs : 0 ≤ s) (ha : 0 ≤ a) (h : |y - x| ≤ a * |x| + s) : ∃ z d, y = z + d ∧ |z - x| ≤ a * |x| ∧ |d| ≤ s := by
  have h0 : 0 ≤ a * |x| := mul_nonneg ha (abs_nonneg _)
  obtain ⟨h1, h2⟩ := abs_le.mp h
  rcases le_total (y - x) (a * |x|) with k | k
  · rcases le_total (-(a * |x|)) (y - x) with k' | k'
    · exact ⟨y, 0, by ring, abs_le.mpr ⟨k', k⟩, by simpa using hs⟩
    · refine ⟨x - a * |x|, y - x + a * |x|, by ring, ?_, abs_le.mpr ⟨by linarith, by linarith⟩⟩
      rw [show x - a * |x| - x = -(a * |x|) by ring, abs_neg, abs_of_nonneg h0]
  · refine ⟨x + a * |x|, y - x - a * |x|, by ring, ?_, abs_le.mpr ⟨by linarith, by linarith⟩⟩
    rw [show x + a * |x| - x = a * |x| by ring, abs_of_nonneg h0]

theorem Near.size {u : ℝ} {k : Nat} {x v m : ℝ} (h : Near u k x v m) : |x| ≤ (1 + u) ^ k * m := by
  have : |x| ≤ |x - v| + |v| := by simpa using abs_add_le (x - v) v
  have := h.err
  have := h.mag
  linarith

/-- Size of the terms below points in a square. -/
theorem areaSize_le : ∀ l : List (Quality ℝ), (∀ q ∈ l, |q.gain| ≤ 2 ∧ |q.loss| ≤ 2) → areaSize l ≤ 8 * l.length
  | [], _ => by simp [areaSize]
  | [_], _ => by simp [areaSize]
  | a :: b :: l, h => by
    have ih := areaSize_le (b :: l) (fun q hq => h q (by simp [hq]))
    obtain ⟨a1, a2⟩ := h a (by simp)
    obtain ⟨b1, b2⟩ := h b (by simp)
    have t : |(b.gain - a.gain) * (b.loss + a.loss) / 2| ≤ 8 := by
      rw [abs_div, abs_mul, abs_two]
      have e1 : |b.gain - a.gain| ≤ 4 := le_trans (abs_sub _ _) (by linarith)
      have e2 : |b.loss + a.loss| ≤ 4 := le_trans (abs_add_le _ _) (by linarith)
      have := mul_le_mul e1 e2 (abs_nonneg _) (by norm_num)
      linarith
    simp only [areaSize, List.length_cons] at ih ⊢
    push_cast at ih ⊢
    linarith

section
variable {D F K' K : Type} [LDLog K'] [LDLog K] [FloatP F K'] {c : RNum D F K'} {rnd : K' → K'} {fin : K' → Prop} {num : K' → K}
  {val : K → ℝ} {vd : D → ℝ} {pv : F → ℚ} {u w a s β : ℝ} {r : ℚ} {b g E Q k G : Nat}

theorem RangeMachine.areaLaws (h : RangeMachine c rnd fin num val vd pv u w a s β r b g E Q k G) : AreaLaws (val : K → ℝ) u u (id : K → K) where
  toRoundedLaws := h.arith.laws.toRoundedLaws
  le := le_refl u
  one := h.valOne
  half_err := h.half
  rnd_err x := by simpa using mul_nonneg h.arith.laws.unit_nonneg (abs_nonneg (val x))

variable (h : RangeMachine c rnd fin num val vd pv u w a s β r b g E Q k G)
include h

/-- One trapezoid. -/
theorem RangeMachine.term {A : Nat} (hA : 2 * A + 4 + b ≤ E) (hE : 10 ≤ E) {p q : Quality K'}
    (hp : Held fin num val A 2 p.gain ∧ Held fin num val A 2 p.loss) (hq : Held fin num val A 2 q.gain ∧ Held fin num val A 2 q.loss) :
    ∃ B, Held fin num val (2 * A + 4 + b) B ((q.gain - p.gain) * (q.loss + p.loss) / (1 + 1)) ∧
    num ((q.gain - p.gain) * (q.loss + p.loss) / (1 + 1)) =
      (num q.gain - num p.gain) * (num q.loss + num p.loss) / (1 + 1) := by
  have ar := h.arith
  have up : ∀ j : Nat, j ≤ 10 → (2 : ℝ) ^ j ≤ 2 ^ E := fun j hj => pow_le_pow_right₀ (by norm_num) (by omega)
  have u8 := h.u_le
  have u0 := ar.laws.unit_nonneg
  obtain ⟨d1, d2⟩ := Held.sub ar (D := 8) (by omega) hq.1 hp.1 (by norm_num) (le_trans (by norm_num) (up 3 (by norm_num)))
  obtain ⟨s1, s2⟩ := Held.add ar (D := 8) (by omega) hq.2 hp.2 (by linarith) (le_trans (by norm_num) (up 3 (by norm_num)))
  obtain ⟨m1, m2, m3, m4⟩ := mul_num ar d2.fin (fun hh => d2.grid.low hh) d2.mag s2.fin (fun hh => s2.grid.low hh) s2.mag
    (by omega) (le_trans (by norm_num) (up 7 (by norm_num)))
  -- the literal 2
  have one : Held fin num val 0 1 (1 : K') := ⟨h.one.1, by rw [h.one.2, h.valOne]; exact ⟨1, by norm_num⟩, by rw [h.one.2, h.valOne]; simp⟩
  obtain ⟨t1, t2⟩ := Held.add ar (D := 4) (Nat.zero_le _) one one (by linarith) (le_trans (by norm_num) (up 2 (by norm_num)))
  have tv : |val (num ((1 : K') + 1)) - 2| ≤ u * 2 := by
    have := ar.laws.add_err (num 1) (num 1)
    rw [← t1, h.one.2, h.valOne] at this
    norm_num at this
    linarith
  obtain ⟨tv1, tv2⟩ := abs_le.mp tv
  have tpos : 0 < val (num ((1 : K') + 1)) := by linarith
  set x := (q.gain - p.gain) * (q.loss + p.loss) with hx
  have hd := ar.laws.div_err (num x) (num ((1 : K') + 1)) tpos.ne'
  have hm : |val (num x / num ((1 : K') + 1))| ≤ 2 ^ 9 := by
    have h2 := err_upper (by linarith) hd
    rw [abs_div, abs_of_pos tpos] at h2
    have h3 : |val (num x)| / val (num ((1 : K') + 1)) ≤ |val (num x)| := div_le_self (abs_nonneg _) (by linarith)
    norm_num at m4 ⊢
    linarith
  have hl : val (num x / num ((1 : K') + 1)) ≠ 0 → 1 / 2 ^ (2 * A + 4) ≤ |val (num x / num ((1 : K') + 1))| := by
    intro h0
    have hx0 : val (num x) ≠ 0 := by
      intro hz
      refine h0 (err_zero hd ?_)
      rw [hz, zero_div]
    have h2 := err_lower (by linarith) hd
    rw [abs_div, abs_of_pos tpos] at h2
    have h3 : |val (num x)| / 4 ≤ |val (num x)| / val (num ((1 : K') + 1)) :=
      div_le_div_of_nonneg_left (abs_nonneg _) tpos (by linarith)
    have h4 := m3 hx0
    have e1 : (1 : ℝ) / 2 ^ (2 * A + 4) = 1 / 2 ^ (A + A + 1) / 8 := by
      rw [show 2 * A + 4 = (A + A + 1) + 3 by ring, pow_add _ (A + A + 1)]; field_simp; norm_num
    rw [e1]
    linarith
  have hr := ar.range.div m2 t2.fin tpos.ne' (inRange_of (by omega) hl (le_trans hm (up 9 (by norm_num))))
  have e : num ((1 : K') + 1) = 1 + 1 := by rw [t1, h.one.2]
  refine ⟨2 ^ 9, ⟨hr.1, ?_, by rw [hr.2]; exact hm⟩, by rw [hr.2, m1, d1, s1, e]⟩
  rw [hr.2]
  by_cases h0 : val (num x / num ((1 : K') + 1)) = 0
  · rw [h0]; exact .zero _
  · exact ar.fine.bits _ _ (hl h0)

/-- `computeAUC` on listed qualities in range. -/
theorem RangeMachine.area {P T : Type} {A : Nat} (hA : 2 * A + 4 + b + k ≤ E) (hE : 10 ≤ E) (st : PState F K' P T) (q : F → Quality K')
    (hne : st.pList ≠ []) (hd : ∀ p ∈ st.pList, mapDeref p st.qualityList = .ok (q p))
    (hq : ∀ p ∈ st.pList, Held fin num val A 2 (q p).gain ∧ Held fin num val A 2 (q p).loss)
    (hgrow : (1 + a) ^ (2 * st.pList.length + 4) ≤ 2) (htop : 2 * (1 + 9 * (st.pList.length : ℝ)) ≤ 2 ^ G) :
    ∃ au, computeAUC rnd st = .ok au ∧ fin au ∧ |val (num au)| ≤ 2 ^ G ∧
      |val (num au) - (1 - polyArea (st.pList.map (fun p => pointOf (fun x => val (num x)) (q p))))| ≤
        ((1 + a) ^ (2 * st.pList.length + 4) * (1 + st.pList.length * s) - 1) *
          (1 + areaSize (st.pList.map (fun p => pointOf (fun x => val (num x)) (q p)))) := by
  have ar := h.arith
  have u0 := ar.laws.unit_nonneg
  have a0 : 0 ≤ a := le_trans u0 h.le
  have s0 := h.s_nonneg
  have s1 := h.s_le
  have hlen : st.pList.length ≠ 0 := by simpa using hne
  have GE : (2 : ℝ) ^ G ≤ 2 ^ E := pow_le_pow_right₀ (by norm_num) h.top
  set n := st.pList.length with hn
  set pt : F → Quality ℝ := fun p => pointOf (fun x => val (num x)) (q p) with hpt
  have size : ∀ i, i ≤ n → areaSize ((st.pList.take i).map pt) ≤ 8 * n := by
    intro i hi
    refine le_trans (areaSize_le _ ?_) ?_
    · intro x hx
      obtain ⟨p, hp, rfl⟩ := List.mem_map.mp hx
      have := hq p (List.mem_of_mem_take hp)
      exact ⟨this.1.mag, this.2.mag⟩
    · rw [List.length_map, List.length_take]
      have : ((min i st.pList.length : Nat) : ℝ) ≤ n := by exact_mod_cast min_le_right _ _
      linarith
  have big : ∀ {j : Nat} {x v m : ℝ}, Near a j x v m → j ≤ 2 * n + 4 → m ≤ 1 + 9 * n → |x| ≤ 2 ^ G := by
    intro j x v m hx hj hm
    refine le_trans hx.size (le_trans ?_ htop)
    have g : (1 + a) ^ j ≤ 2 := le_trans (pow_le_pow_right₀ (by linarith) hj) hgrow
    exact mul_le_mul g hm hx.pos (by norm_num)
  -- one rounding of the accumulator
  have round : ∀ {x : K'} {j : Nat} {v m : ℝ}, fin x → Near a j (val (num x)) v m → j ≤ 2 * n + 3 → m ≤ 1 + 9 * n →
      fin (rnd x) ∧ Grid k (val (num (rnd x))) ∧ ∃ d, |d| ≤ s ∧ Near a (j + 1) (val (num (rnd x))) (v + d) (m + s) := by
    intro x j v m hf hx hj hm
    obtain ⟨r1, r2, r3⟩ := h.acc x hf (big hx (by omega) hm)
    obtain ⟨z, d, e, z1, z2⟩ := split_err s0 a0 r3
    refine ⟨r1, r2, d, z2, ?_⟩
    rw [e]
    exact (hx.round a0 z1).sum (Near.exact a0 z2)
  unfold computeAUC
  rw [if_neg hlen]
  obtain ⟨auc, a1, ⟨a2, a3, δ, a4, a5⟩⟩ := forUp_inv (lo := 0) (hi := n - 1) (s := (0 : K')) (f := fun i (auc : K') => do
      let a ← vget st.pList i
      let b ← vget st.pList (i + 1)
      let qa ← mapDeref a st.qualityList
      let qb ← mapDeref b st.qualityList
      return rnd (auc + (qb.gain - qa.gain) * (qb.loss + qa.loss) / (1 + 1)))
    (fun i auc => fin auc ∧ Grid (2 * A + 4 + b + k) (val (num auc)) ∧ ∃ δ : ℝ, |δ| ≤ i * s ∧ Near a (2 * i + 4) (val (num auc))
      (polyArea ((st.pList.take (i + 1)).map pt) + δ) (areaSize ((st.pList.take (i + 1)).map pt) + i * s)) (Nat.zero_le _)
    (by
      refine ⟨ar.range.zero.1, by rw [ar.range.zero.2, ar.laws.zero]; exact .zero _, 0, by simp, ?_⟩
      cases h' : st.pList with
      | nil => rw [hn, h'] at hlen; simp at hlen
      | cons x l =>
        simp only [Nat.zero_add, List.take_succ_cons, List.take_zero, List.map_cons, List.map_nil, polyArea, areaSize]
        rw [ar.range.zero.2, ar.laws.zero]
        exact ⟨by simp, by simp⟩)
    (by
      rintro i auc _ hi ⟨f1, f2, δ, f3, f4⟩
      have k1 : i < st.pList.length := by omega
      have k2 : i + 1 < st.pList.length := by omega
      simp only [vget_ok k1, vget_ok k2, okBind]
      rw [hd _ (List.getElem_mem k1), hd _ (List.getElem_mem k2)]
      refine ⟨_, rfl, ?_⟩
      set p := st.pList[i] with hp
      set p' := st.pList[i + 1] with hp'
      have t2 : st.pList.take (i + 1 + 1) = st.pList.take i ++ [p, p'] := by
        rw [List.take_succ_eq_append_getElem k2, List.take_succ_eq_append_getElem k1, List.append_assoc]; rfl
      have t1 : st.pList.take (i + 1) = st.pList.take i ++ [p] := List.take_succ_eq_append_getElem k1
      have hsz := size (i + 1 + 1) (by omega)
      rw [t1] at f4
      rw [t2] at hsz
      rw [t2, List.map_append, List.map_cons, List.map_cons, List.map_nil, polyArea_snoc, areaSize_snoc]
      rw [List.map_append, List.map_cons, List.map_cons, List.map_nil, areaSize_snoc] at hsz
      simp only [List.map_append, List.map_cons, List.map_nil] at f4
      obtain ⟨B, y1, y2⟩ := h.term (A := A) (by omega) hE (hq p (List.getElem_mem k1)) (hq p' (List.getElem_mem k2))
      set y := ((q p').gain - (q p).gain) * ((q p').loss + (q p).loss) / (1 + 1) with hy
      have ny := (h.areaLaws.term (inQ num (q p)) (inQ num (q p'))).weaker u0 h.le
      have ey : val (((inQ num (q p')).gain - (inQ num (q p)).gain) * ((inQ num (q p')).loss + (inQ num (q p)).loss) / (1 + 1)) = val (num y) := by
        rw [y2]; rfl
      rw [ey] at ny
      have hs := f4.sum (ny.mono a0 (show 4 ≤ 2 * i + 4 by omega))
      have hr := hs.round a0 (y := val (num auc + num y)) (le_trans (ar.laws.add_err _ _)
        (mul_le_mul_of_nonneg_right h.le (abs_nonneg _)))
      have hi1 : (i : ℝ) + 1 ≤ n := by exact_mod_cast (by omega : i + 1 ≤ n)
      have is : (i : ℝ) * s ≤ n := by nlinarith [Nat.cast_nonneg (α := ℝ) i]
      have bound : areaSize ((st.pList.take i).map pt ++ [pt p]) + i * s +
          |((pt p').gain - (pt p).gain) * ((pt p').loss + (pt p).loss) / 2| ≤ 1 + 9 * n := by linarith
      obtain ⟨z1, z2⟩ := add_num ar (x := auc) (y := y) (a := 2 * A + 4 + b + k) (B := 2 ^ G) (by omega) GE f1 y1.fin f2
        (y1.grid.mono (by omega)) (big hr (by omega) bound)
      rw [← z1] at hr
      obtain ⟨w1, w2, d, w3, w4⟩ := round z2.fin hr (by omega) bound
      refine ⟨w1, w2.mono (by omega), δ + d, ?_, ?_⟩
      · refine le_trans (abs_add_le _ _) ?_
        push_cast
        linarith
      · have e1 : polyArea ((st.pList.take i).map pt ++ [pt p]) + ((pt p').gain - (pt p).gain) * ((pt p').loss + (pt p).loss) / 2 + (δ + d) =
            polyArea ((st.pList.take i).map pt ++ [pt p]) + δ + ((pt p').gain - (pt p).gain) * ((pt p').loss + (pt p).loss) / 2 + d := by ring
        have e2 : areaSize ((st.pList.take i).map pt ++ [pt p]) + |((pt p').gain - (pt p).gain) * ((pt p').loss + (pt p).loss) / 2| + ((i + 1 : Nat) : ℝ) * s =
            areaSize ((st.pList.take i).map pt ++ [pt p]) + i * s + |((pt p').gain - (pt p).gain) * ((pt p').loss + (pt p).loss) / 2| + s := by
          push_cast; ring
        rw [e1, e2]
        exact w4)
  rw [a1]
  simp only [okBind]
  rw [show n - 1 + 1 = n by omega, hn, List.take_length, ← hn] at a5
  have n1 : (1 : ℝ) ≤ n := by exact_mod_cast (by omega : 1 ≤ n)
  have cn : ((n - 1 : Nat) : ℝ) = n - 1 := by rw [Nat.cast_sub (by omega)]; norm_num
  rw [cn] at a4 a5
  have hsz := size n (le_refl _)
  rw [hn, List.take_length, ← hn] at hsz
  have ns : ((n : ℝ) - 1) * s ≤ n := by nlinarith
  -- 1 minus the sum
  have hs := (Near.exact (k := 2 * (n - 1) + 4) a0 (le_of_eq (abs_one (α := ℝ)))).diff a5
  have e := ar.laws.sub_err 1 (num auc)
  rw [h.valOne] at e
  have hr := hs.round a0 (y := val (1 - num auc)) (le_trans e (mul_le_mul_of_nonneg_right h.le (abs_nonneg _)))
  have g1 : Grid (2 * A + 4 + b + k) (val (1 : K)) := by rw [h.valOne]; exact Grid.mono (a := 0) ⟨1, by norm_num⟩ (by omega)
  have bound : 1 + (areaSize (st.pList.map pt) + ((n : ℝ) - 1) * s) ≤ 1 + 9 * n := by linarith
  obtain ⟨z1, z2⟩ := ar.range.sub h.one.1 a2 (by
    rw [h.one.2]
    exact (ar.fine.sub _ _ _ g1 a3).inRange (by omega) (le_trans (big hr (by omega) bound) GE))
  rw [h.one.2] at z2
  rw [← z2] at hr
  obtain ⟨w1, w2, d, w3, w4⟩ := round z1 hr (by omega) bound
  have hfin : areaSize (st.pList.map pt) + (n : ℝ) * s ≤ 9 * n := by nlinarith
  refine ⟨_, rfl, w1, big w4 (by omega) (by linarith), ?_⟩
  have w5 := (w4.mono a0 (show 2 * (n - 1) + 4 + 1 + 1 ≤ 2 * n + 4 by omega)).err
  have dd : |d - δ| ≤ n * s := le_trans (abs_sub _ _) (by linarith)
  set X := (1 + a) ^ (2 * n + 4) with hX
  have X1 : 1 ≤ X := one_le_pow₀ (by linarith)
  have S0 : 0 ≤ areaSize (st.pList.map pt) := le_trans (abs_nonneg _) (polyArea_le_size _)
  set S := areaSize (st.pList.map pt)
  set v := val (num (rnd (1 - auc)))
  have tri : |v - (1 - polyArea (st.pList.map pt))| ≤ |v - (1 - (polyArea (st.pList.map pt) + δ) + d)| + |d - δ| := by
    have := abs_add_le (v - (1 - (polyArea (st.pList.map pt) + δ) + d)) (d - δ)
    rwa [show v - (1 - (polyArea (st.pList.map pt) + δ) + d) + (d - δ) = v - (1 - polyArea (st.pList.map pt)) by ring] at this
  have ns0 : 0 ≤ (n : ℝ) * s := by positivity
  have : (X - 1) * (1 + (S + ((n : ℝ) - 1) * s) + s) + n * s ≤ (X * (1 + n * s) - 1) * (1 + S) := by
    have e3 : (X - 1) * (1 + (S + ((n : ℝ) - 1) * s) + s) + n * s = (X - 1) * (1 + S) + X * (n * s) := by ring
    have e4 : (X * (1 + n * s) - 1) * (1 + S) = (X - 1) * (1 + S) + X * (n * s) * (1 + S) := by ring
    rw [e3, e4]
    have := mul_nonneg (mul_nonneg (by linarith : 0 ≤ X) ns0) S0
    nlinarith
  linarith

/-- A score. -/
theorem RangeMachine.score {A : Nat} (hA : 2 * A + 1 + b ≤ E) (hE : 10 ≤ E) {q : Quality K'}
    (hq : Held fin num val A 2 q.gain ∧ Held fin num val A 2 q.loss) :
    fin ((q.gain - 1) * (q.gain - 1) + q.loss * q.loss) ∧
    num ((q.gain - 1) * (q.gain - 1) + q.loss * q.loss) =
      ((inQ num q).gain - 1) * ((inQ num q).gain - 1) + (inQ num q).loss * (inQ num q).loss := by
  have ar := h.arith
  have up : ∀ j : Nat, j ≤ 10 → (2 : ℝ) ^ j ≤ 2 ^ E := fun j hj => pow_le_pow_right₀ (by norm_num) (by omega)
  have u8 := h.u_le
  have u0 := ar.laws.unit_nonneg
  have one : Held fin num val A 2 (1 : K') := ⟨h.one.1, by
    rw [h.one.2, h.valOne]; exact Grid.mono (a := 0) ⟨1, by norm_num⟩ (Nat.zero_le _), by rw [h.one.2, h.valOne]; norm_num⟩
  obtain ⟨d1, d2⟩ := Held.sub ar (D := 8) (by omega) hq.1 one (by norm_num) (le_trans (by norm_num) (up 3 (by norm_num)))
  have prod : ∀ {x : K'} {B : ℝ}, Held fin num val A B x → B ≤ 8 → num (x * x) = num x * num x ∧ Held fin num val (2 * A + 1 + b) (2 ^ 7) (x * x) := by
    intro x B hx hB
    have hx := hx.mono (le_refl A) hB
    obtain ⟨m1, m2, m3, m4⟩ := mul_num ar hx.fin (fun hh => hx.grid.low hh) hx.mag hx.fin (fun hh => hx.grid.low hh) hx.mag
      (by omega) (le_trans (by norm_num) (up 7 (by norm_num)))
    refine ⟨m1, m2, ?_, le_trans m4 (by norm_num)⟩
    by_cases h0 : val (num (x * x)) = 0
    · rw [h0]; exact .zero _
    · have := ar.fine.bits _ _ (m3 h0)
      rwa [show A + A + 1 + b = 2 * A + 1 + b by ring] at this
  obtain ⟨x1, x2⟩ := prod d2 (le_refl _)
  obtain ⟨y1, y2⟩ := prod hq.2 (by norm_num)
  obtain ⟨z1, z2⟩ := Held.add ar (D := 2 ^ 9) hA x2 y2 (by norm_num; linarith) (up 9 (by norm_num))
  refine ⟨z2.fin, ?_⟩
  rw [z1, x1, y1, d1, h.one.2]
  rfl

/-- `getP(P_OPT)` on listed qualities in range. -/
theorem RangeMachine.optimum {P T : Type} {A : Nat} (hA : 2 * A + 1 + b ≤ E) (hE : 10 ≤ E) (st : PState F K' P T) (q : F → Quality K')
    (hd : ∀ p ∈ st.pList, mapDeref p st.qualityList = .ok (q p))
    (hq : ∀ p ∈ st.pList, Held fin num val A 2 (q p).gain ∧ Held fin num val A 2 (q p).loss)
    (randMax : K') (hf : fin randMax)
    (hmax : ∃ p ∈ st.pList, (1 + u) ^ 4 * distance (pointOf (fun x => val (num x)) (q p)) ≤ val (num randMax)) :
    ∃ p ∈ st.pList, getP randMax 2 st = .ok p ∧
      ∀ p' ∈ st.pList, (1 - u) ^ 4 * distance (pointOf (fun x => val (num x)) (q p)) ≤ (1 + u) ^ 4 * distance (pointOf (fun x => val (num x)) (q p')) := by
  have ar := h.arith
  have u1 : u ≤ 1 := by linarith [h.u_le]
  unfold getP
  rw [if_neg (by decide), if_neg (by decide), if_pos rfl]
  unfold computePOpt
  let sc : F → K' := fun p => ((q p).gain - 1) * ((q p).gain - 1) + (q p).loss * (q p).loss
  have scf : ∀ p ∈ st.pList, fin (sc p) := fun p hp => (h.score hA hE (hq p hp)).1
  have scv : ∀ p ∈ st.pList, (1 - u) ^ 4 * distance (pointOf (fun x => val (num x)) (q p)) ≤ val (num (sc p)) ∧
      val (num (sc p)) ≤ (1 + u) ^ 4 * distance (pointOf (fun x => val (num x)) (q p)) := by
    intro p hp
    have := h.areaLaws.score u1 (inQ num (q p))
    rw [← (h.score hA hE (hq p hp)).2] at this
    exact this
  obtain ⟨res, hr, hP⟩ := forEach_inv (f := fun p (acc : K' × Option F) => do
      let q ← mapDeref p st.qualityList
      let score := (q.gain - 1) * (q.gain - 1) + q.loss * q.loss
      if decide (score < acc.1) || score == acc.1 then return (score, some p) else return acc)
    (fun done acc => (acc.2 = none ∧ acc.1 = randMax ∧ ∀ p ∈ done, val (num randMax) < val (num (sc p))) ∨
      ∃ p ∈ st.pList, acc = (sc p, some p) ∧ ∀ p' ∈ done, val (num (sc p)) ≤ val (num (sc p')))
    st.pList (randMax, none) (Or.inl ⟨rfl, rfl, by simp⟩) (by
      intro pre x post acc hl hacc
      have hx : x ∈ st.pList := by rw [hl]; simp
      have accf : fin acc.1 := by
        rcases hacc with ⟨_, b2, _⟩ | ⟨p, hp, b2, _⟩
        · rw [b2]; exact hf
        · rw [b2]; exact scf p hp
      rw [hd x hx]
      simp only [okBind]
      have cmp : (decide (sc x < acc.1) || sc x == acc.1) = true ↔ val (num (sc x)) ≤ val (num acc.1) := by
        rw [Bool.or_eq_true, decide_eq_true_eq, ar.range.lt (scf x hx) accf, ar.range.eq (scf x hx) accf, ar.laws.lt_iff, ar.laws.eq_iff,
          le_iff_lt_or_eq]
      split
      · rename_i hy
        have hy := cmp.mp hy
        refine ⟨_, rfl, Or.inr ⟨x, hx, rfl, fun p' hp' => ?_⟩⟩
        rcases List.mem_append.mp hp' with hp' | hp'
        · rcases hacc with ⟨_, b2, b3⟩ | ⟨p, _, b2, b3⟩
          · rw [b2] at hy
            exact le_trans hy (b3 p' hp').le
          · rw [b2] at hy
            exact le_trans hy (b3 p' hp')
        · simp only [List.mem_singleton] at hp'
          rw [hp']
      · rename_i hn
        have hn : val (num acc.1) < val (num (sc x)) := by
          rw [← not_le]
          exact fun h' => hn (cmp.mpr h')
        refine ⟨_, rfl, ?_⟩
        rcases hacc with ⟨b1, b2, b3⟩ | ⟨p, hp, b2, b3⟩
        · left
          refine ⟨b1, b2, fun p hp => ?_⟩
          rcases List.mem_append.mp hp with hp | hp
          · exact b3 p hp
          · simp only [List.mem_singleton] at hp
            rw [hp, ← b2]
            exact hn
        · right
          refine ⟨p, hp, b2, fun p' hp' => ?_⟩
          rcases List.mem_append.mp hp' with hp' | hp'
          · exact b3 p' hp'
          · simp only [List.mem_singleton] at hp'
            rw [b2] at hn
            rw [hp']
            exact hn.le)
  rw [hr]
  simp only [okBind]
  rcases hP with ⟨_, _, b3⟩ | ⟨p, hp, b2, b3⟩
  · exfalso
    obtain ⟨p, hp, hle⟩ := hmax
    have := b3 p hp
    have := (scv p hp).2
    linarith
  · rw [b2]
    exact ⟨p, hp, rfl, fun p' hp' => le_trans (le_trans (scv p hp).1 (b3 p' hp')) (scv p' hp').2⟩
end
end Lp

import Verif.Proofs.RoundedArea
import Verif.Props.C50
import Verif.Props.C67

/-!
# C68 — rounding in the area and in the optimum

C31 and C32 compute with exact qualities.  Here the arithmetic of the qualities is rounded (`AreaLaws val u w rnd`: relative
errors of the operations at most `u`, of the conversion to `float` at most `w`), and so are the parameters (C67).
-/

namespace Lp.C68
open Spec
variable {F K P T E : Type} [LD K] [FloatP F K] {pv : F → ℚ} {r : ℚ}
  [Field E] [LinearOrder E] [IsStrictOrderedRing E] {val : K → E} {u w : E} {rnd : K → K}

/-- The points of the quality list, as exact numbers. -/
def points (val : K → E) (st : PState F K P T) : List (Quality E) := st.qualityList.map (fun e => pointOf val e.2)

/-- After a search `computeAUC` returns 1 minus the area below the polygon through the listed points, up to a relative error of
`2n+4` roundings of the sum of the sizes of the terms, `n` the number of points. -/
theorem area (laws : AreaLaws val u w rnd) (fl : FloatLaws (Reading F pv) ℚ r) (ops : PartOps F K P T) (ho : IsPartitioner ops)
    (t lo hi : F) (h0 : 0 ≤ pv lo) (hlt : pv lo < pv hi) (h1 : pv hi ≤ 1)
    (fuel : Nat) (st st' : PState F K P T) (h : computeBestPartitions ops false fuel t lo hi st = .ok st') :
    ∃ a, computeAUC rnd st' = .ok a ∧
      |val a - (1 - polyArea (points val st'))| ≤
        ((1 + w) ^ (2 * st'.pList.length + 4) - 1) * (1 + areaSize (points val st')) := by
  obtain ⟨B, so⟩ := isPartitioner_ops ho
  obtain ⟨S, hc, hb, e1, hs, e2, e3, e4⟩ := search_any fl so h0 hlt h1 h
  have hne : st'.pList ≠ [] := by rw [e1]; simp [keep]
  have hlen : st'.pList.length ≠ 0 := by simpa using hne
  have hd : ∀ p ∈ st'.pList, mapDeref p st'.qualityList = .ok (ops.quality (B p)) := by
    intro p hp
    rw [e3]
    exact deref_any (val := pv) fl (fun p => ops.quality (B p)) hp
  have hpt : points val st' = st'.pList.map (fun p => pointOf val (ops.quality (B p))) := by
    unfold points; rw [e3, List.map_map]; rfl
  unfold computeAUC
  rw [if_neg hlen]
  obtain ⟨auc, a1, a2⟩ := forUp_inv (lo := 0) (hi := st'.pList.length - 1) (s := (0 : K)) (f := fun i (auc : K) => do
      let a ← vget st'.pList i
      let b ← vget st'.pList (i + 1)
      let qa ← mapDeref a st'.qualityList
      let qb ← mapDeref b st'.qualityList
      return rnd (auc + (qb.gain - qa.gain) * (qb.loss + qa.loss) / (1 + 1)))
    (fun i auc => Near w (2 * i + 4) (val auc)
      (polyArea ((st'.pList.take (i + 1)).map (fun p => pointOf val (ops.quality (B p)))))
      (areaSize ((st'.pList.take (i + 1)).map (fun p => pointOf val (ops.quality (B p)))))) (Nat.zero_le _)
    (by
      cases h : st'.pList with
      | nil => rw [h] at hlen; simp at hlen
      | cons x l =>
        simp only [Nat.zero_add, List.take_succ_cons, List.take_zero, List.map_cons, List.map_nil, polyArea, areaSize]
        rw [laws.zero]
        exact ⟨by simp, by simp⟩)
    (by
      intro k s _ hk hs
      have k1 : k < st'.pList.length := by omega
      have k2 : k + 1 < st'.pList.length := by omega
      simp only [vget_ok k1, vget_ok k2, okBind]
      rw [hd _ (List.getElem_mem k1), hd _ (List.getElem_mem k2)]
      refine ⟨_, rfl, ?_⟩
      have t2 : st'.pList.take (k + 1 + 1) = st'.pList.take k ++ [st'.pList[k], st'.pList[k + 1]] := by
        rw [List.take_succ_eq_append_getElem k2, List.take_succ_eq_append_getElem k1, List.append_assoc]; rfl
      have t1 : st'.pList.take (k + 1) = st'.pList.take k ++ [st'.pList[k]] := List.take_succ_eq_append_getElem k1
      rw [t1] at hs
      rw [t2, List.map_append, List.map_cons, List.map_cons, List.map_nil, polyArea_snoc, areaSize_snoc]
      simp only [List.map_append, List.map_cons, List.map_nil] at hs
      exact laws.step (by omega) hs (laws.term _ _))
  rw [a1]
  simp only [okBind]
  rw [show st'.pList.length - 1 + 1 = st'.pList.length by omega, List.take_length, ← hpt] at a2
  refine ⟨_, rfl, ?_⟩
  exact ((laws.last a2).mono laws.pos (by omega)).err

theorem size_aux : ∀ (l : List (Quality E)) (a : Quality E), (a :: l).IsChain (fun x y => x.gain ≤ y.gain) →
    (∀ q ∈ a :: l, 0 ≤ q.gain ∧ q.gain ≤ 1 ∧ 0 ≤ q.loss ∧ q.loss ≤ 1) → areaSize (a :: l) ≤ 1 - a.gain := by
  intro l
  induction l with
  | nil => intro a _ h; have := h a (by simp); simp only [areaSize]; linarith
  | cons b l ih =>
    intro a hp h
    rw [List.isChain_cons_cons] at hp
    have i1 := ih b hp.2 (fun q hq => h q (by simp [hq]))
    obtain ⟨_, _, a0, a1⟩ := h a (by simp)
    obtain ⟨_, _, b0, b1⟩ := h b (by simp)
    have d : 0 ≤ b.gain - a.gain := by linarith [hp.1]
    simp only [areaSize]
    rw [abs_of_nonneg (by have := mul_nonneg d (by linarith : (0 : E) ≤ b.loss + a.loss); linarith)]
    have := mul_le_mul_of_nonneg_left (by linarith : b.loss + a.loss ≤ 2) d
    linarith

/-- If the points lie in the unit square with gains that do not decrease (as with exact normalised qualities, C24, C32), and the
number of points is moderate, the absolute error is at most `(8n+16)·w`. -/
theorem unitSquare (laws : AreaLaws val u w rnd) (fl : FloatLaws (Reading F pv) ℚ r) (ops : PartOps F K P T)
    (ho : IsPartitioner ops) (t lo hi : F) (h0 : 0 ≤ pv lo) (hlt : pv lo < pv hi) (h1 : pv hi ≤ 1)
    (fuel : Nat) (st st' : PState F K P T) (h : computeBestPartitions ops false fuel t lo hi st = .ok st')
    (hm : (points val st').IsChain (fun x y => x.gain ≤ y.gain))
    (hq : ∀ q ∈ points val st', 0 ≤ q.gain ∧ q.gain ≤ 1 ∧ 0 ≤ q.loss ∧ q.loss ≤ 1)
    (hn : (2 * st'.pList.length + 4 : E) * w ≤ 1 / 2) :
    ∃ a, computeAUC rnd st' = .ok a ∧ |val a - (1 - polyArea (points val st'))| ≤ (8 * st'.pList.length + 16) * w := by
  obtain ⟨a, e, ha⟩ := area laws fl ops ho t lo hi h0 hlt h1 fuel st st' h
  refine ⟨a, e, le_trans ha ?_⟩
  have hs : areaSize (points val st') ≤ 1 := by
    cases hl : points val st' with
    | nil => simp [areaSize]
    | cons x l =>
      rw [hl] at hm hq
      have := size_aux l x hm hq
      have := (hq x (by simp)).1
      linarith
  have hf := C50.factor w (2 * st'.pList.length + 4) laws.pos (by push_cast; exact hn)
  push_cast at hf
  have hg : 0 ≤ (1 + w) ^ (2 * st'.pList.length + 4) - 1 := by
    have := one_le_pow₀ (n := 2 * st'.pList.length + 4) (show 1 ≤ 1 + w by linarith [laws.pos])
    linarith
  calc _ ≤ ((1 + w) ^ (2 * st'.pList.length + 4) - 1) * 2 := mul_le_mul_of_nonneg_left (by linarith) hg
    _ ≤ _ := by linarith

/-- `getP(P_OPT)` after a search, with rounding: if some point is not too far away for `RAND_MAX` (see C31) it returns a listed
parameter, and its point is nearly closest to gain 1 and loss 0: no listed point is closer by more than the factor
`((1-u)/(1+u))^4` in squared distance. -/
theorem optimum (laws : AreaLaws val u w rnd) (hu : u ≤ 1) (fl : FloatLaws (Reading F pv) ℚ r) (ops : PartOps F K P T)
    (ho : IsPartitioner ops) (t lo hi : F) (h0 : 0 ≤ pv lo) (hlt : pv lo < pv hi) (h1 : pv hi ≤ 1)
    (fuel : Nat) (st st' : PState F K P T) (h : computeBestPartitions ops false fuel t lo hi st = .ok st')
    (randMax : K) (hmax : ∃ e ∈ st'.qualityList, (1 + u) ^ 4 * distance (pointOf val e.2) ≤ val randMax) :
    ∃ p q, getP randMax 2 st' = .ok p ∧ (p, q) ∈ st'.qualityList ∧
      ∀ e ∈ st'.qualityList, (1 - u) ^ 4 * distance (pointOf val q) ≤ (1 + u) ^ 4 * distance (pointOf val e.2) := by
  obtain ⟨B, so⟩ := isPartitioner_ops ho
  obtain ⟨S, hc, hb, e1, hs, e2, e3, e4⟩ := search_any fl so h0 hlt h1 h
  have hd : ∀ p ∈ st'.pList, mapDeref p st'.qualityList = .ok (ops.quality (B p)) := by
    intro p hp
    rw [e3]
    exact deref_any (val := pv) fl (fun p => ops.quality (B p)) hp
  unfold getP
  rw [if_neg (by decide), if_neg (by decide), if_pos rfl]
  unfold computePOpt
  let sc : F → K := fun p => let q := ops.quality (B p); (q.gain - 1) * (q.gain - 1) + q.loss * q.loss
  obtain ⟨res, hr, hP⟩ := forEach_inv (f := fun p (acc : K × Option F) => do
      let q ← mapDeref p st'.qualityList
      let score := (q.gain - 1) * (q.gain - 1) + q.loss * q.loss
      if decide (score < acc.1) || score == acc.1 then return (score, some p) else return acc)
    (fun done acc => (acc.2 = none ∧ acc.1 = randMax ∧ ∀ p ∈ done, val randMax < val (sc p)) ∨
      ∃ p ∈ st'.pList, acc = (sc p, some p) ∧ ∀ p' ∈ done, val (sc p) ≤ val (sc p'))
    st'.pList (randMax, none) (Or.inl ⟨rfl, rfl, by simp⟩) (by
      intro pre x post acc hl hacc
      have hx : x ∈ st'.pList := by rw [hl]; simp
      rw [hd x hx]
      simp only [okBind]
      have cmp : (decide (sc x < acc.1) || sc x == acc.1) = true ↔ val (sc x) ≤ val acc.1 := by
        rw [Bool.or_eq_true, decide_eq_true_eq, laws.lt_iff, laws.eq_iff, le_iff_lt_or_eq]
      split
      · rename_i hy
        have hy := cmp.mp hy
        refine ⟨_, rfl, Or.inr ⟨x, hx, rfl, fun p' hp' => ?_⟩⟩
        rcases List.mem_append.mp hp' with hp' | hp'
        · rcases hacc with ⟨_, b2, b3⟩ | ⟨p, _, b2, b3⟩
          · rw [b2] at hy
            exact le_trans hy (b3 p' hp').le
          · rw [b2] at hy
            exact le_trans hy (b3 p' hp')
        · simp only [List.mem_singleton] at hp'
          rw [hp']
      · rename_i hn
        have hn : val acc.1 < val (sc x) := by
          rw [← not_le]
          exact fun h' => hn (cmp.mpr h')
        refine ⟨_, rfl, ?_⟩
        rcases hacc with ⟨b1, b2, b3⟩ | ⟨p, hp, b2, b3⟩
        · left
          refine ⟨b1, b2, fun p hp => ?_⟩
          rcases List.mem_append.mp hp with hp | hp
          · exact b3 p hp
          · simp only [List.mem_singleton] at hp
            rw [hp, ← b2]
            exact hn
        · right
          refine ⟨p, hp, b2, fun p' hp' => ?_⟩
          rcases List.mem_append.mp hp' with hp' | hp'
          · exact b3 p' hp'
          · simp only [List.mem_singleton] at hp'
            rw [b2] at hn
            rw [hp']
            exact hn.le)
  rw [hr]
  simp only [okBind]
  rcases hP with ⟨_, _, b3⟩ | ⟨p, hp, b2, b3⟩
  · exfalso
    obtain ⟨e, he, hle⟩ := hmax
    rw [e3] at he
    obtain ⟨p, hp, rfl⟩ := List.mem_map.mp he
    have := b3 p hp
    have := (laws.score hu (ops.quality (B p))).2
    change val (sc p) ≤ _ at this
    linarith
  · rw [b2]
    refine ⟨p, ops.quality (B p), rfl, by rw [e3]; exact List.mem_map.mpr ⟨p, hp, rfl⟩, fun e he => ?_⟩
    rw [e3] at he
    obtain ⟨p', hp', rfl⟩ := List.mem_map.mp he
    exact le_trans (le_trans (laws.score hu (ops.quality (B p))).1 (b3 p' hp')) (laws.score hu (ops.quality (B p'))).2

/-! ## Significant bits -/

section
variable {E : Type} [Field E] [LinearOrder E] [IsStrictOrderedRing E]

theorem two_aux [FloorRing E] (b : Nat) : (truncationIn E b).rnd (1 + 1) = 2 := by
  change truncBits b ((1 : E) + 1) = 2
  rw [one_add_one_eq_two]
  unfold truncBits
  rw [if_pos two_pos]
  have hl : Int.log 2 (2 : E) = 1 := by
    have := Int.log_zpow (R := E) (b := 2) (by norm_num) 1
    simpa using this
  unfold truncPos ulp
  rw [hl]
  have e : (2 : E) / 2 ^ ((1 : ℤ) - b) = ((2 ^ b : ℤ) : E) := by
    rw [zpow_sub₀ two_ne_zero, zpow_natCast]
    push_cast
    field_simp
  rw [e, Int.floor_intCast, ← e]
  exact div_mul_cancel₀ _ (by positivity)

/-- `b+1` significant bits for the qualities, `c+1` for the accumulator: the laws hold with `u = 2^-b` and
`w = 2^-b + 2^-c + 2^-(b+c)`. -/
theorem bits [FloorRing E] (b c : Nat) :
    AreaLaws (K := Rounded (truncationIn E b)) (fun x => x.1) (1 / 2 ^ b) ((1 + 1 / 2 ^ b) * (1 + 1 / 2 ^ c) - 1)
      (fun x => (truncationIn E b).to ((truncationIn E c).rnd x.1)) where
  toRoundedLaws := roundedLaws _
  le := by
    have h1 : (0 : E) ≤ 1 / 2 ^ b := by positivity
    have h2 : (0 : E) ≤ 1 / 2 ^ c := by positivity
    have := mul_nonneg h1 h2
    linarith
  one := rfl
  half_err a := by
    change |(truncationIn E b).rnd (a.1 / (truncationIn E b).rnd (1 + 1)) - a.1 / 2| ≤ _
    rw [two_aux]
    exact (truncationIn E b).err _
  rnd_err a := by
    have e1 := (truncationIn E c).err a.1
    have e2 := (truncationIn E b).err ((truncationIn E c).rnd a.1)
    have n := (near_rel e1).weaker (k := 1) (truncationIn E c).nonneg (le_refl _)
    change |(truncationIn E b).rnd ((truncationIn E c).rnd a.1) - a.1| ≤ _
    change |_ - (truncationIn E c).rnd a.1| ≤ 1 / 2 ^ b * _ at e2
    change |_ - a.1| ≤ 1 / 2 ^ c * _ at e1
    have hb : (0 : E) ≤ 1 / 2 ^ b := by positivity
    have s : |(truncationIn E c).rnd a.1| ≤ (1 + 1 / 2 ^ c) * |a.1| := by
      have := abs_add_le ((truncationIn E c).rnd a.1 - a.1) a.1
      rw [sub_add_cancel] at this
      linarith
    have := abs_add_le ((truncationIn E b).rnd ((truncationIn E c).rnd a.1) - (truncationIn E c).rnd a.1)
      ((truncationIn E c).rnd a.1 - a.1)
    rw [sub_add_sub_cancel] at this
    have := mul_le_mul_of_nonneg_left s hb
    linarith

end

/-! ## An example -/

/-- Qualities with 4 significant bits, accumulator with 3; three slices. -/
abbrev R4 : RoundTo ℚ := truncation 3

/-- A table of three slices. -/
def exTable : UTM (Quality (Rounded R4)) :=
  ⟨3, [⟨0, 0⟩, ⟨0, 0⟩, ⟨0, 0⟩, ⟨R4.to (1 / 3), R4.to (1 / 10)⟩, ⟨R4.to (1 / 5), R4.to (1 / 4)⟩, ⟨1, 1⟩]⟩

/-- Contents of `exTable`. -/
def exEntry (i j : Nat) : Quality (Rounded R4) := (exTable.data[UTM.index 3 i j]?).getD ⟨0, 0⟩

theorem exRep : exTable.Rep 3 exEntry := by
  refine ⟨by decide, rfl, rfl, ?_⟩
  intro i j hij hj
  have : UTM.index 3 i j < exTable.data.length := UTM.index_lt (n := 3) (by decide) hij hj
  simp [exEntry, this]

/-- Exact rational parameters, rounded qualities. -/
abbrev exOps : PartOps (With ℚ R4.to) (Rounded R4) (OPartition (With ℚ R4.to) (Rounded R4))
    (With ℚ R4.to × Int × Int × Rounded R4 × Rounded R4) := oOps exTable

/-- The theorems apply to it. -/
theorem exHyps : IsPartitioner exOps ∧ FloatLaws (Reading (With ℚ R4.to) With.val) ℚ 0 ∧
    AreaLaws (K := Rounded R4) (fun x => x.1) (1 / 2 ^ 3) ((1 + 1 / 2 ^ 3) * (1 + 1 / 2 ^ 2) - 1)
      (fun x => R4.to ((truncationIn ℚ 2).rnd x.1)) :=
  ⟨.ordered _ 3 _ exRep, withLaws (exactLaws ℚ) _, bits 3 2⟩

/-- The search, the area and the optimum. -/
theorem exRun : (do
      let st ← computeBestPartitions exOps false 20 ((1 / 10 : ℚ) : With ℚ R4.to) (0 : ℚ) (1 : ℚ) PState.empty
      let a ← computeAUC (fun x => R4.to ((truncationIn ℚ 2).rnd x.1)) st
      let p ← getP (R4.to 2147483647) 2 st
      return (points (fun x : Rounded R4 => x.1) st, a.1, With.val p)) =
    .ok ([⟨0, 0⟩, ⟨5 / 16, 3 / 32⟩, ⟨1, 1⟩], 5 / 8, 1 / 4) := by decide +kernel

end Lp.C68

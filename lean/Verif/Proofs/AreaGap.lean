import Verif.Proofs.Missed
import Verif.Proofs.Refine
import Mathlib.Tactic.FieldSimp

/-!
# How much of the area below the quality curve a search with a threshold can miss
-/

namespace Lp
open Spec

section abstract
variable {K : Type} [Field K] [LinearOrder K] [IsStrictOrderedRing K]

/-- gain + loss -/
def qSum (a : Quality K) : K := a.gain + a.loss
/-- value at the parameter `p` -/
def qVal (p : K) (a : Quality K) : K := p * a.gain - (1 - p) * a.loss
/-- what is left when the area is computed with value and sum as coordinates -/
def qRest (p : K) (a : Quality K) : K := p * a.loss * a.gain + p * (a.gain * a.gain) / 2 - (1 - p) * (a.loss * a.loss) / 2

theorem area_coord (p : K) (a b : Quality K) : (b.gain - a.gain) * (b.loss + a.loss) / 2 =
    -((qSum b - qSum a) * (qVal p a + qVal p b) / 2) + qRest p b - qRest p a := by
  unfold qSum qVal qRest
  ring

/-- Values that a potential `Ψ` bounds give an area that is not too small. -/
theorem area_below (p C : K) (Ψ : K → K) : ∀ (m : List (Quality K)) (a b : Quality K),
    (a :: m ++ [b]).Pairwise (fun x y => qSum x ≤ qSum y ∧
      (qSum y - qSum x) * ((qVal p x - C) + (qVal p y - C)) / 2 ≤ Ψ (qSum y) - Ψ (qSum x)) →
    -(C * (qSum b - qSum a)) - (Ψ (qSum b) - Ψ (qSum a)) + qRest p b - qRest p a ≤ C32.area (a :: m ++ [b]) := by
  intro m
  induction m with
  | nil =>
    intro a b hp
    simp only [List.cons_append, List.nil_append, C32.area, add_zero]
    rw [area_coord p]
    have hs := (List.pairwise_cons.mp hp).1 b (by simp)
    linarith [hs.2]
  | cons c m ih =>
    intro a b hp
    simp only [List.cons_append, C32.area]
    have hs := (List.pairwise_cons.mp hp).1 c (by simp)
    have i := ih c b (List.pairwise_cons.mp hp).2
    rw [area_coord p a c]
    simp only [List.cons_append] at i
    linarith [hs.2]

/-- A function below a tent has at most the area of the tent: the potential. -/
theorem tent {α β A B : K} (ha : 0 ≤ α) (hb : 0 ≤ β) (hAB : A ≤ B) : ∃ Ψ : K → K, Ψ B - Ψ A ≤ (α + β) * (B - A) ^ 2 / 8 ∧
    ∀ s t h k, A ≤ s → s ≤ t → t ≤ B → h ≤ α * (s - A) → h ≤ β * (B - s) → k ≤ α * (t - A) → k ≤ β * (B - t) →
      (t - s) * (h + k) / 2 ≤ Ψ t - Ψ s := by
  rcases eq_or_lt_of_le (add_nonneg ha hb) with h0 | hpos
  · have a0 : α = 0 := by linarith
    have b0 : β = 0 := by linarith
    subst a0 b0
    refine ⟨fun _ => 0, by simp, ?_⟩
    intro s t h k _ hst _ h1 _ h3 _
    rw [zero_mul] at h1 h3
    have := mul_nonpos_of_nonneg_of_nonpos (sub_nonneg.mpr hst) (show h + k ≤ 0 by linarith)
    linarith
  · obtain ⟨w, hw⟩ : ∃ w : K, (α + β) * w = β * (B - A) := ⟨β * (B - A) / (α + β), by field_simp⟩
    have hw0 : 0 ≤ w := by
      by_contra hn
      push Not at hn
      have := mul_neg_of_pos_of_neg hpos hn
      have := mul_nonneg hb (sub_nonneg.mpr hAB)
      linarith
    have eqh : α * w = β * (B - A - w) := by linarith
    refine ⟨fun s => if s ≤ A + w then α * (s - A) ^ 2 / 2 else α * w ^ 2 / 2 + β * (B - A - w) ^ 2 / 2 - β * (B - s) ^ 2 / 2, ?_, ?_⟩
    · have hA : A ≤ A + w := by linarith
      dsimp only
      rw [if_pos hA]
      -- the area of the whole tent
      have total : α * w ^ 2 / 2 + β * (B - A - w) ^ 2 / 2 = α * w * (B - A) / 2 := by
        have : β * (B - A - w) ^ 2 = α * w * (B - A - w) := by rw [sq, ← mul_assoc, ← eqh]
        rw [this]; ring
      have bound : α * w * (B - A) / 2 ≤ (α + β) * (B - A) ^ 2 / 8 := by
        have h1 : (α + β) * (α * w) = α * (β * (B - A)) := by rw [← hw]; ring
        have h2 : 4 * (α * β) ≤ (α + β) * (α + β) := by nlinarith [mul_self_nonneg (α - β)]
        have h3 : (α + β) * (4 * (α * w)) ≤ (α + β) * ((α + β) * (B - A)) := by
          have : (α + β) * (4 * (α * w)) = 4 * (α * β) * (B - A) := by rw [mul_left_comm, h1]; ring
          rw [this]
          have := mul_le_mul_of_nonneg_right h2 (sub_nonneg.mpr hAB)
          linarith
        have h4 := le_of_mul_le_mul_left h3 hpos
        have h5 := mul_le_mul_of_nonneg_right h4 (sub_nonneg.mpr hAB)
        nlinarith
      by_cases hB : B ≤ A + w
      · rw [if_pos hB]
        have : α * w ≤ 0 := by rw [eqh]; exact mul_nonpos_of_nonneg_of_nonpos hb (by linarith)
        have aw : α * w = 0 := le_antisymm this (mul_nonneg ha hw0)
        have ab : α * (B - A) ≤ α * w := mul_le_mul_of_nonneg_left (by linarith) ha
        have ab0 : α * (B - A) = 0 := le_antisymm (by linarith) (mul_nonneg ha (sub_nonneg.mpr hAB))
        have : α * (B - A) ^ 2 = 0 := by rw [sq, ← mul_assoc, ab0, zero_mul]
        rw [this, sub_self]
        have : 0 ≤ (α + β) * (B - A) ^ 2 := mul_nonneg hpos.le (sq_nonneg _)
        nlinarith
      · rw [if_neg hB, total, sub_self, sub_self]
        have : α * w * (B - A) / 2 - β * 0 ^ 2 / 2 - α * 0 ^ 2 / 2 = α * w * (B - A) / 2 := by ring
        rw [this]
        exact bound
    · intro s t h k hs hst htB h1 h2 h3 h4
      dsimp only
      have d0 : 0 ≤ t - s := sub_nonneg.mpr hst
      by_cases ht : t ≤ A + w
      · rw [if_pos ht, if_pos (le_trans hst ht)]
        have := mul_le_mul_of_nonneg_left (add_le_add h1 h3) d0
        nlinarith
      · rw [if_neg ht]
        by_cases hs' : s ≤ A + w
        · rw [if_pos hs']
          have m := mul_le_mul_of_nonneg_left (add_le_add h1 h4) d0
          push Not at ht
          have cross : 0 ≤ (α + β) * ((A + w - s) * (t - (A + w))) :=
            mul_nonneg hpos.le (mul_nonneg (by linarith) (by linarith))
          have e1 : α * w * (t - (A + w)) = β * (B - A - w) * (t - (A + w)) := by rw [eqh]
          have e2 : α * w * (A + w - s) = β * (B - A - w) * (A + w - s) := by rw [eqh]
          nlinarith
        · rw [if_neg hs']
          have := mul_le_mul_of_nonneg_left (add_le_add h2 h4) d0
          nlinarith

/-- Two points of a growing curve have the same value at some parameter. -/
theorem same_value {a b : Quality K} (hg : a.gain ≤ b.gain) (hl : a.loss ≤ b.loss) : ∃ p : K, qVal p a = qVal p b := by
  rcases eq_or_lt_of_le (add_nonneg (sub_nonneg.mpr hg) (sub_nonneg.mpr hl)) with h | h
  · refine ⟨0, ?_⟩
    unfold qVal
    linarith
  · refine ⟨(b.loss - a.loss) / (b.gain - a.gain + (b.loss - a.loss)), ?_⟩
    unfold qVal
    have hne : b.gain - a.gain + (b.loss - a.loss) ≠ 0 := ne_of_gt h
    field_simp
    ring

/-- `b` follows `a` on the curve, and where they have the same value, the points `v` of the list between them lie below a tent with
slopes of sum at most `c`, raised by `ε`. -/
def Between (c ε : K) (l' : List (Quality K)) (a b : Quality K) : Prop :=
  ∀ p, qVal p a = qVal p b → ∃ α β : K, 0 ≤ α ∧ 0 ≤ β ∧ α + β ≤ c ∧
    ∀ v ∈ l', qSum a ≤ qSum v → qSum v ≤ qSum b →
      qVal p v ≤ qVal p a + ε + α * (qSum v - qSum a) ∧ qVal p v ≤ qVal p a + ε + β * (qSum b - qSum v)

/-- Leaving out points raises the area below the curve by little. -/
theorem area_gap {c ε : K} (c0 : 0 ≤ c) (hε : 0 ≤ ε) : ∀ (l l' : List (Quality K)) (a z : Quality K), l.Sublist l' →
    (a :: l').Pairwise (fun a b => a.gain ≤ b.gain ∧ a.loss ≤ b.loss ∧ a ≠ b) →
    List.IsChain (Between c ε (a :: l')) (a :: l) → (a :: l).getLast? = some z → (a :: l').getLast? = some z →
    C32.area (a :: l) ≤ C32.area (a :: l') + c * (qSum z - qSum a) ^ 2 / 8 + ε * (qSum z - qSum a) := by
  intro l
  induction l with
  | nil =>
    intro l' a z _ hp _ h1 h2
    simp at h1
    subst h1
    rcases List.eq_nil_or_concat l' with rfl | ⟨m, w, rfl⟩
    · simp
    · exfalso
      rw [List.concat_eq_append] at hp h2
      rw [← List.cons_append, List.getLast?_append] at h2
      simp at h2
      exact ((List.pairwise_cons.mp hp).1 w (by simp)).2.2 h2.symm
  | cons b l ih =>
    intro l' a z hs hp hch h1 h2
    obtain ⟨r1, n, rfl, hm, hn⟩ := List.cons_sublist_iff.mp hs
    obtain ⟨m, m2, rfl⟩ := List.append_of_mem hm
    have hn' : l.Sublist (m2 ++ n) := hn.trans (List.sublist_append_right _ _)
    have eq : a :: (m ++ b :: m2 ++ n) = (a :: m) ++ b :: (m2 ++ n) := by simp
    rw [eq] at hp hch h2 ⊢
    have sub : (b :: (m2 ++ n)).Sublist ((a :: m) ++ b :: (m2 ++ n)) := List.sublist_append_right _ _
    have sub1 : ((a :: m) ++ [b]).Sublist ((a :: m) ++ b :: (m2 ++ n)) :=
      (List.Sublist.refl _).append (by simp)
    rw [List.isChain_cons_cons] at hch
    rw [List.getLast?_append_of_ne_nil _ (by simp)] at h2
    have i := ih (m2 ++ n) b z hn' (hp.sublist sub)
      (hch.2.imp (fun x y hxy p ep => by
        obtain ⟨α, β, h1, h2, h3, h4⟩ := hxy p ep
        exact ⟨α, β, h1, h2, h3, fun v hv => h4 v (sub.mem hv)⟩)) (by rwa [List.getLast?_cons_cons] at h1) h2
    have hpb := hp.sublist sub
    have hbz : qSum b ≤ qSum z := by
      rcases List.mem_cons.mp (List.mem_of_getLast? h2) with rfl | hz
      · exact le_refl _
      · have := (List.pairwise_cons.mp hpb).1 z hz
        unfold qSum; linarith [this.1, this.2.1]
    have hab : a.gain ≤ b.gain ∧ a.loss ≤ b.loss := by
      have := (List.pairwise_cons.mp hp).1 b (by simp)
      exact ⟨this.1, this.2.1⟩
    have habs : qSum a ≤ qSum b := by unfold qSum; linarith [hab.1, hab.2]
    obtain ⟨p, ep⟩ := same_value hab.1 hab.2
    obtain ⟨α, β, hα, hβ, hαβ, hv⟩ := hch.1 p ep
    obtain ⟨Ψ, ht1, ht2⟩ := tent hα hβ habs
    have inc : (a :: m ++ [b]).Pairwise (fun x y => qSum x ≤ qSum y) :=
      (hp.sublist sub1).imp (fun {x y} h => by unfold qSum; linarith [h.1, h.2.1])
    have inside : ∀ v ∈ a :: m ++ [b], qSum a ≤ qSum v ∧ qSum v ≤ qSum b := by
      intro v hv
      constructor
      · rcases List.mem_cons.mp hv with rfl | hv'
        · exact le_refl _
        · exact (List.pairwise_cons.mp inc).1 v hv'
      · rcases List.mem_append.mp hv with hv' | hv'
        · exact (List.pairwise_append.mp inc).2.2 v hv' b (by simp)
        · simp at hv'; subst hv'; exact le_refl _
    have low := area_below p (qVal p a + ε) Ψ m a b (inc.imp_of_mem (by
      intro x y mx my hxy
      have hx := hv x (sub1.mem mx) (inside x mx).1 (inside x mx).2
      have hy := hv y (sub1.mem my) (inside y my).1 (inside y my).2
      exact ⟨hxy, ht2 _ _ _ _ (inside x mx).1 hxy (inside y my).2 (by linarith [hx.1]) (by linarith [hx.2])
        (by linarith [hy.1]) (by linarith [hy.2])⟩))
    have top : (α + β) * (qSum b - qSum a) ^ 2 ≤ c * (qSum b - qSum a) ^ 2 := mul_le_mul_of_nonneg_right hαβ (sq_nonneg _)
    rw [area_join]
    have e : C32.area (a :: b :: l) = (b.gain - a.gain) * (b.loss + a.loss) / 2 + C32.area (b :: l) := rfl
    rw [e, area_coord p, ← ep]
    have sq : (qSum b - qSum a) ^ 2 + (qSum z - qSum b) ^ 2 ≤ (qSum z - qSum a) ^ 2 := by
      nlinarith [mul_nonneg (sub_nonneg.mpr habs) (sub_nonneg.mpr hbz)]
    have sq' : c * ((qSum b - qSum a) ^ 2 + (qSum z - qSum b) ^ 2) ≤ c * (qSum z - qSum a) ^ 2 :=
      mul_le_mul_of_nonneg_left sq c0
    nlinarith

end abstract

section search
variable {F K P T : Type} [Field K] [LinearOrder K] [FloatP F K] {u : K}

omit [Field K] [LinearOrder K] [FloatP F K] in
/-- Consecutive kept elements come from consecutive elements. -/
theorem keep_chain {same : F → F → Bool} (hr : ∀ x, same x x = true)
    (ht : ∀ x y z, same x y = true → same y z = true → same x z = true) {R : F → F → Prop} :
    ∀ (l : List F), List.IsChain R l →
      List.IsChain (fun a b => ∃ x, same x a = true ∧ R x b ∧ same b x = false) (keep same l) := by
  have aux : ∀ (l : List F) (x a : F), same x a = true → List.IsChain R (x :: l) →
      List.IsChain (fun a b => ∃ x, same x a = true ∧ R x b ∧ same b x = false) (a :: keepAux same x l) := by
    intro l
    induction l with
    | nil => intro x a _ _; simp [keepAux]
    | cons y l ih =>
      intro x a hxa hc
      rw [List.isChain_cons_cons] at hc
      unfold keepAux
      split
      · rename_i h
        exact ih y a (ht _ _ _ h hxa) hc.2
      · rename_i h
        rw [List.isChain_cons_cons]
        exact ⟨⟨x, hxa, hc.1, by simpa using h⟩, ih y y (hr y) hc.2⟩
  intro l hc
  cases l with
  | nil => simp [keep]
  | cons x l => exact aux l x x (hr x) hc

variable [IsStrictOrderedRing K]

/-- Consecutive listed qualities are those of the best partitions at two parameters that differ by little. -/
theorem narrow_gaps (fl : FloatLaws F K u) {ops : PartOps F K P T} (ho : IsPartitioner ops) {t lo hi : F}
    (h0 : (0 : K) ≤ num lo) (hlt : (num lo : K) < num hi) (h1 : (num hi : K) ≤ 1) {fuel : Nat} {st st' : PState F K P T}
    (h : computeBestPartitions ops false fuel t lo hi st = .ok st') :
    List.IsChain (fun a b : Quality K => ∃ x y X Y, (0 : K) ≤ num x ∧ (num x : K) < num y ∧ (num y : K) ≤ 1 ∧
      (num y : K) - num x ≤ num t + u ∧ ops.best x = .ok X ∧ ops.best y = .ok Y ∧ ops.quality X = a ∧ ops.quality Y = b)
      (st'.qualityList.map Prod.snd) := by
  obtain ⟨B, so⟩ := isPartitioner_ops ho
  obtain ⟨L, hc, hb, e1, _, e2, e3, _⟩ := search_full fl so h0 hlt h1 h
  have hrange := samples_range (K := K) hlt hb
  have hc' : List.IsChain (fun x y => x ∈ lo :: L ++ [hi] ∧ y ∈ lo :: L ++ [hi] ∧ Resolved ops B t x y) (lo :: L ++ [hi]) := by
    rw [List.isChain_iff_getElem] at hc ⊢
    intro i hi
    exact ⟨List.getElem_mem _, List.getElem_mem _, hc i hi⟩
  have hk := keep_chain (same := fun x y => ops.same (B x) (B y)) so.refl (fun x y z => so.trans x y z) _ hc'
  rw [e3, e1, List.map_map, List.isChain_map]
  refine hk.imp ?_
  rintro a b ⟨x, sxa, ⟨mx, my, hxy, hres⟩, hd⟩
  refine ⟨x, b, B x, B b, le_trans h0 (hrange x mx).1, hxy, le_trans (hrange b my).2 h1, ?_, so.best x, so.best b,
    isPartitioner_sameQ ho _ _ _ _ (so.best x) (so.best a) sxa, rfl⟩
  rcases hres with hres | hres
  · have := so.symm _ _ hres
    rw [hd] at this
    simp at this
  · have h2 := fl.sub_err x b (le_trans h0 (hrange x mx).1) (le_of_lt hxy) (le_trans (hrange b my).2 h1)
    have h3 : ¬ ((FloatP.toK t : K) < FloatP.toK (FloatP.sub b x)) := by
      rw [← fl.lt_iff, hres]; simp
    have := (abs_le.mp h2).1
    change (FloatP.toK b : K) - FloatP.toK x ≤ FloatP.toK t + u
    linarith

/-- The points between two neighbours, where these have the same value. -/
theorem excess {c e Λ xk yk wx wy p : K} {a b : Quality K} {l' : List (Quality K)} (hx : |wx - (1 - xk)| ≤ e)
    (hy : |wy - (1 - yk)| ≤ e) (he : 0 ≤ e) (hxy : xk < yk) (hc : yk - xk ≤ c)
    (hv : ∀ v ∈ l', |v.loss - a.loss| ≤ Λ ∧ |v.loss - b.loss| ≤ Λ ∧
      xk * v.gain - wx * v.loss ≤ xk * a.gain - wx * a.loss ∧ yk * v.gain - wy * v.loss ≤ yk * b.gain - wy * b.loss)
    (ep : qVal p a = qVal p b) : ∃ α β : K, 0 ≤ α ∧ 0 ≤ β ∧ α + β ≤ c ∧
    ∀ v ∈ l', qSum a ≤ qSum v → qSum v ≤ qSum b →
      qVal p v ≤ qVal p a + e * Λ + α * (qSum v - qSum a) ∧ qVal p v ≤ qVal p a + e * Λ + β * (qSum b - qSum v) := by
  have key : ∀ v ∈ l', qVal p v ≤ qVal p a + (p - xk) * (qSum v - qSum a) + e * Λ ∧
      qVal p v ≤ qVal p b + (p - yk) * (qSum v - qSum b) + e * Λ := fun v m => by
    obtain ⟨h1, h2, h3, h4⟩ := hv v m
    exact ⟨regret_at (p := p) hx h1 he h3, regret_at (p := p) hy h2 he h4⟩
  rcases le_total p xk with hp | hp
  · refine ⟨0, 0, le_refl _, le_refl _, by linarith, fun v m s1 s2 => ?_⟩
    have := (key v m).1
    have : (p - xk) * (qSum v - qSum a) ≤ 0 := mul_nonpos_of_nonpos_of_nonneg (by linarith) (by linarith)
    constructor <;> linarith
  rcases le_total yk p with hp' | hp'
  · refine ⟨0, 0, le_refl _, le_refl _, by linarith, fun v m s1 s2 => ?_⟩
    have := (key v m).2
    have : (p - yk) * (qSum v - qSum b) ≤ 0 := mul_nonpos_of_nonneg_of_nonpos (by linarith) (by linarith)
    constructor <;> linarith
  · refine ⟨p - xk, yk - p, by linarith, by linarith, by linarith, fun v m s1 s2 => ?_⟩
    have k1 := (key v m).1
    have k2 := (key v m).2
    have : (p - yk) * (qSum v - qSum b) = (yk - p) * (qSum b - qSum v) := by ring
    constructor <;> linarith

end search
end Lp

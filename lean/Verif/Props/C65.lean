import Verif.Props.C46
import Mathlib.Tactic.Ring
import Mathlib.Tactic.FieldSimp

/-!
# C65 — the arithmetic of tradeoffs keeps the value consistent with the quality

A tradeoff stores its value (pIC) beside its quality.  Which operations keep the two together?
-/

namespace Lp.C65
open Spec C46
variable {F K : Type}

/-- Any arithmetic: the four compound operators act on value, gain and loss separately, in the given order of the
arguments. -/
theorem componentwise [LD K] (a b : Tradeoff K) (o : Arith) :
    Tradeoff.bin o a b = ⟨signed o a.value b.value, signed o a.gain b.gain, signed o a.loss b.loss⟩ ∧
    Quality.bin o ⟨a.gain, a.loss⟩ ⟨b.gain, b.loss⟩ = ⟨signed o a.gain b.gain, signed o a.loss b.loss⟩ := by
  cases o <;> exact ⟨rfl, rfl⟩

/-- The sequence contains no pointer copies, and its calls that set values are those with parameter `p`, sums and
differences. -/
def Additive (p : F) : Call F K → Prop
  | .tSet _ _ p' | .tPIC _ p' => p' = p
  | .tArith o _ _ => o = .add ∨ o = .sub
  | .tOfQ _ _ | .tOfVal _ _ _ => False
  | .qCopy _ _ | .qTake _ _ | .tAssign _ _ => False
  | _ => True

/-- The value is the parametrised information criterion `p * gain - (1 - p) * loss` of gain and loss. -/
def Consistent [LD K] [FloatP F K] (p : F) (t : Tradeoff K) : Prop :=
  t.value = FloatP.toK p * t.gain - FloatP.toK (FloatP.oneSub p) * t.loss

section
variable [Field K] [LinearOrder K] [FloatP F K]

theorem set_mem_aux {α : Type} {l l' : List α} {i : Nat} {x y : α} (h : vset l i x = .ok l') (hy : y ∈ l') :
    y ∈ l ∨ y = x := by
  unfold vset at h
  split at h <;> simp at h
  subst h
  exact List.mem_or_eq_of_mem_set hy

theorem bind_aux {α β : Type} {x : Res α} {f : α → Res β} {b : β} (h : (x >>= f) = .ok b) :
    ∃ a, x = .ok a ∧ f a = .ok b := by
  cases x with
  | error e => simp at h
  | ok a => exact ⟨a, rfl, h⟩

theorem get_mem_aux {α : Type} {l : List α} {i : Nat} {x : α} (h : vget l i = .ok x) : x ∈ l :=
  List.mem_of_getElem? (vget_eq_ok.mp h)

theorem step_aux (p : F) (v v' : Values K) (c : Call F K) (hc : Additive p c) (h : v.step c = .ok v')
    (hv : ∀ t ∈ v.tr, Consistent p t) : ∀ t ∈ v'.tr, Consistent p t := by
  intro t ht
  cases c with
  | qNew h' g l =>
    obtain ⟨_, _, h⟩ := bind_aux h
    simp at h; subst h; exact hv t ht
  | qCopy h1 h2 => exact absurd hc id
  | qTake h1 h2 => exact absurd hc id
  | qSetGain h' g =>
    obtain ⟨_, _, h⟩ := bind_aux h
    obtain ⟨_, _, h⟩ := bind_aux h
    simp at h; subst h; exact hv t ht
  | qSetLoss h' g =>
    obtain ⟨_, _, h⟩ := bind_aux h
    obtain ⟨_, _, h⟩ := bind_aux h
    simp at h; subst h; exact hv t ht
  | qAddGain h' g =>
    obtain ⟨_, _, h⟩ := bind_aux h
    obtain ⟨_, _, h⟩ := bind_aux h
    simp at h; subst h; exact hv t ht
  | qAddLoss h' g =>
    obtain ⟨_, _, h⟩ := bind_aux h
    obtain ⟨_, _, h⟩ := bind_aux h
    simp at h; subst h; exact hv t ht
  | qArith o h1 h2 =>
    obtain ⟨_, _, h⟩ := bind_aux h
    obtain ⟨_, _, h⟩ := bind_aux h
    obtain ⟨_, _, h⟩ := bind_aux h
    simp at h; subst h; exact hv t ht
  | qBin o h0 h1 h2 =>
    obtain ⟨_, _, h⟩ := bind_aux h
    obtain ⟨_, _, h⟩ := bind_aux h
    obtain ⟨_, _, h⟩ := bind_aux h
    simp at h; subst h; exact hv t ht
  | tNew i =>
    obtain ⟨tr, h1, h⟩ := bind_aux h
    simp at h; subst h
    rcases set_mem_aux h1 ht with ht | rfl
    · exact hv t ht
    · unfold Consistent
      show (0 : K) = FloatP.toK p * 0 - FloatP.toK (FloatP.oneSub p) * 0
      ring
  | tOfQ i h' => exact absurd hc id
  | tOfVal i k h' => exact absurd hc id
  | tSet i h' p' =>
    obtain rfl : p' = p := hc
    obtain ⟨x, _, h⟩ := bind_aux h
    obtain ⟨tr, h1, h⟩ := bind_aux h
    simp at h; subst h
    rcases set_mem_aux h1 ht with ht | rfl
    · exact hv t ht
    · rfl
  | tPIC i p' =>
    obtain rfl : p' = p := hc
    obtain ⟨x, _, h⟩ := bind_aux h
    obtain ⟨tr, h1, h⟩ := bind_aux h
    simp at h; subst h
    rcases set_mem_aux h1 ht with ht | rfl
    · exact hv t ht
    · rfl
  | tAssign i j => exact absurd hc id
  | tArith o i j =>
    obtain ⟨a, ha, h⟩ := bind_aux h
    obtain ⟨b, hb, h⟩ := bind_aux h
    obtain ⟨tr, h1, h⟩ := bind_aux h
    simp at h; subst h
    rcases set_mem_aux h1 ht with ht | rfl
    · exact hv t ht
    · have ea := hv a (get_mem_aux ha)
      have eb := hv b (get_mem_aux hb)
      unfold Consistent at ea eb ⊢
      have hc : o = .add ∨ o = .sub := hc
      rcases hc with rfl | rfl
      · show a.value + b.value =
          FloatP.toK p * (a.gain + b.gain) - FloatP.toK (FloatP.oneSub p) * (a.loss + b.loss)
        rw [ea, eb]
        show FloatP.toK p * a.gain - FloatP.toK (FloatP.oneSub p) * a.loss +
          (FloatP.toK p * b.gain - FloatP.toK (FloatP.oneSub p) * b.loss) = _
        ring
      · show a.value - b.value =
          FloatP.toK p * (a.gain - b.gain) - FloatP.toK (FloatP.oneSub p) * (a.loss - b.loss)
        rw [ea, eb]
        show FloatP.toK p * a.gain - FloatP.toK (FloatP.oneSub p) * a.loss -
          (FloatP.toK p * b.gain - FloatP.toK (FloatP.oneSub p) * b.loss) = _
        ring

theorem run_aux (p : F) : ∀ (l : List (Call F K)) (v v' : Values K), (∀ c ∈ l, Additive p c) →
    v.run l = .ok v' → (∀ t ∈ v.tr, Consistent p t) → ∀ t ∈ v'.tr, Consistent p t := by
  intro l
  induction l with
  | nil =>
    intro v v' _ h hv
    simp [Values.run, forEach] at h
    subst h; exact hv
  | cons c l ih =>
    intro v v' hl h hv
    unfold Values.run forEach at h
    cases hs : v.step c with
    | error e => rw [hs] at h; simp at h
    | ok w =>
      rw [hs] at h
      exact ih w v' (fun c hc => hl c (by simp [hc])) h (step_aux p v w c (hl c (by simp)) hs hv)

/-- Exact arithmetic, any parameter `p`: in every sequence of calls without pointer copies whose tradeoffs are made and
recomputed with `p` and combined by `+=` and `-=` only (also `t += t`), whatever is done to the qualities in between,
every tradeoff reports the value `p * gain - (1 - p) * loss` of the gain and loss it reports. -/
theorem consistent (nt nh : Nat) (p : F) (l : List (Call F K)) (hl : ∀ c ∈ l, Additive p c) (s : Store K)
    (h : (Store.fresh nt nh).run l = .ok s) : ∀ t ∈ (observe s).tr, Consistent p t := by
  have hs : ∀ c ∈ l, ¬ Shares c := by
    intro c hc
    have := hl c hc
    cases c <;> simp_all [Additive, Shares]
  have h1 := withoutAssignment (K := K) nt nh l hs
  rw [h] at h1
  refine run_aux p l _ (observe s) hl h1.symm ?_
  intro t ht
  rw [List.mem_replicate] at ht
  obtain ⟨_, rfl⟩ := ht
  unfold Consistent
  show (0 : K) = FloatP.toK p * 0 - FloatP.toK (FloatP.oneSub p) * 0
  ring

/-- Exact arithmetic: the pIC of a sum of qualities is the sum of the tradeoffs. -/
theorem additive (p : F) (q r : Quality K) :
    Tradeoff.set (q.add r) p = (Tradeoff.set q p).add (Tradeoff.set r p) ∧
    Tradeoff.set (q.sub r) p = (Tradeoff.set q p).sub (Tradeoff.set r p) := by
  constructor
  · simp only [Tradeoff.set, Tradeoff.add, Quality.add, Tradeoff.pic, Tradeoff.mk.injEq, and_true]
    show FloatP.toK p * (q.gain + r.gain) - FloatP.toK (FloatP.oneSub p) * (q.loss + r.loss) =
      FloatP.toK p * q.gain - FloatP.toK (FloatP.oneSub p) * q.loss +
        (FloatP.toK p * r.gain - FloatP.toK (FloatP.oneSub p) * r.loss)
    ring
  · simp only [Tradeoff.set, Tradeoff.sub, Quality.sub, Tradeoff.pic, Tradeoff.mk.injEq, and_true]
    show FloatP.toK p * (q.gain - r.gain) - FloatP.toK (FloatP.oneSub p) * (q.loss - r.loss) =
      FloatP.toK p * q.gain - FloatP.toK (FloatP.oneSub p) * q.loss -
        (FloatP.toK p * r.gain - FloatP.toK (FloatP.oneSub p) * r.loss)
    ring

omit [FloatP F K] in
/-- Exact arithmetic: `-=` undoes `+=`, and `/=` undoes `*=` if no component of the argument is 0. -/
theorem undo (a b : Tradeoff K) :
    Tradeoff.bin .sub (Tradeoff.bin .add a b) b = a ∧
    (b.value ≠ 0 → b.gain ≠ 0 → b.loss ≠ 0 → Tradeoff.bin .div (Tradeoff.bin .mul a b) b = a) := by
  constructor
  · show (⟨a.value + b.value - b.value, a.gain + b.gain - b.gain, a.loss + b.loss - b.loss⟩ : Tradeoff K) = a
    simp
  · intro h1 h2 h3
    show (⟨a.value * b.value / b.value, a.gain * b.gain / b.gain, a.loss * b.loss / b.loss⟩ : Tradeoff K) = a
    rw [mul_div_cancel_right₀ _ h1, mul_div_cancel_right₀ _ h2, mul_div_cancel_right₀ _ h3]

omit [FloatP F K] in
/-- Exact arithmetic: the binary operators, which no program can call (they are not defined where they are declared),
would give the same as the compound ones. -/
theorem binary (o : Arith) (a b : Tradeoff K) : Tradeoff.binFree o a b = Tradeoff.bin o a b := by
  have h1 : (0 : K) + a.gain = a.gain := zero_add _
  have h2 : (0 : K) + a.loss = a.loss := zero_add _
  cases o
  · show (⟨a.value + b.value, 0 + a.gain + b.gain, 0 + a.loss + b.loss⟩ : Tradeoff K) = ⟨_, _, _⟩
    rw [h1, h2]
  · show (⟨a.value - b.value, 0 + a.gain - b.gain, 0 + a.loss - b.loss⟩ : Tradeoff K) = ⟨_, _, _⟩
    rw [h1, h2]
  · show (⟨a.value * b.value, (0 + a.gain) * b.gain, (0 + a.loss) * b.loss⟩ : Tradeoff K) = ⟨_, _, _⟩
    rw [h1, h2]
  · show (⟨a.value / b.value, (0 + a.gain) / b.gain, (0 + a.loss) / b.loss⟩ : Tradeoff K) = ⟨_, _, _⟩
    rw [h1, h2]
end

/-! ## Cases -/

instance (p : ℚ) (t : Tradeoff ℚ) : Decidable (Consistent p t) :=
  inferInstanceAs (Decidable (t.value = p * t.gain - (1 - p) * t.loss))

/-- A sequence as in `consistent`: two tradeoffs of different qualities, a change of a quality, `t1 += t0`, `t1 += t1`,
`t0 -= t1`. -/
example : (∀ c ∈ ([.qNew 0 5 2, .tSet 0 0 (1 / 4), .qAddGain 0 3, .tSet 1 0 (1 / 4), .tArith .add 1 0, .tArith .add 1 1,
      .tArith .sub 0 1] : List (Call ℚ ℚ)), Additive (1 / 4) c) ∧
    ((Store.fresh 2 1 : Store ℚ).run ([.qNew 0 5 2, .tSet 0 0 (1 / 4), .qAddGain 0 3, .tSet 1 0 (1 / 4), .tArith .add 1 0,
      .tArith .add 1 1, .tArith .sub 0 1] : List (Call ℚ ℚ))).map (fun s => (observe s).tr) =
    .ok [⟨-3 / 4, -21, -6⟩, ⟨1 / 2, 26, 8⟩] := by
  refine ⟨?_, by decide +kernel⟩
  intro c hc
  simp only [List.mem_cons, List.not_mem_nil, or_false] at hc
  rcases hc with rfl | rfl | rfl | rfl | rfl | rfl | rfl <;> simp [Additive]

/-- Products do not keep value and quality together: `t0 *= t1`. -/
theorem product : ((Store.fresh 2 1 : Store ℚ).run ([.qNew 0 5 2, .tSet 0 0 (1 / 2), .tSet 1 0 (1 / 2), .tArith .mul 0 1] :
      List (Call ℚ ℚ))).map (fun s => (observe s).tr) = .ok [⟨9 / 4, 25, 4⟩, ⟨3 / 2, 5, 2⟩] ∧
    ¬ Consistent (1 / 2 : ℚ) (⟨9 / 4, 25, 4⟩ : Tradeoff ℚ) := by decide +kernel

/-- Nor do assignments: after `t1 = t0; t1 += t0` the value of `t0` is not that of its quality any more. -/
theorem assigned : ((Store.fresh 2 1 : Store ℚ).run ([.qNew 0 5 2, .tSet 0 0 (1 / 2), .tAssign 1 0, .tArith .add 1 0] :
      List (Call ℚ ℚ))).map (fun s => (observe s).tr) = .ok [⟨3 / 2, 10, 4⟩, ⟨3, 10, 4⟩] ∧
    ¬ Consistent (1 / 2 : ℚ) (⟨3 / 2, 10, 4⟩ : Tradeoff ℚ) := by decide +kernel

end Lp.C65

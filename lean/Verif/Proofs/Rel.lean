import Verif.Base.Res

/-!
# Two runs with related outcomes
-/

namespace Lp
variable {α β γ δ σ τ : Type}

/-- Both runs succeed with related results, or both fail in the same way. -/
def RelRes (R : α → β → Prop) : Res α → Res β → Prop
  | .ok a, .ok b => R a b
  | .error e, .error e' => e = e'
  | _, _ => False

theorem RelRes.bind {R : α → β → Prop} {S : γ → δ → Prop} {a : Res α} {b : Res β} {f : α → Res γ} {g : β → Res δ}
    (h : RelRes R a b) (hf : ∀ x y, R x y → RelRes S (f x) (g y)) : RelRes S (a >>= f) (b >>= g) := by
  cases a <;> cases b <;> simp only [RelRes, okBind, errBind] at *
  · exact h
  · exact hf _ _ h

theorem RelRes.mono {R S : α → β → Prop} {a : Res α} {b : Res β} (h : RelRes R a b) (hf : ∀ x y, R x y → S x y) :
    RelRes S a b := by
  cases a <;> cases b <;> simp only [RelRes] at *
  · exact h
  · exact hf _ _ h

theorem RelRes.bind_right {R : α → β → Prop} {S : α → γ → Prop} {a : Res α} {b : Res β} {f : β → γ}
    (h : RelRes R a b) (hf : ∀ x y, R x y → S x (f y)) : RelRes S a (b >>= fun y => .ok (f y)) := by
  cases a <;> cases b <;> simp only [RelRes, okBind, errBind] at *
  · exact h
  · exact hf _ _ h

theorem RelRes.ok_left {R : α → β → Prop} {a : α} {b : Res β} (h : RelRes R (.ok a) b) : ∃ y, b = .ok y ∧ R a y := by
  cases b with
  | error e => exact h.elim
  | ok y => exact ⟨y, rfl, h⟩

theorem RelRes.ok_right {R : α → β → Prop} {a : Res α} {b : β} (h : RelRes R a (.ok b)) : ∃ x, a = .ok x ∧ R x b := by
  cases a with
  | error e => exact h.elim
  | ok y => exact ⟨y, rfl, h⟩

theorem relRes_refl (a : Res α) : RelRes (fun x y => x = y) a a := by
  cases a <;> simp [RelRes]

theorem forUpAux_rel {f : Nat → σ → Res σ} {g : Nat → τ → Res τ} (P : Nat → σ → τ → Prop) :
    ∀ (n i : Nat) (s : σ) (t : τ), P i s t →
      (∀ k s t, i ≤ k → k < i + n → P k s t → RelRes (P (k + 1)) (f k s) (g k t)) →
      RelRes (P (i + n)) (forUpAux f n i s) (forUpAux g n i t) := by
  intro n
  induction n with
  | zero => intro i s t h _; exact h
  | succ n ih =>
    intro i s t h step
    have h1 := step i s t (Nat.le_refl _) (by omega) h
    unfold forUpAux
    cases e1 : f i s <;> cases e2 : g i t <;> rw [e1, e2] at h1 <;> simp only [RelRes] at h1 ⊢
    · exact h1
    · have := ih (i + 1) _ _ h1 (fun k s t hk hk' => step k s t (by omega) (by omega))
      have e : i + 1 + n = i + (n + 1) := by omega
      rwa [e] at this

theorem forUp_rel {f : Nat → σ → Res σ} {g : Nat → τ → Res τ} {lo hi : Nat} {s : σ} {t : τ} (P : Nat → σ → τ → Prop)
    (hle : lo ≤ hi) (h0 : P lo s t)
    (step : ∀ k s t, lo ≤ k → k < hi → P k s t → RelRes (P (k + 1)) (f k s) (g k t)) :
    RelRes (P hi) (forUp lo hi f s) (forUp lo hi g t) := by
  have := forUpAux_rel (f := f) (g := g) P (hi - lo) lo s t h0 (fun k s t h1 h2 => step k s t h1 (by omega))
  rwa [Nat.add_sub_cancel' hle] at this

/-- The same with a relation that does not depend on the counter. -/
theorem forUp_relC {f : Nat → σ → Res σ} {g : Nat → τ → Res τ} {lo hi : Nat} {s : σ} {t : τ} (P : σ → τ → Prop)
    (h0 : P s t) (step : ∀ k s t, lo ≤ k → k < hi → P s t → RelRes P (f k s) (g k t)) :
    RelRes P (forUp lo hi f s) (forUp lo hi g t) :=
  forUpAux_rel (f := f) (g := g) (fun _ => P) (hi - lo) lo s t h0 (fun k s t h1 h2 => step k s t h1 (by omega))

theorem forDown_rel {f : Nat → σ → Res σ} {g : Nat → τ → Res τ} (P : Nat → σ → τ → Prop) :
    ∀ (n : Nat) (s : σ) (t : τ), P n s t →
      (∀ k s t, k < n → P (k + 1) s t → RelRes (P k) (f k s) (g k t)) →
      RelRes (P 0) (forDown n f s) (forDown n g t) := by
  intro n
  induction n with
  | zero => intro s t h _; exact h
  | succ n ih =>
    intro s t h step
    have h1 := step n s t (by omega) h
    unfold forDown
    cases e1 : f n s <;> cases e2 : g n t <;> rw [e1, e2] at h1 <;> simp only [RelRes] at h1 ⊢
    · exact h1
    · exact ih _ _ h1 (fun k s t hk => step k s t (by omega))

theorem forEach_rel {f : α → σ → Res σ} {g : α → τ → Res τ} (P : σ → τ → Prop) :
    ∀ (l : List α) (s : σ) (t : τ), P s t → (∀ x s t, x ∈ l → P s t → RelRes P (f x s) (g x t)) →
      RelRes P (forEach f l s) (forEach g l t) := by
  intro l
  induction l with
  | nil => intro s t h _; exact h
  | cons x l ih =>
    intro s t h step
    have h1 := step x s t (by simp) h
    unfold forEach
    cases e1 : f x s <;> cases e2 : g x t <;> rw [e1, e2] at h1 <;> simp only [RelRes] at h1 ⊢
    · exact h1
    · exact ih _ _ h1 (fun y s t hy => step y s t (by simp [hy]))

theorem vget_rel {v : List α} {w : List β} {R : α → β → Prop} {i : Nat} (hl : v.length = w.length)
    (h : ∀ a b, v[i]? = some a → w[i]? = some b → R a b) : RelRes R (vget v i) (vget w i) := by
  unfold vget
  by_cases hi : i < v.length
  · rw [List.getElem?_eq_getElem hi, List.getElem?_eq_getElem (hl ▸ hi)]
    exact h _ _ (List.getElem?_eq_getElem hi) (List.getElem?_eq_getElem (hl ▸ hi))
  · rw [List.getElem?_eq_none (by omega), List.getElem?_eq_none (by omega)]
    rfl

theorem vset_rel {v : List α} {w : List β} {i : Nat} {a : α} {b : β} (hl : v.length = w.length)
    {R : List α → List β → Prop} (h : i < v.length → R (v.set i a) (w.set i b)) : RelRes R (vset v i a) (vset w i b) := by
  unfold vset
  by_cases hi : i < v.length
  · rw [if_pos hi, if_pos (hl ▸ hi)]; exact h hi
  · rw [if_neg hi, if_neg (hl ▸ hi)]; rfl

end Lp

import Verif.Proofs.Ent
import Verif.Proofs.Weights

/-!
# Cells without a positive value
-/

namespace Lp
open Spec
open scoped BigOperators

section
variable {ι : Type} {m : Nat} {V : Nat → ι → ℝ}

/-- What all series have in a set of cells. -/
noncomputable def massOf (m : Nat) (V : Nat → ι → ℝ) (s : Finset ι) : ℝ := ∑ k ∈ Finset.range m, ∑ x ∈ s, V k x

theorem entQ_total (s : Finset ι) : (entQ m V s).gain + (entQ m V s).loss = massOf m V s * Real.logb 2 s.card := by
  unfold entQ massOf gainSeries lossSeries lossOver
  rw [← Finset.sum_add_distrib, Finset.sum_mul]
  exact Finset.sum_congr rfl (fun k _ => by ring)

theorem gainOver_silent [DecidableEq ι] {s t : Finset ι} {v : ι → ℝ} (h : s ⊆ t) (hz : ∀ x ∈ t \ s, v x = 0) :
    gainOver t v = gainOver s v := by
  unfold gainOver
  have e1 : ∑ x ∈ t, v x = ∑ x ∈ s, v x := by rw [← Finset.sum_sdiff h, Finset.sum_eq_zero hz, zero_add]
  have e2 : ∑ x ∈ t, xlog2 (v x) = ∑ x ∈ s, xlog2 (v x) := by
    rw [← Finset.sum_sdiff h, Finset.sum_eq_zero (fun x hx => by rw [hz x hx]; simp [xlog2]), zero_add]
  rw [e1, e2]

/-- Zeros add nothing to the gain. -/
theorem entQ_gain_silent [DecidableEq ι] {s t : Finset ι} (h : s ⊆ t) (hz : ∀ k < m, ∀ x ∈ t \ s, V k x = 0) :
    (entQ m V t).gain = (entQ m V s).gain :=
  Finset.sum_congr rfl (fun k hk => gainOver_silent h (hz k (Finset.mem_range.mp hk)))

theorem massOf_silent [DecidableEq ι] {s t : Finset ι} (h : s ⊆ t) (hz : ∀ k < m, ∀ x ∈ t \ s, V k x = 0) :
    massOf m V t = massOf m V s :=
  Finset.sum_congr rfl (fun k hk => by
    rw [← Finset.sum_sdiff h, Finset.sum_eq_zero (hz k (Finset.mem_range.mp hk)), zero_add])

theorem massOf_pos {s : Finset ι} (h0 : ∀ k < m, ∀ x ∈ s, 0 ≤ V k x) {k : Nat} (hk : k < m) {x : ι} (hx : x ∈ s)
    (hp : 0 < V k x) : 0 < massOf m V s :=
  Finset.sum_pos' (fun k hk => Finset.sum_nonneg (h0 k (Finset.mem_range.mp hk)))
    ⟨k, Finset.mem_range.mpr hk, Finset.sum_pos' (h0 k hk) ⟨x, hx, hp⟩⟩

/-- Zeros add to the loss where there is something. -/
theorem entQ_loss_silent [DecidableEq ι] {s t : Finset ι} (h : s ⊂ t) (hz : ∀ k < m, ∀ x ∈ t \ s, V k x = 0)
    (h0 : ∀ k < m, ∀ x ∈ s, 0 ≤ V k x) {k : Nat} (hk : k < m) {x : ι} (hx : x ∈ s) (hp : 0 < V k x) :
    (entQ m V s).loss < (entQ m V t).loss := by
  have a := entQ_total (m := m) (V := V) s
  have b := entQ_total (m := m) (V := V) t
  rw [entQ_gain_silent h.subset hz, massOf_silent h.subset hz] at b
  have c : Real.logb 2 s.card < Real.logb 2 t.card :=
    Real.logb_lt_logb (by norm_num) (by exact_mod_cast Finset.card_pos.mpr ⟨x, hx⟩) (by exact_mod_cast Finset.card_lt_card h)
  have d := mul_lt_mul_of_pos_left c (massOf_pos h0 hk hx hp)
  linarith

theorem entQ_zero {s : Finset ι} (hz : ∀ k < m, ∀ x ∈ s, V k x = 0) : entQ m V s = ⟨0, 0⟩ := by
  have g : (entQ m V s).gain = 0 := by
    show ∑ k ∈ Finset.range m, gainOver s (V k) = 0
    refine Finset.sum_eq_zero (fun k hk => ?_)
    unfold gainOver
    rw [Finset.sum_eq_zero (hz k (Finset.mem_range.mp hk)),
      Finset.sum_eq_zero (fun x hx => by rw [hz k (Finset.mem_range.mp hk) x hx]; simp [xlog2])]
    simp [xlog2]
  have t := entQ_total (m := m) (V := V) s
  have : massOf m V s = 0 := by
    unfold massOf
    exact Finset.sum_eq_zero (fun k hk => Finset.sum_eq_zero (hz k (Finset.mem_range.mp hk)))
  rw [g, this, zero_mul, zero_add] at t
  cases h : entQ m V s with
  | mk a b => rw [h] at g t; simp only at g t; rw [g, t]

end

/-! ## The decisions of a tiling -/

/-- The decisions that lead to a tiling. -/
def oCode (n : Nat) (L : List (Nat × Nat)) : List Nat := L.map (fun I => if I.2 = n - 1 then 0 else I.2 - I.1 + 1)

theorem tiles_oCode {n i : Nat} {L : List (Nat × Nat)} (h : Tiles i n L) : Sol (oDecs n) (oStart n i) (oCode n L) L := by
  induction h with
  | nil a => simp only [oStart, lt_irrefl, if_false]; exact .nil
  | @cons a b c L h1 h2 h3 ih =>
    rw [oStart, if_pos (by omega)]
    unfold oCode at ih ⊢
    rw [List.map_cons]
    by_cases hc : c = b - 1
    · have : oStart b (c + 1) = [] := by rw [oStart, if_neg (by omega)]
      rw [this] at ih
      subst hc
      rw [if_pos rfl]
      exact Sol.cons (e := [(a, b - 1)]) (rest := []) oDecs_zero ih
    · have : oStart b (c + 1) = [c + 1] := by rw [oStart, if_pos (by omega)]
      rw [this] at ih
      rw [if_neg hc]
      exact Sol.cons (e := [(a, c)]) (rest := []) (oDecs_succ h1 (by omega)) ih

theorem oCode_of_sol {n : Nat} {st : List Nat} {ds : List Nat} {L : List (Nat × Nat)} (h : Sol (oDecs n) st ds L) :
    ∀ i, st = oStart n i → ds = oCode n L := by
  induction h with
  | nil => intro i _; rfl
  | @cons s rest k e succ ds L hk _ ih =>
    intro i hst
    unfold oStart at hst
    split at hst
    next hin =>
      simp only [List.cons.injEq] at hst
      obtain ⟨rfl, rfl⟩ := hst
      cases k with
      | zero =>
        simp only [oDecs, List.getElem?_cons_zero, Option.some.injEq, Prod.mk.injEq] at hk
        obtain ⟨rfl, rfl⟩ := hk
        have := ih n (by simp [oStart])
        rw [this]
        simp [oCode]
      | succ k =>
        have hk0 := hk
        simp only [oDecs, List.getElem?_cons_succ, List.getElem?_map, Option.map_eq_some_iff] at hk
        obtain ⟨c, hc, hc2⟩ := hk
        have hlt : k < n - 1 - s := by
          have := (List.getElem?_eq_some_iff.mp hc).1; simpa using this
        rw [List.getElem?_range' hlt] at hc
        simp only [one_mul, Option.some.injEq] at hc
        simp only [Prod.mk.injEq] at hc2
        obtain ⟨rfl, rfl⟩ := hc2
        have := ih (c + 1) (by rw [oStart, if_pos (by omega)]; rfl)
        rw [this]
        unfold oCode
        rw [List.singleton_append, List.map_cons, if_neg (by simp only; omega)]
        congr 1
        simp only
        omega
    · simp at hst

/-- `L` is the first of the best tilings. -/
structure OTop (a b : ℝ) (n : Nat) (q : Nat × Nat → Quality ℝ) (L : List (Nat × Nat)) : Prop where
  tiles : Tiles 0 n L
  best : ∀ M, Tiles 0 n M → LexLe a b q M L
  first : ∀ M, Tiles 0 n M → gainOf q M = gainOf q L → lossOf q M = lossOf q L → L = M ∨ Before (oCode n L) (oCode n M)

variable {F : Type} [FloatP F ℝ]

theorem oBest_top {q : UTM (Quality ℝ)} {n : Nat} {f : Nat → Nat → Quality ℝ} (hq : q.Rep n f) (p : F) :
    ∃ (P : OPartition F ℝ) (L : List (Nat × Nat)),
      oBestPartition q p = .ok P ∧ P.parts = L.map (oPartOf f) ∧
      P.quality = ⟨gainOf (fun x : Nat × Nat => f x.1 x.2) L, lossOf (fun x : Nat × Nat => f x.1 x.2) L⟩ ∧
      OTop (wGain p) (wLoss p) n (fun x : Nat × Nat => f x.1 x.2) L := by
  obtain ⟨P, ds, L, h1, h2, h3, _, h5⟩ := oBest_lex hq p
  refine ⟨P, L, h1, h2, h3, oSol_tiles h5.mem 0 rfl (by omega), fun M hM => h5.best _ _ (tiles_oCode hM), ?_⟩
  intro M hM hg hl
  have e := oCode_of_sol h5.mem 0 rfl
  rcases h5.first _ M (tiles_oCode hM) hg hl with h | h
  · left
    have := tiles_oCode hM
    rw [← h] at this
    exact h5.mem.unique this
  · right; rw [← e]; exact h

/-! ## Pieces of tilings -/

theorem Spec.Tiles.split {a b : Nat} {A B : List (Nat × Nat)} (h : Tiles a b (A ++ B)) : ∃ s, Tiles a s A ∧ Tiles s b B := by
  induction A generalizing a with
  | nil => exact ⟨a, .nil a, h⟩
  | cons I A ih =>
    cases h with
    | @cons _ _ c _ h1 h2 h3 =>
      obtain ⟨s, h4, h5⟩ := ih h3
      have := h4.le
      exact ⟨s, .cons h1 (by omega) h4, h5⟩

theorem Spec.Tiles.append {a s b : Nat} {A B : List (Nat × Nat)} (h : Tiles a s A) (h' : Tiles s b B) : Tiles a b (A ++ B) := by
  induction h with
  | nil a => exact h'
  | @cons a s c A h1 h2 h3 ih =>
    have := h'.le
    exact .cons h1 (by omega) (ih h')

theorem Spec.Tiles.one {a b : Nat} (h : a ≤ b) : Tiles a (b + 1) [(a, b)] := .cons h (by omega) (.nil _)

theorem Spec.Tiles.head {a b : Nat} {I : Nat × Nat} {L : List (Nat × Nat)} (h : Tiles a b (I :: L)) :
    I.1 = a ∧ I.1 ≤ I.2 ∧ I.2 < b ∧ Tiles (I.2 + 1) b L := by
  cases h with
  | @cons _ _ c _ h1 h2 h3 => exact ⟨rfl, h1, h2, h3⟩

theorem Spec.Tiles.cutAt {a b : Nat} {L : List (Nat × Nat)} (h : Tiles a b L) {s : Nat} (h1 : a ≤ s) (h2 : s ≤ b)
    (h3 : ∀ I ∈ L, ¬ (I.1 < s ∧ s ≤ I.2)) : ∃ A B, L = A ++ B ∧ Tiles a s A ∧ Tiles s b B := by
  induction h with
  | nil a =>
    obtain rfl : a = s := by omega
    exact ⟨[], [], rfl, .nil _, .nil _⟩
  | @cons a b c L g1 g2 g3 ih =>
    by_cases e : a = s
    · subst e; exact ⟨[], _, rfl, .nil _, .cons g1 g2 g3⟩
    · have := h3 (a, c) (by simp)
      simp only at this
      obtain ⟨A, B, rfl, k1, k2⟩ := ih (by omega) h2 (fun I hI => h3 I (by simp [hI]))
      have := k1.le
      exact ⟨(a, c) :: A, B, rfl, .cons g1 (by omega) k1, k2⟩

/-- The last interval. -/
theorem Spec.Tiles.last {a b : Nat} {L : List (Nat × Nat)} (h : Tiles a b L) (hab : a < b) :
    ∃ A J, L = A ++ [J] ∧ Tiles a J.1 A ∧ J.1 ≤ J.2 ∧ J.2 + 1 = b := by
  induction h with
  | nil a => omega
  | @cons a b c L h1 h2 h3 ih =>
    by_cases e : c + 1 = b
    · subst e
      cases h3 with
      | nil => exact ⟨[], (a, c), rfl, .nil _, h1, rfl⟩
      | cons g1 g2 _ => omega
    · obtain ⟨A, J, rfl, k1, k2, k3⟩ := ih (by omega)
      have := k1.le
      exact ⟨(a, c) :: A, J, rfl, .cons h1 (by omega) k1, k2, k3⟩

/-- An interval of a tiling and what is around it. -/
theorem Spec.Tiles.around {a b : Nat} {L : List (Nat × Nat)} (h : Tiles a b L) {I : Nat × Nat} (hI : I ∈ L) :
    ∃ A B, L = A ++ ([I] ++ B) ∧ Tiles a I.1 A ∧ I.1 ≤ I.2 ∧ I.2 < b ∧ Tiles (I.2 + 1) b B := by
  obtain ⟨A, B, rfl⟩ := List.append_of_mem hI
  obtain ⟨s, h1, h2⟩ := h.split
  obtain ⟨e, h3, h4, h5⟩ := h2.head
  subst e
  exact ⟨A, B, rfl, h1, h3, h4, h5⟩

theorem before_cons {x y : Nat} {a b : List Nat} (h : Before (x :: a) (y :: b)) : x < y ∨ x = y ∧ Before a b := by
  generalize e1 : x :: a = X at h
  generalize e2 : y :: b = Y at h
  cases h with
  | lt h =>
    obtain ⟨rfl, rfl⟩ := List.cons.inj e1
    obtain ⟨rfl, rfl⟩ := List.cons.inj e2
    exact .inl h
  | tail h =>
    obtain ⟨rfl, rfl⟩ := List.cons.inj e1
    obtain ⟨rfl, rfl⟩ := List.cons.inj e2
    exact .inr ⟨rfl, h⟩

theorem before_nil {a : List Nat} (h : Before a []) : False := by cases h

theorem before_prefix {c a b : List Nat} (h : Before (c ++ a) (c ++ b)) : Before a b := by
  induction c with
  | nil => exact h
  | cons x c ih =>
    cases h with
    | lt h => omega
    | tail h => exact ih h

theorem oCode_append {n : Nat} (A B : List (Nat × Nat)) : oCode n (A ++ B) = oCode n A ++ oCode n B := List.map_append ..

/-- Replacing some consecutive intervals of the best tiling. -/
theorem OTop.exchange {a b : ℝ} {n : Nat} {q : Nat × Nat → Quality ℝ} {A S B T : List (Nat × Nat)} (h : OTop a b n q (A ++ (S ++ B)))
    {s e : Nat} (hS : Tiles s e S) (hT : Tiles s e T) (hA : Tiles 0 s A) (hB : Tiles e n B) :
    LexLe a b q T S ∧ (gainOf q T = gainOf q S → lossOf q T = lossOf q S →
      S = T ∨ Before (oCode n S ++ oCode n B) (oCode n T ++ oCode n B)) := by
  have ht : Tiles 0 n (A ++ (T ++ B)) := hA.append (hT.append hB)
  have ga : ∀ X Y, gainOf q (X ++ Y) = gainOf q X + gainOf q Y := fun X Y => by simp [gainOf]
  have la : ∀ X Y, lossOf q (X ++ Y) = lossOf q X + lossOf q Y := fun X Y => by simp [lossOf]
  constructor
  · have := h.best _ ht
    unfold LexLe valueOf at this ⊢
    simp only [ga, la] at this
    rcases this with h | ⟨h, h' | ⟨h', h''⟩⟩
    · left; linarith
    · right; exact ⟨by linarith, .inl (by linarith)⟩
    · right; exact ⟨by linarith, .inr ⟨by linarith, by linarith⟩⟩
  · intro hg hl
    rcases h.first _ ht (by simp only [ga, hg]) (by simp only [la, hl]) with h | h
    · left
      exact List.append_cancel_right (List.append_cancel_left h)
    · right
      simp only [oCode_append] at h
      exact before_prefix h

end Lp

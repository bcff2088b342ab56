import Verif.Proofs.SilentO

/-!
# Silent slices added before and after the data
-/

namespace Lp
open Spec
open scoped BigOperators
variable {m n : Nat} {V W : Nat → Nat → ℝ} {a b : ℝ} {L : List (Nat × Nat)}

/-- An interval `c` slices later. -/
def later (c : Nat) (I : Nat × Nat) : Nat × Nat := (I.1 + c, I.2 + c)

theorem Spec.Tiles.later {s e : Nat} (h : Tiles s e L) (c : Nat) : Tiles (s + c) (e + c) (L.map (later c)) := by
  induction h with
  | nil a => exact .nil _
  | @cons a b x L h1 h2 h3 ih =>
    refine .cons (by omega) (by omega) ?_
    rw [show x + c + 1 = x + 1 + c by omega]
    exact ih

theorem Spec.Tiles.earlier {s e c : Nat} (h : Tiles (s + c) (e + c) L) :
    ∃ M, Tiles s e M ∧ L = M.map (Lp.later c) := by
  generalize hs : s + c = s' at h
  generalize he : e + c = e' at h
  induction h generalizing s with
  | nil a =>
    obtain rfl : s = e := by omega
    exact ⟨[], .nil _, rfl⟩
  | @cons x y z L h1 h2 h3 ih =>
    obtain ⟨M, g1, rfl⟩ := ih (s := z - c + 1) (by omega) he
    exact ⟨(s, z - c) :: M, .cons (by omega) (by omega) g1, by
      rw [List.map_cons]
      congr 1
      unfold Lp.later
      simp only
      rw [hs, Nat.sub_add_cancel (by omega)]⟩

theorem later_injective (c : Nat) : Function.Injective (later c) := by
  rintro ⟨x, y⟩ ⟨x', y'⟩ h
  unfold later at h
  simp only [Prod.mk.injEq] at h
  exact Prod.ext (by simp only; omega) (by simp only; omega)

theorem oEnt_later {c : Nat} {I : Nat × Nat} (h : ∀ k < m, ∀ i, I.1 ≤ i → i ≤ I.2 → W k (i + c) = V k i) :
    oEnt m W (later c I) = oEnt m V I := by
  have s : ∀ (f g : Nat → ℝ), (∀ i, I.1 ≤ i → i ≤ I.2 → f (i + c) = g i) →
      ∑ x ∈ oCells (later c I), f x = ∑ x ∈ oCells I, g x := by
    intro f g hfg
    have : oCells (later c I) = (oCells I).map (addRightEmbedding c) := by
      simp only [oCells, later, Finset.map_add_right_Icc]
    rw [this, Finset.sum_map]
    exact Finset.sum_congr rfl (fun i hi => by
      simp only [oCells, Finset.mem_Icc] at hi
      exact hfg i hi.1 hi.2)
  have g : ∀ k < m, gainOver (oCells (later c I)) (W k) = gainOver (oCells I) (V k) := by
    intro k hk
    unfold gainOver
    rw [s _ _ (h k hk), s (fun x => xlog2 (W k x)) (fun x => xlog2 (V k x)) (fun i h1 h2 => by simp only [h k hk i h1 h2])]
  have l : ∀ k < m, lossOver (oCells (later c I)) (W k) = lossOver (oCells I) (V k) := by
    intro k hk
    unfold lossOver
    have hc : (oCells (later c I)).card = (oCells I).card := by
      simp only [oCells, later, Nat.card_Icc]
      omega
    rw [g k hk, s _ _ (h k hk), hc]
  show (⟨gainSeries m (oCells (later c I)) W, lossSeries m (oCells (later c I)) W⟩ : Quality ℝ) = ⟨gainSeries m (oCells I) V, lossSeries m (oCells I) V⟩
  unfold gainSeries lossSeries
  rw [Finset.sum_congr rfl (fun k hk => g k (Finset.mem_range.mp hk)), Finset.sum_congr rfl (fun k hk => l k (Finset.mem_range.mp hk))]

/-- The total of gain and loss. -/
def bothOf (q : Nat × Nat → Quality ℝ) (L : List (Nat × Nat)) : ℝ := (L.map (fun I => (q I).gain + (q I).loss)).sum

theorem bothOf_eq (q : Nat × Nat → Quality ℝ) (L : List (Nat × Nat)) : bothOf q L = gainOf q L + lossOf q L := by
  unfold bothOf gainOf lossOf
  induction L with
  | nil => simp
  | cons I L ih => simp only [List.map_cons, List.sum_cons, ih]; ring

theorem oEnt_both (I : Nat × Nat) : (oEnt m V I).gain + (oEnt m V I).loss = massOf m V (oCells I) * Real.logb 2 (oCells I).card :=
  entQ_total _

theorem tiles_mass {s e : Nat} (h : Tiles s e L) : (L.map (fun I => massOf m V (oCells I))).sum = massOf m V (Finset.Ico s e) := by
  have e1 : ∀ t : Finset Nat, massOf m V t = ∑ x ∈ t, ∑ k ∈ Finset.range m, V k x := fun t => Finset.sum_comm
  rw [e1, ← tiles_total h]
  refine congrArg List.sum (List.map_congr_left (fun I _ => ?_))
  rw [e1]
  rfl

/-- Cutting a whole whose last slice is not silent lowers the total of gain and loss. -/
theorem both_lt (h0 : ∀ k i, k < m → i < n → 0 ≤ V k i) (hq : ¬ Quiet m V (n - 1)) {s c : Nat} {M : List (Nat × Nat)}
    (h : Tiles s n ((s, c) :: M)) (hc : c < n - 1) : bothOf (oEnt m V) ((s, c) :: M) < bothOf (oEnt m V) [(s, n - 1)] := by
  obtain ⟨_, hsc, _, _⟩ := h.head
  simp only at hsc
  have hI : oCells (s, n - 1) = Finset.Ico s n := by
    ext x; simp only [oCells, Finset.mem_Icc, Finset.mem_Ico]; omega
  have hwhole : bothOf (oEnt m V) [(s, n - 1)] =
      (((s, c) :: M).map (fun I => massOf m V (oCells I) * Real.logb 2 (Finset.Ico s n).card)).sum := by
    unfold bothOf
    rw [List.map_cons, List.map_nil, List.sum_cons, List.sum_nil, add_zero, oEnt_both, hI, ← tiles_mass h, List.sum_map_mul_right]
  rw [hwhole]
  unfold bothOf
  have hm0 : ∀ I ∈ ((s, c) :: M), 0 ≤ massOf m V (oCells I) := fun I hI => by
    have hb := h.bounds I hI
    refine Finset.sum_nonneg (fun k hk => Finset.sum_nonneg (fun x hx => ?_))
    simp only [oCells, Finset.mem_Icc] at hx
    exact h0 k x (Finset.mem_range.mp hk) (by omega)
  have hcard : ∀ I ∈ ((s, c) :: M), (0 : ℝ) < (oCells I).card ∧ ((oCells I).card : ℝ) ≤ (Finset.Ico s n).card := fun I hI => by
    have hb := h.bounds I hI
    constructor
    · exact_mod_cast Finset.card_pos.mpr ⟨I.1, by simp only [oCells, Finset.mem_Icc]; omega⟩
    · exact_mod_cast Finset.card_le_card (fun x hx => by simp only [oCells, Finset.mem_Icc, Finset.mem_Ico] at hx ⊢; omega)
  refine List.sum_lt_sum _ _ ?_ ?_
  · intro I hI
    rw [oEnt_both]
    exact mul_le_mul_of_nonneg_left (Real.logb_le_logb_of_le (by norm_num) (hcard I hI).1 (hcard I hI).2) (hm0 I hI)
  · obtain ⟨A, J, e, h1, h2, h3⟩ := h.last (by omega)
    have hJ : J ∈ ((s, c) :: M) := by rw [e]; simp
    refine ⟨J, hJ, ?_⟩
    rw [oEnt_both]
    have hJs : s < J.1 := by
      by_contra hcon
      cases A with
      | nil =>
        rw [List.nil_append] at e
        have := (List.cons.inj e).1
        subst this
        simp only at h3
        omega
      | cons x A =>
        rw [List.cons_append] at e
        have hx := (List.cons.inj e).1
        have := h1.bounds x (by simp)
        have := h1.le
        omega
    unfold Quiet at hq
    push Not at hq
    obtain ⟨k, hk, hne⟩ := hq
    have hp : 0 < V k (n - 1) := lt_of_le_of_ne (h0 k _ hk (by omega)) (Ne.symm hne)
    refine mul_lt_mul_of_pos_left (Real.logb_lt_logb (by norm_num) (hcard J hJ).1 ?_)
      (massOf_pos (x := n - 1) (k := k) (fun k hk x hx => ?_) hk ?_ hp)
    · exact_mod_cast Finset.card_lt_card (Finset.ssubset_iff_of_subset (fun x hx => by
        simp only [oCells, Finset.mem_Icc, Finset.mem_Ico] at hx ⊢; omega) |>.mpr ⟨s, by
        simp only [Finset.mem_Ico]; omega, by simp only [oCells, Finset.mem_Icc]; omega⟩)
    · simp only [oCells, Finset.mem_Icc] at hx
      exact h0 k x hk (by omega)
    · simp only [oCells, Finset.mem_Icc]
      omega

/-- The decisions if no interval were the last one. -/
def cutCode (L : List (Nat × Nat)) : List Nat := L.map (fun I => I.2 - I.1 + 1)

theorem Spec.Tiles.nil_of_eq {s e : Nat} (h : Tiles s e L) (he : s = e) : L = [] := by
  cases h with
  | nil => rfl
  | cons h1 h2 _ => omega

/-- With a last slice that is not silent, tilings of equal gain and loss are in the same order whether or not more slices follow. -/
theorem before_cut (h0 : ∀ k i, k < m → i < n → 0 ≤ V k i) (hq : ¬ Quiet m V (n - 1)) (z : List Nat) {s : Nat}
    {M : List (Nat × Nat)} (hL : Tiles s n L) (hM : Tiles s n M) (he : bothOf (oEnt m V) L = bothOf (oEnt m V) M)
    (h : Before (oCode n L) (oCode n M)) : Before (cutCode L ++ z) (cutCode M ++ z) := by
  induction L generalizing s M with
  | nil =>
    have : s = n := by cases hL; rfl
    rw [hM.nil_of_eq this] at h
    exact (before_nil h).elim
  | cons I L ih =>
    cases M with
    | nil => exact (before_nil h).elim
    | cons J M =>
      obtain ⟨x, c⟩ := I
      obtain ⟨y, d⟩ := J
      obtain ⟨e1, i1, i2, i3⟩ := hL.head
      obtain ⟨e2, j1, j2, j3⟩ := hM.head
      simp only at *
      subst e1
      subst e2
      unfold oCode cutCode at *
      simp only [List.map_cons, List.cons_append] at h ⊢
      by_cases hc : c = n - 1
      · subst hc
        rw [if_pos rfl] at h
        by_cases hd : d = n - 1
        · subst hd
          rw [if_pos rfl] at h
          rcases before_cons h with h | ⟨_, h⟩
          · omega
          · rw [i3.nil_of_eq (by omega), j3.nil_of_eq (by omega)] at h
            exact (before_nil h).elim
        · have h1 := both_lt h0 hq hM (by omega)
          have : L = [] := i3.nil_of_eq (by omega)
          subst this
          rw [he] at h1
          exact absurd h1 (lt_irrefl _)
      · rw [if_neg hc] at h
        by_cases hd : d = n - 1
        · rw [if_pos hd] at h
          rcases before_cons h with h | ⟨h, _⟩ <;> omega
        · rw [if_neg hd] at h
          rcases before_cons h with h | ⟨h, h'⟩
          · exact .lt h
          · obtain rfl : c = d := by omega
            refine .tail (ih i3 j3 ?_ h')
            unfold bothOf at he ⊢
            simp only [List.map_cons, List.sum_cons] at he
            linarith

/-- The slices `0..a-1`, each alone. -/
def alone (c : Nat) : List (Nat × Nat) := (List.range c).map (fun i => (i, i))

theorem tiles_alone {e : Nat} {X : List (Nat × Nat)} (h : Tiles 0 e X) (hs : ∀ I ∈ X, I.1 = I.2) : X = alone e := by
  have aux : ∀ {s e : Nat} {X : List (Nat × Nat)}, Tiles s e X → (∀ I ∈ X, I.1 = I.2) →
      X = (List.range' s (e - s)).map (fun i => (i, i)) := by
    intro s e X h hs
    induction h with
    | nil a => simp
    | @cons a b c L h1 h2 h3 ih =>
      have := hs (a, c) (by simp)
      simp only at this
      subst this
      rw [ih (fun I hI => hs I (by simp [hI])), show b - a = (b - (a + 1)) + 1 by omega, List.range'_succ, List.map_cons]
  rw [aux h hs, alone, List.range_eq_range']
  simp

theorem alone_tiles (c : Nat) : Tiles 0 c (alone c) := by
  induction c with
  | zero => exact .nil _
  | succ c ih =>
    unfold alone at ih ⊢
    rw [List.range_succ, List.map_append]
    exact ih.append (Tiles.one le_rfl)

theorem totals_zero {q : Nat × Nat → Quality ℝ} {X : List (Nat × Nat)} (h : ∀ I ∈ X, q I = ⟨0, 0⟩) :
    gainOf q X = 0 ∧ lossOf q X = 0 := by
  unfold gainOf lossOf
  constructor
  · exact List.sum_eq_zero (fun x hx => by obtain ⟨a, ha, rfl⟩ := List.mem_map.mp hx; rw [h a ha])
  · exact List.sum_eq_zero (fun x hx => by obtain ⟨a, ha, rfl⟩ := List.mem_map.mp hx; rw [h a ha])

/-- `c` silent slices before and `d` after the data. -/
theorem OTop.padded {c d : Nat} {Ls : List (Nat × Nat)} (hb : 0 ≤ b) (h0 : ∀ k i, k < m → i < n → 0 ≤ V k i)
    (hW : ∀ k < m, ∀ i < n, W k (i + c) = V k i) (hz : ∀ i, i < c + n + d → (i < c ∨ c + n ≤ i) → Quiet m W i)
    (hpos : ∃ i < n, ¬ Quiet m V i) (hlast : 0 < d → ¬ Quiet m V (n - 1))
    (h : OTop a b n (oEnt m V) L) (hs : OTop a b (c + n + d) (oEnt m W) Ls) :
    Ls = alone c ++ (L.map (later c) ++ if d = 0 then [] else [(c + n, c + n + d - 1)]) ∧
      gainOf (oEnt m W) Ls = gainOf (oEnt m V) L ∧ lossOf (oEnt m W) Ls = lossOf (oEnt m V) L := by
  obtain ⟨i0, hi0, hq0⟩ := hpos
  have w0 : ∀ k i, k < m → i < c + n + d → 0 ≤ W k i := by
    intro k i hk hi
    by_cases hin : c ≤ i ∧ i < c + n
    · have := hW k hk (i - c) (by omega)
      rw [Nat.sub_add_cancel hin.1] at this
      rw [this]
      exact h0 k _ hk (by omega)
    · rw [hz i hi (by omega) k hk]
  have hQ : ∀ i, i < n → Quiet m W (i + c) → Quiet m V i := fun i hi hw k hk => by rw [← hW k hk i hi]; exact hw k hk
  have hbd := hs.tiles.bounds
  -- no part goes over the beginning of the data
  obtain ⟨X, R, rfl, hX, hR⟩ := hs.tiles.cutAt (s := c) (by omega) (by omega) (by
    rintro I hI ⟨h1, h2⟩
    have hall : ∀ i, I.1 ≤ i → i ≤ I.2 → Quiet m W i := fun i => hs.quiet hb w0 hI (.inl (hz I.1 (by omega) (.inl h1)))
    rcases hs.single hI hall with e | e
    · omega
    · exact hq0 (hQ i0 hi0 (hall _ (by omega) (by omega))))
  have hXa : X = alone c := tiles_alone hX (fun I hI => by
    have hb' := hX.bounds I hI
    rcases hs.single (List.mem_append_left _ hI) (fun i h1 h2 => hz i (by omega) (.inl (by omega))) with e | e
    · exact e
    · omega)
  -- nor over its end
  obtain ⟨Y, Z, rfl, hY, hZ⟩ := hR.cutAt (s := c + n) (by omega) (by omega) (by
    rintro I hI ⟨h1, h2⟩
    have hb' := hR.bounds I hI
    have hq := hlast (by omega)
    unfold Quiet at hq
    push Not at hq
    obtain ⟨k, hk, hne⟩ := hq
    have hw := hW k hk (n - 1) (by omega)
    have := hs.edges hb w0 (List.mem_append_right _ hI) hk (x := n - 1 + c) (by omega) (by omega)
      (by rw [hw]; exact lt_of_le_of_ne (h0 k _ hk (by omega)) (Ne.symm hne))
    exact this.2 (hz _ (by omega) (.inr h2)))
  have hZa : Z = if d = 0 then [] else [(c + n, c + n + d - 1)] := by
    split
    · rename_i hd
      exact hZ.nil_of_eq (by omega)
    · rename_i hd
      obtain ⟨Z', J, rfl, k1, k2, k3⟩ := hZ.last (by omega)
      have hle := k1.le
      have hJ := hs.beforeLast hb w0 (I := J) (by simp) (hz _ (by omega) (.inr (by omega))) (by omega) (by omega)
      have hJ1 : J.1 = c + n := by
        by_contra hcon
        exact hJ (hz _ (by omega) (.inr (by omega)))
      rw [k1.nil_of_eq hJ1.symm, List.nil_append]
      congr 1
      exact Prod.ext hJ1 (by simp only; omega)
  have hXq := totals_zero (q := oEnt m W) (X := X) (fun I hI => oEnt_quiet (fun i h1 h2 => by
    have hb' := hX.bounds I hI
    exact hz i (by omega) (.inl (by omega))))
  have hZq := totals_zero (q := oEnt m W) (X := Z) (fun I hI => oEnt_quiet (fun i h1 h2 => by
    have hb' := hZ.bounds I hI
    exact hz i (by omega) (.inr (by omega))))
  -- the middle
  have hq : ∀ {M : List (Nat × Nat)}, Tiles 0 n M → gainOf (oEnt m W) (M.map (later c)) = gainOf (oEnt m V) M ∧
      lossOf (oEnt m W) (M.map (later c)) = lossOf (oEnt m V) M := by
    intro M hM
    have : ∀ I ∈ M, oEnt m W (later c I) = oEnt m V I := fun I hI => by
      have := hM.bounds I hI
      exact oEnt_later (fun k hk i h1 h2 => hW k hk i (by omega))
    unfold gainOf lossOf
    rw [List.map_map, List.map_map]
    exact ⟨congrArg List.sum (List.map_congr_left (fun I hI => by simp only [Function.comp, this I hI])),
      congrArg List.sum (List.map_congr_left (fun I hI => by simp only [Function.comp, this I hI]))⟩
  obtain ⟨Y', hY', rfl⟩ := Tiles.earlier (s := 0) (e := n) (c := c) (L := Y) (by rw [Nat.zero_add, Nat.add_comm n c]; exact hY)
  have hT : Tiles c (c + n) (L.map (later c)) := by
    have := h.tiles.later c
    rwa [Nat.zero_add, Nat.add_comm n c] at this
  obtain ⟨x1, x2⟩ := hs.exchange hY hT hX hZ
  have x3 := h.best Y' hY'
  have eqs : gainOf (oEnt m V) Y' = gainOf (oEnt m V) L ∧ lossOf (oEnt m V) Y' = lossOf (oEnt m V) L := by
    unfold LexLe valueOf at x1 x3
    rw [(hq h.tiles).1, (hq h.tiles).2, (hq hY').1, (hq hY').2] at x1
    constructor
    · rcases x1 with e1 | ⟨e1, e1' | ⟨e1', _⟩⟩ <;> rcases x3 with e2 | ⟨e2, e2' | ⟨e2', _⟩⟩ <;> linarith
    · rcases x1 with e1 | ⟨e1, e1' | ⟨_, e1'⟩⟩ <;> rcases x3 with e2 | ⟨e2, e2' | ⟨_, e2'⟩⟩ <;> linarith
  have hYL : Y' = L := by
    rcases h.first Y' hY' eqs.1 eqs.2 with e | e
    · exact e.symm
    rcases x2 (by rw [(hq h.tiles).1, (hq hY').1, eqs.1]) (by rw [(hq h.tiles).2, (hq hY').2, eqs.2]) with e' | e'
    · exact (List.map_injective_iff.mpr (later_injective c)) e'
    exfalso
    by_cases hd : d = 0
    · rw [if_pos hd] at hZa
      subst hZa
      subst hd
      have code : ∀ M : List (Nat × Nat), oCode (c + n + 0) (M.map (later c)) = oCode n M := by
        intro M
        unfold oCode
        rw [List.map_map]
        refine List.map_congr_left (fun I _ => ?_)
        have hn : 0 < n := by omega
        show (if I.2 + c = c + n + 0 - 1 then 0 else I.2 + c - (I.1 + c) + 1) = (if I.2 = n - 1 then 0 else I.2 - I.1 + 1)
        by_cases hi : I.2 = n - 1
        · rw [if_pos hi, if_pos (by omega)]
        · rw [if_neg hi, if_neg (by omega)]; omega
      rw [code, code] at e'
      simp only [oCode, List.map_nil, List.append_nil] at e'
      exact e.asymm e'
    · have code : ∀ {M : List (Nat × Nat)}, Tiles 0 n M → oCode (c + n + d) (M.map (later c)) = cutCode M := by
        intro M hM
        unfold oCode cutCode
        rw [List.map_map]
        refine List.map_congr_left (fun I hI => ?_)
        have := hM.bounds I hI
        show (if I.2 + c = c + n + d - 1 then 0 else I.2 + c - (I.1 + c) + 1) = I.2 - I.1 + 1
        rw [if_neg (by omega)]; omega
      rw [code h.tiles, code hY'] at e'
      exact (before_cut h0 (hlast (by omega)) _ h.tiles hY' (by rw [bothOf_eq, bothOf_eq, eqs.1, eqs.2]) e).asymm e'
  subst hYL
  refine ⟨by rw [hXa, ← hZa], ?_, ?_⟩
  · have ga : ∀ A B, gainOf (oEnt m W) (A ++ B) = gainOf (oEnt m W) A + gainOf (oEnt m W) B := fun A B => by simp [gainOf]
    rw [ga, ga, hXq.1, hZq.1, (hq hY').1]; ring
  · have la : ∀ A B, lossOf (oEnt m W) (A ++ B) = lossOf (oEnt m W) A + lossOf (oEnt m W) B := fun A B => by simp [lossOf]
    rw [la, la, hXq.2, hZq.2, (hq hY').2]; ring

end Lp

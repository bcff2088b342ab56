import Verif.Model.RColor
import Verif.Props.C49

/-!
# C71 — the quality plot and the colours
-/

namespace Lp.C71
open Spec

section
variable {F R A : Type} [DecidableEq F] [FloatP F ℝ]

theorem ordered_aux {param : R → F} {part rival : List A → Prop} {quality : A → Quality ℝ} {row : F → A → R} {r : RResult F ℝ R}
    (h : RightSheet param part rival quality row r) : r.qualities.Pairwise (fun e e' =>
      (FloatP.toK e.parameter : ℝ) < FloatP.toK e'.parameter ∧ e.gain ≤ e'.gain ∧ e.loss ≤ e'.loss ∧ (e.gain ≠ e'.gain ∨ e.loss ≠ e'.loss)) := by
  have := h.sorted
  rw [List.pairwise_map] at this
  exact this.and h.grows

/-- The plot of a right result (C49): the line goes through the points in the order of the rows, to the right and upwards, inside the
unit square; exactly one point is red, and no other is nearer to the corner with gain 1 and loss 0. -/
theorem shown (param : R → F) (part rival : List A → Prop) (quality : A → Quality ℝ) (row : F → A → R) (r : RResult F ℝ R)
    (h : RightSheet param part rival quality row r) :
    (qualplot r).line = (qualplot r).points ∧ (qualplot r).points = r.qualities.map (fun e => (e.loss, e.gain)) ∧
    (qualplot r).line.Pairwise (fun a b => a.1 ≤ b.1 ∧ a.2 ≤ b.2 ∧ a ≠ b) ∧
    (∀ a ∈ (qualplot r).line, 0 ≤ a.1 ∧ a.1 ≤ 1 ∧ 0 ≤ a.2 ∧ a.2 ≤ 1) ∧
    ∃ a, (qualplot r).red = [a] ∧ a ∈ (qualplot r).points ∧
      ∀ b ∈ (qualplot r).points, (1 - a.2) ^ 2 + a.1 ^ 2 ≤ (1 - b.2) ^ 2 + b.1 ^ 2 := by
  have ho := ordered_aux h
  have hline : (qualplot r).line = (qualplot r).points := by
    unfold qualplot
    dsimp only
    apply List.Pairwise.insertionSort_eq
    rw [List.pairwise_map]
    exact ho.imp (fun h => h.2.2.1)
  refine ⟨hline, rfl, ?_, ?_, ?_⟩
  · rw [hline]
    unfold qualplot
    dsimp only
    rw [List.pairwise_map]
    refine ho.imp (fun h => ⟨h.2.2.1, h.2.1, fun e => ?_⟩)
    rw [Prod.mk.injEq] at e
    rcases h.2.2.2 with h | h
    · exact h e.2
    · exact h e.1
  · rw [hline]
    intro a ha
    obtain ⟨e, he, rfl⟩ := List.mem_map.mp ha
    obtain ⟨_, _, _, _, _, h1, h2, h3, h4, _⟩ := h.rows e he
    exact ⟨h3, h4, h1, h2⟩
  · obtain ⟨e, he, hp, hmin⟩ := h.opt
    have hred : r.qualities.filter (fun x => x.parameter = r.pOpt) = [e] := by
      have hnd : r.qualities.Pairwise (fun x y => x.parameter ≠ y.parameter) :=
        ho.imp (fun h e => by rw [e] at h; exact lt_irrefl _ h.1)
      clear ho hmin h hline
      revert he hnd
      induction r.qualities with
      | nil => intro he; cases he
      | cons x l ih =>
        intro he hnd
        rw [List.pairwise_cons] at hnd
        rcases List.mem_cons.mp he with rfl | he
        · rw [List.filter_cons, if_pos (by simpa using hp)]
          congr 1
          rw [List.filter_eq_nil_iff]
          intro y hy
          simp only [decide_eq_true_eq]
          rw [← hp]
          exact Ne.symm (hnd.1 y hy)
        · rw [List.filter_cons, if_neg (by simp only [decide_eq_true_eq]; rw [← hp]; exact hnd.1 e he)]
          exact ih he hnd.2
    refine ⟨(e.loss, e.gain), ?_, List.mem_map.mpr ⟨e, he, rfl⟩, ?_⟩
    · unfold qualplot
      dsimp only
      rw [hred]
      rfl
    · intro b hb
      obtain ⟨e', he', rfl⟩ := List.mem_map.mp hb
      have := hmin e' he'
      dsimp only
      nlinarith

/-- The line is concave: no point is below the segment between two others.  (In the three results of C49 the partitions that compete are
those that may be returned.) -/
theorem concave (param : R → F) (part rival : List A → Prop) (quality : A → Quality ℝ) (row : F → A → R) (r : RResult F ℝ R)
    (h : RightSheet param part rival quality row r) (hrival : ∀ L, part L → rival L)
    (a b c : ℝ × ℝ) (ha : a ∈ (qualplot r).line) (hb : b ∈ (qualplot r).line) (hc : c ∈ (qualplot r).line) (hab : a.1 < b.1) (hbc : b.1 < c.1) :
    a.2 + (c.2 - a.2) * ((b.1 - a.1) / (c.1 - a.1)) ≤ b.2 := by
  have ho := ordered_aux h
  obtain ⟨hline, hpts, _⟩ := shown param part rival quality row r h
  rw [hline, hpts] at ha hb hc
  obtain ⟨ea, ha', rfl⟩ := List.mem_map.mp ha
  obtain ⟨eb, hb', rfl⟩ := List.mem_map.mp hb
  obtain ⟨ec, hc', rfl⟩ := List.mem_map.mp hc
  dsimp only at *
  have hpos : (0 : ℝ) < FloatP.toK eb.parameter := by
    clear hline hpts
    obtain ⟨i, hi, ei⟩ := List.mem_iff_getElem.mp ha'
    obtain ⟨j, hj, ej⟩ := List.mem_iff_getElem.mp hb'
    subst ei ej
    have hij : i < j := by
      by_contra hij
      rcases Nat.lt_or_eq_of_le (Nat.le_of_not_lt hij) with h1 | h1
      · exact absurd (List.pairwise_iff_getElem.mp ho j i hj hi h1).2.2.1 (not_le.mpr hab)
      · subst h1
        exact lt_irrefl _ hab
    exact lt_of_le_of_lt (h.range _ ha').1 (List.pairwise_iff_getElem.mp ho i j hi hj hij).1
  obtain ⟨La, pa, _, ga, la, _⟩ := h.rows ea ha'
  obtain ⟨Lc, pc, _, gc, lc, _⟩ := h.rows ec hc'
  obtain ⟨Lb, _, _, _, _, _, _, _, _, opt⟩ := h.rows eb hb'
  have o1 := opt La (hrival _ pa)
  have o2 := opt Lc (hrival _ pc)
  rw [← ga, ← la] at o1
  rw [← gc, ← lc] at o2
  generalize (FloatP.toK eb.parameter : ℝ) = p at *
  generalize (FloatP.toK (FloatP.oneSub eb.parameter) : ℝ) = q at *
  have hac : 0 < ec.loss - ea.loss := by linarith
  rw [← sub_nonneg]
  have key : 0 ≤ p * ((eb.gain - ea.gain) * (ec.loss - ea.loss) - (ec.gain - ea.gain) * (eb.loss - ea.loss)) := by
    nlinarith [mul_le_mul_of_nonneg_left o1 (sub_nonneg.mpr hbc.le), mul_le_mul_of_nonneg_left o2 (sub_nonneg.mpr hab.le)]
  have key2 := nonneg_of_mul_nonneg_right key hpos
  have : eb.gain - (ea.gain + (ec.gain - ea.gain) * ((eb.loss - ea.loss) / (ec.loss - ea.loss))) =
      ((eb.gain - ea.gain) * (ec.loss - ea.loss) - (ec.gain - ea.gain) * (eb.loss - ea.loss)) / (ec.loss - ea.loss) := by
    field_simp
    ring
  rw [this]
  exact div_nonneg key2 hac.le

end

section
variable {A : Type}

theorem fuel_aux {H : Hash A} : ∀ (n m : Nat) (s : List A) (c c' : List Nat), string2color H n s = .ok c → string2color H m s = .ok c' → c = c'
  | 0, _, _, _, _, h, _ => by cases h
  | _ + 1, 0, _, _, _, _, h => by cases h
  | n + 1, m + 1, s, c, c', h, h' => by
    unfold string2color at h h'
    split at h
    · rename_i hp
      rw [if_pos hp] at h'
      exact fuel_aux n m _ c c' h h'
    · rename_i hp
      rw [if_neg hp] at h'
      rw [← Except.ok.inj h, ← Except.ok.inj h']

/-- What a hash function gives: texts of 32 hexadecimal digits. -/
def Right (H : Hash A) : Prop := ∀ s, (H.digest s).length = 32 ∧ ∀ d ∈ H.digest s, d < 16

theorem component_aux {H : Hash A} (hH : Right H) (s : List A) (a : Nat) : ∃ x y, H.component s a = [x, y] ∧ x < 16 ∧ y < 16 := by
  unfold Hash.component
  obtain ⟨h1, h2⟩ := hH (H.digits (((H.digest s).drop a).take 10))
  generalize H.digest (H.digits (((H.digest s).drop a).take 10)) = l at *
  match l, h1, h2 with
  | x :: y :: l, _, h2 => exact ⟨x, y, rfl, h2 x (by simp), h2 y (by simp)⟩

theorem above_aux (x y : Nat) (hy : y < 16) : ([2, 3, 0] < [x, y]) ↔ 36 ≤ 16 * x + y := by
  rw [List.cons_lt_cons_iff, List.cons_lt_cons_iff]
  have : ¬ ([0] : List Nat) < [] := by simp
  simp only [this, and_false, or_false]
  omega

theorem below_aux (x y : Nat) (hy : y < 16) : ([x, y] < [3, 0]) ↔ 16 * x + y < 48 := by
  rw [List.cons_lt_cons_iff, List.cons_lt_cons_iff]
  have : ¬ ([] : List Nat) < [] := by simp
  simp only [this, and_false, or_false]
  omega

theorem hexText_aux (a b c d e f : Nat) (ha : a < 16) (hb : b < 16) (hc : c < 16) (hd : d < 16) (he : e < 16) (hf : f < 16) :
    hexText (hexValue [a, b, c, d, e, f]) = [a, b, c, d, e, f] := by
  unfold hexText hexValue
  simp only [List.foldl_cons, List.foldl_nil, List.cons.injEq, and_true]
  refine ⟨?_, ?_, ?_, ?_, ?_, ?_⟩ <;> omega

theorem color_aux {H : Hash A} (hH : Right H) : ∀ (fuel : Nat) (s : List A) (h : List Nat), string2color H fuel s = .ok h →
    ∃ a b c d e f : Nat, h = [a, b, c, d, e, f] ∧ a < 16 ∧ b < 16 ∧ c < 16 ∧ d < 16 ∧ e < 16 ∧ f < 16 ∧
      (∃ x ∈ [16 * a + b, 16 * c + d, 16 * e + f], x ≤ 35) ∧ ∃ x ∈ [16 * a + b, 16 * c + d, 16 * e + f], 48 ≤ x
  | 0, _, _, h => by cases h
  | fuel + 1, s, h, hs => by
    unfold string2color at hs
    obtain ⟨a, b, e1, ha, hb⟩ := component_aux hH s 0
    obtain ⟨c, d, e2, hc, hd⟩ := component_aux hH s 10
    obtain ⟨e, f, e3, he, hf⟩ := component_aux hH s 20
    rw [e1, e2, e3] at hs
    split at hs
    · exact color_aux hH fuel _ h hs
    · rename_i hp
      obtain rfl := (Except.ok.inj hs).symm
      refine ⟨a, b, c, d, e, f, rfl, ha, hb, hc, hd, he, hf, ?_⟩
      unfold tooPlain at hp
      simp only [above_aux _ _ hb, above_aux _ _ hd, above_aux _ _ hf, below_aux _ _ hb, below_aux _ _ hd, below_aux _ _ hf, Bool.or_eq_true,
        Bool.and_eq_true, decide_eq_true_eq, not_or, not_and] at hp
      constructor
      · by_contra hc
        push Not at hc
        simp only [List.mem_cons, List.not_mem_nil, or_false, forall_eq_or_imp, forall_eq] at hc
        exact hp.1 ⟨by omega, by omega⟩ (by omega)
      · by_contra hc
        push Not at hc
        simp only [List.mem_cons, List.not_mem_nil, or_false, forall_eq_or_imp, forall_eq] at hc
        exact hp.2 ⟨by omega, by omega⟩ (by omega)

variable [LinearOrder (List A)] [DecidableEq A]

theorem loop_aux {H : Hash A} {fuel : Nat} {agg : List A} : ∀ (l : List (List A)) (acc o : List (List A × List Nat)),
    forEach (fun s acc => match nameColor H fuel agg s with
      | .error e => .error e
      | .ok c => .ok (acc ++ [(s, c)])) l acc = .ok o →
    ∃ cs, o = acc ++ cs ∧ cs.map Prod.fst = l ∧ ∀ x ∈ cs, nameColor H fuel agg x.1 = .ok x.2
  | [], acc, o, h => ⟨[], by simp [Except.ok.inj h], rfl, by simp⟩
  | s :: l, acc, o, h => by
    unfold forEach at h
    cases hn : nameColor H fuel agg s with
    | error e => rw [hn] at h; cases h
    | ok c =>
      rw [hn] at h
      dsimp only at h
      obtain ⟨cs, e1, e2, e3⟩ := loop_aux l _ o h
      refine ⟨(s, c) :: cs, by simp [e1], by simp [e2], ?_⟩
      intro x hx
      rcases List.mem_cons.mp hx with rfl | hx
      · exact hn
      · exact e3 x hx

theorem result_aux {H : Hash A} {fuel : Nat} {l : List (List A)} {agg : List A} {o : List (List A × List Nat)}
    (h : colorGenerator H fuel l agg = .ok o) : o.map Prod.fst = l.insertionSort (· ≤ ·) ∧ ∀ x ∈ o, nameColor H fuel agg x.1 = .ok x.2 := by
  unfold colorGenerator at h
  split at h
  · cases h
  · obtain ⟨cs, rfl, e2, e3⟩ := loop_aux _ _ _ h
    exact ⟨e2, e3⟩

/-- One colour for each of the names, in increasing order of the names. -/
theorem names (H : Hash A) (fuel : Nat) (l : List (List A)) (agg : List A) (o : List (List A × List Nat))
    (h : colorGenerator H fuel l agg = .ok o) : (o.map Prod.fst).Perm l ∧ (o.map Prod.fst).Pairwise (· ≤ ·) := by
  rw [(result_aux h).1]
  exact ⟨List.perm_insertionSort _ _, List.pairwise_insertionSort _ _⟩

/-- A name has the same colour in all plots, whatever the other names are. -/
theorem same (H : Hash A) (fuel fuel' : Nat) (l l' : List (List A)) (agg : List A) (o o' : List (List A × List Nat))
    (h : colorGenerator H fuel l agg = .ok o) (h' : colorGenerator H fuel' l' agg = .ok o') (s : List A) (c c' : List Nat)
    (hc : (s, c) ∈ o) (hc' : (s, c') ∈ o') : c = c' := by
  have e := (result_aux h).2 _ hc
  have e' := (result_aux h').2 _ hc'
  dsimp only at e e'
  unfold nameColor at e e'
  split at e
  · rename_i hs
    rw [if_pos hs] at e'
    rw [← Except.ok.inj e, ← Except.ok.inj e']
  · rename_i hs
    rw [if_neg hs] at e'
    cases h1 : string2color H fuel s with
    | error x => rw [h1] at e; cases e
    | ok k =>
      cases h2 : string2color H fuel' s with
      | error x => rw [h2] at e'; cases e'
      | ok k' =>
        rw [h1] at e
        rw [h2] at e'
        rw [← Except.ok.inj e, ← Except.ok.inj e', fuel_aux _ _ _ _ _ h1 h2]

/-- A colour has six hexadecimal digits.  The name for aggregates is black; the colour of any other name has a component of at most 0x23 and one of at
least 0x30 (of 0xff), so it is neither white nor black. -/
theorem visible (H : Hash A) (hH : Right H) (fuel : Nat) (l : List (List A)) (agg : List A) (o : List (List A × List Nat))
    (h : colorGenerator H fuel l agg = .ok o) (s : List A) (color : List Nat) (hc : (s, color) ∈ o) :
    (s = agg → color = [0, 0, 0, 0, 0, 0]) ∧
    (s ≠ agg → ∃ a b c d e f : Nat, color = [a, b, c, d, e, f] ∧ a < 16 ∧ b < 16 ∧ c < 16 ∧ d < 16 ∧ e < 16 ∧ f < 16 ∧
      (∃ x ∈ [16 * a + b, 16 * c + d, 16 * e + f], x ≤ 35) ∧ ∃ x ∈ [16 * a + b, 16 * c + d, 16 * e + f], 48 ≤ x) := by
  have e := (result_aux h).2 _ hc
  dsimp only at e
  unfold nameColor at e
  constructor
  · intro hs
    rw [if_pos hs] at e
    exact (Except.ok.inj e).symm
  · intro hs
    rw [if_neg hs] at e
    cases h1 : string2color H fuel s with
    | error x => rw [h1] at e; cases e
    | ok k =>
      rw [h1] at e
      obtain ⟨a, b, c, d, x, f, rfl, h1, h2, h3, h4, h5, h6, h7⟩ := color_aux hH _ _ _ h1
      dsimp only at e
      rw [hexText_aux a b c d x f h1 h2 h3 h4 h5 h6] at e
      exact ⟨a, b, c, d, x, f, (Except.ok.inj e).symm, h1, h2, h3, h4, h5, h6, h7⟩

/-- It fails without names. -/
theorem empty (H : Hash A) (fuel : Nat) (agg : List A) : colorGenerator H fuel [] agg = .error .outOfBounds := by
  simp [colorGenerator]

omit [LinearOrder (List A)] [DecidableEq A] in
theorem iterate_aux {H : Hash A} : ∀ (k : Nat) (s : List A),
    (let t := (fun x => x ++ H.sep ++ x)^[k] s; ¬ tooPlain (H.component t 0) (H.component t 10) (H.component t 20)) →
    ∀ fuel, k < fuel → ∃ c, string2color H fuel s = .ok c
  | 0, s, h, fuel + 1, _ => by
    unfold string2color
    exact ⟨_, if_neg h⟩
  | k + 1, s, h, fuel + 1, hf => by
    unfold string2color
    split
    · exact iterate_aux k _ (by simpa using h) fuel (by omega)
    · exact ⟨_, rfl⟩
  | _, _, _, 0, hf => by omega

omit [LinearOrder (List A)] [DecidableEq A] in
theorem iterate_conv_aux {H : Hash A} : ∀ (fuel : Nat) (s : List A) (c : List Nat), string2color H fuel s = .ok c →
    ∃ k : Nat, let t := (fun x => x ++ H.sep ++ x)^[k] s; ¬ tooPlain (H.component t 0) (H.component t 10) (H.component t 20)
  | 0, _, _, h => by cases h
  | fuel + 1, s, c, h => by
    unfold string2color at h
    split at h
    · obtain ⟨k, hk⟩ := iterate_conv_aux fuel _ c h
      exact ⟨k + 1, by simpa using hk⟩
    · rename_i hp
      exact ⟨0, by simpa using hp⟩

/-- When the colours are found: exactly if there is a name, and for each name other than that for aggregates, doubling it with the separator often
enough gives a text whose hash is not too plain. -/
theorem found (H : Hash A) (l : List (List A)) (agg : List A) :
    (∃ fuel o, colorGenerator H fuel l agg = .ok o) ↔ l ≠ [] ∧ ∀ s ∈ l, s ≠ agg →
      ∃ k : Nat, let t := (fun x => x ++ H.sep ++ x)^[k] s; ¬ tooPlain (H.component t 0) (H.component t 10) (H.component t 20) := by
  constructor
  · rintro ⟨fuel, o, h⟩
    refine ⟨?_, ?_⟩
    · intro hl
      rw [hl, empty] at h
      cases h
    intro s hs hne
    obtain ⟨h1, h2⟩ := result_aux h
    have : s ∈ o.map Prod.fst := by
      rw [h1]
      exact (List.perm_insertionSort _ _).mem_iff.mpr hs
    obtain ⟨x, hx, rfl⟩ := List.mem_map.mp this
    have e := h2 x hx
    unfold nameColor at e
    rw [if_neg hne] at e
    cases h1 : string2color H fuel x.1 with
    | error x => rw [h1] at e; cases e
    | ok k => exact iterate_conv_aux _ _ _ h1
  · rintro ⟨hne, hk⟩
    have hN : ∃ N, ∀ s ∈ l, ∀ fuel, N ≤ fuel → ∃ c, nameColor H fuel agg s = .ok c := by
      clear hne
      induction l with
      | nil => exact ⟨0, by simp⟩
      | cons s l ih =>
        obtain ⟨N, hN⟩ := ih (fun x hx => hk x (List.mem_cons_of_mem _ hx))
        by_cases hs : s = agg
        · refine ⟨N, ?_⟩
          intro x hx fuel hf
          rcases List.mem_cons.mp hx with rfl | hx
          · exact ⟨_, if_pos hs⟩
          · exact hN x hx fuel hf
        · obtain ⟨k, hk⟩ := hk s (by simp) hs
          refine ⟨max N (k + 1), ?_⟩
          intro x hx fuel hf
          rcases List.mem_cons.mp hx with rfl | hx
          · obtain ⟨c, hc⟩ := iterate_aux k _ hk fuel (by have := le_max_right N (k + 1); omega)
            unfold nameColor
            rw [if_neg hs, hc]
            exact ⟨_, rfl⟩
          · exact hN x hx fuel (le_trans (le_max_left _ _) hf)
    obtain ⟨N, hN⟩ := hN
    refine ⟨N, ?_⟩
    unfold colorGenerator
    rw [if_neg hne]
    have : ∀ (l' : List (List A)) (acc : List (List A × List Nat)), (∀ s ∈ l', ∃ c, nameColor H N agg s = .ok c) →
        ∃ o, forEach (fun s acc => match nameColor H N agg s with
          | .error e => .error e
          | .ok c => .ok (acc ++ [(s, c)])) l' acc = .ok o := by
      intro l'
      induction l' with
      | nil => intro acc _; exact ⟨acc, rfl⟩
      | cons s l' ih =>
        intro acc h
        obtain ⟨c, hc⟩ := h s (by simp)
        unfold forEach
        rw [hc]
        exact ih _ (fun x hx => h x (List.mem_cons_of_mem _ hx))
    exact this _ _ (fun s hs => hN s ((List.perm_insertionSort _ _).mem_iff.mp hs) N le_rfl)

end

/-- The colour of a tile in `hplot_treemap_state`, which is taken by position, is that of its type if the levels are the types that occur, in increasing
order.  (They are, unless rows have been taken away.) -/
theorem tiles {A : Type} [LinearOrder (List A)] [DecidableEq A] (H : Hash A) (fuel : Nat) (types levels : List (List A)) (agg : List A)
    (o : List (List A × List Nat)) (h : colorGenerator H fuel types agg = .ok o)
    (occur : ∀ t, t ∈ levels ↔ t ∈ types) (once : types.Nodup) (increasing : levels.Pairwise (· < ·)) (t : List A) (ht : t ∈ types) :
    ∃ c, (t, c) ∈ o ∧ colorOfRow levels o t = some c := by
  have hn : levels.Nodup := increasing.imp (fun h => ne_of_lt h)
  have hp : levels.Perm types := (List.perm_ext_iff_of_nodup hn once).mpr occur
  have e : levels = o.map Prod.fst := by
    refine List.Perm.eq_of_pairwise' (r := (· ≤ ·)) (increasing.imp (fun h => le_of_lt h)) (names H fuel types agg o h).2 ?_
    exact hp.trans (names H fuel types agg o h).1.symm
  have hi : levels.idxOf t < levels.length := List.idxOf_lt_length_of_mem ((occur t).mpr ht)
  have hi' : levels.idxOf t < o.length := by
    have : levels.length = o.length := by rw [e, List.length_map]
    omega
  have ht' : (o[levels.idxOf t]).1 = t := by
    have h1 : levels[levels.idxOf t] = t := List.getElem_idxOf hi
    have h2 : levels[levels.idxOf t]? = (o[levels.idxOf t]?).map Prod.fst := by
      conv_lhs => rw [e]
      rw [List.getElem?_map, ← e]
    rw [List.getElem?_eq_getElem hi, List.getElem?_eq_getElem hi', h1] at h2
    exact (Option.some.inj h2).symm
  refine ⟨(o[levels.idxOf t]).2, ?_, ?_⟩
  · have := List.getElem_mem hi'
    rwa [← Prod.mk.eta (p := o[levels.idxOf t]), ht'] at this
  · unfold colorOfRow
    convert congrArg (Option.map Prod.snd) (List.getElem?_eq_getElem hi')
    exact (Option.map_some ..).symm

/-! ## The colours of clusters -/

/-- The colours of the clusters and of what is not a cluster; all others are black. -/
def ClusterColor : List (String × String) :=
  [("Cluster 1", "green"), ("Cluster 2", "yellow"), ("Cluster 3", "red"), ("Cluster 4", "darkgreen"), ("Cluster 5", "deeppink"),
   ("Cluster 6", "darkviolet"), ("Cluster 7", "navajowhite1"), ("Cluster 8", "orange"), ("Cluster 9", "cyan"),
   ("Cluster 10", "darkolivegreen2"), ("Cluster 11", "peru"), ("Noise", "grey")]

theorem setNamed_prefix_aux (name c : String) : ∀ (v : List (String × String)) (l : List String), l <+: v.map Prod.fst →
    l <+: (setNamed v name c).map Prod.fst
  | [], l, h => by
    have : l = [] := by simpa using h
    rw [this]; exact List.nil_prefix
  | x :: v, [], _ => List.nil_prefix
  | x :: v, s :: l, h => by
    rw [List.map_cons, List.cons_prefix_cons] at h
    unfold setNamed
    split
    · rename_i hx
      rw [List.map_cons, List.cons_prefix_cons]
      exact ⟨h.1.trans hx, h.2⟩
    · rw [List.map_cons, List.cons_prefix_cons]
      exact ⟨h.1, setNamed_prefix_aux name c v l h.2⟩

theorem lookup_aux {A : Type} [BEq A] [LawfulBEq A] [DecidableEq A] (s : A) (x : A × String) (v : List (A × String)) :
    (x :: v).lookup s = if s = x.1 then some x.2 else v.lookup s := by
  obtain ⟨k, c⟩ := x
  rw [List.lookup_cons]
  by_cases h : s = k
  · simp [h]
  · have : (s == k) = false := by simpa using h
    rw [this, if_neg h]

theorem setNamed_lookup_aux (name c s : String) : ∀ v : List (String × String),
    (setNamed v name c).lookup s = if s = name then some c else v.lookup s
  | [] => by
    unfold setNamed
    rw [lookup_aux]
  | x :: v => by
    unfold setNamed
    split
    · rename_i hx
      rw [lookup_aux, lookup_aux, hx]
      split <;> rfl
    · rename_i hx
      rw [lookup_aux, lookup_aux, setNamed_lookup_aux name c s v]
      by_cases h : s = x.1
      · have : ¬ s = name := by rw [h]; exact hx
        rw [if_pos h, if_neg this, if_pos h]
      · rw [if_neg h, if_neg h]

theorem setNames_aux : ∀ (l : List String) (v : List (String × String)), l <+: v.map Prod.fst →
    ((setNames v l).map Prod.fst).take l.length = l.map some ∧ (∀ x ∈ (setNames v l).drop l.length, x.1 = none) ∧
    ∀ s ∈ l, (setNames v l).lookup (some s) = v.lookup s
  | [], v, _ => by
    refine ⟨by simp, ?_, by simp⟩
    simp only [List.length_nil, List.drop_zero]
    induction v with
    | nil => simp [setNames]
    | cons x v ih =>
      intro y hy
      rcases List.mem_cons.mp (by simpa [setNames] using hy) with rfl | hy
      · rfl
      · exact ih List.nil_prefix y hy
  | s :: l, [], h => by simp at h
  | s :: l, x :: v, h => by
    rw [List.map_cons, List.cons_prefix_cons] at h
    obtain ⟨h1, h2, h3⟩ := setNames_aux l v h.2
    refine ⟨?_, ?_, ?_⟩
    · simp only [setNames, List.map_cons, List.length_cons, List.take_succ_cons, h1]
    · intro y hy
      simp only [setNames, List.length_cons, List.drop_succ_cons] at hy
      exact h2 y hy
    · intro t ht
      simp only [setNames]
      rw [lookup_aux, lookup_aux, ← h.1]
      by_cases hs : t = s
      · rw [if_pos hs, if_pos (by rw [hs])]
      · rw [if_neg hs, if_neg (fun e => hs (Option.some.inj e))]
        exact h3 t (by rcases List.mem_cons.mp ht with h | h; exact absurd h hs; exact h)

/-- The colours of clusters: the named entries are the given names in the given order, and a name has its colour in the table, black if it has none. -/
theorem clusters (l : List String) :
    ((colorGeneratorClusters l).take l.length).map Prod.fst = l.map some ∧
    (∀ x ∈ (colorGeneratorClusters l).drop l.length, x.1 = none) ∧
    ∀ s ∈ l, (colorGeneratorClusters l).lookup (some s) = some ((ClusterColor.lookup s).getD "black") := by
  have hp : l <+: (l.map (fun s => (s, "black"))).map Prod.fst := by simp [List.map_map, Function.comp_def]
  have hl : ∀ s ∈ l, (l.map (fun s => (s, "black"))).lookup s = some "black" := by
    intro s hs
    clear hp
    induction l with
    | nil => cases hs
    | cons x l ih =>
      rw [List.map_cons, List.lookup_cons]
      by_cases h : s = x
      · simp [h]
      · have : (s == x) = false := by simpa using h
        rw [this]
        exact ih (by rcases List.mem_cons.mp hs with h' | h'; exact absurd h' h; exact h')
  unfold colorGeneratorClusters
  dsimp only
  obtain ⟨h1, h2, h3⟩ := setNames_aux l _ (setNamed_prefix_aux "Noise" "grey" _ _ <| setNamed_prefix_aux "Duration Filtered" "black" _ _ <|
    setNamed_prefix_aux "Cluster 11" "peru" _ _ <| setNamed_prefix_aux "Cluster 10" "darkolivegreen2" _ _ <|
    setNamed_prefix_aux "Cluster 9" "cyan" _ _ <| setNamed_prefix_aux "Cluster 8" "orange" _ _ <|
    setNamed_prefix_aux "Cluster 7" "navajowhite1" _ _ <| setNamed_prefix_aux "Cluster 6" "darkviolet" _ _ <|
    setNamed_prefix_aux "Cluster 5" "deeppink" _ _ <| setNamed_prefix_aux "Cluster 4" "darkgreen" _ _ <|
    setNamed_prefix_aux "Cluster 3" "red" _ _ <| setNamed_prefix_aux "Cluster 2" "yellow" _ _ <| setNamed_prefix_aux "Cluster 1" "green" _ _ hp)
  refine ⟨by rw [← List.map_take] at h1; exact h1, h2, ?_⟩
  intro s hs
  rw [h3 s hs]
  simp only [setNamed_lookup_aux, hl s hs, ClusterColor, List.lookup_cons, List.lookup_nil]
  by_cases e1 : s = "Cluster 1"
  · subst e1; decide
  by_cases e2 : s = "Cluster 2"
  · subst e2; decide
  by_cases e3 : s = "Cluster 3"
  · subst e3; decide
  by_cases e4 : s = "Cluster 4"
  · subst e4; decide
  by_cases e5 : s = "Cluster 5"
  · subst e5; decide
  by_cases e6 : s = "Cluster 6"
  · subst e6; decide
  by_cases e7 : s = "Cluster 7"
  · subst e7; decide
  by_cases e8 : s = "Cluster 8"
  · subst e8; decide
  by_cases e9 : s = "Cluster 9"
  · subst e9; decide
  by_cases e10 : s = "Cluster 10"
  · subst e10; decide
  by_cases e11 : s = "Cluster 11"
  · subst e11; decide
  by_cases e12 : s = "Noise"
  · subst e12; decide
  have b : ∀ t : String, ¬ s = t → (s == t) = false := fun t h => by simpa using h
  simp only [if_neg e1, if_neg e2, if_neg e3, if_neg e4, if_neg e5, if_neg e6, if_neg e7, if_neg e8, if_neg e9, if_neg e10, if_neg e11,
    if_neg e12, b _ e1, b _ e2, b _ e3, b _ e4, b _ e5, b _ e6, b _ e7, b _ e8, b _ e9, b _ e10, b _ e11, b _ e12, ite_self]
  rfl

/-! ## Concrete cases -/

/-- Four names of the shipped trace's kind. -/
example : (colorGeneratorClusters ["Noise", "End", "Cluster 3", "Cluster 10"]).take 4 =
    [(some "Noise", "grey"), (some "End", "black"), (some "Cluster 3", "red"), (some "Cluster 10", "darkolivegreen2")] := by decide +kernel

/-- The plot of the result for four leaves with values 1, 2, 3, 4 under two nodes and a root. -/
example : ∃ fuel r, haggregate (F := ℝ) false fuel 2147483647 id (rArray 4 1 1 fun x => (x.1 + 1 : ℝ)) [5, 5, 6, 6, 7, 7, 0]
    (1 / 100) = .ok r ∧ ∃ a, (qualplot r).red = [a] ∧ a ∈ (qualplot r).line ∧
      ∀ a ∈ (qualplot r).line, ∀ b ∈ (qualplot r).line, ∀ c ∈ (qualplot r).line, a.1 < b.1 → b.1 < c.1 →
        a.2 + (c.2 - a.2) * ((b.1 - a.1) / (c.1 - a.1)) ≤ b.2 := by
  obtain ⟨N, h⟩ := C49.hierarchical (exactLaws ℝ) 2147483647 (by norm_num) (1 / 100 : ℝ) (by simp) (by simp)
  have tree : IsTree 4 [4, 4, 5, 5, 6, 6, -1] 6 :=
    .ofCheck (fun h => if h < 4 then 2 else if h = 6 then 0 else 1) (by decide) (by decide) (by decide) (by decide)
  obtain ⟨n1, n2⟩ := C49.nz_aux (f := fun k : Nat => (k + 1 : ℝ)) (s := Finset.range 4)
    (fun x _ => by positivity) (a := 0) (b := 2) (c := 0) (d := 1) (by simp) (by simp) (by norm_num) (by norm_num) (by norm_num)
    (by simp) (by simp) (by norm_num)
  obtain ⟨r, e, hr⟩ := h 4 1 1 (fun x => (x.1 + 1 : ℝ)) [5, 5, 6, 6, 7, 7, 0] (by norm_num) (by norm_num) (by norm_num) tree
    (balanced_nearestFirst tree
      (.ofCheck (fun h => if h < 4 then 0 else if h = 6 then 2 else 1) (by decide) (by decide) (by decide)))
    (by norm_num) (fun i j k _ _ _ => by positivity) n1 n2 N (Nat.le_refl _)
  obtain ⟨s1, _, _, _, a, s2, s3, _⟩ := shown _ _ _ _ _ r hr
  exact ⟨N, r, e, a, s2, s1 ▸ s3, fun a ha b hb c hc => concave _ _ _ _ _ r hr (fun _ h => h) a b c ha hb hc⟩

/-- A hash for the examples. -/
def lengthHash : Hash Nat where
  digest := fun s => (List.range 32).map (fun k => (s.length * (k + 1) + s.sum) % 16)
  digits := id
  sep := [58, 45, 111]

theorem lengthHash_right_aux : Right lengthHash := by
  intro s
  refine ⟨by simp [lengthHash], ?_⟩
  intro d hd
  simp only [lengthHash, List.mem_map] at hd
  obtain ⟨k, _, rfl⟩ := hd
  exact Nat.mod_lt _ (by norm_num)

/-- Colours of three names and of the name for aggregates. -/
example : colorGenerator lengthHash 3 [[99], [97, 98], [], [97]] [] =
    .ok [([], [0, 0, 0, 0, 0, 0]), ([97], [13, 7, 1, 11, 5, 15]), ([97, 98], [13, 7, 1, 11, 5, 15]), ([99], [1, 11, 5, 15, 9, 3])] := by
  decide +kernel

/-- The colours of the tiles of two types; with a level that does not occur, the colour is that of another type, or none. -/
example : (colorGenerator lengthHash 3 [[99], [97, 98]] []).map (fun o => (colorOfRow [[97, 98], [99]] o [97, 98], colorOfRow [[97, 98], [99]] o [99],
      colorOfRow [[97], [97, 98], [99]] o [97, 98], colorOfRow [[97], [97, 98], [99]] o [99])) =
    .ok (some [13, 7, 1, 11, 5, 15], some [1, 11, 5, 15, 9, 3], some [1, 11, 5, 15, 9, 3], none) := by
  decide +kernel

/-- A hash for which all colours are too plain: the function never returns. -/
example (fuel : Nat) (s : List Nat) : string2color ⟨fun _ => List.replicate 32 15, id, []⟩ fuel s = .error .outOfFuel := by
  induction fuel generalizing s with
  | zero => rfl
  | succ n ih =>
    unfold string2color
    rw [if_pos (by simp only [Hash.component]; decide)]
    exact ih _

/-- The order of the texts: "ff" is above 230, but so is "24"; "2f" is below 30. -/
example : tooPlain [15, 15] [15, 15] [2, 4] = true ∧ tooPlain [15, 15] [15, 15] [2, 3] = false ∧ tooPlain [0, 0] [1, 2] [2, 15] = true ∧
    tooPlain [0, 0] [1, 2] [3, 0] = false := by decide

end Lp.C71

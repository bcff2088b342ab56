import Verif.Spec.Rounded
import Verif.Spec.Value
import Verif.Proofs.Dp
import Verif.Model.Tradeoff
import Mathlib.Tactic.GCongr
import Mathlib.Tactic.Positivity
import Mathlib.Data.Prod.Lex

/-!
# Rounded sums and decision systems
-/

namespace Lp
variable {E : Type} [Field E] [LinearOrder E]

/-- `x` is a computed approximation of `v` after at most `k` roundings of relative size `u`; `m` bounds the sum of the
magnitudes of the terms. -/
structure Near (u : E) (k : Nat) (x v m : E) : Prop where
  err : |x - v| ≤ ((1 + u) ^ k - 1) * m
  mag : |v| ≤ m

variable [IsStrictOrderedRing E] {u : E}

theorem Near.pos {k : Nat} {x v m : E} (h : Near u k x v m) : 0 ≤ m := le_trans (abs_nonneg _) h.mag

theorem Near.mono (hu : 0 ≤ u) {k k' : Nat} {x v m : E} (h : Near u k x v m) (hk : k ≤ k') : Near u k' x v m := by
  refine ⟨le_trans h.err ?_, h.mag⟩
  have : (1 + u) ^ k ≤ (1 + u) ^ k' := pow_le_pow_right₀ (by linarith) hk
  exact mul_le_mul_of_nonneg_right (by linarith) h.pos

/-- One more rounding. -/
theorem Near.round (hu : 0 ≤ u) {k : Nat} {x y v m : E} (h : Near u k x v m) (hy : |y - x| ≤ u * |x|) :
    Near u (k + 1) y v m := by
  refine ⟨?_, h.mag⟩
  have h1 : |x| ≤ (1 + u) ^ k * m := by
    have : |x| ≤ |x - v| + |v| := by
      have := abs_add_le (x - v) v
      simpa using this
    have := h.err
    have := h.mag
    nlinarith
  have h2 : |y - v| ≤ |y - x| + |x - v| := by
    have := abs_add_le (y - x) (x - v)
    simpa using this
  have h3 : u * |x| ≤ u * ((1 + u) ^ k * m) := mul_le_mul_of_nonneg_left h1 hu
  have h4 := h.err
  rw [pow_succ]
  nlinarith

theorem Near.sum {k : Nat} {x y v w m n : E} (h : Near u k x v m) (h' : Near u k y w n) : Near u k (x + y) (v + w) (m + n) := by
  refine ⟨?_, le_trans (abs_add_le _ _) (add_le_add h.mag h'.mag)⟩
  have : x + y - (v + w) = (x - v) + (y - w) := by ring
  rw [this]
  refine le_trans (abs_add_le _ _) ?_
  have := h.err
  have := h'.err
  linarith

theorem Near.diff {k : Nat} {x y v w m n : E} (h : Near u k x v m) (h' : Near u k y w n) : Near u k (x - y) (v - w) (m + n) := by
  refine ⟨?_, le_trans (abs_sub _ _) (add_le_add h.mag h'.mag)⟩
  have : x - y - (v - w) = (x - v) - (y - w) := by ring
  rw [this]
  refine le_trans (abs_sub _ _) ?_
  have := h.err
  have := h'.err
  linarith

theorem Near.exact {k : Nat} (hu : 0 ≤ u) {x m : E} (h : |x| ≤ m) : Near u k x x m := by
  refine ⟨?_, h⟩
  have : (1 : E) ≤ (1 + u) ^ k := one_le_pow₀ (by linarith)
  have : 0 ≤ ((1 + u) ^ k - 1) * m := mul_nonneg (by linarith) (le_trans (abs_nonneg _) h)
  simpa using this

section laws
variable {F K : Type} [LD K] [FloatP F K] {val : K → E} (laws : RoundedLaws val u)
include laws

theorem near_add {k : Nat} {x y : K} {v w m n : E} (h : Near u k (val x) v m) (h' : Near u k (val y) w n) :
    Near u (k + 1) (val (x + y)) (v + w) (m + n) :=
  (h.sum h').round laws.unit_nonneg (laws.add_err x y)

/-- Value of one part. -/
theorem near_pic (p : F) (g l : K) :
    Near u 2 (val (Tradeoff.pic p g l)) (val (FloatP.toK p) * val g - val (FloatP.toK (FloatP.oneSub p)) * val l)
      (|val (FloatP.toK p) * val g| + |val (FloatP.toK (FloatP.oneSub p)) * val l|) := by
  have h1 : Near u 1 (val (FloatP.toK p * g)) (val (FloatP.toK p) * val g) |val (FloatP.toK p) * val g| :=
    (Near.exact (k := 0) laws.unit_nonneg (le_refl _)).round laws.unit_nonneg (laws.mul_err _ _)
  have h2 : Near u 1 (val (FloatP.toK (FloatP.oneSub p) * l)) (val (FloatP.toK (FloatP.oneSub p)) * val l)
      |val (FloatP.toK (FloatP.oneSub p)) * val l| :=
    (Near.exact (k := 0) laws.unit_nonneg (le_refl _)).round laws.unit_nonneg (laws.mul_err _ _)
  exact (h1.diff h2).round laws.unit_nonneg (laws.sub_err _ _)

omit [FloatP F K] in
/-- A running sum from 0. -/
theorem near_fold {A : Type} (x : A → K) (v m : A → E) {k : Nat} (l : List A)
    (h : ∀ a ∈ l, Near u k (val (x a)) (v a) (m a)) :
    Near u (k + (l.length - 1)) (val (l.foldl (fun s a => s + x a) 0)) (wsum v l) (wsum m l) := by
  induction l using List.reverseRecOn with
  | nil =>
    simp only [List.foldl_nil, wsum_nil]
    rw [laws.zero]
    exact Near.exact laws.unit_nonneg (by simp)
  | append_singleton l a ih =>
    have hl := ih (fun b hb => h b (by simp [hb]))
    have ha := h a (by simp)
    rw [List.foldl_append, wsum_append, wsum_append]
    simp only [List.foldl_cons, List.foldl_nil, wsum_cons, wsum_nil, add_zero, List.length_append, List.length_singleton,
      Nat.add_sub_cancel]
    cases l with
    | nil =>
      simp only [List.foldl_nil, wsum_nil, zero_add, List.length_nil, Nat.add_zero]
      rw [laws.zero_add]
      exact ha
    | cons b l =>
      have := near_add laws hl (ha.mono laws.unit_nonneg (k' := k + ((b :: l).length - 1)) (by omega))
      refine this.mono laws.unit_nonneg ?_
      simp only [List.length_cons]
      omega

omit [FloatP F K] [IsStrictOrderedRing E] in
theorem fold_mono {A : Type} (x y : A → K) (l : List A) (h : ∀ a ∈ l, val (x a) ≤ val (y a)) :
    val (l.foldl (fun s a => s + x a) 0) ≤ val (l.foldl (fun s a => s + y a) 0) := by
  induction l using List.reverseRecOn with
  | nil => exact le_refl _
  | append_singleton l a ih =>
    rw [List.foldl_append, List.foldl_append]
    exact laws.add_mono _ _ _ _ (ih (fun b hb => h b (by simp [hb]))) (h a (by simp))

omit [FloatP F K] in
/-- The quality of a list of parts, as the code adds it up. -/
theorem near_sumQuality {A : Type} (q : A → Quality K) (L : List A) :
    Near u (L.length - 1) (val ((L.map q).foldl Quality.add Quality.zero).gain) (wsum (fun a => val (q a).gain) L)
      (wsum (fun a => |val (q a).gain|) L) ∧
    Near u (L.length - 1) (val ((L.map q).foldl Quality.add Quality.zero).loss) (wsum (fun a => val (q a).loss) L)
      (wsum (fun a => |val (q a).loss|) L) := by
  have e : ∀ (L : List A) (z : Quality K), (L.map q).foldl Quality.add z =
      ⟨L.foldl (fun s a => s + (q a).gain) z.gain, L.foldl (fun s a => s + (q a).loss) z.loss⟩ := by
    intro L
    induction L with
    | nil => intro z; rfl
    | cons a L ih => intro z; simp only [List.map_cons, List.foldl_cons]; rw [ih]; rfl
  rw [e]
  have h1 := near_fold laws (fun a => (q a).gain) (fun a => val (q a).gain) (fun a => |val (q a).gain|) (k := 0) L
    (fun a ha => Near.exact laws.unit_nonneg (le_refl _))
  have h2 := near_fold laws (fun a => (q a).loss) (fun a => val (q a).loss) (fun a => |val (q a).loss|) (k := 0) L
    (fun a ha => Near.exact laws.unit_nonneg (le_refl _))
  rw [Nat.zero_add] at h1 h2
  exact ⟨h1, h2⟩

/-- Comparison key of a tradeoff. -/
def obv (val : K → E) (t : Tradeoff K) : E ×ₗ (E ×ₗ E) := toLex (val t.value, toLex (val t.gain, - val t.loss))

omit [FloatP F K] in
theorem gt_iff_obv (a b : Tradeoff K) : Tradeoff.gt a b = true ↔ obv val b < obv val a := by
  unfold Tradeoff.gt obv
  simp only [Bool.or_eq_true, Bool.and_eq_true, decide_eq_true_eq, laws.lt_iff, laws.eq_iff, Prod.Lex.toLex_lt_toLex,
    neg_lt_neg_iff]
  constructor
  · rintro (h | ⟨h1, h2 | ⟨h2, h3⟩⟩)
    · exact .inl h
    · exact .inr ⟨h1.symm, .inl h2⟩
    · exact .inr ⟨h1.symm, .inr ⟨h2.symm, h3⟩⟩
  · rintro (h | ⟨h1, h2 | ⟨h2, h3⟩⟩)
    · exact .inl h
    · exact .inr ⟨h1.symm, .inl h2⟩
    · exact .inr ⟨h1.symm, .inr ⟨h2.symm, h3⟩⟩

omit [FloatP F K] [IsStrictOrderedRing E] [LD K] laws in
theorem obv_le {a b : Tradeoff K} (h : obv val a ≤ obv val b) : val a.value ≤ val b.value := by
  unfold obv at h
  rw [Prod.Lex.toLex_le_toLex] at h
  rcases h with h | h
  · exact h.le
  · exact h.1.le

omit [FloatP F K] [IsStrictOrderedRing E] in
theorem lt_iff_val (a b : Tradeoff K) : Tradeoff.lt a b = true ↔ val a.value < val b.value := by
  unfold Tradeoff.lt Tradeoff.gt Tradeoff.eqOp
  simp only [Bool.not_eq_true', Bool.or_eq_false_iff, Bool.and_eq_false_iff, decide_eq_false_iff_not, laws.lt_iff]
  have he : ∀ x y : K, (x == y) = false ↔ val x ≠ val y := by
    intro x y
    rw [← not_iff_not, Bool.not_eq_false, laws.eq_iff, not_not]
  simp only [he]
  constructor
  · rintro ⟨⟨h1, _⟩, h2⟩
    exact lt_of_le_of_ne (not_lt.mp h1) h2
  · intro h
    exact ⟨⟨not_lt.mpr h.le, Or.inl (ne_of_lt h)⟩, ne_of_lt h⟩

end laws

/-! ## Decision systems whose tables were computed with rounding -/

section
variable {σ A K : Type} [LD K] {val : K → E}

/-- `T`, `D` were computed with rounding: `T s` is the largest computed candidate, `D s` the decision it came from. -/
structure RDp (u : E) (val : K → E) (decs : Decs σ A) (v m : A → E) (ok : σ → Prop) (depth : σ → Nat) (T : σ → K) (D : σ → Nat) :
    Prop where
  closed : ∀ s, ok s → ∀ (k : Nat) (e : List A) (succ : List σ), (decs s)[k]? = some (e, succ) →
    succ.Nodup ∧ ∀ s' ∈ succ, ok s'
  chosen : ∀ s, ok s → ∀ (e : List A) (succ : List σ), (decs s)[D s]? = some (e, succ) →
    ∀ V M : σ → E, (∀ s' ∈ succ, Near u (depth s') (val (T s')) (V s') (M s')) →
      Near u (depth s) (val (T s)) (wsum v e + wsum V succ) (wsum m e + wsum M succ)
  best : ∀ s, ok s → ∀ (k : Nat) (e : List A) (succ : List σ), (decs s)[k]? = some (e, succ) →
    ∀ (X : σ → K) (V M : σ → E),
      (∀ s' ∈ succ, val (X s') ≤ val (T s') ∧ Near u (depth s') (val (X s')) (V s') (M s')) →
      ∃ x : K, val x ≤ val (T s) ∧ Near u (depth s) (val x) (wsum v e + wsum V succ) (wsum m e + wsum M succ)

/-- A solution of a stack of different states is one solution per state. -/
theorem Sol.perState {decs : Decs σ A} : ∀ (st : List σ) {ds : List Nat} {L : List A}, Sol decs st ds L → st.Nodup →
    ∃ (df : σ → List Nat) (Lf : σ → List A), (∀ s ∈ st, Sol decs [s] (df s) (Lf s) ∧ (df s).length ≤ ds.length) ∧
      ∀ w : A → E, wsum w L = wsum (fun s => wsum w (Lf s)) st := by
  classical
  intro st
  induction st with
  | nil =>
    intro ds L h _
    cases h
    exact ⟨fun _ => [], fun _ => [], by simp, fun w => rfl⟩
  | cons s st ih =>
    intro ds L h hnd
    obtain ⟨ds1, ds2, L1, L2, rfl, rfl, h1, h2⟩ := h.split [s] st rfl
    obtain ⟨hs, hnd'⟩ := List.nodup_cons.mp hnd
    obtain ⟨df, Lf, hf, hw⟩ := ih h2 hnd'
    have hne : ∀ s' ∈ st, s' ≠ s := fun s' h' e => hs (e ▸ h')
    refine ⟨fun x => if x = s then ds1 else df x, fun x => if x = s then L1 else Lf x, ?_, ?_⟩
    · intro s' hs'
      rcases List.mem_cons.mp hs' with rfl | hs'
      · simp only [if_true]
        exact ⟨h1, by simp⟩
      · simp only [if_neg (hne s' hs')]
        obtain ⟨g1, g2⟩ := hf s' hs'
        exact ⟨g1, by simp only [List.length_append]; omega⟩
    · intro w
      rw [wsum_append, wsum_cons, hw w]
      simp only [if_true]
      congr 1
      unfold wsum
      congr 1
      apply List.map_congr_left
      intro s' hs'
      simp only [if_neg (hne s' hs')]

theorem Greedy.perState {decs : Decs σ A} {D : σ → Nat} : ∀ (st : List σ) {ds : List Nat} {L : List A}, Greedy decs D st ds L → st.Nodup →
    ∃ (df : σ → List Nat) (Lf : σ → List A), (∀ s ∈ st, Greedy decs D [s] (df s) (Lf s) ∧ (df s).length ≤ ds.length) ∧
      ∀ w : A → E, wsum w L = wsum (fun s => wsum w (Lf s)) st := by
  classical
  -- a greedy derivation splits
  have split : ∀ {st : List σ} {ds : List Nat} {L : List A}, Greedy decs D st ds L → ∀ st1 st2, st = st1 ++ st2 →
      ∃ ds1 ds2 L1 L2, ds = ds1 ++ ds2 ∧ L = L1 ++ L2 ∧ Greedy decs D st1 ds1 L1 ∧ Greedy decs D st2 ds2 L2 := by
    intro st ds L h
    induction h with
    | nil =>
      intro st1 st2 h
      obtain ⟨rfl, rfl⟩ := List.append_eq_nil_iff.mp h.symm
      exact ⟨[], [], [], [], rfl, rfl, .nil, .nil⟩
    | @cons s rest e succ ds L hk hsol ih =>
      intro st1 st2 h
      cases st1 with
      | nil =>
        simp only [List.nil_append] at h
        subst h
        exact ⟨[], _ :: ds, [], e ++ L, rfl, rfl, .nil, .cons hk hsol⟩
      | cons a st1 =>
        simp only [List.cons_append, List.cons.injEq] at h
        obtain ⟨rfl, rfl⟩ := h
        obtain ⟨ds1, ds2, L1, L2, rfl, rfl, h1, h2⟩ := ih (succ ++ st1) st2 (by simp)
        exact ⟨_ :: ds1, ds2, e ++ L1, L2, rfl, by simp, .cons hk h1, h2⟩
  intro st
  induction st with
  | nil =>
    intro ds L h _
    cases h
    exact ⟨fun _ => [], fun _ => [], by simp, fun w => rfl⟩
  | cons s st ih =>
    intro ds L h hnd
    obtain ⟨ds1, ds2, L1, L2, rfl, rfl, h1, h2⟩ := split h [s] st rfl
    obtain ⟨hs, hnd'⟩ := List.nodup_cons.mp hnd
    obtain ⟨df, Lf, hf, hw⟩ := ih h2 hnd'
    have hne : ∀ s' ∈ st, s' ≠ s := fun s' h' e => hs (e ▸ h')
    refine ⟨fun x => if x = s then ds1 else df x, fun x => if x = s then L1 else Lf x, ?_, ?_⟩
    · intro s' hs'
      rcases List.mem_cons.mp hs' with rfl | hs'
      · simp only [if_true]
        exact ⟨h1, by simp⟩
      · simp only [if_neg (hne s' hs')]
        obtain ⟨g1, g2⟩ := hf s' hs'
        exact ⟨g1, by simp only [List.length_append]; omega⟩
    · intro w
      rw [wsum_append, wsum_cons, hw w]
      simp only [if_true]
      congr 1
      unfold wsum
      congr 1
      apply List.map_congr_left
      intro s' hs'
      simp only [if_neg (hne s' hs')]

variable {decs : Decs σ A} {v m : A → E} {ok : σ → Prop} {depth : σ → Nat} {T : σ → K} {D : σ → Nat}

/-- The announced value approximates the value of the greedy solution. -/
theorem RDp.greedy (h : RDp u val decs v m ok depth T D) : ∀ (n : Nat) (s : σ) (ds : List Nat) (L : List A), ds.length ≤ n →
    ok s → Greedy decs D [s] ds L → Near u (depth s) (val (T s)) (wsum v L) (wsum m L) := by
  intro n
  induction n with
  | zero =>
    intro s ds L hn _ hg
    cases hg
    simp at hn
  | succ n ih =>
    intro s ds L hn hok hg
    cases hg with
    | @cons _ _ e succ ds L hk hg =>
      rw [List.append_nil] at hg
      obtain ⟨hnd, hoks⟩ := h.closed s hok _ e succ hk
      obtain ⟨df, Lf, hf, hw⟩ := Greedy.perState succ hg hnd (E := E)
      rw [wsum_append, wsum_append, hw v, hw m]
      refine h.chosen s hok e succ hk _ _ (fun s' hs' => ?_)
      obtain ⟨g1, g2⟩ := hf s' hs'
      refine ih s' (df s') (Lf s') ?_ (hoks s' hs') g1
      simp only [List.length_cons] at hn
      omega

/-- The announced value is at least an approximation of the value of any solution. -/
theorem RDp.any (h : RDp u val decs v m ok depth T D) : ∀ (n : Nat) (s : σ) (ds : List Nat) (L : List A), ds.length ≤ n →
    ok s → Sol decs [s] ds L → ∃ x : K, val x ≤ val (T s) ∧ Near u (depth s) (val x) (wsum v L) (wsum m L) := by
  classical
  intro n
  induction n with
  | zero =>
    intro s ds L hn _ hg
    cases hg
    simp at hn
  | succ n ih =>
    intro s ds L hn hok hg
    cases hg with
    | @cons _ _ k e succ ds L hk hg =>
      rw [List.append_nil] at hg
      obtain ⟨hnd, hoks⟩ := h.closed s hok _ e succ hk
      obtain ⟨df, Lf, hf, hw⟩ := Sol.perState succ hg hnd (E := E)
      rw [wsum_append, wsum_append, hw v, hw m]
      have : ∀ s' ∈ succ, ∃ x : K, val x ≤ val (T s') ∧ Near u (depth s') (val x) (wsum v (Lf s')) (wsum m (Lf s')) := by
        intro s' hs'
        obtain ⟨g1, g2⟩ := hf s' hs'
        refine ih s' (df s') (Lf s') ?_ (hoks s' hs') g1
        simp only [List.length_cons] at hn
        omega
      choose! X hX using this
      exact h.best s hok k e succ hk X _ _ hX

/-- The greedy solution is nearly optimal. -/
theorem RDp.nearOptimal (h : RDp u val decs v m ok depth T D) {s : σ} {ds ds' : List Nat} {L L' : List A} (hok : ok s)
    (hg : Greedy decs D [s] ds L) (hs : Sol decs [s] ds' L') :
    wsum v L' - ((1 + u) ^ depth s - 1) * (wsum m L + wsum m L') ≤ wsum v L := by
  have h1 := h.greedy _ s ds L (le_refl _) hok hg
  obtain ⟨x, h2, h3⟩ := h.any _ s ds' L' (le_refl _) hok hs
  have h4 := (abs_le.mp h1.err).2
  have h5 := (abs_le.mp h3.err).1
  linarith [mul_add ((1 + u) ^ depth s - 1) (wsum m L) (wsum m L')]

end
end Lp

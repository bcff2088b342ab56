import Verif.Spec.Machine
import Verif.Props.C33
import Verif.Props.C67
import Verif.Props.C68

/-!
# From best partitions within rounding to the result that R gets
-/

namespace Lp
open Spec

theorem rowsAt_of {D S T R : Type} (param : R → D) (key : S → D) (g : S → List R) (hg : ∀ s, ∀ x ∈ g s, param x = key s) (s : S) :
    ∀ l : List S, (l.Pairwise (fun a b => key a ≠ key b)) → s ∈ l → rowsAt param (key s) (l.flatMap g) = g s := by
  classical
  have skip : ∀ y, key y ≠ key s → rowsAt param (key s) (g y) = [] := by
    intro y hy
    unfold rowsAt
    rw [List.filter_eq_nil_iff]
    intro x hx
    rw [hg y x hx]
    simpa using hy
  have self : rowsAt param (key s) (g s) = g s := by
    unfold rowsAt
    rw [List.filter_eq_self]
    intro x hx
    simp [hg s x hx]
  have split : ∀ (y : S) (l : List S), rowsAt param (key s) ((y :: l).flatMap g) = rowsAt param (key s) (g y) ++ rowsAt param (key s) (l.flatMap g) := by
    intro y l
    unfold rowsAt
    simp
  intro l
  induction l with
  | nil => intro _ h; simp at h
  | cons y l ih =>
    intro hp h
    rw [List.pairwise_cons] at hp
    rw [split]
    rcases List.mem_cons.mp h with rfl | h
    · have : rowsAt param (key s) (l.flatMap g) = [] := by
        unfold rowsAt
        rw [List.filter_eq_nil_iff]
        intro x hx
        obtain ⟨z, hz, hx⟩ := List.mem_flatMap.mp hx
        rw [hg z x hx]
        simpa using (hp.1 z hz).symm
      rw [this, self, List.append_nil]
    · rw [ih hp.2 h, skip y (hp.1 s h), List.nil_append]

/-! ## Points moved a little -/

section
variable {b : ℝ}

/-- A number near the unit interval, and what it is converted to. -/
theorem near_unit {x y g ε : ℝ} (hb : 0 ≤ b) (h : |x - g| ≤ ε) (hε : ε ≤ 1) (g0 : 0 ≤ g) (g1 : g ≤ 1) (hy : |y - x| ≤ b * max 1 |x|) :
    -1 ≤ x ∧ x ≤ 2 ∧ |y - x| ≤ 2 * b ∧ |y - g| ≤ ε + 2 * b := by
  obtain ⟨h1, h2⟩ := abs_le.mp h
  have x1 : -1 ≤ x := by linarith
  have x2 : x ≤ 2 := by linarith
  have hm : max 1 |x| ≤ 2 := max_le (by norm_num) (abs_le.mpr ⟨by linarith, x2⟩)
  have h3 : |y - x| ≤ 2 * b := le_trans hy (by nlinarith)
  refine ⟨x1, x2, h3, ?_⟩
  have := abs_add_le (y - x) (x - g)
  rw [sub_add_sub_cancel] at this
  linarith

/-- `p` lies near the unit square and `q` is what it is converted to. -/
def Moved (b : ℝ) (p q : Quality ℝ) : Prop :=
  (-1 ≤ p.gain ∧ p.gain ≤ 2 ∧ |q.gain - p.gain| ≤ 2 * b) ∧ (-1 ≤ p.loss ∧ p.loss ≤ 2 ∧ |q.loss - p.loss| ≤ 2 * b)

theorem Moved.distance {p q : Quality ℝ} (hb : 0 ≤ b) (hb1 : b ≤ 1 / 8) (h : Moved b p q) :
    |distance q - distance p| ≤ 17 * b ∧ 0 ≤ distance p ∧ distance p ≤ 8 := by
  obtain ⟨⟨g1, g2, g3⟩, l1, l2, l3⟩ := h
  obtain ⟨g3, g4⟩ := abs_le.mp g3
  obtain ⟨l3, l4⟩ := abs_le.mp l3
  have sq : ∀ {x y s : ℝ}, -(2 * b) ≤ y - x → y - x ≤ 2 * b → |y + x - s| ≤ 17 / 4 → |(y - x) * (y + x - s)| ≤ 17 / 2 * b := by
    intro x y s h1 h2 h3
    rw [abs_mul]
    have := mul_le_mul (abs_le.mpr ⟨h1, h2⟩) h3 (abs_nonneg _) (by linarith : 0 ≤ 2 * b)
    linarith
  have e : Spec.distance q - Spec.distance p = (q.gain - p.gain) * (q.gain + p.gain - 2) + (q.loss - p.loss) * (q.loss + p.loss - 0) := by
    unfold Spec.distance; ring
  refine ⟨?_, ?_, ?_⟩
  · rw [e]
    refine le_trans (abs_add_le _ _) ?_
    have t1 := sq (s := 2) g3 g4 (abs_le.mpr ⟨by linarith, by linarith⟩)
    have t2 := sq (s := 0) l3 l4 (abs_le.mpr ⟨by linarith, by linarith⟩)
    linarith
  · unfold Spec.distance; positivity
  · unfold Spec.distance; nlinarith

theorem moved_area (hb : 0 ≤ b) (hb1 : b ≤ 1 / 8) : ∀ {P Q : List (Quality ℝ)}, List.Forall₂ (Moved b) P Q →
    |polyArea Q - polyArea P| ≤ 15 * P.length * b ∧ |areaSize Q - areaSize P| ≤ 15 * P.length * b := by
  intro P Q h
  induction h with
  | nil => simp [polyArea, areaSize]
  | @cons p q P Q h1 hr ih =>
    cases hr with
    | nil =>
      simp only [polyArea, areaSize, sub_self, abs_zero, List.length_cons, List.length_nil]
      push_cast
      constructor <;> positivity
    | @cons p' q' P Q h2 hr =>
      have key : |(q'.gain - q.gain) * (q'.loss + q.loss) / 2 - (p'.gain - p.gain) * (p'.loss + p.loss) / 2| ≤ 15 * b := by
        obtain ⟨⟨g1, g2, g3⟩, l1, l2, l3⟩ := h1
        obtain ⟨⟨g1', g2', g3'⟩, l1', l2', l3'⟩ := h2
        obtain ⟨g3, g4⟩ := abs_le.mp g3
        obtain ⟨l3, l4⟩ := abs_le.mp l3
        obtain ⟨g3', g4'⟩ := abs_le.mp g3'
        obtain ⟨l3', l4'⟩ := abs_le.mp l3'
        have e : (q'.gain - q.gain) * (q'.loss + q.loss) / 2 - (p'.gain - p.gain) * (p'.loss + p.loss) / 2 =
            ((q'.gain - p'.gain) - (q.gain - p.gain)) * ((p'.loss + p.loss) / 2) +
            (q'.gain - q.gain) * (((q'.loss - p'.loss) + (q.loss - p.loss)) / 2) := by ring
        rw [e]
        refine le_trans (abs_add_le _ _) ?_
        rw [abs_mul, abs_mul]
        have a1 : |(q'.gain - p'.gain) - (q.gain - p.gain)| ≤ 4 * b := abs_le.mpr ⟨by linarith, by linarith⟩
        have a2 : |(p'.loss + p.loss) / 2| ≤ 2 := abs_le.mpr ⟨by linarith, by linarith⟩
        have a3 : |q'.gain - q.gain| ≤ 7 / 2 := abs_le.mpr ⟨by linarith, by linarith⟩
        have a4 : |((q'.loss - p'.loss) + (q.loss - p.loss)) / 2| ≤ 2 * b := abs_le.mpr ⟨by linarith, by linarith⟩
        have t1 := mul_le_mul a1 a2 (abs_nonneg _) (by linarith : 0 ≤ 4 * b)
        have t2 := mul_le_mul a3 a4 (abs_nonneg _) (by norm_num : (0 : ℝ) ≤ 7 / 2)
        linarith
      simp only [polyArea, areaSize, List.length_cons] at ih ⊢
      push_cast at ih ⊢
      have key' := le_trans (abs_abs_sub_abs_le_abs_sub ((q'.gain - q.gain) * (q'.loss + q.loss) / 2)
        ((p'.gain - p.gain) * (p'.loss + p.loss) / 2)) key
      obtain ⟨i1, i2⟩ := abs_le.mp ih.1
      obtain ⟨i3, i4⟩ := abs_le.mp ih.2
      obtain ⟨k1, k2⟩ := abs_le.mp key
      obtain ⟨k3, k4⟩ := abs_le.mp key'
      rw [abs_le, abs_le]
      refine ⟨⟨?_, ?_⟩, ?_, ?_⟩ <;> linarith

theorem polyArea_le_size : ∀ l : List (Quality ℝ), |polyArea l| ≤ areaSize l
  | [] => by simp [polyArea, areaSize]
  | [_] => by simp [polyArea, areaSize]
  | a :: b :: l => by
    simp only [polyArea, areaSize]
    exact le_trans (abs_add_le _ _) (add_le_add (le_refl _) (polyArea_le_size (b :: l)))

/-- The error of `AUC` as R gets it. -/
theorem area_result {P Q : List (Quality ℝ)} (hb : 0 ≤ b) (hb1 : b ≤ 1 / 8) (h : List.Forall₂ (Moved b) P Q) {A x y : ℝ} (hA : 0 ≤ A)
    (hx : |x - (1 - polyArea P)| ≤ A * (1 + areaSize P)) (hy : |y - x| ≤ b * max 1 |x|) :
    |y - (1 - polyArea Q)| ≤ ((1 + A) * (1 + b) * (1 + 15 * P.length * b) - 1) * (1 + areaSize Q) := by
  obtain ⟨m1, m2⟩ := moved_area hb hb1 h
  have s0 : ∀ l : List (Quality ℝ), 0 ≤ areaSize l := fun l => le_trans (abs_nonneg _) (polyArea_le_size l)
  have sP := s0 P
  have sQ := s0 Q
  have pP := abs_le.mp (polyArea_le_size P)
  obtain ⟨x1, x2⟩ := abs_le.mp hx
  have hm : max 1 |x| ≤ (1 + A) * (1 + areaSize P) := by
    refine max_le ?_ (abs_le.mpr ⟨?_, ?_⟩) <;> nlinarith
  have hy' : |y - x| ≤ b * ((1 + A) * (1 + areaSize P)) := le_trans hy (mul_le_mul_of_nonneg_left hm hb)
  set c := 15 * (P.length : ℝ) * b with hc
  have hc0 : 0 ≤ c := by positivity
  have hs : areaSize P ≤ areaSize Q + c := by have := abs_le.mp m2; linarith
  set B := (1 + A) * (1 + b) - 1 with hB
  have hB0 : 0 ≤ B := by rw [hB]; nlinarith
  have t1 : |y - (1 - polyArea P)| ≤ B * (1 + areaSize P) := by
    have := abs_add_le (y - x) (x - (1 - polyArea P))
    rw [sub_add_sub_cancel] at this
    rw [hB]
    nlinarith
  have t2 : |y - (1 - polyArea Q)| ≤ B * (1 + areaSize P) + c := by
    have := abs_add_le (y - (1 - polyArea P)) (polyArea Q - polyArea P)
    rw [show y - (1 - polyArea P) + (polyArea Q - polyArea P) = y - (1 - polyArea Q) by ring] at this
    linarith
  refine le_trans t2 ?_
  have e : (1 + A) * (1 + b) * (1 + c) - 1 = B * (1 + c) + c := by rw [hB]; ring
  rw [e]
  have := mul_le_mul_of_nonneg_left hs hB0
  nlinarith [mul_nonneg hc0 sQ, mul_nonneg (mul_nonneg hB0 hc0) sQ]
end

/-! ## The result -/

section
variable {D F K : Type} [LDLog K] [FloatP F K] {c : RNum D F K} {rnd : K → K} {val : K → ℝ} {vd : D → ℝ} {pv : F → ℚ}
  {u w a b : ℝ} {r : ℚ}

theorem MachineLaws.oneSub_unit (h : MachineLaws c rnd val vd pv u w a b r) (p : F) (h0 : 0 ≤ pv p) (h1 : pv p ≤ 1) :
    0 ≤ pv (FloatP.oneSub p) ∧ pv (FloatP.oneSub p) ≤ 1 := by
  have fl := h.float
  constructor
  · rcases h1.lt_or_eq with h1 | h1
    · exact (fl.oneSub_pos p h1).le
    · exact (fl.oneSub_one p h1).ge
  · have z : pv (FloatP.zero : F) = 0 := fl.zero
    have e : pv (FloatP.oneSub (FloatP.zero : F)) = 1 := fl.oneSub_zero _ z
    have : pv (FloatP.oneSub p) ≤ pv (FloatP.oneSub (FloatP.zero : F)) := fl.oneSub_anti FloatP.zero p (by
      show pv (FloatP.zero : F) ≤ pv p
      rw [z]; exact h0)
    rwa [e] at this

/-- A number the conversion of which is known, near the unit interval. -/
def NearUnit {K : Type} (good : K → Prop) (val : K → ℝ) (x : K) : Prop := good x ∧ -1 ≤ val x ∧ val x ≤ 2

/-- From best partitions within rounding to the result, given the area and the optimum. -/
theorem sheet_core {good : K → Prop} {α : Nat → ℝ} (fl : FloatLaws (Reading F pv) ℚ r) (u0 : 0 ≤ u) (hu8 : u ≤ 1 / 8) (bn : 0 ≤ b) (b1 : b ≤ 1 / 8)
    (hof : ∀ p : F, vd (c.ofFloat p) = pv p) (hone : ∀ p : F, 0 ≤ pv p → pv p ≤ 1 → |pv (FloatP.oneSub p) - (1 - pv p)| ≤ r)
    (hnar : ∀ x, NearUnit good val x → |vd (c.narrow x) - val x| ≤ b * max 1 |val x|)
    (randMax : K) (t : F) (ht : 0 < pv t) (hu : 11 * r ≤ pv t)
    (hauc : ∀ {P T : Type} (ops : PartOps F K P T), IsPartitioner ops → ∀ fuel st,
      computeBestPartitions ops false fuel t FloatP.zero (FloatP.oneSub FloatP.zero) PState.empty = .ok st →
      (∀ e ∈ st.qualityList, NearUnit good val e.2.gain ∧ NearUnit good val e.2.loss) →
      ∃ au A, computeAUC rnd st = .ok au ∧ 0 ≤ A ∧ |val au - (1 - polyArea (C68.points val st))| ≤ A * (1 + areaSize (C68.points val st)) ∧
        |vd (c.narrow au) - val au| ≤ b * max 1 |val au| ∧ (1 + A) * (1 + b) * (1 + 15 * st.pList.length * b) - 1 = α st.pList.length)
    (hopt : ∀ {P T : Type} (ops : PartOps F K P T), IsPartitioner ops → ∀ fuel st,
      computeBestPartitions ops false fuel t FloatP.zero (FloatP.oneSub FloatP.zero) PState.empty = .ok st →
      (∀ e ∈ st.qualityList, NearUnit good val e.2.gain ∧ NearUnit good val e.2.loss) →
      (∃ e ∈ st.qualityList, (1 + u) ^ 4 * distance (pointOf val e.2) ≤ 16) →
      ∃ po qo, getP randMax 2 st = .ok po ∧ (po, qo) ∈ st.qualityList ∧
        ∀ e ∈ st.qualityList, (1 - u) ^ 4 * distance (pointOf val qo) ≤ (1 + u) ^ 4 * distance (pointOf val e.2)) :
    ∃ N : Nat, ∀ {P T A R R' Z : Type} (ops : PartOps F K P (F × T)), IsPartitioner ops →
      ∀ (rowFn : F × T → R) (rowR : R → R') (param gainCol lossCol : R' → D) (place : R' → Z) (placeOf : A → Z) (gk lk : F × T → K)
        (part rival : List A → Prop) (quality : A → Quality ℝ) (row : F → A → F × T) (ε : ℝ), 0 ≤ ε → ε ≤ 1 →
      (∀ p P, ∀ x ∈ ops.rows p P, x.1 = p) →
      (∀ x, param (rowR (rowFn x)) = c.ofFloat x.1 ∧ gainCol (rowR (rowFn x)) = c.narrow (gk x) ∧
        lossCol (rowR (rowFn x)) = c.narrow (lk x)) →
      (∀ p P p' P', (ops.rows p P).map (fun x => place (rowR (rowFn x))) = (ops.rows p' P').map (fun x => place (rowR (rowFn x))) →
        ops.same P P' = true) →
      (∀ p, 0 ≤ pv p → pv p ≤ 1 → ∃ P L, ops.best p = .ok P ∧ part L ∧ ops.rows p P = L.map (row p) ∧
        (∀ y ∈ L, place (rowR (rowFn (row p y))) = placeOf y ∧
          (good (gk (row p y)) ∧ |val (gk (row p y)) - (quality y).gain| ≤ ε) ∧ (good (lk (row p y)) ∧ |val (lk (row p y)) - (quality y).loss| ≤ ε) ∧
          0 ≤ (quality y).gain ∧ (quality y).gain ≤ 1 ∧ 0 ≤ (quality y).loss ∧ (quality y).loss ≤ 1) ∧
        (good (ops.quality P).gain ∧ |val (ops.quality P).gain - gainOf quality L| ≤ ε) ∧
        (good (ops.quality P).loss ∧ |val (ops.quality P).loss - lossOf quality L| ≤ ε) ∧
        (0 ≤ gainOf quality L ∧ gainOf quality L ≤ 1 ∧ 0 ≤ lossOf quality L ∧ lossOf quality L ≤ 1) ∧
        ∀ L', rival L' → (pv p : ℝ) * gainOf quality L' - (pv (FloatP.oneSub p) : ℝ) * lossOf quality L' ≤
          (pv p : ℝ) * gainOf quality L - (pv (FloatP.oneSub p) : ℝ) * lossOf quality L + ε) →
      ∀ fuel, N ≤ fuel → ∃ res, rSearch ops rowFn false fuel randMax rnd t = .ok res ∧
        NearSheet vd (ε + 2 * b) r (80 * u + 40 * b) α param gainCol lossCol place placeOf part rival quality (c.result rowR res) := by
  obtain ⟨N, hN⟩ := C67.terminates (K := K) fl t ht hu
  refine ⟨N, ?_⟩
  intro P T A R R' Z ops ho rowFn rowR param gainCol lossCol place placeOf gk lk part rival quality row ε hε0 hε1 hrows hcols hsame hbest fuel hf
  have z0 : pv (FloatP.zero : F) = 0 := fl.zero
  have z1 : pv (FloatP.oneSub (FloatP.zero : F)) = 1 := fl.oneSub_zero _ z0
  have hlt : pv (FloatP.zero : F) < pv (FloatP.oneSub (FloatP.zero : F)) := by rw [z0, z1]; norm_num
  obtain ⟨st, hst⟩ := hN ops ho FloatP.zero (FloatP.oneSub FloatP.zero) z0.ge hlt z1.le fuel hf PState.empty
  obtain ⟨l1, l2, l3, l4, l5, l6, l7, l8, _⟩ := C67.list fl ops ho t _ _ z0.ge hlt z1.le fuel _ st hst
  have nar : ∀ {x : K} {g : ℝ}, good x ∧ |val x - g| ≤ ε → 0 ≤ g → g ≤ 1 → |vd (c.narrow x) - val x| ≤ b * max 1 |val x| ∧ NearUnit good val x := by
    intro x g hx g0 g1
    obtain ⟨x1, x2⟩ := abs_le.mp hx.2
    have : NearUnit good val x := ⟨hx.1, by linarith, by linarith⟩
    exact ⟨hnar x this, this⟩
  have inR : ∀ e ∈ st.partitions, 0 ≤ pv e.1 ∧ pv e.1 ≤ 1 := by
    intro e he
    have := l3 e.1 (l4 ▸ List.mem_map_of_mem he)
    rwa [z0, z1] at this
  -- each partition of the list
  have each : ∀ e ∈ st.partitions, ∃ L, part L ∧ ops.rows e.1 e.2 = L.map (row e.1) ∧
        (∀ y ∈ L, place (rowR (rowFn (row e.1 y))) = placeOf y ∧
          (good (gk (row e.1 y)) ∧ |val (gk (row e.1 y)) - (quality y).gain| ≤ ε) ∧
          (good (lk (row e.1 y)) ∧ |val (lk (row e.1 y)) - (quality y).loss| ≤ ε) ∧
          0 ≤ (quality y).gain ∧ (quality y).gain ≤ 1 ∧ 0 ≤ (quality y).loss ∧ (quality y).loss ≤ 1) ∧
        (good (ops.quality e.2).gain ∧ |val (ops.quality e.2).gain - gainOf quality L| ≤ ε) ∧
        (good (ops.quality e.2).loss ∧ |val (ops.quality e.2).loss - lossOf quality L| ≤ ε) ∧
        (0 ≤ gainOf quality L ∧ gainOf quality L ≤ 1 ∧ 0 ≤ lossOf quality L ∧ lossOf quality L ≤ 1) ∧
        ∀ L', rival L' → (pv e.1 : ℝ) * gainOf quality L' - (pv (FloatP.oneSub e.1) : ℝ) * lossOf quality L' ≤
          (pv e.1 : ℝ) * gainOf quality L - (pv (FloatP.oneSub e.1) : ℝ) * lossOf quality L + ε := by
    intro e he
    obtain ⟨X, L, x1, x2⟩ := hbest e.1 (inR e he).1 (inR e he).2
    obtain rfl : X = e.2 := Except.ok.inj (x1.symm.trans (l5 e he))
    exact ⟨L, x2⟩
  have moved : ∀ e ∈ st.partitions, Moved b (pointOf val (ops.quality e.2))
      ⟨vd (c.narrow (ops.quality e.2).gain), vd (c.narrow (ops.quality e.2).loss)⟩ := by
    intro e he
    obtain ⟨L, _, _, _, y1, y2, ⟨y3, y4, y5, y6⟩, _⟩ := each e he
    obtain ⟨m1, m2, m3, _⟩ := near_unit bn y1.2 hε1 y3 y4 (nar y1 y3 y4).1
    obtain ⟨n1, n2, n3, _⟩ := near_unit bn y2.2 hε1 y5 y6 (nar y2 y5 y6).1
    exact ⟨⟨m1, m2, m3⟩, n1, n2, n3⟩
  have pts : C68.points val st = st.partitions.map (fun e => pointOf val (ops.quality e.2)) := by
    unfold C68.points
    rw [l6, List.map_map]
    rfl
  have hlen : st.pList.length = st.partitions.length := by rw [← l4, List.length_map]
  obtain ⟨e0, he0⟩ : ∃ e, e ∈ st.partitions := by
    cases hq : st.partitions with
    | nil => rw [← l4, hq] at l1; simp at l1
    | cons e l => exact ⟨e, by simp⟩
  have u4 : (1 + u) ^ 4 ≤ 2 := by
    have := pow_le_pow_left₀ (show 0 ≤ 1 + u by linarith) (show 1 + u ≤ 9 / 8 by linarith) 4
    refine le_trans this (by norm_num)
  have unit : ∀ e ∈ st.qualityList, NearUnit good val e.2.gain ∧ NearUnit good val e.2.loss := by
    intro e he
    rw [l6] at he
    obtain ⟨x, hx, rfl⟩ := List.mem_map.mp he
    obtain ⟨L, _, _, _, y1, y2, ⟨y3, y4, y5, y6⟩, _⟩ := each x hx
    exact ⟨(nar y1 y3 y4).2, (nar y2 y5 y6).2⟩
  obtain ⟨au, A, a1, hA, a2, a3, a4⟩ := hauc ops ho fuel st hst unit
  obtain ⟨po, qo, o1, o2, o3⟩ := hopt ops ho fuel st hst unit
    ⟨(e0.1, ops.quality e0.2), by rw [l6]; exact List.mem_map_of_mem (f := fun e => (e.1, ops.quality e.2)) he0, by
      obtain ⟨_, d0, d1⟩ := (moved e0 he0).distance bn b1
      nlinarith⟩
  refine ⟨_, by unfold rSearch; rw [hst]; simp only [okBind]; rw [o1]; simp only [okBind]; rw [a1]; simp only [okBind, pureOk]; rfl, ?_⟩
  -- the parameters as R's numbers
  have key : ∀ p q : F, pv p < pv q → vd (c.ofFloat p) < vd (c.ofFloat q) := by
    intro p q hpq
    rw [hof, hof]
    exact_mod_cast hpq
  have srt : st.partitions.Pairwise (fun x y => pv x.1 < pv y.1) := by rw [← l4, List.pairwise_map] at l2; exact l2
  have filt : ∀ e ∈ st.partitions, rowsAt param (c.ofFloat e.1) ((st.tuples.map rowFn).map rowR) =
      (ops.rows e.1 e.2).map (fun x => rowR (rowFn x)) := by
    intro e he
    have := rowsAt_of (T := T) param (fun e : F × P => c.ofFloat e.1) (fun e => (ops.rows e.1 e.2).map (fun x => rowR (rowFn x)))
      (by
        intro s x hx
        obtain ⟨y, hy, rfl⟩ := List.mem_map.mp hx
        rw [(hcols y).1, hrows _ _ y hy])
      e st.partitions (srt.imp (fun {x y} hxy hh => absurd (congrArg vd hh) (key _ _ hxy).ne)) he
    rw [← this, l7, List.map_map, List.map_flatMap]
    rfl
  have eqq : (st.qualityList.map (fun e => (⟨e.1, e.2.gain, e.2.loss⟩ : QRow F K))).map
        (fun e => (⟨c.ofFloat e.parameter, c.narrow e.gain, c.narrow e.loss⟩ : QRow D D)) =
      st.partitions.map (fun e => (⟨c.ofFloat e.1, c.narrow (ops.quality e.2).gain, c.narrow (ops.quality e.2).loss⟩ : QRow D D)) := by
    rw [l6, List.map_map, List.map_map]; rfl
  unfold RNum.result
  dsimp only
  rw [eqq]
  constructor
  · refine ⟨c.ofFloat FloatP.zero, ?_, by rw [hof, z0]; norm_num⟩
    dsimp only
    rw [List.map_map]
    have : (st.partitions.map Prod.fst).head? = some FloatP.zero := by rw [l4]; exact l1
    rw [List.head?_map] at this ⊢
    cases hh : st.partitions.head? with
    | none => rw [hh] at this; simp at this
    | some e =>
      rw [hh] at this
      simp only [Option.map_some, Option.some.injEq] at this ⊢
      simp only [Function.comp, this]
  · dsimp only
    rw [List.map_map, List.pairwise_map]
    exact srt.imp (fun hxy => key _ _ hxy)
  · intro e hm
    obtain ⟨e, he, rfl⟩ := List.mem_map.mp hm
    have := inR e he
    simp only [hof]
    exact_mod_cast this
  · dsimp only
    rw [List.flatMap_map]
    conv_lhs => rw [List.map_map, l7, List.map_flatMap]
    apply List.flatMap_congr
    intro e he
    exact (filt e he).symm
  · intro e hm
    obtain ⟨e, he, rfl⟩ := List.mem_map.mp hm
    obtain ⟨L, x1, x2, x3, y1, y2, y3, y4⟩ := each e he
    refine ⟨L, x1, ?_, ?_, ?_, ?_, y3.1, y3.2.1, y3.2.2.1, y3.2.2.2, pv (FloatP.oneSub e.1), ?_, ?_⟩
    · dsimp only
      rw [filt e he, x2, List.map_map, List.map_map]
      exact List.map_congr_left (fun y hy => (x3 y hy).1)
    · dsimp only
      rw [filt e he, x2, List.map_map, List.forall₂_map_left_iff, List.forall₂_same]
      intro y hy
      obtain ⟨_, c1, c2, c3, c4, c5, c6⟩ := x3 y hy
      simp only [Function.comp]
      rw [(hcols _).2.1, (hcols _).2.2]
      exact ⟨(near_unit bn c1.2 hε1 c3 c4 (nar c1 c3 c4).1).2.2.2, (near_unit bn c2.2 hε1 c5 c6 (nar c2 c5 c6).1).2.2.2⟩
    · exact (near_unit bn y1.2 hε1 y3.1 y3.2.1 (nar y1 y3.1 y3.2.1).1).2.2.2
    · exact (near_unit bn y2.2 hε1 y3.2.2.1 y3.2.2.2 (nar y2 y3.2.2.1 y3.2.2.2).1).2.2.2
    · simp only [hof]
      have := hone e.1 (inR e he).1 (inR e he).2
      exact_mod_cast this
    · intro L' hL'
      simp only [hof]
      have := y4 L' hL'
      linarith
  · dsimp only
    rw [List.isChain_map]
    have chain : ∀ (R : F × P → F × P → Prop) (l : List (F × P)), l.IsChain R → (∀ x ∈ l, x ∈ st.partitions) →
        l.IsChain (fun x y => R x y ∧ x ∈ st.partitions ∧ y ∈ st.partitions) := by
      intro R l hc
      induction hc with
      | nil => intro _; exact .nil
      | singleton => intro _; exact .singleton _
      | cons_cons hxy hc ih => intro hl; exact .cons_cons ⟨hxy, hl _ (by simp), hl _ (by simp)⟩ (ih (fun z hz => hl z (by simp [hz])))
    refine (chain _ _ l8 (fun x hx => hx)).imp ?_
    rintro x y ⟨⟨s1, _⟩, hx, hy⟩ heq
    dsimp only at heq
    rw [filt x hx, filt y hy, List.map_map, List.map_map] at heq
    have := hsame x.1 x.2 y.1 y.2 heq
    rw [this] at s1
    exact absurd s1 (by simp)
  · rw [l6] at o2
    obtain ⟨e, he, ee⟩ := List.mem_map.mp o2
    obtain ⟨e1, e2⟩ := Prod.mk.inj ee
    subst e1 e2
    refine ⟨_, List.mem_map_of_mem he, rfl, ?_⟩
    intro e' hm
    obtain ⟨e', he', rfl⟩ := List.mem_map.mp hm
    have h3 := o3 (e'.1, ops.quality e'.2) (by rw [l6]; exact List.mem_map_of_mem (f := fun e => (e.1, ops.quality e.2)) he')
    obtain ⟨d1, d2, d3⟩ := (moved e he).distance bn b1
    obtain ⟨d1', d2', d3'⟩ := (moved e' he').distance bn b1
    dsimp only at h3
    have A1 : (1 + u) ^ 4 - 1 ≤ 5 * u := by nlinarith [mul_nonneg u0 u0, mul_nonneg u0 (mul_nonneg u0 u0), mul_nonneg (mul_nonneg u0 u0) (mul_nonneg u0 u0)]
    have A2 : 1 - (1 - u) ^ 4 ≤ 4 * u := by
      have := one_add_mul_le_pow (show (-2 : ℝ) ≤ -u by linarith) 4
      have e : (1 + -u) ^ 4 = (1 - u) ^ 4 := by ring
      rw [e] at this
      push_cast at this
      linarith
    have k1 := mul_le_mul_of_nonneg_right A1 d2'
    have k2 := mul_le_mul_of_nonneg_right A2 d2
    have k3 := mul_le_mul_of_nonneg_left d3' u0
    have k4 := mul_le_mul_of_nonneg_left d3 u0
    have q1 := abs_le.mp d1
    have q2 := abs_le.mp d1'
    show Spec.distance ⟨vd (c.narrow (ops.quality e.2).gain), vd (c.narrow (ops.quality e.2).loss)⟩ ≤
      Spec.distance ⟨vd (c.narrow (ops.quality e'.2).gain), vd (c.narrow (ops.quality e'.2).loss)⟩ + (80 * u + 40 * b)
    nlinarith
  · dsimp only
    have mv : List.Forall₂ (Moved b) (C68.points val st) ((st.partitions.map (fun e => (⟨c.ofFloat e.1,
        c.narrow (ops.quality e.2).gain, c.narrow (ops.quality e.2).loss⟩ : QRow D D))).map (pointD vd)) := by
      rw [pts, List.map_map, List.forall₂_map_left_iff, List.forall₂_map_right_iff, List.forall₂_same]
      exact fun e he => moved e he
    have := area_result bn b1 mv hA a2 a3
    have e1 : (C68.points val st).length = st.partitions.length := by rw [pts, List.length_map]
    rw [e1] at this
    rw [List.length_map, ← hlen, ← a4, hlen]
    exact this

theorem machine_sheet (h : MachineLaws c rnd val vd pv u w a b r) (randMax : K) (hr : 16 ≤ val randMax) (t : F) (ht : 0 < pv t)
    (hu : 11 * r ≤ pv t) :
    ∃ N : Nat, ∀ {P T A R R' Z : Type} (ops : PartOps F K P (F × T)), IsPartitioner ops →
      ∀ (rowFn : F × T → R) (rowR : R → R') (param gainCol lossCol : R' → D) (place : R' → Z) (placeOf : A → Z) (gk lk : F × T → K)
        (part rival : List A → Prop) (quality : A → Quality ℝ) (row : F → A → F × T) (ε : ℝ), 0 ≤ ε → ε ≤ 1 →
      (∀ p P, ∀ x ∈ ops.rows p P, x.1 = p) →
      (∀ x, param (rowR (rowFn x)) = c.ofFloat x.1 ∧ gainCol (rowR (rowFn x)) = c.narrow (gk x) ∧
        lossCol (rowR (rowFn x)) = c.narrow (lk x)) →
      (∀ p P p' P', (ops.rows p P).map (fun x => place (rowR (rowFn x))) = (ops.rows p' P').map (fun x => place (rowR (rowFn x))) →
        ops.same P P' = true) →
      (∀ p, 0 ≤ pv p → pv p ≤ 1 → ∃ P L, ops.best p = .ok P ∧ part L ∧ ops.rows p P = L.map (row p) ∧
        (∀ y ∈ L, place (rowR (rowFn (row p y))) = placeOf y ∧
          |val (gk (row p y)) - (quality y).gain| ≤ ε ∧ |val (lk (row p y)) - (quality y).loss| ≤ ε ∧
          0 ≤ (quality y).gain ∧ (quality y).gain ≤ 1 ∧ 0 ≤ (quality y).loss ∧ (quality y).loss ≤ 1) ∧
        |val (ops.quality P).gain - gainOf quality L| ≤ ε ∧ |val (ops.quality P).loss - lossOf quality L| ≤ ε ∧
        (0 ≤ gainOf quality L ∧ gainOf quality L ≤ 1 ∧ 0 ≤ lossOf quality L ∧ lossOf quality L ≤ 1) ∧
        ∀ L', rival L' → (pv p : ℝ) * gainOf quality L' - (pv (FloatP.oneSub p) : ℝ) * lossOf quality L' ≤
          (pv p : ℝ) * gainOf quality L - (pv (FloatP.oneSub p) : ℝ) * lossOf quality L + ε) →
      ∀ fuel, N ≤ fuel → ∃ res, rSearch ops rowFn false fuel randMax rnd t = .ok res ∧
        NearSheet vd (ε + 2 * b) r (80 * u + 40 * b) (areaErr a b) param gainCol lossCol place placeOf part rival quality (c.result rowR res) := by
  have bn := h.b_nonneg
  have u0 := h.log.unit_nonneg
  have z0 : pv (FloatP.zero : F) = 0 := h.float.zero
  have z1 : pv (FloatP.oneSub (FloatP.zero : F)) = 1 := h.float.oneSub_zero _ z0
  have hlt : pv (FloatP.zero : F) < pv (FloatP.oneSub (FloatP.zero : F)) := by rw [z0, z1]; norm_num
  have hw0 : 0 ≤ a := le_trans u0 h.area.le
  obtain ⟨N, hN⟩ := sheet_core (c := c) (rnd := rnd) (vd := vd) (u := u) (b := b) (good := fun _ => True) (α := areaErr a b) h.float u0 h.u_le bn h.b_le
    h.ofFloat h.oneSub (fun x _ => h.narrow x) randMax t ht hu
    (by
      intro P T ops ho fuel st hst _
      obtain ⟨au, a1, a2⟩ := C68.area h.area h.float ops ho t _ _ z0.ge hlt z1.le fuel _ st hst
      refine ⟨au, (1 + a) ^ (2 * st.pList.length + 4) - 1, a1, ?_, a2, h.narrow au, ?_⟩
      · have := one_le_pow₀ (n := 2 * st.pList.length + 4) (show 1 ≤ 1 + a by linarith); linarith
      · unfold areaErr; ring)
    (by
      intro P T ops ho fuel st hst _ hm
      obtain ⟨e, he, hle⟩ := hm
      exact C68.optimum h.area (by linarith [h.u_le]) h.float ops ho t _ _ z0.ge hlt z1.le fuel _ st hst randMax ⟨e, he, le_trans hle hr⟩)
  refine ⟨N, ?_⟩
  intro P T A R R' Z ops ho rowFn rowR param gainCol lossCol place placeOf gk lk part rival quality row ε hε0 hε1 hrows hcols hsame hbest fuel hf
  refine hN ops ho rowFn rowR param gainCol lossCol place placeOf gk lk part rival quality row ε hε0 hε1 hrows hcols hsame ?_ fuel hf
  intro p p0 p1
  obtain ⟨P, L, x1, x2, x3, x4, x5, x6, x7, x8⟩ := hbest p p0 p1
  refine ⟨P, L, x1, x2, x3, ?_, ⟨trivial, x5⟩, ⟨trivial, x6⟩, x7, x8⟩
  intro y hy
  obtain ⟨y1, y2, y3, y4⟩ := x4 y hy
  exact ⟨y1, ⟨trivial, y2⟩, ⟨trivial, y3⟩, y4⟩
end
end Lp

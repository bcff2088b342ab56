import Verif.Props.C49
import Verif.Props.C71
import Verif.Proofs.Double

/-!
# C77 — the results as R gets them

R's numbers are of type `double`.  With the conversions that the exported functions make (array, hierarchy vector and threshold on the way in; data
frames, `POpt` and `AUC` on the way out) the results stay right within rounding.
-/

namespace Lp.C77
open Spec

section
variable {D F : Type} [LinearOrder D] [FloatP F ℝ] {c : RNum D F ℝ} {val : D → ℝ} {u v : ℝ}

theorem array_aux (c : RNum D F ℝ) (h : RNumLaws c val u) (d0 d1 d2 : Nat) (f : Nat × Nat × Nat → D) :
    c.array (rArray d0 d1 d2 f) = rArray d0 d1 d2 (fun x => val (f x)) := by
  unfold RNum.array rArray
  simp only [List.map_flatMap, List.map_map, RArray.mk.injEq, true_and]
  congr 1
  funext k
  congr 1
  funext j
  apply List.map_congr_left
  intro i _
  exact h.wide _

theorem hierarchy_aux (c : RNum D F ℝ) (h : RNumLaws c val u) : ∀ (l : List D) (zs : List Int), l.map val = zs.map (fun z : Int => (z : ℝ)) →
    (∀ z ∈ zs, |z| ≤ 2 ^ 31) → c.hierarchy l = zs.map (· - 1) := by
  have key : ∀ (l : List D) (zs : List Int), l.map val = zs.map (fun z : Int => (z : ℝ)) → (∀ z ∈ zs, |z| ≤ 2 ^ 31) →
      ∀ acc, l.foldl (fun acc x => acc ++ [c.toInt (c.pred x)]) acc = acc ++ zs.map (· - 1) := by
    intro l
    induction l with
    | nil => intro zs e _ acc; cases zs with
      | nil => simp
      | cons z zs => simp at e
    | cons x l ih =>
      intro zs e hb acc
      cases zs with
      | nil => simp at e
      | cons z zs =>
        simp only [List.map_cons, List.cons.injEq] at e
        rw [List.foldl_cons, ih zs e.2 (fun y hy => hb y (List.mem_cons_of_mem _ hy)), h.int x z e.1 (hb z List.mem_cons_self)]
        simp
  intro l zs e hb
  have := key l zs e hb []
  simpa [RNum.hierarchy] using this

theorem pos_aux {ι A : Type} (a b : Nat) (V : Nat → Nat → ι → ℝ) (all : Finset ι) (cells : A → Finset ι) (x : A)
    (hx : ∀ y ∈ cells x, ∀ i < a, ∀ j < b, 0 ≤ V i j y) (hall : ∀ y ∈ all, ∀ i < a, ∀ j < b, 0 ≤ V i j y) :
    0 ≤ (relative (gain3 a b V) (loss3 a b V) all cells x).gain ∧ 0 ≤ (relative (gain3 a b V) (loss3 a b V) all cells x).loss := by
  have key : ∀ s : Finset ι, (∀ y ∈ s, ∀ i < a, ∀ j < b, 0 ≤ V i j y) → 0 ≤ gain3 a b V s ∧ 0 ≤ loss3 a b V s := by
    intro s hs
    constructor
    · exact Finset.sum_nonneg fun i hi => Finset.sum_nonneg fun j hj =>
        gain_nonneg fun y hy => hs y hy i (Finset.mem_range.mp hi) j (Finset.mem_range.mp hj)
    · exact Finset.sum_nonneg fun i hi => Finset.sum_nonneg fun j hj =>
        loss_nonneg fun y hy => hs y hy i (Finset.mem_range.mp hi) j (Finset.mem_range.mp hj)
  exact ⟨div_nonneg (key _ hx).1 (key _ hall).1, div_nonneg (key _ hx).2 (key _ hall).2⟩

/-- `oaggregate(micro, th)` with R's numbers: the result is right within rounding. -/
theorem ordered (fl : FloatLaws F ℝ v) (h : RNumLaws c val u) (randMax : ℝ) (hr : 2 ≤ randMax) (th : D)
    (ht : (0 : ℝ) < FloatP.toK (c.toFloat th)) (hu : 11 * v ≤ FloatP.toK (c.toFloat th)) :
    ∃ N : Nat, ∀ (d0 d1 d2 : Nat) (f : Nat × Nat × Nat → D), 0 < d0 → 0 < d1 → 0 < d2 → d2 ≤ 65535 → d0 * d1 < 2 ^ 32 →
      (∀ i j k, i < d0 → j < d1 → k < d2 → 0 ≤ val (f (i, j, k))) →
      let gain := gain3 d0 d1 (fun i j k => val (f (i, j, k)))
      let loss := loss3 d0 d1 (fun i j k => val (f (i, j, k)))
      let all := Finset.Icc 0 (d2 - 1)
      gain all ≠ 0 → loss all ≠ 0 →
      let quality := relative gain loss all (fun I : Nat × Nat => Finset.Icc I.1 I.2)
      ∀ fuel, N ≤ fuel → ∃ r, oaggregateR c false fuel randMax id (rArray d0 d1 d2 f) th = .ok r ∧
        DoubleSheet F val u ORow.parameter ORow.gain ORow.loss (Tiles 0 d2) (Tiles 0 d2) quality
          (fun p I => ⟨p, I.1 + 1, I.2 + 1, c.narrow (quality I).gain, c.narrow (quality I).loss⟩) r := by
  obtain ⟨N, hN⟩ := C49.ordered fl randMax hr (c.toFloat th) ht hu
  refine ⟨N, ?_⟩
  intro d0 d1 d2 f h0 h1 h2 h2' hF hpos gain loss all hg hl quality fuel hf
  obtain ⟨r, e, hs⟩ := hN d0 d1 d2 (fun x => val (f x)) h0 h1 h2 h2' hF hpos hg hl fuel hf
  refine ⟨c.result c.oRow r, ?_, ?_⟩
  · unfold oaggregateR
    rw [array_aux c h, e]
    rfl
  · refine doubleSheet fl h c.oRow ORow.parameter ORow.parameter ORow.gain ORow.loss _ _ _ _ _ (fun _ => rfl) (fun _ _ => rfl)
      (fun _ _ => rfl) (fun _ _ => rfl) ?_ r hs
    intro L hL I hI
    have := hL.bounds I hI
    exact pos_aux d0 d1 _ _ _ _ (fun y hy i hi j hj => hpos i j y hi hj (by rw [Finset.mem_Icc] at hy; omega))
      (fun y hy i hi j hj => hpos i j y hi hj (by rw [Finset.mem_Icc] at hy; omega))

/-- `haggregate(micro, h, th)` with R's numbers, for a hierarchy vector of integers: the result is right within rounding. -/
theorem hierarchical (fl : FloatLaws F ℝ v) (h : RNumLaws c val u) (randMax : ℝ) (hr : 2 ≤ randMax) (th : D)
    (ht : (0 : ℝ) < FloatP.toK (c.toFloat th)) (hu : 11 * v ≤ FloatP.toK (c.toFloat th)) :
    ∃ N : Nat, ∀ (d0 d1 d2 : Nat) (f : Nat × Nat × Nat → D) (vec : List D) (zs : List Int), 0 < d0 → 0 < d1 → d1 * d2 < 2 ^ 32 →
      vec.map val = zs.map (fun z : Int => (z : ℝ)) → (∀ z ∈ zs, |z| ≤ 2 ^ 31) →
      let parents := zs.map (· - 1)
      IsTree d0 parents (parents.length - 1) → NearestFirst d0 parents → d0 < parents.length →
      (∀ i j k, i < d0 → j < d1 → k < d2 → 0 ≤ val (f (i, j, k))) →
      let gain := gain3 d1 d2 (fun j k l => val (f (l, j, k)))
      let loss := loss3 d1 d2 (fun j k l => val (f (l, j, k)))
      let all := Finset.range d0
      gain all ≠ 0 → loss all ≠ 0 →
      let quality := relative gain loss all (leavesUnder d0 parents)
      ∀ fuel, N ≤ fuel → ∃ r, haggregateR c false fuel randMax id (rArray d0 d1 d2 f) vec th = .ok r ∧
        DoubleSheet F val u HRow.parameter HRow.gain HRow.loss (LeafCover d0 parents) (LeafCover d0 parents) quality
          (fun p n => ⟨p, n + 1, (leavesUnder d0 parents n).card, c.narrow (quality n).gain, c.narrow (quality n).loss⟩) r := by
  obtain ⟨N, hN⟩ := C49.hierarchical fl randMax hr (c.toFloat th) ht hu
  refine ⟨N, ?_⟩
  intro d0 d1 d2 f vec zs h0 h1 hF hvec hz parents tree near hlt hpos gain loss all hg hl quality fuel hf
  obtain ⟨r, e, hs⟩ := hN d0 d1 d2 (fun x => val (f x)) zs h0 h1 hF tree near hlt hpos hg hl fuel hf
  refine ⟨c.result c.hRow r, ?_, ?_⟩
  · unfold haggregate at e
    rw [convertToHierarchy_map] at e
    unfold haggregateR
    rw [array_aux c h, hierarchy_aux c h vec zs hvec hz, e]
    rfl
  · refine doubleSheet fl h c.hRow HRow.parameter HRow.parameter HRow.gain HRow.loss _ _ _ _ _ (fun _ => rfl) (fun _ _ => rfl)
      (fun _ _ => rfl) (fun _ _ => rfl) ?_ r hs
    intro L hL I hI
    exact pos_aux d1 d2 _ _ _ _ (fun y hy i hi j hj => hpos y i j (mem_leavesUnder.mp hy).1 hi hj)
      (fun y hy i hi j hj => hpos y i j (Finset.mem_range.mp hy) hi hj)

/-- `daggregate(micro, h, th)` with R's numbers, for a hierarchy vector of integers: the result is right within rounding. -/
theorem spatiotemporal (fl : FloatLaws F ℝ v) (h : RNumLaws c val u) (randMax : ℝ) (hr : 2 ≤ randMax) (th : D)
    (ht : (0 : ℝ) < FloatP.toK (c.toFloat th)) (hu : 11 * v ≤ FloatP.toK (c.toFloat th)) :
    ∃ N : Nat, ∀ (d0 d1 d2 : Nat) (f : Nat × Nat × Nat → D) (vec : List D) (zs : List Int), 0 < d0 → 0 < d1 → 0 < d2 → d2 ≤ 65535 →
      d0 * d2 < 2147483648 → vec.map val = zs.map (fun z : Int => (z : ℝ)) → (∀ z ∈ zs, |z| ≤ 2 ^ 31) →
      let parents := zs.map (· - 1)
      IsTree d0 parents (parents.length - 1) → NearestFirst d0 parents → d0 < parents.length →
      (∀ i j k, i < d0 → j < d1 → k < d2 → 0 ≤ val (f (i, j, k))) →
      let gain := gain3 d1 1 (fun j _ (x : Nat × Nat) => val (f (x.1, j, x.2)))
      let loss := loss3 d1 1 (fun j _ (x : Nat × Nat) => val (f (x.1, j, x.2)))
      let all := Finset.range d0 ×ˢ Finset.Icc 0 (d2 - 1)
      gain all ≠ 0 → loss all ≠ 0 →
      let quality := relative gain loss all (fun r : Rect => leavesUnder d0 parents r.node ×ˢ Finset.Icc r.first r.last)
      ∀ fuel, N ≤ fuel → ∃ r, daggregateR c false fuel randMax id (rArray d0 d1 d2 f) vec th = .ok r ∧
        DoubleSheet F val u DRow.parameter DRow.gain DRow.loss (fun L => CellCover d0 parents d2 L ∧ CoarseFirst parents L)
          (fun L => CellCover d0 parents d2 L ∧ CoarseFirst parents L) quality
          (fun p x => ⟨p, x.node + 1, (leavesUnder d0 parents x.node).card * (x.last - x.first + 1), x.first + 1, x.last + 1,
            c.narrow (quality x).gain, c.narrow (quality x).loss⟩) r := by
  obtain ⟨N, hN⟩ := C49.spatiotemporal fl randMax hr (c.toFloat th) ht hu
  refine ⟨N, ?_⟩
  intro d0 d1 d2 f vec zs h0 h1 h2 h2' hb hvec hz parents tree near hlt hpos gain loss all hg hl quality fuel hf
  obtain ⟨r, e, hs⟩ := hN d0 d1 d2 (fun x => val (f x)) zs h0 h1 h2 h2' hb tree near hlt hpos hg hl fuel hf
  refine ⟨c.result c.dRow r, ?_, ?_⟩
  · unfold daggregate at e
    rw [convertToHierarchy_map] at e
    unfold daggregateR
    rw [array_aux c h, hierarchy_aux c h vec zs hvec hz, e]
    rfl
  · refine doubleSheet fl h c.dRow DRow.parameter DRow.parameter DRow.gain DRow.loss _ _ _ _ _ (fun _ => rfl) (fun _ _ => rfl)
      (fun _ _ => rfl) (fun _ _ => rfl) ?_ r hs
    intro L hL x hx
    have hx := hL.1.1 x hx
    refine pos_aux d1 1 _ _ _ _ (fun y hy i hi j hj => ?_) (fun y hy i hi j hj => ?_)
    · have hy : y ∈ leavesUnder d0 parents x.node ×ˢ Finset.Icc x.first x.last := hy
      simp only [Finset.mem_product, mem_leavesUnder, Finset.mem_Icc] at hy
      exact hpos y.1 i y.2 hy.1.1 hi (by omega)
    · have hy : y ∈ Finset.range d0 ×ˢ Finset.Icc 0 (d2 - 1) := hy
      simp only [Finset.mem_product, Finset.mem_range, Finset.mem_Icc] at hy
      exact hpos y.1 i y.2 hy.1 hi (by omega)

/-- A number that is not a `float` is the parameter of no row: selecting the rows with such a parameter gives none. -/
theorem typed {A R : Type} (param gainCol lossCol : R → D) (part rival : List A → Prop) (quality : A → Quality ℝ) (row : D → A → R)
    (r : RResult D D R) (h : DoubleSheet F val u param gainCol lossCol part rival quality row r) (x : D)
    (hx : ∀ p : F, val x ≠ FloatP.toK p) : (∀ e ∈ r.qualities, e.parameter ≠ x) ∧ rowsAt param x r.partitions = [] := by
  have h1 : ∀ e ∈ r.qualities, e.parameter ≠ x := by
    rintro e he rfl
    obtain ⟨_, _, p, hp⟩ := h.range e he
    exact hx p hp
  refine ⟨h1, ?_⟩
  classical
  unfold rowsAt
  rw [List.filter_eq_nil_iff]
  intro y hy hc
  have hc : param y = x := by simpa using hc
  rw [h.grouped] at hy
  obtain ⟨e, he, hy⟩ := List.mem_flatMap.mp hy
  unfold rowsAt at hy
  have := (List.mem_filter.mp hy).2
  have : param y = e.parameter := by simpa using this
  exact h1 e he (by rw [← this, hc])

/-- The quality plot of such a result: the line goes through the points in the order of the rows, to the right and upwards, in the unit
square; one point is red, and none is nearer to gain 1 and loss 0, up to rounding. -/
theorem plotted (law : RNumLaws c val u) {A R : Type} (param gainCol lossCol : R → D) (part rival : List A → Prop) (quality : A → Quality ℝ)
    (row : D → A → R) (r : RResult D D R) (h : DoubleSheet F val u param gainCol lossCol part rival quality row r) :
    (qualplot r).line = (qualplot r).points ∧ (qualplot r).points = r.qualities.map (fun e => (e.loss, e.gain)) ∧
    (qualplot r).line.Pairwise (fun a b => val a.1 ≤ val b.1 ∧ val a.2 ≤ val b.2) ∧
    (∀ a ∈ (qualplot r).line, 0 ≤ val a.1 ∧ val a.1 ≤ 1 ∧ 0 ≤ val a.2 ∧ val a.2 ≤ 1) ∧
    ∃ a, (qualplot r).red = [a] ∧ a ∈ (qualplot r).points ∧
      ∀ b ∈ (qualplot r).points, (val a.2 - 1) ^ 2 + val a.1 ^ 2 ≤ (val b.2 - 1) ^ 2 + val b.1 ^ 2 + 8 * u := by
  have hpts : (qualplot r).points = r.qualities.map (fun e => (e.loss, e.gain)) := rfl
  have hline : (qualplot r).line = (qualplot r).points := by
    show ((r.qualities.map fun e => (e.loss, e.gain)).insertionSort _) = _
    rw [hpts]
    apply List.Pairwise.insertionSort_eq
    rw [List.pairwise_map]
    exact h.grows.imp (fun {a b} hab => (law.le_iff _ _).mpr hab.2)
  refine ⟨hline, hpts, ?_, ?_, ?_⟩
  · rw [hline, hpts, List.pairwise_map]
    exact h.grows.imp (fun {a b} hab => ⟨hab.2, hab.1⟩)
  · intro a ha
    rw [hline, hpts] at ha
    obtain ⟨e, he, rfl⟩ := List.mem_map.mp ha
    obtain ⟨_, _, _, _, _, _, _, l1, l2, l3, l4, _⟩ := h.rows e he
    exact ⟨l3, l4, l1, l2⟩
  · obtain ⟨e, he, e1, e2⟩ := h.opt
    refine ⟨(e.loss, e.gain), ?_, List.mem_map.mpr ⟨e, he, rfl⟩, ?_⟩
    · show (r.qualities.filter fun e => decide (e.parameter = r.pOpt)).map _ = _
      have hs := h.sorted
      rw [List.pairwise_map] at hs
      have nd : r.qualities.Pairwise (fun a b => a.parameter ≠ b.parameter) :=
        hs.imp (fun {a b} hab hc => by rw [hc] at hab; exact lt_irrefl _ hab)
      have key : ∀ l : List (QRow D D), l.Pairwise (fun a b => a.parameter ≠ b.parameter) → e ∈ l →
          l.filter (fun x => decide (x.parameter = r.pOpt)) = [e] := by
        intro l
        induction l with
        | nil => intro _ hc; simp at hc
        | cons x l ih =>
          intro hp hm
          rw [List.pairwise_cons] at hp
          rcases List.mem_cons.mp hm with rfl | hm
          · rw [List.filter_cons_of_pos (by simpa using e1)]
            congr 1
            rw [List.filter_eq_nil_iff]
            intro y hy hc
            have hc : y.parameter = r.pOpt := by simpa using hc
            exact hp.1 y hy (by rw [e1, hc])
          · rw [List.filter_cons_of_neg, ih hp.2 hm]
            intro hc
            have hc : x.parameter = r.pOpt := by simpa using hc
            exact hp.1 e hm (by rw [e1, hc])
      rw [key _ nd he]
      rfl
    · intro b hb
      obtain ⟨e', he', rfl⟩ := List.mem_map.mp hb
      exact e2 e' he'

end

/-- The hierarchy vector may contain fractions: from 1 on they are rounded down, below 1 (from `2^-53` on) the parent is node 0, the first
leaf. -/
theorem fractions (S : Rounding64) (R : Rounding) (x : B64) :
    let c := conversions S R (fun x => b32_b64 x.2)
    (1 ≤ x.1 → x.1 ≤ 2 ^ 31 → c.toInt (c.pred x) = ⌊x.1⌋ - 1) ∧ (1 / 2 ^ 53 ≤ x.1 → x.1 < 1 → c.toInt (c.pred x) = 0) := by
  intro c
  constructor
  · intro h1 h2
    have hb : IsB64 (x.1 - 1) := by
      obtain ⟨m, e, hm, he⟩ := x.2
      by_cases hle : e ≤ 1074
      · have hp : (2 : ℚ) ^ 1074 = 2 ^ (1074 - e) * 2 ^ e := by rw [← pow_add]; congr 1; omega
        refine ⟨m - 2 ^ (1074 - e), e, ?_, ?_⟩
        · have h3 : (2 : ℚ) ^ (1074 - e) * 2 ^ e ≤ m * 2 ^ e := by
            rw [← hp, ← he]
            exact le_mul_of_one_le_left (by positivity) h1
          have h4 : (2 : ℚ) ^ (1074 - e) ≤ m := le_of_mul_le_mul_right h3 (by positivity)
          have h5 : (2 : ℤ) ^ (1074 - e) ≤ m := by exact_mod_cast h4
          have h6 : (0 : ℤ) < 2 ^ (1074 - e) := by positivity
          have h7 := (abs_le.mp hm).2
          rw [abs_le]
          constructor <;> linarith
        · rw [sub_mul, he, one_mul, hp]
          push_cast
          ring
      · have hp : (2 : ℚ) ^ e = 2 ^ (e - 1074) * 2 ^ 1074 := by rw [← pow_add]; congr 1; omega
        have h3 : x.1 = ((m * 2 ^ (e - 1074) : ℤ) : ℚ) := by
          rw [hp, ← mul_assoc] at he
          have := mul_right_cancel₀ (by positivity) he
          rw [this]; push_cast; rfl
        rw [h3] at h1 h2 ⊢
        have h1 : (1 : ℤ) ≤ m * 2 ^ (e - 1074) := by exact_mod_cast h1
        have h2 : (m * 2 ^ (e - 1074) : ℤ) ≤ 2 ^ 31 := by exact_mod_cast h2
        have := isBin_int (b := 53) (s := 1074) (m := m * 2 ^ (e - 1074) - 1) (by rw [abs_le]; constructor <;> linarith)
        rw [Int.cast_sub, Int.cast_one] at this
        exact this
    have hf := S.fix _ hb
    show chop (S.rnd ((x.1 : ℝ) - 1)) = _
    rw [show ((x.1 : ℝ) - 1) = ((x.1 - 1 : ℚ) : ℝ) by push_cast; rfl, hf]
    unfold chop
    rw [if_pos (by linarith), Int.floor_sub_one]
  · intro h1 h2
    show chop (S.rnd ((x.1 : ℝ) - 1)) = _
    have hb : IsB64 (((-(2 ^ 53 - 1) : ℤ) : ℚ) / 2 ^ 53) := isBin_frac (by norm_num) (by norm_num)
    have lo := S.mono ((((-(2 ^ 53 - 1) : ℤ) : ℚ) / 2 ^ 53 : ℚ) : ℝ) ((x.1 : ℝ) - 1) (by
      have : (((-(2 ^ 53 - 1) : ℤ) : ℚ) / 2 ^ 53 : ℚ) ≤ x.1 - 1 := by
        have e : (((-(2 ^ 53 - 1) : ℤ) : ℚ) / 2 ^ 53 : ℚ) = 1 / 2 ^ 53 - 1 := by push_cast; norm_num
        rw [e]; linarith
      exact_mod_cast this)
    rw [S.fix _ hb] at lo
    have hz := S.fix 0 isB64_zero
    have hi := S.mono ((x.1 : ℝ) - 1) ((0 : ℚ) : ℝ) (by
      have : x.1 - 1 ≤ (0 : ℚ) := by linarith
      exact_mod_cast this)
    rw [hz] at hi
    have lo' : (-1 : ℚ) < S.rnd ((x.1 : ℝ) - 1) := by
      refine lt_of_lt_of_le ?_ lo
      push_cast
      norm_num
    unfold chop
    split
    · rename_i h0
      have : S.rnd ((x.1 : ℝ) - 1) = 0 := le_antisymm hi h0
      rw [this]; simp
    · rw [Int.ceil_eq_iff]
      push_cast
      constructor <;> linarith

/-! ## Concrete cases -/

/-- The data 1, 0, 2 in binary64, with binary32 parameters, all rounding modes and the threshold 1/1024. -/
example (S : Rounding64) (R : Rounding) (one zero two th : B64) (h1 : one.1 = 1) (h0 : zero.1 = 0) (h2 : two.1 = 2) (ht : th.1 = 1 / 1024) :
    ∃ fuel r, oaggregateR (conversions S R (fun x => b32_b64 x.2)) false fuel 2147483647 id ⟨1, 1, 3, [one, zero, two]⟩ th = .ok r ∧
      r.qualities ≠ [] ∧ 1 / 2 ≤ r.auc.1 := by
  have h32 : IsB32 (1 / 1024) := ⟨1, 139, by norm_num, by norm_num⟩
  have e : ((conversions S R (fun x => b32_b64 x.2)).toFloat th) = (⟨1 / 1024, h32⟩ : B32 R) := by
    apply Subtype.ext
    show R.rnd th.1 = _
    rw [ht]
    exact R.fix _ h32
  have et : (FloatP.toK ((conversions S R (fun x => b32_b64 x.2)).toFloat th) : ℝ) = 1 / 1024 := by
    rw [e]
    show (((1 / 1024 : ℚ)) : ℝ) = 1 / 1024
    norm_num
  obtain ⟨N, h⟩ := ordered (overRealLaws (b32Laws R)) (conversionLaws S R) 2147483647 (by norm_num) th (by rw [et]; norm_num)
    (by rw [et]; norm_num)
  have hv : ∀ k : Nat, (((if k = 2 then two else if k = 1 then zero else one : B64).1 : ℚ) : ℝ) = if k = 2 then (2 : ℝ) else if k = 1 then 0 else 1 := by
    intro k; split_ifs <;> simp [h0, h1, h2]
  have hp : ∀ k : Nat, 0 ≤ if k = 2 then (2 : ℝ) else if k = 1 then 0 else 1 := by
    intro k; split_ifs <;> norm_num
  obtain ⟨n1, n2⟩ := C49.nz_aux (f := fun k => if k = 2 then (2 : ℝ) else if k = 1 then 0 else 1) (s := Finset.Icc 0 2)
    (fun x _ => hp x) (a := 0) (b := 2) (c := 0) (d := 1) (by simp) (by simp) (by norm_num) (by norm_num) (by norm_num)
    (by simp) (by simp) (by norm_num)
  obtain ⟨r, e, hr⟩ := h 1 1 3 (fun x => if x.2.2 = 2 then two else if x.2.2 = 1 then zero else one) (by norm_num) (by norm_num)
    (by norm_num) (by norm_num) (by norm_num) (fun i j k _ _ _ => by dsimp only; rw [hv]; exact hp k)
    (by simp only [hv]; exact n1) (by simp only [hv]; exact n2) N (Nat.le_refl _)
  refine ⟨N, r, ?_, ?_, ?_⟩
  · rw [← e]
    congr 1
  · intro e0
    obtain ⟨p, hp, _⟩ := hr.first
    rw [e0] at hp
    simp at hp
  · have := hr.auc.1
    have e : ((1 / 2 : ℚ) : ℝ) = 1 / 2 := by norm_num
    rw [← e] at this
    exact_mod_cast this

/-- There are such roundings. -/
example : Nonempty Rounding64 ∧ Nonempty Rounding := ⟨⟨towardsZero64⟩, ⟨roundToZero⟩⟩

/-- The `double` that R reads for `0.1` is not a `float`: no row has this parameter. -/
example : IsB64 (3602879701896397 / 2 ^ 55) ∧ ¬ IsB32 (3602879701896397 / 2 ^ 55) := by
  constructor
  · have := isBin_frac (b := 53) (s := 1074) (k := 55) (m := 3602879701896397) (by norm_num) (by norm_num)
    push_cast at this
    exact this
  · rintro ⟨m, e, hm, he⟩
    have h1 : (3602879701896397 : ℚ) * 2 ^ 94 = m * 2 ^ e := by
      rw [← he]; norm_num
    have h2 : (3602879701896397 : ℤ) * 2 ^ 94 = m * 2 ^ e := by exact_mod_cast h1
    have hle : e ≤ 94 := by
      by_contra hc
      obtain ⟨d, rfl⟩ : ∃ d, e = 95 + d := ⟨e - 95, by omega⟩
      have : (3602879701896397 : ℤ) = m * 2 ^ d * 2 := by
        have h3 : (3602879701896397 : ℤ) * 2 ^ 94 = m * 2 ^ d * 2 * 2 ^ 94 := by rw [h2, pow_add]; ring
        exact mul_right_cancel₀ (by positivity) h3
      omega
    have h4 : (3602879701896397 : ℤ) * 2 ^ (94 - e) = m := by
      have hp : (2 : ℤ) ^ 94 = 2 ^ (94 - e) * 2 ^ e := by rw [← pow_add]; congr 1; omega
      rw [hp, ← mul_assoc] at h2
      exact mul_right_cancel₀ (by positivity) h2
    have h5 : (1 : ℤ) ≤ 2 ^ (94 - e) := one_le_pow₀ (by norm_num)
    have h6 := (abs_le.mp hm).2
    norm_num at h6
    linarith

/-- The vector 5.5, 5, 6, ... is read as 5, 5, 6, ...: the parent of the first leaf is node 4. -/
example (S : Rounding64) (R : Rounding) (x : B64) (hx : x.1 = 11 / 2) :
    let c := conversions S R (fun x => b32_b64 x.2)
    c.hierarchy [x] = [4] := by
  intro c
  have h := (fractions S R x).1 (by rw [hx]; norm_num) (by rw [hx]; norm_num)
  show [c.toInt (c.pred x)] = [4]
  rw [h, hx]
  have : ⌊(11 / 2 : ℚ)⌋ = 5 := by rw [Int.floor_eq_iff]; norm_num
  rw [this]
  rfl

end Lp.C77

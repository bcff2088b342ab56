import Verif.Spec.Double
import Verif.Proofs.Convex

/-!
# From a right result in the library's numbers to the result R gets
-/

namespace Lp
open Spec
variable {D F A R R' : Type} [LinearOrder D] [FloatP F ℝ] {c : RNum D F ℝ} {val : D → ℝ} {u w : ℝ}

theorem RNumLaws.inj (h : RNumLaws c val u) {a b : D} (e : val a = val b) : a = b :=
  le_antisymm ((h.le_iff a b).mpr e.le) ((h.le_iff b a).mpr e.ge)

theorem RNumLaws.unit (h : RNumLaws c val u) {x : ℝ} (h0 : 0 ≤ x) (h1 : x ≤ 1) : 0 ≤ val (c.narrow x) ∧ val (c.narrow x) ≤ 1 :=
  ⟨h.zero ▸ h.mono _ _ h0, h.one ▸ h.mono _ _ h1⟩

theorem RNumLaws.sum (h : RNumLaws c val u) (f : A → ℝ) : ∀ L : List A, (∀ a ∈ L, 0 ≤ f a) → (L.map f).sum ≤ 1 →
    |(L.map f).sum - (L.map (fun a => val (c.narrow (f a)))).sum| ≤ L.length * u
  | [], _, _ => by simp
  | a :: L, h0, h1 => by
    have n : 0 ≤ (L.map f).sum := List.sum_nonneg (by
      intro x hx
      obtain ⟨b, hb, rfl⟩ := List.mem_map.mp hx
      exact h0 b (List.mem_cons_of_mem _ hb))
    have ha := h0 a List.mem_cons_self
    rw [List.map_cons, List.sum_cons] at h1
    have ih := h.sum f L (fun b hb => h0 b (List.mem_cons_of_mem _ hb)) (by linarith)
    have e := h.err (f a) ha (by linarith)
    rw [List.map_cons, List.sum_cons, List.map_cons, List.sum_cons, List.length_cons]
    push_cast
    rw [abs_le] at *
    constructor <;> linarith [ih.1, ih.2, e.1, e.2]

omit [FloatP F ℝ] in
theorem rowsAt_map {F' : Type} (g : F → F') (hg : ∀ a b, g a = g b → a = b) (nr : R → R') (param : R → F) (param' : R' → F')
    (hp : ∀ x, param' (nr x) = g (param x)) (p : F) (l : List R) : rowsAt param' (g p) (l.map nr) = (rowsAt param p l).map nr := by
  unfold rowsAt
  rw [List.filter_map]
  congr 1
  apply List.filter_congr
  intro x _
  simp only [Function.comp, hp]
  by_cases h : param x = p
  · simp [h, hp]
  · have : ¬ g (param x) = g p := fun e => h (hg _ _ e)
    simp [h, hp, this]

theorem doubleSheet {v : ℝ} (fl : FloatLaws F ℝ v) (h : RNumLaws c val u) (nr : R → R') (param : R → F) (param' gainCol lossCol : R' → D)
    (part rival : List A → Prop) (quality : A → Quality ℝ) (row : F → A → R) (row' : D → A → R')
    (hp : ∀ x, param' (nr x) = c.ofFloat (param x)) (hrow : ∀ p a, nr (row p a) = row' (c.ofFloat p) a)
    (hg : ∀ d a, gainCol (row' d a) = c.narrow (quality a).gain) (hl : ∀ d a, lossCol (row' d a) = c.narrow (quality a).loss)
    (pos : ∀ L, part L → ∀ a ∈ L, 0 ≤ (quality a).gain ∧ 0 ≤ (quality a).loss)
    (r : RResult F ℝ R) (hr : RightSheet param part rival quality row r) :
    DoubleSheet F val u param' gainCol lossCol part rival quality row' (c.result nr r) := by
  have inj : ∀ a b : F, c.ofFloat a = c.ofFloat b → a = b := fun a b e => fl.inj a b (by rw [← h.ofFloat, ← h.ofFloat, e])
  have rw1 : ∀ p, rowsAt param' (c.ofFloat p) (r.partitions.map nr) = (rowsAt param p r.partitions).map nr :=
    fun p => rowsAt_map c.ofFloat inj nr param param' hp p r.partitions
  constructor
  · obtain ⟨p, e1, e2⟩ := hr.first
    refine ⟨c.ofFloat p, ?_, by rw [h.ofFloat, e2]⟩
    unfold RNum.result
    cases hq : r.qualities with
    | nil => rw [hq] at e1; simp at e1
    | cons e l =>
      rw [hq] at e1
      simp only [List.map_cons, List.head?_cons, Option.some.injEq] at e1 ⊢
      rw [e1]
  · have := hr.sorted
    rw [List.pairwise_map] at this
    unfold RNum.result
    rw [List.map_map, List.pairwise_map]
    refine this.imp ?_
    intro a b hab
    simp only [Function.comp, h.ofFloat]
    exact hab
  · intro e he
    obtain ⟨e, he', rfl⟩ := List.mem_map.mp he
    have := hr.range e he'
    dsimp only
    rw [h.ofFloat]
    exact ⟨this.1, this.2, e.parameter, rfl⟩
  · unfold RNum.result
    dsimp only
    rw [List.flatMap_map]
    conv_lhs => rw [hr.grouped]
    rw [List.map_flatMap]
    congr 1
    funext e
    exact (rw1 e.parameter).symm
  · intro e he
    obtain ⟨e, he', rfl⟩ := List.mem_map.mp he
    obtain ⟨L, l1, l2, l3, l4, l5, l6, l7, l8, l9⟩ := hr.rows e he'
    have erows : rowsAt param' (c.ofFloat e.parameter) (c.result nr r).partitions = L.map (row' (c.ofFloat e.parameter)) := by
      show rowsAt param' (c.ofFloat e.parameter) (r.partitions.map nr) = _
      rw [rw1, l2, List.map_map]
      apply List.map_congr_left
      intro a _
      exact hrow _ _
    have eg := h.err e.gain l5 l6
    have el := h.err e.loss l7 l8
    have sg := h.sum (fun a => (quality a).gain) L (fun a ha => (pos L l1 a ha).1) (by show gainOf quality L ≤ 1; rw [← l3]; exact l6)
    have sl := h.sum (fun a => (quality a).loss) L (fun a ha => (pos L l1 a ha).2) (by show lossOf quality L ≤ 1; rw [← l4]; exact l8)
    refine ⟨L, l1, erows, ?_, ?_, ?_, ?_, (h.unit l5 l6).1, (h.unit l5 l6).2, (h.unit l7 l8).1, (h.unit l7 l8).2, ?_⟩
    · rw [← l3]; exact eg
    · rw [← l4]; exact el
    · dsimp only
      rw [erows, List.map_map]
      have : (fun x => val (gainCol x)) ∘ row' (c.ofFloat e.parameter) = fun a => val (c.narrow (quality a).gain) := by
        funext a; simp only [Function.comp, hg]
      rw [this]
      have e3 : (List.map (fun a => (quality a).gain) L).sum = e.gain := by rw [l3]; rfl
      rw [e3] at sg
      rw [abs_le] at *
      constructor <;> linarith [sg.1, sg.2, eg.1, eg.2]
    · dsimp only
      rw [erows, List.map_map]
      have : (fun x => val (lossCol x)) ∘ row' (c.ofFloat e.parameter) = fun a => val (c.narrow (quality a).loss) := by
        funext a; simp only [Function.comp, hl]
      rw [this]
      have e3 : (List.map (fun a => (quality a).loss) L).sum = e.loss := by rw [l4]; rfl
      rw [e3] at sl
      rw [abs_le] at *
      constructor <;> linarith [sl.1, sl.2, el.1, el.2]
    · intro L' hL' p ep
      dsimp only at ep ⊢
      rw [h.ofFloat] at ep
      obtain rfl : e.parameter = p := fl.inj _ _ ep
      have := l9 L' hL'
      obtain ⟨r1, r2⟩ := hr.range e he'
      have o1 : (FloatP.toK (FloatP.oneSub e.parameter) : ℝ) ≤ 1 := by
        rw [← fl.oneSub_zero FloatP.zero fl.zero]
        exact fl.oneSub_anti _ _ (by rw [fl.zero]; exact r1)
      have o0 : (0 : ℝ) ≤ FloatP.toK (FloatP.oneSub e.parameter) := by
        rcases lt_or_eq_of_le r2 with h2 | h2
        · exact (fl.oneSub_pos _ h2).le
        · exact (fl.oneSub_one _ h2).ge
      have g1 := abs_le.mp eg
      have g2 := abs_le.mp el
      have m1 : FloatP.toK e.parameter * (e.gain - val (c.narrow e.gain)) ≤ 1 * u := by
        rcases le_total (e.gain - val (c.narrow e.gain)) 0 with hn | hn
        · have := mul_nonpos_of_nonneg_of_nonpos r1 hn
          linarith [h.nonneg]
        · exact mul_le_mul r2 (by linarith) hn zero_le_one
      have m2 : FloatP.toK (FloatP.oneSub e.parameter) * (val (c.narrow e.loss) - e.loss) ≤ 1 * u := by
        rcases le_total (val (c.narrow e.loss) - e.loss) 0 with hn | hn
        · have := mul_nonpos_of_nonneg_of_nonpos o0 hn
          linarith [h.nonneg]
        · exact mul_le_mul o1 (by linarith) hn zero_le_one
      linarith
  · unfold RNum.result
    rw [List.pairwise_map]
    exact hr.grows.imp (fun {a b} hab => ⟨h.mono _ _ hab.1, h.mono _ _ hab.2.1⟩)
  · obtain ⟨e, he, e1, e2⟩ := hr.opt
    refine ⟨_, List.mem_map.mpr ⟨e, he, rfl⟩, ?_, ?_⟩
    · show c.ofFloat e.parameter = c.ofFloat r.pOpt
      rw [e1]
    · intro e' he0
      obtain ⟨e', he', rfl⟩ := List.mem_map.mp he0
      have := e2 e' he'
      dsimp only
      have key : ∀ x : ℝ, 0 ≤ x → x ≤ 1 → |(val (c.narrow x) - 1) ^ 2 - (x - 1) ^ 2| ≤ 2 * u ∧ |val (c.narrow x) ^ 2 - x ^ 2| ≤ 2 * u := by
        intro x h0 h1
        have er := h.err x h0 h1
        obtain ⟨n0, n1⟩ := h.unit h0 h1
        constructor
        · rw [show (val (c.narrow x) - 1) ^ 2 - (x - 1) ^ 2 = (val (c.narrow x) + x - 2) * (val (c.narrow x) - x) by ring, abs_mul]
          exact mul_le_mul (by rw [abs_le]; constructor <;> linarith) er (abs_nonneg _) (by norm_num)
        · rw [show val (c.narrow x) ^ 2 - x ^ 2 = (val (c.narrow x) + x) * (val (c.narrow x) - x) by ring, abs_mul]
          exact mul_le_mul (by rw [abs_le]; constructor <;> linarith) er (abs_nonneg _) (by norm_num)
      obtain ⟨_, _, _, _, _, a5, a6, a7, a8, _⟩ := hr.rows e he
      obtain ⟨_, _, _, _, _, b5, b6, b7, b8, _⟩ := hr.rows e' he'
      have k1 := abs_le.mp (key e.gain a5 a6).1
      have k2 := abs_le.mp (key e.loss a7 a8).2
      have k3 := abs_le.mp (key e'.gain b5 b6).1
      have k4 := abs_le.mp (key e'.loss b7 b8).2
      linarith [k1.1, k1.2, k2.1, k2.2, k3.1, k3.2, k4.1, k4.2]
  · show 1 / 2 ≤ val (c.narrow r.auc) ∧ val (c.narrow r.auc) ≤ 1
    exact ⟨by rw [← h.half]; exact h.mono _ _ hr.auc.1, by rw [← h.one]; exact h.mono _ _ hr.auc.2⟩

end Lp

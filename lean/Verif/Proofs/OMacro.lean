import Verif.Proofs.HMacro
import Verif.Spec.Tiling
import Mathlib.Order.Interval.Finset.Nat

/-!
# `omacro` takes the mean over the slices of each part
-/

namespace Lp
open Spec
variable {S Y : Type} [DecidableEq S] [DecidableEq Y]

theorem foldl_map {A B : Type} (g : B → A → A) : ∀ (l : List B) (d : List A),
    l.foldl (fun d b => d.map (g b)) d = d.map (fun r => l.foldl (fun r b => g b r) r) := by
  intro l
  induction l with
  | nil => intro d; simp
  | cons b l ih => intro d; rw [List.foldl_cons, ih, List.map_map]; rfl

/-- One assignment of the loop. -/
def setPart (I : Int × Int) (r : OData S Y ℝ) : OData S Y ℝ :=
  if I.1 ≤ (r.row.time : Int) ∧ (r.row.time : Int) ≤ I.2 then ⟨r.row, I.1, I.2⟩ else r

theorem setParts_lt {a b : Nat} {L : List (Nat × Nat)} (h : Tiles a b L) (r : OData S Y ℝ) (ht : r.row.time ≤ a) :
    (L.map (fun I : Nat × Nat => ((I.1 : Int) + 1, (I.2 : Int) + 1))).foldl (fun r I => setPart I r) r = r := by
  induction h with
  | nil => rfl
  | @cons a b c L h1 h2 h3 ih =>
    rw [List.map_cons, List.foldl_cons]
    have : setPart ((a : Int) + 1, (c : Int) + 1) r = r := by
      unfold setPart; rw [if_neg]; rintro ⟨h, _⟩; simp only at h; omega
    rw [this]
    exact ih (by omega)

theorem setParts_in {a b : Nat} {L : List (Nat × Nat)} (h : Tiles a b L) (r : OData S Y ℝ) {t : Nat} (ht : r.row.time = t + 1)
    (h1 : a ≤ t) (h2 : t < b) : ∃ I ∈ L, I.1 ≤ t ∧ t ≤ I.2 ∧
    (L.map (fun I : Nat × Nat => ((I.1 : Int) + 1, (I.2 : Int) + 1))).foldl (fun r I => setPart I r) r = ⟨r.row, I.1 + 1, I.2 + 1⟩ := by
  induction h generalizing r with
  | nil => omega
  | @cons a b c L hac hcb h3 ih =>
    rw [List.map_cons, List.foldl_cons]
    by_cases hc : t ≤ c
    · refine ⟨(a, c), List.mem_cons_self, h1, hc, ?_⟩
      have : setPart ((a : Int) + 1, (c : Int) + 1) r = ⟨r.row, (a : Int) + 1, (c : Int) + 1⟩ := by
        unfold setPart; rw [if_pos]; simp only; omega
      rw [this]
      exact setParts_lt h3 _ (by simp only; omega)
    · have : setPart ((a : Int) + 1, (c : Int) + 1) r = r := by
        unfold setPart; rw [if_neg]; rintro ⟨_, h⟩; simp only at h; omega
      rw [this]
      obtain ⟨I, hI, a1, a2, a3⟩ := ih r ht (by omega) h2
      exact ⟨I, List.mem_cons_of_mem _ hI, a1, a2, a3⟩

/-- Two parts of a tiling that share a slice are equal. -/
theorem tiles_unique {a b : Nat} {L : List (Nat × Nat)} (h : Tiles a b L) {I J : Nat × Nat} (hI : I ∈ L) (hJ : J ∈ L) {t : Nat}
    (h1 : I.1 ≤ t) (h2 : t ≤ I.2) (h3 : J.1 ≤ t) (h4 : t ≤ J.2) : I = J := by
  have hb := h.bounds I hI
  obtain ⟨k, _, hu⟩ := h.exactlyOne t (by omega) (by omega)
  obtain ⟨i, hi⟩ := List.getElem?_of_mem hI
  obtain ⟨j, hj⟩ := List.getElem?_of_mem hJ
  have e1 := hu i ⟨I, hi, h1, h2⟩
  have e2 := hu j ⟨J, hj, h3, h4⟩
  rw [e1] at hi
  rw [e2, hi] at hj
  exact Option.some.inj hj

theorem sum_filter_map {A : Type} (d : List A) (c : A → Bool) (g : A → ℝ) :
    ((d.filter c).map g).sum = (d.map (fun r => if c r = true then g r else 0)).sum := by
  induction d with
  | nil => rfl
  | cons r d ih =>
    rw [List.filter_cons, List.map_cons, List.sum_cons]
    by_cases e : c r = true
    · rw [if_pos e, if_pos e, List.map_cons, List.sum_cons, ih]
    · rw [if_neg e, if_neg e, zero_add, ih]

theorem omacro_spec {name : Nat → S} {type : Nat → Y} {d0 d1 d2 : Nat} (f : Nat × Nat × Nat → ℝ)
    (hname : ∀ x y, x < d0 → y < d0 → name x = name y → x = y) (htype : ∀ x y, x < d1 → y < d1 → type x = type y → x = y)
    {L : List (Nat × Nat)} (hL : Tiles 0 d2 L) :
    ((omacro (L.map (fun I : Nat × Nat => ((I.1 : Int) + 1, (I.2 : Int) + 1)))
      (melt ((List.range d0).map name) ((List.range d1).map type) d2 f)).map (fun r => (r.space, r.type, r.start, r.end))).Nodup ∧
    ∀ r, r ∈ omacro (L.map (fun I : Nat × Nat => ((I.1 : Int) + 1, (I.2 : Int) + 1)))
      (melt ((List.range d0).map name) ((List.range d1).map type) d2 f) ↔
      ∃ i j I, i < d0 ∧ j < d1 ∧ I ∈ L ∧ r = ⟨name i, type j, I.1 + 1, I.2 + 1,
        (∑ t ∈ Finset.Icc I.1 I.2, f (i, j, t)) / ((Finset.Icc I.1 I.2).card : ℝ)⟩ := by
  classical
  let data := melt ((List.range d0).map name) ((List.range d1).map type) d2 f
  let mark : MRow S Y ℝ → OData S Y ℝ := fun r =>
    (L.map (fun I : Nat × Nat => ((I.1 : Int) + 1, (I.2 : Int) + 1))).foldl (fun r I => setPart I r) ⟨r, -1, -1⟩
  let key : OData S Y ℝ → S × Y × Int × Int := fun r => (r.row.space, r.row.type, r.start, r.end)
  have hmark : ∀ i j t, t < d2 → ∃ I ∈ L, I.1 ≤ t ∧ t ≤ I.2 ∧ mark ⟨name i, type j, t + 1, f (i, j, t)⟩ =
      ⟨⟨name i, type j, t + 1, f (i, j, t)⟩, I.1 + 1, I.2 + 1⟩ := by
    intro i j t ht
    exact setParts_in hL (⟨⟨name i, type j, t + 1, f (i, j, t)⟩, -1, -1⟩ : OData S Y ℝ) rfl (by omega) ht
  have hkey : ∀ i j t i' j' I, i < d0 → j < d1 → t < d2 → i' < d0 → j' < d1 → I ∈ L →
      (key (mark ⟨name i, type j, t + 1, f (i, j, t)⟩) = (name i', type j', (I.1 : Int) + 1, (I.2 : Int) + 1) ↔
        i = i' ∧ j = j' ∧ t ∈ Finset.Icc I.1 I.2) := by
    intro i j t i' j' I hi hj ht hi' hj' hI
    obtain ⟨J, hJ, j1, j2, e⟩ := hmark i j t ht
    rw [e]
    simp only [key, Prod.mk.injEq, Finset.mem_Icc]
    constructor
    · rintro ⟨a, b, c, d⟩
      exact ⟨hname _ _ hi hi' a, htype _ _ hj hj' b, by omega, by omega⟩
    · rintro ⟨rfl, rfl, a, b⟩
      obtain rfl := tiles_unique hL hI hJ a b j1 j2
      exact ⟨rfl, rfl, rfl, rfl⟩
  have hout : omacro (L.map (fun I : Nat × Nat => ((I.1 : Int) + 1, (I.2 : Int) + 1))) data =
      (groupRows key (data.map mark)).map
        (fun g => ⟨g.1.1, g.1.2.1, g.1.2.2.1, g.1.2.2.2, rMean (g.2.map (fun r => r.row.value))⟩) := by
    unfold omacro
    have := foldl_map (fun (I : Int × Int) (r : OData S Y ℝ) => setPart I r)
      (L.map (fun I : Nat × Nat => ((I.1 : Int) + 1, (I.2 : Int) + 1))) (data.map (fun r => (⟨r, -1, -1⟩ : OData S Y ℝ)))
    rw [List.map_map] at this
    simp only [setPart] at this
    simp only [this]
    rfl
  have hmean : ∀ i j I, i < d0 → j < d1 → I ∈ L →
      rMean (((data.map mark).filter (fun r => key r = (name i, type j, (I.1 : Int) + 1, (I.2 : Int) + 1))).map (fun r => r.row.value)) =
        (∑ t ∈ Finset.Icc I.1 I.2, f (i, j, t)) / ((Finset.Icc I.1 I.2).card : ℝ) := by
    intro i j I hi hj hI
    have hb := hL.bounds I hI
    have hs : ∀ g : OData S Y ℝ → ℝ, ∀ g' : Nat → ℝ,
        (∀ t, t < d2 → g (mark ⟨name i, type j, t + 1, f (i, j, t)⟩) = g' t) →
        (((data.map mark).filter (fun r => key r = (name i, type j, (I.1 : Int) + 1, (I.2 : Int) + 1))).map g).sum =
          ∑ t ∈ Finset.Icc I.1 I.2, g' t := by
      intro g g' hg
      rw [sum_filter_map, List.map_map]
      simp only [data]
      rw [melt_sum]
      simp only [Function.comp, decide_eq_true_eq]
      have e1 : ∀ t ∈ Finset.range d2, (∑ j' ∈ Finset.range d1, ∑ i' ∈ Finset.range d0,
          if key (mark ⟨name i', type j', t + 1, f (i', j', t)⟩) = (name i, type j, (I.1 : Int) + 1, (I.2 : Int) + 1)
          then g (mark ⟨name i', type j', t + 1, f (i', j', t)⟩) else 0) = if t ∈ Finset.Icc I.1 I.2 then g' t else 0 := by
        intro t ht
        have ht := Finset.mem_range.mp ht
        rw [Finset.sum_eq_single j ?_ (fun h => absurd (Finset.mem_range.mpr hj) h),
          Finset.sum_eq_single i ?_ (fun h => absurd (Finset.mem_range.mpr hi) h)]
        · by_cases hin : t ∈ Finset.Icc I.1 I.2
          · rw [if_pos hin, if_pos ((hkey i j t i j I hi hj ht hi hj hI).mpr ⟨rfl, rfl, hin⟩), hg t ht]
          · rw [if_neg hin, if_neg (fun h => hin ((hkey i j t i j I hi hj ht hi hj hI).mp h).2.2)]
        · intro i' hi' hne
          rw [if_neg (fun h => hne ((hkey i' j t i j I (Finset.mem_range.mp hi') hj ht hi hj hI).mp h).1)]
        · intro j' hj' hne
          apply Finset.sum_eq_zero
          intro i' hi'
          rw [if_neg (fun h => hne ((hkey i' j' t i j I (Finset.mem_range.mp hi') (Finset.mem_range.mp hj') ht hi hj hI).mp h).2.1)]
      rw [Finset.sum_congr rfl e1, ← Finset.sum_filter]
      congr 1
      ext t
      rw [Finset.mem_filter, Finset.mem_range, Finset.mem_Icc]
      exact ⟨fun h => h.2, fun h => ⟨by omega, h⟩⟩
    have hlen : ∀ l : List (OData S Y ℝ), ((l.map (fun r => r.row.value)).length : ℝ) = (l.map (fun _ => (1 : ℝ))).sum := by
      intro l; simp
    unfold rMean
    rw [hlen, hs (fun r => r.row.value) (fun t => f (i, j, t)), hs (fun _ => 1) (fun _ => 1) (fun _ _ => rfl)]
    · simp
    · intro t ht
      obtain ⟨_, _, _, _, e⟩ := hmark i j t ht
      rw [e]
  constructor
  · rw [hout, List.map_map]
    exact groupRows_nodup key _
  · intro r
    rw [hout, List.mem_map]
    constructor
    · rintro ⟨g, hg, rfl⟩
      obtain ⟨⟨r0, hr0, hk⟩, hg2⟩ := mem_groupRows.mp hg
      obtain ⟨r1, hr1, rfl⟩ := List.mem_map.mp hr0
      obtain ⟨i, j, t, hi, hj, ht, rfl⟩ := mem_melt.mp hr1
      obtain ⟨I, hI, i1, i2, e⟩ := hmark i j t ht
      have hg1 : g.1 = (name i, type j, (I.1 : Int) + 1, (I.2 : Int) + 1) := by rw [← hk, e]
      refine ⟨i, j, I, hi, hj, hI, ?_⟩
      rw [hg2, hg1, hmean i j I hi hj hI]
    · rintro ⟨i, j, I, hi, hj, hI, rfl⟩
      have hb := hL.bounds I hI
      refine ⟨((name i, type j, (I.1 : Int) + 1, (I.2 : Int) + 1),
        (data.map mark).filter (fun r => key r = (name i, type j, (I.1 : Int) + 1, (I.2 : Int) + 1))), mem_groupRows.mpr ⟨?_, rfl⟩, ?_⟩
      · refine ⟨mark ⟨name i, type j, I.1 + 1, f (i, j, I.1)⟩, List.mem_map_of_mem (mem_melt.mpr ⟨i, j, I.1, hi, hj, by omega, rfl⟩), ?_⟩
        rw [hkey i j I.1 i j I hi hj (by omega) hi hj hI]
        exact ⟨rfl, rfl, by rw [Finset.mem_Icc]; omega⟩
      · simp only
        rw [hmean i j I hi hj hI]

end Lp

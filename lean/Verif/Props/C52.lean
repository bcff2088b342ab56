import Verif.Proofs.OMacro
import Verif.Props.C51

/-!
# C52 — `omacro` describes the data by the parts of an ordered partition

`omacro(df, micro, p)` gives the rows Space, Type, Start, End and value.  `name` are the names of the spaces, `type` those of the
types; slices are numbered from 1.
-/

namespace Lp.C52
open Spec
variable {S Y : Type} [DecidableEq S] [DecidableEq Y]

/-- `omacro` has exactly one row per space, type and part: its value is the mean over the slices of the part. -/
theorem rows (spaces types slices : Nat) (name : Nat → S) (hname : ∀ x y, x < spaces → y < spaces → name x = name y → x = y)
    (type : Nat → Y) (htype : ∀ x y, x < types → y < types → type x = type y → x = y) (f : Nat × Nat × Nat → ℝ)
    (L : List (Nat × Nat)) (hL : Tiles 0 slices L) :
    let out := omacro (L.map (fun I : Nat × Nat => ((I.1 : Int) + 1, (I.2 : Int) + 1)))
      (melt ((List.range spaces).map name) ((List.range types).map type) slices f)
    (out.map (fun r => (r.space, r.type, r.start, r.end))).Nodup ∧
    ∀ r, r ∈ out ↔ ∃ i j I, i < spaces ∧ j < types ∧ I ∈ L ∧ r = ⟨name i, type j, I.1 + 1, I.2 + 1,
      (∑ t ∈ Finset.Icc I.1 I.2, f (i, j, t)) / ((I.2 - I.1 + 1 : Nat) : ℝ)⟩ := by
  intro out
  obtain ⟨h1, h2⟩ := omacro_spec f hname htype hL
  refine ⟨h1, ?_⟩
  intro r
  rw [h2]
  have hcard : ∀ I ∈ L, (Finset.Icc I.1 I.2).card = I.2 - I.1 + 1 := by
    intro I hI
    have := hL.bounds I hI
    rw [Nat.card_Icc]
    omega
  constructor
  · rintro ⟨i, j, I, hi, hj, hI, rfl⟩
    exact ⟨i, j, I, hi, hj, hI, by rw [hcard I hI]⟩
  · rintro ⟨i, j, I, hi, hj, hI, rfl⟩
    exact ⟨i, j, I, hi, hj, hI, by rw [hcard I hI]⟩

/-- The description loses nothing: for each space and type the means, weighted by the numbers of slices, add up to the total
over all the slices. -/
theorem total (spaces types slices : Nat) (name : Nat → S) (hname : ∀ x y, x < spaces → y < spaces → name x = name y → x = y)
    (type : Nat → Y) (htype : ∀ x y, x < types → y < types → type x = type y → x = y) (f : Nat × Nat × Nat → ℝ)
    (L : List (Nat × Nat)) (hL : Tiles 0 slices L) (i j : Nat) (hi : i < spaces) (hj : j < types) :
    (((omacro (L.map (fun I : Nat × Nat => ((I.1 : Int) + 1, (I.2 : Int) + 1)))
      (melt ((List.range spaces).map name) ((List.range types).map type) slices f)).filter
        (fun r => r.space = name i ∧ r.type = type j)).map (fun r => r.value * ((r.end - r.start + 1 : Int) : ℝ))).sum =
      ∑ t ∈ Finset.range slices, f (i, j, t) := by
  classical
  obtain ⟨nd, mem⟩ := rows spaces types slices name hname type htype f L hL
  generalize omacro (L.map (fun I : Nat × Nat => ((I.1 : Int) + 1, (I.2 : Int) + 1)))
      (melt ((List.range spaces).map name) ((List.range types).map type) slices f) = out at nd mem ⊢
  have ndL : L.Nodup := by
    rw [List.nodup_iff_getElem?_ne_getElem?]
    intro a b hab hb e
    have ha : L[a]? = some L[a] := List.getElem?_eq_getElem (by omega)
    have hbd := hL.bounds L[a] (List.getElem_mem _)
    obtain ⟨k, _, hu⟩ := hL.exactlyOne L[a].1 (by omega) (by omega)
    have h1 := hu a ⟨_, ha, by omega, by omega⟩
    have h2 := hu b ⟨_, by rw [← e, ha], by omega, by omega⟩
    omega
  have hperm : ((out.filter (fun r => r.space = name i ∧ r.type = type j)).map
      (fun r => ((r.start, r.end), r.value * ((r.end - r.start + 1 : Int) : ℝ)))).Perm
      (L.map (fun I => (((I.1 : Int) + 1, (I.2 : Int) + 1), ∑ t ∈ Finset.Icc I.1 I.2, f (i, j, t)))) := by
    have hv : ∀ I ∈ L, (∑ t ∈ Finset.Icc I.1 I.2, f (i, j, t)) / ((I.2 - I.1 + 1 : Nat) : ℝ) *
        ((((I.2 : Int) + 1 - ((I.1 : Int) + 1) + 1 : Int)) : ℝ) = ∑ t ∈ Finset.Icc I.1 I.2, f (i, j, t) := by
      intro I hI
      have hb := hL.bounds I hI
      have e : (((I.2 : Int) + 1 - ((I.1 : Int) + 1) + 1 : Int)) = ((I.2 - I.1 + 1 : Nat) : Int) := by omega
      rw [e, Int.cast_natCast, div_mul_cancel₀]
      exact_mod_cast (by omega : I.2 - I.1 + 1 ≠ 0)
    rw [List.perm_ext_iff_of_nodup]
    · intro ⟨s, v⟩
      simp only [List.mem_map, List.mem_filter, decide_eq_true_eq, Prod.mk.injEq]
      constructor
      · rintro ⟨r, ⟨hr, e1, e2⟩, rfl, rfl⟩
        obtain ⟨i', j', I, hi', hj', hI, rfl⟩ := (mem r).mp hr
        obtain rfl := hname _ _ hi' hi e1
        obtain rfl := htype _ _ hj' hj e2
        exact ⟨I, hI, rfl, (hv I hI).symm⟩
      · rintro ⟨I, hI, rfl, rfl⟩
        exact ⟨_, ⟨(mem _).mpr ⟨i, j, I, hi, hj, hI, rfl⟩, rfl, rfl⟩, rfl, hv I hI⟩
    · apply List.Nodup.map_on
      · intro r hr r' hr' e
        obtain ⟨hr, hc⟩ := List.mem_filter.mp hr
        obtain ⟨hr', hc'⟩ := List.mem_filter.mp hr'
        rw [decide_eq_true_eq] at hc hc'
        refine List.inj_on_of_nodup_map nd hr hr' ?_
        have e1 := (Prod.mk.inj (Prod.mk.inj e).1)
        rw [hc.1, hc.2, hc'.1, hc'.2, e1.1, e1.2]
      · exact (List.Nodup.of_map _ nd).filter _
    · apply List.Nodup.map_on _ ndL
      intro x hx y hy e
      have e1 := (Prod.mk.inj (Prod.mk.inj e).1)
      exact Prod.ext (by omega) (by omega)
  have := (hperm.map Prod.snd).sum_eq
  rw [List.map_map, List.map_map] at this
  simp only [Function.comp_def] at this
  rw [this]
  rcases Nat.eq_zero_or_pos slices with rfl | hpos
  · cases hL with
    | nil => simp
    | cons h1 h2 h3 => omega
  · refine (C51.cuts_sum_aux (tiles_cuts hL hpos) (fun t => f (i, j, t))).trans ?_
    apply Finset.sum_congr _ (fun _ _ => rfl)
    ext x
    simp [oCells]
    omega

/-- From the data to the macroscopic description: for every parameter found by `oaggregate`, `omacro` describes a partition
with the gain and loss in `Qualities`, optimal for the parameter, by the means over its parts. -/
theorem result {F : Type} [FloatP F ℝ] {u : ℝ} (fl : FloatLaws F ℝ u) (randMax : ℝ) (hr : 2 ≤ randMax) (t : F)
    (ht : (0 : ℝ) < FloatP.toK t) (hu : 11 * u ≤ FloatP.toK t) :
    ∃ N : Nat, ∀ (d0 d1 d2 : Nat) (f : Nat × Nat × Nat → ℝ) (name : Nat → S) (type : Nat → Y),
      0 < d0 → 0 < d1 → 0 < d2 → d2 ≤ 65535 → d0 * d1 < 2 ^ 32 →
      (∀ x y, x < d0 → y < d0 → name x = name y → x = y) → (∀ x y, x < d1 → y < d1 → type x = type y → x = y) →
      (∀ i j k, i < d0 → j < d1 → k < d2 → 0 ≤ f (i, j, k)) →
      let gain := gain3 d0 d1 (fun i j k => f (i, j, k))
      let loss := loss3 d0 d1 (fun i j k => f (i, j, k))
      let all := Finset.Icc 0 (d2 - 1)
      gain all ≠ 0 → loss all ≠ 0 →
      let quality := relative gain loss all (fun I : Nat × Nat => Finset.Icc I.1 I.2)
      ∀ fuel, N ≤ fuel → ∃ r, oaggregate false fuel randMax id (rArray d0 d1 d2 f) t = .ok r ∧
        ∀ e ∈ r.qualities, ∃ L, Tiles 0 d2 L ∧ e.gain = gainOf quality L ∧ e.loss = lossOf quality L ∧
          (∀ L', Tiles 0 d2 L' →
            valueOf (FloatP.toK e.parameter) (FloatP.toK (FloatP.oneSub e.parameter)) quality L' ≤
              valueOf (FloatP.toK e.parameter) (FloatP.toK (FloatP.oneSub e.parameter)) quality L) ∧
          let out := omacro ((rowsAt ORow.parameter e.parameter r.partitions).map (fun x => (x.start, x.end)))
            (melt ((List.range d0).map name) ((List.range d1).map type) d2 f)
          (out.map (fun r => (r.space, r.type, r.start, r.end))).Nodup ∧
          ∀ r, r ∈ out ↔ ∃ i j I, i < d0 ∧ j < d1 ∧ I ∈ L ∧ r = ⟨name i, type j, I.1 + 1, I.2 + 1,
            (∑ t ∈ Finset.Icc I.1 I.2, f (i, j, t)) / ((I.2 - I.1 + 1 : Nat) : ℝ)⟩ := by
  obtain ⟨N, hN⟩ := C49.ordered fl randMax hr t ht hu
  refine ⟨N, ?_⟩
  intro d0 d1 d2 f name type h0 h1 h2 h2' hF hname htype hpos gain loss all hg hl quality fuel hf
  obtain ⟨r, e, hr⟩ := hN d0 d1 d2 f h0 h1 h2 h2' hF hpos hg hl fuel hf
  refine ⟨r, e, ?_⟩
  intro q hq
  obtain ⟨L, c1, c2, c3, c4, _, _, _, _, c5⟩ := hr.rows q hq
  have := rows d0 d1 d2 name hname type htype f L c1
  refine ⟨L, c1, c3, c4, ?_, ?_⟩
  · intro L' hL'
    have := c5 L' hL'
    rw [c3, c4] at this
    exact this
  · rw [c2, List.map_map]
    exact this

/-! ## Concrete cases -/

/-- Two spaces, one type, three slices cut into the first two and the last: the weighted means of the second space. -/
example : (((omacro (([(0, 1), (2, 2)] : List (Nat × Nat)).map (fun I : Nat × Nat => ((I.1 : Int) + 1, (I.2 : Int) + 1)))
      (melt ((List.range 2).map (fun x => x)) ((List.range 1).map (fun x => x)) 3 (fun x => (x.1 + x.2.2 : ℝ)))).filter
        (fun r => r.space = 1 ∧ r.type = 0)).map (fun r => r.value * ((r.end - r.start + 1 : Int) : ℝ))).sum = 6 := by
  have ht : Tiles 0 3 [(0, 1), (2, 2)] := .cons (by omega) (by omega) (.cons (by omega) (by omega) (.nil 3))
  rw [total 2 1 3 (fun x => x) (fun _ _ _ _ h => h) (fun x => x) (fun _ _ _ _ h => h) _ _ ht 1 0 (by omega) (by omega)]
  norm_num [Finset.sum_range_succ]

/-- The rows themselves, with rational values. -/
example : (omacro (K := ℚ) [(1, 2), (3, 3)] (melt ["a", "b"] ["u"] 3 fun x => (x.1 + x.2.2 : ℚ))).map
    (fun r => (r.space, r.start, r.end, r.value)) =
    [("a", 1, 2, 1 / 2), ("b", 1, 2, 3 / 2), ("a", 3, 3, 2), ("b", 3, 3, 3)] := by decide +kernel

/-! ## The hypotheses are met by concrete inputs -/

example := rows 2 2 3 (id : Nat → Nat) (fun _ _ _ _ h => h) (id : Nat → Nat) (fun _ _ _ _ h => h) (fun x => (x.1 : ℝ) + x.2.2) [(0, 1), (2, 2)]
  (.cons (by decide) (by decide) (.cons (by decide) (by decide) (.nil 3)))
example := result (S := Nat) (Y := Nat) (exactLaws ℝ) 2147483647 (by norm_num) (1 / 16 : ℝ) (by norm_num [FloatP.toK]) (by norm_num [FloatP.toK])

end Lp.C52

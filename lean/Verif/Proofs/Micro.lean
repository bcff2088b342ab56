import Verif.Model.RMicro
import Verif.Proofs.RBinding
import Verif.Proofs.Slicer

/-!
# The array of `pjdump2micro`
-/

namespace Lp
open Spec

section Sorting
variable {α : Type} [LinearOrder α]

theorem mem_rSortUnique {l : List α} {x : α} : x ∈ rSortUnique l ↔ x ∈ l := by
  unfold rSortUnique
  rw [(List.perm_insertionSort _ _).mem_iff, List.mem_dedup]

theorem rSortUnique_nodup (l : List α) : (rSortUnique l).Nodup := by
  unfold rSortUnique
  rw [(List.perm_insertionSort _ _).nodup_iff]
  exact List.nodup_dedup l

theorem rSortUnique_sorted (l : List α) : (rSortUnique l).Pairwise (· < ·) := by
  have h1 : (rSortUnique l).Pairwise (· ≤ ·) := List.pairwise_insertionSort _ _
  have h2 : (rSortUnique l).Pairwise (· ≠ ·) := rSortUnique_nodup l
  exact (h1.and h2).imp (fun h => lt_of_le_of_ne h.1 h.2)

/-- A strictly sorted list is determined by its members. -/
theorem sorted_ext {a b : List α} (ha : a.Pairwise (· < ·)) (hb : b.Pairwise (· < ·)) (h : ∀ x, x ∈ a ↔ x ∈ b) : a = b := by
  have na : a.Nodup := ha.imp (fun h => ne_of_lt h)
  have nb : b.Nodup := hb.imp (fun h => ne_of_lt h)
  exact List.Perm.eq_of_pairwise (fun x y _ _ h1 h2 => absurd h1 (not_lt_of_gt h2)) ha hb
    ((List.perm_ext_iff_of_nodup na nb).mpr h)

end Sorting

theorem idxOf?_get {α : Type} [DecidableEq α] {l : List α} (hl : l.Nodup) {i : Nat} {x : α} (h : l[i]? = some x) :
    l.idxOf? x = some i := by
  obtain ⟨hi, rfl⟩ := List.getElem?_eq_some_iff.mp h
  rw [List.idxOf?_eq_some_iff]
  refine ⟨hi, by simp, fun j hj => ?_⟩
  have hj' : j < l.length := by omega
  intro e
  have e' : l[j] = l[i] := by simpa using e
  have := (List.Nodup.getElem_inj_iff hl).mp e'
  omega

section Array
variable {K : Type}

theorem rArray_length (d0 d1 d2 : Nat) (f : Nat × Nat × Nat → K) : (rArray d0 d1 d2 f).mem.length = d0 * d1 * d2 := by
  unfold rArray
  dsimp only
  rw [length_range_flatMap (m := d0 * d1), Nat.mul_comm]
  intro k
  rw [length_range_flatMap (m := d0), Nat.mul_comm]
  intro j
  simp

theorem rArray_mem (d0 d1 d2 : Nat) (f : Nat × Nat × Nat → K) :
    (rArray d0 d1 d2 f).mem = (List.range (d0 * d1 * d2)).map (fun p => f (p % d0, p / d0 % d1, p / (d0 * d1))) := by
  apply List.ext_getElem?
  intro p
  by_cases hp : p < d0 * d1 * d2
  · have h01 : 0 < d0 * d1 := by
      rcases Nat.eq_zero_or_pos (d0 * d1) with h | h
      · rw [h] at hp; omega
      · exact h
    have h0 : 0 < d0 := Nat.pos_of_mul_pos_right h01
    have h1 : 0 < d1 := Nat.pos_of_mul_pos_left h01
    have hk : p / (d0 * d1) < d2 := Nat.div_lt_of_lt_mul hp
    have := cube_rArray f (Nat.mod_lt p h0) (Nat.mod_lt (p / d0) h1) hk
    unfold RArray.cube at this
    rw [vget_eq_ok] at this
    have e : p % d0 + p / d0 % d1 * d0 + p / (d0 * d1) * (d0 * d1) = p := by
      rw [← Nat.div_div_eq_div_mul]
      have a1 := Nat.mod_add_div p d0
      have a2 := Nat.mod_add_div (p / d0) d1
      calc p % d0 + p / d0 % d1 * d0 + p / d0 / d1 * (d0 * d1)
          = p % d0 + d0 * (p / d0 % d1 + d1 * (p / d0 / d1)) := by ring
        _ = p := by rw [a2, a1]
    have hd : (rArray d0 d1 d2 f).d0 = d0 ∧ (rArray d0 d1 d2 f).d1 = d1 := ⟨rfl, rfl⟩
    rw [hd.1, hd.2, e] at this
    rw [this]
    simp [hp]
  · rw [List.getElem?_eq_none (by rw [rArray_length]; omega), List.getElem?_eq_none (by simp; omega)]

theorem rArray_congr {d0 d1 d2 : Nat} {f g : Nat × Nat × Nat → K}
    (h : ∀ i j k, i < d0 → j < d1 → k < d2 → f (i, j, k) = g (i, j, k)) : rArray d0 d1 d2 f = rArray d0 d1 d2 g := by
  unfold rArray
  congr 1
  apply List.flatMap_congr
  intro k hk
  apply List.flatMap_congr
  intro j hj
  apply List.map_congr_left
  intro i hi
  exact h i j k (List.mem_range.mp hi) (List.mem_range.mp hj) (List.mem_range.mp hk)

theorem rArray_set {d0 d1 d2 : Nat} {f : Nat × Nat × Nat → K} {i j k : Nat} (hi : i < d0) (hj : j < d1) (hk : k < d2) (x : K) :
    (rArray d0 d1 d2 f).mem.set (i + j * d0 + k * (d0 * d1)) x =
      (rArray d0 d1 d2 (Function.update f (i, j, k) x)).mem := by
  rw [rArray_mem, rArray_mem]
  have h0 : 0 < d0 := by omega
  have h1 : 0 < d1 := by omega
  apply List.ext_getElem
  · simp
  intro p hp hp'
  have hp1 : p < d0 * d1 * d2 := by simpa using hp'
  rw [List.getElem_set]
  simp only [List.getElem_map, List.getElem_range]
  by_cases e : i + j * d0 + k * (d0 * d1) = p
  · rw [if_pos e]
    have e1 : p % d0 = i := by
      rw [← e, show i + j * d0 + k * (d0 * d1) = i + (j + k * d1) * d0 by ring, Nat.add_mul_mod_self_right, Nat.mod_eq_of_lt hi]
    have e2 : p / d0 = j + k * d1 := by
      rw [← e, show i + j * d0 + k * (d0 * d1) = i + (j + k * d1) * d0 by ring, Nat.add_mul_div_right _ _ h0, Nat.div_eq_of_lt hi]
      omega
    have e3 : p / d0 % d1 = j := by rw [e2, Nat.add_mul_mod_self_right, Nat.mod_eq_of_lt hj]
    have e4 : p / (d0 * d1) = k := by
      rw [← Nat.div_div_eq_div_mul, e2, Nat.add_mul_div_right _ _ h1, Nat.div_eq_of_lt hj]
      omega
    rw [e1, e3, e4, Function.update_self]
  · rw [if_neg e, Function.update_of_ne]
    intro he
    apply e
    simp only [Prod.mk.injEq] at he
    obtain ⟨a1, a2, a3⟩ := he
    rw [← a1, ← a2, ← a3, ← Nat.div_div_eq_div_mul]
    have b1 := Nat.mod_add_div p d0
    have b2 := Nat.mod_add_div (p / d0) d1
    calc p % d0 + p / d0 % d1 * d0 + p / d0 / d1 * (d0 * d1)
        = p % d0 + d0 * (p / d0 % d1 + d1 * (p / d0 / d1)) := by ring
      _ = p := by rw [b2, b1]

theorem rArray_zero [Zero K] (d0 d1 d2 : Nat) :
    (⟨d0, d1, d2, List.replicate (d0 * d1 * d2) 0⟩ : RArray K) = rArray d0 d1 d2 (fun _ => 0) := by
  have h := rArray_mem d0 d1 d2 (fun _ => (0 : K))
  have : (rArray d0 d1 d2 (fun _ => (0 : K))).mem = List.replicate (d0 * d1 * d2) 0 := by
    rw [h]; simp
  unfold rArray at this ⊢
  dsimp only at this
  rw [this]

theorem pos_lt {d0 d1 d2 i j k : Nat} (hi : i < d0) (hj : j < d1) (hk : k < d2) : i + j * d0 + k * (d0 * d1) < d0 * d1 * d2 := by
  calc i + j * d0 + k * (d0 * d1) < d0 + j * d0 + k * (d0 * d1) := by omega
    _ = (j + 1) * d0 + k * (d0 * d1) := by ring
    _ ≤ d1 * d0 + k * (d0 * d1) := by gcongr; omega
    _ = (k + 1) * (d0 * d1) := by ring
    _ ≤ d2 * (d0 * d1) := by gcongr; omega
    _ = d0 * d1 * d2 := by ring

end Array

variable {S Y K : Type} [LinearOrder S] [LinearOrder Y] [Zero K]

theorem cubeAssign_eq {space : List S} {type : List Y} {time : List Nat} {f : Nat × Nat × Nat → K} {s : S} {y : Y} {t i j k : Nat}
    (hs : space.idxOf? s = some i) (hy : type.idxOf? y = some j) (ht : time.idxOf? t = some k) (x : K) :
    cubeAssign space type time (rArray space.length type.length time.length f) s y t x =
      .ok (rArray space.length type.length time.length (Function.update f (i, j, k) x)) := by
  have hi : i < space.length := (List.idxOf?_eq_some_iff.mp hs).1
  have hj : j < type.length := (List.idxOf?_eq_some_iff.mp hy).1
  have hk : k < time.length := (List.idxOf?_eq_some_iff.mp ht).1
  unfold cubeAssign
  rw [hs, hy, ht]
  dsimp only
  rw [vset_ok]
  · simp only [okBind]
    have := rArray_set (f := f) hi hj hk x
    have hd : ∀ g : Nat × Nat × Nat → K, (rArray space.length type.length time.length g).d0 = space.length ∧
      (rArray space.length type.length time.length g).d1 = type.length := fun g => ⟨rfl, rfl⟩
    rw [(hd _).1, (hd _).2, this]
    rfl
  · rw [rArray_length]
    exact pos_lt hi hj hk

/-- Filling the array. -/
theorem fill_spec {space : List S} {type : List Y} {time : List Nat} :
    ∀ (L : List (SliceRow S Y K)) (f : Nat × Nat × Nat → K),
      (∀ r ∈ L, r.resource ∈ space ∧ r.type ∈ type ∧ r.slice ∈ time) →
      (L.map (fun r => (r.resource, r.slice, r.type))).Nodup →
      space.Nodup → type.Nodup → time.Nodup →
      ∃ g, forEach (fun (r : SliceRow S Y K) a => cubeAssign space type time a r.resource r.type r.slice r.normalized) L
          (rArray space.length type.length time.length f) = .ok (rArray space.length type.length time.length g) ∧
        (∀ r ∈ L, ∀ i j k, space[i]? = some r.resource → type[j]? = some r.type → time[k]? = some r.slice →
          g (i, j, k) = r.normalized) ∧
        ∀ i j k, (∀ r ∈ L, ¬ (space[i]? = some r.resource ∧ type[j]? = some r.type ∧ time[k]? = some r.slice)) →
          g (i, j, k) = f (i, j, k) := by
  intro L
  induction L with
  | nil => intro f _ _ _ _ _; exact ⟨f, rfl, by simp, fun _ _ _ _ => rfl⟩
  | cons r L ih =>
    intro f hm hn h0 h1 h2
    obtain ⟨m1, m2, m3⟩ := hm r (by simp)
    obtain ⟨i, hi, ei⟩ := List.mem_iff_getElem.mp m1
    obtain ⟨j, hj, ej⟩ := List.mem_iff_getElem.mp m2
    obtain ⟨k, hk, ek⟩ := List.mem_iff_getElem.mp m3
    have gi : space[i]? = some r.resource := List.getElem?_eq_some_iff.mpr ⟨hi, ei⟩
    have gj : type[j]? = some r.type := List.getElem?_eq_some_iff.mpr ⟨hj, ej⟩
    have gk : time[k]? = some r.slice := List.getElem?_eq_some_iff.mpr ⟨hk, ek⟩
    rw [List.map_cons, List.nodup_cons] at hn
    obtain ⟨g, g1, g2, g3⟩ := ih (Function.update f (i, j, k) r.normalized) (fun r' h => hm r' (List.mem_cons_of_mem _ h)) hn.2 h0 h1 h2
    have uniq : ∀ {i' j' k' : Nat}, space[i']? = some r.resource → type[j']? = some r.type → time[k']? = some r.slice →
        i' = i ∧ j' = j ∧ k' = k := by
      intro i' j' k' a b c
      have := (idxOf?_get h0 a).symm.trans (idxOf?_get h0 gi)
      have := (idxOf?_get h1 b).symm.trans (idxOf?_get h1 gj)
      have := (idxOf?_get h2 c).symm.trans (idxOf?_get h2 gk)
      simp_all
    refine ⟨g, ?_, ?_, ?_⟩
    · rw [forEach, cubeAssign_eq (idxOf?_get h0 gi) (idxOf?_get h1 gj) (idxOf?_get h2 gk)]
      exact g1
    · intro r' hr' i' j' k' a b c
      rcases List.mem_cons.mp hr' with rfl | hr'
      · obtain ⟨rfl, rfl, rfl⟩ := uniq a b c
        rw [g3, Function.update_self]
        intro r'' hr'' ⟨a', b', c'⟩
        apply hn.1
        rw [a] at a'; rw [b] at b'; rw [c] at c'
        refine List.mem_map.mpr ⟨r'', hr'', ?_⟩
        simp only [Option.some.injEq] at a' b' c'
        rw [a', b', c']
      · exact g2 r' hr' i' j' k' a b c
    · intro i' j' k' h
      rw [g3 _ _ _ (fun r' hr' => h r' (List.mem_cons_of_mem _ hr')), Function.update_of_ne]
      intro e
      simp only [Prod.mk.injEq] at e
      obtain ⟨rfl, rfl, rfl⟩ := e
      exact h r (by simp) ⟨gi, gj, gk⟩

/-- The array of `pjdump2micro`. -/
theorem microOf_spec {df₀ : List (SliceRow S Y K)} {last : Nat} {rs : S → Prop} {ty : Y → Prop} {W : S → Y → Nat → K}
    (hnd : (df₀.map (fun r => (r.resource, r.slice, r.type))).Nodup)
    (hcell : ∀ e ∈ df₀, rs e.resource ∧ ty e.type ∧ 1 ≤ e.slice ∧ e.slice ≤ last ∧ e.normalized = W e.resource e.type (e.slice - 1))
    (hrow : ∀ s y k, rs s → ty y → 1 ≤ k → k ≤ last → ∃ e ∈ df₀, e.resource = s ∧ e.slice = k ∧ e.type = y)
    (hlast : ∀ s y, rs s → ty y → 0 < last) (hres : ∀ s, rs s → ∃ y, ty y) (htyp : ∀ y, ty y → ∃ s, rs s)
    (hlast' : last = 0 ∨ ∃ s, rs s)
    (resources : List (Container S)) (enable : Bool) :
    ∃ (space : List S) (type : List Y) (f : Nat × Nat × Nat → K),
      space.Pairwise (· < ·) ∧ type.Pairwise (· < ·) ∧
      (∀ s, s ∈ space ↔ rs s ∧ (enable = true → ∀ c ∈ resources, c.parent ≠ s)) ∧
      (∀ y, y ∈ type ↔ ty y) ∧
      (∀ (i j k : Nat) (s : S) (y : Y), space[i]? = some s → type[j]? = some y → k < last → f (i, j, k) = W s y k) ∧
      microOf df₀ resources enable =
        (if enable then hierarchyOf resources space (rSortUnique (resources.map (fun c => c.parent))).reverse else .ok ([], [0])) >>=
          fun nv => .ok ⟨space, type, (List.range last).map (· + 1), rArray space.length type.length last f, nv.1, nv.2⟩ := by
  have htime : rSortUnique (df₀.map (fun r => r.slice)) = (List.range last).map (· + 1) := by
    apply sorted_ext (rSortUnique_sorted _)
    · rw [List.pairwise_map]
      exact List.pairwise_lt_range.imp (fun h => by omega)
    · intro x
      rw [mem_rSortUnique]
      simp only [List.mem_map, List.mem_range]
      constructor
      · rintro ⟨e, he, rfl⟩
        obtain ⟨_, _, h1, h2, _⟩ := hcell e he
        exact ⟨e.slice - 1, by omega, by omega⟩
      · rintro ⟨k, hk, rfl⟩
        rcases hlast' with h | ⟨s, hs⟩
        · omega
        · obtain ⟨y, hy⟩ := hres s hs
          obtain ⟨e, he, _, h2, _⟩ := hrow s y (k + 1) hs hy (by omega) (by omega)
          exact ⟨e, he, h2⟩
  have htype : ∀ y, y ∈ rSortUnique (df₀.map (fun r => r.type)) ↔ ty y := by
    intro y
    rw [mem_rSortUnique, List.mem_map]
    constructor
    · rintro ⟨e, he, rfl⟩; exact (hcell e he).2.1
    · intro hy
      obtain ⟨s, hs⟩ := htyp y hy
      have := hlast s y hs hy
      obtain ⟨e, he, _, _, h3⟩ := hrow s y 1 hs hy (by omega) (by omega)
      exact ⟨e, he, h3⟩
  let parents := (rSortUnique (resources.map (fun c => c.parent))).reverse
  have hpar : ∀ s, s ∈ parents ↔ ∃ c ∈ resources, c.parent = s := by
    intro s
    simp only [parents, List.mem_reverse, mem_rSortUnique, List.mem_map]
  let df := if enable then df₀.filter (fun r => r.resource ∉ parents) else df₀
  have hdf : ∀ e, e ∈ df ↔ e ∈ df₀ ∧ (enable = true → e.resource ∉ parents) := by
    intro e
    by_cases h : enable = true
    · simp [df, h]
    · simp [df, h]
  let space := rSortUnique (df.map (fun r => r.resource))
  have hspace : ∀ s, s ∈ space ↔ rs s ∧ (enable = true → ∀ c ∈ resources, c.parent ≠ s) := by
    intro s
    simp only [space, mem_rSortUnique, List.mem_map]
    constructor
    · rintro ⟨e, he, rfl⟩
      obtain ⟨he1, he2⟩ := (hdf e).mp he
      refine ⟨(hcell e he1).1, fun h c hc hcs => he2 h ((hpar _).mpr ⟨c, hc, hcs⟩)⟩
    · rintro ⟨hs, hp⟩
      obtain ⟨y, hy⟩ := hres s hs
      have := hlast s y hs hy
      obtain ⟨e, he, h1, _⟩ := hrow s y 1 hs hy (by omega) (by omega)
      refine ⟨e, (hdf e).mpr ⟨he, fun h hm => ?_⟩, h1⟩
      obtain ⟨c, hc, hcs⟩ := (hpar _).mp hm
      exact hp h c hc (hcs.trans h1)
  let type := rSortUnique (df₀.map (fun r => r.type))
  let time := (List.range last).map (· + 1)
  have hsub : (df.map (fun r => (r.resource, r.slice, r.type))).Nodup := by
    by_cases h : enable = true
    · simp only [df, h, if_true]
      exact hnd.sublist (List.Sublist.map _ List.filter_sublist)
    · simp only [df, h]
      exact hnd
  obtain ⟨g, g1, g2, g3⟩ := fill_spec (space := space) (type := type) (time := time) df (fun _ => 0) (by
      intro e he
      obtain ⟨he1, he2⟩ := (hdf e).mp he
      refine ⟨mem_rSortUnique.mpr (List.mem_map_of_mem he), mem_rSortUnique.mpr (List.mem_map_of_mem he1), ?_⟩
      have := hcell e he1
      exact List.mem_map.mpr ⟨e.slice - 1, List.mem_range.mpr (by omega), by omega⟩) hsub (rSortUnique_nodup _) (rSortUnique_nodup _)
    (by show ((List.range last).map (· + 1)).Nodup; rw [← htime]; exact rSortUnique_nodup _)
  have hlen : time.length = last := by simp [time]
  refine ⟨space, type, g, rSortUnique_sorted _, rSortUnique_sorted _, hspace, htype, ?_, ?_⟩
  · intro i j k s y hi hj hk
    have hs : s ∈ space := List.mem_of_getElem? hi
    have hy : y ∈ type := List.mem_of_getElem? hj
    obtain ⟨e, he, h1, h2, h3⟩ := hrow s y (k + 1) ((hspace s).mp hs).1 ((htype y).mp hy) (by omega) (by omega)
    have he' : e ∈ df := by
      refine (hdf e).mpr ⟨he, fun h hm => ?_⟩
      obtain ⟨c, hc, hcs⟩ := (hpar _).mp hm
      exact ((hspace s).mp hs).2 h c hc (hcs.trans h1)
    have hk' : time[k]? = some (k + 1) := by simp [time, hk]
    rw [g2 e he' i j k (by rw [h1]; exact hi) (by rw [h3]; exact hj) (by rw [h2]; exact hk'), (hcell e he).2.2.2.2, h1, h2, h3]
    simp
  · unfold microOf
    dsimp only
    rw [htime]
    have g1' := g1
    rw [← rArray_zero, hlen] at g1'
    have hl : (List.map (fun x => x + 1) (List.range last)).length = last := by simp
    rw [hl]
    by_cases h : enable = true
    · subst h
      simp only [if_true]
      have e : ∀ X : Res (Micro S Y K), X = (hierarchyOf resources space parents >>= fun nv =>
          forEach (fun (r : SliceRow S Y K) a => cubeAssign space type time a r.resource r.type r.slice r.normalized) df
            (⟨space.length, type.length, last, List.replicate (space.length * type.length * last) 0⟩ : RArray K) >>= fun cube =>
              .ok ⟨space, type, time, cube, nv.1, nv.2⟩) → X = (hierarchyOf resources space parents >>= fun nv =>
                .ok ⟨space, type, time, rArray space.length type.length last g, nv.1, nv.2⟩) := by
        intro X hX
        rw [hX, g1']
        rfl
      exact e _ rfl
    · have h : enable = false := by simpa using h
      subst h
      simp only [Bool.false_eq_true, if_false, okBind]
      have e : ∀ X : Res (Micro S Y K), X = (
          forEach (fun (r : SliceRow S Y K) a => cubeAssign space type time a r.resource r.type r.slice r.normalized) df
            (⟨space.length, type.length, last, List.replicate (space.length * type.length * last) 0⟩ : RArray K) >>= fun cube =>
              .ok ⟨space, type, time, cube, [], [0]⟩) → X = .ok ⟨space, type, time, rArray space.length type.length last g, [], [0]⟩ := by
        intro X hX
        rw [hX, g1']
        rfl
      exact e _ rfl

/-- The array of `pjdump2micro` for states. -/
theorem pjdump2micro_spec {K : Type} [Field K] [LinearOrder K] [IsStrictOrderedRing K] {trace : List (TState S Y K)} {first total : K} {n : Nat} (ht : RightTrace trace first total)
    (resources : List (Container S)) (enable : Bool) :
    ∃ (last : Nat) (space : List S) (type : List Y) (f : Nat × Nat × Nat → K), last ≤ n ∧
      (∀ r ∈ trace, ∀ k, Touches first total n r k → k < last) ∧
      (last = 0 ∨ ∃ r ∈ trace, Touches first total n r (last - 1)) ∧
      space.Pairwise (· < ·) ∧ type.Pairwise (· < ·) ∧
      (∀ s, s ∈ space ↔ (∃ r ∈ trace, r.resource = s ∧ ∃ k, Touches first total n r k) ∧
        (enable = true → ∀ c ∈ resources, c.parent ≠ s)) ∧
      (∀ y, y ∈ type ↔ ∃ r ∈ trace, r.value = y ∧ ∃ k, Touches first total n r k) ∧
      (∀ (i j k : Nat) (s : S) (y : Y), space[i]? = some s → type[j]? = some y → k < last →
        f (i, j, k) = timeIn trace first total n s y k / total) ∧
      pjdump2micro trace resources n enable =
        (if enable then hierarchyOf resources space (rSortUnique (resources.map (fun c => c.parent))).reverse else .ok ([], [0])) >>=
          fun nv => .ok ⟨space, type, (List.range last).map (· + 1), rArray space.length type.length last f, nv.1, nv.2⟩ := by
  obtain ⟨last, hle, hlast, hlast', hnd, hrows⟩ := slicerstate_spec (n := n) ht
  obtain ⟨space, type, f, h1, h2, h3, h4, h5, h6⟩ := microOf_spec (df₀ := slicerstate trace n) (last := last)
    (rs := fun s => ∃ r ∈ trace, r.resource = s ∧ ∃ k, Touches first total n r k)
    (ty := fun y => ∃ r ∈ trace, r.value = y ∧ ∃ k, Touches first total n r k)
    (W := fun s y k => timeIn trace first total n s y k / total) hnd (by
      intro e he
      obtain ⟨a, b, c, d, _, g⟩ := (hrows e.resource e.slice e.type e.sum e.normalized).mp ⟨e, he, rfl, rfl, rfl, rfl, rfl⟩
      exact ⟨a, b, c, d, g⟩) (by
      intro s y k hs hy h1 h2
      obtain ⟨e, he, a, b, c, _⟩ := (hrows s k y _ _).mpr ⟨hs, hy, h1, h2, rfl, rfl⟩
      exact ⟨e, he, a, b, c⟩) (by
      rintro s y ⟨r, hr, _, k, hk⟩ _
      have := hlast r hr k hk
      omega) (by
      rintro s ⟨r, hr, _, k, hk⟩
      exact ⟨_, r, hr, rfl, k, hk⟩) (by
      rintro s ⟨r, hr, _, k, hk⟩
      exact ⟨_, r, hr, rfl, k, hk⟩) (by
      rcases hlast' with h | ⟨r, hr, hk⟩
      · exact .inl h
      · exact .inr ⟨_, r, hr, rfl, _, hk⟩) resources enable
  exact ⟨last, space, type, f, hle, hlast, hlast', h1, h2, h3, h4, h5, h6⟩

end Lp

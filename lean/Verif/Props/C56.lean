import Verif.Proofs.Plot
import Verif.Props.C55

/-!
# C56 — what the plots show

`oplot_stacked_state` applied to the result of `omacro`, `hplot_treemap_state` and `hplot_treemap_perfcounter` applied to that of `hmacro`.
-/

namespace Lp.C56
open Spec
variable {S Y : Type} [DecidableEq S] [DecidableEq Y]

theorem mean_range_aux {n : Nat} (hn : 0 < n) (g : Nat → ℝ) (c : ℝ) :
    rMean ((List.range n).map (fun i => g i / c)) = (∑ i ∈ Finset.range n, g i) / (n * c) := by
  unfold rMean
  rw [C53.range_sum_aux, List.length_map, List.length_range, ← Finset.sum_div, div_div, mul_comm c]

theorem tiles_nodup_aux {a b : Nat} {L : List (Nat × Nat)} (h : Tiles a b L) : L.Nodup := by
  induction h with
  | nil => exact List.nodup_nil
  | cons h1 h2 h3 ih =>
    refine List.nodup_cons.mpr ⟨fun hm => ?_, ih⟩
    have := h3.bounds _ hm
    dsimp only at this
    omega

/-- The stacked bars: one for each type and each part of the tiling, drawn from the first slice of the part to `hspace` before the beginning of
the slice after the part (slice `k` being drawn from `k` to `k + 1`); its height is the mean of the data over the spaces
and the slices of the part. -/
theorem bars (spaces types slices : Nat) (hs : 0 < spaces) (name : Nat → S)
    (hname : ∀ x y, x < spaces → y < spaces → name x = name y → x = y)
    (type : Nat → Y) (htype : ∀ x y, x < types → y < types → type x = type y → x = y) (f : Nat × Nat × Nat → ℝ)
    (L : List (Nat × Nat)) (hL : Tiles 0 slices L) (hspace : ℝ) :
    let left := fun I : Nat × Nat => (I.1 + 1 : ℝ)
    let right := fun I : Nat × Nat => (I.2 + 2 - hspace : ℝ)
    (oplotStacked hspace (omacro (L.map (fun I : Nat × Nat => ((I.1 : Int) + 1, (I.2 : Int) + 1)))
      (melt ((List.range spaces).map name) ((List.range types).map type) slices f))).Perm
    ((List.range types).flatMap (fun j => L.map (fun I =>
      (⟨type j, (left I + right I) / 2, right I - left I,
        (∑ i ∈ Finset.range spaces, ∑ t ∈ Finset.Icc I.1 I.2, f (i, j, t)) / (spaces * (I.2 - I.1 + 1 : Nat))⟩ : Bar Y ℝ)))) := by
  intro left right
  obtain ⟨nd, mem⟩ := C52.rows spaces types slices name hname type htype f L hL
  have ndL := tiles_nodup_aux hL
  generalize omacro (L.map (fun I : Nat × Nat => ((I.1 : Int) + 1, (I.2 : Int) + 1)))
      (melt ((List.range spaces).map name) ((List.range types).map type) slices f) = out at nd mem ⊢
  let is : List (Nat × (Nat × Nat)) := (List.range types).flatMap (fun j => L.map (fun I => (j, I)))
  have his : ∀ x, x ∈ is ↔ x.1 < types ∧ x.2 ∈ L := by
    rintro ⟨j, I⟩
    simp [is, List.mem_flatMap]
  have key := groupRows_perm (rows := out) (key := fun r : OMacro S Y ℝ => (r.type, r.start, r.end)) (is := is)
    (M := fun x => (List.range spaces).map (fun i => (⟨name i, type x.1, x.2.1 + 1, x.2.2 + 1,
      (∑ t ∈ Finset.Icc x.2.1 x.2.2, f (i, x.1, t)) / ((x.2.2 - x.2.1 + 1 : Nat) : ℝ)⟩ : OMacro S Y ℝ)))
    (kf := fun x => (type x.1, (x.2.1 : Int) + 1, (x.2.2 : Int) + 1)) (nd.of_map _) (by
      intro r
      rw [mem]
      constructor
      · rintro ⟨i, j, I, hi, hj, hI, rfl⟩
        exact ⟨(j, I), (his _).mpr ⟨hj, hI⟩, List.mem_map.mpr ⟨i, List.mem_range.mpr hi, rfl⟩⟩
      · rintro ⟨⟨j, I⟩, hx, hr⟩
        obtain ⟨i, hi, rfl⟩ := List.mem_map.mp hr
        exact ⟨i, j, I, List.mem_range.mp hi, ((his _).mp hx).1, ((his _).mp hx).2, rfl⟩) (by
      rintro ⟨j, I⟩ _ r hr
      obtain ⟨i, _, rfl⟩ := List.mem_map.mp hr
      rfl) (by
      intro x _ e
      have := congrArg List.length e
      simp at this
      omega) (by
      intro x _
      apply List.Nodup.map_on _ List.nodup_range
      intro a ha b hb e
      exact hname a b (List.mem_range.mp ha) (List.mem_range.mp hb) (congrArg OMacro.space e)) (by
      apply List.Nodup.map_on
      · rintro ⟨j, I1, I2⟩ hx ⟨j', I1', I2'⟩ hy e
        simp only [Prod.mk.injEq] at e
        obtain ⟨e1, e2, e3⟩ := e
        obtain rfl := htype _ _ ((his _).mp hx).1 ((his _).mp hy).1 e1
        obtain rfl : I1 = I1' := by omega
        obtain rfl : I2 = I2' := by omega
        rfl
      · rw [List.nodup_flatMap]
        refine ⟨fun j _ => ndL.map (fun a b h => (Prod.mk.inj h).2), ?_⟩
        refine List.nodup_range.imp ?_
        intro a b hab x hx hx'
        obtain ⟨_, _, rfl⟩ := List.mem_map.mp hx
        obtain ⟨_, _, e⟩ := List.mem_map.mp hx'
        exact hab (Prod.mk.inj e).1.symm)
    (fun k l => barOf hspace k.1 (k.2.1 : ℝ) (k.2.2 : ℝ) (rMean (l.map (fun r => r.value)))) (by
      intro k l l' h
      rw [rMean_perm (h.map _)])
  refine (key.trans (List.Perm.of_eq ?_))
  simp only [is, List.map_flatMap, List.map_map]
  apply List.flatMap_congr
  intro j _
  apply List.map_congr_left
  intro I _
  simp only [Function.comp_def, barOf]
  rw [mean_range_aux hs (fun i => ∑ t ∈ Finset.Icc I.1 I.2, f (i, j, t))]
  simp only [left, right]
  congr 1 <;> push_cast <;> ring

theorem tiles_sum_aux {a b : Nat} {L : List (Nat × Nat)} (h : Tiles a b L) (g : Nat → ℝ) :
    (L.map (fun I => ∑ t ∈ Finset.Icc I.1 I.2, g t)).sum = ∑ t ∈ Finset.Ico a b, g t := by
  induction h with
  | nil => simp
  | @cons a b c L h1 h2 h3 ih =>
    rw [List.map_cons, List.sum_cons, ih, ← Finset.sum_Ico_consecutive g (show a ≤ c + 1 by omega) (show c + 1 ≤ b by omega)]
    rfl

theorem sum_flat_aux {A : Type} (l : List A) (g : A → List ℝ) : (l.flatMap g).sum = (l.map (fun x => (g x).sum)).sum := by
  induction l with
  | nil => rfl
  | cons a l ih => rw [List.flatMap_cons, List.sum_append, ih, List.map_cons, List.sum_cons]

/-- The area of the bars of a type, gaps included, does not depend on the tiling: it is the sum over the slices of the mean over
the spaces. -/
theorem area (spaces types slices : Nat) (hs : 0 < spaces) (name : Nat → S)
    (hname : ∀ x y, x < spaces → y < spaces → name x = name y → x = y)
    (type : Nat → Y) (htype : ∀ x y, x < types → y < types → type x = type y → x = y) (f : Nat × Nat × Nat → ℝ)
    (L : List (Nat × Nat)) (hL : Tiles 0 slices L) (hspace : ℝ) (j : Nat) (hj : j < types) :
    (((oplotStacked hspace (omacro (L.map (fun I : Nat × Nat => ((I.1 : Int) + 1, (I.2 : Int) + 1)))
      (melt ((List.range spaces).map name) ((List.range types).map type) slices f))).filter (fun b => b.type = type j)).map
        (fun b => b.value * (b.width + hspace))).sum =
      ∑ t ∈ Finset.range slices, (∑ i ∈ Finset.range spaces, f (i, j, t)) / spaces := by
  have hb := ((bars spaces types slices hs name hname type htype f L hL hspace).filter (fun b => b.type = type j)).map
    (fun b => b.value * (b.width + hspace))
  rw [hb.sum_eq, List.filter_flatMap, List.map_flatMap]
  have e : ∀ j', j' ∈ List.range types → (List.map (fun b : Bar Y ℝ => b.value * (b.width + hspace))
      (List.filter (fun b : Bar Y ℝ => decide (b.type = type j)) (L.map (fun I : Nat × Nat =>
        (⟨type j', ((I.1 + 1 : ℝ) + (I.2 + 2 - hspace)) / 2, (I.2 + 2 - hspace : ℝ) - (I.1 + 1),
        (∑ i ∈ Finset.range spaces, ∑ t ∈ Finset.Icc I.1 I.2, f (i, j', t)) / (spaces * (I.2 - I.1 + 1 : Nat))⟩ : Bar Y ℝ))))) =
      if j' = j then L.map (fun I => ∑ t ∈ Finset.Icc I.1 I.2, (∑ i ∈ Finset.range spaces, f (i, j, t)) / spaces) else [] := by
    intro j' hj'
    split_ifs with h
    · subst h
      rw [List.filter_eq_self.mpr (by
        intro b hb
        obtain ⟨I, _, rfl⟩ := List.mem_map.mp hb
        simp), List.map_map]
      apply List.map_congr_left
      intro I hI
      have hb := hL.bounds I hI
      have h1 : ((I.2 - I.1 + 1 : Nat) : ℝ) = I.2 - I.1 + 1 := by
        push_cast [Nat.cast_sub hb.2.1]
        ring
      have h2 : (0 : ℝ) < I.2 - I.1 + 1 := by
        have : (I.1 : ℝ) ≤ I.2 := by exact_mod_cast hb.2.1
        linarith
      have h3 : (spaces : ℝ) ≠ 0 := by positivity
      simp only [Function.comp_apply]
      rw [h1, ← Finset.sum_div, Finset.sum_comm]
      field_simp
      ring
    · rw [List.filter_eq_nil_iff.mpr, List.map_nil]
      intro b hb
      obtain ⟨I, _, rfl⟩ := List.mem_map.mp hb
      simp only [decide_eq_true_eq]
      exact fun e => h (htype _ _ (List.mem_range.mp hj') hj e)
  rw [List.flatMap_congr e, sum_flat_aux, C53.range_sum_aux]
  rw [Finset.sum_eq_single j]
  · rw [if_pos rfl, tiles_sum_aux hL, Nat.Ico_zero_eq_range]
  · intro b _ hb
    rw [if_neg hb]
    rfl
  · intro h
    exact absurd (Finset.mem_range.mpr hj) h

/-- If the data of each space and slice add up to `c` over the types, all the stacks have height `c`. -/
theorem stacked (spaces types slices : Nat) (hs : 0 < spaces) (name : Nat → S)
    (hname : ∀ x y, x < spaces → y < spaces → name x = name y → x = y)
    (type : Nat → Y) (htype : ∀ x y, x < types → y < types → type x = type y → x = y) (f : Nat × Nat × Nat → ℝ)
    (L : List (Nat × Nat)) (hL : Tiles 0 slices L) (hspace c : ℝ)
    (hc : ∀ i t, i < spaces → t < slices → ∑ j ∈ Finset.range types, f (i, j, t) = c) (I : Nat × Nat) (hI : I ∈ L) :
    (((oplotStacked hspace (omacro (L.map (fun I : Nat × Nat => ((I.1 : Int) + 1, (I.2 : Int) + 1)))
      (melt ((List.range spaces).map name) ((List.range types).map type) slices f))).filter
        (fun b => b.x - b.width / 2 = (I.1 : ℝ) + 1)).map (fun b => b.value)).sum = c := by
  have hb := ((bars spaces types slices hs name hname type htype f L hL hspace).filter (fun b => b.x - b.width / 2 = (I.1 : ℝ) + 1)).map
    (fun b => b.value)
  rw [hb.sum_eq, List.filter_flatMap, List.map_flatMap]
  have e : ∀ j, j ∈ List.range types → (List.map (fun b : Bar Y ℝ => b.value)
      (List.filter (fun b : Bar Y ℝ => decide (b.x - b.width / 2 = (I.1 : ℝ) + 1)) (L.map (fun I : Nat × Nat =>
        (⟨type j, ((I.1 + 1 : ℝ) + (I.2 + 2 - hspace)) / 2, (I.2 + 2 - hspace : ℝ) - (I.1 + 1),
        (∑ i ∈ Finset.range spaces, ∑ t ∈ Finset.Icc I.1 I.2, f (i, j, t)) / (spaces * (I.2 - I.1 + 1 : Nat))⟩ : Bar Y ℝ))))) =
      [(∑ i ∈ Finset.range spaces, ∑ t ∈ Finset.Icc I.1 I.2, f (i, j, t)) / (spaces * (I.2 - I.1 + 1 : Nat))] := by
    intro j _
    rw [List.filter_map, List.map_map]
    have : L.filter ((fun b : Bar Y ℝ => decide (b.x - b.width / 2 = (I.1 : ℝ) + 1)) ∘ (fun I : Nat × Nat =>
        (⟨type j, ((I.1 + 1 : ℝ) + (I.2 + 2 - hspace)) / 2, (I.2 + 2 - hspace : ℝ) - (I.1 + 1),
        (∑ i ∈ Finset.range spaces, ∑ t ∈ Finset.Icc I.1 I.2, f (i, j, t)) / (spaces * (I.2 - I.1 + 1 : Nat))⟩ : Bar Y ℝ))) = [I] := by
      apply List.perm_singleton.mp
      rw [List.perm_ext_iff_of_nodup ((tiles_nodup_aux hL).filter _) (List.nodup_singleton I)]
      intro J
      rw [List.mem_filter, List.mem_singleton]
      simp only [Function.comp_apply, decide_eq_true_eq]
      constructor
      · rintro ⟨h1, h2⟩
        have h3 : (J.1 : ℝ) = I.1 := by linarith
        have h3 : J.1 = I.1 := by exact_mod_cast h3
        have b1 := hL.bounds J h1
        have b2 := hL.bounds I hI
        exact tiles_unique hL h1 hI (t := I.1) (by omega) (by omega) (by omega) (by omega)
      · rintro rfl
        exact ⟨hI, by ring⟩
    rw [this]
    rfl
  rw [List.flatMap_congr e, sum_flat_aux, C53.range_sum_aux]
  simp only [List.sum_singleton]
  have hb := hL.bounds I hI
  rw [← Finset.sum_div, Finset.sum_comm]
  have : ∀ i ∈ Finset.range spaces, ∑ j ∈ Finset.range types, ∑ t ∈ Finset.Icc I.1 I.2, f (i, j, t) = (I.2 - I.1 + 1 : Nat) * c := by
    intro i hi
    rw [Finset.sum_comm, Finset.sum_congr rfl (fun t ht => hc i t (Finset.mem_range.mp hi) (by
      have := Finset.mem_Icc.mp ht; omega)), Finset.sum_const, Nat.card_Icc, nsmul_eq_mul, show I.2 + 1 - I.1 = I.2 - I.1 + 1 by omega]
  rw [Finset.sum_congr rfl this, Finset.sum_const, Finset.card_range, nsmul_eq_mul]
  have h1 : ((I.2 - I.1 + 1 : Nat) : ℝ) ≠ 0 := by positivity
  have h2 : (spaces : ℝ) ≠ 0 := by positivity
  field_simp

theorem names_aux {A : Type} (l : List A) (h : 0 < l.length) : (List.range l.length).map (fun i => l.getD i l[0]) = l := by
  apply List.ext_getElem
  · simp
  · intro i h1 h2
    simp [h2]

theorem inj_aux {A : Type} {l : List A} (nd : l.Nodup) (h : 0 < l.length) (x y : Nat) (hx : x < l.length) (hy : y < l.length)
    (e : l.getD x l[0] = l.getD y l[0]) : x = y := by
  rw [C54.getD_aux hx, C54.getD_aux hy] at e
  exact (List.Nodup.getElem_inj_iff nd).mp e

/-- From the trace to the plot: if each resource is always in exactly one state, then for every tiling of the `n` slices all the
stacks have height `1 / n`. -/
theorem states {S Y : Type} [LinearOrder S] [LinearOrder Y] (trace : List (TState S Y ℝ)) (first total : ℝ)
    (ht : RightTrace trace first total) (resources : List (Container S)) (n : Nat) (m : Micro S Y ℝ)
    (hm : pjdump2micro trace resources n false = .ok m)
    (hfull : ∀ s ∈ m.space, ∃ C, Consecutive first (first + total) C ∧ C.Perm (trace.filter (fun r => r.resource = s)))
    (L : List (Nat × Nat)) (hL : Tiles 0 m.time.length L) (hspace : ℝ) (I : Nat × Nat) (hI : I ∈ L) :
    (((oplotStacked hspace (omacro (L.map (fun I : Nat × Nat => ((I.1 : Int) + 1, (I.2 : Int) + 1)))
      (meltArray m.space m.type m.data))).filter (fun b => b.x - b.width / 2 = (I.1 : ℝ) + 1)).map (fun b => b.value)).sum = 1 / n := by
  obtain ⟨last, space, type, f, h1, h2, h3, h4, h5, h6, h7, h8, h9⟩ := C53.cube trace first total ht resources n
  obtain rfl := Except.ok.inj (hm.symm.trans h1)
  have hlen : ((List.range last).map (· + 1)).length = last := by simp
  dsimp only at hfull hL ⊢
  rw [hlen] at hL
  rw [meltArray_rArray]
  have hl0 : 0 < last := by have := hL.bounds I hI; omega
  obtain ⟨r0, hr0, hk0⟩ : ∃ r ∈ trace, Touches first total n r (last - 1) := by
    rcases h4 with h | h
    · omega
    · exact h
  have s0 : 0 < space.length := List.length_pos_of_mem ((h6 r0.resource).mpr ⟨r0, hr0, rfl, _, hk0⟩)
  have y0 : 0 < type.length := List.length_pos_of_mem ((h8 r0.value).mpr ⟨r0, hr0, rfl, _, hk0⟩)
  have key := stacked space.length type.length last s0 (fun i => space.getD i space[0]) (inj_aux (h5.imp (fun h => ne_of_lt h)) s0)
    (fun i => type.getD i type[0]) (inj_aux (h7.imp (fun h => ne_of_lt h)) y0) f L hL hspace (1 / n) (by
      intro i t hi ht'
      have hn : 0 < n := by omega
      obtain ⟨C, hC, hp⟩ := hfull space[i] (List.getElem_mem _)
      have := timeIn_full ht hn (ys := type) (h7.imp (fun h => ne_of_lt h)) (s := space[i]) (k := t) (by omega)
        (fun r hr k hk => (h8 _).mpr ⟨r, hr, rfl, k, hk⟩) hC hp
      have e : ∀ j ∈ Finset.range type.length, f (i, j, t) = timeIn trace first total n space[i] (type.getD j type[0]) t / total := by
        intro j hj
        rw [Finset.mem_range] at hj
        rw [h9 i j t _ _ (List.getElem?_eq_getElem hi) (List.getElem?_eq_getElem hj) ht', C54.getD_aux hj]
      rw [Finset.sum_congr rfl e, ← Finset.sum_div, ← C53.range_sum_aux]
      have e2 : (List.range type.length).map (fun j => timeIn trace first total n space[i] (type.getD j type[0]) t) =
          type.map (fun y => timeIn trace first total n space[i] y t) := by
        conv_rhs => rw [← names_aux type y0, List.map_map]
        rfl
      rw [e2, this]
      have := ht.pos.ne'
      field_simp) I hI
  rw [names_aux space s0, names_aux type y0] at key
  exact key

section
variable {leaves : Nat} {h : List Int} {root : Nat} {name : Nat → S} {types slices : Nat} {type : Nat → Y} {f : Nat × Nat × Nat → ℝ}
  {L : List Nat} {size : Nat → Int} {par : Nat → S}

/-- Grouping of the rows of `hmacro` by node and type. -/
theorem group_aux {κ B : Type} [DecidableEq κ] (key : HMacro S Y ℝ → κ) (kf : Nat × Nat → κ) (G : κ → List (HMacro S Y ℝ) → B)
    (hG : ∀ k l l', l.Perm l' → G k l = G k l')
    (tree : IsTree leaves (h.map (· - 1)) root) (near : NearestFirst leaves (h.map (· - 1))) (hlt : leaves < h.length)
    (hname : ∀ x y, x < h.length → y < h.length → name x = name y → x = y)
    (htype : ∀ x y, x < types → y < types → type x = type y → x = y) (ht : 0 < types) (hs : 0 < slices)
    (hL : L.Nodup) (hLn : ∀ n ∈ L, n < h.length)
    (hpar : ∀ n ∈ L, n = root ∧ par n = name root ∨ ∃ p : Nat, h[n]? = some ((p : Int) + 1) ∧ par n = name p)
    (hkey : ∀ n j t v, key ⟨name n, type j, t, some (par n), v, size n⟩ = kf (n, j))
    (hkf : ∀ n j n' j', kf (n, j) = kf (n', j') → name n = name n' ∧ type j = type j') :
    ∃ out, hmacro ((List.range h.length).map name) h (L.map (fun n : Nat => ((n : Int) + 1, size n)))
        (melt ((List.range leaves).map name) ((List.range types).map type) slices f) = .ok out ∧
      ((groupRows key out).map (fun g => G g.1 g.2)).Perm (L.flatMap (fun n => (List.range types).map (fun j =>
        G (kf (n, j)) ((List.range slices).map (fun t =>
          ⟨name n, type j, t + 1, some (par n), ∑ l ∈ leavesUnder leaves (h.map (· - 1)) n, f (l, j, t), size n⟩))))) := by
  obtain ⟨out, e, nd, mem⟩ := C51.rows leaves h root tree near hlt name hname types type htype slices ht hs f L hL hLn size
  refine ⟨out, e, ?_⟩
  have huniq : ∀ n ∈ L, ∀ s, (n = root ∧ s = name root ∨ ∃ p : Nat, h[n]? = some ((p : Int) + 1) ∧ s = name p) → s = par n := by
    intro n hn s hs
    have hr : ∀ p : Nat, h[root]? ≠ some ((p : Int) + 1) := by
      intro p hp
      have := tree.rootPar
      rw [List.getElem?_map, hp] at this
      simp at this
    rcases hs with ⟨rfl, rfl⟩ | ⟨p, h1, rfl⟩ <;> rcases hpar n hn with ⟨a, b⟩ | ⟨p', a, b⟩
    · exact b.symm
    · exact absurd a (hr p')
    · subst a; exact absurd h1 (hr p)
    · rw [h1] at a
      simp at a
      subst a
      exact b.symm
  let is : List (Nat × Nat) := L.flatMap (fun n => (List.range types).map (fun j => (n, j)))
  have his : ∀ x, x ∈ is ↔ x.1 ∈ L ∧ x.2 < types := by
    rintro ⟨n, j⟩
    simp [is, List.mem_flatMap]
  have key := groupRows_perm (rows := out) (key := key) (is := is)
    (M := fun x => (List.range slices).map (fun t => (⟨name x.1, type x.2, t + 1, some (par x.1),
      ∑ l ∈ leavesUnder leaves (h.map (· - 1)) x.1, f (l, x.2, t), size x.1⟩ : HMacro S Y ℝ)))
    (kf := kf) (nd.of_map _) (by
      intro r
      rw [mem]
      constructor
      · rintro ⟨n, j, t, s, hn, hj, ht, hs, rfl⟩
        rw [huniq n hn s hs]
        exact ⟨(n, j), (his _).mpr ⟨hn, hj⟩, List.mem_map.mpr ⟨t, List.mem_range.mpr ht, rfl⟩⟩
      · rintro ⟨⟨n, j⟩, hx, hr⟩
        obtain ⟨t, ht, rfl⟩ := List.mem_map.mp hr
        exact ⟨n, j, t, par n, ((his _).mp hx).1, ((his _).mp hx).2, List.mem_range.mp ht, hpar n ((his _).mp hx).1, rfl⟩) (by
      rintro ⟨n, j⟩ _ r hr
      obtain ⟨t, _, rfl⟩ := List.mem_map.mp hr
      exact hkey _ _ _ _) (by
      intro x _ e
      have := congrArg List.length e
      simp at this
      omega) (by
      intro x _
      apply List.Nodup.map_on _ List.nodup_range
      intro a ha b hb e
      have := congrArg HMacro.time e
      simpa using this) (by
      apply List.Nodup.map_on
      · rintro ⟨n, j⟩ hx ⟨n', j'⟩ hy e
        obtain ⟨e1, e2⟩ := hkf _ _ _ _ e
        obtain rfl := hname _ _ (hLn _ ((his _).mp hx).1) (hLn _ ((his _).mp hy).1) e1
        obtain rfl := htype _ _ ((his _).mp hx).2 ((his _).mp hy).2 e2
        rfl
      · rw [List.nodup_flatMap]
        refine ⟨fun j _ => List.nodup_range.map (fun a b h => (Prod.mk.inj h).2), ?_⟩
        refine hL.imp ?_
        intro a b hab x hx hx'
        obtain ⟨_, _, rfl⟩ := List.mem_map.mp hx
        obtain ⟨_, _, e⟩ := List.mem_map.mp hx'
        exact hab (Prod.mk.inj e).1.symm)
    G hG
  refine (key.trans (List.Perm.of_eq ?_))
  simp only [is, List.map_flatMap, List.map_map]
  rfl

/-- The treemap of states: one tile for each node of the partition and each type, below the name of the parent (the root names itself), with the
area of all the data below the node, averaged over the slices. -/
theorem treemap (tree : IsTree leaves (h.map (· - 1)) root) (near : NearestFirst leaves (h.map (· - 1))) (hlt : leaves < h.length)
    (hname : ∀ x y, x < h.length → y < h.length → name x = name y → x = y)
    (htype : ∀ x y, x < types → y < types → type x = type y → x = y) (ht : 0 < types) (hs : 0 < slices)
    (hL : L.Nodup) (hLn : ∀ n ∈ L, n < h.length)
    (hpar : ∀ n ∈ L, n = root ∧ par n = name root ∨ ∃ p : Nat, h[n]? = some ((p : Int) + 1) ∧ par n = name p) :
    let area := fun n j => (∑ l ∈ leavesUnder leaves (h.map (· - 1)) n, ∑ t ∈ Finset.range slices, f (l, j, t)) / slices
    ∃ out, hmacro ((List.range h.length).map name) h (L.map (fun n : Nat => ((n : Int) + 1, size n)))
        (melt ((List.range leaves).map name) ((List.range types).map type) slices f) = .ok out ∧
      (hplotState out).Perm (L.flatMap (fun n => (List.range types).map (fun j =>
        (⟨some (par n), name n, type j, area n j, area n j⟩ : Tile S Y ℝ)))) := by
  intro area
  obtain ⟨out, e, hp⟩ := group_aux (f := f) (size := size) (fun r : HMacro S Y ℝ => (r.space, r.type, r.parent))
    (fun x => (name x.1, type x.2, some (par x.1)))
    (fun k l => (⟨k.2.2, k.1, k.2.1, rMean (l.map (fun r => r.value)), rMean (l.map (fun r => r.value))⟩ : Tile S Y ℝ)) (by
      intro k l l' h
      rw [rMean_perm (h.map _)]) tree near hlt hname htype ht hs hL hLn hpar (fun _ _ _ _ => rfl)
      (fun _ _ _ _ e => by simp only [Prod.mk.injEq] at e; exact ⟨e.1, e.2.1⟩)
  refine ⟨out, e, hp.trans (List.Perm.of_eq ?_)⟩
  apply List.flatMap_congr
  intro n _
  apply List.map_congr_left
  intro j _
  have : rMean (((List.range slices).map (fun t => (⟨name n, type j, t + 1, some (par n),
      ∑ l ∈ leavesUnder leaves (h.map (· - 1)) n, f (l, j, t), size n⟩ : HMacro S Y ℝ))).map (fun r => r.value)) = area n j := by
    unfold rMean
    rw [List.map_map, List.length_map, List.length_range]
    simp only [Function.comp_def, area]
    rw [C53.range_sum_aux, Finset.sum_comm]
  simp only [this]

theorem par_aux (tree : IsTree leaves (h.map (· - 1)) root) (hLn : ∀ n ∈ L, n < h.length) :
    ∃ par : Nat → S, ∀ n ∈ L, n = root ∧ par n = name root ∨ ∃ p : Nat, h[n]? = some ((p : Int) + 1) ∧ par n = name p := by
  have : ∀ n, ∃ s : S, n ∈ L → (n = root ∧ s = name root ∨ ∃ p : Nat, h[n]? = some ((p : Int) + 1) ∧ s = name p) := by
    intro n
    by_cases hn : n ∈ L
    · by_cases hr : n = root
      · exact ⟨_, fun _ => .inl ⟨hr, rfl⟩⟩
      · obtain ⟨p, hp, hpar⟩ := tree.other n (by rw [List.length_map]; exact hLn n hn) hr
        refine ⟨_, fun _ => .inr ⟨p, ?_, rfl⟩⟩
        unfold ParentIs at hpar
        rw [List.getElem?_map] at hpar
        obtain ⟨q, hq, e⟩ := Option.map_eq_some_iff.mp hpar
        rw [hq]
        congr 1
        omega
    · exact ⟨name 0, fun h => absurd h hn⟩
  choose par hp using this
  exact ⟨par, hp⟩

theorem sum_type_aux (htype : ∀ x y, x < types → y < types → type x = type y → x = y) {j : Nat} (hj : j < types)
    (T : Nat → Nat → Tile S Y ℝ) (hT : ∀ n j, (T n j).type = type j) :
    (((L.flatMap (fun n => (List.range types).map (fun j => T n j))).filter (fun x => x.type = type j)).map (fun x => x.area)).sum =
      (L.map (fun n => (T n j).area)).sum := by
  rw [List.filter_flatMap, List.map_flatMap, sum_flat_aux]
  congr 1
  apply List.map_congr_left
  intro n _
  have : ((List.range types).map (fun j => T n j)).filter (fun x => x.type = type j) = [T n j] := by
    rw [List.filter_map]
    have : (List.range types).filter ((fun x : Tile S Y ℝ => decide (x.type = type j)) ∘ (fun j => T n j)) = [j] := by
      apply List.perm_singleton.mp
      rw [List.perm_ext_iff_of_nodup (List.nodup_range.filter _) (List.nodup_singleton j)]
      intro x
      rw [List.mem_filter, List.mem_singleton, List.mem_range]
      simp only [Function.comp_apply, decide_eq_true_eq, hT]
      constructor
      · rintro ⟨h1, h2⟩
        exact htype _ _ h1 hj h2
      · rintro rfl
        exact ⟨hj, rfl⟩
    rw [this]
    rfl
  rw [this]
  simp

/-- The total area of a type does not depend on the partition: it is the total over the leaves, averaged over the slices. -/
theorem treemapTotal (tree : IsTree leaves (h.map (· - 1)) root) (near : NearestFirst leaves (h.map (· - 1))) (hlt : leaves < h.length)
    (hname : ∀ x y, x < h.length → y < h.length → name x = name y → x = y)
    (htype : ∀ x y, x < types → y < types → type x = type y → x = y) (hs : 0 < slices)
    (hL : LeafCover leaves (h.map (· - 1)) L) (j : Nat) (hj : j < types) :
    ∃ out, hmacro ((List.range h.length).map name) h (L.map (fun n : Nat => ((n : Int) + 1, size n)))
        (melt ((List.range leaves).map name) ((List.range types).map type) slices f) = .ok out ∧
      (((hplotState out).filter (fun x => x.type = type j)).map (fun x => x.area)).sum =
        (∑ l ∈ Finset.range leaves, ∑ t ∈ Finset.range slices, f (l, j, t)) / slices := by
  have hLn : ∀ n ∈ L, n < h.length := fun n hn => by have := hL.1 n hn; rwa [List.length_map] at this
  obtain ⟨par, hpar⟩ := par_aux (name := name) tree hLn
  obtain ⟨out, e, hp⟩ := treemap (f := f) (size := size) tree near hlt hname htype (by omega) hs (C51.cover_nodup_aux tree hL) hLn hpar
  refine ⟨out, e, ?_⟩
  rw [((hp.filter _).map _).sum_eq, sum_type_aux htype hj _ (fun _ _ => rfl)]
  have := C51.cuts_sum_aux (leafCover_cuts tree hL) (fun l => (∑ t ∈ Finset.range slices, f (l, j, t)) / slices)
  rw [leavesUnder_root tree, ← Finset.sum_div] at this
  rw [← this]
  congr 1
  apply List.map_congr_left
  intro n _
  dsimp only
  rw [Finset.sum_div]

/-- The treemap of counters, for the sizes that the library gives (numbers of leaves): one tile for each node of the partition and each type, with
the number of leaves as area and the mean of the data over the leaves below the node and the slices as value. -/
theorem counterTreemap (tree : IsTree leaves (h.map (· - 1)) root) (near : NearestFirst leaves (h.map (· - 1))) (hlt : leaves < h.length)
    (hname : ∀ x y, x < h.length → y < h.length → name x = name y → x = y)
    (htype : ∀ x y, x < types → y < types → type x = type y → x = y) (ht : 0 < types) (hs : 0 < slices)
    (hL : L.Nodup) (hLn : ∀ n ∈ L, n < h.length)
    (hpar : ∀ n ∈ L, n = root ∧ par n = name root ∨ ∃ p : Nat, h[n]? = some ((p : Int) + 1) ∧ par n = name p) :
    let below := leavesUnder leaves (h.map (· - 1))
    ∃ out, hmacro ((List.range h.length).map name) h (L.map (fun n : Nat => ((n : Int) + 1, ((below n).card : Int))))
        (melt ((List.range leaves).map name) ((List.range types).map type) slices f) = .ok out ∧
      (hplotCounter out).Perm (L.flatMap (fun n => (List.range types).map (fun j =>
        (⟨some (par n), name n, type j, (below n).card,
          (∑ l ∈ below n, ∑ t ∈ Finset.range slices, f (l, j, t)) / ((below n).card * slices)⟩ : Tile S Y ℝ)))) := by
  intro below
  obtain ⟨out, e, hp⟩ := group_aux (f := f) (size := fun n => ((below n).card : Int))
    (fun r : HMacro S Y ℝ => (r.space, r.type, r.size, r.parent))
    (fun x => (name x.1, type x.2, ((below x.1).card : Int), some (par x.1)))
    (fun k l => (⟨k.2.2.2, k.1, k.2.1, (k.2.2.1 : ℝ), rMean (l.map (fun r => r.value)) / (k.2.2.1 : ℝ)⟩ : Tile S Y ℝ)) (by
      intro k l l' h
      rw [rMean_perm (h.map _)]) tree near hlt hname htype ht hs hL hLn hpar (fun _ _ _ _ => rfl)
      (fun _ _ _ _ e => by simp only [Prod.mk.injEq] at e; exact ⟨e.1, e.2.1⟩)
  refine ⟨out, e, hp.trans (List.Perm.of_eq ?_)⟩
  apply List.flatMap_congr
  intro n _
  apply List.map_congr_left
  intro j _
  have : rMean (((List.range slices).map (fun t => (⟨name n, type j, t + 1, some (par n),
      ∑ l ∈ leavesUnder leaves (h.map (· - 1)) n, f (l, j, t), ((below n).card : Int)⟩ : HMacro S Y ℝ))).map (fun r => r.value)) =
      (∑ l ∈ below n, ∑ t ∈ Finset.range slices, f (l, j, t)) / slices := by
    unfold rMean
    rw [List.map_map, List.length_map, List.length_range]
    simp only [Function.comp_def, below]
    rw [C53.range_sum_aux, Finset.sum_comm]
  simp only [this, Int.cast_natCast]
  rw [div_div, mul_comm (slices : ℝ)]

/-- The total area of a type is the number of leaves. -/
theorem counterTotal (tree : IsTree leaves (h.map (· - 1)) root) (near : NearestFirst leaves (h.map (· - 1))) (hlt : leaves < h.length)
    (hname : ∀ x y, x < h.length → y < h.length → name x = name y → x = y)
    (htype : ∀ x y, x < types → y < types → type x = type y → x = y) (hs : 0 < slices)
    (hL : LeafCover leaves (h.map (· - 1)) L) (j : Nat) (hj : j < types) :
    ∃ out, hmacro ((List.range h.length).map name) h (L.map (fun n : Nat =>
          ((n : Int) + 1, ((leavesUnder leaves (h.map (· - 1)) n).card : Int))))
        (melt ((List.range leaves).map name) ((List.range types).map type) slices f) = .ok out ∧
      (((hplotCounter out).filter (fun x => x.type = type j)).map (fun x => x.area)).sum = leaves := by
  have hLn : ∀ n ∈ L, n < h.length := fun n hn => by have := hL.1 n hn; rwa [List.length_map] at this
  obtain ⟨par, hpar⟩ := par_aux (name := name) tree hLn
  obtain ⟨out, e, hp⟩ := counterTreemap (f := f) tree near hlt hname htype (by omega) hs (C51.cover_nodup_aux tree hL) hLn hpar
  refine ⟨out, e, ?_⟩
  rw [((hp.filter _).map _).sum_eq, sum_type_aux htype hj _ (fun _ _ => rfl)]
  have := C51.cuts_sum_aux (leafCover_cuts tree hL) (fun _ => 1)
  rw [leavesUnder_root tree] at this
  simpa using this

end

/-! ## Concrete cases -/

/-- Two spaces, two types and three slices, cut into the first two slices and the last: left ends, widths and heights of the bars. -/
example : List.Perm ((oplotStacked (1 / 10) (omacro (K := ℚ) [(1, 2), (3, 3)] (melt ["a", "b"] ["u", "v"] 3
    fun x => (if x.2.1 = 0 then x.1 + x.2.2 else 4 - x.1 - x.2.2 : ℚ)))).map (fun b => (b.type, b.x - b.width / 2, b.width, b.value)))
    [("u", 1, 19 / 10, 1), ("v", 1, 19 / 10, 3), ("u", 3, 9 / 10, 5 / 2), ("v", 3, 9 / 10, 3 / 2)] := by decide +kernel

theorem tiles3_aux : Tiles 0 3 [(0, 1), (2, 2)] := .cons (by omega) (by omega) (.cons (by omega) (by omega) (.nil 3))

/-- The hypotheses of `area` and `stacked` hold of these data. -/
example : (((oplotStacked (1 / 10) (omacro (([(0, 1), (2, 2)] : List (Nat × Nat)).map (fun I : Nat × Nat => ((I.1 : Int) + 1, (I.2 : Int) + 1)))
    (melt ((List.range 2).map id) ((List.range 2).map id) 3
      fun x => (if x.2.1 = 0 then x.1 + x.2.2 else 4 - x.1 - x.2.2 : ℝ)))).filter (fun b => b.type = id 0)).map
        (fun b => b.value * (b.width + 1 / 10))).sum = 9 / 2 := by
  rw [area 2 2 3 (by omega) id (fun _ _ _ _ h => h) id (fun _ _ _ _ h => h) _ _ tiles3_aux (1 / 10) 0 (by omega)]
  norm_num [Finset.sum_range_succ]

example : (((oplotStacked (1 / 10) (omacro (([(0, 1), (2, 2)] : List (Nat × Nat)).map (fun I : Nat × Nat => ((I.1 : Int) + 1, (I.2 : Int) + 1)))
    (melt ((List.range 2).map id) ((List.range 2).map id) 3
      fun x => (if x.2.1 = 0 then x.1 + x.2.2 else 4 - x.1 - x.2.2 : ℝ)))).filter
        (fun b => b.x - b.width / 2 = (((0, 1) : Nat × Nat).1 : ℝ) + 1)).map (fun b => b.value)).sum = 4 :=
  stacked 2 2 3 (by omega) id (fun _ _ _ _ h => h) id (fun _ _ _ _ h => h) _ _ tiles3_aux (1 / 10) 4
    (fun i t _ _ => by norm_num [Finset.sum_range_succ]) (0, 1) (by simp)

/-- The treemaps of four leaves under two nodes and a root, two slices; the partition consists of the leaves 1, 2 and the second inner
node. -/
example : (hmacro (K := ℚ) ["a", "b", "c", "d", "X", "Y", "R"] [5, 5, 6, 6, 7, 7, 0] [(1, 1), (2, 1), (6, 2)]
    (melt ["a", "b", "c", "d"] ["u"] 2 fun x => (x.1 + x.2.2 + 1 : ℚ))).map (fun l =>
      (hplotState l).map (fun x => (x.parent, x.space, x.area))) =
    .ok [(some "X", "a", 3 / 2), (some "X", "b", 5 / 2), (some "R", "Y", 8)] := by decide +kernel

example : (hmacro (K := ℚ) ["a", "b", "c", "d", "X", "Y", "R"] [5, 5, 6, 6, 7, 7, 0] [(1, 1), (2, 1), (6, 2)]
    (melt ["a", "b", "c", "d"] ["u"] 2 fun x => (x.1 + x.2.2 + 1 : ℚ))).map (fun l =>
      (hplotCounter l).map (fun x => (x.parent, x.space, x.area, x.value))) =
    .ok [(some "X", "a", 1, 3 / 2), (some "X", "b", 1, 5 / 2), (some "R", "Y", 2, 4)] := by decide +kernel

/-- A trace that meets the hypotheses of `states`. -/
example (L : List (Nat × Nat)) (n : Nat) (hL : Tiles 0 n L) (I : Nat × Nat) (hI : I ∈ L) : ∃ m,
    pjdump2micro [⟨0, 0, 1, 1, 0⟩, ⟨0, 1, 2, 1, 1⟩] ([] : List (Container Nat)) n false = .ok (m : Micro Nat Nat ℝ) ∧ m.time.length = n ∧
    (((oplotStacked (1 / 10) (omacro (L.map (fun I : Nat × Nat => ((I.1 : Int) + 1, (I.2 : Int) + 1)))
      (meltArray m.space m.type m.data))).filter (fun b => b.x - b.width / 2 = (I.1 : ℝ) + 1)).map (fun b => b.value)).sum = 1 / n := by
  have ht : RightTrace ([⟨0, 0, 1, 1, 0⟩, ⟨0, 1, 2, 1, 1⟩] : List (TState Nat Nat ℝ)) 0 2 := by
    constructor <;> norm_num
  have hn : 0 < n := by have := hL.bounds I hI; omega
  obtain ⟨last, space, type, f, h1, h2, h3, h4, h5, h6, h7, h8, h9⟩ := C53.cube _ 0 2 ht ([] : List (Container Nat)) n
  have hc : Consecutive (0 : ℝ) (0 + 2) ([⟨0, 0, 1, 1, 0⟩, ⟨0, 1, 2, 1, 1⟩] : List (TState Nat Nat ℝ)) := by
    simp [Consecutive]
  have hlast : last = n := by
    obtain ⟨r, hr, h⟩ := hc.touches hn ht.pos (by norm_num)
    have := h3 r hr _ h
    omega
  subst hlast
  refine ⟨_, h1, by simp, ?_⟩
  refine states _ 0 2 ht [] last _ h1 ?_ L (by simpa using hL) _ I hI
  intro s hs
  obtain ⟨r, hr, e, _⟩ := (h6 s).mp hs
  obtain rfl : s = 0 := by
    simp at hr
    rcases hr with rfl | rfl <;> exact e.symm
  exact ⟨_, hc, List.Perm.of_eq (by simp)⟩

/-- The hypotheses of `treemapTotal` and `counterTotal` hold of this tree. -/
example : ∃ out, hmacro ((List.range 7).map (fun x => x)) [5, 5, 6, 6, 7, 7, 0]
      (([0, 1, 5] : List Nat).map (fun n : Nat => ((n : Int) + 1, (n : Int))))
      (melt ((List.range 4).map (fun x => x)) ((List.range 1).map (fun x => x)) 2 fun x => (x.1 + x.2.2 + 1 : ℝ)) = .ok out ∧
    (((hplotState out).filter (fun x => x.type = 0)).map (fun x => x.area)).sum = 12 := by
  have hc : LeafCover 4 (([5, 5, 6, 6, 7, 7, 0] : List Int).map (· - 1)) [0, 1, 5] :=
    .ofCheck (fun h => if h < 4 then 2 else if h = 6 then 0 else 1) 3 (by decide) (by decide) (by decide) (by decide) (by decide)
  obtain ⟨out, e, h⟩ := treemapTotal (name := fun x => x) (type := fun x => x) (types := 1) (slices := 2)
    (f := fun x => (x.1 + x.2.2 + 1 : ℝ)) (size := fun n => (n : Int)) C51.seven_aux C51.sevenNear_aux (by decide)
    (fun _ _ _ _ h => h) (fun _ _ _ _ h => h) (by omega) hc 0 (by omega)
  refine ⟨out, e, h.trans ?_⟩
  norm_num [Finset.sum_range_succ]

/-! ## The hypotheses are met by concrete inputs -/

example := bars 2 2 3 (by decide) (id : Nat → Nat) (fun _ _ _ _ h => h) (id : Nat → Nat) (fun _ _ _ _ h => h) (fun x => (x.1 : ℝ) + x.2.2) [(0, 1), (2, 2)]
  (.cons (by decide) (by decide) (.cons (by decide) (by decide) (.nil 3)))

end Lp.C56

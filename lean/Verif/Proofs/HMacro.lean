import Verif.Proofs.GetPath
import Verif.Proofs.Group
import Verif.Proofs.TreeSum

/-!
# `hmacro` sums the data of the leaves below each node
-/

namespace Lp
open Spec
variable {S Y : Type} [DecidableEq S] [DecidableEq Y]

/-! ## The molten array -/

theorem melt_range (name : Nat → S) (type : Nat → Y) (d0 d1 d2 : Nat) (f : Nat × Nat × Nat → ℝ) :
    melt ((List.range d0).map name) ((List.range d1).map type) d2 f =
      (List.range d2).flatMap fun k => (List.range d1).flatMap fun j => (List.range d0).map fun i =>
        ⟨name i, type j, k + 1, f (i, j, k)⟩ := by
  have hz : ∀ {α : Type} (g : Nat → α) (n : Nat), ((List.range n).map g).zipIdx = (List.range n).map (fun i => (g i, i)) := by
    intro α g n
    apply List.ext_getElem?
    intro i
    rw [List.getElem?_zipIdx, List.getElem?_map, List.getElem?_map]
    by_cases hi : i < n
    · simp [List.getElem?_range, hi]
    · simp [List.getElem?_eq_none, not_lt.mp hi]
  unfold melt
  rw [hz, hz]
  simp only [List.flatMap_map, List.map_map]
  rfl

theorem mem_melt {name : Nat → S} {type : Nat → Y} {d0 d1 d2 : Nat} {f : Nat × Nat × Nat → ℝ} {r : MRow S Y ℝ} :
    r ∈ melt ((List.range d0).map name) ((List.range d1).map type) d2 f ↔
      ∃ i j k, i < d0 ∧ j < d1 ∧ k < d2 ∧ r = ⟨name i, type j, k + 1, f (i, j, k)⟩ := by
  rw [melt_range]
  simp only [List.mem_flatMap, List.mem_map, List.mem_range]
  constructor
  · rintro ⟨k, hk, j, hj, i, hi, rfl⟩
    exact ⟨i, j, k, hi, hj, hk, rfl⟩
  · rintro ⟨i, j, k, hi, hj, hk, rfl⟩
    exact ⟨k, hk, j, hj, i, hi, rfl⟩

/-- Sum of a function over the molten array. -/
theorem melt_sum (name : Nat → S) (type : Nat → Y) (d0 d1 d2 : Nat) (f : Nat × Nat × Nat → ℝ) (g : MRow S Y ℝ → ℝ) :
    ((melt ((List.range d0).map name) ((List.range d1).map type) d2 f).map g).sum =
      ∑ k ∈ Finset.range d2, ∑ j ∈ Finset.range d1, ∑ i ∈ Finset.range d0, g ⟨name i, type j, k + 1, f (i, j, k)⟩ := by
  have hs : ∀ {α : Type} (n : Nat) (h : Nat → List α) (g : α → ℝ),
      (((List.range n).flatMap h).map g).sum = ∑ k ∈ Finset.range n, ((h k).map g).sum := by
    intro α n h g
    induction n with
    | zero => simp
    | succ n ih => rw [List.range_succ, List.flatMap_append, List.map_append, List.sum_append, ih, Finset.sum_range_succ]; simp
  rw [melt_range, hs]
  apply Finset.sum_congr rfl
  intro k _
  rw [hs]
  apply Finset.sum_congr rfl
  intro j _
  rw [List.map_map]
  induction d0 with
  | zero => simp
  | succ n ih => rw [List.range_succ, List.map_append, List.sum_append, ih, Finset.sum_range_succ]; simp

/-! ## The loop -/

/-- Sum of the values of the rows of a space, type and time. -/
def cellSum (d : List (HData S Y ℝ)) (s : S) (y : Y) (t : Nat) : ℝ :=
  (d.map (fun r => if r.row.space = s ∧ r.row.type = y ∧ r.row.time = t then r.row.value else 0)).sum

theorem cellSum_append (d e : List (HData S Y ℝ)) (s : S) (y : Y) (t : Nat) : cellSum (d ++ e) s y t = cellSum d s y t + cellSum e s y t := by
  unfold cellSum; rw [List.map_append, List.sum_append]

theorem cellSum_upd (d : List (HData S Y ℝ)) (c : HData S Y ℝ → Prop) [DecidablePred c] (o : Option S) (s : S) (y : Y) (t : Nat) :
    cellSum (d.map (fun r => if c r then ⟨r.row, o⟩ else r)) s y t = cellSum d s y t := by
  unfold cellSum
  rw [List.map_map]
  congr 1
  apply List.map_congr_left
  intro r _
  simp only [Function.comp]
  split <;> rfl

theorem cellSum_rename (d : List (HData S Y ℝ)) (a b : S) (s : S) (y : Y) (t : Nat) :
    cellSum ((d.filter (fun r => r.row.space = a)).map (fun r => (⟨{ r.row with space := b }, r.parent⟩ : HData S Y ℝ))) s y t =
      if s = b then cellSum d a y t else 0 := by
  induction d with
  | nil => simp [cellSum]
  | cons r d ih =>
    unfold cellSum at ih ⊢
    rw [List.filter_cons]
    by_cases e : r.row.space = a
    · simp only [e, decide_true, if_true, List.map_cons, List.sum_cons, ih, true_and]
      by_cases hs : s = b
      · subst hs; simp
      · rw [if_neg hs, if_neg hs, if_neg (fun h => hs h.1.symm), add_zero]
    · simp only [e, decide_false, List.map_cons, List.sum_cons, false_and, if_false, zero_add]
      simpa using ih

theorem cellSum_filter (d : List (HData S Y ℝ)) (c : HData S Y ℝ → Bool) (s : S) (y : Y) (t : Nat)
    (hc : ∀ r ∈ d, c r = true ↔ (r.row.space = s ∧ r.row.type = y ∧ r.row.time = t)) :
    ((d.filter c).map (fun r => r.row.value)).sum = cellSum d s y t := by
  induction d with
  | nil => simp [cellSum]
  | cons r d ih =>
    have ih := ih (fun r hr => hc r (List.mem_cons_of_mem _ hr))
    have h0 := hc r List.mem_cons_self
    unfold cellSum at ih ⊢
    rw [List.filter_cons, List.map_cons, List.sum_cons]
    by_cases e : c r = true
    · rw [if_pos e, if_pos (h0.mp e), List.map_cons, List.sum_cons, ih]
    · rw [if_neg e, if_neg (fun h => e (h0.mpr h)), zero_add, ih]

section
variable {leaves : Nat} {parents : List Int} {md : HMeta}
variable (leaves parents) (name : Nat → S) (type : Nat → Y) (m slices : Nat) (f : Nat × Nat × Nat → ℝ)

/-- The name of the parent of a node. -/
def parentName (x : Nat) : S :=
  match parents[x]? with
  | some p => name p.toNat
  | none => name x

theorem parentName_eq {x p : Nat} (h : ParentIs parents x p) : parentName parents name x = name p := by
  unfold parentName; rw [h]; rfl

/-- The column `Parent` of the rows of a node. -/
def parCol (done : List Nat) (x : Nat) : Option S :=
  if x ∈ done then some (parentName parents name x) else if x < leaves then none else some (name x)

/-- What holds after the nodes `done`. -/
structure MacroInv (done : List Nat) (d : List (HData S Y ℝ)) : Prop where
  rows : ∀ r ∈ d, ∃ x j t, x < parents.length ∧ j < m ∧ t < slices ∧ r.row.space = name x ∧ r.row.type = type j ∧
    r.row.time = t + 1 ∧ r.parent = parCol leaves parents name done x
  sums : ∀ x j t, x < parents.length → j < m → t < slices → cellSum d (name x) (type j) (t + 1) =
    if x < leaves then f (x, j, t) else ((kidsIn parents done x).map (leafSum leaves parents fun l => f (l, j, t))).sum
  some : ∀ x j t, x < parents.length → j < m → t < slices → (x < leaves ∨ kidsIn parents done x ≠ []) →
    ∃ r ∈ d, r.row.space = name x ∧ r.row.type = type j ∧ r.row.time = t + 1

variable {leaves parents name type m slices f}

theorem MacroInv.init (hleaves : leaves ≤ parents.length)
    (hname : ∀ x y, x < parents.length → y < parents.length → name x = name y → x = y)
    (htype : ∀ x y, x < m → y < m → type x = type y → x = y) :
    MacroInv leaves parents name type m slices f []
      ((melt ((List.range leaves).map name) ((List.range m).map type) slices f).map (fun r => ⟨r, none⟩)) where
  rows := by
    intro r hr
    obtain ⟨r0, hr0, rfl⟩ := List.mem_map.mp hr
    obtain ⟨i, j, k, hi, hj, hk, rfl⟩ := mem_melt.mp hr0
    exact ⟨i, j, k, by omega, hj, hk, rfl, rfl, rfl, by simp [parCol, hi]⟩
  sums := by
    intro x j t hx hj ht
    unfold cellSum
    rw [List.map_map, melt_sum]
    simp only [Function.comp, kidsIn, List.filter_nil, List.map_nil, List.sum_nil]
    rw [Finset.sum_eq_single t ?_ (fun h => absurd (Finset.mem_range.mpr ht) h), Finset.sum_eq_single j ?_
      (fun h => absurd (Finset.mem_range.mpr hj) h)]
    · by_cases hl : x < leaves
      · rw [if_pos hl, Finset.sum_eq_single x ?_ (fun h => absurd (Finset.mem_range.mpr hl) h)]
        · simp
        · intro i hi hne
          rw [if_neg]
          rintro ⟨h, _⟩
          exact hne (hname i x (lt_of_lt_of_le (Finset.mem_range.mp hi) hleaves) hx h)
      · rw [if_neg hl]
        apply Finset.sum_eq_zero
        intro i hi
        rw [if_neg]
        rintro ⟨h, _⟩
        have := hname i x (lt_of_lt_of_le (Finset.mem_range.mp hi) hleaves) hx h
        have := Finset.mem_range.mp hi
        omega
    · intro j' hj' hne
      apply Finset.sum_eq_zero
      intro i _
      rw [if_neg]
      rintro ⟨_, h, _⟩
      exact hne (htype j' j (Finset.mem_range.mp hj') hj h)
    · intro t' _ hne
      apply Finset.sum_eq_zero
      intro j _
      apply Finset.sum_eq_zero
      intro i _
      rw [if_neg]
      rintro ⟨_, _, h⟩
      omega
  some := by
    intro x j t hx hj ht h
    rcases h with h | h
    · exact ⟨_, List.mem_map_of_mem (mem_melt.mpr ⟨x, j, t, h, hj, ht, rfl⟩), rfl, rfl, rfl⟩
    · exact absurd rfl h

theorem macro_step (r : RightMeta leaves parents md)
    (hname : ∀ x y, x < parents.length → y < parents.length → name x = name y → x = y)
    {k h : Nat} (hk : md.path[k]? = some h) (hkn : k < parents.length - 1) {d : List (HData S Y ℝ)}
    (inv : MacroInv leaves parents name type m slices f (md.path.take k) d) :
    ∃ d', hmacroStep ((List.range parents.length).map name) (parents.map (· + 1)) ((h : Int) + 1) d = .ok d' ∧
      MacroInv leaves parents name type m slices f (md.path.take (k + 1)) d' := by
  have hh : h < parents.length := (r.pathMem h).mp (List.mem_of_getElem? hk)
  have hroot : h ≠ md.root := by
    rintro rfl
    have := r.inj hk r.last
    omega
  obtain ⟨p, hp, hpar⟩ := r.tree.other h hh hroot
  have hpi := parent_inner r hpar
  have gname : ∀ x, x < parents.length → ((List.range parents.length).map name)[x]? = some (name x) := by
    intro x hx; simp [hx]
  have hnot := r.notMem_take hk
  have hpn : p ∉ md.path.take k := by
    intro hm
    obtain ⟨i, hi⟩ := List.getElem?_of_mem hm
    have hik : i < k := by
      have := (List.getElem?_eq_some_iff.mp hi).1
      rw [List.length_take] at this; omega
    rw [List.getElem?_take_of_lt hik] at hi
    have := r.pathOrder k i h p hk hi hpar
    omega
  have hne : p ≠ h := by
    rintro rfl
    have := r.pathOrder k k p p hk hk hpar
    omega
  have hpar1 : parCol leaves parents name (md.path.take k ++ [h]) h = some (name p) := by
    unfold parCol; rw [if_pos (by simp), parentName_eq _ _ hpar]
  have hparp : parCol leaves parents name (md.path.take k ++ [h]) p = some (name p) := by
    unfold parCol; rw [if_neg (by simp [hpn, hne]), if_neg hpi]
  have hparo : ∀ x, x ≠ h → parCol leaves parents name (md.path.take k ++ [h]) x = parCol leaves parents name (md.path.take k) x := by
    intro x hx; unfold parCol; simp [hx]
  have hready : h < leaves ∨ kidsIn parents (md.path.take k) h ≠ [] := by
    by_cases hl : h < leaves
    · exact .inl hl
    · right
      rw [r.kidsTake hk]
      have := (r.tree.leaf h hh).not.mp hl
      push Not at this
      obtain ⟨c, hc⟩ := this
      exact List.ne_nil_of_mem (mem_kidsIn.mpr ⟨(r.pathMem c).mpr hc.lt, hc⟩)
  have hsum : ∀ j t, j < m → t < slices → cellSum d (name h) (type j) (t + 1) = leafSum leaves parents (fun l => f (l, j, t)) h := by
    intro j t hj ht
    rw [inv.sums h j t hh hj ht]
    by_cases hl : h < leaves
    · rw [if_pos hl, leafSum_leaf r _ hl]
    · rw [if_neg hl, ← acc_ready r _ hk hl]
      unfold acc
      rw [if_neg hl]
  let upd : HData S Y ℝ → HData S Y ℝ := fun r => if r.row.space = name h then ⟨r.row, some (name p)⟩ else r
  let ren : HData S Y ℝ → HData S Y ℝ := fun r => ⟨{ r.row with space := name p }, r.parent⟩
  have urow : ∀ r, (upd r).row = r.row := by intro r; simp only [upd]; split <;> rfl
  have upar : ∀ r, r.row.space = name h → (upd r).parent = some (name p) := by
    intro r hr; simp only [upd]; rw [if_pos hr]
  have uoth : ∀ r, r.row.space ≠ name h → upd r = r := by intro r hr; simp only [upd]; rw [if_neg hr]
  refine ⟨d.map upd ++ ((d.map upd).filter (fun r => r.row.space = name h)).map ren, by
    unfold hmacroStep
    rw [rGet_succ (gname h hh), okBind, rGet_succ (x := (p : Int) + 1) (by rw [List.getElem?_map, hpar]; rfl), okBind,
      rGet_succ (gname p hp), okBind]
    rfl, ?_⟩
  rw [RightMeta.take_succ hk]
  refine ⟨?_, ?_, ?_⟩
  · intro r' hr'
    rcases List.mem_append.mp hr' with hr' | hr'
    · obtain ⟨r0, hr0, rfl⟩ := List.mem_map.mp hr'
      obtain ⟨x, j, t, hx, hj, ht, e1, e2, e3, e4⟩ := inv.rows r0 hr0
      refine ⟨x, j, t, hx, hj, ht, by rw [urow, e1], by rw [urow, e2], by rw [urow, e3], ?_⟩
      by_cases e : r0.row.space = name h
      · obtain rfl : x = h := hname x h hx hh (by rw [← e1, e])
        rw [upar _ e, hpar1]
      · rw [uoth _ e, e4, hparo]
        rintro rfl
        exact e e1
    · obtain ⟨r1, hr1, rfl⟩ := List.mem_map.mp hr'
      obtain ⟨hr1, hs⟩ := List.mem_filter.mp hr1
      obtain ⟨r0, hr0, rfl⟩ := List.mem_map.mp hr1
      obtain ⟨x, j, t, hx, hj, ht, e1, e2, e3, e4⟩ := inv.rows r0 hr0
      rw [urow, decide_eq_true_eq] at hs
      refine ⟨p, j, t, hp, hj, ht, rfl, ?_, ?_, ?_⟩
      · show (upd r0).row.type = _
        rw [urow, e2]
      · show (upd r0).row.time = _
        rw [urow, e3]
      · show (upd r0).parent = _
        rw [upar _ hs, hparp]
  · intro x j t hx hj ht
    rw [cellSum_append, cellSum_rename, cellSum_upd, cellSum_upd, hsum j t hj ht, inv.sums x j t hx hj ht, kidsIn_append_one hpar]
    by_cases e : x = p
    · subst e
      rw [if_pos rfl, if_neg hpi, if_neg hpi, if_pos rfl]
      simp
    · rw [if_neg (fun h' => e (hname x p hx hp h')), if_neg e, List.append_nil, add_zero]
  · intro x j t hx hj ht hor
    by_cases e : x = p
    · subst e
      obtain ⟨r0, hr0, e1, e2, e3⟩ := inv.some h j t hh hj ht hready
      refine ⟨ren (upd r0), List.mem_append_right _ (List.mem_map_of_mem (List.mem_filter.mpr
        ⟨List.mem_map_of_mem hr0, by rw [urow]; simpa using e1⟩)), rfl, ?_, ?_⟩
      · show (upd r0).row.type = _
        rw [urow, e2]
      · show (upd r0).row.time = _
        rw [urow, e3]
    · rw [kidsIn_append_one hpar, if_neg e, List.append_nil] at hor
      obtain ⟨r0, hr0, e1, e2, e3⟩ := inv.some x j t hx hj ht hor
      exact ⟨upd r0, List.mem_append_left _ (List.mem_map_of_mem hr0), by rw [urow, e1], by rw [urow, e2], by rw [urow, e3]⟩

/-- The column `Parent` of the result: the name of the parent; the root is its own parent. -/
def macroParent (parents : List Int) (name : Nat → S) (root x : Nat) : S :=
  if x = root then name x else parentName parents name x

theorem filter_single {A : Type} {L : List Nat} (hn : L.Nodup) (e : Nat → A) (c : A → Bool) {h : Nat} (hh : h ∈ L)
    (hc : ∀ x ∈ L, c (e x) = true ↔ x = h) : (L.map e).filter c = [e h] := by
  rw [List.filter_map]
  have : L.filter (c ∘ e) = L.filter (· == h) := by
    apply List.filter_congr
    intro x hx
    have := hc x hx
    simp only [Function.comp]
    rw [Bool.eq_iff_iff, this]
    simp
  rw [this, List.filter_beq, List.count_eq_one_of_mem hn hh]
  rfl

theorem leavesize_eq (hname : ∀ x y, x < leaves → y < leaves → name x = name y → x = y) (hm : 0 < m) (hs : 0 < slices) :
    ((((melt ((List.range leaves).map name) ((List.range m).map type) slices f).map (fun r => r.space)).dedup).length) = leaves := by
  have : (((melt ((List.range leaves).map name) ((List.range m).map type) slices f).map (fun r => r.space)).dedup).Perm
      ((List.range leaves).map name) := by
    rw [List.perm_ext_iff_of_nodup (List.nodup_dedup _)]
    · intro s
      rw [List.mem_dedup, List.mem_map, List.mem_map]
      constructor
      · rintro ⟨r, hr, rfl⟩
        obtain ⟨i, j, k, hi, hj, hk, rfl⟩ := mem_melt.mp hr
        exact ⟨i, List.mem_range.mpr hi, rfl⟩
      · rintro ⟨i, hi, rfl⟩
        exact ⟨_, mem_melt.mpr ⟨i, 0, 0, List.mem_range.mp hi, hm, hs, rfl⟩, rfl⟩
    · apply List.Nodup.map_on _ List.nodup_range
      intro x hx y hy
      exact hname x y (List.mem_range.mp hx) (List.mem_range.mp hy)
  rw [this.length_eq, List.length_map, List.length_range]

theorem hmacro_spec (r : RightMeta leaves parents md) (hmeta : mkMeta leaves parents = .ok md) (hlt : leaves < parents.length)
    (hname : ∀ x y, x < parents.length → y < parents.length → name x = name y → x = y)
    (htype : ∀ x y, x < m → y < m → type x = type y → x = y) (hm : 0 < m) (hs : 0 < slices)
    (L : List Nat) (hL : L.Nodup) (hLn : ∀ h ∈ L, h < parents.length) (size : Nat → Int) :
    ∃ out, hmacro ((List.range parents.length).map name) (parents.map (· + 1)) (L.map (fun h : Nat => ((h : Int) + 1, size h)))
        (melt ((List.range leaves).map name) ((List.range m).map type) slices f) = .ok out ∧
      (out.map (fun r => (r.space, r.type, r.time))).Nodup ∧
      ∀ r, r ∈ out ↔ ∃ h j t, h ∈ L ∧ j < m ∧ t < slices ∧ r = ⟨name h, type j, t + 1, some (macroParent parents name md.root h),
        ∑ l ∈ leavesUnder leaves parents h, f (l, j, t), size h⟩ := by
  have gname : ∀ x, x < parents.length → ((List.range parents.length).map name)[x]? = some (name x) := by
    intro x hx; simp [hx]
  have hspaces : forEach (fun (n : Int × Int) (acc : List (S × Int)) => do
      let name ← rGet ((List.range parents.length).map name) n.1
      return acc ++ [(name, n.2)]) (L.map (fun h : Nat => ((h : Int) + 1, size h))) [] =
      .ok (L.map (fun h => (name h, size h))) := by
    obtain ⟨s, h1, h2⟩ := forEach_inv (f := fun (n : Int × Int) (acc : List (S × Int)) => (do
      let name ← rGet ((List.range parents.length).map name) n.1
      return acc ++ [(name, n.2)] : Res _))
      (fun pre acc => ∃ L', pre = L'.map (fun h : Nat => ((h : Int) + 1, size h)) ∧ acc = L'.map (fun h => (name h, size h)))
      (L.map (fun h : Nat => ((h : Int) + 1, size h))) [] ⟨[], rfl, rfl⟩ (by
        rintro pre x post s e ⟨L', rfl, rfl⟩
        obtain ⟨h, hh, rfl⟩ : ∃ h ∈ L, ((h : Int) + 1, size h) = x := by
          have : x ∈ L.map (fun h : Nat => ((h : Int) + 1, size h)) := by rw [e]; simp
          exact List.mem_map.mp this
        refine ⟨_, by rw [rGet_succ (gname h (hLn h hh))]; rfl, L' ++ [h], by simp, by simp⟩)
    obtain ⟨L', e1, rfl⟩ := h2
    have : L = L' := by
      refine (List.map_inj_right ?_).mp e1
      intro a b hab
      have := (Prod.mk.inj hab).1
      omega
    rw [h1, this]
  have hpath := getpath_eq r.tree.leavesLe hmeta r.pathLen
  obtain ⟨d, hd, inv⟩ := forUp_inv (σ := List (HData S Y ℝ)) (lo := 1) (hi := parents.length)
    (f := fun h d => do
      let x ← rGet (md.path.map (fun x : Nat => (x : Int) + 1)) h
      hmacroStep ((List.range parents.length).map name) (parents.map (· + 1)) x d)
    (fun k d => MacroInv leaves parents name type m slices f (md.path.take (k - 1)) d) (by omega)
    (MacroInv.init r.tree.leavesLe hname htype) (by
      intro k d h1 h2 inv
      obtain ⟨x, hx, hxn⟩ := r.at_ (k := k - 1) (by omega)
      obtain ⟨d', e, inv'⟩ := macro_step r hname hx (by omega) inv
      have : k - 1 + 1 = k + 1 - 1 := by omega
      rw [this] at inv'
      refine ⟨d', ?_, inv'⟩
      have hk : ((k : Nat) : Int) = ((k - 1 : Nat) : Int) + 1 := by omega
      simp only [hk]
      rw [rGet_succ (x := (x : Int) + 1) (by rw [List.getElem?_map, hx]; rfl), okBind, e])
  have hpc : ∀ x, x < parents.length → parCol leaves parents name (md.path.take (parents.length - 1)) x =
      some (macroParent parents name md.root x) := by
    intro x hx
    unfold parCol macroParent
    by_cases e : x = md.root
    · subst e
      rw [if_neg (r.notMem_take r.last), if_neg (r.rootInner hlt), if_pos rfl]
    · rw [if_neg e, if_pos]
      obtain ⟨k, hk, hkx⟩ := r.pos hx
      have : k ≠ parents.length - 1 := by
        rintro rfl
        rw [r.last] at hkx
        exact e (Option.some.inj hkx).symm
      exact List.mem_of_getElem? (i := k) (by rw [List.getElem?_take_of_lt (by omega)]; exact hkx)
  have hkids : ∀ x, x < parents.length → x < leaves ∨ kidsIn parents (md.path.take (parents.length - 1)) x ≠ [] := by
    intro x hx
    by_cases hl : x < leaves
    · exact .inl hl
    · right
      have := (r.tree.leaf x hx).not.mp hl
      push Not at this
      obtain ⟨c, hc⟩ := this
      apply List.ne_nil_of_mem (a := c)
      rw [mem_kidsIn]
      refine ⟨?_, hc⟩
      obtain ⟨k, hk, hkx⟩ := r.pos hc.lt
      have : k ≠ parents.length - 1 := by
        rintro rfl
        rw [r.last] at hkx
        have := (Option.some.inj hkx)
        subst this
        exact r.tree.root_noParent hc
      exact List.mem_of_getElem? (i := k) (by rw [List.getElem?_take_of_lt (by omega)]; exact hkx)
  have hsum : ∀ x j t, x < parents.length → j < m → t < slices → cellSum d (name x) (type j) (t + 1) =
      ∑ l ∈ leavesUnder leaves parents x, f (l, j, t) := by
    intro x j t hx hj ht
    rw [inv.sums x j t hx hj ht]
    obtain ⟨k, hk, hkx⟩ := r.pos hx
    by_cases hl : x < leaves
    · rw [if_pos hl, leavesUnder_leaf r.tree hl, Finset.sum_singleton]
    · rw [if_neg hl]
      have h1 := acc_ready r (fun l => f (l, j, t)) hkx hl
      unfold acc at h1
      rw [if_neg hl] at h1
      have h2 : kidsIn parents (md.path.take (parents.length - 1)) x = kidsIn parents (md.path.take k) x := by
        rw [r.kidsTake hkx]
        conv_rhs => rw [show md.path = md.path.take (parents.length - 1 + 1) by
          rw [List.take_of_length_le]; rw [r.pathLen]; omega, RightMeta.take_succ r.last]
        unfold kidsIn
        rw [List.filter_append]
        have : parents[md.root]? ≠ some (x : Int) := r.tree.root_noParent
        simp [this]
      rw [h2, h1]
      rfl
  let key : HData S Y ℝ → S × Y × Nat × Option S := fun r => (r.row.space, r.row.type, r.row.time, r.parent)
  let sel := d.filter (fun r => r.row.space ∈ (L.map (fun h => (name h, size h))).map Prod.fst)
  have hsel : ∀ r0, r0 ∈ sel ↔ r0 ∈ d ∧ ∃ h ∈ L, r0.row.space = name h := by
    intro r0
    simp only [sel, List.mem_filter, decide_eq_true_eq, List.map_map, List.mem_map, Function.comp]
    constructor
    · rintro ⟨h1, h, hh, e⟩; exact ⟨h1, h, hh, e.symm⟩
    · rintro ⟨h1, h, hh, e⟩; exact ⟨h1, h, hh, e.symm⟩
  have hgrp : ∀ g ∈ groupRows key sel, ∃ h j t, h ∈ L ∧ j < m ∧ t < slices ∧
      g.1 = (name h, type j, t + 1, some (macroParent parents name md.root h)) ∧
      (g.2.map (fun r => r.row.value)).sum = ∑ l ∈ leavesUnder leaves parents h, f (l, j, t) ∧
      (L.map (fun h => (name h, size h))).filter (fun s => s.1 = g.1.1) = [(name h, size h)] := by
    intro g hg
    obtain ⟨⟨r0, hr0, hkey⟩, hg2⟩ := mem_groupRows.mp hg
    obtain ⟨hd0, h, hh, hsp⟩ := (hsel r0).mp hr0
    obtain ⟨x, j, t, hx, hj, ht, e1, e2, e3, e4⟩ := inv.rows r0 hd0
    obtain rfl : x = h := hname x h hx (hLn h hh) (by rw [← e1, hsp])
    have hg1 : g.1 = (name x, type j, t + 1, some (macroParent parents name md.root x)) := by
      rw [← hkey]; simp only [key]; rw [e1, e2, e3, e4, hpc x hx]
    refine ⟨x, j, t, hh, hj, ht, hg1, ?_, ?_⟩
    · rw [hg2, hg1, ← hsum x j t hx hj ht]
      simp only [sel]
      rw [List.filter_filter]
      apply cellSum_filter
      intro r1 hr1
      rw [Bool.and_eq_true, decide_eq_true_eq, decide_eq_true_eq]
      simp only [key, Prod.mk.injEq]
      constructor
      · rintro ⟨⟨a, b, c, _⟩, _⟩; exact ⟨a, b, c⟩
      · rintro ⟨a, b, c⟩
        refine ⟨⟨a, b, c, ?_⟩, ?_⟩
        · obtain ⟨x', j', t', hx', _, _, e1', _, _, e4'⟩ := inv.rows r1 hr1
          obtain rfl : x' = x := hname x' x hx' hx (by rw [← e1', a])
          rw [e4', hpc x' hx']
        · rw [a, List.map_map]; exact List.mem_map.mpr ⟨x, hh, rfl⟩
    · apply filter_single hL (fun h => (name h, size h)) _ hh
      intro y hy
      rw [hg1]
      simp only [decide_eq_true_eq]
      exact ⟨fun e => hname y x (hLn y hy) hx e, fun e => by rw [e]⟩
  refine ⟨_, by
    unfold hmacro
    rw [leavesize_eq (fun x y hx hy => hname x y (lt_trans hx hlt) (lt_trans hy hlt)) hm hs]
    simp only []
    rw [hspaces, okBind, hpath, okBind, List.length_map, r.pathLen]
    erw [hd]
    rw [okBind]
    rfl, ?_, ?_⟩
  · rw [List.map_flatMap]
    have : (groupRows key sel).flatMap (fun g => (((L.map (fun h => (name h, size h))).filter (fun s => s.1 = g.1.1)).map (fun s =>
        (⟨g.1.1, g.1.2.1, g.1.2.2.1, g.1.2.2.2, (g.2.map (fun r => r.row.value)).sum, s.2⟩ : HMacro S Y ℝ))).map
          (fun r => (r.space, r.type, r.time))) = (groupRows key sel).map (fun g => (g.1.1, g.1.2.1, g.1.2.2.1)) := by
      rw [List.map_eq_flatMap (l := groupRows key sel)]
      apply List.flatMap_congr
      intro g hg
      obtain ⟨h, j, t, _, _, _, _, _, e⟩ := hgrp g hg
      rw [e]
      rfl
    rw [this]
    apply List.Nodup.map_on _ (List.Nodup.of_map _ (groupRows_nodup key sel))
    intro g hg g' hg' e
    obtain ⟨h, j, t, hh, _, _, e1, _, _⟩ := hgrp g hg
    obtain ⟨h', j', t', hh', _, _, e1', _, _⟩ := hgrp g' hg'
    have e2 : g.1 = g'.1 := by
      rw [e1, e1'] at e ⊢
      simp only [Prod.mk.injEq] at e ⊢
      obtain rfl := hname h h' (hLn h hh) (hLn h' hh') e.1
      exact ⟨e.1, e.2.1, e.2.2, rfl⟩
    have a := (mem_groupRows.mp hg).2
    have b := (mem_groupRows.mp hg').2
    exact Prod.ext e2 (by rw [a, b, e2])
  · intro r0
    rw [List.mem_flatMap]
    constructor
    · rintro ⟨g, hg, hm⟩
      obtain ⟨h, j, t, hh, hj, ht, e1, e2, e3⟩ := hgrp g hg
      erw [e3] at hm
      rw [List.map_cons, List.map_nil, List.mem_singleton] at hm
      refine ⟨h, j, t, hh, hj, ht, ?_⟩
      rw [hm, e2, e1]
    · rintro ⟨h, j, t, hh, hj, ht, rfl⟩
      obtain ⟨r1, hr1, a, b, c⟩ := inv.some h j t (hLn h hh) hj ht (hkids h (hLn h hh))
      refine ⟨(key r1, sel.filter (fun r => key r = key r1)), mem_groupRows.mpr ⟨⟨r1, (hsel r1).mpr ⟨hr1, h, hh, a⟩, rfl⟩, rfl⟩, ?_⟩
      obtain ⟨h', j', t', hh', hj', ht', e1, e2, e3⟩ := hgrp (key r1, sel.filter (fun r => key r = key r1))
        (mem_groupRows.mpr ⟨⟨r1, (hsel r1).mpr ⟨hr1, h, hh, a⟩, rfl⟩, rfl⟩)
      have e1 : (r1.row.space, r1.row.type, r1.row.time, r1.parent) = _ := e1
      rw [a, b, c] at e1
      simp only [Prod.mk.injEq] at e1
      obtain rfl := hname h h' (hLn h hh) (hLn h' hh') e1.1
      obtain rfl := htype j j' hj hj' e1.2.1
      obtain rfl : t = t' := by have := e1.2.2.1; omega
      erw [e3]
      rw [List.map_cons, List.map_nil, List.mem_singleton, e2]
      simp only [key]
      rw [a, b, c, e1.2.2.2]

end
end Lp

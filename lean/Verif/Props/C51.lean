import Verif.Proofs.HMacro
import Verif.Proofs.Merge
import Verif.Proofs.Ent
import Verif.Proofs.CoverCheck
import Verif.Props.C49
import Verif.Proofs.Samples

/-!
# C51 — `hmacro` describes the data by the nodes of a partition

`hmacro(df, micro, p)` gives the rows Space, Type, Time, Parent, value and Size.  `name` are the names of the nodes (the leaves
first), `type` those of the types; slices are numbered from 1.
-/

namespace Lp.C51
open Spec
variable {S Y : Type} [DecidableEq S] [DecidableEq Y]

theorem cuts_sum_aux {A ι : Type} {cells : A → Finset ι} {L : List A} {U : Finset ι} (hL : Cuts cells L U) (g : ι → ℝ) :
    (L.map (fun a => ∑ x ∈ cells a, g x)).sum = ∑ x ∈ U, g x := by
  classical
  rw [← Fin.sum_univ_fun_getElem L (fun a => ∑ x ∈ cells a, g x)]
  have hU : U = Finset.univ.biUnion (fun i : Fin L.length => cells L[i]) := by
    ext x
    simp only [Finset.mem_biUnion, Finset.mem_univ, true_and]
    constructor
    · intro hx
      obtain ⟨i, hi, _⟩ := exactlyOne_fin (hL.one x hx)
      exact ⟨i, hi⟩
    · rintro ⟨i, hi⟩
      exact hL.sub _ (List.getElem_mem _) hi
  rw [hU, Finset.sum_biUnion]
  · rfl
  · intro a _ b _ hab
    exact hL.disj hab

/-- No node occurs twice in a partition. -/
theorem cover_nodup_aux {leaves : Nat} {parents : List Int} {root : Nat} (t : IsTree leaves parents root) {L : List Nat}
    (h : LeafCover leaves parents L) : L.Nodup := by
  rw [List.nodup_iff_getElem?_ne_getElem?]
  intro i j hij hj e
  have hi : L[i]? = some L[i] := List.getElem?_eq_getElem (by omega)
  obtain ⟨l, hl⟩ := leaves_nonempty t (h.1 L[i] (List.getElem_mem _))
  obtain ⟨hl, hu⟩ := mem_leavesUnder.mp hl
  obtain ⟨k, _, huniq⟩ := h.2 l hl
  have h1 := huniq i ⟨_, hi, hu⟩
  have h2 := huniq j ⟨_, by rw [← e, hi], hu⟩
  omega

/-- `getpath` finds the visiting path of the library, counted from 1: children before parents, ending with the root. -/
theorem path (leaves : Nat) (h : List Int) (root : Nat) (tree : IsTree leaves (h.map (· - 1)) root)
    (near : NearestFirst leaves (h.map (· - 1))) :
    ∃ path, getpath h leaves = .ok path ∧ path.Perm ((List.range h.length).map (fun x : Nat => (x : Int) + 1)) ∧
      path.getLast? = some ((root : Int) + 1) ∧
      ∀ i j x p : Nat, path[i]? = some ((x : Int) + 1) → path[j]? = some ((p : Int) + 1) → h[x]? = some ((p : Int) + 1) → i < j := by
  obtain ⟨md, m1, m2, m3⟩ := C03.right _ _ _ tree near
  have hh : (h.map (· - 1)).map (· + 1) = h := by
    rw [List.map_map]
    conv_rhs => rw [← List.map_id h]
    apply List.map_congr_left
    intro x _
    simp
  have key := getpath_eq tree.leavesLe m1 m3.pathLen
  rw [hh] at key
  refine ⟨_, key, ?_, ?_, ?_⟩
  · have := m3.pathPerm.map (fun x : Nat => (x : Int) + 1)
    rwa [List.length_map] at this
  · have := m3.last
    rw [← m3.pathLen] at this
    rw [List.getLast?_map, List.getLast?_eq_getElem?, this, m2]
    rfl
  · intro i j x p hi hj hp
    rw [List.getElem?_map] at hi hj
    obtain ⟨x', hx', ex⟩ := Option.map_eq_some_iff.mp hi
    obtain ⟨p', hp', ep⟩ := Option.map_eq_some_iff.mp hj
    obtain rfl : x' = x := by omega
    obtain rfl : p' = p := by omega
    refine m3.pathOrder i j x' p' hx' hp' ?_
    unfold ParentIs
    rw [List.getElem?_map, hp]
    simp

/-- `hmacro` has exactly one row per node of the partition, type and slice: its value is the sum over the leaves below the
node, its parent is the name of the parent node (the root names itself), its size the one in `df`. -/
theorem rows (leaves : Nat) (h : List Int) (root : Nat) (tree : IsTree leaves (h.map (· - 1)) root)
    (near : NearestFirst leaves (h.map (· - 1))) (hlt : leaves < h.length)
    (name : Nat → S) (hname : ∀ x y, x < h.length → y < h.length → name x = name y → x = y)
    (types : Nat) (type : Nat → Y) (htype : ∀ x y, x < types → y < types → type x = type y → x = y) (slices : Nat)
    (ht : 0 < types) (hs : 0 < slices) (f : Nat × Nat × Nat → ℝ)
    (L : List Nat) (hL : L.Nodup) (hLn : ∀ n ∈ L, n < h.length) (size : Nat → Int) :
    ∃ out, hmacro ((List.range h.length).map name) h (L.map (fun n : Nat => ((n : Int) + 1, size n)))
        (melt ((List.range leaves).map name) ((List.range types).map type) slices f) = .ok out ∧
      (out.map (fun r => (r.space, r.type, r.time))).Nodup ∧
      ∀ r, r ∈ out ↔ ∃ n j t s, n ∈ L ∧ j < types ∧ t < slices ∧
        (n = root ∧ s = name root ∨ ∃ p : Nat, h[n]? = some ((p : Int) + 1) ∧ s = name p) ∧
        r = ⟨name n, type j, t + 1, some s, ∑ l ∈ leavesUnder leaves (h.map (· - 1)) n, f (l, j, t), size n⟩ := by
  obtain ⟨md, m1, m2, m3⟩ := C03.right _ _ _ tree near
  have hh : (h.map (· - 1)).map (· + 1) = h := by
    rw [List.map_map]
    conv_rhs => rw [← List.map_id h]
    apply List.map_congr_left
    intro x _
    simp
  have hlen : (h.map (· - 1)).length = h.length := List.length_map _
  obtain ⟨out, e, nd, mem⟩ := hmacro_spec (name := name) (type := type) (f := f) m3 m1 (by rw [hlen]; exact hlt)
    (by rw [hlen]; exact hname) htype ht hs L hL (by rw [hlen]; exact hLn) size
  rw [hh, hlen] at e
  refine ⟨out, e, nd, ?_⟩
  intro r
  rw [mem]
  constructor
  · rintro ⟨n, j, t, hn, hj, ht, rfl⟩
    refine ⟨n, j, t, _, hn, hj, ht, ?_, rfl⟩
    unfold macroParent
    by_cases hr : n = md.root
    · rw [if_pos hr]; exact .inl ⟨hr.trans m2, by rw [hr, m2]⟩
    · rw [if_neg hr]
      right
      obtain ⟨p, hp, hpar⟩ := m3.tree.other n (by rw [hlen]; exact hLn n hn) hr
      refine ⟨p, ?_, parentName_eq _ _ hpar⟩
      unfold ParentIs at hpar
      rw [List.getElem?_map] at hpar
      obtain ⟨q, hq, e⟩ := Option.map_eq_some_iff.mp hpar
      rw [hq]
      congr 1
      omega
  · rintro ⟨n, j, t, s, hn, hj, ht, hor, rfl⟩
    refine ⟨n, j, t, hn, hj, ht, ?_⟩
    have : s = macroParent (h.map (· - 1)) name md.root n := by
      unfold macroParent
      rcases hor with ⟨rfl, rfl⟩ | ⟨p, hp, rfl⟩
      · rw [if_pos m2.symm]
      · have hpar : ParentIs (h.map (· - 1)) n p := by
          unfold ParentIs; rw [List.getElem?_map, hp]; simp
        rw [if_neg, parentName_eq _ _ hpar]
        rintro rfl
        exact m3.tree.root_noParent hpar
    rw [this]

/-- The partition loses nothing: the values of each type and slice add up to the total over all the leaves. -/
theorem total (leaves : Nat) (h : List Int) (root : Nat) (tree : IsTree leaves (h.map (· - 1)) root)
    (near : NearestFirst leaves (h.map (· - 1))) (hlt : leaves < h.length)
    (name : Nat → S) (hname : ∀ x y, x < h.length → y < h.length → name x = name y → x = y)
    (types : Nat) (type : Nat → Y) (htype : ∀ x y, x < types → y < types → type x = type y → x = y) (slices : Nat)
    (f : Nat × Nat × Nat → ℝ) (L : List Nat) (hL : LeafCover leaves (h.map (· - 1)) L) (size : Nat → Int)
    (out : List (HMacro S Y ℝ))
    (hout : hmacro ((List.range h.length).map name) h (L.map (fun n : Nat => ((n : Int) + 1, size n)))
      (melt ((List.range leaves).map name) ((List.range types).map type) slices f) = .ok out)
    (j t : Nat) (hj : j < types) (ht : t < slices) :
    ((out.filter (fun r => r.type = type j ∧ r.time = t + 1)).map (fun r => r.value)).sum =
      ∑ l ∈ Finset.range leaves, f (l, j, t) := by
  classical
  have nd := cover_nodup_aux tree hL
  have hlen : (h.map (· - 1)).length = h.length := List.length_map _
  have hLn : ∀ n ∈ L, n < h.length := fun n hn => hlen ▸ hL.1 n hn
  obtain ⟨out', e, nd', mem⟩ := rows leaves h root tree near hlt name hname types type htype slices (by omega) (by omega) f L nd
    hLn size
  obtain rfl : out' = out := Except.ok.inj (e.symm.trans hout)
  have par : ∀ n ∈ L, ∃ s, (n = root ∧ s = name root ∨ ∃ p : Nat, h[n]? = some ((p : Int) + 1) ∧ s = name p) := by
    intro n hn
    by_cases hr : n = root
    · exact ⟨_, .inl ⟨hr, rfl⟩⟩
    · obtain ⟨p, hp, hpar⟩ := tree.other n (by rw [hlen]; exact hLn n hn) hr
      refine ⟨_, .inr ⟨p, ?_, rfl⟩⟩
      unfold ParentIs at hpar
      rw [List.getElem?_map] at hpar
      obtain ⟨q, hq, e⟩ := Option.map_eq_some_iff.mp hpar
      rw [hq]
      congr 1
      omega
  have hperm : (((out'.filter (fun r => r.type = type j ∧ r.time = t + 1))).map (fun r => (r.space, r.value))).Perm
      (L.map (fun n => (name n, ∑ l ∈ leavesUnder leaves (h.map (· - 1)) n, f (l, j, t)))) := by
    rw [List.perm_ext_iff_of_nodup]
    · intro ⟨s, v⟩
      simp only [List.mem_map, List.mem_filter, decide_eq_true_eq, Prod.mk.injEq]
      constructor
      · rintro ⟨r, ⟨hr, e1, e2⟩, rfl, rfl⟩
        obtain ⟨n, j', t', s, hn, hj', ht', _, rfl⟩ := (mem r).mp hr
        obtain rfl := htype _ _ hj' hj e1
        obtain rfl : t' = t := by simpa using e2
        exact ⟨n, hn, rfl, rfl⟩
      · rintro ⟨n, hn, rfl, rfl⟩
        obtain ⟨s, hs⟩ := par n hn
        exact ⟨_, ⟨(mem _).mpr ⟨n, j, t, s, hn, hj, ht, hs, rfl⟩, rfl, rfl⟩, rfl, rfl⟩
    · apply List.Nodup.map_on
      · intro r hr r' hr' e
        obtain ⟨hr, hc⟩ := List.mem_filter.mp hr
        obtain ⟨hr', hc'⟩ := List.mem_filter.mp hr'
        rw [decide_eq_true_eq] at hc hc'
        refine List.inj_on_of_nodup_map nd' hr hr' ?_
        rw [(Prod.mk.inj e).1, hc.1, hc.2, hc'.1, hc'.2]
      · exact (List.Nodup.of_map _ nd').filter _
    · apply List.Nodup.map_on _ nd
      intro x hx y hy e
      exact hname x y (hLn x hx) (hLn y hy) (Prod.mk.inj e).1
  have := (hperm.map Prod.snd).sum_eq
  rw [List.map_map, List.map_map] at this
  simp only [Function.comp_def] at this
  rw [this, ← leavesUnder_root tree]
  have hc := leafCover_cuts tree hL
  exact cuts_sum_aux hc (fun l => f (l, j, t))

/-- From the data to the macroscopic description: for every parameter found by `haggregate`, `hmacro` describes a partition
with the gain and loss in `Qualities`, optimal for the parameter, by the sums over its nodes. -/
theorem result {F : Type} [FloatP F ℝ] {u : ℝ} (fl : FloatLaws F ℝ u) (randMax : ℝ) (hr : 2 ≤ randMax) (t : F)
    (ht : (0 : ℝ) < FloatP.toK t) (hu : 11 * u ≤ FloatP.toK t) :
    ∃ N : Nat, ∀ (d0 d1 d2 : Nat) (f : Nat × Nat × Nat → ℝ) (h : List Int) (name : Nat → S) (type : Nat → Y),
      0 < d0 → 0 < d1 → 0 < d2 → d1 * d2 < 2 ^ 32 → let parents := h.map (· - 1)
      IsTree d0 parents (parents.length - 1) → NearestFirst d0 parents → d0 < h.length →
      (∀ x y, x < h.length → y < h.length → name x = name y → x = y) → (∀ x y, x < d1 → y < d1 → type x = type y → x = y) →
      (∀ i j k, i < d0 → j < d1 → k < d2 → 0 ≤ f (i, j, k)) →
      let gain := gain3 d1 d2 (fun j k l => f (l, j, k))
      let loss := loss3 d1 d2 (fun j k l => f (l, j, k))
      let all := Finset.range d0
      gain all ≠ 0 → loss all ≠ 0 →
      let quality := relative gain loss all (leavesUnder d0 parents)
      ∀ fuel, N ≤ fuel → ∃ r, haggregate false fuel randMax id (rArray d0 d1 d2 f) h t = .ok r ∧
        ∀ e ∈ r.qualities, ∃ L out, LeafCover d0 parents L ∧ e.gain = gainOf quality L ∧ e.loss = lossOf quality L ∧
          (∀ L', LeafCover d0 parents L' →
            valueOf (FloatP.toK e.parameter) (FloatP.toK (FloatP.oneSub e.parameter)) quality L' ≤
              valueOf (FloatP.toK e.parameter) (FloatP.toK (FloatP.oneSub e.parameter)) quality L) ∧
          hmacro ((List.range h.length).map name) h
            ((rowsAt HRow.parameter e.parameter r.partitions).map (fun x => (x.node, x.size)))
            (melt ((List.range d0).map name) ((List.range d1).map type) d2 f) = .ok out ∧
          (out.map (fun r => (r.space, r.type, r.time))).Nodup ∧
          ∀ r, r ∈ out ↔ ∃ n j t s, n ∈ L ∧ j < d1 ∧ t < d2 ∧
            (n = parents.length - 1 ∧ s = name (parents.length - 1) ∨ ∃ p : Nat, h[n]? = some ((p : Int) + 1) ∧ s = name p) ∧
            r = ⟨name n, type j, t + 1, some s, ∑ l ∈ leavesUnder d0 parents n, f (l, j, t), (leavesUnder d0 parents n).card⟩ := by
  obtain ⟨N, hN⟩ := C49.hierarchical fl randMax hr t ht hu
  refine ⟨N, ?_⟩
  intro d0 d1 d2 f h name type h0 h1 h2 hF parents tree near hlt hname htype hpos gain loss all hg hl quality fuel hf
  obtain ⟨r, e, hr⟩ := hN d0 d1 d2 f h h0 h1 hF tree near (by rw [List.length_map]; exact hlt) hpos hg hl fuel hf
  refine ⟨r, e, ?_⟩
  intro q hq
  obtain ⟨L, c1, c2, c3, c4, _, _, _, _, c5⟩ := hr.rows q hq
  obtain ⟨out, o1, o2, o3⟩ := rows d0 h _ tree near hlt name hname d1 type htype d2 h1 h2 f L (cover_nodup_aux tree c1)
    (fun n hn => by have := c1.1 n hn; rwa [List.length_map] at this) (fun n => ((leavesUnder d0 parents n).card : Int))
  refine ⟨L, out, c1, c3, c4, ?_, ?_, o2, o3⟩
  · intro L' hL'
    have := c5 L' hL'
    rw [c3, c4] at this
    exact this
  · rw [c2, List.map_map]
    exact o1

/-! ## Concrete cases -/

theorem seven_aux : IsTree 4 (([5, 5, 6, 6, 7, 7, 0] : List Int).map (· - 1)) 6 :=
  .ofCheck (fun h => if h < 4 then 2 else if h = 6 then 0 else 1) (by decide) (by decide) (by decide) (by decide)

theorem sevenNear_aux : NearestFirst 4 (([5, 5, 6, 6, 7, 7, 0] : List Int).map (· - 1)) :=
  balanced_nearestFirst seven_aux
    (.ofCheck (fun h => if h < 4 then 0 else if h = 6 then 2 else 1) (by decide) (by decide) (by decide))

/-- Four leaves under two nodes and a root, one type, one slice, the values 1, 2, 3, 4; described by the leaves 1, 2 and
the second inner node. -/
example : ∃ out, hmacro ((List.range 7).map (fun x => x)) [5, 5, 6, 6, 7, 7, 0] (([0, 1, 5] : List Nat).map fun n : Nat => ((n : Int) + 1, (n : Int)))
    (melt ((List.range 4).map (fun x => x)) ((List.range 1).map (fun x => x)) 1 fun x => (x.1 + 1 : ℝ)) = .ok out ∧
    ((out.filter (fun r => r.type = 0 ∧ r.time = 0 + 1)).map (fun r => r.value)).sum = ∑ l ∈ Finset.range 4, (l + 1 : ℝ) := by
  have hc : LeafCover 4 (([5, 5, 6, 6, 7, 7, 0] : List Int).map (· - 1)) [0, 1, 5] :=
    .ofCheck (fun h => if h < 4 then 2 else if h = 6 then 0 else 1) 3 (by decide) (by decide) (by decide) (by decide) (by decide)
  obtain ⟨out, e, _⟩ := rows 4 [5, 5, 6, 6, 7, 7, 0] 6 seven_aux sevenNear_aux (by decide) (fun x => x) (fun _ _ _ _ h => h) 1 (fun x => x)
    (fun _ _ _ _ h => h) 1 (by decide) (by decide) (fun x => (x.1 + 1 : ℝ)) [0, 1, 5] (by decide) (by decide) (fun n => n)
  exact ⟨out, e, total 4 [5, 5, 6, 6, 7, 7, 0] 6 seven_aux sevenNear_aux (by decide) (fun x => x) (fun _ _ _ _ h => h) 1 (fun x => x)
    (fun _ _ _ _ h => h) 1 (fun x => (x.1 + 1 : ℝ)) [0, 1, 5] hc (fun n => n) out e 0 0 (by decide) (by decide)⟩

/-- The rows themselves, with rational values. -/
example : (hmacro (K := ℚ) ["a", "b", "c", "d", "X", "Y", "R"] [5, 5, 6, 6, 7, 7, 0] [(1, 1), (2, 1), (6, 2)]
    (melt ["a", "b", "c", "d"] ["u"] 1 fun x => (x.1 + 1 : ℚ))).map (fun l => l.map fun r => (r.space, r.parent, r.value, r.size)) =
    .ok [("a", some "X", 1, 1), ("b", some "X", 2, 1), ("Y", some "R", 7, 2)] := by decide +kernel

/-- A tree that is not described right by its numbering (see C03): `getpath` takes the root for the last but one node,
and `hmacro` fails. -/
theorem wrongPath : getpath [5, 4, 4, 5, 0] 3 = .ok [1, 2, 3, 5, 4] ∧
    (hmacro (K := ℚ) ["a", "b", "c", "X", "R"] [5, 4, 4, 5, 0] [(5, 3)] (melt ["a", "b", "c"] ["u"] 1 fun _ => 1)).map
      (fun l => l.length) = .error .outOfBounds := by decide +kernel

/-! ## The hypotheses are met by concrete inputs (`Proofs/Samples.lean`) -/

example := path 4 [5, 5, 6, 6, 7, 7, 0] 6 Sample.isTree Sample.nearest
example := result (S := Nat) (Y := Nat) (exactLaws ℝ) 2147483647 (by norm_num) (1 / 16 : ℝ) (by norm_num [FloatP.toK]) (by norm_num [FloatP.toK])

end Lp.C51

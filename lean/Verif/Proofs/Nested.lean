import Verif.Proofs.TogetherH

/-!
# Hierarchical partitions become coarser as the parameter grows

`h_nested_step` only uses that merging never lowers gain or loss (C09).
-/

namespace Lp
open Spec
open scoped BigOperators
variable {m leaves : Nat} {parents : List Int} {md : HMeta}

section
open Classical
variable {L L' : List Nat} {x : Nat}

/-- A part of one partition that is below no part of another one is strictly above some of its parts. -/
theorem below_cover {root : Nat} (t : IsTree leaves parents root) (hL' : LeafCover leaves parents L') (hx : x < parents.length)
    (hno : ∀ y ∈ L', ¬ Under parents y x) : ∃ y ∈ L', Under parents x y ∧ y ≠ x := by
  obtain ⟨l, hl, hxl⟩ := t.exists_leaf hx
  obtain ⟨k, ⟨y, hy, hyl⟩, _⟩ := hL'.2 l hl
  have hy := List.mem_of_getElem? hy
  rcases under_total hyl hxl with h | h
  · exact absurd h (hno y hy)
  · exact ⟨y, hy, h, fun e => hno y hy (e ▸ .self)⟩

/-- The part `x` may be replaced by the parts of the other partition below it. -/
theorem split_cover (hL : LeafCover leaves parents L) (hL' : LeafCover leaves parents L')
    (hx : x ∈ L) (hno : ∀ y ∈ L', ¬ Under parents y x) :
    LeafCover leaves parents (L'.filter (fun y => Under parents x y) ++ L.erase x) := by
  constructor
  · intro y hy
    rcases List.mem_append.mp hy with hy | hy
    · exact hL'.1 y (List.mem_filter.mp hy).1
    · exact hL.1 y (List.mem_of_mem_erase hy)
  · intro l hl
    have h1 := hL.2 l hl
    have h2 := hL'.2 l hl
    rw [exactlyOne_countP] at h1 h2 ⊢
    rw [(List.perm_cons_erase hx).countP_eq, List.countP_cons] at h1
    rw [List.countP_append, List.countP_filter]
    by_cases hxl : Under parents x l
    · rw [if_pos (by simpa using hxl)] at h1
      have : List.countP (fun y => decide (Under parents y l) && decide (Under parents x y)) L' =
          List.countP (fun y => decide (Under parents y l)) L' := by
        apply List.countP_congr
        intro y hy
        simp only [Bool.and_eq_true, decide_eq_true_eq]
        refine ⟨fun h => h.1, fun h => ⟨h, ?_⟩⟩
        rcases under_total h hxl with h' | h'
        · exact absurd h' (hno y hy)
        · exact h'
      omega
    · rw [if_neg (by simpa using hxl), Nat.add_zero] at h1
      have : List.countP (fun y => decide (Under parents y l) && decide (Under parents x y)) L' = 0 := by
        rw [List.countP_eq_zero]
        intro y _
        simp only [Bool.and_eq_true, decide_eq_true_eq]
        rintro ⟨h, h'⟩
        exact hxl (h'.trans h)
      omega

end

section
variable {K : Type} [Field K] [LinearOrder K] [IsStrictOrderedRing K]

theorem gainOf_append {A : Type} (q : A → Quality K) (L M : List A) : gainOf q (L ++ M) = gainOf q L + gainOf q M := by
  simp [gainOf]
theorem lossOf_append {A : Type} (q : A → Quality K) (L M : List A) : lossOf q (L ++ M) = lossOf q L + lossOf q M := by
  simp [lossOf]
theorem valueOf_append {A : Type} (a b : K) (q : A → Quality K) (L M : List A) :
    valueOf a b q (L ++ M) = valueOf a b q L + valueOf a b q M := by
  unfold valueOf; rw [gainOf_append, lossOf_append]; ring
theorem valueOf_cons {A : Type} (a b : K) (q : A → Quality K) (x : A) (M : List A) :
    valueOf a b q (x :: M) = valueOf a b q [x] + valueOf a b q M := valueOf_append a b q [x] M
theorem gainOf_permK {A : Type} {q : A → Quality K} {L L' : List A} (h : L.Perm L') : gainOf q L = gainOf q L' :=
  (h.map _).sum_eq
theorem lossOf_permK {A : Type} {q : A → Quality K} {L L' : List A} (h : L.Perm L') : lossOf q L = lossOf q L' :=
  (h.map _).sum_eq
theorem valueOf_permK {A : Type} {a b : K} {q : A → Quality K} {L L' : List A} (h : L.Perm L') : valueOf a b q L = valueOf a b q L' := by
  unfold valueOf; rw [gainOf_permK h, lossOf_permK h]

/-- Merging never lowers gain or loss. -/
def Merging (leaves : Nat) (parents : List Int) (Q : Nat → Quality K) : Prop :=
  ∀ L M, LeafCover leaves parents L → LeafCover leaves parents M → Refines parents L M →
    gainOf Q L ≤ gainOf Q M ∧ lossOf Q L ≤ lossOf Q M

/-- Two partitions, the second of which is the coarsest of largest value for a weight that favours gain more. -/
theorem h_nested_step {root : Nat} (t : IsTree leaves parents root) {Q : Nat → Quality K} (hQ : Merging leaves parents Q)
    {a b a' b' : K} (ha : a ≤ a') (hb : b' ≤ b) {L L' : List Nat} (hL : LeafCover leaves parents L)
    (hL' : LeafCover leaves parents L') (h1 : ∀ M, LeafCover leaves parents M → valueOf a b Q M ≤ valueOf a b Q L)
    (h2 : ∀ M, LeafCover leaves parents M → valueOf a' b' Q M ≤ valueOf a' b' Q L' ∧
      (valueOf a' b' Q M = valueOf a' b' Q L' → Refines parents M L')) : Refines parents L L' := by
  classical
  intro x hx
  by_contra hno
  push Not at hno
  obtain ⟨y, hy, hxy, hne⟩ := below_cover t hL' (hL.1 x hx) hno
  obtain ⟨hM, _⟩ := merge_cover t hL' (hL.1 x hx) hy hxy hne
  have hN := split_cover hL hL' hx hno
  obtain ⟨S, hS⟩ : ∃ S, S = L'.filter (fun y => Under parents x y) := ⟨_, rfl⟩
  obtain ⟨R, hR⟩ : ∃ R, R = L'.filter (fun y => ¬ Under parents x y) := ⟨_, rfl⟩
  rw [← hS] at hN
  rw [← hR] at hM
  have hperm : (S ++ R).Perm L' := by
    rw [hS, hR]
    have := List.filter_append_perm (fun y => decide (Under parents x y)) L'
    simpa using this
  -- at the first parameter `x` is at least as good as the parts below it
  have e1 := h1 _ hN
  rw [valueOf_append, valueOf_permK (List.perm_cons_erase hx), valueOf_cons] at e1
  -- merging
  have hg := hQ L' (x :: R) hL' hM (by
    intro z hz
    by_cases hxz : Under parents x z
    · exact ⟨x, by simp, hxz⟩
    · exact ⟨z, by rw [hR]; simp [hz, hxz], .self⟩)
  rw [← gainOf_permK hperm, ← lossOf_permK hperm, gainOf_append, lossOf_append] at hg
  have hg1 : gainOf Q S ≤ gainOf Q [x] := by
    have : gainOf Q (x :: R) = gainOf Q [x] + gainOf Q R := gainOf_append Q [x] R
    linarith [hg.1]
  have hg2 : lossOf Q S ≤ lossOf Q [x] := by
    have : lossOf Q (x :: R) = lossOf Q [x] + lossOf Q R := lossOf_append Q [x] R
    linarith [hg.2]
  have e2 : valueOf a' b' Q S ≤ valueOf a' b' Q [x] := by
    have e1 : valueOf a b Q S ≤ valueOf a b Q [x] := by linarith
    unfold valueOf at e1 ⊢
    have := mul_le_mul_of_nonneg_right ha (sub_nonneg.mpr hg1)
    have := mul_le_mul_of_nonneg_right hb (sub_nonneg.mpr hg2)
    nlinarith
  have e3 : valueOf a' b' Q L' ≤ valueOf a' b' Q (x :: R) := by
    rw [← valueOf_permK hperm, valueOf_append, valueOf_cons]
    linarith
  obtain ⟨z, hz, hzx⟩ := (h2 _ hM).2 (le_antisymm (h2 _ hM).1 e3) x (by simp)
  exact hno z hz hzx

end

/-! ## How many different partitions -/

open Classical in
/-- The nodes strictly above the parts of a partition. -/
noncomputable def splitNodes (parents : List Int) (L : List Nat) : Finset Nat :=
  (Finset.range parents.length).filter (fun x => ∀ y ∈ L, ¬ Under parents y x)

theorem mem_splitNodes {L : List Nat} {x : Nat} : x ∈ splitNodes parents L ↔ x < parents.length ∧ ∀ y ∈ L, ¬ Under parents y x := by
  classical
  simp [splitNodes]

theorem splitNodes_anti {L L' : List Nat} (h : Refines parents L L') : splitNodes parents L' ⊆ splitNodes parents L := by
  intro x hx
  rw [mem_splitNodes] at hx ⊢
  refine ⟨hx.1, fun y hy hyx => ?_⟩
  obtain ⟨z, hz, hzy⟩ := h y hy
  exact hx.2 z hz (hzy.trans hyx)

theorem splitNodes_inner {L : List Nat} (hL : LeafCover leaves parents L) :
    splitNodes parents L ⊆ Finset.Ico leaves parents.length := by
  intro x hx
  rw [mem_splitNodes] at hx
  rw [Finset.mem_Ico]
  refine ⟨?_, hx.1⟩
  by_contra hlt
  obtain ⟨k, ⟨y, hy, hyx⟩, _⟩ := hL.2 x (by omega)
  exact hx.2 y (List.mem_of_getElem? hy) hyx

/-- A partition is determined by the nodes above its parts. -/
theorem splitNodes_inj {root : Nat} (t : IsTree leaves parents root) {L L' : List Nat} (hL : LeafCover leaves parents L)
    (hL' : LeafCover leaves parents L') (h : splitNodes parents L = splitNodes parents L') (href : Refines parents L L') :
    ∀ x, x ∈ L ↔ x ∈ L' := by
  have sole : ∀ {M : List Nat}, LeafCover leaves parents M → ∀ x ∈ M, ∀ y ∈ M, Under parents y x → y = x := by
    intro M hM x hx y hy hyx
    obtain ⟨l, hl, hxl⟩ := t.exists_leaf (hM.1 x hx)
    obtain ⟨k, _, huniq⟩ := hM.2 l hl
    obtain ⟨kx, hkx⟩ := List.getElem?_of_mem hx
    obtain ⟨ky, hky⟩ := List.getElem?_of_mem hy
    have a1 := huniq kx ⟨x, hkx, hxl⟩
    have a2 := huniq ky ⟨y, hky, hyx.trans hxl⟩
    rw [a1] at hkx
    rw [a2, hkx] at hky
    exact (Option.some.inj hky).symm
  -- a part of `L'` is below a part of `L`
  have hback : ∀ y ∈ L', ∃ x ∈ L, Under parents x y := by
    intro y hy
    by_contra hno
    push Not at hno
    have : y ∈ splitNodes parents L := mem_splitNodes.mpr ⟨hL'.1 y hy, hno⟩
    rw [h, mem_splitNodes] at this
    exact this.2 y hy .self
  intro x
  constructor
  · intro hx
    obtain ⟨y, hy, hyx⟩ := href x hx
    obtain ⟨z, hz, hzy⟩ := hback y hy
    have := sole hL x hx z hz (hzy.trans hyx)
    subst this
    rwa [under_antisymm t hzy hyx]
  · intro hx
    obtain ⟨y, hy, hyx⟩ := hback x hx
    obtain ⟨z, hz, hzy⟩ := href y hy
    have := sole hL' x hx z hz (hzy.trans hyx)
    subst this
    rwa [under_antisymm t hzy hyx]

/-- A strictly decreasing list of sets inside a set with `k` elements has at most `k + 1` members. -/
theorem chain_length {S : Finset Nat} : ∀ (Ls : List (Finset Nat)), (∀ s ∈ Ls, s ⊆ S) → Ls.Pairwise (fun s s' => s' ⊂ s) →
    Ls.length ≤ S.card + 1 := by
  have key : ∀ (Ls : List (Finset Nat)) (T : Finset Nat), (∀ s ∈ Ls, s ⊂ T) → Ls.Pairwise (fun s s' => s' ⊂ s) → Ls.length ≤ T.card := by
    intro Ls
    induction Ls with
    | nil => intro T _ _; simp
    | cons a Ls ih =>
      intro T h hp
      rw [List.pairwise_cons] at hp
      have h1 := ih a hp.1 hp.2
      have h2 := Finset.card_lt_card (h a (by simp))
      simp only [List.length_cons]
      omega
  intro Ls h hp
  cases Ls with
  | nil => simp
  | cons a Ls =>
    rw [List.pairwise_cons] at hp
    have h1 := key Ls a hp.1 hp.2
    have h2 := Finset.card_le_card (h a (by simp))
    simp only [List.length_cons]
    omega

end Lp

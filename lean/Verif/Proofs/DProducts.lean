import Verif.Proofs.DCover
import Verif.Proofs.HCover
import Verif.Spec.Tiling

/-!
# Products of a partition of the leaves with tilings of the slices are in the grammar
-/

namespace Lp
open Spec

/-- A tiling of the slices of one node is in the grammar. -/
theorem tiles_suf {parents : List Int} {n h : Nat} {M : List (Nat × Nat)} {i : Nat} (h1 : Tiles i n M)
    (hi : i < n) : SufPart parents n h i (M.map (fun I => ⟨h, I.1, I.2⟩)) := by
  induction h1 with
  | nil => omega
  | @cons a b c M hac hcb ht ih =>
    by_cases e : c + 1 = b
    · subst e
      cases ht with
      | nil => exact .whole
      | cons h1 h2 _ => omega
    · exact .cut hac (by omega) (ih (by omega))

/-- A partition of the leaves into nodes and a tiling of the slices for each of these nodes give a derivation. -/
theorem product_dSol {leaves n : Nat} {parents : List Int} {md : HMeta} (hmd : RightMeta leaves parents md) (h0 : 0 < n)
    {M : List Nat} {tiling : Nat → List (Nat × Nat)} (hM : LeafCover leaves parents M) (ht : ∀ h ∈ M, Tiles 0 n (tiling h)) :
    ∃ ds L'', Sol (dDecs leaves md.children n) [(md.root, 0)] ds L'' ∧
      L''.Perm (M.flatMap (fun h => (tiling h).map (fun I => (⟨h, I.1, I.2⟩ : Rect)))) := by
  obtain ⟨dsM, M', hsM, hpM⟩ := leafCover_hSol hmd hM
  -- a derivation of the hierarchical system gives one of the spatiotemporal system
  have key : ∀ (st ds M : List Nat), Sol (hDecs leaves md.children) st ds M → (∀ s ∈ st, s < parents.length) →
      (∀ h ∈ M, Tiles 0 n (tiling h)) →
      ∃ ds' L'', Sol (dDecs leaves md.children n) (st.map (fun s => (s, 0))) ds' L'' ∧
        L''.Perm (M.flatMap (fun h => (tiling h).map (fun I => (⟨h, I.1, I.2⟩ : Rect)))) := by
    intro st ds M hs
    induction hs with
    | nil => intro _ _; exact ⟨[], [], .nil, by simp⟩
    | @cons s rest k e succ ds M hk _ ih =>
      intro hst hM
      have hs := hst s (by simp)
      have hM' : ∀ h ∈ M, Tiles 0 n (tiling h) := fun h hh => hM h (List.mem_append_right _ hh)
      have tile : e = [s] → succ = [] → ∃ ds' L'', Sol (dDecs leaves md.children n) ((s :: rest).map (fun s => (s, 0))) ds' L'' ∧
          L''.Perm ((e ++ M).flatMap (fun h => (tiling h).map (fun I => (⟨h, I.1, I.2⟩ : Rect)))) := by
        rintro rfl rfl
        obtain ⟨ds2, L2, s2, p2⟩ := ih (by simpa using fun x hx => hst x (by simp [hx])) hM'
        obtain ⟨ds1, L1, s1, p1⟩ := sufPart_dSol hmd
          (tiles_suf (parents := parents) (h := s) (hM s (by simp)) h0) hs h0
        refine ⟨ds1 ++ ds2, L1 ++ L2, by simpa using s1.append s2, ?_⟩
        simpa using p1.append p2
      by_cases hl : s < leaves
      · rw [hDecs_leaf hl] at hk
        cases k with
        | succ k => simp at hk
        | zero => simp at hk; exact tile hk.1.symm hk.2
      · obtain ⟨ch, hch, _, hmem⟩ := hmd.kidsPerm hs
        rw [hDecs_inner hl hch] at hk
        match k, hk with
        | 0, hk => simp at hk; exact tile hk.1.symm hk.2
        | k + 2, hk => simp at hk
        | 1, hk =>
          simp at hk
          obtain ⟨rfl, rfl⟩ := hk
          obtain ⟨ds2, L2, s2, p2⟩ := ih (by
            intro x hx
            rcases List.mem_append.mp hx with hx | hx
            · exact ((hmem x).mp hx).lt
            · exact hst x (by simp [hx])) hM'
          refine ⟨1 :: ds2, L2, ?_, by simpa using p2⟩
          have := Sol.cons (decs := dDecs leaves md.children n) (s := (s, 0)) (rest := rest.map (fun s => (s, 0)))
            (dDecs_split hl hch) (by simpa using s2)
          simpa using this
  obtain ⟨ds', L'', hs, hp⟩ := key [md.root] dsM M' hsM
    (by simpa using hmd.tree.rootLt) (fun h hh => ht h (hpM.mem_iff.mp hh))
  exact ⟨ds', L'', by simpa using hs, hp.trans (hpM.flatMap_right _)⟩

end Lp

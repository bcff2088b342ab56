import Verif.Proofs.DExact
import Verif.Proofs.OExact
import Verif.Proofs.DCover

/-!
# One leaf: the spatiotemporal derivation follows the ordered one
-/

namespace Lp
open Spec
variable {parents : List Int} {md : HMeta} {n : Nat}

/-- With one leaf every inner node has one child. -/
theorem oneChild (r : RightMeta 1 parents md) {h : Nat} (hh : h < parents.length) (hl : ¬ h < 1) :
    ∃ c, ParentIs parents c h ∧ md.children[h]? = some [c] := by
  obtain ⟨d, _, hd⟩ := r.tree.depth
  obtain ⟨c, hc⟩ : ∃ c, ParentIs parents c h := by
    by_contra hn
    exact hl ((r.tree.leaf h hh).mpr hn)
  obtain ⟨ch, hch, hnd, hmem⟩ := r.children h hh
  refine ⟨c, hc, ?_⟩
  have hall : ∀ x ∈ ch, x = c := by
    intro x hx
    have hx := (hmem x).mp hx
    obtain ⟨l, hl1, h1⟩ := r.tree.exists_leaf hx.lt
    obtain ⟨l', hl2, h2⟩ := r.tree.exists_leaf hc.lt
    obtain rfl : l = l' := by omega
    exact under_same_depth hd h1 h2 (by rw [hd _ _ hx, hd _ _ hc])
  rw [hch]
  have hcm := (hmem c).mpr hc
  cases ch with
  | nil => simp at hcm
  | cons x xs =>
    obtain rfl := hall x (by simp)
    cases xs with
    | nil => rfl
    | cons y ys =>
      obtain rfl := hall y (by simp)
      simp at hnd

variable {F K : Type} [Field K] [LinearOrder K] [IsStrictOrderedRing K] [FloatP F K]

theorem chain_follows (r : RightMeta 1 parents md) {Q : Nat → Nat → Quality K} {p : F} {T : Nat × Nat → Obj K} {D : Nat × Nat → Nat}
    {To : Nat → Obj K} {Do : Nat → Nat}
    (hD : DpEq (dDecs 1 md.children n) (obq p (rq (fun _ i j => Q i j))) (fun s => s.1 < parents.length ∧ s.2 < n) T D)
    (hO : DpEq (oDecs n) (obq p (fun x : Nat × Nat => Q x.1 x.2)) (fun i => i < n) To Do) :
    ∀ (m k h i : Nat), k + (n - i) < m → md.path[k]? = some h → i < n →
      T (h, i) = To i ∧ ∃ ds L ds', Greedy (dDecs 1 md.children n) D [(h, i)] ds L ∧
        Greedy (oDecs n) Do [i] ds' (L.map (fun x : Rect => (x.first, x.last))) := by
  intro m
  induction m with
  | zero => intro k h i hm; omega
  | succ m ih =>
    intro k h i hm hk hi
    have hh : h < parents.length := (r.pathMem h).mp (List.mem_of_getElem? hk)
    have hw : ∀ c, obq p (rq (fun _ i j => Q i j)) ⟨h, i, c⟩ = obq p (fun x : Nat × Nat => Q x.1 x.2) (i, c) := fun _ => rfl
    have icut : ∀ c, i ≤ c → c < n - 1 → T (h, c + 1) = To (c + 1) ∧ ∃ ds L ds', Greedy (dDecs 1 md.children n) D [(h, c + 1)] ds L ∧
        Greedy (oDecs n) Do [c + 1] ds' (L.map (fun x : Rect => (x.first, x.last))) := fun c h1 h2 => ih k h (c + 1) (by omega) hk (by omega)
    have ichild : ¬ h < 1 → ∃ c, md.children[h]? = some [c] ∧ T (c, i) = To i ∧ ∃ ds L ds', Greedy (dDecs 1 md.children n) D [(c, i)] ds L ∧
        Greedy (oDecs n) Do [i] ds' (L.map (fun x : Rect => (x.first, x.last))) := by
      intro hl
      obtain ⟨c, hc, hch⟩ := oneChild r hh hl
      obtain ⟨j, _, hj⟩ := r.pos hc.lt
      have := r.pathOrder _ _ _ _ hj hk hc
      exact ⟨c, hch, ih j c i (by omega) hj hi⟩
    have d0 : (dDecs 1 md.children n (h, i))[0]? = some ([⟨h, i, n - 1⟩], []) := rfl
    have o0 : (oDecs n i)[0]? = some ([(i, n - 1)], []) := rfl
    have oc : ∀ c, i ≤ c → c < n - 1 → (oDecs n i)[c - i + 1]? = some ([(i, c)], [c + 1]) := by
      intro c h1 h2
      exact oDecs_succ h1 (by omega)
    have dl : h < 1 → ∀ c, i ≤ c → c < n - 1 → (dDecs 1 md.children n (h, i))[c - i + 1]? = some ([⟨h, i, c⟩], [(h, c + 1)]) := by
      intro hl c h1 h2
      unfold dDecs
      rw [if_pos hl, List.nil_append, List.getElem?_cons_succ, List.getElem?_map, List.getElem?_range' (by omega)]
      simp only [Option.map_some, Option.some.injEq, Prod.mk.injEq, List.cons.injEq, Rect.mk.injEq, and_true, true_and]
      omega
    have di : ¬ h < 1 → ∀ c, i ≤ c → c < n - 1 → (dDecs 1 md.children n (h, i))[c - i + 2]? = some ([⟨h, i, c⟩], [(h, c + 1)]) := by
      intro hl c h1 h2
      unfold dDecs
      rw [if_neg hl, List.singleton_append, List.getElem?_cons_succ, List.getElem?_cons_succ, List.getElem?_map,
        List.getElem?_range' (by omega)]
      simp only [Option.map_some, Option.some.injEq, Prod.mk.injEq, List.cons.injEq, Rect.mk.injEq, and_true, true_and]
      omega
    obtain ⟨e, succ, hde, hTd⟩ := hD.chosen (h, i) ⟨hh, hi⟩
    obtain ⟨e', succ', hoe, hTo⟩ := hO.chosen i hi
    have ocases : (Do i = 0 ∧ e' = [(i, n - 1)] ∧ succ' = []) ∨
        ∃ c, i ≤ c ∧ c < n - 1 ∧ Do i = c - i + 1 ∧ e' = [(i, c)] ∧ succ' = [c + 1] := by
      cases hz : Do i with
      | zero =>
        rw [hz, o0] at hoe
        obtain ⟨rfl, rfl⟩ := Prod.mk.inj (Option.some.inj hoe)
        exact .inl ⟨rfl, rfl, rfl⟩
      | succ z =>
        rw [hz] at hoe
        have hlen : z < n - 1 - i := by
          unfold oDecs at hoe
          rw [List.getElem?_cons_succ, List.getElem?_map, Option.map_eq_some_iff] at hoe
          obtain ⟨x, hx, _⟩ := hoe
          have := (List.getElem?_eq_some_iff.mp hx).1
          simpa using this
        have := oc (i + z) (by omega) (by omega)
        rw [show i + z - i + 1 = z + 1 by omega, hoe] at this
        obtain ⟨rfl, rfl⟩ := Prod.mk.inj (Option.some.inj this)
        exact .inr ⟨i + z, by omega, by omega, by omega, rfl, rfl⟩
    have b0 := hD.best (h, i) ⟨hh, hi⟩ 0 _ _ d0
    have a0 := hO.best i hi 0 _ _ o0
    rw [wsum_cons, wsum_nil, wsum_nil, add_zero, add_zero] at b0 a0
    have hTT : T (h, i) = To i := by
      apply le_antisymm
      · rcases dDecs_cases hde with ⟨_, rfl, rfl⟩ | ⟨hl, _, rfl, rfl⟩ | ⟨c, hc1, hc2, _, rfl, rfl⟩
        · rw [hTd, wsum_cons, wsum_nil, wsum_nil, add_zero, add_zero]
          exact a0.1
        · obtain ⟨c, hch, hc, _⟩ := ichild hl
          rw [hTd, hch]
          simp [hc]
        · rw [hTd]
          have := (hO.best i hi _ _ _ (oc c hc1 hc2)).1
          simpa [hw, (icut c hc1 hc2).1] using this
      · rcases ocases with ⟨_, rfl, rfl⟩ | ⟨c, hc1, hc2, _, rfl, rfl⟩
        · rw [hTo, wsum_cons, wsum_nil, wsum_nil, add_zero, add_zero]
          exact b0.1
        · rw [hTo]
          by_cases hl : h < 1
          · have := (hD.best (h, i) ⟨hh, hi⟩ _ _ _ (dl hl c hc1 hc2)).1
            simpa [hw, (icut c hc1 hc2).1] using this
          · have := (hD.best (h, i) ⟨hh, hi⟩ _ _ _ (di hl c hc1 hc2)).1
            simpa [hw, (icut c hc1 hc2).1] using this
    refine ⟨hTT, ?_⟩
    rcases dDecs_cases hde with ⟨hz, rfl, rfl⟩ | ⟨hl, hz, rfl, rfl⟩ | ⟨c, hc1, hc2, hz, rfl, rfl⟩
    · have hdo : Do i = 0 := by
        by_contra hne
        have h1 := a0.2 (Nat.pos_of_ne_zero hne)
        rw [← hTT, hTd, wsum_cons, wsum_nil, wsum_nil, add_zero, add_zero, hw] at h1
        exact lt_irrefl _ h1
      refine ⟨_, _, [Do i], .cons hde .nil, ?_⟩
      exact .cons (e := [(i, n - 1)]) (succ := []) (by rw [hdo]; rfl) .nil
    · obtain ⟨c, hch, _, ds, L, ds', g1, g2⟩ := ichild hl
      refine ⟨D (h, i) :: ds, [] ++ L, ds', .cons hde ?_, g2⟩
      rw [hch]
      exact g1
    · obtain ⟨hcut, ds, L, ds', g1, g2⟩ := icut c hc1 hc2
      have hl : h < 1 := by
        by_contra hl
        obtain ⟨x, hch, hx, _⟩ := ichild hl
        have d1 : (dDecs 1 md.children n (h, i))[1]? = some ([], [(x, i)]) := by
          unfold dDecs
          rw [if_neg hl, hch]
          rfl
        have h1 := (hD.best (h, i) ⟨hh, hi⟩ 1 _ _ d1).2 (by rw [hz, if_neg hl]; omega)
        rw [hTT] at h1
        simp [hx] at h1
      rw [if_pos hl] at hz
      have hval : To i = wsum (obq p (fun x : Nat × Nat => Q x.1 x.2)) [(i, c)] + wsum To [c + 1] := by
        rw [← hTT, hTd]
        simp [hcut, hw]
      have hdo : Do i = c - i + 1 := by
        apply le_antisymm
        · by_contra hlt
          have h1 := (hO.best i hi _ _ _ (oc c hc1 hc2)).2 (by omega)
          rw [← hval] at h1
          exact lt_irrefl _ h1
        · by_contra hlt
          rcases ocases with ⟨hz', rfl, rfl⟩ | ⟨c', hc1', hc2', hz', rfl, rfl⟩
          · have h1 := b0.2 (by omega)
            rw [hTT, hTo, wsum_cons, wsum_nil, wsum_nil, add_zero, add_zero, hw] at h1
            exact lt_irrefl _ h1
          · have h1 := (hD.best (h, i) ⟨hh, hi⟩ _ _ _ (dl hl c' hc1' hc2')).2 (by omega)
            rw [hTT, hTo] at h1
            simp [hw, (icut c' hc1' hc2').1] at h1
      refine ⟨_, _, Do i :: ds', .cons hde g1, ?_⟩
      exact .cons (e := [(i, c)]) (succ := [c + 1]) (by rw [hdo]; exact oc c hc1 hc2) g2

end Lp

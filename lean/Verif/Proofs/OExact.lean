import Verif.Proofs.OPart
import Verif.Proofs.Exact

/-!
# The ordered partitioner in exact arithmetic
-/

namespace Lp
open Spec

/-- Entry `k` of a list "head :: map over a range". -/
theorem headRange_get {β : Type} {x y : β} {g : Nat → β} {i m k : Nat}
    (h : (x :: (List.range' i m).map g)[k]? = some y) :
    (k = 0 ∧ y = x) ∨ (∃ c, k = c - i + 1 ∧ i ≤ c ∧ c < i + m ∧ y = g c) := by
  cases k with
  | zero => simp at h; exact Or.inl ⟨rfl, h.symm⟩
  | succ k =>
    right
    simp only [List.getElem?_cons_succ, List.getElem?_map, Option.map_eq_some_iff] at h
    obtain ⟨c, hc, hc2⟩ := h
    have hk : k < m := by
      have := (List.getElem?_eq_some_iff.mp hc).1; simpa using this
    rw [List.getElem?_range' hk] at hc
    simp only [one_mul, Option.some.injEq] at hc
    exact ⟨c, by omega, by omega, by omega, hc2.symm⟩

theorem headRange_some {β : Type} {x : β} {g : Nat → β} {i m c : Nat} (h1 : i ≤ c) (h2 : c < i + m) :
    (x :: (List.range' i m).map g)[c - i + 1]? = some (g c) := by
  have : c - i < m := by omega
  simp only [List.getElem?_cons_succ, List.getElem?_map, List.getElem?_range' this, Option.map_some]
  have e : i + 1 * (c - i) = c := by omega
  rw [e]

variable {F K : Type} [Field K] [LinearOrder K] [IsStrictOrderedRing K] [FloatP F K]

/-- The tables of the code solve the dynamic-programming equations. -/
theorem o_dpEq {f : Nat → Nat → Quality K} {n : Nat} {p : F} {T : Nat → Tradeoff K} {C : Nat → Int}
    (h : ∀ i, i < n → (T i, C i) = oRow f n p T i (n - 1)) :
    DpEq (oDecs n) (obq p (fun x : Nat × Nat => f x.1 x.2)) (fun i => i < n) (fun i => ob (T i))
      (oChoice n C) := by
  have spec : ∀ i, i < n → ∃ k : Nat, oChoice n C i = k ∧
      (∀ (j : Nat) (e : List (Nat × Nat)) (succ : List Nat), (oDecs n i)[j]? = some (e, succ) →
        (j = k → ob (T i) = wsum (obq p (fun x : Nat × Nat => f x.1 x.2)) e +
          wsum (fun i => ob (T i)) succ) ∧
        wsum (obq p (fun x : Nat × Nat => f x.1 x.2)) e + wsum (fun i => ob (T i)) succ ≤ ob (T i) ∧
        (j < k → wsum (obq p (fun x : Nat × Nat => f x.1 x.2)) e + wsum (fun i => ob (T i)) succ <
          ob (T i))) ∧ ∃ d, (oDecs n i)[k]? = some d := by
    intro i hi
    obtain ⟨k, hk, hb⟩ := firstBest_spec (ob (K := K)) Tradeoff.gt gt_iff
      (Tradeoff.set (f i (n - 1)) p, (n : Int) - 1)
      ((List.range' i (n - 1 - i)).map (fun c => ((Tradeoff.set (f i c) p).add (T (c + 1)), (c : Int))))
    have e0 := h i hi
    unfold oRow at e0
    rw [← e0] at hk hb
    -- the candidate tradeoff of decision `j`
    have key : ∀ (j : Nat) (e : List (Nat × Nat)) (succ : List Nat), (oDecs n i)[j]? = some (e, succ) →
        ∃ y : Tradeoff K × Int, ((Tradeoff.set (f i (n - 1)) p, (n : Int) - 1) ::
          (List.range' i (n - 1 - i)).map
            (fun c => ((Tradeoff.set (f i c) p).add (T (c + 1)), (c : Int))))[j]? = some y ∧
          wsum (obq p (fun x : Nat × Nat => f x.1 x.2)) e + wsum (fun i => ob (T i)) succ = ob y.1 := by
      intro j e succ hj
      rcases headRange_get hj with ⟨rfl, hy⟩ | ⟨c, rfl, h1, h2, hy⟩
      · simp only [Prod.mk.injEq] at hy
        obtain ⟨rfl, rfl⟩ := hy
        exact ⟨_, rfl, by simp [obq]⟩
      · simp only [Prod.mk.injEq] at hy
        obtain ⟨rfl, rfl⟩ := hy
        exact ⟨_, headRange_some h1 h2, by simp [obq, ob_add]⟩
    refine ⟨k, ?_, ?_, ?_⟩
    · rcases headRange_get hk with ⟨rfl, hy⟩ | ⟨c, rfl, h1, h2, hy⟩
      · simp only [Prod.mk.injEq] at hy
        simp [oChoice, hy.2]
      · simp only [Prod.mk.injEq] at hy
        unfold oChoice
        rw [if_neg (by omega), hy.2, Int.toNat_natCast]
    · intro j e succ hj
      obtain ⟨y, hy, hw⟩ := key j e succ hj
      obtain ⟨hb1, hb2⟩ := hb j y hy
      rw [hw]
      refine ⟨?_, hb1, hb2⟩
      rintro rfl
      rw [hk] at hy
      simp only [Option.some.injEq] at hy
      rw [← hy]
    · have : k < (oDecs n i).length := by
        have := (List.getElem?_eq_some_iff.mp hk).1
        simpa [oDecs] using this
      exact ⟨_, List.getElem?_eq_getElem this⟩
  refine ⟨?_, ?_, ?_⟩
  · intro i hi k e succ hk s' hs'
    obtain ⟨c, _, _, _, rfl⟩ := oDecs_cut hi hk
    unfold oStart at hs'
    split at hs'
    · simp only [List.mem_singleton] at hs'; subst hs'; assumption
    · simp at hs'
  · intro i hi
    obtain ⟨k, hk, hall, ⟨⟨e, succ⟩, hd⟩⟩ := spec i hi
    rw [hk]
    exact ⟨e, succ, hd, (hall k e succ hd).1 rfl⟩
  · intro i hi j e succ hj
    obtain ⟨k, hk, hall, _⟩ := spec i hi
    rw [hk]
    exact (hall j e succ hj).2

/-- In exact arithmetic the returned partition is the first optimal derivation. -/
theorem oBest_first {q : UTM (Quality K)} {n : Nat} {f : Nat → Nat → Quality K} (hq : q.Rep n f) (p : F) :
    ∃ (P : OPartition F K) (ds : List Nat) (L : List (Nat × Nat)),
      oBestPartition q p = .ok P ∧ P.parts = L.map (oPartOf f) ∧
      P.quality = ⟨gainOf (fun x : Nat × Nat => f x.1 x.2) L, lossOf (fun x : Nat × Nat => f x.1 x.2) L⟩ ∧
      P.parameter = p ∧ Sol (oDecs n) (oStart n 0) ds L ∧
      ∀ ds' L', Sol (oDecs n) (oStart n 0) ds' L' →
        wsum (obq p (fun x : Nat × Nat => f x.1 x.2)) L' ≤ wsum (obq p (fun x : Nat × Nat => f x.1 x.2)) L ∧
        (wsum (obq p (fun x : Nat × Nat => f x.1 x.2)) L' = wsum (obq p (fun x : Nat × Nat => f x.1 x.2)) L →
          ds = ds' ∨ Before ds ds') := by
  obtain ⟨P, T, C, ds, L, h1, h2, h3, h4, h5, h6⟩ := oBest_spec hq p
  have hdp := o_dpEq h2
  have hok : ∀ s ∈ oStart n 0, s < n := by
    intro s hs
    unfold oStart at hs
    split at hs
    · simp only [List.mem_singleton] at hs; subst hs; assumption
    · simp at hs
  have hw := hdp.greedy_weight h3 hok
  refine ⟨P, ds, L, h1, h4, ?_, h6, h3.sol, ?_⟩
  · rw [h5]; exact sumQuality_eq (fun x : Nat × Nat => f x.1 x.2) L
  · intro ds' L' hs'
    obtain ⟨g1, g2⟩ := hdp.optimal hs' hok
    rw [hw]
    exact ⟨g1, g2 ds L h3⟩

end Lp

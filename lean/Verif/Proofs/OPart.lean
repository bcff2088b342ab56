import Verif.Proofs.Dp
import Verif.Proofs.UTM
import Verif.Proofs.Vec
import Verif.Model.OPartition
import Verif.Spec.Tiling

/-!
# The ordered partitioner as a greedy derivation
-/

namespace Lp
open Spec
variable {F K : Type}

/-- Decisions for the suffix starting at `i`: keep it whole, or cut after `c` (smallest first). -/
def oDecs (n : Nat) : Decs Nat (Nat × Nat) := fun i =>
  ([(i, n - 1)], []) :: (List.range' i (n - 1 - i)).map (fun c => ([(i, c)], [c + 1]))

/-- Initial stack. -/
def oStart (n i : Nat) : List Nat := if i < n then [i] else []

theorem oDecs_cut {n i k : Nat} {e : List (Nat × Nat)} {succ : List Nat} (hi : i < n)
    (h : (oDecs n i)[k]? = some (e, succ)) :
    ∃ c, i ≤ c ∧ c < n ∧ e = [(i, c)] ∧ succ = oStart n (c + 1) := by
  cases k with
  | zero =>
    simp [oDecs] at h
    refine ⟨n - 1, by omega, by omega, h.1.symm, ?_⟩
    rw [oStart, if_neg (by omega)]; exact h.2
  | succ k =>
    simp only [oDecs, List.getElem?_cons_succ, List.getElem?_map, Option.map_eq_some_iff] at h
    obtain ⟨c, hc, hc2⟩ := h
    have hk : k < n - 1 - i := by
      have := (List.getElem?_eq_some_iff.mp hc).1; simpa using this
    rw [List.getElem?_range' hk] at hc
    simp only [one_mul, Option.some.injEq] at hc
    simp only [Prod.mk.injEq] at hc2
    refine ⟨c, by omega, by omega, hc2.1.symm, ?_⟩
    rw [oStart, if_pos (by omega)]; exact hc2.2.symm

theorem oDecs_zero {n i : Nat} : (oDecs n i)[0]? = some ([(i, n - 1)], []) := rfl

theorem oDecs_succ {n i c : Nat} (hic : i ≤ c) (hc : c < n - 1) :
    (oDecs n i)[c - i + 1]? = some ([(i, c)], [c + 1]) := by
  have : c - i < n - 1 - i := by omega
  simp only [oDecs, List.getElem?_cons_succ, List.getElem?_map, List.getElem?_range' this,
    Option.map_some]
  have e : i + 1 * (c - i) = c := by omega
  rw [e]

/-- Every complete derivation is a tiling. -/
theorem oSol_tiles {n : Nat} {st : List Nat} {ds : List Nat} {L : List (Nat × Nat)}
    (h : Sol (oDecs n) st ds L) : ∀ i, st = oStart n i → i ≤ n → Tiles i n L := by
  induction h with
  | nil =>
    intro i hst hi
    unfold oStart at hst
    split at hst
    · simp at hst
    · have : i = n := by omega
      subst this; exact .nil _
  | @cons s rest k e succ ds L hk _ ih =>
    intro i hst hi
    unfold oStart at hst
    split at hst
    next hin =>
      simp only [List.cons.injEq] at hst
      obtain ⟨rfl, rfl⟩ := hst
      obtain ⟨c, h1, h2, rfl, rfl⟩ := oDecs_cut hin hk
      exact .cons h1 h2 (ih (c + 1) (by simp) (by omega))
    · simp at hst

/-- Every tiling is a complete derivation. -/
theorem tiles_oSol {n i : Nat} {L : List (Nat × Nat)} (h : Tiles i n L) :
    ∃ ds, Sol (oDecs n) (oStart n i) ds L := by
  induction h with
  | nil a => exact ⟨[], by simp [oStart]; exact .nil⟩
  | @cons a b c L h1 h2 h3 ih =>
    obtain ⟨ds, hs⟩ := ih
    rw [oStart, if_pos (by omega)]
    by_cases hc : c = b - 1
    · refine ⟨0 :: ds, ?_⟩
      have : oStart b (c + 1) = [] := by rw [oStart, if_neg (by omega)]
      rw [this] at hs
      subst hc
      exact Sol.cons (e := [(a, b - 1)]) (rest := []) oDecs_zero hs
    · refine ⟨(c - a + 1) :: ds, ?_⟩
      have : oStart b (c + 1) = [c + 1] := by rw [oStart, if_pos (by omega)]
      rw [this] at hs
      exact Sol.cons (e := [(a, c)]) (rest := []) (oDecs_succ h1 (by omega)) hs

section
variable [LD K] [FloatP F K]

/-- The row computed by the `cut_t` loop. -/
def oRow (f : Nat → Nat → Quality K) (n : Nat) (p : F) (T : Nat → Tradeoff K) (i : Nat) (hi : Nat) :
    Tradeoff K × Int :=
  firstBest Tradeoff.gt (Tradeoff.set (f i (n - 1)) p, (n : Int) - 1)
    ((List.range' i (hi - i)).map (fun c => ((Tradeoff.set (f i c) p).add (T (c + 1)), (c : Int))))

theorem oRow_congr {f : Nat → Nat → Quality K} {n : Nat} {p : F} {T T' : Nat → Tradeoff K} {i hi : Nat}
    (h : ∀ k, i < k → T k = T' k) : oRow f n p T i hi = oRow f n p T' i hi := by
  unfold oRow
  congr 1
  apply List.map_congr_left
  intro c hc
  have : i ≤ c := (List.mem_range'_1.mp hc).1
  rw [h (c + 1) (by omega)]

theorem obRow_spec {q : UTM (Quality K)} {n : Nat} {f : Nat → Nat → Quality K} (hq : q.Rep n f) (p : F)
    {s : OBest K} {T : Nat → Tradeoff K} {C : Nat → Int} {i : Nat} (hi : i < n)
    (hT : VRep s.tr n T) (hC : VRep s.cut n C) (hCi : C i = (n : Int) - 1) :
    ∃ s' T' C', obRow q p i s = .ok s' ∧ VRep s'.tr n T' ∧ VRep s'.cut n C' ∧
      (∀ k, k ≠ i → T' k = T k) ∧ (∀ k, k ≠ i → C' k = C k) ∧ (T' i, C' i) = oRow f n p T i (n - 1) := by
  unfold obRow
  rw [hq.size, hq.get (show i ≤ n - 1 by omega) (by omega)]
  obtain ⟨tr, htr, hT1⟩ := hT.set (Tradeoff.set (f i (n - 1)) p) hi
  simp only [okBind, htr]
  obtain ⟨s', h1, T', C', h2⟩ := forUp_inv (f := fun c s => obCut q p i c s) (lo := i) (hi := n - 1)
    (s := (⟨tr, s.cut⟩ : OBest K))
    (fun c s => ∃ T' C', VRep s.tr n T' ∧ VRep s.cut n C' ∧ (∀ k, k ≠ i → T' k = T k) ∧
      (∀ k, k ≠ i → C' k = C k) ∧ (T' i, C' i) = oRow f n p T i c) (by omega)
    ⟨_, C, hT1, hC, fun k hk => vupd_ne hk, fun _ _ => rfl, by simp [oRow, firstBest, hCi]⟩ (by
      rintro c ⟨tr, cut⟩ hc1 hc2 ⟨T', C', hT', hC', e1, e2, e3⟩
      simp only at hT' hC'
      unfold obCut
      rw [hq.get hc1 (by omega)]
      simp only [okBind, hT'.get (show c + 1 < n by omega), hT'.get hi]
      have e4 : oRow f n p T i (c + 1) =
          if Tradeoff.gt ((Tradeoff.set (f i c) p).add (T (c + 1))) (T' i)
          then ((Tradeoff.set (f i c) p).add (T (c + 1)), (c : Int)) else (T' i, C' i) := by
        have : c + 1 - i = (c - i) + 1 := by omega
        unfold oRow at e3 ⊢
        rw [this, List.range'_concat, List.map_append, List.map_cons, List.map_nil, firstBest_append, ← e3]
        simp only [one_mul]
        have : i + (c - i) = c := by omega
        rw [this]
      rw [e1 (c + 1) (by omega)]
      by_cases hg : Tradeoff.gt ((Tradeoff.set (f i c) p).add (T (c + 1))) (T' i) = true
      · obtain ⟨cut', hcut', hC''⟩ := hC'.set (c : Int) hi
        obtain ⟨tr', htr', hT''⟩ := hT'.set ((Tradeoff.set (f i c) p).add (T (c + 1))) hi
        simp only [hg, if_true, hcut', htr', okBind, pureOk]
        refine ⟨_, rfl, _, _, hT'', hC'', fun k hk => ?_, fun k hk => ?_, ?_⟩
        · rw [vupd_ne hk, e1 k hk]
        · rw [vupd_ne hk, e2 k hk]
        · rw [e4]; simp [hg]
      · simp only [hg, pureOk]
        refine ⟨_, rfl, _, _, hT', hC', e1, e2, ?_⟩
        rw [e4]; simp [hg])
  exact ⟨s', T', C', h1, h2⟩

/-- Result of the double loop: the recursive equations hold at every index. -/
theorem obLoop_spec {q : UTM (Quality K)} {n : Nat} {f : Nat → Nat → Quality K} (hq : q.Rep n f) (p : F) :
    ∃ s T C, obLoop q p = .ok s ∧ VRep s.tr n T ∧ VRep s.cut n C ∧
      ∀ i, i < n → (T i, C i) = oRow f n p T i (n - 1) := by
  unfold obLoop
  rw [hq.size]
  obtain ⟨s', h1, T', C', h2, h3, h4, _⟩ := forDown_inv (f := fun i s => obRow q p i s)
    (fun k s => ∃ T C, VRep s.tr n T ∧ VRep s.cut n C ∧
      (∀ i, k ≤ i → i < n → (T i, C i) = oRow f n p T i (n - 1)) ∧ (∀ i, i < k → C i = (n : Int) - 1) ∧ k ≤ n)
    n ⟨List.replicate n Tradeoff.zero, List.replicate n ((n : Int) - 1)⟩
    ⟨_, _, VRep.replicate n _, VRep.replicate n _, fun i h1 h2 => by omega, fun _ _ => rfl, le_refl _⟩ (by
      rintro k s hk ⟨T, C, hT, hC, e1, e2, e3⟩
      obtain ⟨s', T', C', g1, g2, g3, g4, g5, g6⟩ := obRow_spec hq p (i := k) (by omega) hT hC (e2 k (by omega))
      refine ⟨s', g1, T', C', g2, g3, ?_, ?_, by omega⟩
      · intro i h1 h2
        by_cases hik : i = k
        · subst hik; rw [g6]
          exact oRow_congr (fun j hj => (g4 j (by omega)).symm)
        · rw [g4 i hik, g5 i hik, e1 i (by omega) h2]
          exact oRow_congr (fun j hj => (g4 j (by omega)).symm)
      · intro i hik
        rw [g5 i (by omega)]; exact e2 i (by omega))
  exact ⟨s', T', C', h1, h2, h3, fun i hi => h4 i (by omega) hi⟩

/-- Cuts stay in range, whatever the arithmetic. -/
theorem oRow_cut {f : Nat → Nat → Quality K} {n : Nat} {p : F} {T : Nat → Tradeoff K} {i : Nat} (hi : i < n) :
    ∃ c : Nat, (oRow f n p T i (n - 1)).2 = c ∧ i ≤ c ∧ c < n := by
  obtain ⟨k, hk⟩ := firstBest_mem Tradeoff.gt (Tradeoff.set (f i (n - 1)) p, (n : Int) - 1)
    ((List.range' i (n - 1 - i)).map (fun c => ((Tradeoff.set (f i c) p).add (T (c + 1)), (c : Int))))
  change _ = some (oRow f n p T i (n - 1)) at hk
  cases k with
  | zero => simp at hk; rw [← hk]; exact ⟨n - 1, by simp; omega, by omega, by omega⟩
  | succ k =>
    simp only [List.getElem?_cons_succ, List.getElem?_map, Option.map_eq_some_iff] at hk
    obtain ⟨c, hc, hc2⟩ := hk
    have := List.mem_range'_1.mp (List.mem_of_getElem? hc)
    rw [← hc2]
    exact ⟨c, rfl, by omega, by omega⟩

/-- Decision number corresponding to a cut. -/
def oChoice (n : Nat) (C : Nat → Int) (i : Nat) : Nat :=
  if C i = (n : Int) - 1 then 0 else (C i).toNat - i + 1

theorem oChoice_spec {n : Nat} {C : Nat → Int} {i c : Nat} (hC : C i = c) (h1 : i ≤ c) (h2 : c < n) :
    (oDecs n i)[oChoice n C i]? = some ([(i, c)], oStart n (c + 1)) := by
  unfold oChoice
  by_cases h : C i = (n : Int) - 1
  · have hc : c = n - 1 := by omega
    have e : oStart n (c + 1) = [] := by rw [oStart, if_neg (by omega)]
    rw [if_pos h, e]
    subst hc; rfl
  · have e : oStart n (c + 1) = [c + 1] := by rw [oStart, if_pos (by omega)]
    rw [if_neg h, hC, Int.toNat_natCast, e]
    exact oDecs_succ h1 (by omega)

/-- The part object of an interval. -/
def oPartOf (f : Nat → Nat → Quality K) (x : Nat × Nat) : OPart K := ⟨x.1, x.2, f x.1 x.2⟩

omit [LD K] in
/-- Reading the parts off the cuts is the greedy derivation. -/
theorem oParts_spec {q : UTM (Quality K)} {n : Nat} {f : Nat → Nat → Quality K} (hq : q.Rep n f)
    {cuts : List Int} {C : Nat → Int} (hC : VRep cuts n C)
    (hr : ∀ i, i < n → ∃ c : Nat, C i = c ∧ i ≤ c ∧ c < n) :
    ∀ fuel i, i ≤ n → n - i < fuel →
      ∃ ds L, oParts cuts q fuel (i : Int) = .ok (L.map (oPartOf f)) ∧
        Greedy (oDecs n) (oChoice n C) (oStart n i) ds L := by
  intro fuel
  induction fuel with
  | zero => intro i _ h; omega
  | succ fuel ih =>
    intro i hi hf
    unfold oParts
    by_cases hin : i < n
    · have hcond : (0 : Int) ≤ (i : Int) ∧ (i : Int) < (cuts.length : Int) := by rw [hC.len]; omega
      rw [if_pos hcond]
      obtain ⟨c, hc, h1, h2⟩ := hr i hin
      simp only [Int.toNat_natCast, hC.get hin, okBind, hc, toIdx_nat, hq.get h1 h2]
      obtain ⟨ds, L, e1, e2⟩ := ih (c + 1) (by omega) (by omega)
      have : (c : Int) + 1 = ((c + 1 : Nat) : Int) := by simp
      rw [this, e1]
      refine ⟨oChoice n C i :: ds, (i, c) :: L, rfl, ?_⟩
      rw [oStart, if_pos hin]
      exact Greedy.cons (e := [(i, c)]) (oChoice_spec hc h1 h2) (by simpa using e2)
    · have hcond : ¬ ((0 : Int) ≤ (i : Int) ∧ (i : Int) < (cuts.length : Int)) := by rw [hC.len]; omega
      rw [if_neg hcond]
      refine ⟨[], [], rfl, ?_⟩
      rw [oStart, if_neg hin]; exact .nil

/-- `computeBestPartition` succeeds, and its parts are the greedy derivation for tables that satisfy the
recursive equations. -/
theorem oBest_spec {q : UTM (Quality K)} {n : Nat} {f : Nat → Nat → Quality K} (hq : q.Rep n f) (p : F) :
    ∃ (P : OPartition F K) (T : Nat → Tradeoff K) (C : Nat → Int) (ds : List Nat) (L : List (Nat × Nat)),
      oBestPartition q p = .ok P ∧ (∀ i, i < n → (T i, C i) = oRow f n p T i (n - 1)) ∧
      Greedy (oDecs n) (oChoice n C) (oStart n 0) ds L ∧
      P.parts = L.map (oPartOf f) ∧ P.quality = sumQuality (L.map (fun x => f x.1 x.2)) ∧ P.parameter = p := by
  obtain ⟨s, T, C, h1, h2, h3, h4⟩ := obLoop_spec hq p
  have hr : ∀ i, i < n → ∃ c : Nat, C i = c ∧ i ≤ c ∧ c < n := by
    intro i hi
    obtain ⟨c, hc⟩ := oRow_cut (f := f) (p := p) (T := T) hi
    rw [← h4 i hi] at hc
    exact ⟨c, hc⟩
  obtain ⟨ds, L, e1, e2⟩ := oParts_spec hq h3 hr (s.cut.length + 1) 0 (by omega) (by rw [h3.len]; omega)
  refine ⟨⟨p, s.cut, L.map (oPartOf f), sumQuality (L.map (fun x => f x.1 x.2))⟩, T, C, ds, L, ?_, h4, e2,
    rfl, rfl, rfl⟩
  unfold oBestPartition mkOPartition
  simp only [h1, okBind]
  simp only [Int.natCast_zero] at e1
  simp only [e1, okBind, List.map_map]
  rfl

end
end Lp

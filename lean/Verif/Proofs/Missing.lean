import Verif.Proofs.NaN
import Verif.Proofs.HExact
import Verif.Spec.SumOf
import Verif.Spec.Float
import Mathlib.Tactic.Linarith

/-!
# NaN for some nodes of a hierarchy, and for sums with a NaN
-/

namespace Lp
open Spec

section
variable {K : Type} [LD K]

/-- A tradeoff of numbers, with infinities and NaN around. -/
def numT (t : Tradeoff K) : Tradeoff (Special K) := ⟨.num t.value, .num t.gain, .num t.loss⟩

/-- A quality of numbers. -/
def numQ (q : Quality K) : Quality (Special K) := ⟨.num q.gain, .num q.loss⟩

theorem numLt (a b : K) : decide ((Special.num a : Special K) < .num b) = decide (a < b) := by
  show decide (decide (a < b) = true) = _
  simp

theorem numT_lt (a b : Tradeoff K) : (numT a).lt (numT b) = a.lt b := by
  unfold Tradeoff.lt Tradeoff.gt Tradeoff.eqOp numT
  simp only [numLt]
  rfl

theorem numT_tsum (T : Nat → Tradeoff (Special K)) (T' : Nat → Tradeoff K) (l : List Nat) (h : ∀ c ∈ l, T c = numT (T' c)) :
    tsum T l = numT (tsum T' l) := by
  unfold tsum
  have : ∀ z : Tradeoff K, l.foldl (fun a c => a.add (T c)) (numT z) = numT (l.foldl (fun a c => a.add (T' c)) z) := by
    induction l with
    | nil => intro z; rfl
    | cons x l ih =>
      intro z
      rw [List.foldl_cons, List.foldl_cons, h x (by simp)]
      exact ih (fun c hc => h c (List.mem_cons_of_mem _ hc)) (z.add (T' x))
  exact this Tradeoff.zero

theorem numQ_sum (l : List (Quality K)) : sumQuality (l.map numQ) = numQ (sumQuality l) := by
  unfold sumQuality
  have : ∀ z : Quality K, (l.map numQ).foldl Quality.add (numQ z) = numQ (l.foldl Quality.add z) := by
    induction l with
    | nil => intro z; rfl
    | cons x l ih => intro z; exact ih (z.add x)
  exact this Quality.zero

end

/-- Only nodes that are kept whole are parts. -/
theorem greedy_agg {leaves : Nat} {parents : List Int} {md : HMeta} (r : RightMeta leaves parents md) {A : Nat → Bool}
    {st ds L : List Nat} (hg : Greedy (hDecs leaves md.children) (hChoice A) st ds L) (hs : ∀ s ∈ st, s < parents.length) :
    ∀ x ∈ L, x < parents.length ∧ A x = true := by
  induction hg with
  | nil => intro x hx; simp at hx
  | @cons s rest e succ ds L hk _ ih =>
    have hsl : s < parents.length := hs s (by simp)
    have hsucc := hDecs_lt r hsl hk
    intro x hx
    rcases List.mem_append.mp hx with hx | hx
    · by_cases hA : A s = true
      · rw [hChoice, if_pos hA] at hk
        by_cases hl : s < leaves
        · rw [hDecs_leaf hl] at hk
          simp only [List.getElem?_cons_zero, Option.some.injEq, Prod.mk.injEq] at hk
          rw [← hk.1, List.mem_singleton] at hx
          subst hx
          exact ⟨hsl, hA⟩
        · obtain ⟨ch, hch, _⟩ := r.children s hsl
          rw [hDecs_inner hl hch] at hk
          simp only [List.getElem?_cons_zero, Option.some.injEq, Prod.mk.injEq] at hk
          rw [← hk.1, List.mem_singleton] at hx
          subst hx
          exact ⟨hsl, hA⟩
      · rw [hChoice, if_neg hA] at hk
        by_cases hl : s < leaves
        · rw [hDecs_leaf hl] at hk
          simp at hk
        · obtain ⟨ch, hch, _⟩ := r.children s hsl
          rw [hDecs_inner hl hch] at hk
          simp only [List.getElem?_cons_succ, List.getElem?_cons_zero, Option.some.injEq, Prod.mk.injEq] at hk
          rw [← hk.1] at hx
          simp at hx
    · refine ih (fun s' hs' => ?_) x hx
      rcases List.mem_append.mp hs' with h | h
      · exact hsucc s' h
      · exact hs s' (by simp [h])

/-- The parts are determined by the decisions for the nodes. -/
theorem greedy_congr {leaves : Nat} {parents : List Int} {md : HMeta} (r : RightMeta leaves parents md) {A A0 : Nat → Bool}
    (hA : ∀ h, h < parents.length → A h = A0 h) {st ds ds' L L' : List Nat} (hs : ∀ s ∈ st, s < parents.length)
    (hg : Greedy (hDecs leaves md.children) (hChoice A) st ds L) (h' : Greedy (hDecs leaves md.children) (hChoice A0) st ds' L') : L = L' := by
  induction hg generalizing ds' L' with
  | nil => cases h'; rfl
  | @cons s rest e succ ds L hk _ ih =>
    cases h' with
    | @cons _ _ e' succ' ds' L' hk' hs' =>
      have hsl : s < parents.length := hs s (by simp)
      have : hChoice A s = hChoice A0 s := by unfold hChoice; rw [hA s hsl]
      rw [this, hk'] at hk
      simp only [Option.some.injEq, Prod.mk.injEq] at hk
      obtain ⟨rfl, rfl⟩ := hk
      rw [ih (fun x hx => ?_) hs']
      rcases List.mem_append.mp hx with hx | hx
      · exact hDecs_lt r hsl hk' x hx
      · exact hs x (by simp [hx])

section
variable {K : Type} [Field K] [LinearOrder K] [IsStrictOrderedRing K]

theorem tsum_value_nonneg {T : Nat → Tradeoff K} {l : List Nat} (h : ∀ c ∈ l, 0 ≤ (T c).value) : 0 ≤ (tsum T l).value := by
  unfold tsum
  have : ∀ z : Tradeoff K, 0 ≤ z.value → 0 ≤ (l.foldl (fun a c => a.add (T c)) z).value := by
    induction l with
    | nil => intro z hz; exact hz
    | cons x l ih =>
      intro z hz
      exact ih (fun c hc => h c (List.mem_cons_of_mem _ hc)) _ (add_nonneg hz (h x (by simp)))
  exact this Tradeoff.zero le_rfl

theorem lt_of_neg {a b : Tradeoff K} (ha : a.value < 0) (hb : 0 ≤ b.value) : a.lt b = true := by
  have h := lt_of_lt_of_le ha hb
  have e : (a.value == b.value) = false := by
    show decide (a.value = b.value) = false
    simpa using ne_of_lt h
  unfold Tradeoff.lt Tradeoff.gt Tradeoff.eqOp
  rw [e, decide_eq_false (not_lt.mpr h.le)]
  rfl

theorem le_of_not_lt {a b : Tradeoff K} (h : a.lt b = false) : b.value ≤ a.value := by
  by_contra hc
  push Not at hc
  have e : (a.value == b.value) = false := by
    show decide (a.value = b.value) = false
    simpa using ne_of_lt hc
  unfold Tradeoff.lt Tradeoff.gt Tradeoff.eqOp at h
  rw [e, decide_eq_false (not_lt.mpr hc.le)] at h
  simp at h

open Classical in
/-- Some inner nodes have NaN, all others have numbers, and leaves have zeros: the partition avoids the nodes with NaN, and is optimal and
coarsest among the partitions that do. -/
theorem hBest_avoid {leaves : Nat} {parents : List Int} {md : HMeta} (r : RightMeta leaves parents md)
    (hlt : leaves < parents.length) {q : List (Quality (Special K))} {Q : Nat → Quality (Special K)} (hq : VRep q parents.length Q)
    (bad : Nat → Prop) (R : Nat → Quality K) (hbad : ∀ h, h < parents.length → bad h → leaves ≤ h ∧ NaNQuality (fun a => a = .nan) (Q h))
    (hgood : ∀ h, h < parents.length → ¬ bad h → Q h = numQ (R h)) (hleaf : ∀ l, l < leaves → R l = ⟨0, 0⟩)
    (p : K) (h0 : 0 ≤ p) (h1 : p ≤ 1) :
    ∃ (P : HPartition (Special K) (Special K)) (L : List Nat), hBestPartition q md (Special.num p) = .ok P ∧ LeafCover leaves parents L ∧
      (∀ x ∈ L, ¬ bad x) ∧ P.parts.map HPart.h = L ∧ P.quality = numQ ⟨gainOf R L, lossOf R L⟩ ∧
      ∀ L', LeafCover leaves parents L' → (∀ x ∈ L', ¬ bad x) →
        valueOf p (1 - p) R L' ≤ valueOf p (1 - p) R L ∧ (valueOf p (1 - p) R L' = valueOf p (1 - p) R L → Refines parents L' L) := by
  let R' : Nat → Quality K := fun h => if bad h then ⟨-1, 1⟩ else R h
  have hq' : VRep ((List.range parents.length).map R') parents.length R' := by
    refine ⟨by simp, ?_⟩
    intro h hh
    rw [List.getElem?_map, List.getElem?_range hh]
    rfl
  obtain ⟨P, T, A, ds, L, e, e1, e2, e3, e4, e5⟩ := hBest_spec r hlt hq (Special.num p)
  obtain ⟨P', T', A', ds', L', f, f1, f2, f3, f4, f5⟩ := hBest_spec r hlt hq' p
  obtain ⟨P2, ds2, L2, g, g1, _, _, g4, g5⟩ := hBest_first r hlt hq' p
  have hT : ∀ k h : Nat, md.path[k]? = some h → T h = numT (T' h) ∧ A h = A' h ∧ 0 ≤ (T' h).value ∧ (bad h → A h = false) := by
    intro k
    induction k using Nat.strong_induction_on with
    | _ k ih =>
      intro h' hk
      have hl : h' < parents.length := (r.pathMem h').mp (List.mem_of_getElem? hk)
      have e := e1 h' hl
      have f := f1 h' hl
      have hset : ¬ bad h' → Tradeoff.set (Q h') (Special.num p) = numT (Tradeoff.set (R' h') p) := by
        intro hb
        rw [hgood h' hl hb]
        show _ = numT (Tradeoff.set (if bad h' then _ else R h') p)
        rw [if_neg hb]
        rfl
      unfold hNode at e f
      by_cases hleaf' : h' < leaves
      · have hb : ¬ bad h' := fun hb => absurd (hbad h' hl hb).1 (by omega)
        rw [if_pos hleaf'] at e f
        rw [hset hb] at e
        have eT : T h' = _ := congrArg Prod.fst e
        have eA : A h' = _ := congrArg Prod.snd e
        have fT : T' h' = _ := congrArg Prod.fst f
        have fA : A' h' = _ := congrArg Prod.snd f
        refine ⟨by rw [eT, fT], by rw [eA, fA], ?_, fun h => absurd h hb⟩
        rw [fT]
        show 0 ≤ p * (if bad h' then _ else R h' : Quality K).gain - (1 - p) * (if bad h' then _ else R h' : Quality K).loss
        rw [if_neg hb, hleaf h' hleaf']
        simp
      · have hkids : ∀ c ∈ kidsIn parents md.path h', T c = numT (T' c) ∧ 0 ≤ (T' c).value := by
          intro c hc
          obtain ⟨hcm, hcp⟩ := mem_kidsIn.mp hc
          obtain ⟨j, hj⟩ := List.getElem?_of_mem hcm
          obtain ⟨i1, _, i3, _⟩ := ih j (r.pathOrder _ _ _ _ hj hk hcp) c hj
          exact ⟨i1, i3⟩
        have hsum := numT_tsum T T' _ (fun c hc => (hkids c hc).1)
        have hpos := tsum_value_nonneg (fun c hc => (hkids c hc).2)
        rw [if_neg hleaf'] at e f
        rw [hsum] at e
        by_cases hb : bad h'
        · rw [if_pos (lt_nan_left (exactNaN K) (set_nan (exactNaN K) (hbad h' hl hb).2 _))] at e
          rw [if_pos (lt_of_neg (by
            show p * (if bad h' then ⟨-1, 1⟩ else R h' : Quality K).gain - (1 - p) * (if bad h' then ⟨-1, 1⟩ else R h' : Quality K).loss < 0
            rw [if_pos hb]
            show p * -1 - (1 - p) * 1 < 0
            linarith) hpos)] at f
          have eT : T h' = _ := congrArg Prod.fst e
          have eA : A h' = _ := congrArg Prod.snd e
          have fT : T' h' = _ := congrArg Prod.fst f
          have fA : A' h' = _ := congrArg Prod.snd f
          exact ⟨by rw [eT, fT], by rw [eA, fA], by rw [fT]; exact hpos, fun _ => eA⟩
        · rw [hset hb, numT_lt] at e
          by_cases hc : (Tradeoff.set (R' h') p).lt (tsum T' (kidsIn parents md.path h')) = true
          · rw [if_pos hc] at e f
            have eT : T h' = _ := congrArg Prod.fst e
            have eA : A h' = _ := congrArg Prod.snd e
            have fT : T' h' = _ := congrArg Prod.fst f
            have fA : A' h' = _ := congrArg Prod.snd f
            exact ⟨by rw [eT, fT], by rw [eA, fA], by rw [fT]; exact hpos, fun _ => eA⟩
          · rw [if_neg hc] at e f
            have eT : T h' = _ := congrArg Prod.fst e
            have eA : A h' = _ := congrArg Prod.snd e
            have fT : T' h' = _ := congrArg Prod.fst f
            have fA : A' h' = _ := congrArg Prod.snd f
            exact ⟨by rw [eT, fT], by rw [eA, fA], by rw [fT]; exact le_trans hpos (le_of_not_lt (by simpa using hc)), fun h => absurd h hb⟩
  have hN : ∀ h, h < parents.length → A h = A' h ∧ (bad h → A h = false) := by
    intro h hh
    obtain ⟨k, hk⟩ := List.getElem?_of_mem ((r.pathMem h).mpr hh)
    exact ⟨(hT k h hk).2.1, (hT k h hk).2.2.2⟩
  have hroot : ∀ s ∈ [md.root], s < parents.length := by
    intro s hs; simp at hs; subst hs; exact r.tree.rootLt
  have hnb : ∀ x ∈ L, x < parents.length ∧ ¬ bad x := by
    intro x hx
    obtain ⟨h1, h2⟩ := greedy_agg r e2 hroot x hx
    refine ⟨h1, fun hb => ?_⟩
    rw [(hN x h1).2 hb] at h2
    cases h2
  have hL : L = L' := greedy_congr r (fun h hh => (hN h hh).1) hroot e2 f2
  have hL2 : L' = L2 := by
    rw [f] at g
    obtain rfl := Except.ok.inj g
    have := f3.symm.trans g1
    have h2 := congrArg (List.map HPart.h) this
    rw [List.map_map, List.map_map] at h2
    have : ∀ X : Nat → Quality K, (HPart.h ∘ hPartOf md X) = id := fun _ => rfl
    rwa [this, List.map_id, List.map_id] at h2
  subst hL2
  subst hL
  have hval : ∀ M : List Nat, (∀ x ∈ M, ¬ bad x) → valueOf p (1 - p) R' M = valueOf p (1 - p) R M := by
    intro M hM
    have : M.map R' = M.map R := List.map_congr_left (fun x hx => if_neg (hM x hx))
    have g1 : gainOf R' M = gainOf R M := by
      unfold gainOf
      congr 1
      exact List.map_congr_left (fun x hx => by rw [show R' x = R x from if_neg (hM x hx)])
    have g2 : lossOf R' M = lossOf R M := by
      unfold lossOf
      congr 1
      exact List.map_congr_left (fun x hx => by rw [show R' x = R x from if_neg (hM x hx)])
    unfold valueOf
    rw [g1, g2]
  have hw : (wGain p : K) = p := rfl
  have hw' : (wLoss p : K) = 1 - p := rfl
  refine ⟨P, L, e, hSol_leafCover r g4.mem, fun x hx => (hnb x hx).2, ?_, ?_, ?_⟩
  · rw [e3, List.map_map]
    have : (HPart.h ∘ hPartOf md Q) = id := rfl
    rw [this, List.map_id]
  · rw [e4, show L.map Q = (L.map R).map numQ from by
      rw [List.map_map]
      exact List.map_congr_left (fun x hx => hgood x (hnb x hx).1 (hnb x hx).2)]
    rw [numQ_sum, sumQuality_eq]
  · intro M hM hbM
    obtain ⟨ds'', M', hs, hp⟩ := leafCover_hSol r hM
    have hbM' : ∀ x ∈ M', ¬ bad x := fun x hx => hbM x (hp.mem_iff.mp hx)
    have ev : valueOf p (1 - p) R M = valueOf p (1 - p) R M' := by
      unfold valueOf gainOf lossOf
      rw [(hp.map _).sum_eq, (hp.map _).sum_eq]
    have b1 := g4.best ds'' M' hs
    have b2 := g5 ds'' M' hs
    rw [hw, hw', hval M' hbM', hval L (fun x hx => (hnb x hx).2)] at b1 b2
    rw [ev]
    exact ⟨b1, fun he x hx => b2 he x (hp.mem_iff.mpr hx)⟩

end

/-! ## Sums with a NaN -/

section
variable {K ι : Type} [LDLog K] [DecidableEq ι] {isNaN : K → Prop}

theorem Spec.SumOf.nan (nl : NaNLaws isNaN) {f : ι → K} {s : Finset ι} {x : K} (h : SumOf f s x) {i : ι} (hi : i ∈ s) (hf : isNaN (f i)) : isNaN x := by
  induction h with
  | none => simp at hi
  | one j => rw [Finset.mem_singleton] at hi; subst hi; exact hf
  | add _ _ _ ih1 ih2 =>
    rcases Finset.mem_union.mp hi with hi | hi
    · exact nl.add_left _ _ (ih1 hi)
    · exact nl.add_right _ _ (ih2 hi)

theorem Spec.SumOf.congr {f g : ι → K} {s : Finset ι} {x : K} (h : SumOf f s x) (hfg : ∀ i ∈ s, f i = g i) : SumOf g s x := by
  induction h with
  | none => exact .none
  | one i => rw [hfg i (by simp)]; exact .one i
  | add hd _ _ ih1 ih2 =>
    exact .add hd (ih1 fun i hi => hfg i (Finset.mem_union_left _ hi)) (ih2 fun i hi => hfg i (Finset.mem_union_right _ hi))

theorem Spec.Measured.congr {V W : Nat → ι → K} {s : Finset ι} {n : Int} {m : Nat} {q : Quality K} (h : Measured V s n m q)
    (hVW : ∀ k < m, ∀ i ∈ s, V k i = W k i) : Measured W s n m q := by
  induction h with
  | zero => exact .zero
  | @next k q S I _ hS hI ih =>
    exact .next (ih fun k' hk' => hVW k' (by omega)) (hS.congr (hVW k (by omega)))
      (hI.congr fun i hi => by rw [hVW k (by omega) i hi])

/-- A NaN among the values makes the loss NaN. -/
theorem Spec.Measured.nan (nl : NaNLaws isNaN) {V : Nat → ι → K} {s : Finset ι} {n : Int} {m : Nat} {q : Quality K} (h : Measured V s n m q)
    {k : Nat} {i : ι} (hk : k < m) (hi : i ∈ s) (hf : isNaN (V k i)) : isNaN q.loss := by
  induction h with
  | zero => omega
  | @next k' q S I _ hS hI ih =>
    rcases Nat.lt_or_eq_of_le (Nat.le_of_lt_succ hk) with hk' | rfl
    · exact nl.add_left _ _ (ih hk')
    · refine nl.add_right _ _ ?_
      unfold divergence
      exact nl.sub_left _ _ (nl.div_left _ _ (nl.mul_left _ _ (hS.nan nl hi hf)))

end

end Lp

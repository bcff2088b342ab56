import Verif.Spec.Special
import Verif.Proofs.HCover
import Verif.Proofs.DPart2
import Verif.Proofs.OPart
import Verif.Proofs.Same
import Verif.Model.Partitioner

/-!
# NaN in the partitioners
-/

namespace Lp
open Spec
variable {F K : Type} [LD K] [FloatP F K] {isNaN : K → Prop}

/-- A quality with a NaN. -/
def NaNQuality (isNaN : K → Prop) (q : Quality K) : Prop := isNaN q.gain ∨ isNaN q.loss

theorem set_nan (nl : NaNLaws isNaN) {q : Quality K} (h : NaNQuality isNaN q) (p : F) :
    isNaN (Tradeoff.set q p).value := by
  unfold Tradeoff.set Tradeoff.pic
  rcases h with h | h
  · exact nl.sub_left _ _ (nl.mul_right _ _ h)
  · exact nl.sub_right _ _ (nl.mul_right _ _ h)

omit [FloatP F K] in
theorem gt_nan_right (nl : NaNLaws isNaN) {a b : Tradeoff K} (h : isNaN b.value) : a.gt b = false := by
  unfold Tradeoff.gt
  rw [nl.eq_right _ _ h, decide_eq_false (nl.lt_left _ _ h)]
  rfl

omit [FloatP F K] in
theorem lt_nan_right (nl : NaNLaws isNaN) {a b : Tradeoff K} (h : isNaN b.value) : a.lt b = true := by
  unfold Tradeoff.lt Tradeoff.eqOp
  rw [gt_nan_right nl h, nl.eq_right _ _ h]
  rfl

omit [FloatP F K] in
theorem lt_nan_left (nl : NaNLaws isNaN) {a b : Tradeoff K} (h : isNaN a.value) : a.lt b = true := by
  unfold Tradeoff.lt Tradeoff.eqOp Tradeoff.gt
  rw [nl.eq_left _ _ h, decide_eq_false (nl.lt_right _ _ h)]
  rfl

omit [FloatP F K] in
theorem firstBest_nan (nl : NaNLaws isNaN) {ι : Type} (x : Tradeoff K × ι) (l : List (Tradeoff K × ι))
    (h : isNaN x.1.value) : firstBest Tradeoff.gt x l = x := by
  unfold firstBest
  induction l with
  | nil => rfl
  | cons a l ih =>
    rw [List.foldl_cons, gt_nan_right nl h]
    exact ih

/-- A NaN for the whole stops the ordered partitioner. -/
theorem oBest_nan (nl : NaNLaws isNaN) {q : UTM (Quality K)} {n : Nat} {f : Nat → Nat → Quality K} (hq : q.Rep n f)
    (hn : 0 < n) (h : NaNQuality isNaN (f 0 (n - 1))) (p : F) :
    ∃ P : OPartition F K, oBestPartition q p = .ok P ∧ P.parts = [⟨0, ((n - 1 : Nat) : Int), f 0 (n - 1)⟩] ∧
      P.quality = Quality.zero.add (f 0 (n - 1)) ∧ P.parameter = p := by
  obtain ⟨P, T, C, ds, L, e, e1, e2, e3, e4, e5⟩ := oBest_spec hq p
  have h0 := e1 0 hn
  unfold oRow at h0
  rw [firstBest_nan nl _ _ (set_nan nl h p)] at h0
  have hC : C 0 = (n : Int) - 1 := congrArg Prod.snd h0
  have hL : L = [(0, n - 1)] := by
    rw [oStart, if_pos hn] at e2
    have hc : oChoice n C 0 = 0 := by unfold oChoice; rw [if_pos hC]
    have hg : Greedy (oDecs n) (oChoice n C) [0] (oChoice n C 0 :: []) ([(0, n - 1)] ++ []) :=
      .cons (by rw [hc]; rfl) .nil
    exact (e2.unique hg).2
  subst hL
  exact ⟨P, e, e3, e4, e5⟩

/-- A NaN for the whole stops the spatiotemporal partitioner. -/
theorem dBest_nan (nl : NaNLaws isNaN) {leaves : Nat} {parents : List Int} {md : HMeta} (r : RightMeta leaves parents md)
    {q : List (UTM (Quality K))} {n : Nat} {Q : Nat → Nat → Nat → Quality K} (hq : MRep q parents.length n Q)
    (h0 : 0 < n) (hn : n ≤ 65535) (h : NaNQuality isNaN (Q md.root 0 (n - 1))) (p : F) :
    ∃ P : DPartition F K, dBestPartition q md p = .ok P ∧
      P.parts = [⟨md.root, md.sizeOf md.root, 0, n - 1, Q md.root 0 (n - 1)⟩] ∧
      P.quality = Quality.zero.add (Q md.root 0 (n - 1)) ∧ P.parameter = p := by
  obtain ⟨P, T, C, ds, L, e, e1, e2, e3, e4, e5⟩ := dBest_spec r hq h0 hn p
  have h1 := e1 md.root 0 r.tree.rootLt h0
  unfold DEq dRow at h1
  rw [firstBest_nan nl _ _ (set_nan nl h p)] at h1
  have hC : C md.root 0 = (n : Int) - 1 := by
    have : C md.root 0 = ((n - 1 : Nat) : Int) := congrArg Prod.snd h1
    omega
  have hL : L = [⟨md.root, 0, n - 1⟩] := by
    have hc : dChoice leaves n C (md.root, 0) = 0 := by unfold dChoice; rw [if_pos hC]
    have hg : Greedy (dDecs leaves md.children n) (dChoice leaves n C) [(md.root, 0)]
        (dChoice leaves n C (md.root, 0) :: []) ([⟨md.root, 0, n - 1⟩] ++ []) := .cons (by rw [hc]; rfl) .nil
    exact (e2.unique hg).2
  subst hL
  exact ⟨P, e, e3, e4, e5⟩

omit [FloatP F K] in
theorem tsum_nan (nl : NaNLaws isNaN) {T : Nat → Tradeoff K} {l : List Nat} {c : Nat} (hc : c ∈ l)
    (h : isNaN (T c).value) : isNaN (tsum T l).value := by
  unfold tsum
  have key : ∀ (l : List Nat) (z : Tradeoff K), isNaN z.value → isNaN (l.foldl (fun a c => a.add (T c)) z).value := by
    intro l
    induction l with
    | nil => intro z hz; exact hz
    | cons a l ih => intro z hz; exact ih _ (nl.add_left _ _ hz)
  generalize (Tradeoff.zero : Tradeoff K) = z
  induction l generalizing z with
  | nil => simp at hc
  | cons a l ih =>
    rcases List.mem_cons.mp hc with rfl | hc
    · exact key l _ (nl.add_right _ _ h)
    · exact ih hc _

/-- Decisions that aggregate leaves only. -/
theorem greedy_leaves {leaves : Nat} {parents : List Int} {md : HMeta} (r : RightMeta leaves parents md) {A : Nat → Bool}
    (hA : ∀ h, h < parents.length → (A h = true ↔ h < leaves)) {st ds L : List Nat}
    (hg : Greedy (hDecs leaves md.children) (hChoice A) st ds L) (hs : ∀ s ∈ st, s < parents.length) :
    ∀ x ∈ L, x < leaves := by
  induction hg with
  | nil => intro x hx; simp at hx
  | @cons s rest e succ ds L hk _ ih =>
    have hsl : s < parents.length := hs s (by simp)
    by_cases hl : s < leaves
    · rw [hDecs_leaf hl, hChoice, if_pos ((hA s hsl).mpr hl)] at hk
      simp only [List.getElem?_cons_zero, Option.some.injEq, Prod.mk.injEq] at hk
      obtain ⟨rfl, rfl⟩ := hk
      intro x hx
      rcases List.mem_append.mp hx with hx | hx
      · rw [List.mem_singleton] at hx; omega
      · exact ih (fun s hs' => hs s (by simp at hs'; simp [hs'])) x hx
    · obtain ⟨ch, hch, _, hmem⟩ := r.children s hsl
      rw [hDecs_inner hl hch, hChoice, if_neg (by rw [hA s hsl]; exact hl)] at hk
      simp only [List.getElem?_cons_succ, List.getElem?_cons_zero, Option.some.injEq, Prod.mk.injEq] at hk
      obtain ⟨rfl, rfl⟩ := hk
      intro x hx
      refine ih (fun s' hs' => ?_) x (by simpa using hx)
      rcases List.mem_append.mp hs' with h | h
      · obtain ⟨hlt, _⟩ := List.getElem?_eq_some_iff.mp ((hmem s').mp h)
        exact hlt
      · exact hs s' (by simp [h])


theorem hDecs_lt {leaves : Nat} {parents : List Int} {md : HMeta} (r : RightMeta leaves parents md) {s k : Nat}
    {e succ : List Nat} (hs : s < parents.length) (hk : (hDecs leaves md.children s)[k]? = some (e, succ)) :
    ∀ x ∈ succ, x < parents.length := by
  by_cases hl : s < leaves
  · rw [hDecs_leaf hl] at hk
    cases k with
    | zero => simp at hk; intro x hx; simp [hk.2] at hx
    | succ k => simp at hk
  · obtain ⟨ch, hch, _, hmem⟩ := r.children s hs
    rw [hDecs_inner hl hch] at hk
    match k with
    | 0 => simp at hk; intro x hx; simp [hk.2] at hx
    | 1 =>
      simp at hk
      intro x hx
      rw [← hk.2] at hx
      exact ((hmem x).mp hx).lt
    | k + 2 => simp at hk

/-- Leaves with NaN: the hierarchical partitioner splits every node. -/
theorem hBest_nan (nl : NaNLaws isNaN) {leaves : Nat} {parents : List Int} {md : HMeta} (r : RightMeta leaves parents md)
    (hlt : leaves < parents.length) {q : List (Quality K)} {Q : Nat → Quality K} (hq : VRep q parents.length Q)
    (h : ∀ l, l < leaves → NaNQuality isNaN (Q l)) :
    ∃ L : List Nat, L.Perm (List.range leaves) ∧ ∀ p : F, ∃ P : HPartition F K, hBestPartition q md p = .ok P ∧
      P.parts = L.map (hPartOf md Q) ∧ P.quality = sumQuality (L.map Q) ∧ P.parameter = p := by
  have step : ∀ p : F, ∃ (P : HPartition F K) (A : Nat → Bool) (ds L : List Nat),
      hBestPartition q md p = .ok P ∧ (∀ h, h < parents.length → (A h = true ↔ h < leaves)) ∧
      Greedy (hDecs leaves md.children) (hChoice A) [md.root] ds L ∧
      P.parts = L.map (hPartOf md Q) ∧ P.quality = sumQuality (L.map Q) ∧ P.parameter = p := by
    intro p
    obtain ⟨P, T, A, ds, L, e, e1, e2, e3, e4, e5⟩ := hBest_spec r hlt hq p
    have hT : ∀ k h : Nat, md.path[k]? = some h → isNaN (T h).value := by
      intro k
      induction k using Nat.strong_induction_on with
      | _ k ih =>
        intro h' hk
        have hl : h' < parents.length := (r.pathMem h').mp (List.mem_of_getElem? hk)
        have e := e1 h' hl
        unfold hNode at e
        by_cases hleaf : h' < leaves
        · rw [if_pos hleaf] at e
          rw [show T h' = _ from congrArg Prod.fst e]
          exact set_nan nl (h h' hleaf) p
        · have hc : ∃ c, ParentIs parents c h' := by
            by_contra hc
            exact hleaf ((r.tree.leaf h' hl).mpr hc)
          obtain ⟨c, hc⟩ := hc
          have hcm : c ∈ md.path := (r.pathMem c).mpr hc.lt
          obtain ⟨j, hj⟩ := List.getElem?_of_mem hcm
          have hs : isNaN (tsum T (kidsIn parents md.path h')).value :=
            tsum_nan nl (mem_kidsIn.mpr ⟨hcm, hc⟩) (ih j (r.pathOrder _ _ _ _ hj hk hc) c hj)
          rw [if_neg hleaf, if_pos (lt_nan_right nl hs)] at e
          rw [show T h' = _ from congrArg Prod.fst e]
          exact hs
    refine ⟨P, A, ds, L, e, ?_, e2, e3, e4, e5⟩
    intro h' hl
    have e := e1 h' hl
    unfold hNode at e
    by_cases hleaf : h' < leaves
    · rw [if_pos hleaf] at e
      exact ⟨fun _ => hleaf, fun _ => congrArg Prod.snd e⟩
    · have hc : ∃ c, ParentIs parents c h' := by
        by_contra hc
        exact hleaf ((r.tree.leaf h' hl).mpr hc)
      obtain ⟨c, hc⟩ := hc
      have hcm : c ∈ md.path := (r.pathMem c).mpr hc.lt
      obtain ⟨j, hj⟩ := List.getElem?_of_mem hcm
      have hs : isNaN (tsum T (kidsIn parents md.path h')).value :=
        tsum_nan nl (mem_kidsIn.mpr ⟨hcm, hc⟩) (hT j c hj)
      rw [if_neg hleaf, if_pos (lt_nan_right nl hs)] at e
      have : A h' = false := congrArg Prod.snd e
      simp [this, hleaf]
  have perm : ∀ (A : Nat → Bool) (ds L : List Nat), (∀ h, h < parents.length → (A h = true ↔ h < leaves)) →
      Greedy (hDecs leaves md.children) (hChoice A) [md.root] ds L → L.Perm (List.range leaves) := by
    intro A ds L hA hg
    have hl := greedy_leaves r hA hg (by intro s hs; simp at hs; subst hs; exact r.tree.rootLt)
    have hcov := hSol_leafCover r hg.sol
    classical
    rw [List.perm_iff_count]
    intro l
    by_cases hll : l < leaves
    · have h1 := exactlyOne_countP.mp (hcov.2 l hll)
      have h2 : L.count l = L.countP (fun x => decide (Under parents x l)) := by
        rw [List.count]
        apply List.countP_congr
        intro x hx
        have hu : l ∈ leavesUnder leaves parents x ↔ Under parents x l := by
          rw [mem_leavesUnder]
          exact ⟨fun h => h.2, fun h => ⟨hll, h⟩⟩
        rw [leavesUnder_leaf r.tree (hl x hx), Finset.mem_singleton] at hu
        simp only [beq_iff_eq, decide_eq_true_eq, ← hu]
        exact eq_comm
      rw [h2, h1, List.count_eq_one_of_mem List.nodup_range (by simpa using hll)]
    · rw [List.count_eq_zero_of_not_mem (fun hm => hll (hl l hm)),
        List.count_eq_zero_of_not_mem (by simpa using hll)]
  by_cases hF : Nonempty F
  · obtain ⟨p0⟩ := hF
    obtain ⟨P0, A0, ds0, L0, b1, b2, b3, _⟩ := step p0
    refine ⟨L0, perm A0 ds0 L0 b2 b3, fun p => ?_⟩
    obtain ⟨P, A, ds, L, e1, e2, e3, e4, e5, e6⟩ := step p
    have hsame : ∀ {st ds ds' L L' : List Nat}, (∀ s ∈ st, s < parents.length) →
        Greedy (hDecs leaves md.children) (hChoice A) st ds L →
        Greedy (hDecs leaves md.children) (hChoice A0) st ds' L' → L = L' := by
      intro st ds ds' L L' hs hg
      induction hg generalizing ds' L' with
      | nil => intro h'; cases h'; rfl
      | @cons s rest e succ ds L hk _ ih =>
        intro h'
        cases h' with
        | @cons _ _ e' succ' ds' L' hk' hs' =>
          have hsl : s < parents.length := hs s (by simp)
          have hAA : A s = A0 s := by
            have := (e2 s hsl).trans (b2 s hsl).symm
            cases h1 : A s <;> cases h2 : A0 s <;> simp_all
          have : hChoice A s = hChoice A0 s := by unfold hChoice; rw [hAA]
          rw [this, hk'] at hk
          simp only [Option.some.injEq, Prod.mk.injEq] at hk
          obtain ⟨rfl, rfl⟩ := hk
          rw [ih (fun x hx => ?_) hs']
          rcases List.mem_append.mp hx with hx | hx
          · exact hDecs_lt r hsl hk' x hx
          · exact hs x (by simp [hx])
    obtain rfl := hsame (by intro s hs; simp at hs; subst hs; exact r.tree.rootLt) e3 b3
    exact ⟨P, e1, e4, e5, e6⟩
  · exact ⟨List.range leaves, List.Perm.refl _, fun p => absurd ⟨p⟩ hF⟩


omit [FloatP F K] in
theorem sumQuality_nan (nl : NaNLaws isNaN) {l : List (Quality K)} {x : Quality K} (hx : x ∈ l) (h : NaNQuality isNaN x) :
    NaNQuality isNaN (sumQuality l) := by
  unfold sumQuality
  have step : ∀ a b : Quality K, NaNQuality isNaN a → NaNQuality isNaN (a.add b) := by
    rintro a b (h | h)
    · exact .inl (nl.add_left _ _ h)
    · exact .inr (nl.add_left _ _ h)
  have key : ∀ (l : List (Quality K)) (z : Quality K), NaNQuality isNaN z → NaNQuality isNaN (l.foldl Quality.add z) := by
    intro l
    induction l with
    | nil => intro z hz; exact hz
    | cons a l ih => intro z hz; exact ih _ (step _ _ hz)
  generalize (Quality.zero : Quality K) = z
  induction l generalizing z with
  | nil => simp at hx
  | cons a l ih =>
    rcases List.mem_cons.mp hx with rfl | hx
    · refine key l _ ?_
      rcases h with h | h
      · exact .inl (nl.add_right _ _ h)
      · exact .inr (nl.add_right _ _ h)
    · exact ih hx _

omit [FloatP F K] in
theorem add_nan (nl : NaNLaws isNaN) {a b : Quality K} (h : NaNQuality isNaN b) : NaNQuality isNaN (a.add b) := by
  rcases h with h | h
  · exact .inl (nl.add_right _ _ h)
  · exact .inr (nl.add_right _ _ h)

/-- The search when every parameter gives the same partition, with a NaN in its quality. -/
theorem search_nan (nl : NaNLaws isNaN) {P T : Type} {ops : PartOps F K P T} {lo hi : F} {a b : P}
    (ha : ops.best lo = .ok a) (hb : ops.best hi = .ok b) (hab : ops.same a b = true) (hba : ops.same b a = true)
    (hq : NaNQuality isNaN (ops.quality a)) (h1 : FloatP.lt lo hi = true) (h2 : FloatP.lt hi lo = false)
    (h3 : FloatP.lt lo lo = false) (h4 : FloatP.lt hi hi = false) (fuel : Nat) (t : F) (st : PState F K P T) :
    computeBestPartitions ops true (fuel + 1) t lo hi st = .error .badIterator ∧
    ∃ st', computeBestPartitions ops false (fuel + 1) t lo hi st = .ok st' ∧ st'.pList = [lo] ∧
      st'.partitions = [(lo, a)] ∧ st'.tuples = ops.rows lo a ∧ st'.qualityList = [(lo, ops.quality a)] ∧
      ∀ randMax : K, getP randMax 2 st' = .error .uninit := by
  have hadd : ∀ s : Acc F P, addBest ops t (fuel + 1) a b s = .ok s := by
    intro s
    rw [addBest, hab]
    rfl
  have hd : ∀ strict, computeBestPartitions ops strict (fuel + 1) t lo hi st = (do
      let acc ← (if strict then .error .badIterator else .ok ⟨[lo], [(lo, a)]⟩ : Res (Acc F P))
      return {
        pList := acc.pList
        partitions := acc.partitions
        tuples := acc.partitions.foldl (fun l e => l ++ ops.rows e.1 e.2) []
        qualityList := acc.partitions.foldl (fun m e => mapInsert e.1 (ops.quality e.2) m) [] }) := by
    intro strict
    unfold computeBestPartitions
    simp only [ha, okBind, hb, hadd]
    have e1 : dedup ops strict (([] ++ [lo] ++ [hi] : List F).length - 1)
        ⟨[] ++ [lo] ++ [hi], mapInsert hi b (mapInsert lo a [])⟩ =
        (if strict then .error .badIterator else .ok ⟨[lo], [(lo, a)]⟩ : Res (Acc F P)) := by
      simp only [List.nil_append, List.singleton_append, List.length_cons, List.length_nil, mapInsert, h1, h2]
      show dedup ops strict (0 + 1) _ = _
      rw [dedup]
      have g1 : mapFind hi ([(lo, a), (hi, b)] : List (F × P)) = some b := by
        simp [mapFind, h1, h4]
      have g2 : mapFind lo ([(lo, a), (hi, b)] : List (F × P)) = some a := by
        simp [mapFind, h3]
      have g3 : mapErase hi ([(lo, a), (hi, b)] : List (F × P)) = [(lo, a)] := by
        simp [mapErase, h1, h4]
      simp [vget, okBind, mapDeref, g1, g2, g3, hba, dedup]
    rw [e1]
  refine ⟨by rw [hd]; rfl, ⟨[lo], [(lo, a)], ops.rows lo a, [(lo, ops.quality a)]⟩, ?_, rfl, rfl, rfl, rfl, ?_⟩
  · rw [hd]
    simp [okBind, pureOk, mapInsert]
  · intro randMax
    have hs : isNaN (((ops.quality a).gain - 1) * ((ops.quality a).gain - 1) +
        (ops.quality a).loss * (ops.quality a).loss) := by
      rcases hq with h | h
      · exact nl.add_left _ _ (nl.mul_right _ _ (nl.sub_left _ _ h))
      · exact nl.add_right _ _ (nl.mul_right _ _ h)
    have hf : mapFind lo ([(lo, ops.quality a)] : List (F × Quality K)) = some (ops.quality a) := by simp [mapFind, h3]
    unfold getP computePOpt
    simp only [Int.reduceEq, if_false, if_true, forEach, mapDeref, hf, okBind, pureOk, nl.eq_left _ _ hs,
      decide_eq_false (nl.lt_left _ _ hs), Bool.or_self, Bool.false_eq_true]

/-! ## The arithmetic with infinities and NaN -/

/-- The numbers extended by infinities and NaN satisfy the laws of NaN. -/
theorem specialNaN (K : Type) [LD K] (h0 : ¬ (0 : K) < 0) (he : ((0 : K) == 0) = true)
    (hz : ∀ a : K, (a == 0) = true → ¬ a < 0 ∧ ¬ 0 < a) : NaNLaws (fun a : Special K => a = .nan) where
  add_left a b h := by subst h; rfl
  add_right a b h := by subst h; cases a <;> rfl
  sub_left a b h := by subst h; rfl
  sub_right a b h := by subst h; cases a <;> rfl
  mul_left a b h := by subst h; rfl
  mul_right a b h := by subst h; cases a <;> rfl
  div_left a b h := by subst h; rfl
  div_right a b h := by subst h; cases a <;> rfl
  zero_div_zero a b ha hb := by
    cases a with
    | num a =>
      cases b with
      | num b =>
        obtain ⟨a1, a2⟩ := hz a ha
        obtain ⟨b1, b2⟩ := hz b hb
        show Special.div (.num a) (.num b) = .nan
        rw [Special.div, if_neg (by tauto), Special.scale, if_neg a1, if_neg a2]
      | inf s => cases hb
      | nan => cases hb
    | inf s => cases ha
    | nan => cases ha
  zero_eq := he
  lt_left a b h := by subst h; intro h; cases h
  lt_right a b h := by subst h; cases a <;> (intro h; cases h)
  eq_left a b h := by subst h; rfl
  eq_right a b h := by subst h; cases a <;> rfl

/-- Exact numbers extended by infinities and NaN. -/
theorem exactNaN (K : Type) [Field K] [LinearOrder K] : NaNLaws (fun a : Special K => a = .nan) :=
  specialNaN K (lt_irrefl _) (by show decide _ = true; simp) (fun a h => by
    have : a = 0 := by simpa using (show decide (a = 0) = true from h)
    subst this
    exact ⟨lt_irrefl _, lt_irrefl _⟩)

end Lp

import Verif.Proofs.Path
import Verif.Proofs.Vec
import Verif.Proofs.Dp
import Verif.Model.HPartition

/-!
# The hierarchical partitioner as a greedy derivation
-/

namespace Lp
open Spec
variable {F K : Type} [LD K] [FloatP F K]
variable {leaves : Nat} {parents : List Int} {md : HMeta}

/-- Sum of tradeoffs in list order, as accumulated by `+=`. -/
def tsum (T : Nat → Tradeoff K) (l : List Nat) : Tradeoff K := l.foldl (fun a c => a.add (T c)) Tradeoff.zero

omit [FloatP F K] in
theorem tsum_append (T : Nat → Tradeoff K) (l : List Nat) (x : Nat) :
    tsum T (l ++ [x]) = (tsum T l).add (T x) := by simp [tsum]

omit [FloatP F K] in
theorem tsum_congr {T T' : Nat → Tradeoff K} {l : List Nat} (h : ∀ c ∈ l, T c = T' c) : tsum T l = tsum T' l := by
  unfold tsum
  generalize (Tradeoff.zero : Tradeoff K) = z
  induction l generalizing z with
  | nil => rfl
  | cons a l ih =>
    simp only [List.foldl_cons]
    rw [h a (by simp)]
    exact ih (fun c hc => h c (by simp [hc])) _

/-- What the code stores for node `h`: tradeoff and `aggregated` flag. -/
def hNode (leaves : Nat) (parents : List Int) (path : List Nat) (Q : Nat → Quality K) (p : F)
    (T : Nat → Tradeoff K) (h : Nat) : Tradeoff K × Bool :=
  if h < leaves then (Tradeoff.set (Q h) p, true)
  else if (Tradeoff.set (Q h) p).lt (tsum T (kidsIn parents path h))
    then (tsum T (kidsIn parents path h), false) else (Tradeoff.set (Q h) p, true)

theorem hNode_congr {Q : Nat → Quality K} {p : F} {path : List Nat} {T T' : Nat → Tradeoff K} {h : Nat}
    (e : ∀ c ∈ kidsIn parents path h, T c = T' c) :
    hNode leaves parents path Q p T h = hNode leaves parents path Q p T' h := by
  unfold hNode; rw [tsum_congr e]

/-- Invariant after the first `k` nodes of the path. -/
structure HInv (leaves : Nat) (parents : List Int) (md : HMeta) (Q : Nat → Quality K) (p : F) (k : Nat)
    (s : HBest K) (T C : Nat → Tradeoff K) (A : Nat → Bool) : Prop where
  tr : VRep s.tr parents.length T
  ch : VRep s.ch parents.length C
  agg : VRep s.agg parents.length A
  done : ∀ j h : Nat, j < k → md.path[j]? = some h → (T h, A h) = hNode leaves parents md.path Q p T h
  sums : ∀ h, h < parents.length → C h = tsum T (kidsIn parents (md.path.take k) h)
  rest : ∀ h, h < parents.length → h ∉ md.path.take k → A h = true

variable {q : List (Quality K)} {Q : Nat → Quality K} {p : F} {k : Nat} {s : HBest K}
  {T C : Nat → Tradeoff K} {A : Nat → Bool}

/-- Entering node `h = path[k]` into the tables. -/
theorem HInv.enter (r : RightMeta leaves parents md) (hi : HInv leaves parents md Q p k s T C A) {h : Nat}
    (hk : md.path[k]? = some h) {s' : HBest K}
    (htr : VRep s'.tr parents.length (vupd T h (hNode leaves parents md.path Q p T h).1))
    (hch : VRep s'.ch parents.length C)
    (hag : VRep s'.agg parents.length (vupd A h (hNode leaves parents md.path Q p T h).2)) :
    (∀ j x : Nat, j < k + 1 → md.path[j]? = some x →
      (vupd T h (hNode leaves parents md.path Q p T h).1 x, vupd A h (hNode leaves parents md.path Q p T h).2 x) =
        hNode leaves parents md.path Q p (vupd T h (hNode leaves parents md.path Q p T h).1) x) ∧
    (∀ x, x < parents.length → C x = tsum (vupd T h (hNode leaves parents md.path Q p T h).1)
      (kidsIn parents (md.path.take k) x)) ∧
    (∀ x, x < parents.length → x ∉ md.path.take (k + 1) →
      vupd A h (hNode leaves parents md.path Q p T h).2 x = true) := by
  have hnot : h ∉ md.path.take k := r.notMem_take hk
  refine ⟨?_, ?_, ?_⟩
  · intro j x hj hx
    have e : hNode leaves parents md.path Q p (vupd T h (hNode leaves parents md.path Q p T h).1) x =
        hNode leaves parents md.path Q p T x := by
      apply hNode_congr
      intro c hc
      rw [← r.kidsTake hx] at hc
      have hcm := (mem_kidsIn.mp hc).1
      have : c ≠ h := by
        rintro rfl
        exact hnot (List.take_subset_take_left _ (by omega) hcm)
      exact vupd_ne this
    rw [e]
    by_cases hxh : x = h
    · subst hxh; simp
    · rw [vupd_ne hxh, vupd_ne hxh]
      have : j < k := by
        by_contra hc
        have : j = k := by omega
        subst this
        rw [hk] at hx
        exact hxh (Option.some.inj hx).symm
      exact hi.done j x this hx
  · intro x hx
    rw [hi.sums x hx]
    apply tsum_congr
    intro c hc
    have : c ≠ h := by
      rintro rfl
      exact hnot (mem_kidsIn.mp hc).1
    rw [vupd_ne this]
  · intro x hx hn
    rw [RightMeta.take_succ hk, List.mem_append] at hn
    have : x ≠ h := fun e => hn (Or.inr (by simp [e]))
    rw [vupd_ne this]
    exact hi.rest x hx (fun h' => hn (Or.inl h'))

/-- Setting and choosing at a node. -/
theorem hbSet_spec (hq : VRep q parents.length Q) (hi : HInv leaves parents md Q p k s T C A) {h : Nat}
    (hl : h < parents.length) :
    ∃ s', hbSet q p h s = .ok s' ∧ VRep s'.tr parents.length (vupd T h (Tradeoff.set (Q h) p)) ∧
      s'.ch = s.ch ∧ s'.agg = s.agg := by
  unfold hbSet
  rw [hq.get hl]
  obtain ⟨tr, h1, h2⟩ := hi.tr.set (Tradeoff.set (Q h) p) hl
  simp only [okBind, h1]
  exact ⟨_, rfl, h2, rfl, rfl⟩

theorem hbNode_spec (r : RightMeta leaves parents md) (hq : VRep q parents.length Q)
    (hi : HInv leaves parents md Q p k s T C A) {h : Nat} (hk : md.path[k]? = some h) (hin : ¬ h < leaves) :
    ∃ s', (hbSet q p h s >>= hbChoose h) = .ok s' ∧
      VRep s'.tr parents.length (vupd T h (hNode leaves parents md.path Q p T h).1) ∧
      VRep s'.ch parents.length C ∧
      VRep s'.agg parents.length (vupd A h (hNode leaves parents md.path Q p T h).2) := by
  have hl : h < parents.length := (r.pathMem h).mp (List.mem_of_getElem? hk)
  obtain ⟨s1, h1, h2, h3, h4⟩ := hbSet_spec (p := p) hq hi hl
  rw [h1]
  simp only [okBind]
  unfold hbChoose
  rw [h2.get hl, h3, hi.ch.get hl]
  simp only [okBind, vupd_same]
  rw [hi.sums h hl, r.kidsTake hk]
  have hA : A h = true := hi.rest h hl (r.notMem_take hk)
  by_cases hc : (Tradeoff.set (Q h) p).lt (tsum T (kidsIn parents md.path h)) = true
  · obtain ⟨agg, g1, g2⟩ := hi.agg.set false hl
    obtain ⟨tr, g3, g4⟩ := h2.set (tsum T (kidsIn parents md.path h)) hl
    simp only [hc, if_true, h4, g1, g3, okBind, pureOk]
    refine ⟨_, rfl, ?_, ?_, ?_⟩
    · apply g4.congr
      intro x _
      by_cases e : x = h
      · subst e; simp [hNode, hin, hc]
      · rw [vupd_ne e, vupd_ne e, vupd_ne e]
    · simp only [h3]; exact hi.ch
    · apply g2.congr
      intro x _
      by_cases e : x = h
      · subst e; simp [hNode, hin, hc]
      · rw [vupd_ne e, vupd_ne e]
  · simp only [hc, pureOk]
    refine ⟨_, rfl, ?_, ?_, ?_⟩
    · apply h2.congr
      intro x _
      by_cases e : x = h
      · subst e; simp [hNode, hin, hc]
      · rw [vupd_ne e, vupd_ne e]
    · rw [h3]; exact hi.ch
    · rw [h4]
      apply hi.agg.congr
      intro x _
      by_cases e : x = h
      · subst e; simp [hNode, hin, hc, hA]
      · rw [vupd_ne e]

theorem hbLeafSet_spec (r : RightMeta leaves parents md) (hq : VRep q parents.length Q)
    (hi : HInv leaves parents md Q p k s T C A) {h : Nat} (hk : md.path[k]? = some h) (hin : h < leaves) :
    ∃ s', hbSet q p h s = .ok s' ∧
      VRep s'.tr parents.length (vupd T h (hNode leaves parents md.path Q p T h).1) ∧
      VRep s'.ch parents.length C ∧
      VRep s'.agg parents.length (vupd A h (hNode leaves parents md.path Q p T h).2) := by
  have hl : h < parents.length := (r.pathMem h).mp (List.mem_of_getElem? hk)
  obtain ⟨s1, h1, h2, h3, h4⟩ := hbSet_spec (p := p) hq hi hl
  have hA : A h = true := hi.rest h hl (r.notMem_take hk)
  refine ⟨s1, h1, ?_, by rw [h3]; exact hi.ch, ?_⟩
  · simpa [hNode, hin] using h2
  · rw [h4]
    apply hi.agg.congr
    intro x _
    by_cases e : x = h
    · subst e; simp [hNode, hin, hA]
    · rw [vupd_ne e]

/-- Pushing the tradeoff of `h` to its parent. -/
theorem hbPush_spec (r : RightMeta leaves parents md) (hi : HInv leaves parents md Q p k s T C A) {h : Nat}
    (hk : md.path[k]? = some h) (hlt : k + 1 < parents.length) {s' : HBest K}
    (htr : VRep s'.tr parents.length (vupd T h (hNode leaves parents md.path Q p T h).1))
    (hch : VRep s'.ch parents.length C)
    (hag : VRep s'.agg parents.length (vupd A h (hNode leaves parents md.path Q p T h).2)) :
    ∃ s'' T' C' A', hbPush md h s' = .ok s'' ∧ HInv leaves parents md Q p (k + 1) s'' T' C' A' := by
  have hl : h < parents.length := (r.pathMem h).mp (List.mem_of_getElem? hk)
  obtain ⟨px, hp, hpl, hpo, hpn⟩ := r.par hk hlt
  obtain ⟨e1, e2, e3⟩ := hi.enter r hk htr hch hag
  unfold hbPush
  rw [hpo]
  obtain ⟨ch, g1, g2⟩ := hch.set ((C px).add (vupd T h (hNode leaves parents md.path Q p T h).1 h)) hpl
  simp only [okBind, htr.get hl, hch.get hpl, g1]
  refine ⟨_, _, _, _, rfl, htr, g2, hag, e1, ?_, e3⟩
  intro x hx
  rw [RightMeta.take_succ hk, kidsIn_append_one hp]
  by_cases e : x = px
  · subst e
    rw [if_pos rfl, tsum_append, vupd_same, e2 x hx]
  · rw [if_neg e, List.append_nil, vupd_ne e, e2 x hx]

/-- The tables after the whole loop. -/
theorem hbLoop_spec (r : RightMeta leaves parents md) (hlt : leaves < parents.length)
    (hq : VRep q parents.length Q) (p : F) :
    ∃ s T A, hbLoop q p md = .ok s ∧ VRep s.tr parents.length T ∧ VRep s.agg parents.length A ∧
      ∀ h, h < parents.length → (T h, A h) = hNode leaves parents md.path Q p T h := by
  unfold hbLoop
  rw [r.hsize, r.leaveSize]
  have h0 : HInv leaves parents md Q p 0
      (⟨List.replicate parents.length Tradeoff.zero, List.replicate parents.length Tradeoff.zero,
        List.replicate parents.length true⟩ : HBest K) (fun _ => Tradeoff.zero) (fun _ => Tradeoff.zero)
      (fun _ => true) :=
    ⟨VRep.replicate _ _, VRep.replicate _ _, VRep.replicate _ _, fun j h hj => by omega,
      fun h _ => by simp [kidsIn, tsum], fun _ _ _ => rfl⟩
  obtain ⟨s1, a1, T1, C1, A1, i1⟩ := forUp_inv (f := fun i s => hbLeaf q p md i s) (lo := 0) (hi := leaves)
    (s := (⟨List.replicate parents.length Tradeoff.zero, List.replicate parents.length Tradeoff.zero,
        List.replicate parents.length true⟩ : HBest K))
    (fun k s => ∃ T C A, HInv leaves parents md Q p k s T C A) (by omega) ⟨_, _, _, h0⟩ (by
      rintro k s _ hk2 ⟨T, C, A, hi⟩
      have hk := r.pathLeaves k hk2
      obtain ⟨s', b1, b2, b3, b4⟩ := hbLeafSet_spec (p := p) r hq hi hk hk2
      obtain ⟨s'', T', C', A', c1, c2⟩ := hbPush_spec r hi hk (by omega) b2 b3 b4
      refine ⟨s'', ?_, T', C', A', c2⟩
      unfold hbLeaf
      rw [vget_eq_ok.mpr hk]
      simp only [okBind, b1, c1])
  simp only [a1, okBind]
  obtain ⟨hm, hm1, _⟩ := r.at_ hlt
  rw [vget_eq_ok.mpr hm1]
  simp only [okBind]
  obtain ⟨s2, a2, T2, C2, A2, i2⟩ := forUp_inv (f := fun i s => hbInner q p md i s) (lo := leaves)
    (hi := parents.length - 1) (s := s1)
    (fun k s => ∃ T C A, HInv leaves parents md Q p k s T C A) (by omega) ⟨T1, C1, A1, i1⟩ (by
      rintro k s hk1 hk2 ⟨T, C, A, hi⟩
      obtain ⟨h, hk, _⟩ := r.at_ (show k < parents.length by omega)
      have hin : ¬ h < leaves := by rw [r.leafIff hk]; omega
      obtain ⟨s', b1, b2, b3, b4⟩ := hbNode_spec (p := p) r hq hi hk hin
      obtain ⟨s'', T', C', A', c1, c2⟩ := hbPush_spec r hi hk (by omega) b2 b3 b4
      refine ⟨s'', ?_, T', C', A', c2⟩
      unfold hbInner
      rw [vget_eq_ok.mpr hk]
      simp only [okBind]
      rw [← c1]
      rcases hst : hbSet q p h s with e | s3
      · rw [hst] at b1; simp at b1
      · rw [hst] at b1; simp only [okBind] at b1 ⊢; rw [b1]; rfl)
  simp only [a2, okBind]
  have hmax : max leaves (parents.length - 1) = parents.length - 1 := by omega
  rw [hmax, vget_eq_ok.mpr r.last]
  simp only [okBind]
  obtain ⟨s3, b1, b2, b3, b4⟩ := hbNode_spec (p := p) r hq i2 r.last (r.rootInner hlt)
  obtain ⟨e1, _, _⟩ := i2.enter r r.last b2 b3 b4
  refine ⟨s3, _, _, b1, b2, b4, ?_⟩
  intro h hh
  obtain ⟨j, hj, hjp⟩ := r.pos hh
  exact e1 j h (by omega) hjp

/-! ## Reading the parts off the flags -/

/-- Decisions at a node: aggregate it, or (inner node) replace it by its children. -/
def hDecs (leaves : Nat) (children : List (List Nat)) : Decs Nat Nat := fun h =>
  if h < leaves then [([h], [])] else [([h], []), ([], (children[h]?).getD [])]

/-- The decision of the code. -/
def hChoice (A : Nat → Bool) (h : Nat) : Nat := if A h then 0 else 1

/-- The part object of a node. -/
def hPartOf (md : HMeta) (Q : Nat → Quality K) (h : Nat) : HPart K := ⟨h, md.sizeOf h, Q h⟩

theorem hDecs_inner {children : List (List Nat)} {h : Nat} {ch : List Nat} (hi : ¬ h < leaves)
    (hc : children[h]? = some ch) : hDecs leaves children h = [([h], []), ([], ch)] := by
  unfold hDecs; rw [if_neg hi, hc]; rfl

theorem hDecs_leaf {children : List (List Nat)} {h : Nat} (hi : h < leaves) :
    hDecs leaves children h = [([h], [])] := by
  unfold hDecs; rw [if_pos hi]

omit [LD K] in
theorem hSubPart_spec (r : RightMeta leaves parents md) (hq : VRep q parents.length Q) {agg : List Bool}
    (hA : VRep agg parents.length A) (hleaf : ∀ h, h < leaves → A h = true) :
    ∀ fuel k h parts, md.path[k]? = some h → k < fuel →
      ∃ ds L, hSubPart agg q md fuel h parts = .ok (parts ++ L.map (hPartOf md Q)) ∧
        Greedy (hDecs leaves md.children) (hChoice A) [h] ds L := by
  intro fuel
  induction fuel with
  | zero => intro k h parts _ hf; omega
  | succ fuel ih =>
    intro k h parts hk hf
    have hl : h < parents.length := (r.pathMem h).mp (List.mem_of_getElem? hk)
    unfold hSubPart
    rw [hA.get hl]
    simp only [okBind]
    have h0 : (hDecs leaves md.children h)[0]? = some ([h], []) := by
      unfold hDecs; split <;> rfl
    cases hAh : A h with
    | true =>
      simp only [if_true, hq.get hl, okBind, pureOk]
      refine ⟨[0], [h], rfl, ?_⟩
      have e : hChoice A h = 0 := by simp [hChoice, hAh]
      have := Greedy.cons (decs := hDecs leaves md.children) (D := hChoice A) (s := h) (rest := []) (e := [h])
        (succ := []) (ds := []) (L := []) (by rw [e]; exact h0) .nil
      rw [e] at this
      exact this
    | false =>
      have hin : ¬ h < leaves := fun hl' => by rw [hleaf h hl'] at hAh; simp at hAh
      obtain ⟨ch, hch, _, hmem⟩ := r.kidsPerm hl
      rw [vget_eq_ok.mpr hch]
      simp only [Bool.false_eq_true, if_false, okBind]
      obtain ⟨parts', e1, ds, L, e2, e3⟩ := forEach_inv
        (f := fun c parts => hSubPart agg q md fuel c parts)
        (fun pre parts' => ∃ ds L, parts' = parts ++ L.map (hPartOf md Q) ∧
          Greedy (hDecs leaves md.children) (hChoice A) pre ds L) ch parts
        ⟨[], [], by simp, .nil⟩ (by
          rintro pre c post parts1 hpre ⟨ds, L, rfl, hg⟩
          have hc : ParentIs parents c h := (hmem c).mp (by rw [hpre]; simp)
          obtain ⟨j, _, hj⟩ := r.pos hc.lt
          have := r.pathOrder _ _ _ _ hj hk hc
          obtain ⟨ds', L', g1, g2⟩ := ih j c (parts ++ L.map (hPartOf md Q)) hj (by omega)
          refine ⟨_, g1, ds ++ ds', L ++ L', by simp, hg.append g2⟩)
      refine ⟨1 :: ds, L, by rw [e1, e2], ?_⟩
      have e : hChoice A h = 1 := by simp [hChoice, hAh]
      have := Greedy.cons (decs := hDecs leaves md.children) (D := hChoice A) (s := h) (rest := []) (e := [])
        (succ := ch) (ds := ds) (L := L) (by rw [e, hDecs_inner hin hch]; rfl) (by simpa using e3)
      rw [e] at this
      exact this

/-- `computeBestPartition` succeeds; its parts are the greedy derivation for tables that satisfy the recursive
equations. -/
theorem hBest_spec (r : RightMeta leaves parents md) (hlt : leaves < parents.length)
    (hq : VRep q parents.length Q) (p : F) :
    ∃ (P : HPartition F K) (T : Nat → Tradeoff K) (A : Nat → Bool) (ds L : List Nat),
      hBestPartition q md p = .ok P ∧
      (∀ h, h < parents.length → (T h, A h) = hNode leaves parents md.path Q p T h) ∧
      Greedy (hDecs leaves md.children) (hChoice A) [md.root] ds L ∧
      P.parts = L.map (hPartOf md Q) ∧ P.quality = sumQuality (L.map Q) ∧ P.parameter = p := by
  obtain ⟨s, T, A, h1, h2, h3, h4⟩ := hbLoop_spec r hlt hq p
  have hleaf : ∀ h, h < leaves → A h = true := by
    intro h hh
    have := h4 h (by omega)
    unfold hNode at this
    rw [if_pos hh] at this
    exact (Prod.mk.inj this).2
  obtain ⟨ds, L, e1, e2⟩ := hSubPart_spec r hq h3 hleaf (md.hsize + 1) (parents.length - 1) md.root [] r.last
    (by rw [r.hsize]; omega)
  refine ⟨⟨p, s.agg, L.map (hPartOf md Q), sumQuality (L.map Q)⟩, T, A, ds, L, ?_, h4, e2, rfl, rfl, rfl⟩
  unfold hBestPartition mkHPartition
  simp only [h1, okBind, e1, List.nil_append, List.map_map]
  rfl

end Lp

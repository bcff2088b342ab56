import Verif.Proofs.Renumber
import Verif.Proofs.SearchRel
import Verif.Proofs.Series
import Verif.Props.C38
import Verif.Props.C57

/-!
# C60 — the results do not depend on how the nodes of the hierarchy are numbered

`Renumbering parents parents' σ` (`Spec/Renumber.lean`): two parent vectors describe the same hierarchy, node `h` of the first
being node `σ h` of the second.  The library reads both right (`RightMeta`; see `numberingMatters` for what happens
otherwise).  `hadd` is the only thing assumed of the arithmetic: the order of the summands does not matter.  With `σ` the
identity the theorems say that the visiting order and the order of the children do not matter.
-/

namespace Lp.C60
open Spec
variable {F K : Type}

/-- The same hierarchical partition in the other numbering: same parts, same sizes and qualities, same total quality, up to
the order in which the parts are listed. -/
def HSame (σ : Nat → Nat) (P P' : HPartition F K) : Prop :=
  P'.parts.Perm (P.parts.map (fun x => ⟨σ x.h, x.size, x.quality⟩)) ∧ P'.quality = P.quality ∧ P'.parameter = P.parameter

/-- The same spatiotemporal partition in the other numbering. -/
def DSame (σ : Nat → Nat) (P P' : DPartition F K) : Prop :=
  P'.parts.Perm (P.parts.map (fun x => ⟨σ x.h, x.hsize, x.start, x.end, x.quality⟩)) ∧ P'.quality = P.quality ∧
    P'.parameter = P.parameter

/-- The outcomes of two searches agree: both end in the same fault, or both find the same parameters and the same qualities,
and with every parameter the same partition; the rows of the two tables are the same up to order and numbering. -/
def SearchesAgree {P P' T T' : Type} (same : P → P' → Prop) (row : T → T') (a : Res (PState F K P T))
    (b : Res (PState F K P' T')) : Prop :=
  (∀ e, a = .error e ↔ b = .error e) ∧
  ∀ s s', a = .ok s → b = .ok s' → s'.pList = s.pList ∧ s'.qualityList = s.qualityList ∧
    List.Forall₂ (fun x y => x.1 = y.1 ∧ same x.2 y.2) s.partitions s'.partitions ∧ s'.tuples.Perm (s.tuples.map row)

theorem agree_aux {P P' T T' : Type} {R same : P → P' → Prop} (hR : ∀ a a', R a a' → same a a') {row : T → T'}
    {a : Res (PState F K P T)} {b : Res (PState F K P' T')} (h : RelRes (StateRel R row) a b) :
    SearchesAgree same row a b := by
  cases a with
  | error e =>
    cases b with
    | error e' =>
      obtain rfl : e = e' := h
      exact ⟨fun x => by simp, fun s s' hs => by simp at hs⟩
    | ok s' => exact h.elim
  | ok s =>
    cases b with
    | error e' => exact h.elim
    | ok s' =>
      have h : StateRel R row s s' := h
      refine ⟨fun x => by simp, fun u u' hu hu' => ?_⟩
      obtain rfl := Except.ok.inj hu
      obtain rfl := Except.ok.inj hu'
      exact ⟨h.pList, h.qualityList, h.partitions.imp (fun x y hxy => ⟨hxy.1, hR _ _ hxy.2⟩), h.tuples⟩

section
variable [LD K] [FloatP F K]

theorem hSame_aux (hadd : ∀ a b c : K, a + b + c = a + c + b) (leaves : Nat) (parents parents' : List Int) (σ : Nat → Nat)
    (hσ : Renumbering parents parents' σ) (md md' : HMeta) (r : RightMeta leaves parents md)
    (r' : RightMeta leaves parents' md') (hlt : leaves < parents.length) (q q' : List (Quality K))
    (Q Q' : Nat → Quality K) (hq : VRep q parents.length Q) (hq' : VRep q' parents'.length Q')
    (hQ : ∀ h, h < parents.length → Q' (σ h) = Q h) (p : F) :
    ∃ P P' : HPartition F K, hBestPartition q md p = .ok P ∧ hBestPartition q' md' p = .ok P' ∧ HSame σ P P' := by
  obtain ⟨P, P', h1, h2, h3, h4⟩ := hBest_renumber hadd hσ r r' hlt hq hq' hQ p
  obtain ⟨R, _, _, _, _, a1, _, _, _, _, a6⟩ := hBest_spec r hlt hq p
  obtain ⟨R', _, _, _, _, b1, _, _, _, _, b6⟩ := hBest_spec r' (by rw [hσ.length]; exact hlt) hq' p
  rw [h1] at a1; obtain rfl := Except.ok.inj a1
  rw [h2] at b1; obtain rfl := Except.ok.inj b1
  exact ⟨P, P', h1, h2, h3, h4, by rw [b6, a6]⟩

/-- Hierarchical partitions, for qualities given node by node. -/
theorem hierarchicalGiven (hadd : ∀ a b c : K, a + b + c = a + c + b) (leaves : Nat) (parents parents' : List Int)
    (σ : Nat → Nat) (hσ : Renumbering parents parents' σ) (md md' : HMeta) (hmd : RightMeta leaves parents md)
    (hmd' : RightMeta leaves parents' md') (hlt : leaves < parents.length) (q q' : List (Quality K))
    (hq : q.length = parents.length) (hq' : q'.length = parents.length)
    (hQ : ∀ h, h < parents.length → q'[σ h]? = q[h]?) :
    (∀ p : F, ∃ P P' : HPartition F K, hBestPartition q md p = .ok P ∧ hBestPartition q' md' p = .ok P' ∧ HSame σ P P') ∧
    ∀ (strict : Bool) (fuel : Nat) (t lo hi : F) (st st' : PState F K (HPartition F K) (F × Nat × Nat × K × K)),
      SearchesAgree (HSame σ) (fun x => (x.1, σ x.2.1, x.2.2))
        (computeBestPartitions (hOps q md) strict fuel t lo hi st)
        (computeBestPartitions (hOps q' md') strict fuel t lo hi st') := by
  have v1 : VRep q parents.length (fun h => (q[h]?).getD Quality.zero) :=
    ⟨hq, fun h hh => by rw [List.getElem?_eq_getElem (by omega)]; rfl⟩
  have v2 : VRep q' parents'.length (fun h => (q'[h]?).getD Quality.zero) :=
    ⟨by rw [hσ.length]; exact hq', fun h hh => by
      rw [hσ.length] at hh; rw [List.getElem?_eq_getElem (by omega)]; rfl⟩
  have main := hSame_aux (F := F) hadd leaves parents parents' σ hσ md md' hmd hmd' hlt q q' _ _ v1 v2
    (fun h hh => by rw [hQ h hh])
  refine ⟨main, fun strict fuel t lo hi st st' => ?_⟩
  let R : HPartition F K → HPartition F K → Prop := fun P P' =>
    ∃ p : F, hBestPartition q md p = .ok P ∧ hBestPartition q' md' p = .ok P' ∧ HSame σ P P'
  refine agree_aux (R := R) (fun a a' h => by obtain ⟨p, _, _, h⟩ := h; exact h) (search_rel ?_ _ ?_ strict fuel t lo hi st st')
  · refine ⟨?_, ?_, ?_, ?_⟩
    · intro p
      obtain ⟨P, P', h1, h2, h3⟩ := main p
      change RelRes R (hBestPartition q md p) (hBestPartition q' md' p)
      rw [h1, h2]
      exact ⟨p, h1, h2, h3⟩
    · rintro a a' b b' ⟨p, a1, a2, a3⟩ ⟨p', b1, b2, b3⟩
      change a'.eqOp b' = a.eqOp b
      rw [Bool.eq_iff_iff,
        C38.hierarchical leaves parents' md' hmd' (by rw [hσ.length]; exact hlt) q' q' _ _ v2 v2 p p' a' b' a2 b2,
        C38.hierarchical leaves parents md hmd hlt q q _ _ v1 v1 p p' a b a1 b1]
      have img : ∀ P P' : HPartition F K, HSame σ P P' → C38.nodes P' = σ '' C38.nodes P := by
        intro P P' h
        ext x
        unfold C38.nodes
        simp only [Set.mem_ofPred_eq, Set.mem_image, h.1.mem_iff, List.mem_map]
        constructor
        · rintro ⟨_, ⟨y, hy, rfl⟩, rfl⟩; exact ⟨y.h, ⟨y, hy, rfl⟩, rfl⟩
        · rintro ⟨_, ⟨y, hy, rfl⟩, rfl⟩; exact ⟨_, ⟨y, hy, rfl⟩, rfl⟩
      have lt : ∀ (P : HPartition F K) (p : F), hBestPartition q md p = .ok P → ∀ x ∈ C38.nodes P, x < parents.length := by
        intro P p e x hx
        obtain ⟨P0, L, c1, c2, c3, _⟩ := C18.cover leaves parents md hmd hlt q _ v1 p
        rw [e] at c1; obtain rfl := Except.ok.inj c1
        unfold C38.nodes at hx
        rw [c3] at hx
        simp only [Set.mem_ofPred_eq, List.mem_map] at hx
        obtain ⟨_, ⟨y, hy, rfl⟩, rfl⟩ := hx
        exact c2.1 y hy
      rw [img _ _ a3, img _ _ b3]
      constructor
      · intro h
        have inj : Set.InjOn σ {x | x < parents.length} := fun x hx y hy e => hσ.inj x y hx hy e
        exact inj.image_eq_image_iff (lt a p a1) (lt b p' b1) |>.mp h
      · intro h; rw [h]
    · rintro a a' ⟨p, _, _, h⟩; exact h.2.2
    · rintro a a' ⟨p, _, _, h⟩; exact h.2.1
  · rintro p a a' ⟨_, _, _, h⟩
    change (a'.parts.map _).Perm ((a.parts.map _).map _)
    refine (h.1.map _).trans ?_
    rw [List.map_map, List.map_map]
    exact List.Perm.refl _

theorem dSame_aux (hadd : ∀ a b c : K, a + b + c = a + c + b) (leaves : Nat) (parents parents' : List Int) (σ : Nat → Nat)
    (hσ : Renumbering parents parents' σ) (md md' : HMeta) (r : RightMeta leaves parents md)
    (r' : RightMeta leaves parents' md') (n : Nat) (h0 : 0 < n) (hn : n ≤ 65535) (q q' : List (UTM (Quality K)))
    (Q Q' : Nat → Nat → Nat → Quality K) (hq : MRep q parents.length n Q) (hq' : MRep q' parents'.length n Q')
    (hQ : ∀ h i j, h < parents.length → i ≤ j → j < n → Q' (σ h) i j = Q h i j) (p : F) :
    ∃ P P' : DPartition F K, dBestPartition q md p = .ok P ∧ dBestPartition q' md' p = .ok P' ∧ DSame σ P P' := by
  obtain ⟨P, P', h1, h2, h3, h4⟩ := dBest_renumber hadd hσ r r' h0 hn hq hq' hQ p
  obtain ⟨R, _, _, _, _, a1, _, _, _, _, a6⟩ := dBest_spec r hq h0 hn p
  obtain ⟨R', _, _, _, _, b1, _, _, _, _, b6⟩ := dBest_spec r' hq' h0 hn p
  rw [h1] at a1; obtain rfl := Except.ok.inj a1
  rw [h2] at b1; obtain rfl := Except.ok.inj b1
  exact ⟨P, P', h1, h2, h3, h4, by rw [b6, a6]⟩

/-- Spatiotemporal partitions, for qualities given node by node and interval by interval. -/
theorem spatiotemporalGiven (hadd : ∀ a b c : K, a + b + c = a + c + b) (leaves : Nat) (parents parents' : List Int)
    (σ : Nat → Nat) (hσ : Renumbering parents parents' σ) (md md' : HMeta) (hmd : RightMeta leaves parents md)
    (hmd' : RightMeta leaves parents' md') (n : Nat) (h0 : 0 < n) (hn : n ≤ 65535) (q q' : List (UTM (Quality K)))
    (Q Q' : Nat → Nat → Nat → Quality K) (hq : MRep q parents.length n Q) (hq' : MRep q' parents'.length n Q')
    (hQ : ∀ h i j, h < parents.length → i ≤ j → j < n → Q' (σ h) i j = Q h i j) :
    (∀ p : F, ∃ P P' : DPartition F K, dBestPartition q md p = .ok P ∧ dBestPartition q' md' p = .ok P' ∧ DSame σ P P') ∧
    ∀ (strict : Bool) (fuel : Nat) (t lo hi : F)
      (st st' : PState F K (DPartition F K) (F × Nat × Int × Nat × Nat × K × K)),
      SearchesAgree (DSame σ) (fun x => (x.1, σ x.2.1, x.2.2))
        (computeBestPartitions (dOps q md) strict fuel t lo hi st)
        (computeBestPartitions (dOps q' md') strict fuel t lo hi st') := by
  have main := dSame_aux (F := F) hadd leaves parents parents' σ hσ md md' hmd hmd' n h0 hn q q' Q Q' hq hq' hQ
  refine ⟨main, fun strict fuel t lo hi st st' => ?_⟩
  let R : DPartition F K → DPartition F K → Prop := fun P P' =>
    ∃ p : F, dBestPartition q md p = .ok P ∧ dBestPartition q' md' p = .ok P' ∧ DSame σ P P'
  refine agree_aux (R := R) (fun a a' h => by obtain ⟨p, _, _, h⟩ := h; exact h) (search_rel ?_ _ ?_ strict fuel t lo hi st st')
  · refine ⟨?_, ?_, ?_, ?_⟩
    · intro p
      obtain ⟨P, P', h1, h2, h3⟩ := main p
      change RelRes R (dBestPartition q md p) (dBestPartition q' md' p)
      rw [h1, h2]
      exact ⟨p, h1, h2, h3⟩
    · rintro a a' b b' ⟨p, a1, a2, a3⟩ ⟨p', b1, b2, b3⟩
      change a'.eqOp b' = a.eqOp b
      rw [Bool.eq_iff_iff,
        C38.spatiotemporal leaves parents' md' hmd' n h0 hn q' q' _ _ hq' hq' p p' a' b' a2 b2,
        C38.spatiotemporal leaves parents md hmd n h0 hn q q _ _ hq hq p p' a b a1 b1]
      let ψ : Rect → Rect := fun x => ⟨σ x.node, x.first, x.last⟩
      have img : ∀ P P' : DPartition F K, DSame σ P P' → C38.rects P' = ψ '' C38.rects P := by
        intro P P' h
        ext x
        unfold C38.rects
        simp only [Set.mem_ofPred_eq, Set.mem_image, h.1.mem_iff, List.mem_map]
        constructor
        · rintro ⟨_, ⟨y, hy, rfl⟩, rfl⟩; exact ⟨_, ⟨y, hy, rfl⟩, rfl⟩
        · rintro ⟨_, ⟨y, hy, rfl⟩, rfl⟩; exact ⟨_, ⟨y, hy, rfl⟩, rfl⟩
      have lt : ∀ (P : DPartition F K) (p : F), dBestPartition q md p = .ok P → ∀ x ∈ C38.rects P,
          x.node < parents.length := by
        intro P p e x hx
        obtain ⟨P0, L, c1, c2, c3, _⟩ := C20.cover leaves parents md hmd n h0 hn q Q hq p
        rw [e] at c1; obtain rfl := Except.ok.inj c1
        unfold C38.rects at hx
        rw [c3] at hx
        simp only [Set.mem_ofPred_eq, List.mem_map] at hx
        obtain ⟨_, ⟨y, hy, rfl⟩, rfl⟩ := hx
        exact (c2.1 y hy).1
      rw [img _ _ a3, img _ _ b3]
      constructor
      · intro h
        have inj : Set.InjOn ψ {x | x.node < parents.length} := by
          intro x hx y hy e
          simp only [ψ, Rect.mk.injEq] at e
          have := hσ.inj x.node y.node hx hy e.1
          cases x; cases y
          simp only [Rect.mk.injEq] at this e ⊢
          exact ⟨this, e.2⟩
        exact inj.image_eq_image_iff (lt a p a1) (lt b p' b1) |>.mp h
      · intro h; rw [h]
    · rintro a a' ⟨p, _, _, h⟩; exact h.2.2
    · rintro a a' ⟨p, _, _, h⟩; exact h.2.1
  · rintro p a a' ⟨_, _, _, h⟩
    change (a'.parts.map _).Perm ((a.parts.map _).map _)
    refine (h.1.map _).trans ?_
    rw [List.map_map, List.map_map]
    exact List.Perm.refl _

end

/-! ## From the data -/

variable [FloatP F ℝ]

/-- Hierarchical data of any sign: node `σ h` has the qualities of node `h`, and the partitions and searches agree. -/
theorem hierarchical (leaves : Nat) (parents parents' : List Int) (σ : Nat → Nat) (hσ : Renumbering parents parents' σ)
    (v v' : HValues ℝ) (hmd : RightMeta leaves parents v.md) (hmd' : RightMeta leaves parents' v'.md)
    (hlt : leaves < parents.length) (m : Nat) (V V' : Nat → Nat → ℝ) (hv : HData v m leaves V) (hv' : HData v' m leaves V')
    (hV : ∀ k l, k < m → l < leaves → V' k (σ l) = V k l) :
    ∃ q q' : List (Quality ℝ),
      (HQualities.ofValues v).computeQualities = .ok ⟨some v, some q, v.md⟩ ∧
      (HQualities.ofValues v').computeQualities = .ok ⟨some v', some q', v'.md⟩ ∧
      q.length = parents.length ∧ q'.length = parents.length ∧ (∀ h, h < parents.length → q'[σ h]? = q[h]?) ∧
      (∀ p : F, ∃ P P' : HPartition F ℝ, hBestPartition q v.md p = .ok P ∧ hBestPartition q' v'.md p = .ok P' ∧
        HSame σ P P') ∧
      ∀ (strict : Bool) (fuel : Nat) (t lo hi : F) (st st' : PState F ℝ (HPartition F ℝ) (F × Nat × Nat × ℝ × ℝ)),
        SearchesAgree (HSame σ) (fun x => (x.1, σ x.2.1, x.2.2))
          (computeBestPartitions (hOps q v.md) strict fuel t lo hi st)
          (computeBestPartitions (hOps q' v'.md) strict fuel t lo hi st') := by
  obtain ⟨q, e, hq⟩ := hq_objectAny hmd hlt hv
  obtain ⟨q', e', hq'⟩ := hq_objectAny hmd' (by rw [hσ.length]; exact hlt) hv'
  have hQ : ∀ h, h < parents.length → q'[σ h]? = q[h]? := by
    intro h hh
    rw [hq.cell h hh, hq'.cell (σ h) (by rw [hσ.length]; exact hσ.lt h hh), hσ.leavesUnder hmd.tree hmd'.tree hh]
    congr 1
    refine anyQ_image (hσ.injLeaves hmd.tree h) (fun k x hk hx => hV k x hk (mem_leavesUnder.mp hx).1)
  have hl' : q'.length = parents.length := by rw [← hσ.length]; exact hq'.len
  exact ⟨q, q', e, e', hq.len, hl', hQ,
    hierarchicalGiven (fun a b c => by ring) leaves parents parents' σ hσ v.md v'.md hmd hmd' hlt q q' hq.len hl' hQ⟩

/-- Spatiotemporal data of any sign. -/
theorem spatiotemporal (leaves : Nat) (parents parents' : List Int) (σ : Nat → Nat) (hσ : Renumbering parents parents' σ)
    (v v' : DValues ℝ) (hmd : RightMeta leaves parents v.md) (hmd' : RightMeta leaves parents' v'.md)
    (hlt : leaves < parents.length) (m n : Nat) (h0 : 0 < n) (hn : n ≤ 65535) (hb : leaves * n < 2147483648)
    (V V' : Nat → Nat × Nat → ℝ) (hv : DData v m leaves n V) (hv' : DData v' m leaves n V')
    (hV : ∀ k l x, k < m → l < leaves → x < n → V' k (σ l, x) = V k (l, x)) :
    ∃ q q' : List (UTM (Quality ℝ)),
      (DQualities.ofValues v).computeQualities = .ok ⟨some v, some q, v.md⟩ ∧
      (DQualities.ofValues v').computeQualities = .ok ⟨some v', some q', v'.md⟩ ∧
      (∀ h i j, h < parents.length → i ≤ j → j < n → ∃ x, mget q h i j = .ok x ∧ mget q' (σ h) i j = .ok x) ∧
      (∀ p : F, ∃ P P' : DPartition F ℝ, dBestPartition q v.md p = .ok P ∧ dBestPartition q' v'.md p = .ok P' ∧
        DSame σ P P') ∧
      ∀ (strict : Bool) (fuel : Nat) (t lo hi : F)
        (st st' : PState F ℝ (DPartition F ℝ) (F × Nat × Int × Nat × Nat × ℝ × ℝ)),
        SearchesAgree (DSame σ) (fun x => (x.1, σ x.2.1, x.2.2))
          (computeBestPartitions (dOps q v.md) strict fuel t lo hi st)
          (computeBestPartitions (dOps q' v'.md) strict fuel t lo hi st') := by
  obtain ⟨q, e, hq⟩ := dq_objectAny hmd hlt hn hb hv
  obtain ⟨q', e', hq'⟩ := dq_objectAny hmd' (by rw [hσ.length]; exact hlt) hn hb hv'
  have hQ : ∀ h i j, h < parents.length → i ≤ j → j < n →
      anyQ m V' (dCells leaves parents' ⟨σ h, i, j⟩) = anyQ m V (dCells leaves parents ⟨h, i, j⟩) := by
    intro h i j hh hij hj
    have : dCells leaves parents' ⟨σ h, i, j⟩ = (dCells leaves parents ⟨h, i, j⟩).image (fun x => (σ x.1, x.2)) := by
      unfold dCells
      rw [hσ.leavesUnder hmd.tree hmd'.tree hh]
      ext x
      simp only [Finset.mem_product, Finset.mem_image, Prod.exists]
      constructor
      · rintro ⟨⟨y, hy, hyx⟩, hx⟩; exact ⟨y, x.2, ⟨hy, hx⟩, by rw [hyx]⟩
      · rintro ⟨y, z, ⟨hy, hz⟩, rfl⟩; exact ⟨⟨y, hy, rfl⟩, hz⟩
    rw [this]
    refine anyQ_image ?_ ?_
    · intro a ha b hb e
      simp only [dCells, Finset.coe_product, Set.mem_prod] at ha hb
      simp only [Prod.mk.injEq] at e
      exact Prod.ext (hσ.injLeaves hmd.tree h ha.1 hb.1 e.1) e.2
    · intro k x hk hx
      simp only [dCells, Finset.mem_product, mem_leavesUnder, Finset.mem_Icc] at hx
      exact hV k x.1 x.2 hk hx.1.1 (by omega)
  refine ⟨q, q', e, e', fun h i j hh hij hj => ⟨_, hq.get hh hij hj, ?_⟩,
    spatiotemporalGiven (fun a b c => by ring) leaves parents parents' σ hσ v.md v'.md hmd hmd' n h0 hn q q' _ _ hq hq' hQ⟩
  rw [hq'.get (by rw [hσ.length]; exact hσ.lt h hh) hij hj, hQ h i j hh hij hj]

/-- The optimal parameter and the area under the curve depend only on what agrees. -/
theorem strategies [LD K] [FloatP F K] {P P' T T' : Type} (s : PState F K P T) (s' : PState F K P' T')
    (h1 : s'.pList = s.pList) (h2 : s'.qualityList = s.qualityList) (randMax : K) (rnd : K → K) (x : Int) :
    getP randMax x s' = getP randMax x s ∧ computeAUC rnd s' = computeAUC rnd s := by
  constructor
  · unfold getP computePOpt; rw [h1, h2]
  · unfold computeAUC; rw [h1, h2]

/-! ## Examples -/

/-- Seven nodes numbered in two ways: the leaves, the inner nodes and the root have other numbers. -/
def exσ (h : Nat) : Nat := [2, 3, 0, 1, 6, 4, 5].getD h 0

theorem exRenumbering : Renumbering [4, 4, 5, 5, 6, 6, -1] [4, 4, 6, 6, 5, -1, 5] exσ where
  length := rfl
  lt := by decide
  inj := by
    have : ∀ a, a < 7 → ∀ b, b < 7 → exσ a = exσ b → a = b := by decide
    exact fun a b ha hb => this a ha b hb
  parent := by
    have : ∀ h, h < 7 → ∀ p, p < 7 → (ParentIs [4, 4, 6, 6, 5, -1, 5] (exσ h) (exσ p) ↔ ParentIs [4, 4, 5, 5, 6, 6, -1] h p) := by
      decide
    exact fun h p hh hp => this h hh p hp

theorem meta_aux : ∃ md, mkMeta 4 [4, 4, 6, 6, 5, -1, 5] = .ok md ∧ RightMeta 4 [4, 4, 6, 6, 5, -1, 5] md := by
  obtain ⟨md, h1, _, h3⟩ := C03.right 4 [4, 4, 6, 6, 5, -1, 5] 5 C03.sevenTree C03.sevenNearest
  exact ⟨md, h1, h3⟩

/-- The values 1, 2, 3, -4 of the leaves 0–3, in both numberings. -/
example : ∃ (v v' : HValues ℝ) (q q' : List (Quality ℝ)),
    (HQualities.ofValues v).computeQualities = .ok ⟨some v, some q, v.md⟩ ∧
    (HQualities.ofValues v').computeQualities = .ok ⟨some v', some q', v'.md⟩ ∧
    v.value 3 0 = .ok (-4) ∧ v'.value 1 0 = .ok (-4) ∧
    ∀ p : ℝ, ∃ P P' : HPartition ℝ ℝ, hBestPartition q v.md p = .ok P ∧ hBestPartition q' v'.md p = .ok P' ∧
      HSame exσ P P' := by
  obtain ⟨md, _, r⟩ := C57.meta_aux
  obtain ⟨md', _, r'⟩ := meta_aux
  let f : Nat → ℝ := fun l => [1, 2, 3, -4].getD l 0
  let f' : Nat → ℝ := fun l => [3, -4, 1, 2].getD l 0
  have h : (⟨1, md, table1 4 f⟩ : HValuesN1 ℝ).Holds 4 md f := ⟨rfl, rfl, rfl⟩
  have h' : (⟨1, md', table1 4 f'⟩ : HValuesN1 ℝ).Holds 4 md' f' := ⟨rfl, rfl, rfl⟩
  obtain ⟨q, q', e, e', _, _, _, h2, _⟩ := hierarchical (F := ℝ) 4 _ _ exσ exRenumbering _ _ r r' (by decide) 1 _ _ h.data h'.data
    (by
      intro k l _ hl
      match l, hl with
      | 0, _ => rfl
      | 1, _ => rfl
      | 2, _ => rfl
      | 3, _ => rfl)
  exact ⟨_, _, q, q', e, e', h.data.val 0 3 (by decide) (by decide), h'.data.val 0 1 (by decide) (by decide), h2⟩

/-- Values of four leaves over two slices. -/
example : ∃ (v v' : DValues ℝ) (q q' : List (UTM (Quality ℝ))),
    (DQualities.ofValues v).computeQualities = .ok ⟨some v, some q, v.md⟩ ∧
    (DQualities.ofValues v').computeQualities = .ok ⟨some v', some q', v'.md⟩ ∧
    ∀ p : ℝ, ∃ P P' : DPartition ℝ ℝ, dBestPartition q v.md p = .ok P ∧ dBestPartition q' v'.md p = .ok P' ∧
      DSame exσ P P' := by
  obtain ⟨md, _, r⟩ := C57.meta_aux
  obtain ⟨md', _, r'⟩ := meta_aux
  let f : Nat × Nat → ℝ := fun l => [1, 2, 3, -4].getD l.1 0 + l.2
  let f' : Nat × Nat → ℝ := fun l => [3, -4, 1, 2].getD l.1 0 + l.2
  have h : (⟨1, 2, md, table2 4 2 f⟩ : DValuesN2 ℝ).Holds 4 2 md f := ⟨rfl, rfl, rfl, rfl⟩
  have h' : (⟨1, 2, md', table2 4 2 f'⟩ : DValuesN2 ℝ).Holds 4 2 md' f' := ⟨rfl, rfl, rfl, rfl⟩
  obtain ⟨q, q', e, e', _, h2, _⟩ := spatiotemporal (F := ℝ) 4 _ _ exσ exRenumbering _ _ r r' (by decide) 1 2 (by decide)
    (by decide) (by decide) _ _ h.data h'.data (by
      intro k l x _ hl _
      match l, hl with
      | 0, _ => rfl
      | 1, _ => rfl
      | 2, _ => rfl
      | 3, _ => rfl)
  exact ⟨_, _, q, q', e, e', h2⟩

/-- A numbering that the library misreads gives another result for the same hierarchy: leaves 0, 1 under node 3, and 3 and
leaf 2 under the root 4, once with the leaf under the root numbered 2 and once with it numbered 0.  The second run takes
node 3 for the root and reads outside a vector when it looks for the parent of node 4. -/
theorem numberingMatters : Renumbering [3, 3, 4, 4, -1] [4, 3, 3, 4, -1] (fun h => [1, 2, 0, 3, 4].getD h 0) ∧
    (do let md ← mkMeta 3 [3, 3, 4, 4, -1]
        let P ← hBestPartition ([⟨0, 0⟩, ⟨0, 0⟩, ⟨0, 0⟩, ⟨1, 2⟩, ⟨4, 4⟩] : List (Quality ℚ)) md (1 / 4 : ℚ)
        return P.parts.map HPart.h : Res (List Nat)) = .ok [2, 0, 1] ∧
    (do let md ← mkMeta 3 [4, 3, 3, 4, -1]
        let P ← hBestPartition ([⟨0, 0⟩, ⟨0, 0⟩, ⟨0, 0⟩, ⟨1, 2⟩, ⟨4, 4⟩] : List (Quality ℚ)) md (1 / 4 : ℚ)
        return P.parts.map HPart.h : Res (List Nat)) = .error .outOfBounds := by
  refine ⟨⟨rfl, by decide, ?_, ?_⟩, by decide +kernel, by decide +kernel⟩
  · have : ∀ a, a < 5 → ∀ b, b < 5 → [1, 2, 0, 3, 4].getD a 0 = [1, 2, 0, 3, 4].getD b 0 → a = b := by decide
    exact fun a b ha hb => this a ha b hb
  · have : ∀ h, h < 5 → ∀ p, p < 5 → (ParentIs [4, 3, 3, 4, -1] ([1, 2, 0, 3, 4].getD h 0) ([1, 2, 0, 3, 4].getD p 0) ↔
        ParentIs [3, 3, 4, 4, -1] h p) := by decide
    exact fun h p hh hp => this h hh p hp

end Lp.C60

import Verif.Proofs.HeapNorm
import Verif.Props.C16
import Verif.Proofs.Tree

/-!
# C42 — shared quality objects

`Model/Heap.lean` models the three searches and the three `normalize` functions with explicit `Quality` objects and
pointers; `Spec/Memory.lean` says what the getters of a partition return in a given memory.
-/

namespace Lp.C42
open Spec
section
variable {F K : Type} [LD K] [FloatP F K]

theorem rel_map_aux {α β γ : Type} {R : α → β → Prop} {a : Res α} {b : Res β} (h : RelRes R a b) {f : α → γ} {g : β → γ}
    (hf : ∀ x y, R x y → f x = g y) : a.map f = b.map g := by
  cases a <;> cases b <;> simp only [RelRes] at h
  · rw [h]; rfl
  · exact congrArg Except.ok (hf _ _ h)

/-- For every memory, every table of pointers into it (the same object may occur several times), every arithmetic and
parameter: the search with shared objects has the outcome of the search in which every tradeoff has its own copy; no
existing object is modified; the parts hold the objects of the table and the partition's own quality is a new object. -/
theorem ordered (m : Heap K) (q : UTM Ptr) (hq : ∀ a ∈ q.data, a < m.length) (p : F) :
    (soBestPartition m q p).map (fun r => r.2.reported r.1) = oBestPartition (q.deref m) p ∧
    ∀ m' P, soBestPartition m q p = .ok (m', P) → Keeps m m' ∧
      (∀ x ∈ P.parts, ∃ i j : Nat, x.start = i ∧ x.end = j ∧ q.get i j = .ok x.quality) ∧
      m.length ≤ P.quality ∧ P.quality < m'.length := by
  have h := soBest_rel m hq p
  constructor
  · have e : oBestPartition (q.deref m) p = (oBestPartition (q.deref m) p).map id := by cases oBestPartition (q.deref m) p <;> rfl
    rw [e]
    apply rel_map_aux h
    rintro r _ ⟨-, rfl, -⟩; rfl
  · intro m' P e
    rw [e] at h
    obtain ⟨_, _, h1, -, h3, h4, h5⟩ := h.ok_left
    exact ⟨h1, fun x hx => (h3 x hx).2, h4, h5⟩

/-- The same for the hierarchical search, for every metadata object. -/
theorem hierarchical (m : Heap K) (q : List Ptr) (hq : ∀ a ∈ q, a < m.length) (md : HMeta) (p : F) :
    (shBestPartition m q md p).map (fun r => r.2.reported r.1) = hBestPartition (q.map (deref m)) md p ∧
    ∀ m' P, shBestPartition m q md p = .ok (m', P) → Keeps m m' ∧
      (∀ x ∈ P.parts, q[x.h]? = some x.quality) ∧ m.length ≤ P.quality ∧ P.quality < m'.length := by
  have h := shBest_rel m hq md p
  constructor
  · have e : hBestPartition (q.map (deref m)) md p = (hBestPartition (q.map (deref m)) md p).map id := by
      cases hBestPartition (q.map (deref m)) md p <;> rfl
    rw [e]
    apply rel_map_aux h
    rintro r _ ⟨-, rfl, -⟩; rfl
  · intro m' P e
    rw [e] at h
    obtain ⟨_, _, h1, -, h3, h4, h5⟩ := h.ok_left
    exact ⟨h1, fun x hx => vget_eq_ok.1 (h3 x hx).2, h4, h5⟩

/-- The same for the spatiotemporal search, if no node is its own parent. -/
theorem spatiotemporal (m : Heap K) (q : List (UTM Ptr)) (hq : ∀ t ∈ q, ∀ a ∈ t.data, a < m.length) (md : HMeta)
    (hmd : ∀ h, ¬ ParentIs md.parents h h) (p : F) :
    (sdBestPartition m q md p).map (fun r => r.2.reported r.1) = dBestPartition (q.map (UTM.deref m)) md p ∧
    ∀ m' P, sdBestPartition m q md p = .ok (m', P) → Keeps m m' ∧
      (∀ x ∈ P.parts, mget q x.h x.start x.end = .ok x.quality) ∧ m.length ≤ P.quality ∧ P.quality < m'.length := by
  have hpa : ∀ h pa, md.parentOf h = .ok pa → pa ≠ h := by
    intro h pa hp e
    subst e
    unfold HMeta.parentOf at hp
    cases e : vget md.parents pa with
    | error _ => rw [e] at hp; cases hp
    | ok x =>
      rw [e] at hp
      have hp : toIdx x = .ok pa := hp
      unfold toIdx at hp
      split at hp
      · apply hmd pa
        unfold ParentIs
        rw [vget_eq_ok.1 e]
        have := Except.ok.inj hp
        congr 1; omega
      · cases hp
  have h := sdBest_rel m hq md hpa p
  constructor
  · have e : dBestPartition (q.map (UTM.deref m)) md p = (dBestPartition (q.map (UTM.deref m)) md p).map id := by
      cases dBestPartition (q.map (UTM.deref m)) md p <;> rfl
    rw [e]
    apply rel_map_aux h
    rintro r _ ⟨-, rfl, -⟩; rfl
  · intro m' P e
    rw [e] at h
    obtain ⟨_, _, h1, -, h3, h4, h5⟩ := h.ok_left
    exact ⟨h1, fun x hx => (h3 x hx).2, h4, h5⟩

omit [LD K] [FloatP F K] in
/-- In a hierarchy no node is its own parent. -/
theorem noSelfParent (leaves : Nat) (parents : List Int) (md : HMeta) (hmd : RightMeta leaves parents md) (h : Nat) :
    ¬ ParentIs md.parents h h := by
  rw [hmd.parentsEq]
  intro hp
  obtain ⟨d, hd⟩ := hmd.tree.depth
  have := hd.2 h h hp
  omega

/-! ## Later calls -/

omit [FloatP F K] in
/-- A partition reports the same as long as the objects that existed when it was returned are unchanged. -/
theorem unaffected (m m' : Heap K) (hk : Keeps m m') :
    (∀ P : SOPartition F, (∀ x ∈ P.parts, x.quality < m.length) → P.quality < m.length → P.reported m' = P.reported m) ∧
    (∀ P : SHPartition F, (∀ x ∈ P.parts, x.quality < m.length) → P.quality < m.length → P.reported m' = P.reported m) ∧
    (∀ P : SDPartition F, (∀ x ∈ P.parts, x.quality < m.length) → P.quality < m.length → P.reported m' = P.reported m) := by
  refine ⟨fun P hp hq => ?_, fun P hp hq => ?_, fun P hp hq => ?_⟩
  · unfold SOPartition.reported
    rw [hk.2 _ hq]
    congr 1
    exact List.map_congr_left (fun x hx => by rw [hk.2 _ (hp x hx)])
  · unfold SHPartition.reported
    rw [hk.2 _ hq]
    congr 1
    exact List.map_congr_left (fun x hx => by rw [hk.2 _ (hp x hx)])
  · unfold SDPartition.reported
    rw [hk.2 _ hq]
    congr 1
    exact List.map_congr_left (fun x hx => by rw [hk.2 _ (hp x hx)])

/-- Two searches one after the other, on the same or on different tables: the second leaves the partition returned by
the first as it was (as the parameter searches, which keep all their partitions, need it). -/
theorem twoSearches (m : Heap K) (q q' : UTM Ptr) (hq : ∀ a ∈ q.data, a < m.length) (hq' : ∀ a ∈ q'.data, a < m.length)
    (p p' : F) (m1 m2 : Heap K) (P P' : SOPartition F) (h1 : soBestPartition m q p = .ok (m1, P))
    (h2 : soBestPartition m1 q' p' = .ok (m2, P')) : P.reported m2 = P.reported m1 := by
  obtain ⟨-, r⟩ := ordered m q hq p
  obtain ⟨k, hp, h3, h4⟩ := r _ _ h1
  obtain ⟨-, r'⟩ := ordered m1 q' (fun a ha => lt_of_lt_of_le (hq' a ha) k.1) p'
  refine (unaffected m1 m2 (r' _ _ h2).1).1 P (fun x hx => ?_) h4
  obtain ⟨i, j, -, -, e⟩ := hp x hx
  exact lt_of_lt_of_le (hq _ (List.mem_of_getElem? (vget_eq_ok.1 e))) k.1

/-- The same for the hierarchical search. -/
theorem twoSearchesH (m : Heap K) (q q' : List Ptr) (hq : ∀ a ∈ q, a < m.length) (hq' : ∀ a ∈ q', a < m.length)
    (md md' : HMeta) (p p' : F) (m1 m2 : Heap K) (P P' : SHPartition F) (h1 : shBestPartition m q md p = .ok (m1, P))
    (h2 : shBestPartition m1 q' md' p' = .ok (m2, P')) : P.reported m2 = P.reported m1 := by
  obtain ⟨-, r⟩ := hierarchical m q hq md p
  obtain ⟨k, hp, h3, h4⟩ := r _ _ h1
  obtain ⟨-, r'⟩ := hierarchical m1 q' (fun a ha => lt_of_lt_of_le (hq' a ha) k.1) md' p'
  exact (unaffected m1 m2 (r' _ _ h2).1).2.1 P
    (fun x hx => lt_of_lt_of_le (hq _ (List.mem_of_getElem? (hp x hx))) k.1) h4

omit [LD K] in
theorem mget_mem_aux {q : List (UTM Ptr)} {h i j a n : Nat} (hq : ∀ t ∈ q, ∀ a ∈ t.data, a < n) (e : mget q h i j = .ok a) :
    a < n := by
  unfold mget at e
  cases et : vget q h with
  | error _ => rw [et] at e; cases e
  | ok t =>
    rw [et] at e
    exact hq t (List.mem_of_getElem? (vget_eq_ok.1 et)) a (List.mem_of_getElem? (vget_eq_ok.1 e))

/-- The same for the spatiotemporal search. -/
theorem twoSearchesD (m : Heap K) (q q' : List (UTM Ptr)) (hq : ∀ t ∈ q, ∀ a ∈ t.data, a < m.length)
    (hq' : ∀ t ∈ q', ∀ a ∈ t.data, a < m.length) (md md' : HMeta) (hmd : ∀ h, ¬ ParentIs md.parents h h)
    (hmd' : ∀ h, ¬ ParentIs md'.parents h h) (p p' : F) (m1 m2 : Heap K) (P P' : SDPartition F)
    (h1 : sdBestPartition m q md p = .ok (m1, P)) (h2 : sdBestPartition m1 q' md' p' = .ok (m2, P')) :
    P.reported m2 = P.reported m1 := by
  obtain ⟨-, r⟩ := spatiotemporal m q hq md hmd p
  obtain ⟨k, hp, h3, h4⟩ := r _ _ h1
  obtain ⟨-, r'⟩ := spatiotemporal m1 q' (fun t ht a ha => lt_of_lt_of_le (hq' t ht a ha) k.1) md' hmd' p'
  exact (unaffected m1 m2 (r' _ _ h2).1).2.2 P
    (fun x hx => lt_of_lt_of_le (mget_mem_aux hq (hp x hx)) k.1) h4

/-! ## `normalize()` after a search -/

/-- `normalize()` on a table of distinct objects, after a search on it: the table contains the normalized values; every
part of the partition returned before now reports the normalized value of the table; the partition's own quality, its
parameter and its cuts are as before. -/
theorem normalizeOrdered (m : Heap K) (q : UTM Ptr) (hq : ∀ a ∈ q.data, a < m.length) (nd : q.data.Nodup) (p : F)
    (osize : Nat) (m1 m2 : Heap K) (P : SOPartition F) (h1 : soBestPartition m q p = .ok (m1, P))
    (h2 : soNormalize osize q m1 = .ok m2) :
    oqNormalize osize (q.deref m) = .ok (q.deref m2) ∧
    (∀ x ∈ (P.reported m2).parts, ∃ i j : Nat, x.start = i ∧ x.end = j ∧ (q.deref m2).get i j = .ok x.quality) ∧
    (P.reported m2).quality = (P.reported m1).quality ∧ (P.reported m2).parameter = (P.reported m1).parameter ∧
    (P.reported m2).cuts = (P.reported m1).cuts ∧
    (P.reported m2).parts.map (fun x => (x.start, x.end)) = (P.reported m1).parts.map (fun x => (x.start, x.end)) := by
  obtain ⟨-, r⟩ := ordered m q hq p
  obtain ⟨k, hp, h3, h4⟩ := r _ _ h1
  have hq1 : ∀ a ∈ q.data, a < m1.length := fun a ha => lt_of_lt_of_le (hq a ha) k.1
  have hn := soNormalize_rel nd hq1 osize
  rw [h2] at hn
  obtain ⟨_, e, rfl, -, ho⟩ := hn.ok_left
  have et : q.deref m1 = q.deref m := by
    unfold UTM.deref; congr 1
    exact List.map_congr_left (fun a ha => k.2 a (hq a ha))
  rw [et] at e
  refine ⟨e, ?_, ?_, rfl, rfl, by simp [SOPartition.reported]⟩
  · intro x hx
    obtain ⟨y, hy, rfl⟩ := List.mem_map.1 hx
    obtain ⟨i, j, e1, e2, e3⟩ := hp y hy
    refine ⟨i, j, e1, e2, ?_⟩
    apply vget_eq_ok.2
    have := vget_eq_ok.1 e3
    simp only [UTM.deref, List.getElem?_map, this, Option.map_some]
  · exact ho _ (fun hmem => absurd (hq _ hmem) (not_lt.2 h3))

/-- The same for hierarchical qualities. -/
theorem normalizeHierarchical (m : Heap K) (q : List Ptr) (hq : ∀ a ∈ q, a < m.length) (nd : q.Nodup) (md : HMeta) (p : F)
    (m1 m2 : Heap K) (P : SHPartition F) (h1 : shBestPartition m q md p = .ok (m1, P))
    (h2 : shNormalize md q m1 = .ok m2) :
    hqNormalize md (q.map (deref m)) = .ok (q.map (deref m2)) ∧
    (∀ x ∈ (P.reported m2).parts, (q.map (deref m2))[x.h]? = some x.quality) ∧
    (P.reported m2).quality = (P.reported m1).quality ∧ (P.reported m2).parameter = (P.reported m1).parameter ∧
    (P.reported m2).aggregated = (P.reported m1).aggregated ∧
    (P.reported m2).parts.map (fun x => (x.h, x.size)) = (P.reported m1).parts.map (fun x => (x.h, x.size)) := by
  obtain ⟨-, r⟩ := hierarchical m q hq md p
  obtain ⟨k, hp, h3, h4⟩ := r _ _ h1
  have hq1 : ∀ a ∈ q, a < m1.length := fun a ha => lt_of_lt_of_le (hq a ha) k.1
  have hn := shNormalize_rel nd hq1 md
  rw [h2] at hn
  obtain ⟨_, e, rfl, -, ho⟩ := hn.ok_left
  have et : q.map (deref m1) = q.map (deref m) := List.map_congr_left (fun a ha => k.2 a (hq a ha))
  rw [et] at e
  refine ⟨e, ?_, ?_, rfl, rfl, by simp [SHPartition.reported]⟩
  · intro x hx
    obtain ⟨y, hy, rfl⟩ := List.mem_map.1 hx
    rw [List.getElem?_map, hp y hy]; rfl
  · exact ho _ (fun hmem => absurd (hq _ hmem) (not_lt.2 h3))

/-- The same for spatiotemporal qualities. -/
theorem normalizeSpatiotemporal (m : Heap K) (q : List (UTM Ptr)) (hq : ∀ t ∈ q, ∀ a ∈ t.data, a < m.length)
    (nd : (q.flatMap UTM.data).Nodup) (md : HMeta) (hmd : ∀ h, ¬ ParentIs md.parents h h) (p : F) (osize : Nat)
    (m1 m2 : Heap K) (P : SDPartition F) (h1 : sdBestPartition m q md p = .ok (m1, P))
    (h2 : sdNormalize md osize q m1 = .ok m2) :
    dqNormalize md osize (q.map (UTM.deref m)) = .ok (q.map (UTM.deref m2)) ∧
    (∀ x ∈ (P.reported m2).parts, mget (q.map (UTM.deref m2)) x.h x.start x.end = .ok x.quality) ∧
    (P.reported m2).quality = (P.reported m1).quality ∧ (P.reported m2).parameter = (P.reported m1).parameter ∧
    (P.reported m2).cuts = (P.reported m1).cuts ∧
    (P.reported m2).parts.map (fun x => (x.h, x.hsize, x.start, x.end)) =
      (P.reported m1).parts.map (fun x => (x.h, x.hsize, x.start, x.end)) := by
  obtain ⟨-, r⟩ := spatiotemporal m q hq md hmd p
  obtain ⟨k, hp, h3, h4⟩ := r _ _ h1
  have hq1 : ∀ t ∈ q, ∀ a ∈ t.data, a < m1.length := fun t ht a ha => lt_of_lt_of_le (hq t ht a ha) k.1
  have hn := sdNormalize_rel nd hq1 md osize
  rw [h2] at hn
  obtain ⟨_, e, rfl, -, ho⟩ := hn.ok_left
  have et : q.map (UTM.deref m1) = q.map (UTM.deref m) := by
    apply List.map_congr_left
    intro t ht
    unfold UTM.deref; congr 1
    exact List.map_congr_left (fun a ha => k.2 a (hq t ht a ha))
  rw [et] at e
  refine ⟨e, ?_, ?_, rfl, rfl, by simp [SDPartition.reported]⟩
  · intro x hx
    obtain ⟨y, hy, rfl⟩ := List.mem_map.1 hx
    have := hp y hy
    simp only
    unfold mget at this ⊢
    cases et : vget q y.h with
    | error _ => rw [et] at this; cases this
    | ok t =>
      rw [et] at this
      have this : t.get y.start y.end = .ok y.quality := this
      have ht := vget_eq_ok.1 et
      rw [vget_eq_ok.2 (show (q.map (UTM.deref m2))[y.h]? = some (t.deref m2) by rw [List.getElem?_map, ht]; rfl)]
      simp only [okBind]
      apply vget_eq_ok.2
      have := vget_eq_ok.1 this
      simp only [UTM.deref, List.getElem?_map, this, Option.map_some]
  · exact ho _ (fun t ht hmem => absurd (hq t ht _ hmem) (not_lt.2 h3))

/-! ## `computeQualities()` again -/

omit [FloatP F K] in
/-- `computeQualities()` makes new tables of new objects (each of them once): all existing objects, and so all
existing partitions and the tables that partitioners hold, stay as they are. -/
theorem newTables (m : Heap K) :
    (∀ l : List (Quality K), Keeps m (sNewVec m l).1 ∧ (sNewVec m l).2.Nodup ∧
      (∀ a ∈ (sNewVec m l).2, m.length ≤ a ∧ a < (sNewVec m l).1.length) ∧ (sNewVec m l).2.map (deref (sNewVec m l).1) = l) ∧
    (∀ t : UTM (Quality K), Keeps m (sNewMat m t).1 ∧ (sNewMat m t).2.data.Nodup ∧
      (∀ a ∈ (sNewMat m t).2.data, m.length ≤ a ∧ a < (sNewMat m t).1.length) ∧ (sNewMat m t).2.deref (sNewMat m t).1 = t) ∧
    (∀ l : List (UTM (Quality K)), Keeps m (sNewMats m l).1 ∧ ((sNewMats m l).2.flatMap UTM.data).Nodup ∧
      (∀ t ∈ (sNewMats m l).2, ∀ a ∈ t.data, m.length ≤ a ∧ a < (sNewMats m l).1.length) ∧
      (sNewMats m l).2.map (UTM.deref (sNewMats m l).1) = l) := by
  have vec : ∀ (m : Heap K) (l : List (Quality K)), Keeps m (sNewVec m l).1 ∧ (sNewVec m l).2.Nodup ∧
      (∀ a ∈ (sNewVec m l).2, m.length ≤ a ∧ a < (sNewVec m l).1.length) ∧
      (sNewVec m l).2.map (deref (sNewVec m l).1) = l := by
    intro m l
    refine ⟨keeps_append _ _, ?_, ?_, ?_⟩
    · apply List.Nodup.map _ List.nodup_range
      intro a b h; simpa using h
    · intro a ha
      simp only [sNewVec, List.mem_map, List.mem_range] at ha
      obtain ⟨i, hi, rfl⟩ := ha
      simp only [sNewVec, List.length_append]
      exact ⟨Nat.le_add_right _ _, Nat.add_lt_add_left hi _⟩
    · apply List.ext_getElem?
      intro i
      by_cases hi : i < l.length
      · simp [sNewVec, hi, deref]
      · simp [sNewVec, hi]
  refine ⟨vec m, fun t => ?_, fun l => ?_⟩
  · obtain ⟨h1, h2, h3, h4⟩ := vec m t.data
    refine ⟨h1, h2, h3, ?_⟩
    unfold UTM.deref sNewMat
    simp only [h4]
  · induction l generalizing m with
    | nil => exact ⟨Keeps.refl m, by simp [sNewMats], by simp [sNewMats], rfl⟩
    | cons t l ih =>
      obtain ⟨h1, h2, h3, h4⟩ := vec m t.data
      obtain ⟨i1, i2, i3, i4⟩ := ih (sNewVec m t.data).1
      have em : (sNewMats m (t :: l)).1 = (sNewMats (sNewVec m t.data).1 l).1 := rfl
      have et : (sNewMats m (t :: l)).2 = ⟨t.size, (sNewVec m t.data).2⟩ :: (sNewMats (sNewVec m t.data).1 l).2 := rfl
      rw [em, et]
      refine ⟨h1.trans i1, ?_, ?_, ?_⟩
      · rw [List.flatMap_cons, List.nodup_append]
        refine ⟨h2, i2, ?_⟩
        intro a ha b hb
        obtain ⟨u, hu, hbu⟩ := List.mem_flatMap.1 hb
        exact Nat.ne_of_lt (lt_of_lt_of_le (h3 a ha).2 (i3 u hu b hbu).1)
      · intro u hu a ha
        rcases List.mem_cons.1 hu with rfl | hu
        · exact ⟨(h3 a ha).1, lt_of_lt_of_le (h3 a ha).2 i1.1⟩
        · exact ⟨h1.1.trans (i3 u hu a ha).1, (i3 u hu a ha).2⟩
      · rw [List.map_cons, i4]
        congr 1
        unfold UTM.deref
        simp only
        rw [List.map_congr_left (fun a ha => i1.2 a (h3 a ha).2), h4]

end

/-! ## Stale totals -/

theorem sum_div_aux {A K : Type} [Field K] (g h : A → K) (c : K) (L : List A) (e : ∀ x ∈ L, g x = h x / c) :
    (L.map g).sum = (L.map h).sum / c := by
  induction L with
  | nil => simp
  | cons x L ih =>
    simp only [List.map_cons, List.sum_cons]
    rw [e x (by simp), ih (fun y hy => e y (by simp [hy])), add_div]

/-- Exact arithmetic: after a search and `normalize()`, the qualities that the parts report sum to the partition's own
quality divided by that of the whole interval: unless the latter is 1, the partition's own quality is out of date. -/
theorem staleOrdered {F K : Type} [Field K] [LinearOrder K] [IsStrictOrderedRing K] [FloatP F K] (m : Heap K) (q : UTM Ptr)
    (hq : ∀ a ∈ q.data, a < m.length) (nd : q.data.Nodup) (n : Nat) (h0 : 0 < n) (f : Nat → Nat → Quality K)
    (hf : (q.deref m).Rep n f) (p : F) (m1 m2 : Heap K) (P : SOPartition F) (h1 : soBestPartition m q p = .ok (m1, P))
    (h2 : soNormalize n q m1 = .ok m2) :
    ((P.reported m2).parts.map (fun x => x.quality.gain)).sum = (P.reported m2).quality.gain / (f 0 (n - 1)).gain ∧
    ((P.reported m2).parts.map (fun x => x.quality.loss)).sum = (P.reported m2).quality.loss / (f 0 (n - 1)).loss := by
  obtain ⟨e, hp, hqual, -, -, hse⟩ := normalizeOrdered m q hq nd p n m1 m2 P h1 h2
  obtain ⟨r, -⟩ := ordered m q hq p
  rw [h1] at r
  obtain ⟨P', L, b1, b2, b3, b4, -⟩ := C16.optimal (q.deref m) n f hf p
  have e1 : P' = P.reported m1 := by
    have : Except.ok P' = .ok (P.reported m1) := b1.symm.trans r.symm
    exact Except.ok.inj this
  subst e1
  obtain ⟨q', e', hr⟩ := oqNormalize_spec hf h0
  obtain rfl : q' = q.deref m2 := Except.ok.inj (e'.symm.trans e)
  have key : (P.reported m2).parts = L.map (fun I => ⟨I.1, I.2, (f I.1 I.2).div (f 0 (n - 1))⟩) := by
    rw [b3, List.map_map] at hse
    have hlen : (P.reported m2).parts.length = L.length := by simpa using congrArg List.length hse
    apply List.ext_getElem (by simpa using hlen)
    intro k hk hk'
    have hkL : k < L.length := by simpa using hk'
    obtain ⟨i, j, c1, c2, c3⟩ := hp _ (List.getElem_mem hk)
    have hk2 := congrArg (fun l => l[k]?) hse
    simp only [List.getElem?_map, List.getElem?_eq_getElem hk, List.getElem?_eq_getElem hkL, Option.map_some,
      Function.comp, Option.some.injEq, Prod.mk.injEq] at hk2
    obtain ⟨d1, d2⟩ := hk2
    have hi : i = L[k].1 := by rw [d1] at c1; exact_mod_cast c1.symm
    have hj : j = L[k].2 := by rw [d2] at c2; exact_mod_cast c2.symm
    have hb := b2.bounds L[k] (List.getElem_mem hkL)
    subst hi; subst hj
    rw [hr.get hb.2.1 hb.2.2] at c3
    have c3 := Except.ok.inj c3
    rw [List.getElem_map]
    cases hx : (P.reported m2).parts[k] with
    | mk a b c => rw [hx] at d1 d2 c3; simp only at d1 d2 c3; rw [d1, d2, ← c3]
  rw [hqual, key, b4]
  simp only [List.map_map, gainOf, lossOf]
  exact ⟨sum_div_aux _ _ _ _ (fun x _ => rfl), sum_div_aux _ _ _ _ (fun x _ => rfl)⟩

/-! ## Concrete cases -/

/-- Two slices: cells `[0,0] [1,1] [0,1]` at addresses 1, 2 and 3, after an unrelated object. At `p = 9/10` the whole interval
is the best partition; `normalize()` changes the quality of its only part from (2,1) to (1,1) and not its own quality. -/
example : (do
    let m : Heap ℚ := [⟨7, 7⟩, ⟨0, 0⟩, ⟨0, 0⟩, ⟨2, 1⟩]
    let q : UTM Ptr := ⟨2, [1, 2, 3]⟩
    let (m1, P) ← soBestPartition m q (9 / 10 : ℚ)
    let m2 ← soNormalize 2 q m1
    return [((P.reported m1).parts.map (fun x => x.quality), (P.reported m1).quality),
      ((P.reported m2).parts.map (fun x => x.quality), (P.reported m2).quality)] : Res (List (List (Quality ℚ) × Quality ℚ))) =
    .ok [([⟨2, 1⟩], ⟨2, 1⟩), ([⟨1, 1⟩], ⟨2, 1⟩)] := by decide +kernel

/-- Two leaves and their root. -/
example : (do
    let m : Heap ℚ := [⟨0, 0⟩, ⟨0, 0⟩, ⟨2, 1⟩]
    let md ← mkMeta 2 [2, 2, -1]
    let (m1, P) ← shBestPartition m [0, 1, 2] md (9 / 10 : ℚ)
    let m2 ← shNormalize md [0, 1, 2] m1
    return [((P.reported m1).parts.map (fun x => (x.h, x.quality)), (P.reported m1).quality),
      ((P.reported m2).parts.map (fun x => (x.h, x.quality)), (P.reported m2).quality)] : Res (List (List (Nat × Quality ℚ) × Quality ℚ))) =
    .ok [([(2, ⟨2, 1⟩)], ⟨2, 1⟩), ([(2, ⟨1, 1⟩)], ⟨2, 1⟩)] := by decide +kernel

/-- Two leaves, their root and two slices, the table of `C21.notOptimal` with other values for the root. -/
example : (do
    let m : Heap ℚ := [⟨0, 0⟩, ⟨0, 0⟩, ⟨0, 1⟩, ⟨0, 0⟩, ⟨0, 0⟩, ⟨0, 1⟩, ⟨0, 2⟩, ⟨2, 0⟩, ⟨4, 2⟩]
    let q : List (UTM Ptr) := [⟨2, [0, 1, 2]⟩, ⟨2, [3, 4, 5]⟩, ⟨2, [6, 7, 8]⟩]
    let md ← mkMeta 2 [2, 2, -1]
    let (m1, P) ← sdBestPartition m q md (9 / 10 : ℚ)
    let m2 ← sdNormalize md 2 q m1
    return [((P.reported m1).parts.map (fun x => x.quality), (P.reported m1).quality),
      ((P.reported m2).parts.map (fun x => x.quality), (P.reported m2).quality)] : Res (List (List (Quality ℚ) × Quality ℚ))) =
    .ok [([⟨4, 2⟩], ⟨4, 2⟩), ([⟨1, 1⟩], ⟨4, 2⟩)] := by decide +kernel

/-- Distinct objects are needed for `normalize()`: a vector that holds one object for both leaves divides it twice: the
leaves get 4/2/2 instead of 4/2. -/
example : (do
    let m : Heap ℚ := [⟨4, 4⟩, ⟨2, 2⟩]
    let md ← mkMeta 2 [2, 2, -1]
    let m2 ← shNormalize md [0, 0, 1] m
    let q' ← hqNormalize md ([0, 0, 1].map (deref m))
    return ([0, 0, 1].map (deref m2), q') : Res (List (Quality ℚ) × List (Quality ℚ))) =
    .ok ([⟨1, 1⟩, ⟨1, 1⟩, ⟨1, 1⟩], [⟨2, 2⟩, ⟨2, 2⟩, ⟨1, 1⟩]) := by decide +kernel

/-- The metadata of two leaves and their root meets the hypothesis of `spatiotemporal`. -/
example : (mkMeta 2 [2, 2, -1]).map (fun md => md.parents) = .ok [2, 2, -1] ∧ ∀ h, ¬ ParentIs [2, 2, -1] h h := by
  refine ⟨by decide, fun h => ?_⟩
  unfold ParentIs
  match h with
  | 0 => decide
  | 1 => decide
  | 2 => decide
  | h + 3 => simp

end Lp.C42

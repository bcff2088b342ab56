import Verif.Proofs.HeapO
import Verif.Model.HPartition

/-!
# The hierarchical search with shared objects
-/

namespace Lp
variable {F K : Type} [LD K] [FloatP F K]

omit [FloatP F K] in
/-- Updating the object of one cell of a vector whose cells have distinct objects. -/
theorem map_view_upd {m m' : Heap K} {l : List (STr K)} (nd : (l.map STr.ptr).Nodup) {k : Nat} {c c' : STr K}
    (hc : l[k]? = some c) (hd : ∀ a, a ≠ c.ptr → deref m' a = deref m a) :
    (l.set k c').map (STr.view m') = (l.map (STr.view m)).set k (c'.view m') := by
  apply List.ext_getElem?
  intro i
  by_cases e : i = k
  · subst e
    have hi : i < l.length := (List.getElem?_eq_some_iff.1 hc).1
    simp [hi]
  · rw [List.getElem?_map, List.getElem?_set_ne (Ne.symm e), List.getElem?_set_ne (Ne.symm e), List.getElem?_map]
    cases hx : l[i]? with
    | none => rfl
    | some x =>
      simp only [Option.map_some]
      congr 1
      apply view_congr
      apply hd
      intro hp
      have hi : i < (l.map STr.ptr).length := by simpa using (List.getElem?_eq_some_iff.1 hx).1
      apply e
      apply (List.getElem?_inj hi nd).1
      rw [List.getElem?_map, List.getElem?_map, hx, hc]; simp [hp]

omit [FloatP F K] in
theorem map_ptr_set {l : List (STr K)} {k : Nat} {c c' : STr K} (hc : l[k]? = some c) (hp : c'.ptr = c.ptr) :
    (l.set k c').map STr.ptr = l.map STr.ptr := by
  rw [List.map_set, hp]
  apply List.ext_getElem?
  intro i
  by_cases e : i = k
  · subst e
    have hi : i < l.length := (List.getElem?_eq_some_iff.1 hc).1
    rw [List.getElem?_set_self (by simpa using hi), List.getElem?_map, hc]; rfl
  · rw [List.getElem?_set_ne (Ne.symm e)]

/-- The state with shared objects against the state with copies: the accumulators of the children have their own
objects; nothing is said about the contents of `tr`. -/
structure HRel (m0 : Heap K) (s : SHBest K) (t : HBest K) : Prop where
  keeps : Keeps m0 s.mem
  trlen : t.tr.length = s.tr.length
  range : ∀ x ∈ s.tr, x.ptr < s.mem.length
  fresh : ∀ x ∈ s.ch, m0.length ≤ x.ptr ∧ x.ptr < s.mem.length
  nodup : (s.ch.map STr.ptr).Nodup
  ch : t.ch = s.ch.map (STr.view s.mem)
  agg : t.agg = s.agg

/-- In addition the tradeoff of node `h` is right. -/
structure HRelAt (m0 : Heap K) (h : Nat) (s : SHBest K) (t : HBest K) : Prop extends HRel m0 s t where
  at_ : ∀ u, s.tr[h]? = some u → t.tr[h]? = some (u.view s.mem)

theorem vget_ptr_rel {m0 : Heap K} {q : List Ptr} (hq : ∀ a ∈ q, a < m0.length) (h : Nat) :
    RelRes (fun a x => x = deref m0 a ∧ a < m0.length) (vget q h) (vget (q.map (deref m0)) h) := by
  apply vget_rel (by simp)
  intro a x ha hx
  rw [List.getElem?_map, ha] at hx
  exact ⟨by simpa using hx.symm, hq a (List.mem_of_getElem? ha)⟩

theorem shbSet_rel {m0 : Heap K} {q : List Ptr} (hq : ∀ a ∈ q, a < m0.length) (p : F) (h : Nat)
    {s : SHBest K} {t : HBest K} (r : HRel m0 s t) :
    RelRes (HRelAt m0 h) (shbSet q p h s) (hbSet (q.map (deref m0)) p h t) := by
  unfold shbSet hbSet
  apply RelRes.bind (vget_ptr_rel hq h)
  rintro a x ⟨rfl, ha⟩
  rw [STr.set_spec (lt_of_lt_of_le ha r.keeps.1)]
  simp only [okBind]
  have k1 : Keeps s.mem (s.mem ++ [deref s.mem a]) := keeps_append _ _
  have hv := STr.set_view (F := F) s.mem (deref s.mem a) p
  rw [r.keeps.2 a ha] at hv k1 ⊢
  apply RelRes.bind (R := fun (u : List (STr K)) v => v.length = u.length ∧
    (∀ x ∈ u, x.ptr < (s.mem ++ [deref m0 a]).length) ∧
    ∀ x, u[h]? = some x → v[h]? = some (x.view (s.mem ++ [deref m0 a])))
  · apply vset_rel r.trlen.symm
    intro hh
    refine ⟨by simp [r.trlen], ?_, ?_⟩
    · intro x hx
      rcases List.mem_or_eq_of_mem_set hx with hx | rfl
      · exact lt_of_lt_of_le (r.range x hx) k1.1
      · simp
    · intro x hx
      rw [List.getElem?_set_self hh] at hx
      rw [List.getElem?_set_self (by rw [r.trlen]; exact hh), ← Option.some.inj hx, hv]
  rintro tr tr' ⟨h1, h2, h3⟩
  refine ⟨⟨r.keeps.trans k1, h1, h2, ?_, r.nodup, ?_, r.agg⟩, h3⟩
  · intro x hx
    exact ⟨(r.fresh x hx).1, lt_of_lt_of_le (r.fresh x hx).2 k1.1⟩
  · simp only
    rw [map_view_keeps k1 (fun x hx => (r.fresh x hx).2)]; exact r.ch

theorem shbChoose_rel {m0 : Heap K} (h : Nat) {s : SHBest K} {t : HBest K} (r : HRelAt m0 h s t) :
    RelRes (HRelAt m0 h) (shbChoose h s) (hbChoose h t) := by
  unfold shbChoose hbChoose
  apply RelRes.bind (R := fun (u : STr K) v => u.ptr < s.mem.length ∧ v = u.view s.mem)
  · apply vget_rel r.trlen.symm
    intro u v hu hv
    have := r.at_ u hu
    rw [hv] at this
    exact ⟨r.range u (List.mem_of_getElem? hu), Option.some.inj this⟩
  rintro u _ ⟨hu, rfl⟩
  apply RelRes.bind (R := fun (c : STr K) v => c ∈ s.ch ∧ v = c.view s.mem)
  · apply vget_rel (by rw [r.ch]; simp)
    intro c v hc hv
    rw [r.ch, List.getElem?_map, hc] at hv
    exact ⟨List.mem_of_getElem? hc, by simpa using hv.symm⟩
  rintro c _ ⟨hc, rfl⟩
  have hc' := (r.fresh c hc).2
  rw [STr.read_spec hu, STr.read_spec hc']
  simp only [okBind]
  split
  · apply RelRes.bind (R := fun a b => b = a)
    · apply vset_rel (by rw [r.agg])
      intro _; rw [r.agg]
    rintro agg _ rfl
    apply RelRes.bind (R := fun (u : List (STr K)) v => v.length = u.length ∧
      (∀ x ∈ u, x.ptr < s.mem.length) ∧ ∀ x, u[h]? = some x → v[h]? = some (x.view s.mem))
    · apply vset_rel r.trlen.symm
      intro hh
      refine ⟨by simp [r.trlen], ?_, ?_⟩
      · intro x hx
        rcases List.mem_or_eq_of_mem_set hx with hx | rfl
        · exact r.range x hx
        · exact hc'
      · intro x hx
        rw [List.getElem?_set_self hh] at hx
        rw [List.getElem?_set_self (by rw [r.trlen]; exact hh), ← Option.some.inj hx]
    rintro tr tr' ⟨h1, h2, h3⟩
    exact ⟨⟨r.keeps, h1, h2, r.fresh, r.nodup, r.ch, rfl⟩, h3⟩
  · exact r

omit [FloatP F K] in
theorem shbPush_rel {m0 : Heap K} (md : HMeta) (h : Nat) {s : SHBest K} {t : HBest K} (r : HRelAt m0 h s t) :
    RelRes (HRel m0) (shbPush md h s) (hbPush md h t) := by
  unfold shbPush hbPush
  apply RelRes.bind (relRes_refl _)
  rintro pa _ rfl
  apply RelRes.bind (R := fun (u : STr K) v => u.ptr < s.mem.length ∧ v = u.view s.mem)
  · apply vget_rel r.trlen.symm
    intro u v hu hv
    have := r.at_ u hu
    rw [hv] at this
    exact ⟨r.range u (List.mem_of_getElem? hu), Option.some.inj this⟩
  rintro u _ ⟨hu, rfl⟩
  apply RelRes.bind (R := fun (c : STr K) v => s.ch[pa]? = some c ∧ v = c.view s.mem)
  · apply vget_rel (by rw [r.ch]; simp)
    intro c v hc hv
    rw [r.ch, List.getElem?_map, hc] at hv
    exact ⟨hc, by simpa using hv.symm⟩
  rintro c _ ⟨hc, rfl⟩
  have hf := r.fresh c (List.mem_of_getElem? hc)
  obtain ⟨m', e, hl, hd, hv⟩ := STr.addTo_spec (m := s.mem) (t := c) (u := u) hf.2 hu
  rw [e]
  simp only [okBind]
  have hpa : pa < s.ch.length := (List.getElem?_eq_some_iff.1 hc).1
  rw [vset_ok hpa, vset_ok (by rw [r.ch]; simpa using hpa)]
  simp only [okBind]
  refine ⟨keeps_addTo r.keeps hf.1 hl hd, r.trlen, ?_, ?_, ?_, ?_, r.agg⟩
  · intro x hx
    simp only [hl]; exact r.range x hx
  · intro x hx
    simp only [hl]
    rcases List.mem_or_eq_of_mem_set hx with hx | rfl
    · exact r.fresh x hx
    · exact hf
  · simp only
    rw [map_ptr_set hc (by rfl)]; exact r.nodup
  · simp only
    rw [map_view_upd r.nodup hc hd, hv, ← r.ch]

theorem shbLeaf_rel {m0 : Heap K} {q : List Ptr} (hq : ∀ a ∈ q, a < m0.length) (p : F) (md : HMeta) (i : Nat)
    {s : SHBest K} {t : HBest K} (r : HRel m0 s t) :
    RelRes (HRel m0) (shbLeaf q p md i s) (hbLeaf (q.map (deref m0)) p md i t) := by
  unfold shbLeaf hbLeaf
  apply RelRes.bind (relRes_refl _)
  rintro h _ rfl
  apply RelRes.bind (shbSet_rel hq p h r)
  intro s t r
  exact shbPush_rel md h r

theorem shbInner_rel {m0 : Heap K} {q : List Ptr} (hq : ∀ a ∈ q, a < m0.length) (p : F) (md : HMeta) (i : Nat)
    {s : SHBest K} {t : HBest K} (r : HRel m0 s t) :
    RelRes (HRel m0) (shbInner q p md i s) (hbInner (q.map (deref m0)) p md i t) := by
  unfold shbInner hbInner
  apply RelRes.bind (relRes_refl _)
  rintro h _ rfl
  apply RelRes.bind (shbSet_rel hq p h r)
  intro s t r
  apply RelRes.bind (shbChoose_rel h r)
  intro s t r
  exact shbPush_rel md h r

omit [FloatP F K] in
theorem news_nodup (m : Heap K) (n : Nat) : ((STr.news m n).2.map STr.ptr).Nodup := by
  unfold STr.news
  simp only [List.map_map]
  apply List.Nodup.map _ List.nodup_range
  intro a b h
  simpa using h

theorem shbLoop_rel (m : Heap K) {q : List Ptr} (hq : ∀ a ∈ q, a < m.length) (p : F) (md : HMeta) :
    RelRes (HRel m) (shbLoop m q p md) (hbLoop (q.map (deref m)) p md) := by
  unfold shbLoop hbLoop
  simp only
  apply RelRes.bind (R := HRel m)
  · apply forUp_relC (HRel m)
    · have k1 := keeps_news m md.hsize
      have k2 := keeps_news (STr.news m md.hsize).1 md.hsize
      refine ⟨k1.trans k2, by simp [STr.news], ?_, ?_, news_nodup _ _, (news_view _ _).symm, rfl⟩
      · intro x hx
        have := (news_ptr hx).2
        refine lt_of_lt_of_le ?_ k2.1
        rw [news_length]; exact this
      · intro x hx
        have := news_ptr hx
        exact ⟨k1.1.trans this.1, by simp only [news_length] at *; exact this.2⟩
    · intro k s t _ _ r
      exact shbLeaf_rel hq p md k r
  intro s t r
  apply RelRes.bind (relRes_refl _)
  rintro _ _ _
  apply RelRes.bind (R := HRel m)
  · apply forUp_relC (HRel m) r
    intro k s t _ _ r
    exact shbInner_rel hq p md k r
  intro s t r
  apply RelRes.bind (relRes_refl _)
  rintro h _ rfl
  apply RelRes.bind (shbSet_rel hq p h r)
  intro s t r
  exact (shbChoose_rel h r).mono (fun _ _ r => r.toHRel)

/-- What a list of parts with pointers says about the list of parts with copies. -/
def HPartsRel (m0 : Heap K) (q : List Ptr) (a : List SHPart) (b : List (HPart K)) : Prop :=
  b = a.map (fun x => ⟨x.h, x.size, deref m0 x.quality⟩) ∧
    ∀ x ∈ a, x.quality < m0.length ∧ vget q x.h = .ok x.quality

theorem shSubPart_rel {m0 : Heap K} {q : List Ptr} (hq : ∀ a ∈ q, a < m0.length) (agg : List Bool) (md : HMeta) :
    ∀ (fuel h : Nat) (a : List SHPart) (b : List (HPart K)), HPartsRel m0 q a b →
      RelRes (HPartsRel m0 q) (shSubPart agg q md fuel h a) (hSubPart agg (q.map (deref m0)) md fuel h b) := by
  intro fuel
  induction fuel with
  | zero => intro h a b _; rfl
  | succ fuel ih =>
    intro h a b hab
    unfold shSubPart hSubPart
    apply RelRes.bind (relRes_refl _)
    rintro c _ rfl
    split
    · cases ex : vget q h with
      | error e =>
        have := vget_ptr_rel hq h
        rw [ex] at this
        cases h2 : vget (q.map (deref m0)) h with
        | error e' => rw [h2] at this; exact this
        | ok y => rw [h2] at this; exact this.elim
      | ok x =>
        have := vget_ptr_rel hq h
        rw [ex] at this
        obtain ⟨y, hy, rfl, hx⟩ := this.ok_left
        rw [hy]
        simp only [okBind]
        refine ⟨by rw [hab.1]; simp, ?_⟩
        intro z hz
        rcases List.mem_append.1 hz with hz | hz
        · exact hab.2 z hz
        · simp only [List.mem_singleton] at hz
          subst hz; exact ⟨hx, ex⟩
    · apply RelRes.bind (relRes_refl _)
      rintro ch _ rfl
      apply forEach_rel (HPartsRel m0 q) _ _ _ hab
      intro c a b _ hab
      exact ih c a b hab

/-- The search with shared objects computes what the search with copies computes. -/
theorem shBest_rel (m : Heap K) {q : List Ptr} (hq : ∀ a ∈ q, a < m.length) (md : HMeta) (p : F) :
    RelRes (fun (r : Heap K × SHPartition F) (P : HPartition F K) =>
        Keeps m r.1 ∧ P = ⟨r.2.parameter, r.2.aggregated,
          r.2.parts.map (fun x => ⟨x.h, x.size, deref r.1 x.quality⟩), deref r.1 r.2.quality⟩ ∧
        (∀ x ∈ r.2.parts, x.quality < m.length ∧ vget q x.h = .ok x.quality) ∧
        m.length ≤ r.2.quality ∧ r.2.quality < r.1.length)
      (shBestPartition m q md p) (hBestPartition (q.map (deref m)) md p) := by
  unfold shBestPartition hBestPartition
  apply RelRes.bind (shbLoop_rel m hq p md)
  intro s t h
  unfold mkHPartition
  rw [h.agg]
  apply RelRes.bind (shSubPart_rel hq s.agg md (md.hsize + 1) md.root [] [] ⟨rfl, by simp⟩)
  rintro parts _ ⟨rfl, hp⟩
  obtain ⟨m', e, k, hlt, hd⟩ := sSumQuality_spec (m := s.mem) (l := parts.map SHPart.quality) (by
    intro a ha
    obtain ⟨x, hx, rfl⟩ := List.mem_map.1 ha
    exact lt_of_lt_of_le (hp x hx).1 h.keeps.1)
  rw [e]
  simp only [okBind]
  have k' := h.keeps.trans k
  refine ⟨k', ?_, hp, h.keeps.1, hlt⟩
  simp only
  rw [hd]
  have h1 : parts.map (fun x => (⟨x.h, x.size, deref m' x.quality⟩ : HPart K)) =
      parts.map (fun x => ⟨x.h, x.size, deref m x.quality⟩) := by
    apply List.map_congr_left; intro x hx; rw [k'.2 _ (hp x hx).1]
  rw [h1]
  congr 1
  congr 1
  simp only [List.map_map]
  apply List.map_congr_left; intro x hx
  simp only [Function.comp]
  rw [h.keeps.2 _ (hp x hx).1]

end Lp

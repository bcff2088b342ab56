import Verif.Proofs.Heap
import Verif.Model.OPartition

/-!
# The ordered search with shared objects
-/

namespace Lp
variable {F K : Type} [LD K] [FloatP F K]

omit [FloatP F K] in
/-- `+=` on a tradeoff whose object is newer than `m0` leaves the objects of `m0`. -/
theorem keeps_addTo {m0 m m' : Heap K} {b : Ptr} (h : Keeps m0 m) (hb : m0.length ≤ b) (hl : m'.length = m.length)
    (hd : ∀ a, a ≠ b → deref m' a = deref m a) : Keeps m0 m' :=
  ⟨by rw [hl]; exact h.1, fun a ha => by
    rw [hd a (Nat.ne_of_lt (lt_of_lt_of_le ha hb))]; exact h.2 a ha⟩

omit [FloatP F K] in
theorem map_view_keeps {m m' : Heap K} {l : List (STr K)} (h : Keeps m m') (hl : ∀ x ∈ l, x.ptr < m.length) :
    l.map (STr.view m') = l.map (STr.view m) := by
  apply List.map_congr_left
  intro x hx
  exact h.view (hl x hx)

/-- The state with shared objects against the state with copies. -/
structure ORel (m0 : Heap K) (s : SOBest K) (t : OBest K) : Prop where
  keeps : Keeps m0 s.mem
  range : ∀ x ∈ s.tr, x.ptr < s.mem.length
  tr : t.tr = s.tr.map (STr.view s.mem)
  cut : t.cut = s.cut

theorem sobCut_rel {m0 : Heap K} {q : UTM Ptr} (hq : ∀ a ∈ q.data, a < m0.length) (p : F) (i c : Nat)
    {s : SOBest K} {t : OBest K} (h : ORel m0 s t) :
    RelRes (ORel m0) (sobCut q p i c s) (obCut (q.deref m0) p i c t) := by
  unfold sobCut obCut
  apply RelRes.bind (utm_get_rel hq)
  rintro a x ⟨rfl, ha⟩
  have ha' : a < s.mem.length := lt_of_lt_of_le ha h.keeps.1
  rw [STr.set_spec ha']
  simp only [okBind]
  have hlen : t.tr.length = s.tr.length := by rw [h.tr]; simp
  apply RelRes.bind (R := fun (u : STr K) v => u.ptr < s.mem.length ∧ v = u.view s.mem)
  · apply vget_rel hlen.symm
    intro u v hu hv
    rw [h.tr, List.getElem?_map, hu] at hv
    exact ⟨h.range u (List.mem_of_getElem? hu), by simpa using hv.symm⟩
  rintro u _ ⟨hu, rfl⟩
  have k1 : Keeps s.mem (s.mem ++ [deref s.mem a]) := keeps_append _ _
  obtain ⟨m', e, hl, hd, hv⟩ := STr.addTo_spec (m := s.mem ++ [deref s.mem a])
    (t := ⟨Tradeoff.pic p (deref s.mem a).gain (deref s.mem a).loss, s.mem.length⟩) (u := u)
    (by simp) (lt_of_lt_of_le hu k1.1)
  rw [e]
  simp only [okBind]
  have k2 : Keeps s.mem m' := keeps_addTo k1 (le_refl _) hl hd
  have hlt : s.mem.length < m'.length := by rw [hl]; simp
  rw [STr.set_view, k1.view hu, h.keeps.2 a ha] at hv
  rw [h.keeps.2 a ha] at hl hd ⊢
  apply RelRes.bind (R := fun (u : STr K) v => u.ptr < s.mem.length ∧ v = u.view s.mem)
  · apply vget_rel hlen.symm
    intro u v hu hv
    rw [h.tr, List.getElem?_map, hu] at hv
    exact ⟨h.range u (List.mem_of_getElem? hu), by simpa using hv.symm⟩
  rintro w _ ⟨hw, rfl⟩
  rw [STr.read_spec (by simpa using hlt), STr.read_spec (lt_trans hw hlt)]
  simp only [okBind]
  rw [hv, k2.view hw]
  have hr : ∀ x ∈ s.tr, x.ptr < m'.length := fun x hx => lt_trans (h.range x hx) hlt
  have hm := map_view_keeps k2 h.range
  split
  · apply RelRes.bind (R := fun a b => b = a)
    · apply vset_rel (by rw [h.cut])
      intro _; rw [h.cut]
    rintro cut _ rfl
    apply RelRes.bind (R := fun (a : List (STr K)) b => (∀ x ∈ a, x.ptr < m'.length) ∧ b = a.map (STr.view m'))
    · apply vset_rel hlen.symm
      intro _
      refine ⟨?_, ?_⟩
      · intro x hx
        rcases List.mem_or_eq_of_mem_set hx with hx | rfl
        · exact hr x hx
        · exact hlt
      · rw [List.map_set, hm, ← h.tr, hv]
    rintro tr _ ⟨h1, rfl⟩
    exact ⟨h.keeps.trans k2, h1, rfl, rfl⟩
  · exact ⟨h.keeps.trans k2, hr, by rw [hm]; exact h.tr, h.cut⟩

theorem sobRow_rel {m0 : Heap K} {q : UTM Ptr} (hq : ∀ a ∈ q.data, a < m0.length) (p : F) (i : Nat)
    {s : SOBest K} {t : OBest K} (h : ORel m0 s t) :
    RelRes (ORel m0) (sobRow q p i s) (obRow (q.deref m0) p i t) := by
  unfold sobRow obRow
  apply RelRes.bind (utm_get_rel hq)
  rintro a x ⟨rfl, ha⟩
  rw [STr.set_spec (lt_of_lt_of_le ha h.keeps.1)]
  simp only [okBind]
  have hlen : t.tr.length = s.tr.length := by rw [h.tr]; simp
  have k1 : Keeps s.mem (s.mem ++ [deref s.mem a]) := keeps_append _ _
  have hv := STr.set_view (F := F) s.mem (deref s.mem a) p
  apply RelRes.bind (R := fun (u : List (STr K)) b => (∀ x ∈ u, x.ptr < (s.mem ++ [deref s.mem a]).length) ∧
    b = u.map (STr.view (s.mem ++ [deref s.mem a])))
  · apply vset_rel hlen.symm
    intro _
    refine ⟨?_, ?_⟩
    · intro x hx
      rcases List.mem_or_eq_of_mem_set hx with hx | rfl
      · exact lt_of_lt_of_le (h.range x hx) k1.1
      · simp
    · rw [List.map_set, map_view_keeps k1 h.range, ← h.tr, hv, h.keeps.2 a ha]
  rintro tr _ ⟨h1, rfl⟩
  apply forUp_relC (ORel m0)
  · exact ⟨h.keeps.trans k1, h1, rfl, h.cut⟩
  · intro k s t _ _ h
    exact sobCut_rel hq p i k h

omit [FloatP F K] in
/-- The parts hold the pointers of the table. -/
theorem soParts_rel {m0 : Heap K} {q : UTM Ptr} (hq : ∀ a ∈ q.data, a < m0.length) (cuts : List Int) : ∀ (fuel : Nat) (i : Int),
    RelRes (fun (a : List SOPart) b => b = a.map (fun x => (⟨x.start, x.end, deref m0 x.quality⟩ : OPart K)) ∧
        (∀ x ∈ a, x.quality < m0.length ∧ ∃ i j : Nat, x.start = i ∧ x.end = j ∧ q.get i j = .ok x.quality))
      (soParts cuts q fuel i) (oParts cuts (q.deref m0) fuel i) := by
  intro fuel
  induction fuel with
  | zero => intro i; rfl
  | succ fuel ih =>
    intro i
    unfold soParts oParts
    split
    · rename_i hi
      apply RelRes.bind (relRes_refl _)
      rintro c _ rfl
      cases ec : toIdx c with
      | error e => rfl
      | ok ci =>
        simp only [okBind]
        have hc : c = (ci : Int) := by
          unfold toIdx at ec; split at ec
          · have := Except.ok.inj ec; omega
          · cases ec
        cases ex : q.get i.toNat ci with
        | error e =>
          have := utm_get_rel (i := i.toNat) (j := ci) hq
          rw [ex] at this
          cases h2 : (q.deref m0).get i.toNat ci with
          | error e' => rw [h2] at this; exact this
          | ok y => rw [h2] at this; exact this.elim
        | ok a =>
          have := utm_get_rel (i := i.toNat) (j := ci) hq
          rw [ex] at this
          obtain ⟨y, hy, rfl, ha⟩ := this.ok_left
          rw [hy]
          simp only [okBind]
          apply RelRes.bind (ih (c + 1))
          rintro r _ ⟨rfl, h⟩
          refine ⟨by simp, ?_⟩
          intro x hx
          rcases List.mem_cons.1 hx with rfl | hx
          · exact ⟨ha, i.toNat, ci, by simp [hi.1], hc, ex⟩
          · exact h x hx
    · exact ⟨rfl, by simp⟩

/-- The search with shared objects computes what the search with copies computes. -/
theorem soBest_rel (m : Heap K) {q : UTM Ptr} (hq : ∀ a ∈ q.data, a < m.length) (p : F) :
    RelRes (fun (r : Heap K × SOPartition F) (P : OPartition F K) =>
        Keeps m r.1 ∧ P = ⟨r.2.parameter, r.2.cuts,
          r.2.parts.map (fun x => ⟨x.start, x.end, deref r.1 x.quality⟩), deref r.1 r.2.quality⟩ ∧
        (∀ x ∈ r.2.parts, x.quality < m.length ∧ ∃ i j : Nat, x.start = i ∧ x.end = j ∧ q.get i j = .ok x.quality) ∧
        m.length ≤ r.2.quality ∧ r.2.quality < r.1.length)
      (soBestPartition m q p) (oBestPartition (q.deref m) p) := by
  unfold soBestPartition oBestPartition obLoop
  have hs : (q.deref m).size = q.size := rfl
  rw [hs]
  apply RelRes.bind (R := ORel m)
  · apply forDown_rel (fun _ => ORel m)
    · have k := keeps_news m q.size
      have k1 : Keeps (STr.news m q.size).1 (STr.new (STr.news m q.size).1).1 := keeps_append _ _
      have hr : ∀ x ∈ (STr.news m q.size).2, x.ptr < (STr.news m q.size).1.length := by
        intro x hx
        rw [news_length]; exact (news_ptr hx).2
      refine ⟨k.trans k1, ?_, ?_, rfl⟩
      · intro x hx
        exact lt_of_lt_of_le (hr x hx) k1.1
      · show _ = (STr.news m q.size).2.map (STr.view (STr.new (STr.news m q.size).1).1)
        rw [map_view_keeps k1 hr, news_view]
    · intro k s t _ h
      exact sobRow_rel hq p k h
  intro s t h
  unfold mkOPartition
  rw [h.cut]
  apply RelRes.bind (soParts_rel hq s.cut (s.cut.length + 1) 0)
  rintro parts _ ⟨rfl, hp⟩
  obtain ⟨m', e, k, hlt, hd⟩ := sSumQuality_spec (m := s.mem) (l := parts.map SOPart.quality) (by
    intro a ha
    obtain ⟨x, hx, rfl⟩ := List.mem_map.1 ha
    exact lt_of_lt_of_le (hp x hx).1 h.keeps.1)
  rw [e]
  simp only [okBind]
  have k' := h.keeps.trans k
  refine ⟨k', ?_, hp, h.keeps.1, hlt⟩
  simp only
  rw [hd]
  have h1 : parts.map (fun x => (⟨x.start, x.end, deref m' x.quality⟩ : OPart K)) =
      parts.map (fun x => ⟨x.start, x.end, deref m x.quality⟩) := by
    apply List.map_congr_left; intro x hx; rw [k'.2 _ (hp x hx).1]
  rw [h1]
  congr 1
  congr 1
  simp only [List.map_map]
  apply List.map_congr_left; intro x hx
  simp only [Function.comp]
  rw [h.keeps.2 _ (hp x hx).1]

end Lp

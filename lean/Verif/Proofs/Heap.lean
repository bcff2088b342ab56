import Verif.Spec.Memory
import Verif.Proofs.Rel

/-!
# Reading through pointers
-/

namespace Lp
variable {F K : Type}

section
variable [LD K]

/-- The tradeoff with its own copy of the numbers. -/
def STr.view (m : Heap K) (t : STr K) : Tradeoff K := ⟨t.value, (deref m t.ptr).gain, (deref m t.ptr).loss⟩

omit [LD K] in
theorem vget_deref [LD K] {m : Heap K} {a : Ptr} (h : a < m.length) : vget m a = .ok (deref m a) := by
  unfold deref; rw [vget_ok h, List.getElem?_eq_getElem h]; rfl

theorem Keeps.refl (m : Heap K) : Keeps m m := ⟨le_refl _, fun _ _ => rfl⟩

theorem Keeps.trans {m0 m1 m2 : Heap K} (h1 : Keeps m0 m1) (h2 : Keeps m1 m2) : Keeps m0 m2 :=
  ⟨h1.1.trans h2.1, fun a ha => (h2.2 a (lt_of_lt_of_le ha h1.1)).trans (h1.2 a ha)⟩

theorem deref_append {m e : Heap K} {a : Ptr} (h : a < m.length) : deref (m ++ e) a = deref m a := by
  unfold deref; rw [List.getElem?_append_left h]

theorem keeps_append (m e : Heap K) : Keeps m (m ++ e) := ⟨by simp, fun _ h => deref_append h⟩

theorem deref_last (m : Heap K) (x : Quality K) : deref (m ++ [x]) m.length = x := by simp [deref]

theorem deref_set_ne {m : Heap K} {a b : Ptr} {x : Quality K} (h : a ≠ b) : deref (m.set b x) a = deref m a := by
  unfold deref; rw [List.getElem?_set_ne (Ne.symm h)]

theorem deref_set_eq {m : Heap K} {a : Ptr} {x : Quality K} (h : a < m.length) : deref (m.set a x) a = x := by
  simp [deref, h]

theorem keeps_set {m0 m : Heap K} {a : Ptr} {x : Quality K} (h : Keeps m0 m) (ha : m0.length ≤ a) : Keeps m0 (m.set a x) :=
  ⟨by simpa using h.1, fun b hb => by rw [deref_set_ne (Nat.ne_of_lt (lt_of_lt_of_le hb ha))]; exact h.2 b hb⟩

theorem view_congr {m m' : Heap K} {t : STr K} (h : deref m' t.ptr = deref m t.ptr) : t.view m' = t.view m := by
  unfold STr.view; rw [h]

theorem Keeps.view {m m' : Heap K} (h : Keeps m m') {t : STr K} (ht : t.ptr < m.length) : t.view m' = t.view m :=
  view_congr (h.2 _ ht)

theorem STr.set_spec [FloatP F K] {m : Heap K} {a : Ptr} (h : a < m.length) (p : F) :
    STr.set m a p = .ok (m ++ [deref m a], ⟨Tradeoff.pic p (deref m a).gain (deref m a).loss, m.length⟩) := by
  unfold STr.set; rw [vget_deref h]; rfl

theorem STr.set_view [FloatP F K] (m : Heap K) (q : Quality K) (p : F) :
    STr.view (m ++ [q]) ⟨Tradeoff.pic p q.gain q.loss, m.length⟩ = Tradeoff.set q p := by
  unfold STr.view; rw [deref_last]; rfl

theorem STr.new_view (m : Heap K) : STr.view (STr.new m).1 (STr.new m).2 = Tradeoff.zero := by
  unfold STr.view STr.new; rw [deref_last]; rfl

theorem STr.read_spec {m : Heap K} {t : STr K} (h : t.ptr < m.length) : t.read m = .ok (t.view m) := by
  unfold STr.read; rw [vget_deref h]; rfl

/-- `+=` writes only to the object of its left operand. -/
theorem STr.addTo_spec {m : Heap K} {t u : STr K} (h : t.ptr < m.length) (h' : u.ptr < m.length) :
    ∃ m', STr.addTo m t u = .ok (m', ⟨t.value + u.value, t.ptr⟩) ∧ m'.length = m.length ∧
      (∀ a, a ≠ t.ptr → deref m' a = deref m a) ∧
      STr.view m' ⟨t.value + u.value, t.ptr⟩ = (t.view m).add (u.view m) := by
  refine ⟨m.set t.ptr ((deref m t.ptr).add (deref m u.ptr)), ?_, by simp, fun a ha => deref_set_ne ha, ?_⟩
  · unfold STr.addTo
    rw [vget_deref h, vget_deref h']
    simp only [okBind]
    rw [vset_ok h]; rfl
  · unfold STr.view
    simp only [deref_set_eq h]
    rfl

theorem utm_get_rel {m : Heap K} {q : UTM Ptr} {i j : Nat} (hq : ∀ a ∈ q.data, a < m.length) :
    RelRes (fun a x => x = deref m a ∧ a < m.length) (q.get i j) ((q.deref m).get i j) := by
  unfold UTM.get UTM.deref
  apply vget_rel (by simp)
  intro a x ha hx
  rw [List.getElem?_map, ha] at hx
  exact ⟨by simpa using hx.symm, hq a (List.mem_of_getElem? ha)⟩

theorem keeps_news (m : Heap K) (n : Nat) : Keeps m (STr.news m n).1 := keeps_append _ _

theorem news_length (m : Heap K) (n : Nat) : (STr.news m n).1.length = m.length + n := by simp [STr.news]

theorem news_ptr {m : Heap K} {n : Nat} {t : STr K} (h : t ∈ (STr.news m n).2) : m.length ≤ t.ptr ∧ t.ptr < m.length + n := by
  unfold STr.news at h
  simp only [List.mem_map, List.mem_range] at h
  obtain ⟨i, hi, rfl⟩ := h
  simp; omega

theorem news_view (m : Heap K) (n : Nat) : (STr.news m n).2.map (STr.view (STr.news m n).1) = List.replicate n Tradeoff.zero := by
  apply List.ext_getElem?
  intro i
  by_cases hi : i < n
  · simp [STr.news, hi, STr.view, deref, List.getElem?_append_right, Tradeoff.zero, Quality.zero]
  · simp [STr.news, hi]

/-- The partition's own object. -/
theorem sSumQuality_spec {m : Heap K} {l : List Ptr} (hl : ∀ a ∈ l, a < m.length) :
    ∃ m', sSumQuality m l = .ok (m', m.length) ∧ Keeps m m' ∧ m.length < m'.length ∧
      deref m' m.length = sumQuality (l.map (deref m)) := by
  unfold sSumQuality
  obtain ⟨m', e, h1, h2, h3⟩ := forEach_inv (f := fun b (m' : Heap K) => do
      let x ← vget m' m.length
      let y ← vget m' b
      vset m' m.length (x.add y))
    (fun pre m' => m'.length = m.length + 1 ∧ Keeps m m' ∧ deref m' m.length = sumQuality (pre.map (deref m))) l (m ++ [Quality.zero])
    ⟨by simp, keeps_append _ _, by rw [deref_last]; rfl⟩ (by
      intro pre x post m' hlx ⟨h1, h2, h3⟩
      have hx : x < m.length := hl x (by simp [hlx])
      have hm : m.length < m'.length := by rw [h1]; exact Nat.lt_succ_self _
      refine ⟨m'.set m.length ((deref m' m.length).add (deref m' x)), ?_, by simpa using h1, keeps_set h2 (le_refl _), ?_⟩
      · rw [vget_deref hm, vget_deref (lt_trans hx hm)]
        simp only [okBind]
        rw [vset_ok hm]
      · rw [deref_set_eq hm, h3, h2.2 x hx]
        simp [sumQuality, List.foldl_append])
  refine ⟨m', ?_, h2, by omega, h3⟩
  simp only [e, okBind]; rfl

end
end Lp

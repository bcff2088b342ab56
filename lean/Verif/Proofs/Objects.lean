import Verif.Spec.ValueSemantics

/-!
# Programs over shared `Quality` objects
-/

namespace Lp
open Spec
variable {F K : Type} [LD K]

/-- All pointers point into the memory. -/
structure Store.Valid (s : Store K) : Prop where
  tr : ∀ t ∈ s.tr, t.ptr < s.mem.length
  hd : ∀ a ∈ s.hd, a < s.mem.length

/-- The numbers of one tradeoff. -/
def obsT (m : Heap K) (t : STr K) : Tradeoff K :=
  ⟨t.value, (m[t.ptr]?.getD Quality.zero).gain, (m[t.ptr]?.getD Quality.zero).loss⟩

/-- The numbers of one handle. -/
def obsH (m : Heap K) (a : Ptr) : Quality K := m[a]?.getD Quality.zero

theorem observe_eq (s : Store K) : observe s = ⟨s.tr.map (obsT s.mem), s.hd.map (obsH s.mem)⟩ := rfl

theorem signed_ap (o : Arith) (x y : K) : o.ap x y = signed o x y := by cases o <;> rfl

theorem bin_signed (o : Arith) (x y : Quality K) : Quality.bin o x y = ⟨signed o x.gain y.gain, signed o x.loss y.loss⟩ := by
  cases o <;> rfl

theorem heapArith_eq (o : Arith) {m : Heap K} {a b : Ptr} (ha : a < m.length) (hb : b < m.length) :
    heapArith o m a b = .ok (m.set a ⟨signed o m[a].gain m[b].gain, signed o m[a].loss m[b].loss⟩) := by
  unfold heapArith
  simp only [signed_ap]
  have hb' : b < (m.set a { m[a] with gain := signed o m[a].gain m[b].gain }).length := by simpa using hb
  have ha' : a < (m.set a { m[a] with gain := signed o m[a].gain m[b].gain }).length := by simpa using ha
  simp only [vget_ok ha, vget_ok hb, okBind, vset_ok ha, vget_ok ha', vget_ok hb', vset_ok ha', List.set_set]
  congr 2
  simp only [List.getElem_set_self]
  congr 1
  by_cases e : a = b
  · subst e; simp
  · rw [List.getElem_set_ne e]

theorem obsT_append {m : Heap K} {x : Quality K} {t : STr K} (h : t.ptr < m.length) : obsT (m ++ [x]) t = obsT m t := by
  unfold obsT; rw [List.getElem?_append_left h]

theorem obsH_append {m : Heap K} {x : Quality K} {a : Ptr} (h : a < m.length) : obsH (m ++ [x]) a = obsH m a := by
  unfold obsH; rw [List.getElem?_append_left h]

theorem obsT_last {m : Heap K} {x : Quality K} {v : K} : obsT (m ++ [x]) ⟨v, m.length⟩ = ⟨v, x.gain, x.loss⟩ := by
  simp [obsT]

theorem obsH_last {m : Heap K} {x : Quality K} : obsH (m ++ [x]) m.length = x := by
  simp [obsH]

theorem obsT_set_ne {m : Heap K} {x : Quality K} {a : Ptr} {t : STr K} (h : t.ptr ≠ a) : obsT (m.set a x) t = obsT m t := by
  unfold obsT; rw [List.getElem?_set_ne (Ne.symm h)]

theorem obsH_set_ne {m : Heap K} {x : Quality K} {a b : Ptr} (h : b ≠ a) : obsH (m.set a x) b = obsH m b := by
  unfold obsH; rw [List.getElem?_set_ne (Ne.symm h)]

theorem obsH_set_self {m : Heap K} {x : Quality K} {a : Ptr} (h : a < m.length) : obsH (m.set a x) a = x := by
  unfold obsH; rw [List.getElem?_set_self h]; rfl

theorem obsT_set_self {m : Heap K} {x : Quality K} {t : STr K} (h : t.ptr < m.length) :
    obsT (m.set t.ptr x) t = ⟨t.value, x.gain, x.loss⟩ := by
  unfold obsT; rw [List.getElem?_set_self h]; rfl

theorem obsH_get {m : Heap K} {a : Ptr} (h : a < m.length) : obsH m a = m[a] := by
  unfold obsH; rw [List.getElem?_eq_getElem h]; rfl

theorem obsT_get {m : Heap K} {t : STr K} (h : t.ptr < m.length) : obsT m t = ⟨t.value, m[t.ptr].gain, m[t.ptr].loss⟩ := by
  unfold obsT; rw [List.getElem?_eq_getElem h]; rfl

theorem Store.Valid.obs_append {s : Store K} (h : s.Valid) (x : Quality K) :
    s.tr.map (obsT (s.mem ++ [x])) = s.tr.map (obsT s.mem) ∧ s.hd.map (obsH (s.mem ++ [x])) = s.hd.map (obsH s.mem) :=
  ⟨List.map_congr_left (fun t ht => obsT_append (h.tr t ht)), List.map_congr_left (fun a ha => obsH_append (h.hd a ha))⟩

theorem vget_map {α β : Type} (f : α → β) (l : List α) (i : Nat) : vget (l.map f) i = (vget l i).map f := by
  unfold vget
  rw [List.getElem?_map]
  cases l[i]? <;> rfl

theorem vset_map {α β : Type} (f : α → β) (l : List α) (i : Nat) (x : α) : vset (l.map f) i (f x) = (vset l i x).map (List.map f) := by
  unfold vset
  rw [List.length_map]
  split
  · simp [Except.map, List.map_set]
  · rfl

/-- Writing through a handle without another user. -/
theorem hdAlone_set {s : Store K} (hv : s.Valid) {h : Nat} (hh : h < s.hd.length) (ha : HdAlone s h) (x : Quality K) :
    observe ⟨s.mem.set s.hd[h] x, s.tr, s.hd⟩ = ⟨(observe s).tr, (observe s).hd.set h x⟩ := by
  obtain ⟨h1, h2⟩ := ha s.hd[h] (List.getElem?_eq_getElem hh)
  rw [observe_eq, observe_eq]
  simp only [Values.mk.injEq]
  refine ⟨List.map_congr_left (fun t ht => obsT_set_ne (h2 t ht)), ?_⟩
  apply List.ext_getElem
  · simp
  intro k hk hk'
  simp only [List.length_map] at hk
  rw [List.getElem_set, List.getElem_map]
  split
  · rename_i e
    subst e
    exact obsH_set_self (hv.hd _ (List.getElem_mem hh))
  · rename_i e
    rw [List.getElem_map, obsH_set_ne]
    intro e'
    exact h1 k (fun e2 => e e2.symm) (by rw [List.getElem?_eq_getElem hk, e'])

/-- Writing to a tradeoff without another user. -/
theorem trAlone_set {s : Store K} (hv : s.Valid) {i : Nat} (hi : i < s.tr.length) (ha : TrAlone s i) (w : K) (x : Quality K) :
    observe ⟨s.mem.set s.tr[i].ptr x, s.tr.set i ⟨w, s.tr[i].ptr⟩, s.hd⟩ =
      ⟨(observe s).tr.set i ⟨w, x.gain, x.loss⟩, (observe s).hd⟩ := by
  obtain ⟨h1, h2⟩ := ha s.tr[i] (List.getElem?_eq_getElem hi)
  rw [observe_eq, observe_eq]
  simp only [Values.mk.injEq]
  refine ⟨?_, List.map_congr_left (fun t ht => obsH_set_ne (h2 t ht))⟩
  apply List.ext_getElem
  · simp
  intro k hk hk'
  simp only [List.length_map, List.length_set] at hk
  rw [List.getElem_map, List.getElem_set, List.getElem_set]
  split
  · have := hv.tr _ (List.getElem_mem hi)
    exact obsT_set_self (t := ⟨w, s.tr[i].ptr⟩) this
  · rename_i e
    rw [List.getElem_map, obsT_set_ne]
    exact h1 k _ (fun e2 => e e2.symm) (List.getElem?_eq_getElem hk)

theorem mem_set_aux {α : Type} {l : List α} {i : Nat} {x y : α} (h : y ∈ l.set i x) : y ∈ l ∨ y = x := by
  rcases List.mem_or_eq_of_mem_set h with h | h
  · exact .inl h
  · exact .inr h

variable [FloatP F K]

theorem vset_case {α : Type} (l : List α) (i : Nat) (x : α) :
    (i < l.length ∧ vset l i x = .ok (l.set i x)) ∨ (l.length ≤ i ∧ vset l i x = .error .outOfBounds) := by
  rcases lt_or_ge i l.length with h | h
  · exact .inl ⟨h, vset_ok h⟩
  · exact .inr ⟨h, by unfold vset; rw [if_neg (by omega)]⟩

theorem vget_case {α : Type} (l : List α) (i : Nat) :
    (∃ h : i < l.length, vget l i = .ok l[i]) ∨ (l.length ≤ i ∧ vget l i = .error .outOfBounds) := by
  rcases lt_or_ge i l.length with h | h
  · exact .inl ⟨h, vget_ok h⟩
  · exact .inr ⟨h, vget_err h⟩

theorem append_valid {s : Store K} (hv : s.Valid) {x : Quality K} {i : Nat} {v : K} :
    (⟨s.mem ++ [x], s.tr.set i ⟨v, s.mem.length⟩, s.hd⟩ : Store K).Valid := by
  constructor
  · intro t ht
    simp only [List.length_append, List.length_singleton]
    rcases mem_set_aux ht with ht | rfl
    · exact Nat.lt_succ_of_lt (hv.tr t ht)
    · exact Nat.lt_succ_self _
  · intro a ha
    simp only [List.length_append, List.length_singleton]
    exact Nat.lt_succ_of_lt (hv.hd a ha)

theorem append_observe {s : Store K} (hv : s.Valid) {x : Quality K} {i : Nat} {v : K} :
    observe (⟨s.mem ++ [x], s.tr.set i ⟨v, s.mem.length⟩, s.hd⟩ : Store K) =
      ⟨(observe s).tr.set i ⟨v, x.gain, x.loss⟩, (observe s).hd⟩ := by
  rw [observe_eq, observe_eq]
  simp only
  rw [List.map_set, (hv.obs_append x).1, (hv.obs_append x).2, obsT_last]

/-- What one call does: to the memory and to the values. -/
theorem step_spec {s : Store K} (hv : s.Valid) (c : Call F K) (hw : WritesAlone s c) :
    (s.step c).map observe = (observe s).step c ∧ ∀ s', s.step c = .ok s' → s'.Valid := by
  have hset : ∀ (a : Ptr) (x : Quality K), (⟨s.mem.set a x, s.tr, s.hd⟩ : Store K).Valid :=
    fun a x => ⟨fun t ht => by simpa using hv.tr t ht, fun t ht => by simpa using hv.hd t ht⟩
  -- a write through a handle
  have hwrite : ∀ (h : Nat) (f : Quality K → Quality K), HdAlone s h →
      (Except.map observe (do
        let a ← vget s.hd h
        let x ← vget s.mem a
        let m ← vset s.mem a (f x)
        return (⟨m, s.tr, s.hd⟩ : Store K)) = (do
          let x ← vget (observe s).hd h
          return ⟨(observe s).tr, ← vset (observe s).hd h (f x)⟩)) ∧
      ∀ s', (do
        let a ← vget s.hd h
        let x ← vget s.mem a
        let m ← vset s.mem a (f x)
        return (⟨m, s.tr, s.hd⟩ : Store K)) = .ok s' → s'.Valid := by
    intro h f ha
    rw [show (observe s).hd = s.hd.map (obsH s.mem) from rfl, vget_map]
    rcases vget_case s.hd h with ⟨hh, e⟩ | ⟨hh, e⟩
    · have hp := hv.hd _ (List.getElem_mem hh)
      simp only [e, okBind, vget_ok hp, vset_ok hp, Except.map, pureOk]
      rw [vset_ok (by simpa using hh), hdAlone_set hv hh ha, obsH_get hp]
      refine ⟨rfl, fun s' e => ?_⟩
      obtain rfl := Except.ok.inj e
      exact hset _ _
    · simp only [e, errBind, Except.map]
      exact ⟨trivial, fun s' e => by simp at e⟩
  -- a new object for a tradeoff
  have hnew : ∀ (i h : Nat) (w : Quality K → K),
      (Except.map observe (do
        let a ← vget s.hd h
        let x ← vget s.mem a
        let tr ← vset s.tr i ⟨w x, s.mem.length⟩
        return (⟨s.mem ++ [x], tr, s.hd⟩ : Store K)) = (do
          let x ← vget (observe s).hd h
          return ⟨← vset (observe s).tr i ⟨w x, x.gain, x.loss⟩, (observe s).hd⟩)) ∧
      ∀ s', (do
        let a ← vget s.hd h
        let x ← vget s.mem a
        let tr ← vset s.tr i ⟨w x, s.mem.length⟩
        return (⟨s.mem ++ [x], tr, s.hd⟩ : Store K)) = .ok s' → s'.Valid := by
    intro i h w
    rw [show vget (observe s).hd h = _ from vget_map (obsH s.mem) s.hd h]
    rcases vget_case s.hd h with ⟨hh, e⟩ | ⟨hh, e⟩
    · have hp := hv.hd _ (List.getElem_mem hh)
      simp only [e, okBind, vget_ok hp, Except.map, obsH_get hp]
      rcases vset_case s.tr i (⟨w s.mem[s.hd[h]], s.mem.length⟩ : STr K) with ⟨hi, e2⟩ | ⟨hi, e2⟩
      · simp only [e2, okBind, pureOk]
        rw [vset_ok (by simpa [observe] using hi), append_observe hv]
        refine ⟨rfl, fun s' e => ?_⟩
        obtain rfl := Except.ok.inj e
        exact append_valid hv
      · simp only [e2, errBind]
        rw [vset, if_neg (by simp [observe]; omega)]
        exact ⟨rfl, fun s' e => by simp at e⟩
    · simp only [e, errBind, Except.map]
      exact ⟨trivial, fun s' e => by simp at e⟩
  cases c with
  | qNew h g l =>
    simp only [Store.step, Values.step]
    rcases vset_case s.hd h s.mem.length with ⟨hh, e⟩ | ⟨hh, e⟩
    · simp only [e, okBind, pureOk, Except.map]
      rw [vset_ok (by simpa [observe] using hh)]
      constructor
      · simp only [okBind]
        rw [observe_eq, observe_eq]
        simp only
        rw [List.map_set, (hv.obs_append _).1, (hv.obs_append _).2, obsH_last]
      · intro s' e
        obtain rfl := Except.ok.inj e
        constructor
        · intro t ht
          simp only [List.length_append, List.length_singleton]
          exact Nat.lt_succ_of_lt (hv.tr t ht)
        · intro a ha
          simp only [List.length_append, List.length_singleton]
          rcases mem_set_aux ha with ha | rfl
          · exact Nat.lt_succ_of_lt (hv.hd a ha)
          · exact Nat.lt_succ_self _
    · simp only [e, errBind, Except.map]
      rw [vset, if_neg (by simp [observe]; omega)]
      exact ⟨rfl, fun s' e => by simp at e⟩
  | qCopy h h' =>
    simp only [Store.step, Values.step]
    rw [show vget (observe s).hd h' = _ from vget_map (obsH s.mem) s.hd h']
    rcases vget_case s.hd h' with ⟨hh, e⟩ | ⟨hh, e⟩
    · simp only [e, okBind, Except.map]
      rw [show vset (observe s).hd h _ = _ from vset_map (obsH s.mem) s.hd h s.hd[h']]
      rcases vset_case s.hd h s.hd[h'] with ⟨hi, e2⟩ | ⟨hi, e2⟩
      · simp only [e2, okBind, pureOk, Except.map]
        refine ⟨rfl, fun s' e => ?_⟩
        obtain rfl := Except.ok.inj e
        refine ⟨hv.tr, fun a ha => ?_⟩
        rcases mem_set_aux ha with ha | rfl
        · exact hv.hd a ha
        · exact hv.hd _ (List.getElem_mem hh)
      · simp only [e2, errBind, Except.map]
        exact ⟨trivial, fun s' e => by simp at e⟩
    · simp only [e, errBind, Except.map]
      exact ⟨trivial, fun s' e => by simp at e⟩
  | qTake h i =>
    simp only [Store.step, Values.step]
    rw [show vget (observe s).tr i = _ from vget_map (obsT s.mem) s.tr i]
    rcases vget_case s.tr i with ⟨hh, e⟩ | ⟨hh, e⟩
    · simp only [e, okBind, Except.map]
      rw [show (⟨(obsT s.mem s.tr[i]).gain, (obsT s.mem s.tr[i]).loss⟩ : Quality K) = obsH s.mem s.tr[i].ptr from rfl]
      rw [show vset (observe s).hd h _ = _ from vset_map (obsH s.mem) s.hd h s.tr[i].ptr]
      rcases vset_case s.hd h s.tr[i].ptr with ⟨hi, e2⟩ | ⟨hi, e2⟩
      · simp only [e2, okBind, pureOk, Except.map]
        refine ⟨rfl, fun s' e => ?_⟩
        obtain rfl := Except.ok.inj e
        refine ⟨hv.tr, fun a ha => ?_⟩
        rcases mem_set_aux ha with ha | rfl
        · exact hv.hd a ha
        · exact hv.tr _ (List.getElem_mem hh)
      · simp only [e2, errBind, Except.map]
        exact ⟨trivial, fun s' e => by simp at e⟩
    · simp only [e, errBind, Except.map]
      exact ⟨trivial, fun s' e => by simp at e⟩
  | qSetGain h g => exact hwrite h (fun x => ⟨g, x.loss⟩) hw
  | qSetLoss h l => exact hwrite h (fun x => ⟨x.gain, l⟩) hw
  | qAddGain h g => exact hwrite h (fun x => ⟨x.gain + g, x.loss⟩) hw
  | qAddLoss h l => exact hwrite h (fun x => ⟨x.gain, x.loss + l⟩) hw
  | qArith o h h' =>
    simp only [Store.step, Values.step]
    rw [show vget (observe s).hd h = _ from vget_map (obsH s.mem) s.hd h,
      show vget (observe s).hd h' = _ from vget_map (obsH s.mem) s.hd h']
    rcases vget_case s.hd h with ⟨hh, e⟩ | ⟨hh, e⟩
    · rcases vget_case s.hd h' with ⟨hh', e'⟩ | ⟨hh', e'⟩
      · have p1 := hv.hd _ (List.getElem_mem hh)
        have p2 := hv.hd _ (List.getElem_mem hh')
        simp only [e, e', okBind, Except.map, heapArith_eq o p1 p2, pureOk]
        rw [vset_ok (by simpa [observe] using hh), hdAlone_set hv hh hw, obsH_get p1, obsH_get p2]
        refine ⟨rfl, fun s' e => ?_⟩
        obtain rfl := Except.ok.inj e
        exact hset _ _
      · simp only [e, e', okBind, errBind, Except.map]
        exact ⟨trivial, fun s' e => by simp at e⟩
    · simp only [e, errBind, Except.map]
      exact ⟨trivial, fun s' e => by simp at e⟩
  | qBin o h h₁ h₂ =>
    simp only [Store.step, Values.step]
    rw [show vget (observe s).hd h₁ = _ from vget_map (obsH s.mem) s.hd h₁,
      show vget (observe s).hd h₂ = _ from vget_map (obsH s.mem) s.hd h₂]
    rcases vget_case s.hd h₁ with ⟨hh₁, e₁⟩ | ⟨hh₁, e₁⟩
    · rcases vget_case s.hd h₂ with ⟨hh₂, e₂⟩ | ⟨hh₂, e₂⟩
      · have p1 := hv.hd _ (List.getElem_mem hh₁)
        have p2 := hv.hd _ (List.getElem_mem hh₂)
        rcases vget_case s.hd h with ⟨hh, e⟩ | ⟨hh, e⟩
        · have p := hv.hd _ (List.getElem_mem hh)
          simp only [e, e₁, e₂, okBind, Except.map, vget_ok p1, vget_ok p2, vset_ok p, pureOk, bin_signed]
          rw [vset_ok (by simpa [observe] using hh), hdAlone_set hv hh hw, obsH_get p1, obsH_get p2]
          refine ⟨rfl, fun s' e => ?_⟩
          obtain rfl := Except.ok.inj e
          exact hset _ _
        · simp only [e, e₁, e₂, okBind, errBind, Except.map, vget_ok p1, vget_ok p2]
          rw [vset, if_neg (by simp [observe]; omega)]
          exact ⟨rfl, fun s' e => by simp at e⟩
      · simp only [e₁, e₂, okBind, errBind, Except.map]
        exact ⟨trivial, fun s' e => by simp at e⟩
    · simp only [e₁, errBind, Except.map]
      exact ⟨trivial, fun s' e => by simp at e⟩
  | tNew i =>
    simp only [Store.step, Values.step]
    rcases vset_case s.tr i (⟨0, s.mem.length⟩ : STr K) with ⟨hi, e2⟩ | ⟨hi, e2⟩
    · simp only [e2, okBind, pureOk, Except.map]
      rw [vset_ok (by simpa [observe] using hi), append_observe hv]
      refine ⟨rfl, fun s' e => ?_⟩
      obtain rfl := Except.ok.inj e
      exact append_valid hv
    · simp only [e2, errBind, Except.map]
      rw [vset, if_neg (by simp [observe]; omega)]
      exact ⟨rfl, fun s' e => by simp at e⟩
  | tOfQ i h => exact hnew i h (fun _ => 0)
  | tOfVal i v h => exact hnew i h (fun _ => v)
  | tSet i h p =>
    have := hnew i h (fun x => Tradeoff.pic p x.gain x.loss)
    have e : s.step (.tSet i h p : Call F K) = (do
        let a ← vget s.hd h
        let x ← vget s.mem a
        let tr ← vset s.tr i ⟨Tradeoff.pic p x.gain x.loss, s.mem.length⟩
        return (⟨s.mem ++ [x], tr, s.hd⟩ : Store K)) := by
      simp only [Store.step, STr.set]
      cases vget s.hd h with
      | error e => rfl
      | ok a => simp only [okBind]; cases vget s.mem a <;> rfl
    rw [e]
    exact this
  | tPIC i p =>
    simp only [Store.step, Values.step]
    rw [show vget (observe s).tr i = _ from vget_map (obsT s.mem) s.tr i]
    rcases vget_case s.tr i with ⟨hh, e⟩ | ⟨hh, e⟩
    · have hp := hv.tr _ (List.getElem_mem hh)
      simp only [e, okBind, Except.map, vget_ok hp, vset_ok hh, pureOk, obsT_get hp]
      rw [vset_ok (by simpa [observe] using hh)]
      constructor
      · simp only [okBind]
        rw [observe_eq, observe_eq]
        simp only
        rw [List.map_set, obsT_get (by exact hp)]
        rfl
      · intro s' e
        obtain rfl := Except.ok.inj e
        refine ⟨fun t ht => ?_, hv.hd⟩
        rcases mem_set_aux ht with ht | rfl
        · exact hv.tr t ht
        · exact hp
    · simp only [e, errBind, Except.map]
      exact ⟨trivial, fun s' e => by simp at e⟩
  | tAssign i j =>
    simp only [Store.step, Values.step]
    rw [show vget (observe s).tr j = _ from vget_map (obsT s.mem) s.tr j]
    rcases vget_case s.tr j with ⟨hh, e⟩ | ⟨hh, e⟩
    · simp only [e, okBind, Except.map]
      rw [show vset (observe s).tr i _ = _ from vset_map (obsT s.mem) s.tr i s.tr[j]]
      rcases vset_case s.tr i s.tr[j] with ⟨hi, e2⟩ | ⟨hi, e2⟩
      · simp only [e2, okBind, pureOk, Except.map]
        refine ⟨rfl, fun s' e => ?_⟩
        obtain rfl := Except.ok.inj e
        refine ⟨fun t ht => ?_, hv.hd⟩
        rcases mem_set_aux ht with ht | rfl
        · exact hv.tr t ht
        · exact hv.tr _ (List.getElem_mem hh)
      · simp only [e2, errBind, Except.map]
        exact ⟨trivial, fun s' e => by simp at e⟩
    · simp only [e, errBind, Except.map]
      exact ⟨trivial, fun s' e => by simp at e⟩
  | tArith o i j =>
    simp only [Store.step, Values.step]
    rw [show vget (observe s).tr i = _ from vget_map (obsT s.mem) s.tr i,
      show vget (observe s).tr j = _ from vget_map (obsT s.mem) s.tr j]
    rcases vget_case s.tr i with ⟨hh, e⟩ | ⟨hh, e⟩
    · rcases vget_case s.tr j with ⟨hh', e'⟩ | ⟨hh', e'⟩
      · have p1 := hv.tr _ (List.getElem_mem hh)
        have p2 := hv.tr _ (List.getElem_mem hh')
        simp only [e, e', okBind, Except.map, heapArith_eq o p1 p2, pureOk, vset_ok hh, signed_ap]
        rw [vset_ok (by simpa [observe] using hh), trAlone_set hv hh hw, obsT_get p1, obsT_get p2]
        refine ⟨rfl, fun s' e => ?_⟩
        obtain rfl := Except.ok.inj e
        refine ⟨fun t ht => ?_, fun a ha => by simpa using hv.hd a ha⟩
        simp only [List.length_set]
        rcases mem_set_aux ht with ht | rfl
        · exact hv.tr t ht
        · exact p1
      · simp only [e, e', okBind, errBind, Except.map]
        exact ⟨trivial, fun s' e => by simp at e⟩
    · simp only [e, errBind, Except.map]
      exact ⟨trivial, fun s' e => by simp at e⟩

omit [FloatP F K] in
theorem fresh_valid (nt nh : Nat) : (Store.fresh nt nh : Store K).Valid := by
  constructor
  · intro t ht
    obtain ⟨i, hi, rfl⟩ := List.mem_map.mp ht
    have := List.mem_range.mp hi
    change i < (List.replicate (nt + nh) Quality.zero).length
    rw [List.length_replicate]; exact Nat.lt_add_right nh this
  · intro a ha
    obtain ⟨i, hi, rfl⟩ := List.mem_map.mp ha
    have := List.mem_range.mp hi
    change nt + i < (List.replicate (nt + nh) Quality.zero).length
    rw [List.length_replicate]; exact Nat.add_lt_add_left this nt

omit [FloatP F K] in
theorem fresh_observe (nt nh : Nat) : observe (Store.fresh nt nh : Store K) =
    ⟨List.replicate nt ⟨0, 0, 0⟩, List.replicate nh ⟨0, 0⟩⟩ := by
  rw [observe_eq]
  simp only [Values.mk.injEq, Store.fresh, List.map_map]
  constructor
  · rw [List.eq_replicate_iff]
    refine ⟨by simp, fun t ht => ?_⟩
    obtain ⟨i, hi, rfl⟩ := List.mem_map.mp ht
    have := List.mem_range.mp hi
    simp only [Function.comp, obsT]
    rw [List.getElem?_replicate, if_pos (by omega)]
    rfl
  · rw [List.eq_replicate_iff]
    refine ⟨by simp, fun t ht => ?_⟩
    obtain ⟨i, hi, rfl⟩ := List.mem_map.mp ht
    have := List.mem_range.mp hi
    simp only [Function.comp, obsH]
    rw [List.getElem?_replicate, if_pos (by omega)]
    rfl

theorem run_spec : ∀ (l : List (Call F K)) {s : Store K}, s.Valid → NeverShared s l →
    (s.run l).map observe = (observe s).run l := by
  intro l
  induction l with
  | nil => intro s _ _; rfl
  | cons c l ih =>
    intro s hv hn
    obtain ⟨h1, h2⟩ := step_spec hv c hn.1
    unfold Store.run Values.run forEach
    rw [← h1]
    cases hc : s.step c with
    | error e => rfl
    | ok s' => exact ih (h2 s' hc) (hn.2 s' hc)

end Lp

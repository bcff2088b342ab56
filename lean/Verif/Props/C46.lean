import Verif.Proofs.Objects
import Verif.Spec.Float

/-!
# C46 — arithmetic on `Tradeoff` and `Quality` objects, and what assignment shares

Any arithmetic (`LD K`: no algebraic law is used), any sequence of calls on any number of variables.
-/

namespace Lp.C46
open Spec
variable {F K : Type} [LD K] [FloatP F K]

/-- From `nt` new tradeoffs and `nh` handles to new qualities, any sequence of calls in which every write finds its object
without another user gives the same numbers (and faults, for names that do not exist) as if each variable held its own
numbers; in particular `operator+= -= *= /=` act on value, gain and loss separately, also for `t += t`, and the binary operators on
qualities act on gains and losses separately. -/
theorem valueSemantics (nt nh : Nat) (l : List (Call F K)) (h : NeverShared (Store.fresh nt nh) l) :
    ((Store.fresh nt nh).run l).map observe =
      Values.run ⟨List.replicate nt ⟨0, 0, 0⟩, List.replicate nh ⟨0, 0⟩⟩ l := by
  rw [run_spec l (fresh_valid nt nh) h, fresh_observe]

/-- What a call makes shared: only `h = h'`, `h = t.getQuality()` and `t_i = t_j` do. -/
def Shares : Call F K → Prop
  | .qCopy _ _ | .qTake _ _ | .tAssign _ _ => True
  | _ => False

/-- No two variables use the same object. -/
structure Separate (s : Store K) : Prop where
  tr : ∀ (i j : Nat) (t u : STr K), i ≠ j → s.tr[i]? = some t → s.tr[j]? = some u → t.ptr ≠ u.ptr
  hd : ∀ (h k : Nat) (a b : Ptr), h ≠ k → s.hd[h]? = some a → s.hd[k]? = some b → a ≠ b
  both : ∀ (i h : Nat) (t : STr K) (a : Ptr), s.tr[i]? = some t → s.hd[h]? = some a → t.ptr ≠ a

theorem separate_alone_aux {s : Store K} (h : Separate s) (c : Call F K) : WritesAlone s c := by
  have hH : ∀ h', HdAlone s h' := fun h' a ha => ⟨fun k hk e => h.hd k h' a a hk e ha rfl, fun t ht => by
    obtain ⟨i, hi, rfl⟩ := List.mem_iff_getElem.mp ht
    exact h.both i h' _ a (List.getElem?_eq_getElem hi) ha⟩
  have hT : ∀ i, TrAlone s i := fun i t ht => ⟨fun k u hk e => h.tr k i u t hk e ht, fun a ha => by
    obtain ⟨k, hk, rfl⟩ := List.mem_iff_getElem.mp ha
    exact (h.both i k t _ ht (List.getElem?_eq_getElem hk)).symm⟩
  cases c <;> first | exact trivial | exact hH _ | exact hT _

theorem setTr_aux {s : Store K} (h : Separate s) (hv : s.Valid) {i : Nat} {x : Quality K} {v : K} :
    Separate (⟨s.mem ++ [x], s.tr.set i ⟨v, s.mem.length⟩, s.hd⟩ : Store K) := by
  have key : ∀ (k : Nat) (t : STr K), (s.tr.set i ⟨v, s.mem.length⟩)[k]? = some t →
      (k = i ∧ t = ⟨v, s.mem.length⟩) ∨ (k ≠ i ∧ s.tr[k]? = some t) := by
    intro k t e
    by_cases hk : k = i
    · subst hk
      rw [List.getElem?_set] at e
      simp only [if_true] at e
      split at e
      · exact .inl ⟨rfl, (Option.some.inj e).symm⟩
      · simp at e
    · rw [List.getElem?_set_ne (Ne.symm hk)] at e
      exact .inr ⟨hk, e⟩
  constructor
  · intro a b t u hab ht hu
    rcases key a t ht with ⟨rfl, rfl⟩ | ⟨ha, ht1⟩
    · rcases key b u hu with ⟨rfl, rfl⟩ | ⟨hb, hu⟩
      · exact absurd rfl hab
      · exact (ne_of_lt (hv.tr u (List.mem_of_getElem? hu))).symm
    · rcases key b u hu with ⟨rfl, rfl⟩ | ⟨hb, hu⟩
      · exact ne_of_lt (hv.tr t (List.mem_of_getElem? ht1))
      · exact h.tr a b t u hab ht1 hu
  · exact h.hd
  · intro a k t b ht hb
    rcases key a t ht with ⟨rfl, rfl⟩ | ⟨ha, ht⟩
    · exact (ne_of_lt (hv.hd b (List.mem_of_getElem? hb))).symm
    · exact h.both a k t b ht hb

theorem setHd_aux {s : Store K} (h : Separate s) (hv : s.Valid) {i : Nat} {x : Quality K} :
    Separate (⟨s.mem ++ [x], s.tr, s.hd.set i s.mem.length⟩ : Store K) := by
  have key : ∀ (k : Nat) (t : Ptr), (s.hd.set i s.mem.length)[k]? = some t →
      (k = i ∧ t = s.mem.length) ∨ (k ≠ i ∧ s.hd[k]? = some t) := by
    intro k t e
    by_cases hk : k = i
    · subst hk
      rw [List.getElem?_set] at e
      simp only [if_true] at e
      split at e
      · exact .inl ⟨rfl, (Option.some.inj e).symm⟩
      · simp at e
    · rw [List.getElem?_set_ne (Ne.symm hk)] at e
      exact .inr ⟨hk, e⟩
  constructor
  · exact h.tr
  · intro a b t u hab ht hu
    rcases key a t ht with ⟨rfl, rfl⟩ | ⟨ha, ht1⟩
    · rcases key b u hu with ⟨rfl, rfl⟩ | ⟨hb, hu⟩
      · exact absurd rfl hab
      · exact (ne_of_lt (hv.hd u (List.mem_of_getElem? hu))).symm
    · rcases key b u hu with ⟨rfl, rfl⟩ | ⟨hb, hu⟩
      · exact ne_of_lt (hv.hd t (List.mem_of_getElem? ht1))
      · exact h.hd a b t u hab ht1 hu
  · intro a k t b ht hb
    rcases key k b hb with ⟨rfl, rfl⟩ | ⟨hk, hb⟩
    · exact ne_of_lt (hv.tr t (List.mem_of_getElem? ht))
    · exact h.both a k t b ht hb

theorem sameTr_aux {s : Store K} (h : Separate s) {i : Nat} (hi : i < s.tr.length) {m : Heap K} {v : K} :
    Separate (⟨m, s.tr.set i ⟨v, s.tr[i].ptr⟩, s.hd⟩ : Store K) := by
  have key : ∀ (k : Nat) (t : STr K), (s.tr.set i ⟨v, s.tr[i].ptr⟩)[k]? = some t → ∃ t', s.tr[k]? = some t' ∧ t'.ptr = t.ptr := by
    intro k t e
    by_cases hk : k = i
    · subst hk
      rw [List.getElem?_set_self hi] at e
      obtain rfl := Option.some.inj e
      exact ⟨_, List.getElem?_eq_getElem hi, rfl⟩
    · rw [List.getElem?_set_ne (Ne.symm hk)] at e
      exact ⟨t, e, rfl⟩
  refine ⟨fun a b t u hab ht hu => ?_, h.hd, fun a k t b ht hb => ?_⟩
  · obtain ⟨t', ht', e1⟩ := key a t ht
    obtain ⟨u', hu', e2⟩ := key b u hu
    rw [← e1, ← e2]
    exact h.tr a b t' u' hab ht' hu'
  · obtain ⟨t', ht', e1⟩ := key a t ht
    rw [← e1]
    exact h.both a k t' b ht' hb

theorem step_aux {s : Store K} (h : Separate s) (hv : s.Valid) (c : Call F K) (hc : ¬ Shares c) {s' : Store K}
    (e : s.step c = .ok s') : Separate s' := by
  have hmem : ∀ m : Heap K, Separate (⟨m, s.tr, s.hd⟩ : Store K) := fun m => ⟨h.tr, h.hd, h.both⟩
  -- calls that write to the object of one handle
  have hwrite : ∀ (k : Nat) (f : Quality K → Quality K), (do
        let a ← vget s.hd k
        let x ← vget s.mem a
        let m ← vset s.mem a (f x)
        return (⟨m, s.tr, s.hd⟩ : Store K)) = .ok s' → Separate s' := by
    intro k f e
    cases h1 : vget s.hd k with
    | error _ => rw [h1] at e; simp at e
    | ok a =>
      cases h2 : vget s.mem a with
      | error _ => rw [h1, okBind, h2] at e; simp at e
      | ok x =>
        cases h3 : vset s.mem a (f x) with
        | error _ => rw [h1, okBind, h2, okBind, h3] at e; simp at e
        | ok m =>
          rw [h1, okBind, h2, okBind, h3] at e
          obtain rfl := Except.ok.inj e
          exact hmem _
  have hnew : ∀ (i k : Nat) (w : Quality K → K), (do
        let a ← vget s.hd k
        let x ← vget s.mem a
        let tr ← vset s.tr i ⟨w x, s.mem.length⟩
        return (⟨s.mem ++ [x], tr, s.hd⟩ : Store K)) = .ok s' → Separate s' := by
    intro i k w e
    cases h1 : vget s.hd k with
    | error _ => rw [h1] at e; simp at e
    | ok a =>
      cases h2 : vget s.mem a with
      | error _ => rw [h1, okBind, h2] at e; simp at e
      | ok x =>
        rw [h1, okBind, h2, okBind] at e
        rcases vset_case s.tr i (⟨w x, s.mem.length⟩ : STr K) with ⟨_, e2⟩ | ⟨_, e2⟩
        · rw [e2] at e
          obtain rfl := Except.ok.inj e
          exact setTr_aux h hv
        · rw [e2] at e; simp at e
  cases c with
  | qNew k g l =>
    simp only [Store.step] at e
    rcases vset_case s.hd k s.mem.length with ⟨_, e2⟩ | ⟨_, e2⟩
    · rw [e2] at e
      obtain rfl := Except.ok.inj e
      exact setHd_aux h hv
    · rw [e2] at e; simp at e
  | qCopy _ _ => exact absurd trivial hc
  | qTake _ _ => exact absurd trivial hc
  | qSetGain k g => exact hwrite k (fun x => { x with gain := g }) e
  | qSetLoss k g => exact hwrite k (fun x => { x with loss := g }) e
  | qAddGain k g => exact hwrite k (fun x => x.addToGain g) e
  | qAddLoss k g => exact hwrite k (fun x => x.addToLoss g) e
  | qArith o k k' =>
    simp only [Store.step] at e
    cases h1 : vget s.hd k with
    | error _ => rw [h1] at e; simp at e
    | ok a =>
      cases h2 : vget s.hd k' with
      | error _ => rw [h1, h2] at e; simp at e
      | ok b =>
        rw [h1, h2] at e
        simp only [okBind] at e
        cases h3 : heapArith o s.mem a b with
        | error _ => rw [h3] at e; simp at e
        | ok m =>
          rw [h3] at e
          obtain rfl := Except.ok.inj e
          exact hmem _
  | qBin o k k₁ k₂ =>
    simp only [Store.step] at e
    rcases vget_case s.hd k₁ with ⟨hh₁, e₁⟩ | ⟨hh₁, e₁⟩
    · rcases vget_case s.hd k₂ with ⟨hh₂, e₂⟩ | ⟨hh₂, e₂⟩
      · have p1 := hv.hd _ (List.getElem_mem hh₁)
        have p2 := hv.hd _ (List.getElem_mem hh₂)
        rcases vget_case s.hd k with ⟨hh, e3⟩ | ⟨hh, e3⟩
        · simp only [e₁, e₂, e3, okBind, vget_ok p1, vget_ok p2, vset_ok (hv.hd _ (List.getElem_mem hh))] at e
          obtain rfl := Except.ok.inj e
          exact hmem _
        · simp only [e₁, e₂, e3, okBind, errBind, vget_ok p1, vget_ok p2] at e
          simp at e
      · simp only [e₁, e₂, okBind, errBind] at e; simp at e
    · rw [e₁] at e; simp at e
  | tNew i =>
    simp only [Store.step] at e
    rcases vset_case s.tr i (⟨0, s.mem.length⟩ : STr K) with ⟨_, e2⟩ | ⟨_, e2⟩
    · rw [e2] at e
      obtain rfl := Except.ok.inj e
      exact setTr_aux h hv
    · rw [e2] at e; simp at e
  | tOfQ i k => exact hnew i k (fun _ => 0) e
  | tOfVal i v k => exact hnew i k (fun _ => v) e
  | tSet i k p =>
    refine hnew i k (fun x => Tradeoff.pic p x.gain x.loss) (Eq.trans ?_ e)
    simp only [Store.step, STr.set]
    cases vget s.hd k with
    | error e => rfl
    | ok a => simp only [okBind]; cases vget s.mem a <;> rfl
  | tPIC i p =>
    simp only [Store.step] at e
    rcases vget_case s.tr i with ⟨hi, e1⟩ | ⟨hi, e1⟩
    · have hp := hv.tr _ (List.getElem_mem hi)
      simp only [e1, okBind, vget_ok hp, vset_ok hi] at e
      obtain rfl := Except.ok.inj e
      exact sameTr_aux h hi
    · rw [e1] at e; simp at e
  | tAssign _ _ => exact absurd trivial hc
  | tArith o i j =>
    simp only [Store.step] at e
    rcases vget_case s.tr i with ⟨hi, e1⟩ | ⟨hi, e1⟩
    · rcases vget_case s.tr j with ⟨hj, e2⟩ | ⟨hj, e2⟩
      · simp only [e1, e2, okBind, heapArith_eq o (hv.tr _ (List.getElem_mem hi)) (hv.tr _ (List.getElem_mem hj)),
          vset_ok hi] at e
        obtain rfl := Except.ok.inj e
        exact sameTr_aux h hi
      · simp only [e1, e2, okBind, errBind] at e; simp at e
    · rw [e1] at e; simp at e

theorem range_aux {n i a : Nat} : (List.range n)[i]? = some a ↔ i = a ∧ i < n := by
  rw [List.getElem?_eq_some_iff]
  constructor
  · rintro ⟨h, e⟩
    rw [List.getElem_range] at e
    exact ⟨e, by simpa using h⟩
  · rintro ⟨rfl, h⟩
    exact ⟨by simpa using h, List.getElem_range _⟩

theorem fresh_aux (nt nh : Nat) : Separate (Store.fresh nt nh : Store K) := by
  constructor
  · intro i j t u hij ht hu
    simp only [Store.fresh, List.getElem?_map, Option.map_eq_some_iff, range_aux] at ht hu
    obtain ⟨a, ⟨rfl, _⟩, rfl⟩ := ht
    obtain ⟨b, ⟨rfl, _⟩, rfl⟩ := hu
    exact hij
  · intro i j t u hij ht hu
    simp only [Store.fresh, List.getElem?_map, Option.map_eq_some_iff, range_aux] at ht hu
    obtain ⟨a, ⟨rfl, _⟩, rfl⟩ := ht
    obtain ⟨b, ⟨rfl, _⟩, rfl⟩ := hu
    exact fun e => hij (Nat.add_left_cancel e)
  · intro i j t u ht hu
    simp only [Store.fresh, List.getElem?_map, Option.map_eq_some_iff, range_aux] at ht hu
    obtain ⟨a, ⟨rfl, ha⟩, rfl⟩ := ht
    obtain ⟨b, ⟨rfl, _⟩, rfl⟩ := hu
    exact fun e => absurd ha (Nat.not_lt.mpr (le_trans (Nat.le_add_right nt j) (le_of_eq (Eq.symm e))))

theorem never_aux : ∀ (l : List (Call F K)) {s : Store K}, Separate s → s.Valid → (∀ c ∈ l, ¬ Shares c) → NeverShared s l := by
  intro l
  induction l with
  | nil => intro s _ _ _; trivial
  | cons c l ih =>
    intro s h hv hl
    refine ⟨separate_alone_aux h c, fun s' e => ?_⟩
    exact ih (step_aux h hv c (hl c (by simp)) e) ((step_spec hv c (separate_alone_aux h c)).2 s' e)
      (fun c hc => hl c (by simp [hc]))

/-- Sequences without pointer copies, `getQuality()` and assignments of tradeoffs always have the value semantics: the
constructors and `set` copy the quality they are given. -/
theorem withoutAssignment (nt nh : Nat) (l : List (Call F K)) (h : ∀ c ∈ l, ¬ Shares c) :
    ((Store.fresh nt nh).run l).map observe =
      Values.run ⟨List.replicate nt ⟨0, 0, 0⟩, List.replicate nh ⟨0, 0⟩⟩ l :=
  valueSemantics nt nh l (never_aux l (fresh_aux nt nh) (fresh_valid nt nh) h)

/-- After `t_i = t_j` (or any other way in which two variables came to share an object) a compound operator on `t_i`
changes the gain and loss of `t_j` too, but not the value of `t_j`. -/
theorem shared (s : Store K) (hv : s.Valid) (i j k : Nat) (o : Arith) (hi : i < s.tr.length) (hj : j < s.tr.length)
    (hk : k < s.tr.length) (hij : i ≠ j) :
    ∃ s', s.step (.tAssign i j : Call F K) >>= (fun s => s.step (.tArith o i k : Call F K)) = .ok s' ∧
      ∀ (tj tk : Tradeoff K), (observe s).tr[j]? = some tj → (observe s).tr[k]? = some tk → k ≠ i →
        (observe s').tr[i]? = some ⟨signed o tj.value tk.value, signed o tj.gain tk.gain, signed o tj.loss tk.loss⟩ ∧
        (observe s').tr[j]? = some ⟨tj.value, signed o tj.gain tk.gain, signed o tj.loss tk.loss⟩ := by
  have pj := hv.tr _ (List.getElem_mem hj)
  have hi' : i < (s.tr.set i s.tr[j]).length := by simpa using hi
  have hk' : k < (s.tr.set i s.tr[j]).length := by simpa using hk
  have pk : (s.tr.set i s.tr[j])[k].ptr < s.mem.length := by
    rcases mem_set_aux (List.getElem_mem hk') with h | h
    · exact hv.tr _ h
    · rw [h]; exact pj
  simp only [Store.step, vget_ok hj, okBind, vset_ok hi, pureOk, vget_ok hi', vget_ok hk', vset_ok hi', List.getElem_set_self,
    heapArith_eq o pj pk, Except.ok.injEq]
  refine ⟨_, rfl, fun tj tk ej ek hki => ?_⟩
  rw [observe_eq] at ej ek ⊢
  simp only [List.getElem?_map, List.getElem?_eq_getElem hj, List.getElem?_eq_getElem hk, Option.map_some, Option.some.injEq] at ej ek
  have pk' := hv.tr _ (List.getElem_mem hk)
  rw [obsT_get pj] at ej
  rw [obsT_get pk'] at ek
  subst ej ek
  simp only [List.set_set, List.getElem?_map]
  rw [List.getElem?_set_self hi, List.getElem?_set_ne hij, List.getElem?_eq_getElem hj]
  have ek : (s.tr.set i s.tr[j])[k] = s.tr[k] := List.getElem_set_ne (Ne.symm hki) _
  simp only [ek, Option.map_some, Option.some.injEq]
  constructor
  · rw [signed_ap]; exact obsT_set_self (t := ⟨_, s.tr[j].ptr⟩) pj
  · exact obsT_set_self (t := s.tr[j]) pj

/-! ## Concrete cases -/

/-- Without assignment: `t0 = Tradeoff(3, h0)` with quality (5, 2), `h0` changed afterwards, `t0 += t0`, `t1 -= t0`. -/
example : ((Store.fresh 2 1 : Store ℚ).run ([.qNew 0 5 2, .tOfVal 0 3 0, .qSetGain 0 100, .tArith .add 0 0, .tSet 1 0 (1 / 2 : ℚ),
      .tArith .sub 1 0] : List (Call ℚ ℚ))).map (fun s => ((observe s).tr, (observe s).hd)) =
    .ok ([⟨6, 10, 4⟩, ⟨43, 90, -2⟩], [⟨100, 2⟩]) := by decide +kernel
/-- Binary operators on qualities: `*h0 = *h1 - *h2`, `*h1 = *h0 / *h1`. -/
example : ((Store.fresh 0 3 : Store ℚ).run ([.qNew 1 7 4, .qNew 2 2 1, .qBin .sub 0 1 2, .qBin .div 1 0 1] :
      List (Call ℚ ℚ))).map (fun s => (observe s).hd) = .ok [⟨5, 3⟩, ⟨5 / 7, 3 / 4⟩, ⟨2, 1⟩] := by decide +kernel
/-- With assignment: after `t1 = t0; t1 += t2` the quality of `t0` has changed, its value has not. -/
theorem witness : ((Store.fresh 3 1 : Store ℚ).run ([.qNew 0 5 2, .tOfVal 0 3 0, .tOfVal 2 1 0, .tAssign 1 0, .tArith .add 1 2] :
      List (Call ℚ ℚ))).map (fun s => (observe s).tr) = .ok [⟨3, 10, 4⟩, ⟨4, 10, 4⟩, ⟨1, 5, 2⟩] := by decide +kernel

/-! ## The hypotheses are met by concrete inputs -/

example := withoutAssignment 2 1 ([.qNew 0 5 2, .tOfVal 0 3 0, .qSetGain 0 100, .tArith .add 0 0, .tSet 1 0 (1 / 2 : ℚ),
  .tArith .sub 1 0] : List (Call ℚ ℚ)) (by simp [Shares])

end Lp.C46

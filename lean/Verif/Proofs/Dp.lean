import Verif.Base.Res
import Mathlib.Algebra.Order.Group.Defs
import Mathlib.Algebra.BigOperators.Group.List.Basic
import Mathlib.Data.List.Induction
import Mathlib.Tactic.Linarith
import Mathlib.Tactic.Abel

/-!
# First-best choice and decision systems

A decision system has states; in a state a list of decisions is available, each emitting some atoms and leading to
a list of further states.  A solution of a stack of states is the list of atoms emitted by a complete leftmost
derivation.  The three partitioners are greedy derivations of such systems.
-/

namespace Lp

/-- The comparison loop of the partitioners: keep the current best, replace it by a strictly better one. -/
def firstBest {T ι : Type} (gt : T → T → Bool) (x : T × ι) (l : List (T × ι)) : T × ι :=
  l.foldl (fun cur c => if gt c.1 cur.1 then c else cur) x

theorem firstBest_append {T ι : Type} (gt : T → T → Bool) (x : T × ι) (l : List (T × ι)) (c : T × ι) :
    firstBest gt x (l ++ [c]) =
      if gt c.1 (firstBest gt x l).1 then c else firstBest gt x l := by
  rw [firstBest, List.foldl_append]; rfl

theorem firstBest_mem {T ι : Type} (gt : T → T → Bool) (x : T × ι) (l : List (T × ι)) :
    ∃ k : Nat, (x :: l)[k]? = some (firstBest gt x l) := by
  have : firstBest gt x l ∈ x :: l := by
    induction l using List.reverseRecOn with
    | nil => simp [firstBest]
    | append_singleton l c ih =>
      rw [firstBest_append]
      split
      · simp
      · rcases List.mem_cons.mp ih with h | h
        · rw [h]; simp
        · simp [h]
  exact List.getElem?_of_mem this

/-- In a linear order the loop finds the first maximal candidate. -/
theorem firstBest_spec {T ι Ob : Type} [LinearOrder Ob] (ob : T → Ob) (gt : T → T → Bool)
    (hgt : ∀ a b, gt a b = true ↔ ob b < ob a) (x : T × ι) (l : List (T × ι)) :
    ∃ k : Nat, (x :: l)[k]? = some (firstBest gt x l) ∧
      ∀ (j : Nat) (y : T × ι), (x :: l)[j]? = some y → ob y.1 ≤ ob (firstBest gt x l).1 ∧
        (j < k → ob y.1 < ob (firstBest gt x l).1) := by
  induction l using List.reverseRecOn with
  | nil =>
    refine ⟨0, by simp [firstBest], ?_⟩
    intro j y hy
    cases j with
    | zero => simp at hy; subst hy; simp [firstBest]
    | succ j => simp at hy
  | append_singleton l c ih =>
    obtain ⟨k, hk, h⟩ := ih
    have hklt : k < (x :: l).length := (List.getElem?_eq_some_iff.mp hk).1
    rw [firstBest_append]
    have split : ∀ j y, (x :: (l ++ [c]))[j]? = some y →
        (j < (x :: l).length ∧ (x :: l)[j]? = some y) ∨ (j = (x :: l).length ∧ y = c) := by
      intro j y hy
      rw [← List.cons_append] at hy
      rcases Nat.lt_trichotomy j (x :: l).length with hj | hj | hj
      · left; rw [List.getElem?_append_left hj] at hy; exact ⟨hj, hy⟩
      · right
        subst hj
        rw [List.getElem?_append_right (by simp)] at hy
        simp at hy
        exact ⟨rfl, hy.symm⟩
      · rw [List.getElem?_append_right (by omega)] at hy
        rw [List.getElem?_eq_none (by simp only [List.length_singleton]; omega)] at hy
        simp at hy
    by_cases hg : gt c.1 (firstBest gt x l).1 = true
    · simp only [hg, if_true]
      have hlt := (hgt _ _).mp hg
      refine ⟨(x :: l).length, ?_, ?_⟩
      · rw [← List.cons_append, List.getElem?_append_right (by simp)]; simp
      · intro j y hy
        rcases split j y hy with ⟨hj, hy'⟩ | ⟨hj, rfl⟩
        · have := (h j y hy').1
          exact ⟨le_of_lt (lt_of_le_of_lt this hlt), fun _ => lt_of_le_of_lt this hlt⟩
        · exact ⟨le_refl _, fun h' => by omega⟩
    · simp only [hg]
      have hle : ob c.1 ≤ ob (firstBest gt x l).1 := not_lt.mp (fun h' => hg ((hgt _ _).mpr h'))
      refine ⟨k, ?_, ?_⟩
      · rw [← List.cons_append, List.getElem?_append_left hklt]; simpa using hk
      · intro j y hy
        rcases split j y hy with ⟨hj, hy'⟩ | ⟨hj, rfl⟩
        · exact h j y hy'
        · exact ⟨hle, fun h' => by omega⟩

section
variable {σ A : Type}

/-- A decision system: the decisions available in a state, each with emitted atoms and next states. -/
abbrev Decs (σ A : Type) := σ → List (List A × List σ)

/-- `Sol decs st ds L`: the sequence `ds` of decision numbers is a complete leftmost derivation of the stack `st`
and emits `L`. -/
inductive Sol (decs : Decs σ A) : List σ → List Nat → List A → Prop
  | nil : Sol decs [] [] []
  | cons {s : σ} {rest : List σ} {k : Nat} {e : List A} {succ : List σ} {ds : List Nat} {L : List A} :
      (decs s)[k]? = some (e, succ) → Sol decs (succ ++ rest) ds L →
      Sol decs (s :: rest) (k :: ds) (e ++ L)

theorem Sol.append {decs : Decs σ A} {st1 st2 : List σ} {ds1 ds2 : List Nat} {L1 L2 : List A}
    (h1 : Sol decs st1 ds1 L1) (h2 : Sol decs st2 ds2 L2) :
    Sol decs (st1 ++ st2) (ds1 ++ ds2) (L1 ++ L2) := by
  induction h1 with
  | nil => simpa using h2
  | cons hk _ ih =>
    rw [List.append_assoc] at ih
    simpa [List.append_assoc] using Sol.cons hk ih

/-- A solution of `st1 ++ st2` splits. -/
theorem Sol.split {decs : Decs σ A} {st : List σ} {ds : List Nat} {L : List A} (h : Sol decs st ds L) :
    ∀ st1 st2, st = st1 ++ st2 → ∃ ds1 ds2 L1 L2, ds = ds1 ++ ds2 ∧ L = L1 ++ L2 ∧
      Sol decs st1 ds1 L1 ∧ Sol decs st2 ds2 L2 := by
  induction h with
  | nil =>
    intro st1 st2 h
    obtain ⟨rfl, rfl⟩ := List.append_eq_nil_iff.mp h.symm
    exact ⟨[], [], [], [], rfl, rfl, .nil, .nil⟩
  | @cons s rest k e succ ds L hk hsol ih =>
    intro st1 st2 h
    cases st1 with
    | nil =>
      simp only [List.nil_append] at h
      subst h
      exact ⟨[], k :: ds, [], e ++ L, rfl, rfl, .nil, .cons hk hsol⟩
    | cons a st1 =>
      simp only [List.cons_append, List.cons.injEq] at h
      obtain ⟨rfl, rfl⟩ := h
      obtain ⟨ds1, ds2, L1, L2, rfl, rfl, h1, h2⟩ := ih (succ ++ st1) st2 (by simp)
      exact ⟨k :: ds1, ds2, e ++ L1, L2, rfl, by simp, .cons hk h1, h2⟩

/-- Lexicographic order on decision sequences: `ds` is strictly before `ds'`. -/
inductive Before : List Nat → List Nat → Prop
  | lt {k k' : Nat} {ds ds' : List Nat} : k < k' → Before (k :: ds) (k' :: ds')
  | tail {k : Nat} {ds ds' : List Nat} : Before ds ds' → Before (k :: ds) (k :: ds')

theorem Before.asymm {a b : List Nat} (h : Before a b) : ¬ Before b a := by
  induction h with
  | lt h => intro h'; cases h' with
    | lt h' => omega
    | tail _ => omega
  | tail _ ih => intro h'; cases h' with
    | lt h' => omega
    | tail h' => exact ih h'

/-- The greedy derivation following the choice function `D`. -/
inductive Greedy (decs : Decs σ A) (D : σ → Nat) : List σ → List Nat → List A → Prop
  | nil : Greedy decs D [] [] []
  | cons {s : σ} {rest : List σ} {e : List A} {succ : List σ} {ds : List Nat} {L : List A} :
      (decs s)[D s]? = some (e, succ) → Greedy decs D (succ ++ rest) ds L →
      Greedy decs D (s :: rest) (D s :: ds) (e ++ L)

theorem Greedy.sol {decs : Decs σ A} {D : σ → Nat} {st : List σ} {ds : List Nat} {L : List A}
    (h : Greedy decs D st ds L) : Sol decs st ds L := by
  induction h with
  | nil => exact .nil
  | cons h _ ih => exact .cons h ih

theorem Greedy.append {decs : Decs σ A} {D : σ → Nat} {st1 st2 : List σ} {ds1 ds2 : List Nat} {L1 L2 : List A}
    (h1 : Greedy decs D st1 ds1 L1) (h2 : Greedy decs D st2 ds2 L2) :
    Greedy decs D (st1 ++ st2) (ds1 ++ ds2) (L1 ++ L2) := by
  induction h1 with
  | nil => simpa using h2
  | cons hk _ ih =>
    rw [List.append_assoc] at ih
    simpa [List.append_assoc] using Greedy.cons hk ih

theorem Greedy.unique {decs : Decs σ A} {D : σ → Nat} {st : List σ} {ds ds' : List Nat} {L L' : List A}
    (h : Greedy decs D st ds L) (h' : Greedy decs D st ds' L') : ds = ds' ∧ L = L' := by
  induction h generalizing ds' L' with
  | nil => cases h'; exact ⟨rfl, rfl⟩
  | cons hk _ ih =>
    cases h' with
    | cons hk' hs' =>
      rw [hk] at hk'
      simp only [Option.some.injEq, Prod.mk.injEq] at hk'
      obtain ⟨rfl, rfl⟩ := hk'
      obtain ⟨rfl, rfl⟩ := ih hs'
      exact ⟨rfl, rfl⟩

/-- A sequence of decisions determines the atoms. -/
theorem Sol.unique {decs : Decs σ A} {st : List σ} {ds : List Nat} {L L' : List A}
    (h : Sol decs st ds L) (h' : Sol decs st ds L') : L = L' := by
  induction h generalizing L' with
  | nil => cases h'; rfl
  | cons hk _ ih =>
    cases h' with
    | cons hk' hs' =>
      rw [hk] at hk'
      simp only [Option.some.injEq, Prod.mk.injEq] at hk'
      obtain ⟨rfl, rfl⟩ := hk'
      rw [ih hs']

variable {Ob : Type} [AddCommGroup Ob]

/-- Total weight of a list of atoms. -/
def wsum (w : A → Ob) (L : List A) : Ob := (L.map w).sum

@[simp] theorem wsum_nil (w : A → Ob) : wsum w [] = 0 := rfl
@[simp] theorem wsum_cons (w : A → Ob) (a : A) (L : List A) : wsum w (a :: L) = w a + wsum w L := by
  simp [wsum]
@[simp] theorem wsum_append (w : A → Ob) (L M : List A) : wsum w (L ++ M) = wsum w L + wsum w M := by
  simp [wsum]

variable [LinearOrder Ob] [IsOrderedAddMonoid Ob]

/-- `T`, `D` solve the dynamic-programming equations of `decs` for the weights `w` on the states of `ok`:
`D s` is the first decision of maximal weight and `T s` is that weight. -/
structure DpEq (decs : Decs σ A) (w : A → Ob) (ok : σ → Prop) (T : σ → Ob) (D : σ → Nat) : Prop where
  closed : ∀ s, ok s → ∀ (k : Nat) (e : List A) (succ : List σ), (decs s)[k]? = some (e, succ) →
    ∀ s' ∈ succ, ok s'
  chosen : ∀ s, ok s → ∃ e succ, (decs s)[D s]? = some (e, succ) ∧ T s = wsum w e + wsum T succ
  best : ∀ s, ok s → ∀ (k : Nat) (e : List A) (succ : List σ), (decs s)[k]? = some (e, succ) →
    wsum w e + wsum T succ ≤ T s ∧ (k < D s → wsum w e + wsum T succ < T s)

variable {decs : Decs σ A} {w : A → Ob} {ok : σ → Prop} {T : σ → Ob} {D : σ → Nat}

omit [IsOrderedAddMonoid Ob] in
/-- The greedy derivation has the weight announced by `T`. -/
theorem DpEq.greedy_weight (h : DpEq decs w ok T D) {st : List σ} {ds : List Nat} {L : List A}
    (hg : Greedy decs D st ds L) (hok : ∀ s ∈ st, ok s) : wsum w L = wsum T st := by
  induction hg with
  | nil => rfl
  | @cons s rest e succ ds L hk _ ih =>
    obtain ⟨e', succ', hk', hT⟩ := h.chosen s (hok s (by simp))
    rw [hk] at hk'
    simp only [Option.some.injEq, Prod.mk.injEq] at hk'
    obtain ⟨rfl, rfl⟩ := hk'
    have := ih (by
      intro s' hs'
      rcases List.mem_append.mp hs' with h1 | h1
      · exact h.closed s (hok s (by simp)) _ _ _ hk s' h1
      · exact hok s' (by simp [h1]))
    simp only [wsum_append, wsum_cons, this, hT]
    abel

/-- Every solution weighs at most what `T` announces; one that reaches it is the greedy one or comes after it. -/
theorem DpEq.optimal (h : DpEq decs w ok T D) {st : List σ} {ds' : List Nat} {L' : List A}
    (hs : Sol decs st ds' L') (hok : ∀ s ∈ st, ok s) :
    wsum w L' ≤ wsum T st ∧
      ∀ ds L, Greedy decs D st ds L → wsum w L' = wsum T st → ds = ds' ∨ Before ds ds' := by
  induction hs with
  | nil =>
    refine ⟨le_refl _, ?_⟩
    intro ds L hg _
    cases hg
    exact Or.inl rfl
  | @cons s rest k e succ ds' L' hk _ ih =>
    have hoks := hok s (by simp)
    obtain ⟨hle, htie⟩ := ih (by
      intro s' hs'
      rcases List.mem_append.mp hs' with h1 | h1
      · exact h.closed s hoks _ _ _ hk s' h1
      · exact hok s' (by simp [h1]))
    obtain ⟨hb1, hb2⟩ := h.best s hoks k e succ hk
    simp only [wsum_append, wsum_cons] at hle htie ⊢
    refine ⟨?_, ?_⟩
    · calc wsum w e + wsum w L' ≤ wsum w e + (wsum T succ + wsum T rest) := by gcongr
        _ = (wsum w e + wsum T succ) + wsum T rest := by abel
        _ ≤ T s + wsum T rest := by gcongr
    · intro ds L hg heq
      cases hg with
      | @cons _ _ e0 succ0 ds0 L0 hk0 hg0 =>
        rcases Nat.lt_trichotomy k (D s) with hlt | hke | hgt
        · exfalso
          have h1 := hb2 hlt
          have : wsum w e + wsum w L' < T s + wsum T rest :=
            calc wsum w e + wsum w L' ≤ wsum w e + (wsum T succ + wsum T rest) := by gcongr
              _ = (wsum w e + wsum T succ) + wsum T rest := by abel
              _ < T s + wsum T rest := by gcongr
          exact absurd heq (ne_of_lt this)
        · subst hke
          rw [hk0] at hk
          simp only [Option.some.injEq, Prod.mk.injEq] at hk
          obtain ⟨rfl, rfl⟩ := hk
          have htail : wsum w L' = wsum T succ0 + wsum T rest := by
            apply le_antisymm hle
            have h2 : T s + wsum T rest ≤ wsum w e0 + wsum w L' := le_of_eq heq.symm
            have h3 : wsum w e0 + wsum T succ0 + wsum T rest ≤ wsum w e0 + wsum w L' :=
              le_trans (by gcongr) h2
            have h4 : wsum w e0 + (wsum T succ0 + wsum T rest) ≤ wsum w e0 + wsum w L' := by
              rwa [← add_assoc]
            exact le_of_add_le_add_left h4
          rcases htie ds0 L0 hg0 htail with rfl | hbf
          · exact Or.inl rfl
          · exact Or.inr (.tail hbf)
        · exact Or.inr (.lt hgt)

end
end Lp

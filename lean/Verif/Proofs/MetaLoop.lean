import Verif.Proofs.Tree
import Mathlib.Data.List.Nodup
import Mathlib.Data.List.Range
import Mathlib.Data.Finset.Image

/-!
# The metadata constructor
-/

namespace Lp
open Spec

/-! ## Termination -/

/-- Invariant of the path loop for arbitrary input. -/
structure PathInv0 (parents : List Int) (i : Nat) (st : PathSt) : Prop where
  nodup : st.path.Nodup
  sizeIff : ∀ x, (st.size x).isSome = true ↔ x ∈ st.path
  done : ∀ k, k < i → ∃ x, st.path[k]? = some x ∧ x < parents.length

theorem PathInv0.le {parents : List Int} {i : Nat} {st : PathSt} (h : PathInv0 parents i st) :
    i ≤ parents.length := by
  have hlen : i ≤ st.path.length := by
    by_contra hc
    obtain ⟨x, hx, _⟩ := h.done st.path.length (by omega)
    simp at hx
  have hsub : st.path.take i ⊆ List.range parents.length := by
    intro x hx
    obtain ⟨k, hk⟩ := List.getElem?_of_mem hx
    have hki : k < i := by
      have := (List.getElem?_eq_some_iff.mp hk).1
      rw [List.length_take] at this; omega
    rw [List.getElem?_take_of_lt hki] at hk
    obtain ⟨y, hy, hlt⟩ := h.done k hki
    rw [hk] at hy
    simp only [Option.some.injEq] at hy
    subst hy
    exact List.mem_range.mpr hlt
  have hn : (st.path.take i).Nodup := h.nodup.sublist (List.take_sublist _ _)
  have := (List.subperm_of_subset hn hsub).length_le
  rw [List.length_take, List.length_range] at this
  omega

theorem pathStep_inv0 {parents : List Int} {i x px : Nat} {st st' : PathSt}
    (h : PathInv0 parents i st) (hx : st.path[i]? = some x) (hlt : x < parents.length)
    (hs : pathStep x px st = .ok st') : PathInv0 parents (i + 1) st' := by
  unfold pathStep at hs
  cases hsz : st.size px with
  | some s =>
    simp only [hsz] at hs
    cases hv : vget st.children px with
    | error e => rw [hv] at hs; simp at hs
    | ok ch =>
      rw [hv] at hs
      simp only [Except.ok.injEq] at hs
      subst hs
      refine ⟨h.nodup, ?_, ?_⟩
      · intro y
        simp only [mapUpd]
        by_cases hy : y = px
        · subst hy
          simp only [if_true, Option.isSome_some, true_iff]
          exact (h.sizeIff y).mp (by rw [hsz]; rfl)
        · simp only [hy, if_false]; exact h.sizeIff y
      · intro k hk
        rcases Nat.lt_succ_iff_lt_or_eq.mp hk with hk | rfl
        · exact h.done k hk
        · exact ⟨x, hx, hlt⟩
  | none =>
    simp only [hsz] at hs
    cases hv : vget st.children px with
    | error e => rw [hv] at hs; simp at hs
    | ok ch =>
      rw [hv] at hs
      simp only [Except.ok.injEq] at hs
      subst hs
      have hpx : px ∉ st.path := fun hm => by
        have := (h.sizeIff px).mpr hm
        rw [hsz] at this; simp at this
      have pre : ∀ (k y : Nat), st.path[k]? = some y → (st.path ++ [px])[k]? = some y := by
        intro k y hk
        rw [List.getElem?_append_left (List.getElem?_eq_some_iff.mp hk).1]; exact hk
      refine ⟨?_, ?_, ?_⟩
      · simp only
        rw [List.nodup_append]
        refine ⟨h.nodup, by simp, ?_⟩
        intro a ha b hb
        simp only [List.mem_singleton] at hb
        subst hb
        exact fun e => hpx (e ▸ ha)
      · intro y
        simp only [mapUpd, List.mem_append, List.mem_singleton]
        by_cases hy : y = px
        · simp [hy]
        · simp only [hy, if_false, or_false]; exact h.sizeIff y
      · intro k hk
        rcases Nat.lt_succ_iff_lt_or_eq.mp hk with hk | rfl
        · obtain ⟨y, hy, hl⟩ := h.done k hk
          exact ⟨y, pre k y hy, hl⟩
        · exact ⟨x, pre _ _ hx, hlt⟩

theorem pathStep_noFuel {x px : Nat} {st : PathSt} : pathStep x px st ≠ .error .outOfFuel := by
  intro hs
  unfold pathStep at hs
  cases hsz : st.size px with
  | some s =>
    simp only [hsz] at hs
    cases hv : vget st.children px with
    | ok ch => rw [hv] at hs; simp at hs
    | error e =>
      rw [hv] at hs
      unfold vget at hv
      split at hv <;> simp at hv
      subst hv; simp at hs
  | none =>
    simp only [hsz] at hs
    cases hv : vget st.children px with
    | ok ch => rw [hv] at hs; simp at hs
    | error e =>
      rw [hv] at hs
      unfold vget at hv
      split at hv <;> simp at hv
      subst hv; simp at hs

theorem pathLoop_noFuel {parents : List Int} : ∀ (fuel i : Nat) (st : PathSt), PathInv0 parents i st →
    parents.length < fuel + i → pathLoop parents fuel i st ≠ .error .outOfFuel := by
  intro fuel
  induction fuel with
  | zero => intro i st h hf; have := h.le; omega
  | succ fuel ih =>
    intro i st h hf
    unfold pathLoop
    cases hx : vget st.path i with
    | error e => simp only [errBind]; unfold vget at hx; split at hx <;> simp at hx; subst hx; simp
    | ok x =>
      simp only [okBind]
      cases hp : vget parents x with
      | error e => simp only [errBind]; unfold vget at hp; split at hp <;> simp at hp; subst hp; simp
      | ok p =>
        simp only [okBind]
        have hxl : x < parents.length := (List.getElem?_eq_some_iff.mp (vget_eq_ok.mp hp)).1
        by_cases h1 : p = -1
        · simp [h1]
        · rw [if_neg h1]
          cases hi : toIdx p with
          | error e => simp only [errBind]; unfold toIdx at hi; split at hi <;> simp at hi; subst hi; simp
          | ok px =>
            simp only [okBind]
            cases hs : pathStep x px st with
            | error e =>
              simp only [errBind]
              intro he
              simp only [Except.error.injEq] at he
              subst he
              exact pathStep_noFuel hs
            | ok st' =>
              simp only [okBind]
              exact ih (i + 1) st' (pathStep_inv0 h (vget_eq_ok.mp hx) hxl hs) (by omega)

theorem vget_err_eq {α : Type} {v : List α} {i : Nat} {e : Fault} (h : vget v i = .error e) :
    e = .outOfBounds := by
  unfold vget at h
  split at h <;> simp at h
  exact h.symm

theorem toIdx_err_eq {i : Int} {e : Fault} (h : toIdx i = .error e) : e = .outOfBounds := by
  unfold toIdx at h
  split at h <;> simp at h
  exact h.symm

theorem pathStep_err {x px : Nat} {st : PathSt} {e : Fault} (hs : pathStep x px st = .error e) :
    e = .outOfBounds := by
  unfold pathStep at hs
  cases hsz : st.size px with
  | some s =>
    simp only [hsz] at hs
    cases hv : vget st.children px with
    | ok ch => rw [hv] at hs; simp at hs
    | error e' => rw [hv] at hs; simp at hs; subst hs; exact vget_err_eq hv
  | none =>
    simp only [hsz] at hs
    cases hv : vget st.children px with
    | ok ch => rw [hv] at hs; simp at hs
    | error e' => rw [hv] at hs; simp at hs; subst hs; exact vget_err_eq hv

theorem pathLoop_err {parents : List Int} : ∀ (fuel i : Nat) (st : PathSt) (e : Fault),
    pathLoop parents fuel i st = .error e → e = .outOfBounds ∨ e = .outOfFuel := by
  intro fuel
  induction fuel with
  | zero => intro i st e h; simp [pathLoop] at h; exact Or.inr h.symm
  | succ fuel ih =>
    intro i st e h
    unfold pathLoop at h
    cases hx : vget st.path i with
    | error e' => rw [hx] at h; simp at h; subst h; exact Or.inl (vget_err_eq hx)
    | ok x =>
      rw [hx] at h
      simp only [okBind] at h
      cases hp : vget parents x with
      | error e' => rw [hp] at h; simp at h; subst h; exact Or.inl (vget_err_eq hp)
      | ok p =>
        rw [hp] at h
        simp only [okBind] at h
        by_cases h1 : p = -1
        · simp [h1] at h
        · rw [if_neg h1] at h
          cases hi : toIdx p with
          | error e' => rw [hi] at h; simp at h; subst h; exact Or.inl (toIdx_err_eq hi)
          | ok px =>
            rw [hi] at h
            simp only [okBind] at h
            cases hs : pathStep x px st with
            | error e' => rw [hs] at h; simp at h; subst h; exact Or.inl (pathStep_err hs)
            | ok st' => rw [hs] at h; exact ih _ _ _ h

theorem pathLoop_mono {parents : List Int} : ∀ (f g i : Nat) (st : PathSt), f ≤ g →
    pathLoop parents f i st ≠ .error .outOfFuel → pathLoop parents g i st = pathLoop parents f i st := by
  intro f
  induction f with
  | zero => intro g i st _ h; exact absurd rfl h
  | succ f ih =>
    intro g i st hfg h
    obtain ⟨g, rfl⟩ : ∃ g', g = g' + 1 := ⟨g - 1, by omega⟩
    unfold pathLoop at h ⊢
    cases hx : vget st.path i with
    | error e' => rfl
    | ok x =>
      rw [hx] at h
      simp only [okBind] at h ⊢
      cases hp : vget parents x with
      | error e' => rfl
      | ok p =>
        rw [hp] at h
        simp only [okBind] at h ⊢
        by_cases h1 : p = -1
        · simp [h1]
        · rw [if_neg h1] at h ⊢
          rw [if_neg h1]
          cases hi : toIdx p with
          | error e' => rfl
          | ok px =>
            rw [hi] at h
            simp only [okBind] at h ⊢
            cases hs : pathStep x px st with
            | error e' => rfl
            | ok st' => rw [hs] at h; exact ih g _ _ (by omega) h

theorem pathInit_inv0 (parents : List Int) (leaves hsize : Nat) :
    PathInv0 parents 0 (pathInit leaves hsize) := by
  refine ⟨List.nodup_range, ?_, fun k hk => by omega⟩
  intro x
  simp only [pathInit, List.mem_range]
  by_cases h : x < leaves <;> simp [h]

/-! ## Contents for trees -/

/-- Parent entry of the node at position `k` of the path. -/
def parAt (parents : List Int) (path : List Nat) (k : Nat) : Option Int := (path[k]?).bind (fun c => parents[c]?)

/-- Positions before `i` whose node has parent `h`. -/
def kidsAt (parents : List Int) (path : List Nat) (i h : Nat) : Finset Nat :=
  (Finset.range i).filter (fun k => parAt parents path k = some (h : Int))

/-- 1 for a leaf. -/
def leafInd (leaves h : Nat) : Nat := if h < leaves then 1 else 0

/-- Invariant of the path loop for a tree; `s k` is the size of the node at position `k` at the moment it is
processed, `trig k` the position of the child that brought the node at position `k` into the path. -/
structure PathInv (leaves : Nat) (parents : List Int) (i : Nat) (st : PathSt) (s trig : Nat → Nat) : Prop where
  inv0 : PathInv0 parents i st
  iLe : i ≤ st.path.length
  pathLt : ∀ x ∈ st.path, x < parents.length
  front : ∀ k, k < leaves → st.path[k]? = some k
  chLen : st.children.length = parents.length
  children : ∀ h, h < parents.length →
    st.children[h]? = some ((st.path.take i).filter (fun c => decide (parents[c]? = some (h : Int))))
  parentIn : ∀ k c, k < i → st.path[k]? = some c → ∃ p, ParentIs parents c p ∧ p ∈ st.path
  trigs : ∀ k x, leaves ≤ k → st.path[k]? = some x → trig k < i ∧ trig k < k ∧
    ∃ c, st.path[trig k]? = some c ∧ ParentIs parents c x
  trigMono : ∀ k k', leaves ≤ k → k ≤ k' → k' < st.path.length → trig k ≤ trig k'
  trigFirst : ∀ k c p kp : Nat, k < i → st.path[k]? = some c → ParentIs parents c p → st.path[kp]? = some p → trig kp ≤ k
  sAt : ∀ k x, k < i → st.path[k]? = some x →
    s k = leafInd leaves x + ∑ k' ∈ kidsAt parents st.path k x, s k'
  sizes : ∀ h, h ∈ st.path → st.size h = some (leafInd leaves h + ∑ k' ∈ kidsAt parents st.path i h, s k')

theorem parAt_append {parents : List Int} {path : List Nat} {k y : Nat} (hk : k < path.length) :
    parAt parents (path ++ [y]) k = parAt parents path k := by
  unfold parAt; rw [List.getElem?_append_left hk]

theorem kidsAt_append {parents : List Int} {path : List Nat} {i h y : Nat} (hk : i ≤ path.length) :
    kidsAt parents (path ++ [y]) i h = kidsAt parents path i h := by
  unfold kidsAt
  apply Finset.filter_congr
  intro k hk'
  rw [parAt_append (by have := Finset.mem_range.mp hk'; omega)]

theorem kidsAt_succ {parents : List Int} {path : List Nat} {i h x px : Nat} (hx : path[i]? = some x)
    (hp : ParentIs parents x px) (s : Nat → Nat) :
    ∑ k' ∈ kidsAt parents path (i + 1) h, s k' =
      (∑ k' ∈ kidsAt parents path i h, s k') + if h = px then s i else 0 := by
  unfold kidsAt
  rw [Finset.range_add_one, Finset.filter_insert]
  have e : parAt parents path i = some (px : Int) := by unfold parAt; rw [hx]; exact hp
  by_cases hh : h = px
  · subst hh
    rw [if_pos e, if_pos rfl, Finset.sum_insert (by simp)]
    omega
  · rw [if_neg (by rw [e]; intro he; exact hh (by have := Option.some.inj he; omega)), if_neg hh]; rfl

theorem pathInit_inv {leaves : Nat} {parents : List Int} (hl : leaves ≤ parents.length) (s trig : Nat → Nat) :
    PathInv leaves parents 0 (pathInit leaves parents.length) s trig where
  inv0 := pathInit_inv0 _ _ _
  iLe := by omega
  pathLt x hx := by simp [pathInit] at hx; omega
  front k hk := by simp [pathInit, hk]
  chLen := by simp [pathInit, hl]
  children h hh := by simp [pathInit, hl, hh]
  parentIn k c hk := by omega
  trigs k x hk hx := by
    have := (List.getElem?_eq_some_iff.mp hx).1
    simp [pathInit] at this; omega
  trigMono k k' h1 h2 h3 := by simp [pathInit] at h3; omega
  trigFirst k c p kp hk := by omega
  sAt k x hk := by omega
  sizes h hh := by
    simp [pathInit] at hh
    rw [kidsAt, Finset.range_zero, Finset.filter_empty, Finset.sum_empty]
    simp [pathInit, hh, leafInd]

theorem pathStep_inv {leaves : Nat} {parents : List Int} {root : Nat} (t : IsTree leaves parents root)
    {i x px : Nat} {st : PathSt} {s trig : Nat → Nat}
    (h : PathInv leaves parents i st s trig) (hx : st.path[i]? = some x) (hp : ParentIs parents x px) :
    ∃ st' s' trig', pathStep x px st = .ok st' ∧ PathInv leaves parents (i + 1) st' s' trig' := by
  have hpx : px < parents.length := t.parent_lt hp
  have hil : i < st.path.length := (List.getElem?_eq_some_iff.mp hx).1
  have hxm : x ∈ st.path := List.mem_of_getElem? hx
  have hch := h.children px hpx
  -- new size record
  let sx := leafInd leaves x + ∑ k' ∈ kidsAt parents st.path i x, s k'
  have hsx : st.size x = some sx := h.sizes x hxm
  let s' := fun k => if k = i then sx else s k
  have hsum : ∀ j y, j ≤ i → ∑ k' ∈ kidsAt parents st.path j y, s' k' = ∑ k' ∈ kidsAt parents st.path j y, s k' := by
    intro j y hj
    apply Finset.sum_congr rfl
    intro k hk
    have : k < j := Finset.mem_range.mp (Finset.mem_filter.mp hk).1
    simp only [s']
    rw [if_neg (by omega)]
  have htake : st.path.take (i + 1) = st.path.take i ++ [x] := by
    rw [List.take_add_one, hx]; rfl
  have hfil : ∀ hh : Nat, (st.path.take (i + 1)).filter (fun c => decide (parents[c]? = some (hh : Int))) =
      (st.path.take i).filter (fun c => decide (parents[c]? = some (hh : Int))) ++ (if hh = px then [x] else []) := by
    intro hh
    rw [htake, List.filter_append]
    congr 1
    unfold ParentIs at hp
    by_cases e : hh = px
    · subst e; simp [hp]
    · rw [if_neg e]
      simp only [List.filter_cons, List.filter_nil, hp]
      rw [if_neg]
      simp only [decide_eq_true_eq]
      intro he
      exact e (by have := Option.some.inj he; omega)
  have hsi : s' i = sx := by simp [s']
  by_cases hsz : (st.size px).isSome = true
  · -- parent already in the path
    obtain ⟨v, hv⟩ := Option.isSome_iff_exists.mp hsz
    have hpm : px ∈ st.path := (h.inv0.sizeIff px).mp hsz
    have hv' : v = leafInd leaves px + ∑ k' ∈ kidsAt parents st.path i px, s k' := by
      have := h.sizes px hpm; rw [hv] at this; exact Option.some.inj this
    have hstep : pathStep x px st = .ok { st with
        size := mapUpd st.size px (v + sx),
        children := st.children.set px
          ((st.path.take i).filter (fun c => decide (parents[c]? = some (px : Int))) ++ [x]) } := by
      unfold pathStep
      simp only [hv, hsx, Option.getD_some, vget_eq_ok.mpr hch]
    refine ⟨_, s', trig, hstep, ?_⟩
    refine ⟨pathStep_inv0 h.inv0 hx (ParentIs.lt hp) hstep, by simp only; omega, h.pathLt, h.front, by simp [h.chLen],
      ?_, ?_, ?_, h.trigMono, ?_, ?_, ?_⟩
    · intro hh hhl
      simp only
      rw [hfil hh]
      by_cases e : hh = px
      · subst e; simp [h.chLen, hhl]
      · rw [List.getElem?_set_ne (Ne.symm e), h.children hh hhl, if_neg e, List.append_nil]
    · intro k c hk hc
      simp only at hc ⊢
      rcases Nat.lt_succ_iff_lt_or_eq.mp hk with hk | rfl
      · exact h.parentIn k c hk hc
      · rw [hx] at hc; obtain rfl := Option.some.inj hc; exact ⟨px, hp, hpm⟩
    · intro k y hk hy
      obtain ⟨a, b, c⟩ := h.trigs k y hk hy
      exact ⟨by omega, b, c⟩
    · intro k c p kp hk hc hcp hkp
      rcases Nat.lt_succ_iff_lt_or_eq.mp hk with hk | rfl
      · exact h.trigFirst k c p kp hk hc hcp hkp
      · have hkl : leaves ≤ kp := by
          by_contra hlt
          have hf := h.front kp (by omega)
          have hkp' : st.path[kp]? = some p := hkp
          rw [hkp'] at hf
          obtain rfl := Option.some.inj hf
          exact (t.leaf p (t.parent_lt hcp)).mp (by omega) ⟨c, hcp⟩
        exact Nat.le_of_lt (h.trigs kp p hkl hkp).1
    · intro k y hk hy
      simp only at hy ⊢
      rcases Nat.lt_succ_iff_lt_or_eq.mp hk with hk | rfl
      · rw [hsum k y (by omega), ← h.sAt k y hk hy]; simp [s']; omega
      · rw [hx] at hy; obtain rfl := Option.some.inj hy
        rw [hsum k x (le_refl _), hsi]
    · intro hh hm
      simp only at hm ⊢
      rw [kidsAt_succ hx hp, hsum i hh (le_refl _), hsi]
      simp only [mapUpd]
      by_cases e : hh = px
      · subst e; rw [if_pos rfl, if_pos rfl, hv']; congr 1; omega
      · rw [if_neg e, if_neg e, h.sizes hh hm, Nat.add_zero]
  · -- parent is new
    have hnone : st.size px = none := by simpa using hsz
    have hpm : px ∉ st.path := fun hm => hsz ((h.inv0.sizeIff px).mpr hm)
    let trig' := fun k => if k = st.path.length then i else trig k
    have hstep : pathStep x px st = .ok { st with
        path := st.path ++ [px],
        size := mapUpd st.size px sx,
        children := st.children.set px
          ((st.path.take i).filter (fun c => decide (parents[c]? = some (px : Int))) ++ [x]) } := by
      unfold pathStep
      simp only [hnone, hsx, Option.getD_some, vget_eq_ok.mpr hch]
    have pre : ∀ (k y : Nat), st.path[k]? = some y → (st.path ++ [px])[k]? = some y := by
      intro k y hk
      rw [List.getElem?_append_left (List.getElem?_eq_some_iff.mp hk).1]; exact hk
    have post : ∀ (k y : Nat), (st.path ++ [px])[k]? = some y → st.path[k]? = some y ∨ (k = st.path.length ∧ y = px) := by
      intro k y hk
      rcases Nat.lt_trichotomy k st.path.length with hl | hl | hl
      · rw [List.getElem?_append_left hl] at hk; exact Or.inl hk
      · subst hl; simp at hk; exact Or.inr ⟨rfl, hk.symm⟩
      · rw [List.getElem?_append_right (by omega), List.getElem?_eq_none (by simp; omega)] at hk
        simp at hk
    refine ⟨_, s', trig', hstep, ?_⟩
    refine ⟨pathStep_inv0 h.inv0 hx (ParentIs.lt hp) hstep, by simp only [List.length_append, List.length_singleton]; omega, ?_, ?_,
      by simp [h.chLen], ?_, ?_, ?_, ?_, ?_, ?_, ?_⟩
    · intro y hy
      rcases List.mem_append.mp hy with hy | hy
      · exact h.pathLt y hy
      · simp only [List.mem_singleton] at hy; subst hy; exact hpx
    · intro k hk; exact pre k k (h.front k hk)
    · intro hh hhl
      simp only
      rw [List.take_append_of_le_length (by omega), hfil hh]
      by_cases e : hh = px
      · subst e; simp [h.chLen, hhl]
      · rw [List.getElem?_set_ne (Ne.symm e), h.children hh hhl, if_neg e, List.append_nil]
    · intro k c hk hc
      simp only at hc ⊢
      rcases Nat.lt_succ_iff_lt_or_eq.mp hk with hk | rfl
      · rcases post k c hc with hc' | hc'
        · obtain ⟨p, h1, h2⟩ := h.parentIn k c hk hc'
          exact ⟨p, h1, List.mem_append_left _ h2⟩
        · omega
      · rw [pre _ _ hx] at hc; obtain rfl := Option.some.inj hc; exact ⟨px, hp, by simp⟩
    · intro k y hk hy
      simp only at hy ⊢
      rcases post k y hy with hy' | ⟨rfl, rfl⟩
      · have hkl := (List.getElem?_eq_some_iff.mp hy').1
        obtain ⟨a, b, c, hc⟩ := h.trigs k y hk hy'
        have e : trig' k = trig k := by simp [trig']; omega
        rw [e]
        exact ⟨by omega, b, c, pre _ _ hc.1, hc.2⟩
      · have e : trig' st.path.length = i := by simp [trig']
        rw [e]
        exact ⟨by omega, hil, x, pre _ _ hx, hp⟩
    · intro k k' h1 h2 h3
      simp only [List.length_append, List.length_singleton] at h3
      by_cases e' : k' = st.path.length
      · subst e'
        have e1 : trig' st.path.length = i := by simp [trig']
        rw [e1]
        by_cases e : k = st.path.length
        · subst e; rw [e1]
        · have e2 : trig' k = trig k := by simp [trig', e]
          rw [e2]
          obtain ⟨y, hy⟩ : ∃ y, st.path[k]? = some y := ⟨_, List.getElem?_eq_getElem (by omega)⟩
          have := (h.trigs k y h1 hy).1
          omega
      · have e1 : trig' k' = trig k' := by simp [trig', e']
        have e2 : trig' k = trig k := by simp [trig']; omega
        rw [e1, e2]
        exact h.trigMono k k' h1 h2 (by omega)
    · intro k c p kp hk hc hcp hkp
      simp only at hc hkp
      rcases Nat.lt_succ_iff_lt_or_eq.mp hk with hk | rfl
      · rcases post k c hc with hc' | hc'
        · rcases post kp p hkp with hkp' | ⟨rfl, rfl⟩
          · have e2 : trig' kp = trig kp := by
              have := (List.getElem?_eq_some_iff.mp hkp').1
              simp [trig']; omega
            rw [e2]
            exact h.trigFirst k c p kp hk hc' hcp hkp'
          · obtain ⟨p', h1, h2⟩ := h.parentIn k c hk hc'
            rw [← hcp.fun h1] at h2
            exact absurd h2 hpm
        · omega
      · rcases post kp p hkp with hkp' | ⟨rfl, rfl⟩
        · exfalso
          rcases post k c hc with hc' | hc'
          · rw [hx] at hc'
            obtain rfl := Option.some.inj hc'
            rw [hcp.fun hp] at hkp'
            exact hpm (List.mem_of_getElem? hkp')
          · omega
        · simp [trig']
    · intro k y hk hy
      simp only at hy ⊢
      rcases post k y hy with hy' | ⟨rfl, rfl⟩
      · have hkl := (List.getElem?_eq_some_iff.mp hy').1
        rw [kidsAt_append (by omega)]
        rcases Nat.lt_succ_iff_lt_or_eq.mp hk with hk | rfl
        · rw [hsum k y (by omega), ← h.sAt k y hk hy']; simp [s']; omega
        · rw [hx] at hy'; obtain rfl := Option.some.inj hy'
          rw [hsum k x (le_refl _), hsi]
      · omega
    · intro hh hm
      simp only at hm ⊢
      rw [kidsAt_append (by omega), kidsAt_succ hx hp, hsum i hh (le_refl _), hsi]
      simp only [mapUpd]
      by_cases e : hh = px
      · subst e
        rw [if_pos rfl, if_pos rfl]
        -- no processed node has parent `px`, and `px` is not a leaf
        have hk0 : kidsAt parents st.path i hh = ∅ := by
          rw [kidsAt, Finset.filter_eq_empty_iff]
          intro k hk hpar
          have hki := Finset.mem_range.mp hk
          obtain ⟨c, hc⟩ : ∃ c, st.path[k]? = some c := ⟨_, List.getElem?_eq_getElem (by omega)⟩
          obtain ⟨p, h1, h2⟩ := h.parentIn k c hki hc
          have : ParentIs parents c hh := by
            unfold parAt at hpar; rw [hc] at hpar; exact hpar
          rw [this.fun h1] at hpm
          exact hpm h2
        have hl0 : leafInd leaves hh = 0 := by
          unfold leafInd
          rw [if_neg]
          intro hl
          exact (t.leaf hh hpx).mp hl ⟨x, hp⟩
        rw [hk0, hl0]
        simp
      · rw [if_neg e, if_neg e]
        rcases List.mem_append.mp hm with hm | hm
        · rw [h.sizes hh hm, Nat.add_zero]
        · simp only [List.mem_singleton] at hm; exact absurd hm e

theorem pathLoop_tree {leaves : Nat} {parents : List Int} {root : Nat} (t : IsTree leaves parents root) :
    ∀ (fuel i : Nat) (st : PathSt) (s trig : Nat → Nat), PathInv leaves parents i st s trig →
      parents.length < fuel + i →
      ∃ i' st' s' trig', pathLoop parents fuel i st = .ok st' ∧ PathInv leaves parents i' st' s' trig' ∧
        st'.path[i']? = some root := by
  intro fuel
  induction fuel with
  | zero => intro i st s trig h hf; have := h.inv0.le; omega
  | succ fuel ih =>
    intro i st s trig h hf
    -- there is a node to process
    have hil : i < st.path.length := by
      by_contra hc
      have hall : i = st.path.length := le_antisymm h.iLe (by omega)
      obtain ⟨l, hl, hu⟩ := t.exists_leaf t.rootLt
      have hlm : l ∈ st.path := List.mem_of_getElem? (h.front l hl)
      have up : ∀ x, Under parents root x → x ∈ st.path → root ∈ st.path := by
        intro x hu
        induction hu with
        | self => exact id
        | @up x p hp _ ih =>
          intro hx
          obtain ⟨k, hk⟩ := List.getElem?_of_mem hx
          obtain ⟨p', h1, h2⟩ := h.parentIn k x (by have := (List.getElem?_eq_some_iff.mp hk).1; omega) hk
          rw [← hp.fun h1] at h2
          exact ih h2
      have hr := up l hu hlm
      obtain ⟨k, hk⟩ := List.getElem?_of_mem hr
      obtain ⟨p, h1, _⟩ := h.parentIn k root (by have := (List.getElem?_eq_some_iff.mp hk).1; omega) hk
      exact t.root_noParent h1
    obtain ⟨x, hx⟩ : ∃ x, st.path[i]? = some x := ⟨_, List.getElem?_eq_getElem hil⟩
    have hxl : x < parents.length := h.pathLt x (List.mem_of_getElem? hx)
    unfold pathLoop
    rw [vget_eq_ok.mpr hx]
    simp only [okBind]
    by_cases hr : x = root
    · subst hr
      rw [vget_eq_ok.mpr t.rootPar]
      exact ⟨i, st, s, trig, rfl, h, hx⟩
    · obtain ⟨px, hpl, hp⟩ := t.other x hxl hr
      have : vget parents x = .ok (px : Int) := vget_eq_ok.mpr hp
      rw [this]
      simp only [okBind]
      rw [if_neg (by omega), toIdx_nat]
      simp only [okBind]
      obtain ⟨st', s', trig', h1, h2⟩ := pathStep_inv t h hx hp
      rw [h1]
      simp only [okBind]
      exact ih (i + 1) st' s' trig' h2 (by omega)

/-- The sizes are right once every node is in the path with its children first. -/
theorem sizes_right {leaves : Nat} {parents : List Int} {root : Nat} (t : IsTree leaves parents root)
    {i : Nat} {st : PathSt} {s trig : Nat → Nat} (h : PathInv leaves parents i st s trig)
    (all : ∀ x, x < parents.length → x ∈ st.path)
    (order : ∀ (i j h p : Nat), st.path[i]? = some h → st.path[j]? = some p → ParentIs parents h p → i < j) :
    (∀ (k x : Nat), k < i → st.path[k]? = some x → s k = (leavesUnder leaves parents x).card) := by
  intro k
  induction k using Nat.strong_induction_on with
  | _ k ih =>
    intro x hk hx
    rw [h.sAt k x hk hx]
    have hxl : x < parents.length := h.pathLt x (List.mem_of_getElem? hx)
    by_cases hl : x < leaves
    · rw [leavesUnder_leaf t hl, Finset.card_singleton]
      have : kidsAt parents st.path k x = ∅ := by
        rw [kidsAt, Finset.filter_eq_empty_iff]
        intro k' hk' hpar
        have hk'' := Finset.mem_range.mp hk'
        obtain ⟨c, hc⟩ : ∃ c, st.path[k']? = some c :=
          ⟨_, List.getElem?_eq_getElem (by have := h.iLe; omega)⟩
        unfold parAt at hpar; rw [hc] at hpar
        exact (t.leaf x hxl).mp hl ⟨c, hpar⟩
      rw [this]; simp [leafInd, hl]
    · have e0 : leafInd leaves x = 0 := by simp [leafInd, hl]
      rw [e0, Nat.zero_add]
      let g := fun k' : Nat => (st.path[k']?).getD 0
      have hg : ∀ k' : Nat, k' < st.path.length → st.path[k']? = some (g k') := by
        intro k' hk'; simp [g, hk']
      have hkl : k < st.path.length := (List.getElem?_eq_some_iff.mp hx).1
      have hmem : ∀ k', k' ∈ kidsAt parents st.path k x ↔ k' < k ∧ ParentIs parents (g k') x := by
        intro k'
        rw [kidsAt, Finset.mem_filter, Finset.mem_range]
        constructor
        · rintro ⟨h1, h2⟩
          unfold parAt at h2; rw [hg k' (by omega)] at h2; exact ⟨h1, h2⟩
        · rintro ⟨h1, h2⟩
          refine ⟨h1, ?_⟩
          unfold parAt; rw [hg k' (by omega)]; exact h2
      have hinj : Set.InjOn g (kidsAt parents st.path k x) := by
        intro a ha b hb hab
        have ha' := ((hmem a).mp ha).1
        have hb' := ((hmem b).mp hb).1
        have h1 := hg a (by omega)
        have h2 := hg b (by omega)
        rw [hab, ← h2] at h1
        exact (List.getElem?_inj (by omega) h.inv0.nodup).mp h1
      rw [card_leavesUnder_inner t (by omega) ((kidsAt parents st.path k x).image g) ?_, Finset.sum_image hinj]
      · apply Finset.sum_congr rfl
        intro k' hk'
        have := ((hmem k').mp hk').1
        exact ih k' this (g k') (by omega) (hg k' (by omega))
      · intro c
        rw [Finset.mem_image]
        constructor
        · rintro ⟨k', hk', rfl⟩; exact ((hmem k').mp hk').2
        · intro hc
          obtain ⟨k', hk'⟩ := List.getElem?_of_mem (all c hc.lt)
          have := order k' k c x hk' hx hc
          have e : g k' = c := by
            have := hg k' (by omega); rw [hk'] at this; exact (Option.some.inj this).symm
          exact ⟨k', (hmem k').mpr ⟨this, by rw [e]; exact hc⟩, e⟩

/-- Once every node is in the path with its children first, all metadata are right. -/
theorem right_of_order {leaves : Nat} {parents : List Int} {root : Nat} (t : IsTree leaves parents root)
    {i : Nat} {st : PathSt} {s trig : Nat → Nat} (h : PathInv leaves parents i st s trig)
    (hroot : st.path[i]? = some root)
    (all : ∀ x, x < parents.length → x ∈ st.path)
    (order : ∀ (i j h p : Nat), st.path[i]? = some h → st.path[j]? = some p → ParentIs parents h p → i < j) :
    i + 1 = st.path.length ∧
    RightMeta leaves parents ⟨parents.length, leaves, parents, st.children, st.size, st.path, root⟩ := by
  have hil : i < st.path.length := (List.getElem?_eq_some_iff.mp hroot).1
  -- the root comes last
  have last : ∀ j, i < j → ¬ j < st.path.length := by
    intro j hij hj
    have up : ∀ x, Under parents root x → ∀ j : Nat, i < j → st.path[j]? = some x → False := by
      intro x hu
      induction hu with
      | self =>
        intro j hij hj
        have : j = i := List.getElem?_inj (by exact (List.getElem?_eq_some_iff.mp hj).1) h.inv0.nodup |>.mp (by rw [hj, hroot])
        omega
      | @up x p hp _ ih =>
        intro j hij hj
        obtain ⟨j', hj'⟩ := List.getElem?_of_mem (all p (t.parent_lt hp))
        have := order j j' x p hj hj' hp
        exact ih j' (by omega) hj'
    obtain ⟨x, hx⟩ : ∃ x, st.path[j]? = some x := ⟨_, List.getElem?_eq_getElem hj⟩
    exact up x (t.reach x (h.pathLt x (List.mem_of_getElem? hx))) j hij hx
  have hlen : i + 1 = st.path.length := by
    by_contra hc
    exact last (i + 1) (by omega) (by omega)
  have hs := sizes_right t h all order
  refine ⟨hlen, ⟨t, rfl, rfl, rfl, h.inv0.nodup, fun x => ⟨h.pathLt x, all x⟩, h.front, order, h.chLen, ?_, ?_⟩⟩
  · intro x hx
    refine ⟨_, h.children x hx, ?_, ?_⟩
    · exact (h.inv0.nodup.sublist (List.take_sublist _ _)).filter _
    · intro c
      rw [List.mem_filter]
      simp only [decide_eq_true_eq]
      constructor
      · rintro ⟨_, h2⟩; exact h2
      · intro hc
        refine ⟨?_, hc⟩
        obtain ⟨k, hk⟩ := List.getElem?_of_mem (all c hc.lt)
        have hkl := (List.getElem?_eq_some_iff.mp hk).1
        have hki : k < i := by
          by_contra hcon
          have : k = i := by omega
          subst this
          rw [hk] at hroot
          obtain rfl := Option.some.inj hroot
          exact t.root_noParent hc
        apply List.mem_of_getElem? (i := k)
        rw [List.getElem?_take_of_lt hki]; exact hk
  · intro x hx
    simp only
    rw [h.sizes x (all x hx)]
    congr 1
    by_cases hl : x < leaves
    · rw [leavesUnder_leaf t hl, Finset.card_singleton]
      have : kidsAt parents st.path i x = ∅ := by
        rw [kidsAt, Finset.filter_eq_empty_iff]
        intro k' hk' hpar
        have hk'' := Finset.mem_range.mp hk'
        obtain ⟨c, hc⟩ : ∃ c, st.path[k']? = some c := ⟨_, List.getElem?_eq_getElem (by omega)⟩
        unfold parAt at hpar; rw [hc] at hpar
        exact (t.leaf x hx).mp hl ⟨c, hpar⟩
      rw [this]; simp [leafInd, hl]
    · have e0 : leafInd leaves x = 0 := by simp [leafInd, hl]
      rw [e0, Nat.zero_add]
      let g := fun k' : Nat => (st.path[k']?).getD 0
      have hg : ∀ k' : Nat, k' < st.path.length → st.path[k']? = some (g k') := by
        intro k' hk'; simp [g, hk']
      have hmem : ∀ k', k' ∈ kidsAt parents st.path i x ↔ k' < i ∧ ParentIs parents (g k') x := by
        intro k'
        rw [kidsAt, Finset.mem_filter, Finset.mem_range]
        constructor
        · rintro ⟨h1, h2⟩
          unfold parAt at h2; rw [hg k' (by omega)] at h2; exact ⟨h1, h2⟩
        · rintro ⟨h1, h2⟩
          refine ⟨h1, ?_⟩
          unfold parAt; rw [hg k' (by omega)]; exact h2
      have hinj : Set.InjOn g (kidsAt parents st.path i x) := by
        intro a ha b hb hab
        have ha' := ((hmem a).mp ha).1
        have hb' := ((hmem b).mp hb).1
        have h1 := hg a (by omega)
        have h2 := hg b (by omega)
        rw [hab, ← h2] at h1
        exact (List.getElem?_inj (by omega) h.inv0.nodup).mp h1
      rw [card_leavesUnder_inner t (by omega) ((kidsAt parents st.path i x).image g) ?_, Finset.sum_image hinj]
      · apply Finset.sum_congr rfl
        intro k' hk'
        have := ((hmem k').mp hk').1
        exact hs k' (g k') this (hg k' (by omega))
      · intro c
        rw [Finset.mem_image]
        constructor
        · rintro ⟨k', hk', rfl⟩; exact ((hmem k').mp hk').2
        · intro hc
          obtain ⟨k', hk'⟩ := List.getElem?_of_mem (all c hc.lt)
          have hk'l := (List.getElem?_eq_some_iff.mp hk').1
          have hki : k' < i := by
            by_contra hcon
            have : k' = i := by omega
            subst this
            rw [hk'] at hroot
            obtain rfl := Option.some.inj hroot
            exact t.root_noParent hc
          have e : g k' = c := by
            have := hg k' (by omega); rw [hk'] at this; exact (Option.some.inj this).symm
          exact ⟨k', (hmem k').mpr ⟨hki, by rw [e]; exact hc⟩, e⟩

/-- With all leaves at the same depth the path visits the nodes level by level. -/
theorem levels_sorted {leaves : Nat} {parents : List Int} {i : Nat} {st : PathSt} {s trig : Nat → Nat}
    (h : PathInv leaves parents i st s trig) {level : Nat → Nat}
    (h0 : ∀ x, x < leaves → level x = 0) (h1 : ∀ x p, ParentIs parents x p → level p = level x + 1) :
    ∀ (k' k x y : Nat), k ≤ k' → st.path[k]? = some x → st.path[k']? = some y → level x ≤ level y := by
  intro k'
  induction k' using Nat.strong_induction_on with
  | _ k' ih =>
    intro k x y hkk hx hy
    by_cases hk : k < leaves
    · have := h.front k hk
      rw [hx] at this
      obtain rfl := Option.some.inj this
      rw [h0 x hk]; omega
    · obtain ⟨a1, a2, c, a3, a4⟩ := h.trigs k x (by omega) hx
      obtain ⟨b1, b2, c', b3, b4⟩ := h.trigs k' y (by omega) hy
      have hm := h.trigMono k k' (by omega) hkk (List.getElem?_eq_some_iff.mp hy).1
      have := ih (trig k') b2 (trig k) c c' hm a3 b3
      rw [h1 c x a4, h1 c' y b4]
      omega

theorem balanced_order {leaves : Nat} {parents : List Int} {root : Nat} (t : IsTree leaves parents root)
    (hb : Balanced leaves parents) {i : Nat} {st : PathSt} {s trig : Nat → Nat}
    (h : PathInv leaves parents i st s trig) (hroot : st.path[i]? = some root) :
    (∀ x, x < parents.length → x ∈ st.path) ∧
    (∀ (i j h p : Nat), st.path[i]? = some h → st.path[j]? = some p → ParentIs parents h p → i < j) := by
  obtain ⟨level, h0, h1⟩ := hb
  have sorted := levels_sorted h h0 h1
  have hlt : ∀ (k k' x y : Nat), st.path[k]? = some x → st.path[k']? = some y → level x < level y → k < k' := by
    intro k k' x y hx hy hl
    by_contra hc
    have := sorted k k' y x (by omega) hy hx
    omega
  have rootMax : ∀ x, Under parents root x → level x ≤ level root ∧ (x ≠ root → level x < level root) := by
    intro x hu
    induction hu with
    | self => exact ⟨le_refl _, fun h => absurd rfl h⟩
    | @up x p hp _ ih => have := h1 x p hp; exact ⟨by omega, fun _ => by omega⟩
  constructor
  · intro x hx
    obtain ⟨l, hl, hu⟩ := t.exists_leaf hx
    have hlm : l ∈ st.path := List.mem_of_getElem? (h.front l hl)
    -- climb from the leaf to `x`
    have climb : ∀ y, Under parents x y → y ∈ st.path → y < parents.length → x ∈ st.path := by
      intro y hu
      induction hu with
      | self => exact fun h _ => h
      | @up y p hp hu' ih =>
        intro hy hyl
        have hyr : y ≠ root := fun e => t.root_noParent (e ▸ hp)
        obtain ⟨k, hk⟩ := List.getElem?_of_mem hy
        have hki := hlt k i y root hk hroot ((rootMax y (t.reach y hyl)).2 hyr)
        obtain ⟨p', e1, e2⟩ := h.parentIn k y hki hk
        rw [← hp.fun e1] at e2
        exact ih e2 (t.parent_lt hp)
    exact climb l hu hlm (lt_of_lt_of_le hl t.leavesLe)
  · intro a b x p hx hp hpar
    exact hlt a b x p hx hp (by have := h1 x p hpar; omega)

end Lp

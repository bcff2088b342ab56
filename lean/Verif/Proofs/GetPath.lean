import Verif.Proofs.MetaLoop
import Verif.Model.RMacro

/-!
# `getpath` computes the visiting path of the library
-/

namespace Lp
open Spec

theorem rGet_succ {α : Type} {v : List α} {i : Nat} {x : α} (h : v[i]? = some x) : rGet v ((i : Int) + 1) = .ok x := by
  unfold rGet
  rw [if_pos (by omega)]
  have : ((i : Int) + 1 - 1).toNat = i := by omega
  rw [this]
  exact vget_eq_ok.mpr h

theorem rSet_succ {α : Type} {v : List α} {i : Nat} {x : α} (h : i < v.length) :
    rSet v ((i : Int) + 1) x = .ok (v.set i x) := by
  unfold rSet
  rw [if_pos (by omega)]
  have : ((i : Int) + 1 - 1).toNat = i := by omega
  rw [this]
  exact vset_ok h

/-- The path as R stores it. -/
def encPath (n : Nat) (path : List Nat) : List Int :=
  path.map (fun x : Nat => (x : Int) + 1) ++ List.replicate (n - path.length) (-1)

theorem encPath_get {n i x : Nat} {path : List Nat} (h : path[i]? = some x) : (encPath n path)[i]? = some ((x : Int) + 1) := by
  unfold encPath
  rw [List.getElem?_append_left (by rw [List.length_map]; exact (List.getElem?_eq_some_iff.mp h).1), List.getElem?_map, h]
  rfl

theorem encPath_mem {n p : Nat} {path : List Nat} : ((p : Int) + 1) ∈ encPath n path ↔ p ∈ path := by
  unfold encPath
  rw [List.mem_append, List.mem_map, List.mem_replicate]
  constructor
  · rintro (⟨x, hx, e⟩ | ⟨_, e⟩)
    · have : x = p := by omega
      exact this ▸ hx
    · omega
  · intro h
    exact .inl ⟨p, h, rfl⟩

theorem encPath_snoc {n p : Nat} {path : List Nat} (h : path.length < n) :
    (encPath n path).set path.length ((p : Int) + 1) = encPath n (path ++ [p]) := by
  unfold encPath
  rw [List.set_append_right _ _ (by simp)]
  simp only [List.length_map, Nat.sub_self, List.map_append, List.map_cons, List.map_nil, List.length_append,
    List.length_singleton, List.append_assoc]
  congr 1
  obtain ⟨k, hk⟩ : ∃ k, n - path.length = k + 1 := ⟨n - path.length - 1, by omega⟩
  rw [hk, show n - (path.length + 1) = k by omega, List.replicate_succ]
  rfl

theorem pathStep_path {x px : Nat} {st st' : PathSt} (hs : pathStep x px st = .ok st') :
    st'.path = match st.size px with
      | some _ => st.path
      | none => st.path ++ [px] := by
  unfold pathStep at hs
  cases hsz : st.size px with
  | some s =>
    simp only [hsz] at hs ⊢
    cases hv : vget st.children px with
    | error e => rw [hv] at hs; simp at hs
    | ok ch => rw [hv] at hs; simp only [Except.ok.injEq] at hs; subst hs; rfl
  | none =>
    simp only [hsz] at hs ⊢
    cases hv : vget st.children px with
    | error e => rw [hv] at hs; simp at hs
    | ok ch => rw [hv] at hs; simp only [Except.ok.injEq] at hs; subst hs; rfl

/-- One round of the path loop. -/
theorem pathLoop_cases {parents : List Int} {fuel i : Nat} {st st' : PathSt} (h : pathLoop parents (fuel + 1) i st = .ok st') :
    ∃ x p, st.path[i]? = some x ∧ parents[x]? = some p ∧
      ((p = -1 ∧ st' = st) ∨ ∃ (px : Nat) (st1 : PathSt), p = px ∧ pathStep x px st = .ok st1 ∧ pathLoop parents fuel (i + 1) st1 = .ok st') := by
  unfold pathLoop at h
  cases hx : vget st.path i with
  | error e => rw [hx] at h; simp at h
  | ok x =>
    rw [hx] at h
    simp only [okBind] at h
    cases hp : vget parents x with
    | error e => rw [hp] at h; simp at h
    | ok p =>
      rw [hp] at h
      simp only [okBind] at h
      refine ⟨x, p, vget_eq_ok.mp hx, vget_eq_ok.mp hp, ?_⟩
      by_cases h1 : p = -1
      · rw [if_pos h1] at h
        simp only [pureOk, Except.ok.injEq] at h
        exact .inl ⟨h1, h.symm⟩
      · rw [if_neg h1] at h
        right
        unfold toIdx at h
        split at h
        · rename_i hneg
          simp only [okBind] at h
          cases hs : pathStep x p.toNat st with
          | error e => rw [hs] at h; simp at h
          | ok st1 =>
            rw [hs] at h
            exact ⟨p.toNat, st1, by omega, hs, h⟩
        · simp at h

theorem pathLoop_prefix {parents : List Int} : ∀ (fuel i : Nat) (st st' : PathSt), pathLoop parents fuel i st = .ok st' →
    st.path <+: st'.path := by
  intro fuel
  induction fuel with
  | zero => intro i st st' h; simp [pathLoop] at h
  | succ fuel ih =>
    intro i st st' h
    obtain ⟨x, p, _, _, ⟨_, rfl⟩ | ⟨px, st1, _, hs, hl⟩⟩ := pathLoop_cases h
    · exact List.prefix_refl _
    · refine List.IsPrefix.trans ?_ (ih _ _ _ hl)
      rw [pathStep_path hs]
      cases st.size px with
      | some s => exact List.prefix_refl _
      | none => exact List.prefix_append _ _

theorem getpathLoop_sim {parents : List Int} : ∀ (fuel i : Nat) (st st' : PathSt), PathInv0 parents i st →
    pathLoop parents fuel i st = .ok st' → st'.path.length = parents.length →
    getpathLoop (parents.map (· + 1)) fuel ((st.path.length : Int) + 1) ((i : Int) + 1) (encPath parents.length st.path) =
      .ok (st'.path.map (fun x : Nat => (x : Int) + 1)) := by
  intro fuel
  induction fuel with
  | zero => intro i st st' _ h; simp [pathLoop] at h
  | succ fuel ih =>
    intro i st st' hinv h hlen
    have hpre := pathLoop_prefix _ _ _ _ h
    have hle := hpre.length_le
    unfold getpathLoop
    by_cases hfull : st.path.length = parents.length
    · rw [if_neg (by rw [List.length_map, hfull]; omega)]
      have : st.path = st'.path := hpre.eq_of_length (by omega)
      simp [encPath, this, hlen]
    · rw [if_pos (by rw [List.length_map]; omega)]
      obtain ⟨x, p, hx, hp, ⟨_, rfl⟩ | ⟨px, st1, rfl, hs, hl⟩⟩ := pathLoop_cases h
      · exact absurd hlen hfull
      · have hlt : x < parents.length := (List.getElem?_eq_some_iff.mp hp).1
        have hinv1 := pathStep_inv0 hinv hx hlt hs
        rw [rGet_succ (encPath_get hx), okBind, rGet_succ (x := (px : Int) + 1) (by rw [List.getElem?_map, hp]; rfl), okBind]
        have hi := ih (i + 1) st1 st' hinv1 hl hlen
        have hpath := pathStep_path hs
        have e1 : ((i : Int) + 1) + 1 = ((i + 1 : Nat) : Int) + 1 := by push_cast; rfl
        cases hsz : st.size px with
        | some s =>
          rw [hsz] at hpath
          have hm : px ∈ st.path := (hinv.sizeIff px).mp (by rw [hsz]; rfl)
          rw [if_pos (encPath_mem.mpr hm)]
          simp only at hpath
          rw [hpath] at hi
          rw [e1]
          exact hi
        | none =>
          rw [hsz] at hpath
          have hm : px ∉ st.path := fun hm => by
            have := (hinv.sizeIff px).mpr hm
            rw [hsz] at this; simp at this
          rw [if_neg (fun h' => hm (encPath_mem.mp h')), rSet_succ (by
            unfold encPath; rw [List.length_append, List.length_map, List.length_replicate]; omega), okBind,
            encPath_snoc (by omega)]
          simp only at hpath
          rw [hpath, List.length_append, List.length_singleton] at hi
          rw [e1]
          exact_mod_cast hi

/-- Filling in the leaves. -/
theorem getpath_init (n : Nat) : ∀ leaves, leaves ≤ n →
    forUp 1 (leaves + 1) (fun h (path : List Int) => rSet path (h : Int) (h : Int)) (List.replicate n (-1 : Int)) =
      .ok (encPath n (List.range leaves)) := by
  intro leaves
  induction leaves with
  | zero => intro _; simp [forUp, forUpAux, encPath]
  | succ k ih =>
    intro hk
    rw [forUp_succ (by omega), ih (by omega), okBind]
    have := rSet_succ (v := encPath n (List.range k)) (i := k) (x := (k : Int) + 1) (by
      unfold encPath; simp; omega)
    push_cast
    rw [this, List.range_succ]
    have h2 := encPath_snoc (n := n) (p := k) (path := List.range k) (by simp; omega)
    rw [List.length_range] at h2
    rw [h2]

/-- When the library computes a path through all the nodes, `getpath` computes the same one, counted from 1. -/
theorem getpath_eq {leaves : Nat} {parents : List Int} {md : HMeta} (hl : leaves ≤ parents.length)
    (h : mkMeta leaves parents = .ok md) (hlen : md.path.length = parents.length) :
    getpath (parents.map (· + 1)) leaves = .ok (md.path.map (fun x : Nat => (x : Int) + 1)) := by
  unfold mkMeta at h
  cases hp : pathLoop parents (leaves + parents.length + 1) 0 (pathInit leaves parents.length) with
  | error e => rw [hp] at h; simp at h
  | ok st =>
    rw [hp] at h
    simp only [okBind] at h
    cases hr : vget st.path (st.path.length - 1) with
    | error e => rw [hr] at h; simp at h
    | ok root =>
      rw [hr] at h
      simp only [okBind, pureOk, Except.ok.injEq] at h
      subst h
      unfold getpath
      simp only [List.length_map]
      rw [getpath_init _ _ hl, okBind]
      have := getpathLoop_sim _ 0 _ st (pathInit_inv0 parents leaves parents.length) hp hlen
      simp only [pathInit, List.length_range, Nat.cast_zero, zero_add] at this
      exact this

end Lp

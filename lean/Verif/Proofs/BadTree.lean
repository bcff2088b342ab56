import Verif.Proofs.MetaLoop
import Verif.Model.DPartition
import Verif.Spec.Registered

/-!
# What an execution that returns says about the hierarchy
-/

namespace Lp
open Spec

/-- Invariant of the path loop for arbitrary input, with the provenance of the inner nodes. -/
structure PathInv1 (leaves : Nat) (parents : List Int) (i : Nat) (st : PathSt) : Prop where
  front : ∀ k, k < leaves → st.path[k]? = some k
  chLen : st.children.length = max leaves parents.length
  pathLt : ∀ x ∈ st.path, x < max leaves parents.length
  above : ∀ x ∈ st.path, leaves ≤ x → ∃ l, l < leaves ∧ Under parents x l
  done : ∀ (k x : Nat), k < i → st.path[k]? = some x → ∃ p, p < max leaves parents.length ∧ ParentIs parents x p
  iLe : i ≤ st.path.length

theorem Spec.Under.snoc {parents : List Int} {a b l : Nat} (h : Under parents a l) (hp : ParentIs parents a b) :
    Under parents b l := by
  induction h with
  | self => exact .up hp .self
  | up h1 _ ih => exact .up h1 ih

theorem pathStep_inv1 {leaves : Nat} {parents : List Int} {i x px : Nat} {st st' : PathSt}
    (h : PathInv1 leaves parents i st) (hx : st.path[i]? = some x) (hp : ParentIs parents x px)
    (hs : pathStep x px st = .ok st') : PathInv1 leaves parents (i + 1) st' := by
  have hxm : x ∈ st.path := List.mem_of_getElem? hx
  have hil : i < st.path.length := (List.getElem?_eq_some_iff.mp hx).1
  have hdone : px < max leaves parents.length → ∀ (k y : Nat), k < i + 1 → st.path[k]? = some y →
      ∃ p, p < max leaves parents.length ∧ ParentIs parents y p := by
    intro hlt k y hk hy
    rcases Nat.lt_succ_iff_lt_or_eq.mp hk with hk | rfl
    · exact h.done k y hk hy
    · rw [hx] at hy
      obtain rfl := Option.some.inj hy
      exact ⟨px, hlt, hp⟩
  unfold pathStep at hs
  cases hsz : st.size px with
  | some s =>
    simp only [hsz] at hs
    cases hv : vget st.children px with
    | error e => rw [hv] at hs; simp at hs
    | ok ch =>
      rw [hv] at hs
      simp only [Except.ok.injEq] at hs
      subst hs
      have hlt : px < max leaves parents.length := by
        have := (List.getElem?_eq_some_iff.mp (vget_eq_ok.mp hv)).1
        rwa [h.chLen] at this
      exact ⟨h.front, by simp [h.chLen], h.pathLt, h.above, hdone hlt, hil⟩
  | none =>
    simp only [hsz] at hs
    cases hv : vget st.children px with
    | error e => rw [hv] at hs; simp at hs
    | ok ch =>
      rw [hv] at hs
      simp only [Except.ok.injEq] at hs
      subst hs
      have hlt : px < max leaves parents.length := by
        have := (List.getElem?_eq_some_iff.mp (vget_eq_ok.mp hv)).1
        rwa [h.chLen] at this
      refine ⟨?_, by simp [h.chLen], ?_, ?_, ?_, ?_⟩
      · intro k hk
        have := h.front k hk
        simp only
        rw [List.getElem?_append_left (List.getElem?_eq_some_iff.mp this).1]; exact this
      · intro y hy
        simp only [List.mem_append, List.mem_singleton] at hy
        rcases hy with hy | rfl
        · exact h.pathLt y hy
        · exact hlt
      · intro y hy hle
        simp only [List.mem_append, List.mem_singleton] at hy
        rcases hy with hy | rfl
        · exact h.above y hy hle
        · by_cases hxl : x < leaves
          · exact ⟨x, hxl, .up hp .self⟩
          · obtain ⟨l, hl, hu⟩ := h.above x hxm (by omega)
            exact ⟨l, hl, hu.snoc hp⟩
      · intro k y hk hy
        simp only at hy
        rw [List.getElem?_append_left (by omega)] at hy
        exact hdone hlt k y hk hy
      · simp; omega

theorem pathInit_inv1 (leaves : Nat) (parents : List Int) :
    PathInv1 leaves parents 0 (pathInit leaves parents.length) where
  front k hk := by simp [pathInit, hk]
  chLen := by simp [pathInit]
  pathLt x hx := by simp [pathInit] at hx; omega
  above x hx hl := by simp [pathInit] at hx; omega
  done k x hk := by omega
  iLe := by omega

/-- The loop stops at a node whose entry is `-1`. -/
theorem pathLoop_stop {leaves : Nat} {parents : List Int} : ∀ (fuel i : Nat) (st st' : PathSt),
    PathInv0 parents i st → PathInv1 leaves parents i st → pathLoop parents fuel i st = .ok st' →
    st'.path.Nodup ∧
      ∃ i' x : Nat, PathInv1 leaves parents i' st' ∧ st'.path[i']? = some x ∧ parents[x]? = some (-1) := by
  intro fuel
  induction fuel with
  | zero => intro i st st' _ _ h; simp [pathLoop] at h
  | succ fuel ih =>
    intro i st st' h0 h1 h
    unfold pathLoop at h
    cases hx : vget st.path i with
    | error e' => rw [hx] at h; simp at h
    | ok x =>
      rw [hx] at h
      simp only [okBind] at h
      cases hp : vget parents x with
      | error e' => rw [hp] at h; simp at h
      | ok p =>
        rw [hp] at h
        simp only [okBind] at h
        by_cases e1 : p = -1
        · subst e1
          simp at h
          subst h
          exact ⟨h0.nodup, i, x, h1, vget_eq_ok.mp hx, vget_eq_ok.mp hp⟩
        · rw [if_neg e1] at h
          cases hi : toIdx p with
          | error e' => rw [hi] at h; simp at h
          | ok px =>
            rw [hi] at h
            simp only [okBind] at h
            have hpp : ParentIs parents x px := by
              have := vget_eq_ok.mp hp
              unfold toIdx at hi
              split at hi <;> simp at hi
              unfold ParentIs
              rw [this, ← hi]
              congr 1; omega
            have hxl := (List.getElem?_eq_some_iff.mp (vget_eq_ok.mp hp)).1
            cases hs : pathStep x px st with
            | error e' => rw [hs] at h; simp at h
            | ok st1 =>
              rw [hs] at h
              exact ih (i + 1) st1 st' (pathStep_inv0 h0 (vget_eq_ok.mp hx) hxl hs)
                (pathStep_inv1 h1 (vget_eq_ok.mp hx) hpp hs) h

/-- What a computation that returns has read: position `hsize - 1` of the path, and the parent of every node before
that position. -/
structure Walked (md : HMeta) : Prop where
  last : md.hsize - 1 < md.path.length
  par : ∀ (k h : Nat), k < md.hsize - 1 → md.path[k]? = some h → ∃ p, md.parentOf h = .ok p

theorem mkMeta_ok {leaves : Nat} {parents : List Int} {md : HMeta} (h : mkMeta leaves parents = .ok md) :
    ∃ st, pathLoop parents (leaves + parents.length + 1) 0 (pathInit leaves parents.length) = .ok st ∧
      st.path[st.path.length - 1]? = some md.root ∧
      md = ⟨parents.length, leaves, parents, st.children, st.size, st.path, md.root⟩ := by
  unfold mkMeta at h
  cases hs : pathLoop parents (leaves + parents.length + 1) 0 (pathInit leaves parents.length) with
  | error e => rw [hs] at h; simp at h
  | ok st =>
    rw [hs] at h
    simp only [okBind] at h
    cases hr : vget st.path (st.path.length - 1) with
    | error e => rw [hr] at h; simp at h
    | ok root =>
      rw [hr] at h
      simp at h
      subst h
      exact ⟨st, rfl, vget_eq_ok.mp hr, rfl⟩

theorem parentOf_ok {md : HMeta} {h p : Nat} (hp : md.parentOf h = .ok p) : ParentIs md.parents h p := by
  unfold HMeta.parentOf at hp
  cases hv : vget md.parents h with
  | error e => rw [hv] at hp; simp at hp
  | ok x =>
    rw [hv] at hp
    simp only [okBind] at hp
    unfold toIdx at hp
    split at hp <;> simp at hp
    unfold ParentIs
    rw [vget_eq_ok.mp hv, ← hp]
    congr 1; omega

theorem mkMeta_path {leaves : Nat} {parents : List Int} {md : HMeta} (h : mkMeta leaves parents = .ok md) :
    md.hsize = parents.length ∧ md.leaveSize = leaves ∧ md.path.Nodup ∧
      md.path.length ≤ max leaves parents.length ∧ md.path[md.path.length - 1]? = some md.root := by
  obtain ⟨st, h1, h2, h3⟩ := mkMeta_ok h
  obtain ⟨nd, i, x, inv, _⟩ := pathLoop_stop _ 0 _ _ (pathInit_inv0 parents leaves parents.length)
    (pathInit_inv1 leaves parents) h1
  have hlen : st.path.length ≤ max leaves parents.length := by
    have hsub : st.path ⊆ List.range (max leaves parents.length) := fun y hy =>
      List.mem_range.mpr (inv.pathLt y hy)
    have := (List.subperm_of_subset nd hsub).length_le
    rwa [List.length_range] at this
  rw [h3]
  exact ⟨rfl, rfl, nd, hlen, h2⟩

theorem parentOf_last {leaves : Nat} {parents : List Int} {md : HMeta} (h : mkMeta leaves parents = .ok md) :
    ∃ i x : Nat, md.path[i]? = some x ∧ md.parentOf x = .error .outOfBounds := by
  obtain ⟨st, h1, h2, h3⟩ := mkMeta_ok h
  obtain ⟨nd, i, x, inv, hx, hp⟩ := pathLoop_stop _ 0 _ _ (pathInit_inv0 parents leaves parents.length)
    (pathInit_inv1 leaves parents) h1
  rw [h3]
  refine ⟨i, x, hx, ?_⟩
  unfold HMeta.parentOf
  simp only
  rw [vget_eq_ok.mpr hp]
  rfl

theorem oneRoot_of_walked {leaves : Nat} {parents : List Int} {md : HMeta} (h : mkMeta leaves parents = .ok md)
    (hle : leaves ≤ parents.length) (w : Walked md) : OneRoot leaves parents md.root := by
  obtain ⟨st, h1, h2, h3⟩ := mkMeta_ok h
  obtain ⟨nd, i, x, inv, hx, hxp⟩ := pathLoop_stop _ 0 _ _ (pathInit_inv0 parents leaves parents.length)
    (pathInit_inv1 leaves parents) h1
  rw [h3] at w
  obtain ⟨w2, w3⟩ := w
  simp only at w2 w3
  have hlen : st.path.length ≤ max leaves parents.length := by
    have hsub : st.path ⊆ List.range (max leaves parents.length) := fun y hy =>
      List.mem_range.mpr (inv.pathLt y hy)
    have := (List.subperm_of_subset nd hsub).length_le
    rwa [List.length_range] at this
  have hmax : max leaves parents.length = parents.length := by omega
  rw [hmax] at hlen
  have hfull : st.path.length = parents.length := by omega
  have hperm : st.path.Perm (List.range parents.length) := by
    have hsub : st.path ⊆ List.range parents.length := fun y hy =>
      List.mem_range.mpr (by have := inv.pathLt y hy; omega)
    exact (List.subperm_of_subset nd hsub).perm_of_length_le (by simp [hfull])
  have hmem : ∀ y, y < parents.length → y ∈ st.path := fun y hy =>
    hperm.mem_iff.mpr (List.mem_range.mpr hy)
  have hil := (List.getElem?_eq_some_iff.mp hx).1
  have hilast : i = parents.length - 1 := by
    by_contra hc
    obtain ⟨p, hp⟩ := w3 i x (by omega) hx
    have hp' := parentOf_ok hp
    unfold ParentIs at hp'
    simp only at hp'
    rw [hxp] at hp'
    have := Option.some.inj hp'
    omega
  have hroot : md.root = x := by
    rw [hfull, ← hilast, hx] at h2
    exact (Option.some.inj h2).symm
  have hxl : x < parents.length := (List.getElem?_eq_some_iff.mp hxp).1
  rw [hroot]
  refine ⟨hle, hxl, hxp, ?_, ?_⟩
  · intro y hy hyx
    obtain ⟨k, hk⟩ := List.getElem?_of_mem (hmem y hy)
    have hkl := (List.getElem?_eq_some_iff.mp hk).1
    have hki : k ≠ i := by
      rintro rfl
      rw [hk] at hx
      exact hyx (Option.some.inj hx)
    obtain ⟨p, hpl, hp⟩ := inv.done k y (by omega) hk
    exact ⟨p, by omega, hp⟩
  · intro y hy hle
    exact inv.above y (hmem y hy) hle

/-! ## What a loop that returns has done -/

theorem forUpAux_ok {σ : Type} {f : Nat → σ → Res σ} : ∀ (n i : Nat) (s s' : σ), forUpAux f n i s = .ok s' →
    ∀ k, i ≤ k → k < i + n → ∃ a b, f k a = .ok b := by
  intro n
  induction n with
  | zero => intro i s s' _ k h1 h2; omega
  | succ n ih =>
    intro i s s' h k h1 h2
    unfold forUpAux at h
    cases hf : f i s with
    | error e => rw [hf] at h; simp at h
    | ok b =>
      rw [hf] at h
      by_cases hk : k = i
      · subst hk; exact ⟨s, b, hf⟩
      · exact ih (i + 1) b s' h k (by omega) (by omega)

theorem forUp_ok {σ : Type} {f : Nat → σ → Res σ} {lo hi : Nat} {s s' : σ} (h : forUp lo hi f s = .ok s') :
    ∀ k, lo ≤ k → k < hi → ∃ a b, f k a = .ok b := by
  intro k h1 h2
  exact forUpAux_ok (hi - lo) lo s s' h k h1 (by omega)

theorem forDown_ok {σ : Type} : ∀ (n : Nat) {f : Nat → σ → Res σ} {s s' : σ}, forDown n f s = .ok s' →
    ∀ k, k < n → ∃ a b, f k a = .ok b := by
  intro n
  induction n with
  | zero => intro f s s' _ k h; omega
  | succ n ih =>
    intro f s s' h k hk
    unfold forDown at h
    cases hf : f n s with
    | error e => rw [hf] at h; simp at h
    | ok b =>
      rw [hf] at h
      by_cases hkn : k = n
      · subst hkn; exact ⟨s, b, hf⟩
      · exact ih h k (by omega)

theorem bind_eq_ok' {α β : Type} {x : Res α} {f : α → Res β} {b : β} (h : (x >>= f) = .ok b) :
    ∃ a, x = .ok a ∧ f a = .ok b := by
  cases x with
  | error e => simp at h
  | ok a => exact ⟨a, rfl, h⟩

theorem vget_lt {α : Type} {v : List α} {i : Nat} {x : α} (h : vget v i = .ok x) : i < v.length :=
  (List.getElem?_eq_some_iff.mp (vget_eq_ok.mp h)).1

theorem vset_lt {α : Type} {v v' : List α} {i : Nat} {x : α} (h : vset v i x = .ok v') :
    i < v.length ∧ v'.length = v.length := by
  unfold vset at h
  split at h <;> simp at h
  subst h
  exact ⟨by assumption, by simp⟩

/-! ## Each computation that returns has walked the path -/

section
variable {F K : Type}

theorem walked_of_loops {σ : Type} {md : HMeta} {leaf inner : Nat → σ → Res σ} {s0 s1 s2 : σ}
    (h1 : forUp 0 md.leaveSize leaf s0 = .ok s1) {x : Nat} (hx : vget md.path md.leaveSize = .ok x)
    (h2 : forUp md.leaveSize (md.hsize - 1) inner s1 = .ok s2) {y : Nat}
    (hy : vget md.path (max md.leaveSize (md.hsize - 1)) = .ok y)
    (hl : ∀ (k : Nat) (a b : σ), leaf k a = .ok b → ∃ h p, md.path[k]? = some h ∧ md.parentOf h = .ok p)
    (hi : ∀ (k : Nat) (a b : σ), inner k a = .ok b → ∃ h p, md.path[k]? = some h ∧ md.parentOf h = .ok p) :
    md.leaveSize < md.path.length ∧ Walked md := by
  have hy' := vget_lt hy
  refine ⟨vget_lt hx, by omega, ?_⟩
  intro k h hk hkh
  have : ∃ h p, md.path[k]? = some h ∧ md.parentOf h = .ok p := by
    by_cases hkl : k < md.leaveSize
    · obtain ⟨a, b, e⟩ := forUp_ok h1 k (by omega) hkl
      exact hl k a b e
    · obtain ⟨a, b, e⟩ := forUp_ok h2 k (by omega) hk
      exact hi k a b e
  obtain ⟨h', p, e1, e2⟩ := this
  rw [hkh] at e1
  obtain rfl := Option.some.inj e1
  exact ⟨p, e2⟩

theorem hbPush_par [LD K] {md : HMeta} {h : Nat} {s s' : HBest K} (e : hbPush md h s = .ok s') :
    ∃ p, md.parentOf h = .ok p := by
  obtain ⟨p, h1, _⟩ := bind_eq_ok' e
  exact ⟨p, h1⟩

theorem hBest_walked [LD K] [FloatP F K] {md : HMeta} {q : List (Quality K)} {p : F} {P : HPartition F K}
    (h : hBestPartition q md p = .ok P) : md.leaveSize < md.path.length ∧ Walked md := by
  obtain ⟨s, h, _⟩ := bind_eq_ok' h
  unfold hbLoop at h
  dsimp only at h
  obtain ⟨s1, h1, h⟩ := bind_eq_ok' h
  obtain ⟨x, hx, h⟩ := bind_eq_ok' h
  obtain ⟨s2, h2, h⟩ := bind_eq_ok' h
  obtain ⟨y, hy, h⟩ := bind_eq_ok' h
  refine walked_of_loops h1 hx h2 hy ?_ ?_
  · intro k a b e
    obtain ⟨n, e1, e⟩ := bind_eq_ok' e
    obtain ⟨a1, _, e⟩ := bind_eq_ok' e
    obtain ⟨p, e2⟩ := hbPush_par e
    exact ⟨n, p, vget_eq_ok.mp e1, e2⟩
  · intro k a b e
    obtain ⟨n, e1, e⟩ := bind_eq_ok' e
    obtain ⟨a1, _, e⟩ := bind_eq_ok' e
    obtain ⟨a2, _, e⟩ := bind_eq_ok' e
    obtain ⟨p, e2⟩ := hbPush_par e
    exact ⟨n, p, vget_eq_ok.mp e1, e2⟩

theorem hq_walked [LDLog K] {v : HValues K} {md : HMeta} (hv : 0 < v.vsize) {q : List (Quality K)}
    (h : hqCompute v md = .ok q) : md.leaveSize < md.path.length ∧ Walked md := by
  obtain ⟨a, b, h⟩ := forUp_ok h 0 (by omega) hv
  unfold hqSeries at h
  obtain ⟨s1, h1, h⟩ := bind_eq_ok' h
  obtain ⟨x, hx, h⟩ := bind_eq_ok' h
  obtain ⟨s2, h2, h⟩ := bind_eq_ok' h
  obtain ⟨y, hy, h⟩ := bind_eq_ok' h
  refine walked_of_loops h1 hx h2 hy ?_ ?_
  · intro k a b e
    obtain ⟨n, e1, e⟩ := bind_eq_ok' e
    obtain ⟨_, _, e⟩ := bind_eq_ok' e
    obtain ⟨_, _, e⟩ := bind_eq_ok' e
    obtain ⟨p, e2, e⟩ := bind_eq_ok' e
    exact ⟨n, p, vget_eq_ok.mp e1, e2⟩
  · intro k a b e
    obtain ⟨n, e1, e⟩ := bind_eq_ok' e
    obtain ⟨p, e2, e⟩ := bind_eq_ok' e
    exact ⟨n, p, vget_eq_ok.mp e1, e2⟩

theorem dq_walked [LDLog K] {v : DValues K} {md : HMeta} (hv : 0 < v.vsize) (ho : 0 < v.osize)
    {q : List (UTM (Quality K))} (h : dqCompute v md = .ok q) :
    md.leaveSize < md.path.length ∧ Walked md := by
  obtain ⟨a, b, h⟩ := forUp_ok h 0 (by omega) hv
  unfold dqSeries at h
  dsimp only at h
  obtain ⟨s1, h1, h⟩ := bind_eq_ok' h
  obtain ⟨x, hx, h⟩ := bind_eq_ok' h
  obtain ⟨s2, h2, h⟩ := bind_eq_ok' h
  obtain ⟨y, hy, h⟩ := bind_eq_ok' h
  have push : ∀ {n i j : Nat} {a b : DSt K}, dqPush md n i j a = .ok b → ∃ p, md.parentOf n = .ok p := by
    intro n i j a b e
    obtain ⟨p, e2, e⟩ := bind_eq_ok' e
    exact ⟨p, e2⟩
  refine walked_of_loops h1 hx h2 hy ?_ ?_
  · intro k a b e
    obtain ⟨n, e1, e⟩ := bind_eq_ok' e
    obtain ⟨a1, b1, e⟩ := forDown_ok _ e 0 ho
    obtain ⟨_, _, e⟩ := bind_eq_ok' e
    obtain ⟨_, _, e⟩ := bind_eq_ok' e
    obtain ⟨_, _, e⟩ := bind_eq_ok' e
    obtain ⟨_, _, e⟩ := bind_eq_ok' e
    obtain ⟨_, e3, e⟩ := bind_eq_ok' e
    obtain ⟨p, e2⟩ := push e3
    exact ⟨n, p, vget_eq_ok.mp e1, e2⟩
  · intro k a b e
    obtain ⟨n, e1, e⟩ := bind_eq_ok' e
    obtain ⟨a1, b1, e⟩ := forDown_ok _ e 0 ho
    obtain ⟨a2, b2, e⟩ := forUp_ok e 0 (by omega) ho
    obtain ⟨_, _, e⟩ := bind_eq_ok' e
    obtain ⟨_, _, e⟩ := bind_eq_ok' e
    obtain ⟨p, e2⟩ := push e
    exact ⟨n, p, vget_eq_ok.mp e1, e2⟩

theorem dbNode_par [LD K] [FloatP F K] {q : List (UTM (Quality K))} {p : F} {md : HMeta} {osize k h : Nat}
    (ho : 0 < osize) (hk : k < md.hsize - 1) {s s' : DBest K} (e : dbNode q p md osize k h s = .ok s') :
    ∃ pa, md.parentOf h = .ok pa := by
  obtain ⟨a1, b1, e⟩ := forDown_ok _ e 0 ho
  obtain ⟨a2, b2, e⟩ := forUp_ok e 0 (by omega) ho
  unfold dbCell at e
  obtain ⟨_, _, e⟩ := bind_eq_ok' e
  obtain ⟨_, _, e⟩ := bind_eq_ok' e
  obtain ⟨_, _, e⟩ := bind_eq_ok' e
  dsimp only at e
  obtain ⟨_, _, e⟩ := bind_eq_ok' e
  obtain ⟨_, _, e⟩ := bind_eq_ok' e
  rw [if_pos hk] at e
  obtain ⟨pa, e2, e⟩ := bind_eq_ok' e
  exact ⟨pa, e2⟩

/-- The loop over the path stops at position `hsize` or at the first position that holds the root. -/
theorem dbPath_walk [LD K] [FloatP F K] {q : List (UTM (Quality K))} {p : F} {md : HMeta} {osize : Nat}
    (ho : 0 < osize) : ∀ (cnt k : Nat) (s s' : DBest K), k + cnt = md.hsize → dbPath q p md osize cnt k s = .ok s' →
    ∃ m : Nat, k ≤ m ∧ (m = md.hsize ∨ (m < md.hsize ∧ md.path[m]? = some md.root)) ∧ m < md.path.length ∧
      ∀ (j h : Nat), k ≤ j → j ≤ m → j < md.hsize - 1 → md.path[j]? = some h → ∃ pa, md.parentOf h = .ok pa := by
  intro cnt
  induction cnt with
  | zero =>
    intro k s s' hk h
    obtain ⟨_, h1, _⟩ := bind_eq_ok' h
    refine ⟨k, le_refl _, Or.inl (by omega), vget_lt h1, ?_⟩
    intro j h h1 h2 h3; omega
  | succ cnt ih =>
    intro k s s' hk h
    obtain ⟨n, h1, h⟩ := bind_eq_ok' h
    obtain ⟨s1, h2, h⟩ := bind_eq_ok' h
    have here : ∀ h : Nat, k < md.hsize - 1 → md.path[k]? = some h → ∃ pa, md.parentOf h = .ok pa := by
      intro h hk2 hh
      rw [vget_eq_ok.mp h1] at hh
      obtain rfl := Option.some.inj hh
      exact dbNode_par ho hk2 h2
    by_cases hr : n = md.root
    · refine ⟨k, le_refl _, Or.inr ⟨by omega, by rw [vget_eq_ok.mp h1, hr]⟩, vget_lt h1, ?_⟩
      intro j h' hj1 hj2 hj3 hh
      obtain rfl : j = k := by omega
      exact here h' hj3 hh
    · rw [if_neg hr] at h
      obtain ⟨m, m1, m2, m3, m4⟩ := ih (k + 1) s1 s' (by omega) h
      refine ⟨m, by omega, m2, m3, ?_⟩
      intro j h' hj1 hj2 hj3 hh
      by_cases hjk : j = k
      · subst hjk; exact here h' hj3 hh
      · exact m4 j h' (by omega) hj2 hj3 hh

theorem dBest_walked [LD K] [FloatP F K] {leaves : Nat} {parents : List Int} {md : HMeta}
    (hm : mkMeta leaves parents = .ok md) (hle : leaves ≤ parents.length) {q : List (UTM (Quality K))} {p : F}
    {P : DPartition F K} (h : dBestPartition q md p = .ok P) : Walked md := by
  obtain ⟨m1, m2, m3, m4, m5⟩ := mkMeta_path hm
  obtain ⟨s, h, hP⟩ := bind_eq_ok' h
  obtain ⟨q0, e0, h⟩ := bind_eq_ok' h
  have ho : 0 < q0.size := by
    obtain ⟨q1, e1, hP⟩ := bind_eq_ok' hP
    rw [e0] at e1
    obtain rfl := Except.ok.inj e1
    by_contra hc
    rw [if_pos (by omega)] at hP
    simp at hP
  dsimp only at h
  obtain ⟨m, _, a2, a3, a4⟩ := dbPath_walk ho md.hsize 0 _ _ (by omega) h
  have hml : m = md.path.length - 1 := by
    rcases a2 with rfl | ⟨_, a2⟩
    · omega
    · exact (List.getElem?_inj a3 m3).mp (by rw [a2, m5])
  have hmp := parentOf_last hm
  have hlast : md.hsize - 1 < md.path.length := by
    by_contra hc
    obtain ⟨i, x, hi, hx⟩ := hmp
    have hil := (List.getElem?_eq_some_iff.mp hi).1
    obtain ⟨pa, hpa⟩ := a4 i x (by omega) (by omega) (by omega) hi
    rw [hx] at hpa
    simp at hpa
  refine ⟨hlast, ?_⟩
  intro k h hk hh
  exact a4 k h (by omega) (by omega) hk hh

end

end Lp

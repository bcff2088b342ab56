import Verif.Proofs.BadTree
import Verif.Proofs.HCover

/-!
# Any tree: if the computation returns, the parts cover
-/

namespace Lp
open Spec
variable {F K : Type} {leaves : Nat} {parents : List Int} {root : Nat} {md : HMeta}

/-- For a tree whose path contains every node with the root last, root, children and the front of the path are
right (sizes and order need not be). -/
structure KidsRight (leaves : Nat) (parents : List Int) (root : Nat) (md : HMeta) : Prop where
  tree : IsTree leaves parents root
  rootEq : md.root = root
  hsize : md.hsize = parents.length
  leaveSize : md.leaveSize = leaves
  nodup : md.path.Nodup
  full : ∀ h, h < parents.length → h ∈ md.path
  pathLt : ∀ h, h ∈ md.path → h < parents.length
  front : ∀ k, k < leaves → md.path[k]? = some k
  children : ∀ h, h < parents.length → ∃ ch, md.children[h]? = some ch ∧ ch.Nodup ∧
    ∀ c, c ∈ ch ↔ ParentIs parents c h

theorem kidsRight_of_walked (t : IsTree leaves parents root) (hm : mkMeta leaves parents = .ok md)
    (w : Walked md) : KidsRight leaves parents root md := by
  obtain ⟨i, st, s, trig, h1, h2, h3⟩ := pathLoop_tree t (leaves + parents.length + 1) 0
    (pathInit leaves parents.length) (fun _ => 0) (fun _ => 0) (pathInit_inv t.leavesLe _ _) (by omega)
  obtain ⟨st', g1, g2, g3⟩ := mkMeta_ok hm
  rw [h1] at g1
  obtain rfl := Except.ok.inj g1
  have hor := oneRoot_of_walked hm t.leavesLe w
  have hroot : md.root = root := by
    by_contra hne
    obtain ⟨p, _, hp⟩ := t.other md.root hor.rootLt hne
    have := hor.rootPar
    unfold ParentIs at hp
    rw [hp] at this
    have := Option.some.inj this
    omega
  have w1 : parents.length - 1 < st.path.length := by
    have := w.last; rw [g3] at this; exact this
  have hil := (List.getElem?_eq_some_iff.mp h3).1
  have hi : i = st.path.length - 1 :=
    (List.getElem?_inj hil h2.inv0.nodup).mp (by rw [h3, g2, hroot])
  have hperm : st.path.Perm (List.range parents.length) := by
    have hsub : st.path ⊆ List.range parents.length := fun y hy => List.mem_range.mpr (h2.pathLt y hy)
    exact (List.subperm_of_subset h2.inv0.nodup hsub).perm_of_length_le (by simp; omega)
  have hmem : ∀ y, y < parents.length → y ∈ st.path := fun y hy =>
    hperm.mem_iff.mpr (List.mem_range.mpr hy)
  rw [g3]
  refine ⟨t, hroot, rfl, rfl, h2.inv0.nodup, hmem, h2.pathLt, h2.front, ?_⟩
  intro h hh
  refine ⟨_, h2.children h hh, (h2.inv0.nodup.sublist (List.take_sublist _ _)).filter _, ?_⟩
  intro c
  rw [List.mem_filter, decide_eq_true_eq]
  constructor
  · exact fun a => a.2
  · intro hc
    refine ⟨?_, hc⟩
    obtain ⟨k, hk⟩ := List.getElem?_of_mem (hmem c (ParentIs.lt hc))
    have hkl := (List.getElem?_eq_some_iff.mp hk).1
    have hki : k ≠ i := by
      rintro rfl
      rw [h3] at hk
      obtain rfl := Option.some.inj hk
      exact t.root_noParent hc
    apply List.mem_of_getElem? (i := k)
    rw [List.getElem?_take_of_lt (by omega)]; exact hk

theorem KidsRight.inner (r : KidsRight leaves parents root md) {k h : Nat} (hk : md.path[k]? = some h)
    (hl : leaves ≤ k) : ¬ h < leaves := by
  intro hh
  have h1 := r.front h hh
  have : k = h := (List.getElem?_inj (List.getElem?_eq_some_iff.mp hk).1 r.nodup).mp (by rw [hk, h1])
  omega

open Classical in
theorem KidsRight.above_children (r : KidsRight leaves parents root md) {h : Nat} (hi : ¬ h < leaves)
    {ch : List Nat} (h2 : ch.Nodup) (h3 : ∀ c, c ∈ ch ↔ ParentIs parents c h) {l : Nat} (hl : l < leaves) :
    above parents l ch = above parents l [h] := by
  unfold above
  by_cases hu : Under parents h l
  · rw [List.countP_singleton, if_pos (by simpa using hu)]
    rcases under_iff.mp hu with rfl | ⟨c, hc, hcl⟩
    · exact absurd hl hi
    · exact countP_eq_one h2 ((h3 c).mpr hc) hcl
        (fun b hb hbl => under_child_unique r.tree ((h3 b).mp hb) hc hbl hcl)
  · rw [List.countP_singleton, if_neg (by simpa using hu), List.countP_eq_zero]
    intro c hc hcl
    exact hu (under_iff.mpr (Or.inr ⟨c, (h3 c).mp hc, by simpa using hcl⟩))

theorem above_append (l : Nat) (L M : List Nat) : above parents l (L ++ M) = above parents l L + above parents l M := by
  unfold above; rw [List.countP_append]

theorem hSubPart_cover (r : KidsRight leaves parents root md) {agg : List Bool} {q : List (Quality K)}
    (hag : ∀ l, l < leaves → agg[l]? = some true) : ∀ (fuel h : Nat) (parts parts' : List (HPart K)),
    h < parents.length → hSubPart agg q md fuel h parts = .ok parts' →
    ∃ L, parts'.map HPart.h = parts.map HPart.h ++ L ∧ (∀ x ∈ L, x < parents.length) ∧
      ∀ l, l < leaves → above parents l L = above parents l [h] := by
  intro fuel
  induction fuel with
  | zero => intro h parts parts' _ e; simp [hSubPart] at e
  | succ fuel ih =>
    intro h parts parts' hh e
    unfold hSubPart at e
    obtain ⟨a, e1, e⟩ := bind_eq_ok' e
    by_cases ha : a = true
    · rw [if_pos ha] at e
      obtain ⟨x, e2, e⟩ := bind_eq_ok' e
      simp at e
      subst e
      exact ⟨[h], by simp, by simpa using hh, fun _ _ => rfl⟩
    · rw [if_neg ha] at e
      obtain ⟨ch, e2, e⟩ := bind_eq_ok' e
      obtain ⟨ch', c1, c2, c3⟩ := r.children h hh
      rw [vget_eq_ok.mp e2] at c1
      obtain rfl := Option.some.inj c1
      have hin : ¬ h < leaves := by
        intro hl
        have := hag h hl
        rw [vget_eq_ok.mp e1] at this
        exact ha (Option.some.inj this)
      have loop : ∀ (cs : List Nat) (parts parts' : List (HPart K)), (∀ c ∈ cs, c < parents.length) →
          forEach (fun c parts => hSubPart agg q md fuel c parts) cs parts = .ok parts' →
          ∃ L, parts'.map HPart.h = parts.map HPart.h ++ L ∧ (∀ x ∈ L, x < parents.length) ∧
            ∀ l, l < leaves → above parents l L = above parents l cs := by
        intro cs
        induction cs with
        | nil =>
          intro p1 p2 _ e
          simp [forEach] at e
          subst e
          exact ⟨[], by simp, by simp, fun _ _ => rfl⟩
        | cons c cs ihc =>
          intro p1 p2 hcs e
          unfold forEach at e
          cases hc : hSubPart agg q md fuel c p1 with
          | error er => rw [hc] at e; simp at e
          | ok p3 =>
            rw [hc] at e
            obtain ⟨L1, a1, a2, a3⟩ := ih c p1 p3 (hcs c (by simp)) hc
            obtain ⟨L2, b1, b2, b3⟩ := ihc p3 p2 (fun x hx => hcs x (by simp [hx])) e
            refine ⟨L1 ++ L2, by rw [b1, a1, List.append_assoc], ?_, ?_⟩
            · intro x hx
              rcases List.mem_append.mp hx with hx | hx
              · exact a2 x hx
              · exact b2 x hx
            · intro l hl
              rw [above_append, a3 l hl, b3 l hl, ← above_append]; rfl
      obtain ⟨L, l1, l2, l3⟩ := loop ch parts parts' (fun c hc => ParentIs.lt ((c3 c).mp hc)) e
      exact ⟨L, l1, l2, fun l hl => by rw [l3 l hl, r.above_children hin c2 c3 hl]⟩

/-! ## Partial correctness of loops -/

theorem forUpAux_pc {σ : Type} {f : Nat → σ → Res σ} (P : σ → Prop) : ∀ (n i : Nat) (s s' : σ),
    (∀ k a b, i ≤ k → k < i + n → P a → f k a = .ok b → P b) → P s → forUpAux f n i s = .ok s' → P s' := by
  intro n
  induction n with
  | zero => intro i s s' _ h e; simp [forUpAux] at e; exact e ▸ h
  | succ n ih =>
    intro i s s' hf h e
    unfold forUpAux at e
    cases h1 : f i s with
    | error er => rw [h1] at e; simp at e
    | ok b =>
      rw [h1] at e
      exact ih (i + 1) b s' (fun k a b h1 h2 => hf k a b (by omega) (by omega)) (hf i s b (by omega) (by omega) h h1) e

theorem forUp_pc {σ : Type} {f : Nat → σ → Res σ} (P : σ → Prop) {lo hi : Nat} {s s' : σ}
    (hf : ∀ k a b, lo ≤ k → k < hi → P a → f k a = .ok b → P b) (h : P s) (e : forUp lo hi f s = .ok s') : P s' :=
  forUpAux_pc P (hi - lo) lo s s' (fun k a b h1 h2 => hf k a b h1 (by omega)) h e

section
variable [LD K] [FloatP F K]

theorem hbSet_agg {q : List (Quality K)} {p : F} {h : Nat} {s s' : HBest K} (e : hbSet q p h s = .ok s') :
    s'.agg = s.agg := by
  obtain ⟨_, _, e⟩ := bind_eq_ok' e
  obtain ⟨_, _, e⟩ := bind_eq_ok' e
  simp at e; subst e; rfl

omit [FloatP F K] in
theorem hbPush_agg {h : Nat} {s s' : HBest K} (e : hbPush md h s = .ok s') : s'.agg = s.agg := by
  obtain ⟨_, _, e⟩ := bind_eq_ok' e
  obtain ⟨_, _, e⟩ := bind_eq_ok' e
  obtain ⟨_, _, e⟩ := bind_eq_ok' e
  obtain ⟨_, _, e⟩ := bind_eq_ok' e
  simp at e; subst e; rfl

omit [FloatP F K] in
theorem hbChoose_agg {h : Nat} {s s' : HBest K} (e : hbChoose h s = .ok s') {l : Nat} (hl : l ≠ h) :
    s'.agg[l]? = s.agg[l]? := by
  obtain ⟨t, _, e⟩ := bind_eq_ok' e
  obtain ⟨c, _, e⟩ := bind_eq_ok' e
  by_cases hc : t.lt c = true
  · rw [if_pos hc] at e
    obtain ⟨agg, e1, e⟩ := bind_eq_ok' e
    obtain ⟨_, _, e⟩ := bind_eq_ok' e
    simp at e; subst e
    unfold vset at e1
    split at e1 <;> simp at e1
    subst e1
    simp only
    rw [List.getElem?_set_ne (fun h => hl h.symm)]
  · rw [if_neg hc] at e
    simp at e; subst e; rfl

theorem hbLoop_leaf (r : KidsRight leaves parents root md) {q : List (Quality K)} {p : F} {s : HBest K}
    (h : hbLoop q p md = .ok s) : ∀ l, l < leaves → s.agg[l]? = some true := by
  unfold hbLoop at h
  dsimp only at h
  obtain ⟨s1, h1, h⟩ := bind_eq_ok' h
  obtain ⟨x, hx, h⟩ := bind_eq_ok' h
  obtain ⟨s2, h2, h⟩ := bind_eq_ok' h
  obtain ⟨y, hy, h⟩ := bind_eq_ok' h
  obtain ⟨s3, h3, h⟩ := bind_eq_ok' h
  have a1 : ∀ l, l < leaves → s1.agg[l]? = some true := by
    refine forUp_pc (fun s : HBest K => ∀ l, l < leaves → s.agg[l]? = some true) ?_ ?_ h1
    · intro k a b _ _ hP e l hl
      obtain ⟨_, _, e⟩ := bind_eq_ok' e
      obtain ⟨_, e1, e⟩ := bind_eq_ok' e
      rw [hbPush_agg e, hbSet_agg e1]
      exact hP l hl
    · intro l hl
      have := r.tree.leavesLe
      simp only
      rw [List.getElem?_replicate, if_pos (by rw [r.hsize]; omega)]
  have a2 : ∀ l, l < leaves → s2.agg[l]? = some true := by
    refine forUp_pc (fun s : HBest K => ∀ l, l < leaves → s.agg[l]? = some true) ?_ a1 h2
    intro k a b hk _ hP e l hl
    obtain ⟨n, e0, e⟩ := bind_eq_ok' e
    obtain ⟨_, e1, e⟩ := bind_eq_ok' e
    obtain ⟨_, e2, e⟩ := bind_eq_ok' e
    rw [r.leaveSize] at hk
    have := r.inner (vget_eq_ok.mp e0) hk
    rw [hbPush_agg e, hbChoose_agg e2 (by omega), hbSet_agg e1]
    exact hP l hl
  intro l hl
  have := r.inner (vget_eq_ok.mp hy) (by rw [r.leaveSize]; omega)
  rw [hbChoose_agg h (by omega), hbSet_agg h3]
  exact a2 l hl

/-- Any tree, any qualities: if the hierarchical partition is computed, it covers. -/
theorem hBest_cover_tree (t : IsTree leaves parents root) (hm : mkMeta leaves parents = .ok md)
    {q : List (Quality K)} {p : F} {P : HPartition F K} (h : hBestPartition q md p = .ok P) :
    LeafCover leaves parents (P.parts.map HPart.h) := by
  have r := kidsRight_of_walked t hm (hBest_walked h).2
  obtain ⟨s, h1, h⟩ := bind_eq_ok' h
  obtain ⟨parts, h2, h⟩ := bind_eq_ok' h
  simp at h
  subst h
  have hr : md.root < parents.length := by rw [r.rootEq]; exact t.rootLt
  obtain ⟨L, l1, l2, l3⟩ := hSubPart_cover r (hbLoop_leaf r h1) _ _ _ _ hr h2
  simp only [List.map_nil, List.nil_append] at l1
  simp only
  rw [l1]
  refine ⟨l2, ?_⟩
  intro l hl
  classical
  rw [exactlyOne_countP]
  have := l3 l hl
  unfold above at this
  rw [r.rootEq] at this
  have hu : Under parents root l := t.reach l (lt_of_lt_of_le hl t.leavesLe)
  rw [List.countP_singleton, if_pos (by simpa using hu)] at this
  rw [← this]
end

end Lp

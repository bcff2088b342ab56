import Verif.Proofs.HPart
import Verif.Proofs.Once

/-!
# Derivations of the hierarchical decision system are the partitions of the leaves
-/

namespace Lp
open Spec
variable {leaves : Nat} {parents : List Int} {md : HMeta}
open Classical

/-- The number of nodes of `L` above leaf `l`. -/
noncomputable def above (parents : List Int) (l : Nat) (L : List Nat) : Nat :=
  L.countP (fun x => decide (Under parents x l))

theorem countP_eq_one {A : Type} {P : A → Prop} {L : List A} (hn : L.Nodup) {a : A} (ha : a ∈ L) (hP : P a)
    (hu : ∀ b ∈ L, P b → b = a) : L.countP (fun x => decide (P x)) = 1 := by
  rw [List.countP_eq_length_filter]
  have : L.filter (fun x => decide (P x)) = [a] := by
    have hnf : (L.filter (fun x => decide (P x))).Nodup := hn.filter _
    have hm : ∀ b, b ∈ L.filter (fun x => decide (P x)) ↔ b = a := by
      intro b
      rw [List.mem_filter]
      constructor
      · rintro ⟨h1, h2⟩; exact hu b h1 (by simpa using h2)
      · rintro rfl; exact ⟨ha, by simpa using hP⟩
    have hp : (L.filter (fun x => decide (P x))).Perm [a] := by
      rw [List.perm_ext_iff_of_nodup hnf (by simp)]
      intro b; rw [hm]; simp
    exact List.perm_singleton.mp hp
  rw [this]; rfl

theorem under_child_unique (t : IsTree leaves parents root) {h l c c' : Nat} (h1 : ParentIs parents c h)
    (h2 : ParentIs parents c' h) (u1 : Under parents c l) (u2 : Under parents c' l) : c = c' := by
  obtain ⟨d, _, hd⟩ := t.depth
  exact under_same_depth hd u1 u2 (by rw [hd c h h1, hd c' h h2])

/-- Splitting a node into its children conserves the number of nodes above every leaf. -/
theorem above_children (r : RightMeta leaves parents md) {h : Nat} (hh : h < parents.length) (hi : ¬ h < leaves)
    {ch : List Nat} (hch : md.children[h]? = some ch) {l : Nat} (hl : l < leaves) :
    above parents l ch = above parents l [h] := by
  obtain ⟨ch', h1, h2, h3⟩ := r.children h hh
  rw [hch] at h1
  obtain rfl := Option.some.inj h1
  unfold above
  by_cases hu : Under parents h l
  · rw [List.countP_singleton, if_pos (by simpa using hu)]
    rcases under_iff.mp hu with rfl | ⟨c, hc, hcl⟩
    · exact absurd hl hi
    · exact countP_eq_one h2 ((h3 c).mpr hc) hcl
        (fun b hb hbl => under_child_unique r.tree ((h3 b).mp hb) hc hbl hcl)
  · rw [List.countP_singleton, if_neg (by simpa using hu), List.countP_eq_zero]
    intro c hc hcl
    exact hu (under_iff.mpr (Or.inr ⟨c, (h3 c).mp hc, by simpa using hcl⟩))

theorem hSol_cover (r : RightMeta leaves parents md) {st ds L : List Nat}
    (h : Sol (hDecs leaves md.children) st ds L) : (∀ s ∈ st, s < parents.length) →
      (∀ x ∈ L, x < parents.length ∧ ∃ s ∈ st, Under parents s x) ∧
      ∀ l, l < leaves → above parents l L = above parents l st := by
  induction h with
  | nil => intro _; exact ⟨by simp, fun _ _ => rfl⟩
  | @cons s rest k e succ ds L hk _ ih =>
    intro hst
    have hs := hst s (by simp)
    by_cases hsl : s < leaves
    · rw [hDecs_leaf hsl] at hk
      cases k with
      | succ k => simp at hk
      | zero =>
        simp at hk
        obtain ⟨rfl, rfl⟩ := hk
        obtain ⟨i1, i2⟩ := ih (fun x hx => hst x (by simp at hx; simp [hx]))
        refine ⟨?_, ?_⟩
        · intro x hx
          rcases List.mem_append.mp hx with hx | hx
          · simp at hx; subst hx; exact ⟨hs, x, by simp, .self⟩
          · obtain ⟨a, s', b, c⟩ := i1 x hx
            exact ⟨a, s', by simp at b; simp [b], c⟩
        · intro l hl
          have := i2 l hl
          unfold above at this ⊢
          rw [List.countP_append, this]
          simp [List.countP_cons]
          omega
    · obtain ⟨ch, hch, _, hmem⟩ := r.kidsPerm hs
      rw [hDecs_inner hsl hch] at hk
      match k, hk with
      | 0, hk =>
        simp at hk
        obtain ⟨rfl, rfl⟩ := hk
        obtain ⟨i1, i2⟩ := ih (fun x hx => hst x (by simp at hx; simp [hx]))
        refine ⟨?_, ?_⟩
        · intro x hx
          rcases List.mem_append.mp hx with hx | hx
          · simp at hx; subst hx; exact ⟨hs, x, by simp, .self⟩
          · obtain ⟨a, s', b, c⟩ := i1 x hx
            exact ⟨a, s', by simp at b; simp [b], c⟩
        · intro l hl
          have := i2 l hl
          unfold above at this ⊢
          rw [List.countP_append, this]
          simp [List.countP_cons]
          omega
      | 1, hk =>
        simp at hk
        obtain ⟨rfl, rfl⟩ := hk
        obtain ⟨i1, i2⟩ := ih (fun x hx => by
          rcases List.mem_append.mp hx with hx | hx
          · exact ((hmem x).mp hx).lt
          · exact hst x (by simp [hx]))
        refine ⟨?_, ?_⟩
        · intro x hx
          obtain ⟨a, s', b, c⟩ := i1 x (by simpa using hx)
          rcases List.mem_append.mp b with b | b
          · exact ⟨a, s, by simp, (Under.up ((hmem s').mp b) .self).trans c⟩
          · exact ⟨a, s', by simp [b], c⟩
        · intro l hl
          have h1 := i2 l hl
          have h2 := above_children r hs hsl hch hl
          unfold above at h1 h2 ⊢
          rw [List.nil_append, h1, List.countP_append, h2]
          rw [← List.countP_append]; rfl
      | k + 2, hk => simp at hk

theorem under_antisymm (t : IsTree leaves parents root) {a b : Nat} (h1 : Under parents a b)
    (h2 : Under parents b a) : a = b := by
  obtain ⟨d, _, hd⟩ := t.depth
  have e1 := under_depth hd h1
  have e2 := under_depth hd h2
  exact e1.2 (by omega)

/-- Two nodes above the same node are comparable. -/
theorem under_total {a b x : Nat} (h1 : Under parents a x) (h2 : Under parents b x) :
    Under parents a b ∨ Under parents b a := by
  induction h1 with
  | self => exact Or.inr h2
  | @up x p hp h1' ih =>
    cases h2 with
    | self => exact Or.inl (.up hp h1')
    | @up _ p' hp' h2' =>
      rw [← hp.fun hp'] at h2'
      exact ih h2'

/-- Every partition of the leaves below `h` into nodes below `h` is, up to order, a derivation. -/
theorem cover_hSol (r : RightMeta leaves parents md) : ∀ (k h : Nat) (M : List Nat), md.path[k]? = some h →
    (∀ x ∈ M, x < parents.length ∧ Under parents h x) →
    (∀ l, l < leaves → Under parents h l → above parents l M = 1) →
    ∃ ds L, Sol (hDecs leaves md.children) [h] ds L ∧ L.Perm M := by
  intro k
  induction k using Nat.strong_induction_on with
  | _ k ih =>
    intro h M hk hM hc
    have hh : h < parents.length := (r.pathMem h).mp (List.mem_of_getElem? hk)
    have h0 : (hDecs leaves md.children h)[0]? = some ([h], []) := by unfold hDecs; split <;> rfl
    by_cases hm : h ∈ M
    · -- the node itself: nothing else fits
      obtain ⟨M', hM'⟩ : ∃ M', M.Perm (h :: M') := ⟨_, List.perm_cons_erase hm⟩
      have : M' = [] := by
        cases M' with
        | nil => rfl
        | cons y M'' =>
          exfalso
          obtain ⟨hy1, hy2⟩ := hM y (hM'.mem_iff.mpr (by simp))
          obtain ⟨l, hl, hly⟩ := r.tree.exists_leaf hy1
          have hcount := hc l hl (hy2.trans hly)
          unfold above at hcount
          rw [hM'.countP_eq, List.countP_cons_of_pos (by simpa using hy2.trans hly),
            List.countP_cons_of_pos (by simpa using hly)] at hcount
          omega
      subst this
      exact ⟨[0], [h], Sol.cons (e := [h]) (rest := []) h0 .nil, hM'.symm⟩
    · have hin : ¬ h < leaves := by
        intro hl
        have := hc h hl .self
        have hpos : 0 < above parents h M := by omega
        unfold above at hpos
        rw [List.countP_pos_iff] at hpos
        obtain ⟨x, hx, hux⟩ := hpos
        have := under_antisymm r.tree (hM x hx).2 (by simpa using hux)
        exact hm (this ▸ hx)
      obtain ⟨ch, hch, hnd, hmem⟩ := r.children h hh
      -- every element of `M` is below exactly one child
      have hcl : ∀ a ∈ M, ∃ c ∈ ch, Under parents c a := by
        intro a ha
        rcases under_iff.mp (hM a ha).2 with rfl | ⟨c, h1, h2⟩
        · exact absurd ha hm
        · exact ⟨c, (hmem c).mpr h1, h2⟩
      have hperm := perm_flatMap_filter (fun c a => Under parents c a) ch M hnd hcl
        (fun a _ c hc c' hc' u u' => under_child_unique r.tree ((hmem c).mp hc) ((hmem c').mp hc') u u')
      -- solve each child
      have hsub : ∀ cs : List Nat, (∀ c ∈ cs, ParentIs parents c h) →
          ∃ ds L, Sol (hDecs leaves md.children) cs ds L ∧
            L.Perm (cs.flatMap (fun c => M.filter (fun a => decide (Under parents c a)))) := by
        intro cs
        induction cs with
        | nil => intro _; exact ⟨[], [], .nil, by simp⟩
        | cons c cs ihc =>
          intro hcs
          have hcp := hcs c (by simp)
          obtain ⟨ds2, L2, s2, p2⟩ := ihc (fun x hx => hcs x (by simp [hx]))
          obtain ⟨j, _, hj⟩ := r.pos hcp.lt
          have hjk := r.pathOrder _ _ _ _ hj hk hcp
          obtain ⟨ds1, L1, s1, p1⟩ := ih j hjk c (M.filter (fun a => decide (Under parents c a))) hj
            (by
              intro x hx
              rw [List.mem_filter] at hx
              exact ⟨(hM x hx.1).1, by simpa using hx.2⟩)
            (by
              intro l hl hul
              rw [← hc l hl ((Under.up hcp .self).trans hul)]
              unfold above
              rw [List.countP_filter]
              apply List.countP_congr
              intro x hx
              simp only [Bool.and_eq_true, decide_eq_true_eq]
              constructor
              · exact fun h' => h'.1
              · intro hxl
                refine ⟨hxl, ?_⟩
                rcases under_total hul hxl with hu | hu
                · exact hu
                · obtain ⟨c', hc', hu'⟩ := hcl x hx
                  have := under_child_unique r.tree hcp ((hmem c').mp hc') hul (hu'.trans hxl)
                  rwa [this])
          refine ⟨ds1 ++ ds2, L1 ++ L2, by simpa using s1.append s2, ?_⟩
          rw [List.flatMap_cons]
          exact p1.append p2
      obtain ⟨ds, L, s, p⟩ := hsub ch (fun c hc => (hmem c).mp hc)
      refine ⟨1 :: ds, L, ?_, p.trans hperm.symm⟩
      have := Sol.cons (decs := hDecs leaves md.children) (s := h) (rest := []) (k := 1) (e := []) (succ := ch)
        (ds := ds) (L := L) (by rw [hDecs_inner hin hch]; rfl) (by simpa using s)
      simpa using this

theorem hSol_leafCover (r : RightMeta leaves parents md) {ds L : List Nat}
    (h : Sol (hDecs leaves md.children) [md.root] ds L) : LeafCover leaves parents L := by
  obtain ⟨h1, h2⟩ := hSol_cover r h (by intro s hs; simp at hs; subst hs; exact r.tree.rootLt)
  refine ⟨fun x hx => (h1 x hx).1, ?_⟩
  intro l hl
  rw [exactlyOne_countP]
  have := h2 l hl
  unfold above at this
  rw [this, List.countP_singleton, if_pos]
  simpa using r.tree.reach l (lt_of_lt_of_le hl r.tree.leavesLe)

theorem leafCover_hSol (r : RightMeta leaves parents md) {M : List Nat} (h : LeafCover leaves parents M) :
    ∃ ds L, Sol (hDecs leaves md.children) [md.root] ds L ∧ L.Perm M := by
  apply cover_hSol r (parents.length - 1) md.root M r.last
  · intro x hx
    exact ⟨h.1 x hx, r.tree.reach x (h.1 x hx)⟩
  · intro l hl _
    exact exactlyOne_countP.mp (h.2 l hl)

end Lp

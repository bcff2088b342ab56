import Verif.Spec.NearLeaf
import Verif.Proofs.MetaLoop

/-!
# The visiting path lists the nodes in the order of their nearest leaves
-/

namespace Lp.Spec
variable {leaves : Nat} {parents : List Int} {root : Nat}

theorem Below.under {a h d : Nat} (hb : Below parents a h d) : Under parents a h := by
  induction hb with
  | self => exact .self
  | up hp _ ih => exact .up hp ih

theorem under_below {a h : Nat} (hu : Under parents a h) : ∃ d, Below parents a h d := by
  induction hu with
  | self => exact ⟨0, .self⟩
  | up hp _ ih => obtain ⟨d, hd⟩ := ih; exact ⟨d + 1, .up hp hd⟩

theorem Below.child {a c h d : Nat} (hc : ParentIs parents c a) (hb : Below parents c h d) :
    Below parents a h (d + 1) := by
  induction hb with
  | self => exact .up hc .self
  | up hp _ ih => exact .up hp ih

theorem Below.down {a h d : Nat} (hb : Below parents a h (d + 1)) :
    ∃ c, ParentIs parents c a ∧ Below parents c h d := by
  generalize hn : d + 1 = n at hb
  induction hb generalizing d with
  | self => omega
  | @up h p n hp hb ih =>
    cases d with
    | zero =>
      have : n = 0 := by omega
      subst this
      cases hb
      exact ⟨h, hp, .self⟩
    | succ d =>
      obtain ⟨c, h1, h2⟩ := ih (d := d) (by omega)
      exact ⟨c, h1, .up hp h2⟩

theorem Below.zero {a h : Nat} (hb : Below parents a h 0) : h = a := by cases hb; rfl

/-- Two nodes at the same distance above the same node are the same. -/
theorem Below.same {a b h d : Nat} (h1 : Below parents a h d) (h2 : Below parents b h d) : a = b := by
  induction h1 with
  | self => exact h2.zero
  | up hp _ ih =>
    cases h2 with
    | up hp' h2' => rw [hp'.fun hp] at h2'; exact ih h2'

theorem Nearer.trans {a b c d e f : Nat} (h1 : Nearer a b c d) (h2 : Nearer c d e f) : Nearer a b e f := by
  unfold Nearer at *; omega

theorem Nearer.irrefl {a b : Nat} : ¬ Nearer a b a b := by unfold Nearer; omega

theorem nearer_total (a b c d : Nat) : Nearer a b c d ∨ (a = c ∧ b = d) ∨ Nearer c d a b := by
  unfold Nearer; omega

/-- Every node has a nearest leaf. -/
theorem exists_nearest (t : IsTree leaves parents root) {h : Nat} (hh : h < parents.length) :
    ∃ d l, NearestLeaf leaves parents h d l := by
  classical
  obtain ⟨l0, hl0, hu⟩ := t.exists_leaf hh
  obtain ⟨d0, hd0⟩ := under_below hu
  have e1 : ∃ d, ∃ l, l < leaves ∧ Below parents h l d := ⟨d0, l0, hl0, hd0⟩
  have e2 := Nat.find_spec e1
  have e3 := Nat.find_spec e2
  refine ⟨Nat.find e1, Nat.find e2, e3.1, e3.2, ?_⟩
  rintro d' l' hl' hb' (h1 | ⟨rfl, h1⟩)
  · exact Nat.find_min e1 h1 ⟨l', hl', hb'⟩
  · exact Nat.find_min e2 h1 ⟨hl', hb'⟩

theorem NearestLeaf.unique {h d l d' l' : Nat} (h1 : NearestLeaf leaves parents h d l)
    (h2 : NearestLeaf leaves parents h d' l') : d = d' ∧ l = l' := by
  rcases nearer_total d l d' l' with h3 | h3 | h3
  · exact absurd h3 (h2.first d l h1.leaf h1.below)
  · exact h3
  · exact absurd h3 (h1.first d' l' h2.leaf h2.below)

/-- Different nodes have different nearest leaves or distances. -/
theorem NearestLeaf.inj {a b d l : Nat} (h1 : NearestLeaf leaves parents a d l)
    (h2 : NearestLeaf leaves parents b d l) : a = b := h1.below.same h2.below

theorem nearest_leaf (t : IsTree leaves parents root) {h d l : Nat} (hl : h < leaves)
    (h1 : NearestLeaf leaves parents h d l) : d = 0 ∧ l = h := by
  refine h1.unique ⟨hl, .self, ?_⟩
  rintro d' l' hl' hb (h2 | ⟨rfl, h2⟩)
  · omega
  · have := hb.zero; omega

/-- The nearest leaf of an inner node is that of one of its children. -/
theorem NearestLeaf.down {h d l : Nat} (h1 : NearestLeaf leaves parents h d l) (hi : leaves ≤ h) :
    ∃ c d', d = d' + 1 ∧ ParentIs parents c h ∧ NearestLeaf leaves parents c d' l := by
  cases d with
  | zero => have := h1.below.zero; have := h1.leaf; omega
  | succ d =>
    obtain ⟨c, hc, hb⟩ := h1.below.down
    refine ⟨c, d, rfl, hc, h1.leaf, hb, ?_⟩
    intro d' l' hl' hb' hn
    refine h1.first (d' + 1) l' hl' (hb'.child hc) ?_
    unfold Nearer at *; omega

/-- If no child has a nearer leaf than `c`, the nearest leaf of the parent is that of `c`. -/
theorem NearestLeaf.lift {h c d l : Nat} (hi : leaves ≤ h) (hc : ParentIs parents c h)
    (h1 : NearestLeaf leaves parents c d l)
    (hmin : ∀ c' d' l', ParentIs parents c' h → NearestLeaf leaves parents c' d' l' → ¬ Nearer d' l' d l)
    (t : IsTree leaves parents root) : NearestLeaf leaves parents h (d + 1) l := by
  obtain ⟨d0, l0, h0⟩ := exists_nearest t (t.parent_lt hc)
  obtain ⟨c', d', rfl, hc', h'⟩ := h0.down hi
  have h2 := hmin c' d' l0 hc' h'
  have h3 := h0.first (d + 1) l h1.leaf (h1.below.child hc)
  have : d' = d ∧ l0 = l := by unfold Nearer at *; omega
  obtain ⟨rfl, rfl⟩ := this
  exact h0

section
variable {i : Nat} {st : PathSt} {s trig : Nat → Nat}

theorem path_inj (h : PathInv leaves parents i st s trig) {k k' x : Nat} (h1 : st.path[k]? = some x)
    (h2 : st.path[k']? = some x) : k = k' := by
  obtain ⟨l1, e1⟩ := List.getElem?_eq_some_iff.mp h1
  obtain ⟨l2, e2⟩ := List.getElem?_eq_some_iff.mp h2
  exact (h.inv0.nodup.getElem_inj_iff).mp (e1.trans e2.symm)

/-- All nodes with a nearer leaf than the node at position `k` are at earlier positions. -/
theorem path_complete (t : IsTree leaves parents root) (h : PathInv leaves parents i st s trig) :
    ∀ k x d l : Nat, st.path[k]? = some x → NearestLeaf leaves parents x d l →
      ∀ y e m : Nat, NearestLeaf leaves parents y e m → y < parents.length → Nearer e m d l →
        ∃ k' : Nat, k' < k ∧ st.path[k']? = some y := by
  intro k
  induction k using Nat.strong_induction_on with
  | _ k ih =>
    intro x d l hx hxl y e m hy hyl hn
    have hxn : x < parents.length := h.pathLt x (List.mem_of_getElem? hx)
    by_cases hk : k < leaves
    · have e1 := h.front k hk
      rw [hx] at e1
      obtain rfl := Option.some.inj e1
      obtain ⟨rfl, rfl⟩ := nearest_leaf t hk hxl
      have he : e = 0 ∧ m < l := by unfold Nearer at hn; omega
      obtain ⟨rfl, hm⟩ := he
      have := hy.below.zero
      subst this
      exact ⟨m, hm, h.front m hy.leaf⟩
    · obtain ⟨ht1, ht2, c, hc, hcp⟩ := h.trigs k x (by omega) hx
      have hxi : leaves ≤ x := by
        by_contra hlt
        exact (t.leaf x hxn).mp (by omega) ⟨c, hcp⟩
      obtain ⟨dc, lc, hcl⟩ := exists_nearest t hcp.lt
      have hkey : NearestLeaf leaves parents x (dc + 1) lc := by
        refine NearestLeaf.lift hxi hcp hcl ?_ t
        intro c' d' l' hc' hn' hlt
        obtain ⟨k', hk', hk'2⟩ := ih (trig k) ht2 c dc lc hc hcl c' d' l' hn' hc'.lt hlt
        have := h.trigFirst k' c' x k (by omega) hk'2 hc' hx
        omega
      obtain ⟨rfl, rfl⟩ := hxl.unique hkey
      by_cases hyi : y < leaves
      · exact ⟨y, by omega, h.front y hyi⟩
      · obtain ⟨c', e', rfl, hc', hn'⟩ := hy.down (by omega)
        obtain ⟨k', hk', hk'2⟩ := ih (trig k) ht2 c dc l hc hcl c' e' m hn' hc'.lt (by unfold Nearer at *; omega)
        obtain ⟨p, hp, hpm⟩ := h.parentIn k' c' (by omega) hk'2
        rw [← hc'.fun hp] at hpm
        obtain ⟨ky, hky⟩ := List.getElem?_of_mem hpm
        refine ⟨ky, ?_, hky⟩
        by_contra hge
        have h1 := h.trigMono k ky (by omega) (by omega) (List.getElem?_eq_some_iff.mp hky).1
        have h2 := h.trigFirst k' c' y ky (by omega) hk'2 hc' hky
        omega

/-- The path is sorted by nearest leaf. -/
theorem path_sorted (t : IsTree leaves parents root) (h : PathInv leaves parents i st s trig) {k k' x x' d l d' l' : Nat}
    (h1 : st.path[k]? = some x) (h2 : st.path[k']? = some x') (n1 : NearestLeaf leaves parents x d l)
    (n2 : NearestLeaf leaves parents x' d' l') : k < k' ↔ Nearer d l d' l' := by
  have hx : x < parents.length := h.pathLt x (List.mem_of_getElem? h1)
  have hx' : x' < parents.length := h.pathLt x' (List.mem_of_getElem? h2)
  constructor
  · intro hk
    rcases nearer_total d l d' l' with h3 | ⟨rfl, rfl⟩ | h3
    · exact h3
    · have := n1.inj n2
      subst this
      have := path_inj h h1 h2
      omega
    · obtain ⟨k'', hk1, hk2⟩ := path_complete t h k x d l h1 n1 x' d' l' n2 hx' h3
      have := path_inj h h2 hk2
      omega
  · intro hn
    obtain ⟨k'', hk1, hk2⟩ := path_complete t h k' x' d' l' h2 n2 x d l n1 hx hn
    have := path_inj h h1 hk2
    omega

/-- Under the condition the path is complete and lists children before parents. -/
theorem nearestFirst_order (t : IsTree leaves parents root) (hc : NearestFirst leaves parents)
    (h : PathInv leaves parents i st s trig) (hroot : st.path[i]? = some root) :
    (∀ x, x < parents.length → x ∈ st.path) ∧
    (∀ (i j h p : Nat), st.path[i]? = some h → st.path[j]? = some p → ParentIs parents h p → i < j) := by
  obtain ⟨dr, lr, hr⟩ := exists_nearest t t.rootLt
  have up : ∀ x, Under parents root x → x = root ∨ ∀ d l, NearestLeaf leaves parents x d l → Nearer d l dr lr := by
    intro x hu
    induction hu with
    | self => exact Or.inl rfl
    | @up x p hp _ ih =>
      right
      intro d l hx
      obtain ⟨d', l', hp'⟩ := exists_nearest t (t.parent_lt hp)
      have h1 := hc x p d l d' l' hp hx hp'
      rcases ih with rfl | ih
      · obtain ⟨rfl, rfl⟩ := hp'.unique hr; exact h1
      · exact h1.trans (ih d' l' hp')
  constructor
  · intro x hx
    rcases up x (t.reach x hx) with rfl | h1
    · exact List.mem_of_getElem? hroot
    · obtain ⟨d, l, hd⟩ := exists_nearest t hx
      obtain ⟨k', _, hk⟩ := path_complete t h i root dr lr hroot hr x d l hd hx (h1 d l hd)
      exact List.mem_of_getElem? hk
  · intro a b x p hx hp hpar
    obtain ⟨d, l, hd⟩ := exists_nearest t hpar.lt
    obtain ⟨d', l', hd'⟩ := exists_nearest t (t.parent_lt hpar)
    exact (path_sorted t h hx hp hd hd').mpr (hc x p d l d' l' hpar hd hd')

end

/-- A tree whose leaves all have the same depth satisfies the condition. -/
theorem balanced_nearestFirst (t : IsTree leaves parents root) (hb : Balanced leaves parents) :
    NearestFirst leaves parents := by
  obtain ⟨level, h0, h1⟩ := hb
  have key : ∀ a h d, Below parents a h d → level a = level h + d := by
    intro a h d hb
    induction hb with
    | self => omega
    | @up x p d hp _ ih => have := h1 _ _ hp; omega
  intro c p d l d' l' hp hc hp'
  have e1 := key _ _ _ hc.below
  have e2 := key _ _ _ hp'.below
  rw [h0 _ hc.leaf] at e1
  rw [h0 _ hp'.leaf] at e2
  have := h1 _ _ hp
  left; omega

end Lp.Spec

namespace Lp.Spec

/-- A finite check of the condition, for examples: `nd h` and `nl h` are the distance and number of the nearest leaf
of node `h`. -/
theorem NearestFirst.ofCheck {leaves : Nat} {parents : List Int} {root : Nat} (t : IsTree leaves parents root) (nd nl : Nat → Nat)
    (h0 : ∀ h, h < leaves → nd h = 0 ∧ nl h = h)
    (h1 : ∀ p, p < parents.length → leaves ≤ p → ∃ c, c < parents.length ∧ ParentIs parents c p ∧ nd p = nd c + 1 ∧ nl p = nl c)
    (h2 : ∀ c, c < parents.length → ∀ p, p < parents.length → ParentIs parents c p →
      (nd p < nd c + 1 ∨ (nd p = nd c + 1 ∧ nl p ≤ nl c)) ∧ (nd c < nd p ∨ (nd c = nd p ∧ nl c < nl p))) :
    NearestFirst leaves parents := by
  have low : ∀ d a h, h < leaves → a < parents.length → Below parents a h d → ¬ Nearer d h (nd a) (nl a) := by
    intro d
    induction d with
    | zero =>
      intro a h hh ha hb
      have := hb.zero; subst this
      have := h0 h hh
      unfold Nearer; omega
    | succ d ih =>
      intro a h hh ha hb
      obtain ⟨c, hc, hb'⟩ := hb.down
      have e1 := ih c h hh hc.lt hb'
      have e2 := (h2 c hc.lt a ha hc).1
      unfold Nearer at *; omega
  have ex : ∀ n a, nd a = n → a < parents.length → nl a < leaves ∧ Below parents a (nl a) n := by
    intro n
    induction n with
    | zero =>
      intro a hn ha
      by_cases hl : a < leaves
      · rw [(h0 a hl).2]; exact ⟨hl, .self⟩
      · obtain ⟨c, _, _, h, _⟩ := h1 a ha (by omega); omega
    | succ n ih =>
      intro a hn ha
      by_cases hl : a < leaves
      · have := (h0 a hl).1; omega
      · obtain ⟨c, hc, hp, h, h'⟩ := h1 a ha (by omega)
        obtain ⟨e1, e2⟩ := ih c (by omega) hc
        rw [h']
        exact ⟨e1, e2.child hp⟩
  have near : ∀ a, a < parents.length → NearestLeaf leaves parents a (nd a) (nl a) := by
    intro a ha
    obtain ⟨e1, e2⟩ := ex (nd a) a rfl ha
    exact ⟨e1, e2, fun d' l' hl' hb => low d' a l' hl' ha hb⟩
  intro c p d l d' l' hp hc hp'
  obtain ⟨rfl, rfl⟩ := hc.unique (near c hp.lt)
  obtain ⟨rfl, rfl⟩ := hp'.unique (near p (t.parent_lt hp))
  exact (h2 c hp.lt p (t.parent_lt hp) hp).2

end Lp.Spec

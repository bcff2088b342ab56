import Verif.Proofs.NearLeaf

/-!
# C03 — which hierarchies get right metadata

The metadata are right exactly for the trees in which the nearest leaf of every child is nearer than that of its
parent (`NearestFirst`: smaller distance, ties by leaf number).  These include all trees whose leaves have the same
depth, and some others.
-/

namespace Lp.C03
open Spec

/-- For every tree the constructor succeeds, and the metadata it computes (root, visiting path, children, number of
leaves below each node) are right if and only if the tree satisfies the condition. -/
theorem rightIff (leaves : Nat) (parents : List Int) (root : Nat) (t : IsTree leaves parents root) :
    ∃ md, mkMeta leaves parents = .ok md ∧
      ((md.root = root ∧ RightMeta leaves parents md) ↔ NearestFirst leaves parents) := by
  obtain ⟨i, st, s, trig, h1, h2, h3⟩ := pathLoop_tree t (leaves + parents.length + 1) 0
    (pathInit leaves parents.length) (fun _ => 0) (fun _ => 0) (pathInit_inv t.leavesLe _ _) (by omega)
  have hne : st.path.length - 1 < st.path.length := by
    have := (List.getElem?_eq_some_iff.mp h3).1; omega
  have hmk : mkMeta leaves parents = .ok ⟨parents.length, leaves, parents, st.children, st.size, st.path,
      st.path[st.path.length - 1]⟩ := by
    unfold mkMeta
    rw [h1]
    simp only [okBind]
    rw [vget_ok hne]
    rfl
  refine ⟨_, hmk, ?_, ?_⟩
  · rintro ⟨_, hr⟩ c p d l d' l' hp hc hp'
    obtain ⟨k, hk⟩ := List.getElem?_of_mem ((hr.pathMem c).mpr hp.lt)
    obtain ⟨k', hk'⟩ := List.getElem?_of_mem ((hr.pathMem p).mpr (t.parent_lt hp))
    exact (path_sorted t h2 hk hk' hc hp').mp (hr.pathOrder k k' c p hk hk' hp)
  · intro hc
    obtain ⟨all, order⟩ := nearestFirst_order t hc h2 h3
    obtain ⟨hlen, hr⟩ := right_of_order t h2 h3 all order
    have e : st.path[st.path.length - 1] = root := by
      have : st.path[st.path.length - 1]? = some root := by rw [← hlen, Nat.add_sub_cancel]; exact h3
      rw [List.getElem?_eq_getElem hne] at this
      exact Option.some.inj this
    rw [e]
    exact ⟨rfl, hr⟩

/-- The direction used elsewhere. -/
theorem right (leaves : Nat) (parents : List Int) (root : Nat) (t : IsTree leaves parents root)
    (hn : NearestFirst leaves parents) :
    ∃ md, mkMeta leaves parents = .ok md ∧ md.root = root ∧ RightMeta leaves parents md := by
  obtain ⟨md, h1, h2⟩ := rightIff leaves parents root t
  exact ⟨md, h1, h2.mpr hn⟩

/-- If the leaves of the tree all have the same depth, all the metadata are right. -/
theorem balanced (leaves : Nat) (parents : List Int) (root : Nat) (t : IsTree leaves parents root)
    (hb : Balanced leaves parents) :
    ∃ md, mkMeta leaves parents = .ok md ∧ md.root = root ∧ RightMeta leaves parents md :=
  right leaves parents root t (balanced_nearestFirst t hb)

/-- A balanced tree with 4 leaves, two inner nodes and a root that is not the highest node number. -/
example : IsTree 4 [4, 4, 6, 6, 5, -1, 5] 5 ∧ Balanced 4 [4, 4, 6, 6, 5, -1, 5] :=
  ⟨.ofCheck (fun h => if h < 4 then 2 else if h = 5 then 0 else 1) (by decide) (by decide) (by decide) (by decide),
   .ofCheck (fun h => if h < 4 then 0 else if h = 5 then 2 else 1) (by decide) (by decide) (by decide)⟩

/-- That tree. -/
theorem sevenTree : IsTree 4 [4, 4, 6, 6, 5, -1, 5] 5 :=
  .ofCheck (fun h => if h < 4 then 2 else if h = 5 then 0 else 1) (by decide) (by decide) (by decide) (by decide)

theorem sevenNearest : NearestFirst 4 [4, 4, 6, 6, 5, -1, 5] :=
  balanced_nearestFirst sevenTree
    (.ofCheck (fun h => if h < 4 then 0 else if h = 5 then 2 else 1) (by decide) (by decide) (by decide))

/-- The tree with root 4, leaf 2 and node 3 below the root, and leaves 0 and 1 below node 3. -/
theorem unbalancedTree : IsTree 3 [3, 3, 4, 4, -1] 4 :=
  .ofCheck (fun h => if h = 4 then 0 else if h = 3 then 1 else 2) (by decide) (by decide) (by decide) (by decide)

/-- It is not balanced but satisfies the condition, so its metadata are right. -/
theorem unbalancedRight : ¬ Balanced 3 [3, 3, 4, 4, -1] ∧ NearestFirst 3 [3, 3, 4, 4, -1] := by
  constructor
  · rintro ⟨level, h0, h1⟩
    have a := h1 0 3 (by decide)
    have b := h1 2 4 (by decide)
    have c := h1 3 4 (by decide)
    have d := h0 0 (by decide)
    have e := h0 2 (by decide)
    omega
  · exact .ofCheck unbalancedTree (fun h => if h < 3 then 0 else 1) (fun h => if h < 3 then h else if h = 3 then 0 else 2)
      (by decide) (by decide) (by decide)

/-- The same tree with the leaves numbered in another order: root 4, leaf 0 and node 3 below the root, and leaves 1
and 2 below node 3. -/
theorem wrongTree : IsTree 3 [4, 3, 3, 4, -1] 4 :=
  .ofCheck (fun h => if h = 4 then 0 else if h = 3 then 1 else 2) (by decide) (by decide) (by decide) (by decide)

/-- Its metadata are wrong: for root 4 the constructor reports root 3, a path that visits the true root before its
child, and 1 leaf below the root although there are 3. -/
theorem wrongRoot : IsTree 3 [4, 3, 3, 4, -1] 4 ∧ ¬ NearestFirst 3 [4, 3, 3, 4, -1] ∧
    (mkMeta 3 [4, 3, 3, 4, -1]).map (fun m => (m.root, m.path, m.sizeOf 4)) = .ok (3, [0, 1, 2, 4, 3], 1) := by
  refine ⟨wrongTree, ?_, by decide⟩
  intro hn
  obtain ⟨md, h1, h2, _⟩ := right _ _ _ wrongTree hn
  have h3 : (mkMeta 3 [4, 3, 3, 4, -1]).map (fun m => m.root) = .ok 3 := by decide
  rw [h1] at h3
  have : md.root = 3 := by simpa [Except.map] using h3
  omega

/-- What is read from right metadata: the parent of every node but the root (reading an element of the vector at the
parent of the root is out of bounds), and the number of leaves below each node. -/
theorem readings (leaves : Nat) (parents : List Int) (md : HMeta) (r : RightMeta leaves parents md) :
    (∀ h p, md.parentOf h = .ok p ↔ ParentIs parents h p) ∧
    (∀ h, h < parents.length → ((∃ p, md.parentOf h = .ok p) ↔ h ≠ md.root)) ∧
    ∀ h, h < parents.length → md.sizeOf h = (leavesUnder leaves parents h).card := by
  have hp : ∀ h p, md.parentOf h = .ok p ↔ ParentIs parents h p := by
    intro h p
    unfold HMeta.parentOf ParentIs
    rw [r.parentsEq]
    cases e : parents[h]? with
    | none => simp [vget, e, bind, Except.bind]
    | some z =>
      simp only [vget, e, okBind, Option.some.injEq]
      unfold toIdx
      split
      · constructor
        · intro h'; cases h'; omega
        · intro h'; subst h'; simp
      · constructor
        · intro h'; cases h'
        · intro h'; omega
  refine ⟨hp, ?_, ?_⟩
  · intro h hh
    constructor
    · rintro ⟨p, h1⟩ rfl
      have h2 := (hp _ _).mp h1
      have h3 := r.tree.rootPar
      unfold ParentIs at h2
      rw [h3] at h2
      have := Option.some.inj h2
      omega
    · intro h1
      obtain ⟨p, _, h2⟩ := r.tree.other h hh h1
      exact ⟨p, (hp _ _).mpr h2⟩
  · intro h hh
    unfold HMeta.sizeOf
    rw [r.size h hh]
    rfl

/-! ## The hypotheses are met by concrete inputs -/

example := rightIff 4 [4, 4, 6, 6, 5, -1, 5] 5 sevenTree
example := right 4 [4, 4, 6, 6, 5, -1, 5] 5 sevenTree sevenNearest
example := balanced 4 [4, 4, 6, 6, 5, -1, 5] 5 sevenTree
  (.ofCheck (fun h => if h < 4 then 0 else if h = 5 then 2 else 1) (by decide) (by decide) (by decide))
example : ∃ md, mkMeta 4 [4, 4, 6, 6, 5, -1, 5] = .ok md ∧ md.parentOf 6 = .ok 5 ∧ md.sizeOf 6 = 2 := by
  obtain ⟨md, h1, _, r⟩ := right 4 [4, 4, 6, 6, 5, -1, 5] 5 sevenTree sevenNearest
  refine ⟨md, h1, ((readings _ _ md r).1 6 5).mpr rfl, ?_⟩
  have h2 : (mkMeta 4 [4, 4, 6, 6, 5, -1, 5]).map (fun m => m.sizeOf 6) = .ok 2 := by decide
  rw [h1] at h2
  simpa [Except.map] using h2

end Lp.C03

import Verif.Proofs.Hierarchy
import Verif.Props.C51
import Verif.Props.C53

/-!
# C54 — from the containers of a trace to the hierarchy

`pjdump2micro(trace, n, "State", TRUE)` also builds the vector of parents that `haggregate` and `daggregate` take.  What right
containers and a right vector are is in `Spec/Resources.lean`.
-/

namespace Lp.C54
open Spec
variable {S Y K : Type} [LinearOrder S] [LinearOrder Y] [Field K] [LinearOrder K] [IsStrictOrderedRing K]

/-- The names are the resources with data and without children, in increasing order, then the containers with children, in decreasing order;
the vector gives the place of the parent of each of them, and the cells of the array are the shares of time. -/
theorem hierarchy (trace : List (TState S Y K)) (first total : K) (ht : RightTrace trace first total) (resources : List (Container S))
    (root : S) (hr : RightResources resources root) (hknown : ∀ r ∈ trace, ∃ c ∈ resources, c.resource = r.resource) (n : Nat) :
    ∃ m parents f, pjdump2micro trace resources n true = .ok m ∧ m.names = m.space ++ parents ∧
      m.space.Pairwise (· < ·) ∧ (∀ s, s ∈ m.space ↔ (∃ r ∈ trace, r.resource = s ∧ ∃ k, Touches first total n r k) ∧
        ∀ c ∈ resources, c.parent ≠ s) ∧
      parents.Pairwise (· > ·) ∧ (∀ s, s ∈ parents ↔ ∃ c ∈ resources, c.parent = s) ∧
      RightHierarchy resources root m.names m.hierarchy ∧
      m.type.Pairwise (· < ·) ∧ (∀ y, y ∈ m.type ↔ ∃ r ∈ trace, r.value = y ∧ ∃ k, Touches first total n r k) ∧
      (∃ last, m.time = (List.range last).map (· + 1) ∧ last ≤ n ∧ (∀ r ∈ trace, ∀ k, Touches first total n r k → k < last) ∧
        (last = 0 ∨ ∃ r ∈ trace, Touches first total n r (last - 1))) ∧
      m.data = rArray m.space.length m.type.length m.time.length f ∧
      ∀ (i j k : Nat) (s : S) (y : Y), m.space[i]? = some s → m.type[j]? = some y → k < m.time.length →
        f (i, j, k) = timeIn trace first total n s y k / total := by
  obtain ⟨last, space, type, f, h1, h2, h3, h4, h5, h6, h7, h8, h9⟩ := pjdump2micro_spec (n := n) ht resources true
  have hps : ((rSortUnique (resources.map (fun c => c.parent))).reverse).Pairwise (· > ·) := by
    rw [List.pairwise_reverse]
    exact rSortUnique_sorted _
  have hpm : ∀ s, s ∈ (rSortUnique (resources.map (fun c => c.parent))).reverse ↔ ∃ c ∈ resources, c.parent = s := by
    intro s
    rw [List.mem_reverse, mem_rSortUnique, List.mem_map]
  generalize (rSortUnique (resources.map (fun c => c.parent))).reverse = parents at h9 hps hpm
  have hsm : ∀ s, s ∈ space ↔ (∃ r ∈ trace, r.resource = s ∧ ∃ k, Touches first total n r k) ∧ ∀ c ∈ resources, c.parent ≠ s :=
    fun s => (h6 s).trans ⟨fun h => ⟨h.1, h.2 rfl⟩, fun h => ⟨h.1, fun _ => h.2⟩⟩
  obtain ⟨h, e, hh⟩ := hierarchyOf_right hr (space := space) (parents := parents) (by
      rw [List.nodup_append']
      refine ⟨h4.imp (fun h => ne_of_lt h), hps.imp (fun h => ne_of_gt h), ?_⟩
      intro s hs hp
      obtain ⟨c, hc, e⟩ := (hpm s).mp hp
      exact ((hsm s).mp hs).2 c hc e) (by
      intro s hs
      obtain ⟨r, hr, rfl, _⟩ := ((hsm s).mp hs).1
      exact hknown r hr) hpm
  simp only [if_true] at h9
  rw [e] at h9
  exact ⟨_, parents, f, h9, rfl, h4, hsm, hps, hpm, hh, h5, h7, ⟨last, rfl, h1, h2, h3⟩, by simp, fun i j k s y hi hj hk =>
    h8 i j k s y hi hj (by simpa using hk)⟩

/-- A name that is not a container makes the function fail. -/
theorem unknown (trace : List (TState S Y K)) (first total : K) (ht : RightTrace trace first total) (resources : List (Container S))
    (n : Nat) (s : S) (hs : ((∃ r ∈ trace, r.resource = s ∧ ∃ k, Touches first total n r k) ∨ ∃ c ∈ resources, c.parent = s))
    (hno : ∀ c ∈ resources, c.resource ≠ s) : ∃ e, pjdump2micro trace resources n true = .error e := by
  obtain ⟨last, space, type, f, h1, h2, h3, h4, h5, h6, h7, h8, h9⟩ := pjdump2micro_spec (n := n) ht resources true
  obtain ⟨e, he⟩ := hierarchyOf_unknown (resources := resources) (space := space)
    (parents := (rSortUnique (resources.map (fun c => c.parent))).reverse) (x := s) (by
      rw [List.mem_append, List.mem_reverse, mem_rSortUnique, List.mem_map]
      by_cases hp : ∃ c ∈ resources, c.parent = s
      · exact .inr hp
      · left
        rw [h6]
        refine ⟨hs.resolve_right hp, ?_⟩
        intro _ c hc e
        exact hp ⟨c, hc, e⟩) hno
  simp only [if_true] at h9
  rw [he] at h9
  exact ⟨e, h9⟩

/-- What `pjdump2micro` returns for a right input describes a tree: its leaves are the spaces of the array, a node is below another one
in the vector exactly if the container is a descendant of the other one, and the root is the last node if its name is the least
among the containers with children. -/
theorem tree (trace : List (TState S Y K)) (first total : K) (n : Nat) (resources : List (Container S)) (root : S)
    (hi : RightInput trace first total n resources root) (m : Micro S Y K) (hm : pjdump2micro trace resources n true = .ok m) :
    (∃ ρ, m.names[ρ]? = some root ∧ IsTree m.space.length (m.hierarchy.map (· - 1)) ρ ∧
      ((∀ c ∈ resources, root ≤ c.parent) → ρ = m.hierarchy.length - 1)) ∧
    (∀ (i : Nat) (s : S), m.space[i]? = some s → m.names[i]? = some s) ∧
    (∀ s, s ∈ m.space ↔ (∃ c ∈ resources, c.resource = s) ∧ ∀ c ∈ resources, c.parent ≠ s) ∧
    ∀ (i j : Nat) (a s : S), m.names[i]? = some a → m.names[j]? = some s →
      (Under (m.hierarchy.map (· - 1)) i j ↔ Descends resources root a s) := by
  obtain ⟨m', parents, f, h1, h2, h3, h4, h5, h6, h7, _⟩ := hierarchy trace first total hi.rightTrace resources root hi.rightResources hi.known n
  obtain rfl := Except.ok.inj (hm.symm.trans h1)
  have hnd : (m.space ++ parents).Nodup := by
    rw [List.nodup_append']
    refine ⟨h3.imp (fun h => ne_of_lt h), h5.imp (fun h => ne_of_gt h), ?_⟩
    intro s hs hp
    obtain ⟨c, hc, e⟩ := (h6 s).mp hp
    exact ((h4 s).mp hs).2 c hc e
  have hsp : ∀ s ∈ m.space, ∃ c ∈ resources, c.resource = s := by
    intro s hs
    obtain ⟨r, hr, rfl, _⟩ := ((h4 s).mp hs).1
    exact hi.known r hr
  have hdata : ∀ c ∈ resources, c.resource ∈ m.space ∨ c.resource ∈ parents := by
    intro c hc
    by_cases hp : ∃ c' ∈ resources, c'.parent = c.resource
    · exact .inr ((h6 _).mpr hp)
    · left
      have hp' : ∀ c' ∈ resources, c'.parent ≠ c.resource := fun c' hc' e => hp ⟨c', hc', e⟩
      exact (h4 _).mpr ⟨hi.data c hc hp', hp'⟩
  have hrp : root ∈ parents := by
    obtain ⟨rest, e⟩ := hi.rightResources.head
    exact (h6 _).mpr ⟨⟨root, root⟩, by rw [e]; simp, rfl⟩
  rw [h2] at h7 ⊢
  obtain ⟨ρ, hρ⟩ := List.mem_iff_getElem?.mp (List.mem_append.mpr (.inr hrp) : root ∈ m.space ++ parents)
  refine ⟨⟨ρ, hρ, hierarchy_tree hi.rightResources hnd hsp h6 h7 hdata hi.several hρ, ?_⟩, ?_, ?_, ?_⟩
  · intro hleast
    rw [h7.length]
    have hne : parents ≠ [] := List.ne_nil_of_mem hrp
    have hlast : parents.getLast hne = root := by
      apply le_antisymm
      · by_contra hc
        obtain ⟨i, hil, e⟩ := List.mem_iff_getElem.mp hrp
        have hlen := List.length_pos_iff.mpr hne
        rw [List.getLast_eq_getElem] at hc
        have : i ≠ parents.length - 1 := by
          intro h
          subst h
          rw [e] at hc
          exact hc le_rfl
        have := List.pairwise_iff_getElem.mp h5 i (parents.length - 1) hil (by omega) (by omega)
        rw [e] at this
        exact hc this.le
      · obtain ⟨c, hc, e⟩ := (h6 _).mp (List.getLast_mem hne)
        rw [← e]
        exact hleast c hc
    have hl : (m.space ++ parents)[(m.space ++ parents).length - 1]? = some root := by
      have hlen := List.length_pos_iff.mpr hne
      rw [List.getElem?_append_right (by simp; omega)]
      rw [show (m.space ++ parents).length - 1 - m.space.length = parents.length - 1 by simp; omega]
      rw [List.getLast_eq_getElem] at hlast
      rw [List.getElem?_eq_getElem (by omega), hlast]
    have := (idxOf?_get hnd hρ).symm.trans (idxOf?_get hnd hl)
    simpa using this
  · intro i s hs
    rw [List.getElem?_append_left (List.getElem?_eq_some_iff.mp hs).1]
    exact hs
  · intro s
    constructor
    · intro hs
      exact ⟨hsp s hs, ((h4 s).mp hs).2⟩
    · rintro ⟨⟨c, hc, rfl⟩, hp⟩
      exact (h4 _).mpr ⟨hi.data c hc hp, hp⟩
  · intro i j a s hi' hj
    apply h7.under hnd ?_ ?_ hi' hj
    · intro x hx
      rcases List.mem_append.mp hx with h | h
      · exact hsp x h
      · obtain ⟨c, hc, rfl⟩ := (h6 x).mp h
        exact hi.rightResources.closed c hc
    · exact fun c hc => List.mem_append.mpr (.inr ((h6 _).mpr ⟨c, hc, rfl⟩))

/-- If the containers without children all have the same depth, the tree is one that the library reads correctly. -/
theorem readable (trace : List (TState S Y K)) (first total : K) (n : Nat) (resources : List (Container S)) (root : S)
    (hi : RightInput trace first total n resources root) (hd : SameDepth resources root) (m : Micro S Y K)
    (hm : pjdump2micro trace resources n true = .ok m) : NearestFirst m.space.length (m.hierarchy.map (· - 1)) := by
  obtain ⟨⟨ρ, _, ht, _⟩, _⟩ := tree trace first total n resources root hi m hm
  apply balanced_nearestFirst ht
  obtain ⟨m', parents, f, h1, h2, h3, h4, h5, h6, h7, _⟩ := hierarchy trace first total hi.rightTrace resources root hi.rightResources hi.known n
  obtain rfl := Except.ok.inj (hm.symm.trans h1)
  rw [h2] at h7
  apply hierarchy_balanced hd ?_ ?_ hi.rightResources.closed h6 h7
  · rw [List.nodup_append']
    refine ⟨h3.imp (fun h => ne_of_lt h), h5.imp (fun h => ne_of_gt h), ?_⟩
    intro s hs hp
    obtain ⟨c, hc, e⟩ := (h6 s).mp hp
    exact ((h4 s).mp hs).2 c hc e
  · intro s hs
    obtain ⟨r, hr, rfl, _⟩ := ((h4 s).mp hs).1
    exact hi.known r hr

section
variable {F : Type} [FloatP F ℝ] {u : ℝ}

/-- What the composition with the aggregation needs. -/
theorem input_aux {trace : List (TState S Y ℝ)} {first total : ℝ} {n : Nat} {resources : List (Container S)} {root : S}
    (hi : RightInput trace first total n resources root) (hd : SameDepth resources root) (hleast : ∀ c ∈ resources, root ≤ c.parent)
    {m : Micro S Y ℝ} (hm : pjdump2micro trace resources n true = .ok m) {share : Nat → Nat → Nat → ℝ}
    (hshare : ∀ (i j k : Nat) (s : S) (y : Y), m.space[i]? = some s → m.type[j]? = some y → k < m.time.length →
      share i j k = timeIn trace first total n s y k / total) :
    IsTree m.space.length (m.hierarchy.map (· - 1)) ((m.hierarchy.map (· - 1)).length - 1) ∧
      NearestFirst m.space.length (m.hierarchy.map (· - 1)) ∧ m.space.length < m.hierarchy.length ∧ m.time.length ≤ n ∧
      m.hierarchy.length = m.names.length ∧ m.names.Nodup ∧ m.type.Nodup ∧
      (∀ i, i < m.space.length → m.names[i]? = m.space[i]?) ∧
      m.data = rArray m.space.length m.type.length m.time.length (fun x => share x.1 x.2.1 x.2.2) ∧
      ∀ i j k, i < m.space.length → j < m.type.length → k < m.time.length → 0 ≤ share i j k := by
  obtain ⟨⟨ρ, hρ, ht, hl⟩, _⟩ := tree trace first total n resources root hi m hm
  have hn := readable trace first total n resources root hi hd m hm
  obtain ⟨m', parents, f, h1, h2, h3, h4, h5, h6, h7, h8, h8', ⟨last, h9, h10, _⟩, h11, h12⟩ :=
    hierarchy trace first total hi.rightTrace resources root hi.rightResources hi.known n
  obtain rfl := Except.ok.inj (hm.symm.trans h1)
  refine ⟨by rw [List.length_map, ← hl hleast]; exact ht, hn, ?_, ?_, h7.length, ?_, h8.imp (fun h => ne_of_lt h), ?_, ?_, ?_⟩
  · rw [h7.length, h2, List.length_append]
    obtain ⟨rest, e⟩ := hi.rightResources.head
    have := List.length_pos_of_mem ((h6 root).mpr ⟨⟨root, root⟩, by rw [e]; simp, rfl⟩)
    omega
  · rw [h9]; simpa using h10
  · rw [h2, List.nodup_append']
    refine ⟨h3.imp (fun h => ne_of_lt h), h5.imp (fun h => ne_of_gt h), ?_⟩
    intro s hs hp
    obtain ⟨c, hc, e⟩ := (h6 s).mp hp
    exact ((h4 s).mp hs).2 c hc e
  · intro i hi
    rw [h2, List.getElem?_append_left hi]
  · rw [h11]
    apply rArray_congr
    intro i j k hi hj hk
    dsimp only
    rw [hshare i j k _ _ (List.getElem?_eq_getElem hi) (List.getElem?_eq_getElem hj) hk,
      h12 i j k _ _ (List.getElem?_eq_getElem hi) (List.getElem?_eq_getElem hj) hk]
  · intro i j k hi' hj hk
    rw [hshare i j k _ _ (List.getElem?_eq_getElem hi') (List.getElem?_eq_getElem hj) hk]
    exact div_nonneg (timeIn_nonneg _ _ _) hi.rightTrace.pos.le

theorem getD_aux {α : Type} {l : List α} {i : Nat} (h : i < l.length) {d : α} : l.getD i d = l[i] := by
  simp [h]

theorem gain3_pos_aux {ι : Type} {a b : Nat} {v : Nat → Nat → ι → ℝ} {s : Finset ι} (h : gain3 a b v s ≠ 0) :
    0 < a ∧ 0 < b ∧ s.Nonempty := by
  refine ⟨Nat.pos_of_ne_zero ?_, Nat.pos_of_ne_zero ?_, ?_⟩
  · rintro rfl; exact h (by unfold gain3; simp)
  · rintro rfl; exact h (by unfold gain3; simp)
  · rw [Finset.nonempty_iff_ne_empty]
    rintro rfl
    exact h (by unfold gain3 gainOver xlog2; simp)

/-- From the trace and its containers to the hierarchical partitions: `haggregate` applied to what `pjdump2micro` returns gives a
right result about the shares of time. -/
theorem aggregated (fl : FloatLaws F ℝ u) (randMax : ℝ) (hr : 2 ≤ randMax) (t : F) (ht : (0 : ℝ) < FloatP.toK t)
    (hu : 11 * u ≤ FloatP.toK t) :
    ∃ N : Nat, ∀ (trace : List (TState S Y ℝ)) (first total : ℝ) (n : Nat) (resources : List (Container S)) (root : S)
      (m : Micro S Y ℝ) (share : Nat → Nat → Nat → ℝ),
      RightInput trace first total n resources root → SameDepth resources root → (∀ c ∈ resources, root ≤ c.parent) →
      pjdump2micro trace resources n true = .ok m →
      (∀ (i j k : Nat) (s : S) (y : Y), m.space[i]? = some s → m.type[j]? = some y → k < m.time.length →
        share i j k = timeIn trace first total n s y k / total) →
      let parents := m.hierarchy.map (· - 1)
      let gain := gain3 m.type.length m.time.length (fun j k l => share l j k)
      let loss := loss3 m.type.length m.time.length (fun j k l => share l j k)
      let all := Finset.range m.space.length
      m.type.length * m.time.length < 2 ^ 32 → gain all ≠ 0 → loss all ≠ 0 →
      let quality := relative gain loss all (leavesUnder m.space.length parents)
      ∀ fuel, N ≤ fuel → ∃ r, haggregate false fuel randMax id m.data m.hierarchy t = .ok r ∧
        RightSheet HRow.parameter (LeafCover m.space.length parents) (LeafCover m.space.length parents) quality
          (fun p x => ⟨p, x + 1, (leavesUnder m.space.length parents x).card, (quality x).gain, (quality x).loss⟩) r := by
  obtain ⟨N, hN⟩ := C49.hierarchical fl randMax hr t ht hu
  refine ⟨N, ?_⟩
  intro trace first total n resources root m share hi hd hleast hm hshare parents gain loss all hF hg hl quality fuel hf
  obtain ⟨a1, a2, a3, _, _, _, _, _, a8, a9⟩ := input_aux hi hd hleast hm hshare
  obtain ⟨b1, _, b3⟩ := gain3_pos_aux hg
  have b3 : 0 < m.space.length := by simpa [all, List.length_pos_iff] using b3
  rw [a8]
  exact hN m.space.length m.type.length m.time.length (fun x => share x.1 x.2.1 x.2.2) m.hierarchy b3 b1 hF a1 a2
    (by rw [List.length_map]; exact a3) (fun i j k h1 h2 h3 => a9 i j k h1 h2 h3) hg hl fuel hf

/-- The same for `daggregate`, with time. -/
theorem aggregatedTime (fl : FloatLaws F ℝ u) (randMax : ℝ) (hr : 2 ≤ randMax) (t : F) (ht : (0 : ℝ) < FloatP.toK t)
    (hu : 11 * u ≤ FloatP.toK t) :
    ∃ N : Nat, ∀ (trace : List (TState S Y ℝ)) (first total : ℝ) (n : Nat) (resources : List (Container S)) (root : S)
      (m : Micro S Y ℝ) (share : Nat → Nat → Nat → ℝ),
      RightInput trace first total n resources root → SameDepth resources root → (∀ c ∈ resources, root ≤ c.parent) →
      pjdump2micro trace resources n true = .ok m → n ≤ 65535 → m.space.length * m.time.length < 2147483648 →
      (∀ (i j k : Nat) (s : S) (y : Y), m.space[i]? = some s → m.type[j]? = some y → k < m.time.length →
        share i j k = timeIn trace first total n s y k / total) →
      let parents := m.hierarchy.map (· - 1)
      let gain := gain3 m.type.length 1 (fun j _ (c : Nat × Nat) => share c.1 j c.2)
      let loss := loss3 m.type.length 1 (fun j _ (c : Nat × Nat) => share c.1 j c.2)
      let all := Finset.range m.space.length ×ˢ Finset.Icc 0 (m.time.length - 1)
      m.time ≠ [] → gain all ≠ 0 → loss all ≠ 0 →
      let quality := relative gain loss all (fun r : Rect => leavesUnder m.space.length parents r.node ×ˢ Finset.Icc r.first r.last)
      ∀ fuel, N ≤ fuel → ∃ r, daggregate false fuel randMax id m.data m.hierarchy t = .ok r ∧
        RightSheet DRow.parameter (fun L => CellCover m.space.length parents m.time.length L ∧ CoarseFirst parents L)
          (fun L => CellCover m.space.length parents m.time.length L ∧ CoarseFirst parents L) quality
          (fun p x => ⟨p, x.node + 1, (leavesUnder m.space.length parents x.node).card * (x.last - x.first + 1), x.first + 1, x.last + 1,
            (quality x).gain, (quality x).loss⟩) r := by
  obtain ⟨N, hN⟩ := C49.spatiotemporal fl randMax hr t ht hu
  refine ⟨N, ?_⟩
  intro trace first total n resources root m share hi hd hleast hm hn hb hshare parents gain loss all htime hg hl quality fuel hf
  obtain ⟨a1, a2, a3, a4, _, _, _, _, a8, a9⟩ := input_aux hi hd hleast hm hshare
  obtain ⟨b1, _, b3⟩ := gain3_pos_aux hg
  have b3 : 0 < m.space.length := by
    obtain ⟨x, hx⟩ := b3
    have := (Finset.mem_product.mp hx).1
    rw [Finset.mem_range] at this
    omega
  rw [a8]
  exact hN m.space.length m.type.length m.time.length (fun x => share x.1 x.2.1 x.2.2) m.hierarchy b3 b1
    (List.length_pos_iff.mpr htime) (by omega) hb a1 a2
    (by rw [List.length_map]; exact a3) (fun i j k h1 h2 h3 => a9 i j k h1 h2 h3) hg hl fuel hf

/-- From the trace and its containers to the macroscopic description of `hmacro`: for each parameter of `haggregate` a partition with the
gain and loss in `Qualities`, optimal for the parameter, and for each of its nodes, value and slice the sum of the shares of the
spaces below the node. -/
theorem described (fl : FloatLaws F ℝ u) (randMax : ℝ) (hr : 2 ≤ randMax) (t : F) (ht : (0 : ℝ) < FloatP.toK t)
    (hu : 11 * u ≤ FloatP.toK t) :
    ∃ N : Nat, ∀ (trace : List (TState S Y ℝ)) (first total : ℝ) (n : Nat) (resources : List (Container S)) (root : S)
      (m : Micro S Y ℝ) (share : Nat → Nat → Nat → ℝ),
      RightInput trace first total n resources root → SameDepth resources root → (∀ c ∈ resources, root ≤ c.parent) →
      pjdump2micro trace resources n true = .ok m →
      (∀ (i j k : Nat) (s : S) (y : Y), m.space[i]? = some s → m.type[j]? = some y → k < m.time.length →
        share i j k = timeIn trace first total n s y k / total) →
      let parents := m.hierarchy.map (· - 1)
      let gain := gain3 m.type.length m.time.length (fun j k l => share l j k)
      let loss := loss3 m.type.length m.time.length (fun j k l => share l j k)
      let all := Finset.range m.space.length
      m.type.length * m.time.length < 2 ^ 32 → gain all ≠ 0 → loss all ≠ 0 →
      let quality := relative gain loss all (leavesUnder m.space.length parents)
      ∀ fuel, N ≤ fuel → ∃ r, haggregate false fuel randMax id m.data m.hierarchy t = .ok r ∧
        ∀ e ∈ r.qualities, ∃ L out, LeafCover m.space.length parents L ∧ e.gain = gainOf quality L ∧ e.loss = lossOf quality L ∧
          (∀ L', LeafCover m.space.length parents L' →
            valueOf (FloatP.toK e.parameter) (FloatP.toK (FloatP.oneSub e.parameter)) quality L' ≤
              valueOf (FloatP.toK e.parameter) (FloatP.toK (FloatP.oneSub e.parameter)) quality L) ∧
          hmacro m.names m.hierarchy
            ((rowsAt HRow.parameter e.parameter r.partitions).map (fun x => (x.node, x.size)))
            (melt m.space m.type m.time.length (fun x => share x.1 x.2.1 x.2.2)) = .ok out ∧
          (out.map (fun r => (r.space, r.type, r.time))).Nodup ∧
          ∀ (x j k : Nat) (a : S) (y : Y), x ∈ L → m.names[x]? = some a → m.type[j]? = some y → k < m.time.length →
            ∃ r ∈ out, r.space = a ∧ r.type = y ∧ r.time = k + 1 ∧
              r.value = ∑ l ∈ leavesUnder m.space.length parents x, share l j k := by
  obtain ⟨N, hN⟩ := C51.result (S := S) (Y := Y) fl randMax hr t ht hu
  refine ⟨N, ?_⟩
  intro trace first total n resources root m share hi hd hleast hm hshare parents gain loss all hF hg hl quality fuel hf
  obtain ⟨a1, a2, a3, a4, a5, a6, a7, a7', a8, a9⟩ := input_aux hi hd hleast hm hshare
  obtain ⟨b1, b2, b3⟩ := gain3_pos_aux hg
  have b3 : 0 < m.space.length := by simpa [all, List.length_pos_iff] using b3
  have hlen0 : 0 < m.names.length := by omega
  have hn : (List.range m.hierarchy.length).map (fun i => m.names.getD i (m.names[0])) = m.names := by
    apply List.ext_getElem
    · simp [a5]
    · intro i h1 h2
      simp [h2]
  have hs : (List.range m.space.length).map (fun i => m.names.getD i (m.names[0])) = m.space := by
    apply List.ext_getElem
    · simp
    · intro i h1 h2
      have := a7' i h2
      rw [List.getElem?_eq_getElem h2] at this
      simp [this]
  have hy : (List.range m.type.length).map (fun i => m.type.getD i (m.type[0])) = m.type := by
    apply List.ext_getElem
    · simp
    · intro i h1 h2
      simp [h2]
  obtain ⟨r, r1, r2⟩ := hN m.space.length m.type.length m.time.length (fun x => share x.1 x.2.1 x.2.2) m.hierarchy
    (fun i => m.names.getD i (m.names[0])) (fun i => m.type.getD i (m.type[0])) b3 b1 b2 hF a1 a2 a3 (by
      intro x y hx hy e
      rw [a5] at hx hy
      rw [getD_aux hx, getD_aux hy] at e
      exact (List.Nodup.getElem_inj_iff a6).mp e) (by
      intro x y hx hy e
      rw [getD_aux hx, getD_aux hy] at e
      exact (List.Nodup.getElem_inj_iff a7).mp e) (fun i j k h1 h2 h3 => a9 i j k h1 h2 h3) hg hl fuel hf
  rw [a8]
  refine ⟨r, r1, ?_⟩
  intro e he
  obtain ⟨L, out, c1, c2, c3, c4, c5, c6, c7⟩ := r2 e he
  rw [hn, hs, hy] at c5
  refine ⟨L, out, c1, c2, c3, c4, c5, c6, ?_⟩
  intro x j k a y hx hxa hjy hk
  obtain ⟨hx1, hx2⟩ := List.getElem?_eq_some_iff.mp hxa
  obtain ⟨hj1, hj2⟩ := List.getElem?_eq_some_iff.mp hjy
  obtain ⟨s, hs⟩ : ∃ s, (x = (m.hierarchy.map (· - 1)).length - 1 ∧ s = m.names.getD ((m.hierarchy.map (· - 1)).length - 1) (m.names[0]) ∨
      ∃ p : Nat, m.hierarchy[x]? = some ((p : Int) + 1) ∧ s = m.names.getD p (m.names[0])) := by
    by_cases hxr : x = (m.hierarchy.map (· - 1)).length - 1
    · exact ⟨_, .inl ⟨hxr, rfl⟩⟩
    · obtain ⟨p, _, hp⟩ := a1.other x (by rw [List.length_map, a5]; exact hx1) hxr
      unfold ParentIs at hp
      rw [List.getElem?_map] at hp
      have hxl : x < m.hierarchy.length := by omega
      rw [List.getElem?_eq_getElem hxl] at hp ⊢
      simp only [Option.map_some, Option.some.injEq] at hp
      exact ⟨_, .inr ⟨p, by rw [Option.some.injEq]; omega, rfl⟩⟩
  refine ⟨_, (c7 _).mpr ⟨x, j, k, s, hx, hj1, hk, hs, rfl⟩, ?_, ?_, rfl, rfl⟩
  · dsimp only; rw [getD_aux hx1, hx2]
  · dsimp only; rw [getD_aux hj1, hj2]

end

/-! ## Concrete cases -/

/-- The root 0, two machines 1 and 2, and four cores 3, 4, 5, 6. -/
def containers7 : List (Container Nat) := [⟨0, 0⟩, ⟨0, 1⟩, ⟨0, 2⟩, ⟨1, 3⟩, ⟨1, 4⟩, ⟨2, 5⟩, ⟨2, 6⟩]

/-- Core `c` works from 0 to `c - 2`. -/
def trace4 (K : Type) [Field K] : List (TState Nat Nat K) := [⟨3, 0, 1, 1, 9⟩, ⟨4, 0, 2, 2, 9⟩, ⟨5, 0, 3, 3, 9⟩, ⟨6, 0, 4, 4, 9⟩]

theorem containers7_right_aux : RightResources containers7 0 := by
  have d0 : Descends containers7 0 0 0 := .self
  have d1 : Descends containers7 0 0 1 := .step (c := ⟨0, 1⟩) (by decide) (by decide) d0
  have d2 : Descends containers7 0 0 2 := .step (c := ⟨0, 2⟩) (by decide) (by decide) d0
  refine ⟨⟨_, rfl⟩, by decide, by decide, ?_⟩
  intro c hc
  simp only [containers7, List.mem_cons, List.not_mem_nil, or_false] at hc
  rcases hc with rfl | rfl | rfl | rfl | rfl | rfl | rfl
  · exact d0
  · exact d1
  · exact d2
  · exact .step (c := ⟨1, 3⟩) (by decide) (by decide) d1
  · exact .step (c := ⟨1, 4⟩) (by decide) (by decide) d1
  · exact .step (c := ⟨2, 5⟩) (by decide) (by decide) d2
  · exact .step (c := ⟨2, 6⟩) (by decide) (by decide) d2

theorem depth_aux : SameDepth containers7 0 :=
  ⟨fun s => if s = 0 then 2 else if s ≤ 2 then 1 else 0, by decide, by decide⟩

theorem input7_aux : RightInput (trace4 ℝ) 0 4 1 containers7 0 := by
  have ht : ∀ r ∈ trace4 ℝ, Touches (0 : ℝ) 4 1 r 0 := by
    intro r hr
    simp only [trace4, List.mem_cons, List.not_mem_nil, or_false] at hr
    rcases hr with rfl | rfl | rfl | rfl <;> (unfold Touches sliceAt; norm_num)
  refine ⟨?_, containers7_right_aux, ?_, ?_, by decide⟩
  · constructor <;> norm_num [trace4]
  · simp [trace4, containers7]
  · intro c hc hno
    have : ∃ r ∈ trace4 ℝ, r.resource = c.resource := by
      simp only [containers7, List.mem_cons, List.not_mem_nil, or_false] at hc
      rcases hc with rfl | rfl | rfl | rfl | rfl | rfl | rfl
      · exact absurd rfl (hno ⟨0, 0⟩ (by decide))
      · exact absurd rfl (hno ⟨1, 3⟩ (by decide))
      · exact absurd rfl (hno ⟨2, 5⟩ (by decide))
      all_goals simp [trace4]
    obtain ⟨r, hr, e⟩ := this
    exact ⟨r, hr, e, 0, ht r hr⟩

/-- The names and the hierarchy. -/
example : (pjdump2micro (trace4 ℚ) containers7 1 true).map (fun m => (m.space, m.names, m.hierarchy, m.data.mem)) =
    .ok ([3, 4, 5, 6], [3, 4, 5, 6, 2, 1, 0], [6, 6, 5, 5, 7, 7, 0], [1 / 4, 1 / 2, 3 / 4, 1]) := by
  decide +kernel

/-- The hypotheses of `hierarchy`, `tree` and `readable` hold of it. -/
example : ∃ m, pjdump2micro (trace4 ℝ) containers7 1 true = .ok m ∧ NearestFirst m.space.length (m.hierarchy.map (· - 1)) ∧
    IsTree m.space.length (m.hierarchy.map (· - 1)) (m.hierarchy.length - 1) := by
  obtain ⟨m, _, _, hm, _⟩ := hierarchy (trace4 ℝ) 0 4 input7_aux.rightTrace containers7 0 containers7_right_aux input7_aux.known 1
  obtain ⟨⟨ρ, _, h1, h2⟩, _⟩ := tree _ _ _ _ _ _ input7_aux m hm
  refine ⟨m, hm, readable _ _ _ _ _ _ input7_aux depth_aux m hm, ?_⟩
  rw [← h2 (by decide)]
  exact h1

/-- A state of a resource that is no container: the function fails. -/
example : ∃ e, pjdump2micro (trace4 ℝ) (containers7.dropLast) 1 true = .error e := by
  apply unknown (trace4 ℝ) 0 4 input7_aux.rightTrace containers7.dropLast 1 6 (.inl ⟨⟨6, 0, 4, 4, 9⟩, by simp [trace4], rfl, 0, ?_⟩)
    (by decide)
  unfold Touches sliceAt
  norm_num

/-- All the way to the description by `hmacro`. -/
example : ∃ fuel m r, pjdump2micro (trace4 ℝ) containers7 1 true = .ok m ∧
    haggregate (F := ℝ) false fuel 2147483647 id m.data m.hierarchy (1 / 100) = .ok r := by
  obtain ⟨N, h⟩ := described (S := Nat) (Y := Nat) (exactLaws ℝ) 2147483647 (by norm_num) (1 / 100 : ℝ) (by simp) (by simp)
  obtain ⟨m, parents, f, hm, h2, h3, h4, h5, h6, h7, h8, h9, ⟨last, h10, h11, h12, _⟩, h13, h14⟩ :=
    hierarchy (trace4 ℝ) 0 4 input7_aux.rightTrace containers7 0 containers7_right_aux input7_aux.known 1
  have ht : ∀ r ∈ trace4 ℝ, Touches (0 : ℝ) 4 1 r 0 := by
    intro r hr
    simp only [trace4, List.mem_cons, List.not_mem_nil, or_false] at hr
    rcases hr with rfl | rfl | rfl | rfl <;> (unfold Touches sliceAt; norm_num)
  have hspace : m.space = [3, 4, 5, 6] := by
    apply sorted_ext h3 (by simp)
    intro s
    rw [h4]
    constructor
    · rintro ⟨⟨r, hr, rfl, _⟩, _⟩
      simp only [trace4, List.mem_cons, List.not_mem_nil, or_false] at hr
      rcases hr with rfl | rfl | rfl | rfl <;> simp
    · intro hs
      simp only [List.mem_cons, List.not_mem_nil, or_false] at hs
      rcases hs with rfl | rfl | rfl | rfl
      · exact ⟨⟨⟨3, 0, 1, 1, 9⟩, by simp [trace4], rfl, 0, ht _ (by simp [trace4])⟩, by decide⟩
      · exact ⟨⟨⟨4, 0, 2, 2, 9⟩, by simp [trace4], rfl, 0, ht _ (by simp [trace4])⟩, by decide⟩
      · exact ⟨⟨⟨5, 0, 3, 3, 9⟩, by simp [trace4], rfl, 0, ht _ (by simp [trace4])⟩, by decide⟩
      · exact ⟨⟨⟨6, 0, 4, 4, 9⟩, by simp [trace4], rfl, 0, ht _ (by simp [trace4])⟩, by decide⟩
  have htype : m.type = [9] := by
    apply sorted_ext h8 (by simp)
    intro y
    rw [h9]
    constructor
    · rintro ⟨r, hr, rfl, _⟩
      simp only [trace4, List.mem_cons, List.not_mem_nil, or_false] at hr
      rcases hr with rfl | rfl | rfl | rfl <;> simp
    · intro hs
      obtain rfl := List.mem_singleton.mp hs
      exact ⟨⟨3, 0, 1, 1, 9⟩, by simp [trace4], rfl, 0, ht _ (by simp [trace4])⟩
  have htime : m.time.length = 1 := by
    have := h12 ⟨3, 0, 1, 1, 9⟩ (by simp [trace4]) 0 (ht _ (by simp [trace4]))
    rw [h10, List.length_map, List.length_range]
    omega
  obtain ⟨n1, n2⟩ := C49.nz_aux (f := fun l : Nat => ((l + 1 : ℝ)) / 4) (s := Finset.range 4)
    (fun x _ => by positivity) (a := 0) (b := 2) (c := 0) (d := 1) (by simp) (by simp) (by norm_num) (by norm_num) (by norm_num)
    (by simp) (by simp) (by norm_num)
  obtain ⟨r, e, _⟩ := h (trace4 ℝ) 0 4 1 containers7 0 m (fun i _ _ => ((i + 1 : ℝ)) / 4) input7_aux depth_aux (by decide) hm (by
    intro i j k s y hs hy hk
    have hk0 : k = 0 := by omega
    subst hk0
    rw [hspace] at hs
    rw [htype] at hy
    have hy : y = 9 := by
      rcases j with _ | j <;> simp at hy
      exact hy.symm
    subst hy
    have hi : i < 4 := by
      by_contra hc
      rw [List.getElem?_eq_none (by simpa using hc)] at hs
      simp at hs
    unfold timeIn overlap sliceAt trace4
    interval_cases i <;> simp at hs <;> subst hs <;> norm_num) (by rw [htype, htime]; norm_num) (by rw [hspace, htype, htime]; exact n1)
    (by rw [hspace, htype, htime]; exact n2) N (Nat.le_refl _)
  exact ⟨N, m, r, hm, e⟩

/-- Machine 2, whose cores have no data, becomes an inner node without children: the vector is not a tree with two leaves. -/
example : (pjdump2micro ((trace4 ℚ).take 2) containers7 1 true).map (fun m => (m.names, m.hierarchy)) =
    .ok ([3, 4, 2, 1, 0], [4, 4, 5, 5, 0]) ∧ ∀ root, ¬ IsTree 2 ([4, 4, 5, 5, 0].map (· - 1)) root := by
  refine ⟨by decide +kernel, ?_⟩
  intro root t
  have := (t.leaf 2 (by simp)).mpr (by
    rintro ⟨c, hc⟩
    unfold ParentIs at hc
    rcases c with _ | _ | _ | _ | _ | c <;> simp at hc)
  omega

/-- If the root is not the first container, another container is taken for the root, and the root becomes its own parent. -/
example : (pjdump2micro (trace4 ℚ) (containers7.rotate 1) 1 true).map (fun m => (m.names, m.hierarchy)) =
    .ok ([3, 4, 5, 6, 2, 1, 0], [6, 6, 5, 5, 7, 0, 7]) := by
  decide +kernel

/-! ## The hypotheses are met by concrete inputs -/

example := aggregated (S := Nat) (Y := Nat) (exactLaws ℝ) 2147483647 (by norm_num) (1 / 16 : ℝ) (by norm_num [FloatP.toK]) (by norm_num [FloatP.toK])
example := aggregatedTime (S := Nat) (Y := Nat) (exactLaws ℝ) 2147483647 (by norm_num) (1 / 16 : ℝ) (by norm_num [FloatP.toK]) (by norm_num [FloatP.toK])

end Lp.C54

import Verif.Spec.CounterInput
import Verif.Props.C55
import Verif.Props.C69

/-!
# C70 — counters with a hierarchy, end to end

`pjdump2micro(trace, n, "Counter", TRUE)` and the aggregation of its result.
-/

namespace Lp.C70
open Spec
variable {S Y K : Type} [LinearOrder S] [LinearOrder Y] [Field K] [LinearOrder K] [IsStrictOrderedRing K]

theorem known_aux {trace : List (TCounter S Y K)} {s : S} (h : ∃ y, 2 ≤ (readings trace s y).length) : ∃ r ∈ trace, r.resource = s := by
  obtain ⟨y, hy⟩ := h
  obtain ⟨r, hr⟩ := List.exists_mem_of_length_pos (by omega : 0 < (readings trace s y).length)
  unfold readings at hr
  rw [List.mem_filter] at hr
  have := hr.2
  simp only [decide_eq_true_eq] at this
  exact ⟨r, hr.1, this.1⟩

theorem share_nonneg_aux {trace : List (TCounter S Y K)} {first total : K} {n : Nat} (s : S) (y : Y) (k : Nat) :
    0 ≤ meanIn trace first total n s y k / meansOf trace first total n y := by
  apply div_nonneg (le_max_left _ _)
  unfold meansOf
  apply List.sum_nonneg
  intro v hv
  obtain ⟨s', _, rfl⟩ := List.mem_map.mp hv
  exact Finset.sum_nonneg (fun k' _ => le_max_left _ _)

/-- What `pjdump2micro` returns for a right input describes a tree: its leaves are the spaces of the array, a node is below another one
in the vector exactly if the container is a descendant of the other one, and the root is the last node if its name is the least
among the containers with children. -/
theorem tree (trace : List (TCounter S Y K)) (first total : K) (n : Nat) (resources : List (Container S)) (root : S)
    (hn0 : 0 < n) (hi : RightCounterInput trace first total resources root) (m : Micro S Y K) (hm : pjdump2microC trace resources n true = .ok m) :
    (∃ ρ, m.names[ρ]? = some root ∧ IsTree m.space.length (m.hierarchy.map (· - 1)) ρ ∧
      ((∀ c ∈ resources, root ≤ c.parent) → ρ = m.hierarchy.length - 1)) ∧
    (∀ (i : Nat) (s : S), m.space[i]? = some s → m.names[i]? = some s) ∧
    (∀ s, s ∈ m.space ↔ (∃ c ∈ resources, c.resource = s) ∧ ∀ c ∈ resources, c.parent ≠ s) ∧
    ∀ (i j : Nat) (a s : S), m.names[i]? = some a → m.names[j]? = some s →
      (Under (m.hierarchy.map (· - 1)) i j ↔ Descends resources root a s) := by
  obtain ⟨m', parents, f, h1, h2, h3, h4, h5, h6, h7, _⟩ := C55.hierarchy trace first total hi.rightCounters resources root hi.rightResources hi.known n hn0
  obtain rfl := Except.ok.inj (hm.symm.trans h1)
  have hnd : (m.space ++ parents).Nodup := by
    rw [List.nodup_append']
    refine ⟨h3.imp (fun h => ne_of_lt h), h5.imp (fun h => ne_of_gt h), ?_⟩
    intro s hs hp
    obtain ⟨c, hc, e⟩ := (h6 s).mp hp
    exact ((h4 s).mp hs).2 c hc e
  have hsp : ∀ s ∈ m.space, ∃ c ∈ resources, c.resource = s := by
    intro s hs
    obtain ⟨r, hr, rfl⟩ := known_aux ((h4 s).mp hs).1
    exact hi.known r hr
  have hdata : ∀ c ∈ resources, c.resource ∈ m.space ∨ c.resource ∈ parents := by
    intro c hc
    by_cases hp : ∃ c' ∈ resources, c'.parent = c.resource
    · exact .inr ((h6 _).mpr hp)
    · left
      have hp' : ∀ c' ∈ resources, c'.parent ≠ c.resource := fun c' hc' e => hp ⟨c', hc', e⟩
      exact (h4 _).mpr ⟨hi.data c hc hp', hp'⟩
  have hrp : root ∈ parents := by
    obtain ⟨rest, e⟩ := hi.rightResources.head
    exact (h6 _).mpr ⟨⟨root, root⟩, by rw [e]; simp, rfl⟩
  rw [h2] at h7 ⊢
  obtain ⟨ρ, hρ⟩ := List.mem_iff_getElem?.mp (List.mem_append.mpr (.inr hrp) : root ∈ m.space ++ parents)
  refine ⟨⟨ρ, hρ, hierarchy_tree hi.rightResources hnd hsp h6 h7 hdata hi.several hρ, ?_⟩, ?_, ?_, ?_⟩
  · intro hleast
    rw [h7.length]
    have hne : parents ≠ [] := List.ne_nil_of_mem hrp
    have hlast : parents.getLast hne = root := by
      apply le_antisymm
      · by_contra hc
        obtain ⟨i, hil, e⟩ := List.mem_iff_getElem.mp hrp
        have hlen := List.length_pos_iff.mpr hne
        rw [List.getLast_eq_getElem] at hc
        have : i ≠ parents.length - 1 := by
          intro h
          subst h
          rw [e] at hc
          exact hc le_rfl
        have := List.pairwise_iff_getElem.mp h5 i (parents.length - 1) hil (by omega) (by omega)
        rw [e] at this
        exact hc this.le
      · obtain ⟨c, hc, e⟩ := (h6 _).mp (List.getLast_mem hne)
        rw [← e]
        exact hleast c hc
    have hl : (m.space ++ parents)[(m.space ++ parents).length - 1]? = some root := by
      have hlen := List.length_pos_iff.mpr hne
      rw [List.getElem?_append_right (by simp; omega)]
      rw [show (m.space ++ parents).length - 1 - m.space.length = parents.length - 1 by simp; omega]
      rw [List.getLast_eq_getElem] at hlast
      rw [List.getElem?_eq_getElem (by omega), hlast]
    have := (idxOf?_get hnd hρ).symm.trans (idxOf?_get hnd hl)
    simpa using this
  · intro i s hs
    rw [List.getElem?_append_left (List.getElem?_eq_some_iff.mp hs).1]
    exact hs
  · intro s
    constructor
    · intro hs
      exact ⟨hsp s hs, ((h4 s).mp hs).2⟩
    · rintro ⟨⟨c, hc, rfl⟩, hp⟩
      exact (h4 _).mpr ⟨hi.data c hc hp, hp⟩
  · intro i j a s hi' hj
    apply h7.under hnd ?_ ?_ hi' hj
    · intro x hx
      rcases List.mem_append.mp hx with h | h
      · exact hsp x h
      · obtain ⟨c, hc, rfl⟩ := (h6 x).mp h
        exact hi.rightResources.closed c hc
    · exact fun c hc => List.mem_append.mpr (.inr ((h6 _).mpr ⟨c, hc, rfl⟩))

/-- If the containers without children all have the same depth, the tree is one that the library reads correctly. -/
theorem readable (trace : List (TCounter S Y K)) (first total : K) (n : Nat) (resources : List (Container S)) (root : S)
    (hn0 : 0 < n) (hi : RightCounterInput trace first total resources root) (hd : SameDepth resources root) (m : Micro S Y K)
    (hm : pjdump2microC trace resources n true = .ok m) : NearestFirst m.space.length (m.hierarchy.map (· - 1)) := by
  obtain ⟨⟨ρ, _, ht, _⟩, _⟩ := tree trace first total n resources root hn0 hi m hm
  apply balanced_nearestFirst ht
  obtain ⟨m', parents, f, h1, h2, h3, h4, h5, h6, h7, _⟩ := C55.hierarchy trace first total hi.rightCounters resources root hi.rightResources hi.known n hn0
  obtain rfl := Except.ok.inj (hm.symm.trans h1)
  rw [h2] at h7
  apply hierarchy_balanced hd ?_ ?_ hi.rightResources.closed h6 h7
  · rw [List.nodup_append']
    refine ⟨h3.imp (fun h => ne_of_lt h), h5.imp (fun h => ne_of_gt h), ?_⟩
    intro s hs hp
    obtain ⟨c, hc, e⟩ := (h6 s).mp hp
    exact ((h4 s).mp hs).2 c hc e
  · intro s hs
    obtain ⟨r, hr, rfl⟩ := known_aux ((h4 s).mp hs).1
    exact hi.known r hr

section
variable {F : Type} [FloatP F ℝ] {u : ℝ}

/-- What the composition with the aggregation needs. -/
theorem input_aux {trace : List (TCounter S Y ℝ)} {first total : ℝ} {n : Nat} {resources : List (Container S)} {root : S}
    (hn0 : 0 < n) (hi : RightCounterInput trace first total resources root) (hd : SameDepth resources root) (hleast : ∀ c ∈ resources, root ≤ c.parent)
    {m : Micro S Y ℝ} (hm : pjdump2microC trace resources n true = .ok m) {share : Nat → Nat → Nat → ℝ}
    (hshare : ∀ (i j k : Nat) (s : S) (y : Y), m.space[i]? = some s → m.type[j]? = some y → k < m.time.length →
      share i j k = meanIn trace first total n s y k / meansOf trace first total n y) :
    IsTree m.space.length (m.hierarchy.map (· - 1)) ((m.hierarchy.map (· - 1)).length - 1) ∧
      NearestFirst m.space.length (m.hierarchy.map (· - 1)) ∧ m.space.length < m.hierarchy.length ∧ m.time.length ≤ n ∧
      m.hierarchy.length = m.names.length ∧ m.names.Nodup ∧ m.type.Nodup ∧
      (∀ i, i < m.space.length → m.names[i]? = m.space[i]?) ∧
      m.data = rArray m.space.length m.type.length m.time.length (fun x => share x.1 x.2.1 x.2.2) ∧
      ∀ i j k, i < m.space.length → j < m.type.length → k < m.time.length → 0 ≤ share i j k := by
  obtain ⟨⟨ρ, hρ, ht, hl⟩, _⟩ := tree trace first total n resources root hn0 hi m hm
  have hn := readable trace first total n resources root hn0 hi hd m hm
  obtain ⟨m', parents, f, h1, h2, h3, h4, h5, h6, h7, h8, h8', ⟨last, h9, h10, _⟩, h11, h12⟩ :=
    C55.hierarchy trace first total hi.rightCounters resources root hi.rightResources hi.known n hn0
  obtain rfl := Except.ok.inj (hm.symm.trans h1)
  refine ⟨by rw [List.length_map, ← hl hleast]; exact ht, hn, ?_, ?_, h7.length, ?_, h8.imp (fun h => ne_of_lt h), ?_, ?_, ?_⟩
  · rw [h7.length, h2, List.length_append]
    obtain ⟨rest, e⟩ := hi.rightResources.head
    have := List.length_pos_of_mem ((h6 root).mpr ⟨⟨root, root⟩, by rw [e]; simp, rfl⟩)
    omega
  · rw [h9]; simpa using h10
  · rw [h2, List.nodup_append']
    refine ⟨h3.imp (fun h => ne_of_lt h), h5.imp (fun h => ne_of_gt h), ?_⟩
    intro s hs hp
    obtain ⟨c, hc, e⟩ := (h6 s).mp hp
    exact ((h4 s).mp hs).2 c hc e
  · intro i hi
    rw [h2, List.getElem?_append_left hi]
  · rw [h11]
    apply rArray_congr
    intro i j k hi hj hk
    dsimp only
    rw [hshare i j k _ _ (List.getElem?_eq_getElem hi) (List.getElem?_eq_getElem hj) hk,
      h12 i j k _ _ (List.getElem?_eq_getElem hi) (List.getElem?_eq_getElem hj) hk]
  · intro i j k hi' hj hk
    rw [hshare i j k _ _ (List.getElem?_eq_getElem hi') (List.getElem?_eq_getElem hj) hk]
    exact share_nonneg_aux _ _ _

/-- From the trace and its containers to the hierarchical partitions: `haggregate` applied to what `pjdump2micro` returns gives a
right result about the shares of the means of the counters. -/
theorem aggregated (fl : FloatLaws F ℝ u) (randMax : ℝ) (hr : 2 ≤ randMax) (t : F) (ht : (0 : ℝ) < FloatP.toK t)
    (hu : 11 * u ≤ FloatP.toK t) :
    ∃ N : Nat, ∀ (trace : List (TCounter S Y ℝ)) (first total : ℝ) (n : Nat) (resources : List (Container S)) (root : S)
      (m : Micro S Y ℝ) (share : Nat → Nat → Nat → ℝ),
      0 < n → RightCounterInput trace first total resources root → SameDepth resources root → (∀ c ∈ resources, root ≤ c.parent) →
      pjdump2microC trace resources n true = .ok m →
      (∀ (i j k : Nat) (s : S) (y : Y), m.space[i]? = some s → m.type[j]? = some y → k < m.time.length →
        share i j k = meanIn trace first total n s y k / meansOf trace first total n y) →
      let parents := m.hierarchy.map (· - 1)
      let gain := gain3 m.type.length m.time.length (fun j k l => share l j k)
      let loss := loss3 m.type.length m.time.length (fun j k l => share l j k)
      let all := Finset.range m.space.length
      m.type.length * m.time.length < 2 ^ 32 → gain all ≠ 0 → loss all ≠ 0 →
      let quality := relative gain loss all (leavesUnder m.space.length parents)
      ∀ fuel, N ≤ fuel → ∃ r, haggregate false fuel randMax id m.data m.hierarchy t = .ok r ∧
        RightSheet HRow.parameter (LeafCover m.space.length parents) (LeafCover m.space.length parents) quality
          (fun p x => ⟨p, x + 1, (leavesUnder m.space.length parents x).card, (quality x).gain, (quality x).loss⟩) r := by
  obtain ⟨N, hN⟩ := C49.hierarchical fl randMax hr t ht hu
  refine ⟨N, ?_⟩
  intro trace first total n resources root m share hn0 hi hd hleast hm hshare parents gain loss all hF hg hl quality fuel hf
  obtain ⟨a1, a2, a3, _, _, _, _, _, a8, a9⟩ := input_aux hn0 hi hd hleast hm hshare
  obtain ⟨b1, _, b3⟩ := C54.gain3_pos_aux hg
  have b3 : 0 < m.space.length := by simpa [all, List.length_pos_iff] using b3
  rw [a8]
  exact hN m.space.length m.type.length m.time.length (fun x => share x.1 x.2.1 x.2.2) m.hierarchy b3 b1 hF a1 a2
    (by rw [List.length_map]; exact a3) (fun i j k h1 h2 h3 => a9 i j k h1 h2 h3) hg hl fuel hf

/-- The same for `daggregate`, with time. -/
theorem aggregatedTime (fl : FloatLaws F ℝ u) (randMax : ℝ) (hr : 2 ≤ randMax) (t : F) (ht : (0 : ℝ) < FloatP.toK t)
    (hu : 11 * u ≤ FloatP.toK t) :
    ∃ N : Nat, ∀ (trace : List (TCounter S Y ℝ)) (first total : ℝ) (n : Nat) (resources : List (Container S)) (root : S)
      (m : Micro S Y ℝ) (share : Nat → Nat → Nat → ℝ),
      0 < n → RightCounterInput trace first total resources root → SameDepth resources root → (∀ c ∈ resources, root ≤ c.parent) →
      pjdump2microC trace resources n true = .ok m → n ≤ 65535 → m.space.length * m.time.length < 2147483648 →
      (∀ (i j k : Nat) (s : S) (y : Y), m.space[i]? = some s → m.type[j]? = some y → k < m.time.length →
        share i j k = meanIn trace first total n s y k / meansOf trace first total n y) →
      let parents := m.hierarchy.map (· - 1)
      let gain := gain3 m.type.length 1 (fun j _ (c : Nat × Nat) => share c.1 j c.2)
      let loss := loss3 m.type.length 1 (fun j _ (c : Nat × Nat) => share c.1 j c.2)
      let all := Finset.range m.space.length ×ˢ Finset.Icc 0 (m.time.length - 1)
      m.time ≠ [] → gain all ≠ 0 → loss all ≠ 0 →
      let quality := relative gain loss all (fun r : Rect => leavesUnder m.space.length parents r.node ×ˢ Finset.Icc r.first r.last)
      ∀ fuel, N ≤ fuel → ∃ r, daggregate false fuel randMax id m.data m.hierarchy t = .ok r ∧
        RightSheet DRow.parameter (fun L => CellCover m.space.length parents m.time.length L ∧ CoarseFirst parents L)
          (fun L => CellCover m.space.length parents m.time.length L ∧ CoarseFirst parents L) quality
          (fun p x => ⟨p, x.node + 1, (leavesUnder m.space.length parents x.node).card * (x.last - x.first + 1), x.first + 1, x.last + 1,
            (quality x).gain, (quality x).loss⟩) r := by
  obtain ⟨N, hN⟩ := C49.spatiotemporal fl randMax hr t ht hu
  refine ⟨N, ?_⟩
  intro trace first total n resources root m share hn0 hi hd hleast hm hn hb hshare parents gain loss all htime hg hl quality fuel hf
  obtain ⟨a1, a2, a3, a4, _, _, _, _, a8, a9⟩ := input_aux hn0 hi hd hleast hm hshare
  obtain ⟨b1, _, b3⟩ := C54.gain3_pos_aux hg
  have b3 : 0 < m.space.length := by
    obtain ⟨x, hx⟩ := b3
    have := (Finset.mem_product.mp hx).1
    rw [Finset.mem_range] at this
    omega
  rw [a8]
  exact hN m.space.length m.type.length m.time.length (fun x => share x.1 x.2.1 x.2.2) m.hierarchy b3 b1
    (List.length_pos_iff.mpr htime) (by omega) hb a1 a2
    (by rw [List.length_map]; exact a3) (fun i j k h1 h2 h3 => a9 i j k h1 h2 h3) hg hl fuel hf

/-- From the trace and its containers to the macroscopic description of `hmacro`: for each parameter of `haggregate` a partition with the
gain and loss in `Qualities`, optimal for the parameter, and for each of its nodes, value and slice the sum of the shares of the
spaces below the node. -/
theorem described (fl : FloatLaws F ℝ u) (randMax : ℝ) (hr : 2 ≤ randMax) (t : F) (ht : (0 : ℝ) < FloatP.toK t)
    (hu : 11 * u ≤ FloatP.toK t) :
    ∃ N : Nat, ∀ (trace : List (TCounter S Y ℝ)) (first total : ℝ) (n : Nat) (resources : List (Container S)) (root : S)
      (m : Micro S Y ℝ) (share : Nat → Nat → Nat → ℝ),
      0 < n → RightCounterInput trace first total resources root → SameDepth resources root → (∀ c ∈ resources, root ≤ c.parent) →
      pjdump2microC trace resources n true = .ok m →
      (∀ (i j k : Nat) (s : S) (y : Y), m.space[i]? = some s → m.type[j]? = some y → k < m.time.length →
        share i j k = meanIn trace first total n s y k / meansOf trace first total n y) →
      let parents := m.hierarchy.map (· - 1)
      let gain := gain3 m.type.length m.time.length (fun j k l => share l j k)
      let loss := loss3 m.type.length m.time.length (fun j k l => share l j k)
      let all := Finset.range m.space.length
      m.type.length * m.time.length < 2 ^ 32 → gain all ≠ 0 → loss all ≠ 0 →
      let quality := relative gain loss all (leavesUnder m.space.length parents)
      ∀ fuel, N ≤ fuel → ∃ r, haggregate false fuel randMax id m.data m.hierarchy t = .ok r ∧
        ∀ e ∈ r.qualities, ∃ L out, LeafCover m.space.length parents L ∧ e.gain = gainOf quality L ∧ e.loss = lossOf quality L ∧
          (∀ L', LeafCover m.space.length parents L' →
            valueOf (FloatP.toK e.parameter) (FloatP.toK (FloatP.oneSub e.parameter)) quality L' ≤
              valueOf (FloatP.toK e.parameter) (FloatP.toK (FloatP.oneSub e.parameter)) quality L) ∧
          hmacro m.names m.hierarchy
            ((rowsAt HRow.parameter e.parameter r.partitions).map (fun x => (x.node, x.size)))
            (melt m.space m.type m.time.length (fun x => share x.1 x.2.1 x.2.2)) = .ok out ∧
          (out.map (fun r => (r.space, r.type, r.time))).Nodup ∧
          ∀ (x j k : Nat) (a : S) (y : Y), x ∈ L → m.names[x]? = some a → m.type[j]? = some y → k < m.time.length →
            ∃ r ∈ out, r.space = a ∧ r.type = y ∧ r.time = k + 1 ∧
              r.value = ∑ l ∈ leavesUnder m.space.length parents x, share l j k := by
  obtain ⟨N, hN⟩ := C51.result (S := S) (Y := Y) fl randMax hr t ht hu
  refine ⟨N, ?_⟩
  intro trace first total n resources root m share hn0 hi hd hleast hm hshare parents gain loss all hF hg hl quality fuel hf
  obtain ⟨a1, a2, a3, a4, a5, a6, a7, a7', a8, a9⟩ := input_aux hn0 hi hd hleast hm hshare
  obtain ⟨b1, b2, b3⟩ := C54.gain3_pos_aux hg
  have b3 : 0 < m.space.length := by simpa [all, List.length_pos_iff] using b3
  have hlen0 : 0 < m.names.length := by omega
  have hn : (List.range m.hierarchy.length).map (fun i => m.names.getD i (m.names[0])) = m.names := by
    apply List.ext_getElem
    · simp [a5]
    · intro i h1 h2
      simp [h2]
  have hs : (List.range m.space.length).map (fun i => m.names.getD i (m.names[0])) = m.space := by
    apply List.ext_getElem
    · simp
    · intro i h1 h2
      have := a7' i h2
      rw [List.getElem?_eq_getElem h2] at this
      simp [this]
  have hy : (List.range m.type.length).map (fun i => m.type.getD i (m.type[0])) = m.type := by
    apply List.ext_getElem
    · simp
    · intro i h1 h2
      simp [h2]
  obtain ⟨r, r1, r2⟩ := hN m.space.length m.type.length m.time.length (fun x => share x.1 x.2.1 x.2.2) m.hierarchy
    (fun i => m.names.getD i (m.names[0])) (fun i => m.type.getD i (m.type[0])) b3 b1 b2 hF a1 a2 a3 (by
      intro x y hx hy e
      rw [a5] at hx hy
      rw [C54.getD_aux hx, C54.getD_aux hy] at e
      exact (List.Nodup.getElem_inj_iff a6).mp e) (by
      intro x y hx hy e
      rw [C54.getD_aux hx, C54.getD_aux hy] at e
      exact (List.Nodup.getElem_inj_iff a7).mp e) (fun i j k h1 h2 h3 => a9 i j k h1 h2 h3) hg hl fuel hf
  rw [a8]
  refine ⟨r, r1, ?_⟩
  intro e he
  obtain ⟨L, out, c1, c2, c3, c4, c5, c6, c7⟩ := r2 e he
  rw [hn, hs, hy] at c5
  refine ⟨L, out, c1, c2, c3, c4, c5, c6, ?_⟩
  intro x j k a y hx hxa hjy hk
  obtain ⟨hx1, hx2⟩ := List.getElem?_eq_some_iff.mp hxa
  obtain ⟨hj1, hj2⟩ := List.getElem?_eq_some_iff.mp hjy
  obtain ⟨s, hs⟩ : ∃ s, (x = (m.hierarchy.map (· - 1)).length - 1 ∧ s = m.names.getD ((m.hierarchy.map (· - 1)).length - 1) (m.names[0]) ∨
      ∃ p : Nat, m.hierarchy[x]? = some ((p : Int) + 1) ∧ s = m.names.getD p (m.names[0])) := by
    by_cases hxr : x = (m.hierarchy.map (· - 1)).length - 1
    · exact ⟨_, .inl ⟨hxr, rfl⟩⟩
    · obtain ⟨p, _, hp⟩ := a1.other x (by rw [List.length_map, a5]; exact hx1) hxr
      unfold ParentIs at hp
      rw [List.getElem?_map] at hp
      have hxl : x < m.hierarchy.length := by omega
      rw [List.getElem?_eq_getElem hxl] at hp ⊢
      simp only [Option.map_some, Option.some.injEq] at hp
      exact ⟨_, .inr ⟨p, by rw [Option.some.injEq]; omega, rfl⟩⟩
  refine ⟨_, (c7 _).mpr ⟨x, j, k, s, hx, hj1, hk, hs, rfl⟩, ?_, ?_, rfl, rfl⟩
  · dsimp only; rw [C54.getD_aux hx1, hx2]
  · dsimp only; rw [C54.getD_aux hj1, hj2]

/-- All the way from a file with counters and containers. -/
theorem fromFile (fl : FloatLaws F ℝ u) (randMax : ℝ) (hr : 2 ≤ randMax) (t : F) (ht : (0 : ℝ) < FloatP.toK t)
    (hu : 11 * u ≤ FloatP.toK t) :
    ∃ N : Nat, ∀ (T : Texts S ℝ) (lines : List (Line S)) (trace : List (TCounter S S ℝ)) (first total : ℝ) (n : Nat)
      (resources : List (Container S)) (root : S) (m : Micro S S ℝ) (share : Nat → Nat → Nat → ℝ),
      Say (SaysCounter T) .variable lines trace → Say (SaysContainer T) .container lines resources → Times T lines →
      Kept T lines .variable 0 → Kept T lines .variable 1 → Kept T lines .container 0 → (∃ l ∈ lines, IsText T 5 l) →
      (∀ l ∈ lines, ¬ IsText T 6 l) →
      0 < n → RightCounterInput trace first total resources root → SameDepth resources root → (∀ c ∈ resources, root ≤ c.parent) →
      fileCounters T lines n true = .ok m →
      (∀ (i j k : Nat) (s : S) (y : S), m.space[i]? = some s → m.type[j]? = some y → k < m.time.length →
        share i j k = meanIn trace first total n s y k / meansOf trace first total n y) →
      let parents := m.hierarchy.map (· - 1)
      let gain := gain3 m.type.length m.time.length (fun j k l => share l j k)
      let loss := loss3 m.type.length m.time.length (fun j k l => share l j k)
      let all := Finset.range m.space.length
      m.type.length * m.time.length < 2 ^ 32 → gain all ≠ 0 → loss all ≠ 0 →
      let quality := relative gain loss all (leavesUnder m.space.length parents)
      ∀ fuel, N ≤ fuel → ∃ r, haggregate false fuel randMax id m.data m.hierarchy t = .ok r ∧
        ∀ e ∈ r.qualities, ∃ L out, LeafCover m.space.length parents L ∧ e.gain = gainOf quality L ∧ e.loss = lossOf quality L ∧
          (∀ L', LeafCover m.space.length parents L' →
            valueOf (FloatP.toK e.parameter) (FloatP.toK (FloatP.oneSub e.parameter)) quality L' ≤
              valueOf (FloatP.toK e.parameter) (FloatP.toK (FloatP.oneSub e.parameter)) quality L) ∧
          hmacro m.names m.hierarchy
            ((rowsAt HRow.parameter e.parameter r.partitions).map (fun x => (x.node, x.size)))
            (melt m.space m.type m.time.length (fun x => share x.1 x.2.1 x.2.2)) = .ok out ∧
          (out.map (fun r => (r.space, r.type, r.time))).Nodup ∧
          ∀ (x j k : Nat) (a : S) (y : S), x ∈ L → m.names[x]? = some a → m.type[j]? = some y → k < m.time.length →
            ∃ r ∈ out, r.space = a ∧ r.type = y ∧ r.time = k + 1 ∧
              r.value = ∑ l ∈ leavesUnder m.space.length parents x, share l j k := by
  obtain ⟨M, hM⟩ := described (S := S) (Y := S) fl randMax hr t ht hu
  refine ⟨M, ?_⟩
  intro T lines trace first total n cs root m share h1 h2 h3 h4 h5 h6 h7 h7' h0 h8 h9 h10 h11
  rw [C69.fromCounters T lines trace cs h1 h2 h3 h4 h5 h6 h7 h7'] at h11
  exact hM trace first total n cs root m share h0 h8 h9 h10 h11

end

/-! ## Concrete cases -/

/-- Two cores 1 and 2 of a machine 0. -/
def containers3 : List (Container Nat) := [⟨0, 0⟩, ⟨0, 1⟩, ⟨0, 2⟩]

/-- Counter 7 counts 4 on core 1 and 8 on core 2, from 0 to 2. -/
def readings4 (K : Type) [Field K] : List (TCounter Nat Nat K) :=
  [⟨1, 0, 2, 2, (7, 3)⟩, ⟨1, 2, 2, 0, (7, 4)⟩, ⟨2, 0, 2, 2, (7, 3)⟩, ⟨2, 2, 2, 0, (7, 8)⟩]

theorem pieces4_aux (s y : Nat) : pieces (readings4 ℝ) s y =
    if y = 7 then (if s = 1 then [(0, 2, 4)] else if s = 2 then [(0, 2, 8)] else []) else [] := by
  unfold pieces readings readings4
  by_cases hy : y = 7
  · subst hy
    by_cases h1 : s = 1
    · subst h1; simp
    · by_cases h2 : s = 2
      · subst h2; simp
      · simp [h1, h2, Ne.symm h1, Ne.symm h2]
  · simp [hy, Ne.symm hy]

theorem containers3_right_aux : RightResources containers3 0 := by
  have d0 : Descends containers3 0 0 0 := .self
  refine ⟨⟨_, rfl⟩, by decide, by decide, ?_⟩
  intro c hc
  simp only [containers3, List.mem_cons, List.not_mem_nil, or_false] at hc
  rcases hc with rfl | rfl | rfl
  · exact d0
  · exact .step (c := ⟨0, 1⟩) (by decide) (by decide) d0
  · exact .step (c := ⟨0, 2⟩) (by decide) (by decide) d0

theorem input4_aux : RightCounterInput (readings4 ℝ) 0 2 containers3 0 := by
  refine ⟨?_, containers3_right_aux, ?_, ?_, by decide⟩
  · refine ⟨?_, ?_, ?_, ?_, ?_, ?_, by norm_num⟩
    · simp [readings4]
    · simp [readings4]
    · simp [readings4]
    · simp [readings4]
    · simp [readings4]
    · intro s y x hx
      rw [pieces4_aux] at hx
      split_ifs at hx <;> simp at hx <;> subst hx <;> norm_num
  · simp [readings4, containers3]
  · intro c hc hno
    refine ⟨7, ?_⟩
    simp only [containers3, List.mem_cons, List.not_mem_nil, or_false] at hc
    rcases hc with rfl | rfl | rfl
    · exact absurd rfl (hno ⟨0, 0⟩ (by decide))
    · simp [readings, readings4]
    · simp [readings, readings4]

theorem depth3_aux : SameDepth containers3 0 := ⟨fun s => if s = 0 then 1 else 0, by decide, by decide⟩

/-- What comes out. -/
example : (pjdump2microC (readings4 ℚ) containers3 1 true).map (fun m => (m.type, m.names, m.hierarchy, m.data.mem)) =
    .ok ([7], [1, 2, 0], [3, 3, 0], [1 / 3, 2 / 3]) := by
  decide +kernel

/-- All the way to the description by `hmacro`. -/
example : ∃ fuel m r, pjdump2microC (readings4 ℝ) containers3 1 true = .ok m ∧
    haggregate (F := ℝ) false fuel 2147483647 id m.data m.hierarchy (1 / 100) = .ok r := by
  obtain ⟨N, h⟩ := described (S := Nat) (Y := Nat) (exactLaws ℝ) 2147483647 (by norm_num) (1 / 100 : ℝ) (by simp) (by simp)
  obtain ⟨m, parents, f, hm, h2, h3, h4, h5, h6, h7, h8, h9, ⟨last, h10, h11, h12, _⟩, h13, h14⟩ :=
    C55.hierarchy (readings4 ℝ) 0 2 input4_aux.rightCounters containers3 0 containers3_right_aux input4_aux.known 1 (by norm_num)
  have hspace : m.space = [1, 2] := by
    apply sorted_ext h3 (by simp)
    intro s
    rw [h4]
    constructor
    · rintro ⟨hs, hp⟩
      obtain ⟨r, hr, rfl⟩ := known_aux hs
      simp only [readings4, List.mem_cons, List.not_mem_nil, or_false] at hr
      rcases hr with rfl | rfl | rfl | rfl <;> simp
    · intro hs
      simp only [List.mem_cons, List.not_mem_nil, or_false] at hs
      rcases hs with rfl | rfl
      · exact ⟨⟨7, by simp [readings, readings4]⟩, by decide⟩
      · exact ⟨⟨7, by simp [readings, readings4]⟩, by decide⟩
  have htype : m.type = [7] := by
    apply sorted_ext h8 (by simp)
    intro y
    rw [h9]
    constructor
    · rintro ⟨s, hs⟩
      rw [List.mem_singleton]
      by_contra hy
      simp [readings, readings4, Ne.symm hy] at hs
    · intro hs
      obtain rfl := List.mem_singleton.mp hs
      exact ⟨1, by simp [readings, readings4]⟩
  have hw : ∀ s k, watched (readings4 ℝ) 0 2 1 s 7 k = if s = 1 ∨ s = 2 then overlap 0 2 (sliceAt 0 2 1 k) (sliceAt 0 2 1 (k + 1)) else 0 := by
    intro s k
    unfold watched
    rw [pieces4_aux]
    by_cases h1 : s = 1
    · simp [h1]
    · by_cases h2 : s = 2 <;> simp [h1, h2]
  have htime : m.time.length = 1 := by
    have := h12 1 7 0 (by norm_num) (by rw [hw]; norm_num [overlap, sliceAt])
    rw [h10, List.length_map, List.length_range]
    omega
  have hmean : ∀ s, meanIn (readings4 ℝ) 0 2 1 s 7 0 = if s = 1 then 2 else if s = 2 then 4 else 0 := by
    intro s
    unfold meanIn counted
    rw [hw, pieces4_aux]
    by_cases h1 : s = 1
    · norm_num [h1, overlap, sliceAt]
    · by_cases h2 : s = 2 <;> norm_num [h1, h2, overlap, sliceAt]
  have hmeans : meansOf (readings4 ℝ) 0 2 1 7 = 6 := by
    unfold meansOf
    have : ((readings4 ℝ).map (fun r => r.resource)).dedup = [1, 2] := by
      simp only [readings4, List.map_cons, List.map_nil]
      decide
    rw [this]
    simp only [List.map_cons, List.map_nil, Finset.sum_range_one, hmean]
    norm_num
  obtain ⟨n1, n2⟩ := C49.nz_aux (f := fun l : Nat => ((l + 1 : ℝ)) / 3) (s := Finset.range 2)
    (fun x _ => by positivity) (a := 0) (b := 1) (c := 0) (d := 1) (by simp) (by simp) (by norm_num) (by norm_num) (by norm_num)
    (by simp) (by simp) (by norm_num)
  obtain ⟨r, e, _⟩ := h (readings4 ℝ) 0 2 1 containers3 0 m (fun i _ _ => ((i + 1 : ℝ)) / 3) (by norm_num) input4_aux depth3_aux (by decide) hm (by
    intro i j k s y hs hy hk
    have hk0 : k = 0 := by omega
    subst hk0
    rw [hspace] at hs
    rw [htype] at hy
    have hy : y = 7 := by
      rcases j with _ | j <;> simp at hy
      exact hy.symm
    subst hy
    have hi : i < 2 := by
      by_contra hc
      rw [List.getElem?_eq_none (by simp; omega)] at hs
      simp at hs
    rw [hmeans, hmean]
    interval_cases i <;> simp at hs <;> subst hs <;> norm_num) (by rw [htype, htime]; norm_num) (by rw [hspace, htype, htime]; exact n1)
    (by rw [hspace, htype, htime]; exact n2) N (Nat.le_refl _)
  exact ⟨N, m, r, hm, e⟩

end Lp.C70

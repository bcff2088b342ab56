import Verif.Proofs.Micro
import Verif.Spec.Resources

/-!
# The hierarchy of `pjdump2micro`
-/

namespace Lp
open Spec
variable {S : Type} [LinearOrder S]

theorem rUnique_nodup {α : Type} [DecidableEq α] {l : List α} (h : l.Nodup) : rUnique l = l := by
  unfold rUnique
  rw [List.dedup_eq_self.mpr (List.nodup_reverse.mpr h), List.reverse_reverse]

theorem forEach_snoc {α β : Type} {F : α → Res β} {g : α → β} : ∀ (l : List α) (acc : List β), (∀ x ∈ l, F x = .ok (g x)) →
    forEach (fun x (acc : List β) => do let i ← F x; return acc ++ [i]) l acc = .ok (acc ++ l.map g)
  | [], acc, _ => by simp [forEach]
  | x :: l, acc, h => by
    rw [forEach, h x (by simp)]
    simp only [okBind]
    show forEach (fun x (acc : List β) => do let i ← F x; return acc ++ [i]) l (acc ++ [g x]) = _
    rw [forEach_snoc l _ (fun y hy => h y (List.mem_cons_of_mem _ hy))]
    simp

/-- The row of a container. -/
theorem filter_unique {resources : List (Container S)} (nd : (resources.map (fun c => c.resource)).Nodup) {c : Container S}
    (hc : c ∈ resources) {β : Type} (g : Container S → β) :
    ((resources.map (fun c => (c, g c))).filter (fun r => r.1.resource = c.resource)).head? = some (c, g c) := by
  induction resources with
  | nil => simp at hc
  | cons a l ih =>
    rw [List.map_cons, List.nodup_cons] at nd
    rw [List.map_cons, List.filter_cons]
    by_cases e : a.resource = c.resource
    · rcases List.mem_cons.mp hc with rfl | hc
      · simp
      · exact absurd (e ▸ List.mem_map_of_mem (f := fun c : Container S => c.resource) hc) nd.1
    · rcases List.mem_cons.mp hc with rfl | hc
      · exact absurd rfl e
      · simp only [e, decide_false, Bool.false_eq_true, if_false]
        exact ih nd.2 hc

/-- The loop that sets the column `ParentIndex`. -/
theorem parentIndex_loop {resources : List (Container S)} (nd : (resources.map (fun c => c.resource)).Nodup) (H : List S) :
    ∀ (l done : List S),
      l.foldl (setParentIndex H)
        (resources.map (fun c => (c, if c.resource ∈ done then (rMatch c.parent H).map (fun i : Nat => (i : Int)) else some (-1)))) =
      resources.map (fun c => (c, if c.resource ∈ done ++ l then (rMatch c.parent H).map (fun i : Nat => (i : Int)) else some (-1)))
  | [], done => by simp
  | x :: l, done => by
    rw [List.foldl_cons]
    have step : setParentIndex H
        (resources.map (fun c => (c, if c.resource ∈ done then (rMatch c.parent H).map (fun i : Nat => (i : Int)) else some (-1)))) x =
        resources.map (fun c => (c, if c.resource ∈ done ++ [x] then (rMatch c.parent H).map (fun i : Nat => (i : Int)) else some (-1))) := by
      unfold setParentIndex
      dsimp only
      rw [List.map_map]
      apply List.map_congr_left
      intro c hc
      simp only [Function.comp]
      by_cases e : c.resource = x
      · subst e
        rw [filter_unique nd hc]
        simp
      · simp [e]
    rw [step, parentIndex_loop nd H l (done ++ [x]), List.append_assoc]
    rfl

/-- The hierarchy of right containers. -/
theorem hierarchyOf_right {resources : List (Container S)} {root : S} (hr : RightResources resources root) {space parents : List S}
    (hn : (space ++ parents).Nodup) (hspace : ∀ s ∈ space, ∃ c ∈ resources, c.resource = s)
    (hparents : ∀ s, s ∈ parents ↔ ∃ c ∈ resources, c.parent = s) :
    ∃ h, hierarchyOf resources space parents = .ok (space ++ parents, h) ∧ RightHierarchy resources root (space ++ parents) h := by
  obtain ⟨rest, e⟩ := hr.head
  have hall : ∀ x ∈ space ++ parents, ∃ c ∈ resources, c.resource = x := by
    intro x hx
    rcases List.mem_append.mp hx with h | h
    · exact hspace x h
    · obtain ⟨c, hc, rfl⟩ := (hparents x).mp h
      exact hr.closed c hc
  let g : S → Int := fun x => if x = root then 0 else
    match resources.find? (fun c => c.resource = x) with
    | some c => ((space ++ parents).idxOf c.parent : Int) + 1
    | none => 0
  let G : Container S → Option Int := fun c => if c.resource = root then some 0 else
    (rMatch c.parent (space ++ parents)).map (fun i : Nat => (i : Int))
  have hfind : ∀ c ∈ resources, resources.find? (fun c' => c'.resource = c.resource) = some c := by
    intro c hc
    obtain ⟨c', h'⟩ : ∃ c', resources.find? (fun c' => c'.resource = c.resource) = some c' := by
      rw [← Option.isSome_iff_exists, List.find?_isSome]
      exact ⟨c, hc, by simp⟩
    rw [h']
    have h1 := List.find?_some h'
    have h2 := List.mem_of_find?_eq_some h'
    rw [decide_eq_true_eq] at h1
    rw [List.inj_on_of_nodup_map hr.nodup h2 hc h1]
  have hpar : ∀ c ∈ resources, c.parent ∈ space ++ parents :=
    fun c hc => List.mem_append.mpr (.inr ((hparents _).mpr ⟨c, hc, rfl⟩))
  have hidx : ∀ c ∈ resources, (space ++ parents).idxOf? c.parent = some ((space ++ parents).idxOf c.parent) := by
    intro c hc
    apply idxOf?_get hn
    rw [List.getElem?_eq_getElem (List.idxOf_lt_length_of_mem (hpar c hc)), List.getElem_idxOf]
  have hgG : ∀ c ∈ resources, G c = some (g c.resource) := by
    intro c hc
    by_cases h : c.resource = root
    · simp [G, g, h]
    · simp only [G, g, h, if_false]
      rw [hfind c hc]
      unfold rMatch
      rw [hidx c hc]
      simp
  refine ⟨(space ++ parents).map g, ?_, ?_⟩
  · unfold hierarchyOf
    dsimp only
    rw [rUnique_nodup hn]
    have hloop := parentIndex_loop hr.nodup (space ++ parents) (space ++ parents) []
    simp only [List.not_mem_nil, if_false, List.nil_append] at hloop
    rw [hloop]
    have htab : setFirst (resources.map (fun c => (c, if c.resource ∈ space ++ parents then
          (rMatch c.parent (space ++ parents)).map (fun i : Nat => (i : Int)) else some (-1)))) =
        resources.map (fun c => (c, if c.resource = root then some 0 else if c.resource ∈ space ++ parents then
          (rMatch c.parent (space ++ parents)).map (fun i : Nat => (i : Int)) else some (-1))) := by
      have nd := hr.nodup
      rw [e] at nd ⊢
      rw [List.map_cons, List.nodup_cons] at nd
      simp only [setFirst, List.map_cons, if_true, List.cons.injEq, true_and]
      apply List.map_congr_left
      intro c hc
      have : c.resource ≠ root := by
        intro h
        exact nd.1 (List.mem_map.mpr ⟨c, hc, h⟩)
      simp [this]
    rw [htab, forEach_snoc (g := g)]
    · rfl
    · intro x hx
      obtain ⟨c, hc, rfl⟩ := hall x hx
      unfold getParentIndex
      rw [filter_unique hr.nodup hc]
      have := hgG c hc
      simp only [G] at this
      by_cases h : c.resource = root
      · rw [if_pos h] at this ⊢
        simp only [Option.some.injEq] at this
        rw [this]
      · rw [if_neg h] at this ⊢
        rw [if_pos hx, this]
  · refine ⟨by simp, ?_, ?_⟩
    · intro i hi
      rw [List.getElem?_map, hi]
      simp [g]
    · intro c hc hne i hi
      refine ⟨(space ++ parents).idxOf c.parent, ?_, ?_⟩
      · rw [List.getElem?_eq_getElem (List.idxOf_lt_length_of_mem (hpar c hc)), List.getElem_idxOf]
      · rw [List.getElem?_map, hi]
        simp only [g, hne, if_false, Option.map_some]
        rw [hfind c hc]

section
variable {resources : List (Container S)} {root : S} {names : List S} {h : List Int}

theorem Spec.RightHierarchy.parentIs (hh : RightHierarchy resources root names h) (hnd : names.Nodup)
    (hall : ∀ x ∈ names, ∃ c ∈ resources, c.resource = x) {i j : Nat} :
    ParentIs (h.map (· - 1)) i j ↔ ∃ c ∈ resources, c.resource ≠ root ∧ names[i]? = some c.resource ∧ names[j]? = some c.parent := by
  unfold ParentIs
  rw [List.getElem?_map]
  constructor
  · intro e
    have hi : i < names.length := by
      rw [← hh.length]
      by_contra hc
      rw [List.getElem?_eq_none (by omega)] at e
      simp at e
    have gi : names[i]? = some names[i] := List.getElem?_eq_getElem hi
    obtain ⟨c, hc, hci⟩ := hall _ (List.getElem_mem hi)
    rw [← hci] at gi
    by_cases hr : c.resource = root
    · rw [hr] at gi
      rw [hh.rootZero i gi] at e
      simp at e
    · obtain ⟨j', h1, h2⟩ := hh.parent c hc hr i gi
      rw [h2] at e
      simp at e
      have : j = j' := by omega
      subst this
      exact ⟨c, hc, hr, gi, h1⟩
  · rintro ⟨c, hc, hr, gi, gj⟩
    obtain ⟨j', h1, h2⟩ := hh.parent c hc hr i gi
    have := (idxOf?_get hnd gj).symm.trans (idxOf?_get hnd h1)
    simp only [Option.some.injEq] at this
    subst this
    rw [h2]
    simp

/-- Descendants in the vector are descendants among the containers. -/
theorem Spec.RightHierarchy.under (hh : RightHierarchy resources root names h) (hnd : names.Nodup)
    (hall : ∀ x ∈ names, ∃ c ∈ resources, c.resource = x) (hpar : ∀ c ∈ resources, c.parent ∈ names)
    {i j : Nat} {a s : S} (hi : names[i]? = some a) (hj : names[j]? = some s) :
    Under (h.map (· - 1)) i j ↔ Descends resources root a s := by
  constructor
  · intro hu
    induction hu generalizing s with
    | self => rw [hi] at hj; obtain rfl := Option.some.inj hj; exact .self
    | @up k p hp _ ih =>
      obtain ⟨c, hc, hr, g1, g2⟩ := (hh.parentIs hnd hall).mp hp
      rw [hj] at g1
      obtain rfl := Option.some.inj g1
      exact .step hc hr (ih g2)
  · intro hd
    induction hd generalizing j with
    | self =>
      have := (idxOf?_get hnd hi).symm.trans (idxOf?_get hnd hj)
      simp only [Option.some.injEq] at this
      subst this
      exact .self
    | @step c hc hr _ ih =>
      obtain ⟨p, hp⟩ := List.mem_iff_getElem?.mp (hpar c hc)
      exact .up ((hh.parentIs hnd hall).mpr ⟨c, hc, hr, hj, hp⟩) (ih hp)

theorem root_child (hr : RightResources resources root) {c : Container S} (hc : c ∈ resources) (hne : c.resource ≠ root) :
    ∃ c ∈ resources, c.resource ≠ root ∧ c.parent = root := by
  have key : ∀ s, Descends resources root root s → s ≠ root → ∃ c ∈ resources, c.resource ≠ root ∧ c.parent = root := by
    intro s hs
    induction hs with
    | self => intro h; exact absurd rfl h
    | @step c hc hne _ ih =>
      intro _
      by_cases h : c.parent = root
      · exact ⟨c, hc, hne, h⟩
      · exact ih h
  exact key _ (hr.reach c hc) hne

/-- The hierarchy is a tree. -/
theorem hierarchy_tree (hr : RightResources resources root) {space parents : List S} (hnd : (space ++ parents).Nodup)
    (hspace : ∀ s ∈ space, ∃ c ∈ resources, c.resource = s)
    (hparents : ∀ s, s ∈ parents ↔ ∃ c ∈ resources, c.parent = s)
    (hh : RightHierarchy resources root (space ++ parents) h)
    (hdata : ∀ c ∈ resources, c.resource ∈ space ∨ c.resource ∈ parents) (hne : ∃ c ∈ resources, c.resource ≠ root)
    {ρ : Nat} (hρ : (space ++ parents)[ρ]? = some root) : IsTree space.length (h.map (· - 1)) ρ := by
  have hall : ∀ x ∈ space ++ parents, ∃ c ∈ resources, c.resource = x := by
    intro x hx
    rcases List.mem_append.mp hx with h | h
    · exact hspace x h
    · obtain ⟨c, hc, rfl⟩ := (hparents x).mp h
      exact hr.closed c hc
  have hpar : ∀ c ∈ resources, c.parent ∈ space ++ parents :=
    fun c hc => List.mem_append.mpr (.inr ((hparents _).mpr ⟨c, hc, rfl⟩))
  have hlen : (h.map (· - 1)).length = (space ++ parents).length := by rw [List.length_map, hh.length]
  have hρl : ρ < (space ++ parents).length := (List.getElem?_eq_some_iff.mp hρ).1
  refine ⟨by rw [hlen]; exact hρl, ?_, ?_, ?_, ?_, ?_⟩
  · rw [List.getElem?_map, hh.rootZero ρ hρ]; rfl
  · intro i hi hne'
    rw [hlen] at hi ⊢
    have gi := List.getElem?_eq_getElem hi
    obtain ⟨c, hc, e⟩ := hall _ (List.getElem_mem hi)
    rw [← e] at gi
    have hcr : c.resource ≠ root := by
      intro hcr
      rw [hcr] at gi
      have := (idxOf?_get hnd gi).symm.trans (idxOf?_get hnd hρ)
      simp only [Option.some.injEq] at this
      exact hne' this
    obtain ⟨p, hp⟩ := List.mem_iff_getElem?.mp (hpar c hc)
    exact ⟨p, (List.getElem?_eq_some_iff.mp hp).1, (hh.parentIs hnd hall).mpr ⟨c, hc, hcr, gi, hp⟩⟩
  · intro i hi
    rw [hlen] at hi
    have gi := List.getElem?_eq_getElem hi
    obtain ⟨c, hc, e⟩ := hall _ (List.getElem_mem hi)
    rw [← e] at gi
    exact (hh.under hnd hall hpar hρ gi).mpr (hr.reach c hc)
  · rw [hlen]; simp
  · intro i hi
    rw [hlen] at hi
    have gi := List.getElem?_eq_getElem hi
    constructor
    · rintro hi' ⟨k, hk⟩
      obtain ⟨c, hc, _, _, g2⟩ := (hh.parentIs hnd hall).mp hk
      have hs : c.parent ∈ space := by
        rw [List.getElem?_append_left hi'] at g2
        exact List.mem_of_getElem? g2
      exact (List.nodup_append'.mp hnd).2.2 hs ((hparents _).mpr ⟨c, hc, rfl⟩)
    · intro hno
      by_contra hi'
      apply hno
      have hm : (space ++ parents)[i] ∈ parents := by
        rw [List.getElem_append_right (by omega)]
        exact List.getElem_mem _
      obtain ⟨c, hc, hcp⟩ := (hparents _).mp hm
      obtain ⟨c, hc, hcr, hcp⟩ : ∃ c ∈ resources, c.resource ≠ root ∧ c.parent = (space ++ parents)[i] := by
        by_cases hcr : c.resource = root
        · obtain ⟨rest, e⟩ := hr.head
          have : c = ⟨root, root⟩ := List.inj_on_of_nodup_map hr.nodup hc (by rw [e]; simp) hcr
          obtain ⟨c', hc', hne'⟩ := hne
          obtain ⟨c2, h2, h3, h4⟩ := root_child hr hc' hne'
          refine ⟨c2, h2, h3, ?_⟩
          rw [h4, ← hcp, this]
        · exact ⟨c, hc, hcr, hcp⟩
      obtain ⟨k, hk⟩ := List.mem_iff_getElem?.mp (List.mem_append.mpr (hdata c hc))
      exact ⟨k, (hh.parentIs hnd hall).mpr ⟨c, hc, hcr, hk, by rw [gi, hcp]⟩⟩

theorem hierarchy_balanced (hs : SameDepth resources root) {space parents : List S} (hnd : (space ++ parents).Nodup)
    (hspace : ∀ s ∈ space, ∃ c ∈ resources, c.resource = s) (hclosed : ∀ c ∈ resources, ∃ c' ∈ resources, c'.resource = c.parent)
    (hparents : ∀ s, s ∈ parents ↔ ∃ c ∈ resources, c.parent = s)
    (hh : RightHierarchy resources root (space ++ parents) h) : Balanced space.length (h.map (· - 1)) := by
  have hall : ∀ x ∈ space ++ parents, ∃ c ∈ resources, c.resource = x := by
    intro x hx
    rcases List.mem_append.mp hx with h | h
    · exact hspace x h
    · obtain ⟨c, hc, rfl⟩ := (hparents x).mp h
      exact hclosed c hc
  obtain ⟨level, h1, h2⟩ := hs
  refine ⟨fun i => match (space ++ parents)[i]? with | some s => level s | none => 0, ?_, ?_⟩
  · intro i hi
    dsimp only
    rw [List.getElem?_append_left hi, List.getElem?_eq_getElem hi]
    dsimp only
    obtain ⟨c, hc, e⟩ := hspace _ (List.getElem_mem hi)
    rw [← e]
    apply h1 c hc
    intro c' hc' e'
    exact (List.nodup_append'.mp hnd).2.2 (List.getElem_mem hi) ((hparents _).mpr ⟨c', hc', by rw [e', e]⟩)
  · intro i p hp
    obtain ⟨c, hc, hcr, g1, g2⟩ := (hh.parentIs hnd hall).mp hp
    dsimp only
    rw [g1, g2]
    exact h2 c hc hcr

end

/-! ## Unknown containers -/

theorem forEach_error {α σ : Type} {f : α → σ → Res σ} {x : α} (hx : ∀ s, ∃ e, f x s = .error e) :
    ∀ (l : List α) (s : σ), x ∈ l → ∃ e, forEach f l s = .error e
  | a :: l, s, h => by
    rw [forEach]
    cases ha : f a s with
    | error e => exact ⟨e, rfl⟩
    | ok s' =>
      rcases List.mem_cons.mp h with rfl | h
      · obtain ⟨e, he⟩ := hx s
        rw [ha] at he
        exact absurd he (by simp)
      · exact forEach_error hx l s' h

theorem setParentIndex_fst (H : List S) (t : List (Container S × Option Int)) (x : S) :
    (setParentIndex H t x).map Prod.fst = t.map Prod.fst := by
  unfold setParentIndex
  dsimp only
  rw [List.map_map]
  apply List.map_congr_left
  intro r _
  simp only [Function.comp]
  split_ifs <;> rfl

theorem setFirst_fst (t : List (Container S × Option Int)) : (setFirst t).map Prod.fst = t.map Prod.fst := by
  cases t with
  | nil => rfl
  | cons r t => rfl

theorem hierarchyOf_unknown {resources : List (Container S)} {space parents : List S} {x : S} (hx : x ∈ space ++ parents)
    (hno : ∀ c ∈ resources, c.resource ≠ x) : ∃ e, hierarchyOf resources space parents = .error e := by
  unfold hierarchyOf
  dsimp only
  have hfst : ∀ (l : List S) (t : List (Container S × Option Int)) (H : List S),
      (l.foldl (setParentIndex H) t).map Prod.fst = t.map Prod.fst := by
    intro l
    induction l with
    | nil => intro t H; rfl
    | cons a l ih => intro t H; rw [List.foldl_cons, ih, setParentIndex_fst]
  have hx' : x ∈ rUnique (space ++ parents) := by
    unfold rUnique
    rw [List.mem_reverse, List.mem_dedup, List.mem_reverse]
    exact hx
  obtain ⟨e, he⟩ := forEach_error (f := fun x (acc : List Int) => do
      let i ← getParentIndex (setFirst ((rUnique (space ++ parents)).foldl (setParentIndex (rUnique (space ++ parents)))
        (resources.map (fun c => (c, some (-1)))))) x
      return acc ++ [i]) (x := x) (by
    intro acc
    have : getParentIndex (setFirst ((rUnique (space ++ parents)).foldl (setParentIndex (rUnique (space ++ parents)))
        (resources.map (fun c => (c, some (-1)))))) x = .error .outOfBounds := by
      unfold getParentIndex
      rw [List.filter_eq_nil_iff.mpr]
      · rfl
      · intro r hr hrx
        have h1 : r.1 ∈ resources := by
          have := List.mem_map_of_mem (f := Prod.fst) hr
          rw [setFirst_fst, hfst, List.map_map] at this
          simpa [Function.comp_def] using this
        exact hno _ h1 (by simpa using hrx)
    rw [this]
    exact ⟨_, rfl⟩) _ [] hx'
  rw [he]
  exact ⟨e, rfl⟩

end Lp

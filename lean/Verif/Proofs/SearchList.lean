import Verif.Proofs.SearchInst

/-!
# The lists a search returns
-/

namespace Lp
open Spec
variable {F K P T : Type} [Field K] [LinearOrder K] [FloatP F K] {u : K}
variable {ops : PartOps F K P T} {B : F → P}

/-- Filling a map in key order appends. -/
theorem foldl_mapInsert (fl : FloatLaws F K u) {V W : Type} (g : V → W) : ∀ (l : List (F × V)) (m : List (F × W)),
    (∀ e ∈ m, ∀ x ∈ l, (num e.1 : K) < num x.1) → l.Pairwise (fun x y => (num x.1 : K) < num y.1) →
    l.foldl (fun m e => mapInsert e.1 (g e.2) m) m = m ++ l.map (fun e => (e.1, g e.2)) := by
  intro l
  induction l with
  | nil => intro m _ _; simp
  | cons x l ih =>
    intro m hm hl
    rw [List.pairwise_cons] at hl
    simp only [List.foldl_cons]
    rw [mapInsert_last fl _ _ m (fun e he => hm e he x (by simp))]
    rw [ih _ (by
      intro e he y hy
      rcases List.mem_append.mp he with he | he
      · exact hm e he y (by simp [hy])
      · simp at he; subst he; exact hl.1 y hy) hl.2]
    simp

theorem foldl_rows {A C : Type} (g : A → List C) : ∀ (l : List A) (m : List C),
    l.foldl (fun l e => l ++ g e) m = m ++ l.flatMap g := by
  intro l
  induction l with
  | nil => intro m; simp
  | cons x l ih => intro m; simp [ih]

/-- Everything about a search on `lo < hi` that returns. -/
theorem search_full (fl : FloatLaws F K u) (so : SearchOps ops B) {fuel : Nat} {t lo hi : F} {st st' : PState F K P T}
    (h0 : (0 : K) ≤ num lo) (hlt : (num lo : K) < num hi) (h1 : (num hi : K) ≤ 1)
    (h : computeBestPartitions ops false fuel t lo hi st = .ok st') :
    ∃ S, List.IsChain (Resolved ops B t) (lo :: S ++ [hi]) ∧
      (∀ x ∈ S, (num lo : K) < num x ∧ (num x : K) < num hi) ∧
      st'.pList = keep (fun x y => ops.same (B x) (B y)) (lo :: S ++ [hi]) ∧
      st'.pList.Pairwise (fun x y => (num x : K) < num y) ∧
      st'.partitions = st'.pList.map (fun p => (p, B p)) ∧
      st'.qualityList = st'.pList.map (fun p => (p, ops.quality (B p))) ∧
      st'.tuples = st'.pList.flatMap (fun p => ops.rows p (B p)) := by
  obtain ⟨S, hc, hb, e1, e2, e3, e4⟩ := search_spec fl so h0 hlt h1 h
  have hsort : st'.pList.Pairwise (fun x y => (num x : K) < num y) := by
    rw [e1]; exact (resolved_pairwise hc).sublist (keep_sublist _)
  refine ⟨S, hc, hb, e1, hsort, e2, ?_, ?_⟩
  · rw [e3, foldl_mapInsert fl ops.quality _ [] (by simp) (by rw [e2, List.pairwise_map]; exact hsort), e2]
    simp
  · rw [e4, foldl_rows, e2, List.flatMap_map]; rfl

/-- A number between the ends of a chain is an element or lies between two consecutive ones. -/
theorem chain_between {R : F → F → Prop} {p : F} : ∀ (l : List F) (a b : F),
    List.IsChain R (a :: l ++ [b]) → (num a : K) ≤ num p → (num p : K) ≤ num b →
    (∃ x ∈ a :: l ++ [b], (num x : K) = num p) ∨
      ∃ x ∈ a :: l ++ [b], ∃ y ∈ a :: l ++ [b], R x y ∧ (num x : K) < num p ∧ (num p : K) < num y := by
  intro l
  induction l with
  | nil =>
    intro a b hc ha hb
    rcases lt_or_eq_of_le ha with ha | ha
    · rcases lt_or_eq_of_le hb with hb | hb
      · right
        simp at hc
        exact ⟨a, by simp, b, by simp, hc, ha, hb⟩
      · left; exact ⟨b, by simp, hb.symm⟩
    · left; exact ⟨a, by simp, ha⟩
  | cons c l ih =>
    intro a b hc ha hb
    simp only [List.cons_append, List.isChain_cons_cons] at hc
    rcases lt_or_ge (num p : K) (num c) with hpc | hpc
    · rcases lt_or_eq_of_le ha with ha | ha
      · right; exact ⟨a, by simp, c, by simp, hc.1, ha, hpc⟩
      · left; exact ⟨a, by simp, ha⟩
    · rcases ih c b (by simpa using hc.2) hpc hb with ⟨x, hx, e⟩ | ⟨x, hx, y, hy, r⟩
      · left; exact ⟨x, by simp at hx ⊢; tauto, e⟩
      · right; exact ⟨x, by simp at hx ⊢; tauto, y, by simp at hy ⊢; tauto, r⟩

theorem samples_range {S : List F} {lo hi : F} (hlt : (num lo : K) < num hi)
    (hb : ∀ x ∈ S, (num lo : K) < num x ∧ (num x : K) < num hi) :
    ∀ x ∈ lo :: S ++ [hi], (num lo : K) ≤ num x ∧ (num x : K) ≤ num hi := by
  intro x hx
  simp only [List.cons_append, List.mem_cons, List.mem_append, List.not_mem_nil, or_false] at hx
  rcases hx with rfl | hx | rfl
  · exact ⟨le_refl _, hlt.le⟩
  · exact ⟨(hb x hx).1.le, (hb x hx).2.le⟩
  · exact ⟨hlt.le, le_refl _⟩

/-- Every sampled partition is returned. -/
theorem sample_returned (so : SearchOps ops B) {L : List F} {st' : PState F K P T}
    (e1 : st'.pList = keep (fun x y => ops.same (B x) (B y)) L)
    (e2 : st'.partitions = st'.pList.map (fun p => (p, B p))) {x : F} (hx : x ∈ L) :
    ∃ e ∈ st'.partitions, ops.same (B x) e.2 = true := by
  obtain ⟨y, hy, hs⟩ := keep_repr (same := fun x y => ops.same (B x) (B y)) so.refl
    (fun x y z => so.trans x y z) L x hx
  exact ⟨(y, B y), by rw [e2, e1]; exact List.mem_map.mpr ⟨y, hy, rfl⟩, hs⟩

end Lp

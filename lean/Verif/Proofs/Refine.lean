import Verif.Proofs.Mirror
import Verif.Proofs.SearchCost
import Verif.Props.C45
import Verif.Props.C31

/-!
# Searches with two thresholds
-/

namespace Lp
open Spec
variable {F K P T : Type} [Field K] [LinearOrder K] [FloatP F K] {u : K} {ops : PartOps F K P T} {B : F → P}

/-- The smaller threshold samples at least the same parameters. -/
theorem addBest_refine (so : SearchOps ops B) {t t' : F}
    (ht : ∀ x : F, FloatP.lt t x = true → FloatP.lt t' x = true) : ∀ (fuel fuel' : Nat) (a b : F) (s s' r r' : Acc F P),
    addBest ops t fuel (B a) (B b) s = .ok r → addBest ops t' fuel' (B a) (B b) s' = .ok r' →
    ∃ S S', r.pList = s.pList ++ S ∧ r'.pList = s'.pList ++ S' ∧ S.Sublist S' := by
  have only : ∀ (fuel : Nat) (a b : F) (s r : Acc F P), addBest ops t' fuel (B a) (B b) s = .ok r →
      ∃ S, r.pList = s.pList ++ S := by
    intro fuel a b s r h
    cases fuel with
    | zero => simp [addBest] at h
    | succ fuel => obtain ⟨S, e, _⟩ := addBest_count so t' fuel a b s r h; exact ⟨S, e⟩
  intro fuel
  induction fuel with
  | zero => intro fuel' a b s s' r r' h; simp [addBest] at h
  | succ fuel ih =>
    intro fuel' a b s s' r r' h h'
    rw [addBest_eq so] at h
    split at h
    · rename_i hc
      cases fuel' with
      | zero => simp [addBest] at h'
      | succ fuel' =>
        have hc' : (!(ops.same (B a) (B b)) && FloatP.lt t' (FloatP.sub b a)) = true := by
          rw [Bool.and_eq_true] at hc ⊢
          exact ⟨hc.1, ht _ hc.2⟩
        rw [addBest_eq so, if_pos hc'] at h'
        cases h1 : addBest ops t fuel (B a) (B (midp a b)) s with
        | error e => rw [h1] at h; cases h
        | ok s1 =>
          cases h1' : addBest ops t' fuel' (B a) (B (midp a b)) s' with
          | error e => rw [h1'] at h'; cases h'
          | ok s1' =>
            rw [h1] at h
            rw [h1'] at h'
            simp only [okBind] at h h'
            obtain ⟨S1, S1', e1, e1', l1⟩ := ih _ _ _ _ _ _ _ h1 h1'
            obtain ⟨S2, S2', e2, e2', l2⟩ := ih _ _ _ _ _ _ _ h h'
            dsimp only at e2 e2'
            exact ⟨S1 ++ midp a b :: S2, S1' ++ midp a b :: S2', by rw [e2, e1]; simp, by rw [e2', e1']; simp,
              l1.append (l2.cons_cons _)⟩
    · obtain rfl := Except.ok.inj h
      obtain ⟨S', e'⟩ := only _ _ _ _ _ h'
      exact ⟨[], S', by simp, e', List.nil_sublist _⟩

/-- A search that returns has sampled. -/
theorem search_samples (fl : FloatLaws F K u) (so : SearchOps ops B) {fuel : Nat} {t lo hi : F} {st st' : PState F K P T}
    (h0 : (0 : K) ≤ num lo) (hlt : (num lo : K) < num hi) (h1 : (num hi : K) ≤ 1)
    (h : computeBestPartitions ops false fuel t lo hi st = .ok st') :
    ∃ s1 S, addBest ops t fuel (B lo) (B hi) ⟨[lo], [lo].map (fun p => (p, B p))⟩ = .ok s1 ∧ s1.pList = lo :: S ∧
      List.IsChain (Resolved ops B t) (lo :: S ++ [hi]) ∧
      (∀ x ∈ S, (num lo : K) < num x ∧ (num x : K) < num hi) ∧
      st'.pList = keep (fun x y => ops.same (B x) (B y)) (lo :: S ++ [hi]) ∧
      st'.partitions = st'.pList.map (fun p => (p, B p)) := by
  cases hA : addBest ops t fuel (B lo) (B hi) ⟨[lo], [lo].map (fun p => (p, B p))⟩ with
  | error e =>
    unfold computeBestPartitions at h
    simp only [so.best, okBind, List.nil_append] at h
    have e1 : (mapInsert lo (B lo) [] : List (F × P)) = [lo].map (fun p => (p, B p)) := rfl
    rw [e1, hA] at h
    simp at h
  | ok s1 =>
    obtain ⟨S, st2, e0, e, a1, a2, a3, a4, _⟩ := search_ok_list fl so (st := st) h0 hlt h1 hA
    rw [h] at e
    obtain rfl := Except.ok.inj e
    exact ⟨s1, S, rfl, e0, a1, a2, a3, a4⟩

/-- Every element of an increasing list is equal to a kept one that is not larger. -/
theorem keep_repr_le {same : F → F → Bool} (hr : ∀ x, same x x = true)
    (ht : ∀ x y z, same x y = true → same y z = true → same x z = true) :
    ∀ (l : List F), l.Pairwise (fun x y => (num x : K) < num y) →
      ∀ z ∈ l, ∃ y ∈ keep same l, same z y = true ∧ (num y : K) ≤ num z := by
  have aux : ∀ (l : List F) (x : F), (x :: l).Pairwise (fun x y => (num x : K) < num y) →
      ∀ z ∈ l, ∃ y ∈ x :: keepAux same x l, same z y = true ∧ (num y : K) ≤ num z := by
    intro l
    induction l with
    | nil => intro x _ z hz; simp at hz
    | cons y l ih =>
      intro x hp z hz
      have hxz := (List.pairwise_cons.mp hp).1 z hz
      have hp' := (List.pairwise_cons.mp hp).2
      unfold keepAux
      rcases List.mem_cons.mp hz with rfl | hz
      · split
        · rename_i h; exact ⟨x, by simp, h, hxz.le⟩
        · exact ⟨z, by simp, hr z, le_refl _⟩
      · obtain ⟨w, hw, hs, hle⟩ := ih y hp' z hz
        split
        · rename_i h
          rcases List.mem_cons.mp hw with rfl | hw
          · exact ⟨x, by simp, ht _ _ _ hs h, hxz.le⟩
          · exact ⟨w, by simp [hw], hs, hle⟩
        · exact ⟨w, by simp at hw; simp; tauto, hs, hle⟩
  intro l hp z hz
  cases l with
  | nil => simp at hz
  | cons x l =>
    rcases List.mem_cons.mp hz with rfl | hz
    · exact ⟨z, by simp [keep], hr z, le_refl _⟩
    · exact aux l x hp z hz

section area

theorem area_join : ∀ (l : List (Quality K)) (b : Quality K) (n : List (Quality K)),
    C32.area (l ++ b :: n) = C32.area (l ++ [b]) + C32.area (b :: n) := by
  intro l
  induction l with
  | nil => intro b n; simp [C32.area]
  | cons x l ih =>
    intro b n
    cases l with
    | nil => simp [C32.area]
    | cons y l =>
      have := ih b n
      simp only [List.cons_append] at this ⊢
      simp only [C32.area]
      rw [this, add_assoc]

variable [IsStrictOrderedRing K]

/-- More points on the curve, less area below it. -/
theorem area_refine : ∀ (l l' : List (Quality K)) (a : Quality K), l.Sublist l' →
    (a :: l').Pairwise (fun a b => a.gain ≤ b.gain ∧ a.loss ≤ b.loss ∧ a ≠ b) →
    (∀ x y w, [x, y, w].Sublist (a :: l') → Bends x y w) → (a :: l).getLast? = (a :: l').getLast? →
    C32.area (a :: l') ≤ C32.area (a :: l) := by
  intro l
  induction l with
  | nil =>
    intro l' a _ hp _ hl
    rcases List.eq_nil_or_concat l' with rfl | ⟨m, z, rfl⟩
    · exact le_refl _
    · exfalso
      rw [List.concat_eq_append] at hp hl
      rw [← List.cons_append, List.getLast?_append] at hl
      simp at hl
      exact ((List.pairwise_cons.mp hp).1 z (by simp)).2.2 hl
  | cons b l ih =>
    intro l' a hs hp hb hl
    obtain ⟨r1, n, rfl, hm, hn⟩ := List.cons_sublist_iff.mp hs
    obtain ⟨m, m2, rfl⟩ := List.append_of_mem hm
    have hn' : l.Sublist (m2 ++ n) := hn.trans (List.sublist_append_right _ _)
    have eq : a :: (m ++ b :: m2 ++ n) = (a :: m) ++ b :: (m2 ++ n) := by simp
    rw [eq] at hp hb hl ⊢
    have sub : (b :: (m2 ++ n)).Sublist ((a :: m) ++ b :: (m2 ++ n)) := List.sublist_append_right _ _
    have sub1 : ((a :: m) ++ [b]).Sublist ((a :: m) ++ b :: (m2 ++ n)) :=
      (List.Sublist.refl _).append (by simp)
    have i := ih (m2 ++ n) b hn' (hp.sublist sub) (fun x y w h => hb x y w (h.trans sub)) (by
      rw [List.getLast?_append_of_ne_nil _ (by simp), List.getLast?_cons_cons] at hl
      exact hl)
    have c := area_chord m a b ((hp.sublist sub1).imp (fun h => ⟨h.1, h.2.1⟩)) (fun x y w h => hb x y w (h.trans sub1))
    rw [area_join]
    have e : C32.area (a :: b :: l) = (b.gain - a.gain) * (b.loss + a.loss) / 2 + C32.area (b :: l) := rfl
    rw [e]
    exact add_le_add c i

end area
end Lp

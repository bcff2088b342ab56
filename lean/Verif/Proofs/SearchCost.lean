import Verif.Model.SearchCalls
import Verif.Proofs.SearchInst
import Verif.Proofs.SearchList

/-!
# How many partitions a search computes
-/

namespace Lp
open Spec

section
variable {F K P T : Type} [FloatP F K]

theorem addBestC_fst (ops : PartOps F K P T) (t : F) : ∀ (fuel : Nat) (a b : P) (s : Acc F P) (c : List F),
    (addBestC ops t fuel a b (s, c)).map Prod.fst = addBest ops t fuel a b s := by
  intro fuel
  induction fuel with
  | zero => intros; rfl
  | succ fuel ih =>
    intro a b s c
    unfold addBestC addBest
    split
    · dsimp only
      generalize FloatP.add (ops.param a) (FloatP.half (FloatP.sub (ops.param b) (ops.param a))) = m
      cases ops.best m with
      | error e => rfl
      | ok mid =>
        simp only [okBind]
        rw [← ih a mid s (c ++ [m])]
        cases addBestC ops t fuel a mid (s, c ++ [m]) with
        | error e => rfl
        | ok r => exact ih _ _ _ _
    · rfl

/-- The calls are a permutation of the parameters recorded. -/
theorem addBestC_perm (ops : PartOps F K P T) (t : F) : ∀ (fuel : Nat) (a b : P) (s : Acc F P) (c : List F)
    (r : Acc F P × List F), addBestC ops t fuel a b (s, c) = .ok r →
    ∃ S C, r.1.pList = s.pList ++ S ∧ r.2 = c ++ C ∧ C.Perm S := by
  intro fuel
  induction fuel with
  | zero => intro a b s c r h; cases h
  | succ fuel ih =>
    intro a b s c r h
    unfold addBestC at h
    split at h
    · dsimp only at h
      revert h
      generalize FloatP.add (ops.param a) (FloatP.half (FloatP.sub (ops.param b) (ops.param a))) = m
      intro h
      cases hb : ops.best m with
      | error e => rw [hb] at h; cases h
      | ok mid =>
        rw [hb] at h
        simp only [okBind] at h
        cases h1 : addBestC ops t fuel a mid (s, c ++ [m]) with
        | error e => rw [h1] at h; cases h
        | ok r1 =>
          rw [h1] at h
          simp only [okBind] at h
          obtain ⟨S1, C1, e1, e2, p1⟩ := ih _ _ _ _ _ h1
          obtain ⟨S2, C2, e3, e4, p2⟩ := ih _ _ _ _ _ h
          dsimp only at e3
          refine ⟨S1 ++ [m] ++ S2, [m] ++ C1 ++ C2, by rw [e3, e1]; simp, by rw [e4, e2]; simp, ?_⟩
          exact (List.perm_append_comm.trans (p1.append_right _)).append p2
    · obtain rfl := Except.ok.inj h
      exact ⟨[], [], by simp, by simp, List.Perm.refl _⟩

theorem computeBestPartitionsC_fst (ops : PartOps F K P T) (strict : Bool) (fuel : Nat) (t lo hi : F) (st : PState F K P T) :
    (computeBestPartitionsC ops strict fuel t lo hi st).map Prod.fst = computeBestPartitions ops strict fuel t lo hi st := by
  unfold computeBestPartitionsC computeBestPartitions
  cases ops.best lo with
  | error e => rfl
  | ok pmin =>
    simp only [okBind]
    cases ops.best hi with
    | error e => rfl
    | ok pmax =>
      simp only [okBind]
      rw [← addBestC_fst ops t fuel pmin pmax _ [lo, hi]]
      cases addBestC ops t fuel pmin pmax (⟨[] ++ [lo], mapInsert lo pmin []⟩, [lo, hi]) with
      | error e => rfl
      | ok r =>
        change (((dedup ops strict _ _ >>= _ : Res _)).map Prod.fst) = ((dedup ops strict _ _ >>= _ : Res _))
        cases dedup ops strict ((r.1.pList ++ [hi]).length - 1) ⟨r.1.pList ++ [hi], mapInsert hi pmax r.1.partitions⟩ with
        | error e => rfl
        | ok a => rfl

end

section
variable {F K P T : Type} [FloatP F K]

theorem addBestC_mono (ops : PartOps F K P T) (t : F) : ∀ (fuel : Nat) (a b : P) (s r : Acc F P × List F),
    addBestC ops t fuel a b s = .ok r → addBestC ops t (fuel + 1) a b s = .ok r := by
  intro fuel
  induction fuel with
  | zero => intro a b s r h; cases h
  | succ fuel ih =>
    intro a b s r h
    unfold addBestC at h ⊢
    split at h
    · rename_i hc
      rw [if_pos hc]
      dsimp only at h ⊢
      revert h
      generalize FloatP.add (ops.param a) (FloatP.half (FloatP.sub (ops.param b) (ops.param a))) = m
      intro h
      cases hb : ops.best m with
      | error e => rw [hb] at h; cases h
      | ok mid =>
        rw [hb] at h
        simp only [okBind] at h ⊢
        cases h1 : addBestC ops t fuel a mid (s.1, s.2 ++ [m]) with
        | error e => rw [h1] at h; cases h
        | ok r1 =>
          rw [h1] at h
          rw [ih _ _ _ _ h1]
          exact ih _ _ _ _ h
    · rename_i hc
      rw [if_neg hc]
      exact h

theorem computeBestPartitionsC_mono (ops : PartOps F K P T) (strict : Bool) (fuel : Nat) (t lo hi : F) (st : PState F K P T)
    (r : PState F K P T × List F) (h : computeBestPartitionsC ops strict fuel t lo hi st = .ok r) :
    computeBestPartitionsC ops strict (fuel + 1) t lo hi st = .ok r := by
  unfold computeBestPartitionsC at h ⊢
  cases h1 : ops.best lo with
  | error e => rw [h1] at h; cases h
  | ok pmin =>
    cases h2 : ops.best hi with
    | error e => rw [h1, h2] at h; cases h
    | ok pmax =>
      rw [h1, h2] at h
      simp only [okBind] at h ⊢
      cases h3 : addBestC ops t fuel pmin pmax (⟨[] ++ [lo], mapInsert lo pmin []⟩, [lo, hi]) with
      | error e => rw [h3] at h; cases h
      | ok r1 =>
        rw [h3] at h
        rw [addBestC_mono ops t _ _ _ _ _ h3]
        exact h

end

/-! ## Changes along a list -/

section
variable {F : Type}

/-- Number of elements that differ from their predecessor. -/
def changes (same : F → F → Bool) : List F → Nat
  | x :: y :: l => (if same y x then 0 else 1) + changes same (y :: l)
  | _ => 0

theorem keepAux_length (same : F → F → Bool) : ∀ (l : List F) (x : F),
    (keepAux same x l).length = changes same (x :: l) := by
  intro l
  induction l with
  | nil => intro x; rfl
  | cons y l ih =>
    intro x
    simp only [keepAux, changes]
    split <;> simp [ih, Nat.add_comm]

theorem keep_length (same : F → F → Bool) (x : F) (l : List F) :
    (keep same (x :: l)).length = changes same (x :: l) + 1 := by
  simp [keep, keepAux_length]

theorem changes_split (same : F → F → Bool) (m : F) (l2 : List F) : ∀ (l1 : List F),
    changes same (l1 ++ m :: l2) = changes same (l1 ++ [m]) + changes same (m :: l2) := by
  intro l1
  induction l1 with
  | nil => simp [changes]
  | cons x l1 ih =>
    cases l1 with
    | nil => simp [changes]
    | cons y l1 =>
      simp only [List.cons_append, changes] at ih ⊢
      rw [ih]; omega

theorem changes_pos {same : F → F → Bool} (hr : ∀ x, same x x = true)
    (ht : ∀ x y z, same x y = true → same y z = true → same x z = true) (b : F) : ∀ (l : List F) (a : F),
    same b a = false → 0 < changes same (a :: l ++ [b]) := by
  intro l
  induction l with
  | nil => intro a h; simp [changes, h]
  | cons y l ih =>
    intro a h
    simp only [List.cons_append, changes]
    cases hy : same y a with
    | false => simp
    | true =>
      have : same b y = false := by
        rw [Bool.eq_false_iff]; intro h'
        rw [ht _ _ _ h' hy] at h; simp at h
      have := ih y this
      simp only [List.cons_append] at this
      omega

end

section
variable {F K P T : Type} [Field K] [LinearOrder K] [FloatP F K] {u : K} {ops : PartOps F K P T} {B : F → P}

/-- At most `fuel - 1` midpoints per change. -/
theorem addBest_count (so : SearchOps ops B) (t : F) : ∀ (fuel : Nat) (a b : F) (s s' : Acc F P),
    addBest ops t (fuel + 1) (B a) (B b) s = .ok s' →
    ∃ S, s'.pList = s.pList ++ S ∧ S.length ≤ fuel * changes (fun x y => ops.same (B x) (B y)) (a :: S ++ [b]) := by
  intro fuel
  induction fuel with
  | zero =>
    intro a b s s' h
    rw [addBest_eq so] at h
    split at h
    · exact absurd h (by simp [addBest])
    · obtain rfl := Except.ok.inj h
      exact ⟨[], by simp, by simp⟩
  | succ fuel ih =>
    intro a b s s' h
    rw [addBest_eq so] at h
    split at h
    · rename_i hc
      cases h1 : addBest ops t (fuel + 1) (B a) (B (midp a b)) s with
      | error e => rw [h1] at h; cases h
      | ok s1 =>
        rw [h1] at h
        simp only [okBind] at h
        obtain ⟨S1, e1, l1⟩ := ih _ _ _ _ h1
        obtain ⟨S2, e2, l2⟩ := ih _ _ _ _ h
        dsimp only at e2
        refine ⟨S1 ++ midp a b :: S2, by rw [e2, e1]; simp, ?_⟩
        have sp := changes_split (fun x y => ops.same (B x) (B y)) (midp a b) (S2 ++ [b]) (a :: S1)
        have eq : a :: (S1 ++ midp a b :: S2) ++ [b] = (a :: S1) ++ midp a b :: (S2 ++ [b]) := by simp
        rw [eq]
        have pos : 0 < changes (fun x y => ops.same (B x) (B y)) ((a :: S1) ++ midp a b :: (S2 ++ [b])) := by
          rw [← eq]
          refine changes_pos (fun x => so.refl x) (fun x y z => so.trans x y z) b _ a ?_
          rw [Bool.eq_false_iff]; intro h'
          rw [so.symm _ _ h'] at hc
          simp at hc
        simp only [List.cons_append] at sp pos l1 l2 ⊢
        rw [sp] at pos ⊢
        simp only [List.length_append, List.length_cons]
        generalize changes (fun x y => ops.same (B x) (B y)) (a :: (S1 ++ [midp a b])) = x at *
        generalize changes (fun x y => ops.same (B x) (B y)) (midp a b :: (S2 ++ [b])) = y at *
        have : (fuel + 1) * (x + y) = fuel * x + fuel * y + (x + y) := by ring
        omega
    · obtain rfl := Except.ok.inj h
      exact ⟨[], by simp, by simp⟩

/-- The midpoints are at most as many as the inner nodes of a binary tree. -/
theorem addBest_tree (so : SearchOps ops B) (t : F) : ∀ (fuel : Nat) (a b : F) (s s' : Acc F P),
    addBest ops t (fuel + 1) (B a) (B b) s = .ok s' →
    s'.pList.length + 1 ≤ s.pList.length + 2 ^ fuel := by
  intro fuel
  induction fuel with
  | zero =>
    intro a b s s' h
    rw [addBest_eq so] at h
    split at h
    · exact absurd h (by simp [addBest])
    · obtain rfl := Except.ok.inj h
      simp
  | succ fuel ih =>
    intro a b s s' h
    rw [addBest_eq so] at h
    split at h
    · cases h1 : addBest ops t (fuel + 1) (B a) (B (midp a b)) s with
      | error e => rw [h1] at h; cases h
      | ok s1 =>
        rw [h1] at h
        simp only [okBind] at h
        have l1 := ih _ _ _ _ h1
        have l2 := ih _ _ _ _ h
        simp only [List.length_append, List.length_cons, List.length_nil] at l2
        rw [pow_succ]
        omega
    · obtain rfl := Except.ok.inj h
      have := Nat.one_le_two_pow (n := fuel + 1)
      omega

/-- Depth of the recursion: `2^N` thresholds (less the rounding) cover the interval. -/
theorem addBest_depth [IsStrictOrderedRing K] (fl : FloatLaws F K u) (so : SearchOps ops B) {t : F} :
    ∀ (N : Nat) (a b : F), (0 : K) ≤ num a → (num a : K) ≤ num b → (num b : K) ≤ 1 →
      (num b : K) - num a ≤ 2 ^ N * (num t - 6 * u) + 5 * u →
      ∀ s : Acc F P, ∃ s', addBest ops t (N + 1) (B a) (B b) s = .ok s' := by
  have hu0 := fl.err_nonneg
  intro N
  induction N with
  | zero =>
    intro a b h0 hab h1 hg s
    rw [addBest_eq so]
    have hs := (abs_le.mp (fl.sub_err a b h0 hab h1)).2
    have : FloatP.lt t (FloatP.sub b a) = false := by
      apply lt_false fl
      simp only [pow_zero, one_mul] at hg
      change (FloatP.toK (FloatP.sub b a) : K) ≤ num t
      simp only [num] at hg ⊢
      linarith
    rw [this]
    exact ⟨s, by simp⟩
  | succ N ih =>
    intro a b h0 hab h1 hg s
    rw [addBest_eq so]
    split
    · have hm := fl.mid a b h0 hab h1
      change (num a : K) ≤ num (midp a b) ∧ (num (midp a b) : K) ≤ num b at hm
      have hs := abs_le.mp (fl.sub_err a b h0 hab h1)
      obtain ⟨s0, s1⟩ := fl.sub_nonneg a b h0 hab h1
      have hh := abs_le.mp (fl.half_err _ s0 s1)
      obtain ⟨t0, t1⟩ := fl.half_nonneg _ s0 s1
      have ha := abs_le.mp (fl.add_err a (FloatP.half (FloatP.sub b a)) h0 (le_trans hab h1) t0 t1
        (by simp only [num] at hab h1; linarith))
      have em : (FloatP.toK (FloatP.add a (FloatP.half (FloatP.sub b a))) : K) = FloatP.toK (midp a b) := rfl
      rw [em] at ha
      simp only [num] at *
      have e : (2 : K) ^ (N + 1) * (FloatP.toK t - 6 * u) = 2 * (2 ^ N * (FloatP.toK t - 6 * u)) := by ring
      rw [e] at hg
      obtain ⟨ha1, ha2⟩ := ha
      obtain ⟨hh1, hh2⟩ := hh
      obtain ⟨hs1, hs2⟩ := hs
      have g1 : (FloatP.toK (midp a b) : K) - FloatP.toK a ≤ 2 ^ N * (FloatP.toK t - 6 * u) + 5 * u := by linarith
      have g2 : (FloatP.toK b : K) - FloatP.toK (midp a b) ≤ 2 ^ N * (FloatP.toK t - 6 * u) + 5 * u := by linarith
      obtain ⟨s1, e1⟩ := ih a (midp a b) h0 hm.1 (le_trans hm.2 h1) g1 s
      rw [e1, okBind]
      exact ih (midp a b) b (le_trans h0 hm.1) hm.2 h1 g2 _
    · exact ⟨s, rfl⟩

end
end Lp

import Verif.Model.Partitioner
import Verif.Spec.Float
import Mathlib.Data.List.Chain
import Mathlib.Algebra.Order.Archimedean.Basic

/-!
# The search for the significant parameters
-/

namespace Lp
variable {F K P T : Type} [Field K] [LinearOrder K] [FloatP F K] {u : K}

/-- What the search uses of a partitioner: `computeBestPartition` succeeds (with result `B p`), the partition
knows its parameter, and `==` is an equivalence relation on the results. -/
structure SearchOps (ops : PartOps F K P T) (B : F → P) : Prop where
  best : ∀ p, ops.best p = .ok (B p)
  param : ∀ p, ops.param (B p) = p
  refl : ∀ p, ops.same (B p) (B p) = true
  symm : ∀ p q, ops.same (B p) (B q) = true → ops.same (B q) (B p) = true
  trans : ∀ p q r, ops.same (B p) (B q) = true → ops.same (B q) (B r) = true → ops.same (B p) (B r) = true

/-- `C25` for these operations. -/
def IntervalOps (ops : PartOps F K P T) (B : F → P) : Prop :=
  ∀ a p b : F, (0 : K) ≤ FloatP.toK a → (FloatP.toK a : K) ≤ FloatP.toK p → (FloatP.toK p : K) ≤ FloatP.toK b →
    (FloatP.toK b : K) ≤ 1 → ops.same (B a) (B b) = true → ops.same (B a) (B p) = true

/-- Number of a parameter. -/
abbrev num (p : F) : K := FloatP.toK p

/-- Midpoint as the code computes it. -/
def midp (a b : F) : F := FloatP.add a (FloatP.half (FloatP.sub b a))

section maps
variable (fl : FloatLaws F K u) (B : F → P)
include fl

theorem lt_false {a b : F} (h : (num b : K) ≤ num a) : FloatP.lt a b = false := by
  rw [Bool.eq_false_iff]
  intro h'
  exact absurd ((fl.lt_iff a b).mp h') (not_lt.mpr h)

theorem lt_irrefl' (a : F) : FloatP.lt a a = false := lt_false fl (le_refl _)

theorem eq_of_not_lt {a b : F} (h1 : FloatP.lt a b = false) (h2 : FloatP.lt b a = false) : a = b := by
  apply fl.inj
  apply le_antisymm
  · rw [← not_lt]; intro h; rw [(fl.lt_iff b a).mpr h] at h2; simp at h2
  · rw [← not_lt]; intro h; rw [(fl.lt_iff a b).mpr h] at h1; simp at h1

theorem mapInsert_last {V : Type} (k : F) (v : V) : ∀ m : List (F × V), (∀ e ∈ m, (num e.1 : K) < num k) →
    mapInsert k v m = m ++ [(k, v)] := by
  intro m
  induction m with
  | nil => intro _; rfl
  | cons e m ih =>
    intro h
    have he := h e (by simp)
    unfold mapInsert
    rw [lt_false fl he.le, (fl.lt_iff _ _).mpr he]
    simp [ih (fun x hx => h x (by simp [hx]))]

theorem mapFind_ent {l : List F} {k : F} (h : k ∈ l) : mapFind k (l.map (fun p => (p, B p))) = some (B k) := by
  induction l with
  | nil => simp at h
  | cons x l ih =>
    simp only [List.map_cons, mapFind]
    split
    · rename_i hc
      simp at hc
      rw [eq_of_not_lt fl hc.1 hc.2]
    · rename_i hc
      rcases List.mem_cons.mp h with rfl | h
      · simp [lt_irrefl' fl] at hc
      · exact ih h

theorem mapDeref_ent {l : List F} {k : F} (h : k ∈ l) : mapDeref k (l.map (fun p => (p, B p))) = .ok (B k) := by
  unfold mapDeref; rw [mapFind_ent fl B h]

theorem mapErase_ent {l1 l2 : List F} {k : F} (h : k ∉ l1) :
    mapErase k ((l1 ++ k :: l2).map (fun p => (p, B p))) = (l1 ++ l2).map (fun p => (p, B p)) := by
  induction l1 with
  | nil => simp [mapErase, lt_irrefl' fl]
  | cons x l1 ih =>
    simp only [List.cons_append, List.map_cons, mapErase]
    split
    · rename_i hc
      simp at hc
      exact absurd (eq_of_not_lt fl hc.1 hc.2) (fun e => h (by simp [e]))
    · rw [ih (fun h' => h (by simp [h']))]

end maps

variable {ops : PartOps F K P T} {B : F → P}

/-- One call of `addBestQualities` on results. -/
theorem addBest_eq (so : SearchOps ops B) (t : F) (fuel : Nat) (a b : F) (s : Acc F P) :
    addBest ops t (fuel + 1) (B a) (B b) s =
      if !(ops.same (B a) (B b)) && FloatP.lt t (FloatP.sub b a) then
        (addBest ops t fuel (B a) (B (midp a b)) s >>= fun s =>
          addBest ops t fuel (B (midp a b)) (B b)
            ⟨s.pList ++ [midp a b], mapInsert (midp a b) (B (midp a b)) s.partitions⟩)
      else .ok s := by
  rw [addBest, so.param, so.param]
  split
  · simp only [so.best, okBind]; rfl
  · rfl

/-- If the midpoint is one of the ends the search does not return. -/
theorem addBest_stuck (so : SearchOps ops B) {t a b : F} (h1 : ops.same (B a) (B b) = false)
    (h2 : FloatP.lt t (FloatP.sub b a) = true) (hm : midp a b = a ∨ midp a b = b) :
    ∀ (fuel : Nat) (s : Acc F P), addBest ops t fuel (B a) (B b) s = .error .outOfFuel := by
  intro fuel
  induction fuel with
  | zero => intro s; rfl
  | succ fuel ih =>
    intro s
    rw [addBest_eq so, h1, h2]
    simp only [Bool.not_false, Bool.and_self, if_true]
    rcases hm with hm | hm
    · rw [hm]
      cases h : addBest ops t fuel (B a) (B a) s with
      | error e =>
        cases fuel with
        | zero => simp [addBest] at h; rw [← h]; rfl
        | succ fuel => rw [addBest_eq so, so.refl] at h; simp at h
      | ok s' => rw [okBind]; exact ih _
    · rw [hm, ih]; rfl

/-- The relation between consecutive sampled parameters. -/
def Resolved (ops : PartOps F K P T) (B : F → P) (t x y : F) : Prop :=
  (num x : K) < num y ∧ (ops.same (B x) (B y) = true ∨ FloatP.lt t (FloatP.sub y x) = false)

theorem resolved_pairwise {t : F} {l : List F} (hc : List.IsChain (Resolved ops B t) l) :
    l.Pairwise (fun x y => (num x : K) < num y) := by
  have hch : List.IsChain (fun x y => (num x : K) < num y) l := hc.imp (fun x y hxy => hxy.1)
  haveI : Trans (fun x y : F => (num x : K) < num y) (fun x y : F => (num x : K) < num y)
    (fun x y : F => (num x : K) < num y) := ⟨fun h h' => lt_trans h h'⟩
  exact List.isChain_iff_pairwise.mp hch

/-- What a terminating search collects between `a` and `b`. -/
theorem addBest_spec (fl : FloatLaws F K u) (so : SearchOps ops B) (t : F) : ∀ (fuel : Nat) (a b : F) (l : List F)
    (s' : Acc F P), (0 : K) ≤ num a → (num a : K) < num b → (num b : K) ≤ 1 → (∀ x ∈ l, (num x : K) ≤ num a) →
    addBest ops t fuel (B a) (B b) ⟨l, l.map (fun p => (p, B p))⟩ = .ok s' →
    ∃ S, s' = ⟨l ++ S, (l ++ S).map (fun p => (p, B p))⟩ ∧ List.IsChain (Resolved ops B t) (a :: S ++ [b]) ∧
      ∀ x ∈ S, (num a : K) < num x ∧ (num x : K) < num b := by
  intro fuel
  induction fuel with
  | zero => intro a b l s' _ _ _ _ h; simp [addBest] at h
  | succ fuel ih =>
    intro a b l s' h0 hab h1 hl h
    by_cases hc : (!(ops.same (B a) (B b)) && FloatP.lt t (FloatP.sub b a)) = true
    · have hm := fl.mid a b h0 hab.le h1
      change (num a : K) ≤ num (midp a b) ∧ (num (midp a b) : K) ≤ num b at hm
      have hne : midp a b ≠ a ∧ midp a b ≠ b := by
        rw [← not_or]
        intro hm'
        simp at hc
        rw [addBest_stuck so hc.1 hc.2 hm'] at h
        simp at h
      have m1 : (num a : K) < num (midp a b) := lt_of_le_of_ne hm.1 (fun e => hne.1 (fl.inj _ _ e.symm))
      have m2 : (num (midp a b) : K) < num b := lt_of_le_of_ne hm.2 (fun e => hne.2 (fl.inj _ _ e))
      rw [addBest_eq so, if_pos hc] at h
      cases hL : addBest ops t fuel (B a) (B (midp a b)) ⟨l, l.map (fun p => (p, B p))⟩ with
      | error e => rw [hL] at h; simp at h
      | ok s1 =>
        rw [hL, okBind] at h
        obtain ⟨S1, rfl, c1, b1⟩ := ih a (midp a b) l s1 h0 m1 (le_trans m2.le h1) hl hL
        have hkeys : ∀ x ∈ l ++ S1, (num x : K) < num (midp a b) := by
          intro x hx
          rcases List.mem_append.mp hx with hx | hx
          · exact lt_of_le_of_lt (hl x hx) m1
          · exact (b1 x hx).2
        simp only at h
        rw [mapInsert_last fl _ _ _ (by
          intro e he
          obtain ⟨x, hx, rfl⟩ := List.mem_map.mp he
          exact hkeys x hx)] at h
        have e : (l ++ S1).map (fun p => (p, B p)) ++ [(midp a b, B (midp a b))] =
            (l ++ S1 ++ [midp a b]).map (fun p => (p, B p)) := by simp
        rw [e] at h
        obtain ⟨S2, rfl, c2, b2⟩ := ih (midp a b) b (l ++ S1 ++ [midp a b]) s' (le_trans h0 m1.le) m2 h1 (by
          intro x hx
          rcases List.mem_append.mp hx with hx | hx
          · exact (hkeys x hx).le
          · simp at hx; subst hx; exact le_refl _) h
        refine ⟨S1 ++ midp a b :: S2, by simp, ?_, ?_⟩
        · have : a :: (S1 ++ midp a b :: S2) ++ [b] = (a :: S1) ++ midp a b :: (S2 ++ [b]) := by simp
          rw [this, List.isChain_split]
          exact ⟨by simpa using c1, by simpa using c2⟩
        · intro x hx
          rcases List.mem_append.mp hx with hx | hx
          · exact ⟨(b1 x hx).1, lt_trans (b1 x hx).2 m2⟩
          · rcases List.mem_cons.mp hx with rfl | hx
            · exact ⟨m1, m2⟩
            · exact ⟨lt_trans m1 (b2 x hx).1, (b2 x hx).2⟩
    · rw [addBest_eq so, if_neg hc] at h
      obtain rfl := Except.ok.inj h
      refine ⟨[], by simp, ?_, by simp⟩
      simp only [List.singleton_append, List.isChain_cons_cons, List.isChain_singleton, and_true]
      refine ⟨hab, ?_⟩
      simp at hc
      cases hs : ops.same (B a) (B b) with
      | true => exact Or.inl rfl
      | false => right; exact hc hs

/-! ## Removing repetitions -/

/-- What follows `x` after removing every element equal to its predecessor. -/
def keepAux (same : F → F → Bool) : F → List F → List F
  | _, [] => []
  | x, y :: l => if same y x then keepAux same y l else y :: keepAux same y l

/-- The first elements of the runs of equal partitions. -/
def keep (same : F → F → Bool) : List F → List F
  | [] => []
  | x :: l => x :: keepAux same x l

omit [FloatP F K] in
theorem keepAux_snoc (same : F → F → Bool) (z : F) : ∀ (l : List F) (x : F),
    keepAux same x (l ++ [z]) =
      keepAux same x l ++ if same z ((x :: l).getLast (by simp)) then [] else [z] := by
  intro l
  induction l with
  | nil => intro x; rfl
  | cons y l ih =>
    intro x
    simp only [List.cons_append, keepAux]
    have e : (x :: y :: l).getLast (by simp) = (y :: l).getLast (by simp) := by simp
    split
    · rw [ih, e]
    · rw [ih, e]; rfl

omit [FloatP F K] in
theorem keep_snoc (same : F → F → Bool) (l : List F) (y x : F) :
    keep same (l ++ [y, x]) = keep same (l ++ [y]) ++ if same x y then [] else [x] := by
  cases l with
  | nil => simp [keep, keepAux]
  | cons a l =>
    simp only [List.cons_append, keep]
    have : l ++ [y, x] = (l ++ [y]) ++ [x] := by simp
    rw [this, keepAux_snoc]
    simp

omit [FloatP F K] [LinearOrder K] [Field K] in
theorem eraseIdx_mid {l1 l2 : List F} {x : F} {i : Nat} (h : l1.length = i) : (l1 ++ x :: l2).eraseIdx i = l1 ++ l2 := by
  subst h
  rw [List.eraseIdx_append_of_length_le (le_refl _)]
  simp

/-- The duplicate-removing loop keeps the first element of every run. -/
theorem dedup_spec (fl : FloatLaws F K u) (so : SearchOps ops B) : ∀ (idx : Nat) (pre post : List F),
    pre.length = idx + 1 → (pre ++ post).Nodup →
    dedup ops false idx ⟨pre ++ post, (pre ++ post).map (fun p => (p, B p))⟩ =
      .ok ⟨keep (fun x y => ops.same (B x) (B y)) pre ++ post,
        (keep (fun x y => ops.same (B x) (B y)) pre ++ post).map (fun p => (p, B p))⟩ := by
  intro idx
  induction idx with
  | zero =>
    intro pre post hp _
    match pre, hp with
    | [x], _ => simp [dedup, keep, keepAux]
  | succ idx ih =>
    intro pre post hp hnd
    obtain ⟨pre', y, x, rfl⟩ : ∃ pre' y x, pre = pre' ++ [y, x] := by
      have h1 : pre ≠ [] := by rintro rfl; simp at hp
      obtain ⟨p1, x, rfl⟩ : ∃ p1 x, pre = p1 ++ [x] := ⟨_, _, (List.dropLast_append_getLast h1).symm⟩
      have h2 : p1 ≠ [] := by rintro rfl; simp at hp
      obtain ⟨p2, y, rfl⟩ : ∃ p2 y, p1 = p2 ++ [y] := ⟨_, _, (List.dropLast_append_getLast h2).symm⟩
      exact ⟨p2, y, x, by simp⟩
    have hlen : pre'.length = idx := by simp at hp; omega
    have e0 : pre' ++ [y, x] ++ post = (pre' ++ [y]) ++ x :: post := by simp
    rw [keep_snoc]
    unfold dedup
    rw [e0] at hnd ⊢
    have gx : vget (pre' ++ [y] ++ x :: post) (idx + 1) = .ok x := by
      rw [vget_eq_ok, List.getElem?_append_right (by simp; omega)]
      simp [hlen]
    have gy : vget (pre' ++ [y] ++ x :: post) idx = .ok y := by
      rw [vget_eq_ok, List.append_assoc, List.getElem?_append_right (by omega)]
      simp [hlen]
    simp only [gx, gy, okBind]
    rw [mapDeref_ent fl B (by simp), mapDeref_ent fl B (by simp)]
    simp only [okBind]
    have hx : x ∉ pre' ++ [y] := by
      intro h
      rw [List.nodup_append] at hnd
      exact hnd.2.2 x h x (by simp) rfl
    split
    · rename_i hs
      simp only [Bool.false_eq_true, if_false]
      rw [mapErase_ent fl B hx, eraseIdx_mid (by simp [hlen])]
      rw [List.append_nil]
      exact ih (pre' ++ [y]) post (by simp [hlen]) (by
        have : (pre' ++ [y] ++ post).Sublist (pre' ++ [y] ++ x :: post) :=
          List.Sublist.append_left (List.sublist_cons_self _ _) _
        exact hnd.sublist this)
    · rename_i hs
      have := ih (pre' ++ [y]) (x :: post) (by simp [hlen]) hnd
      rw [this]; simp

/-- What the search returns on `lo < hi` once the sampling has returned. -/
theorem search_ok_list (fl : FloatLaws F K u) (so : SearchOps ops B) {fuel : Nat} {t lo hi : F} {st : PState F K P T}
    {s1 : Acc F P} (h0 : (0 : K) ≤ num lo) (hlt : (num lo : K) < num hi) (h1 : (num hi : K) ≤ 1)
    (hA : addBest ops t fuel (B lo) (B hi) ⟨[lo], [lo].map (fun p => (p, B p))⟩ = .ok s1) :
    ∃ (S : List F) (st' : PState F K P T), s1.pList = lo :: S ∧ computeBestPartitions ops false fuel t lo hi st = .ok st' ∧
      List.IsChain (Resolved ops B t) (lo :: S ++ [hi]) ∧
      (∀ x ∈ S, (num lo : K) < num x ∧ (num x : K) < num hi) ∧
      st'.pList = keep (fun x y => ops.same (B x) (B y)) (lo :: S ++ [hi]) ∧
      st'.partitions = st'.pList.map (fun p => (p, B p)) ∧
      st'.qualityList = st'.partitions.foldl (fun m e => mapInsert e.1 (ops.quality e.2) m) [] ∧
      st'.tuples = st'.partitions.foldl (fun l e => l ++ ops.rows e.1 e.2) [] := by
  unfold computeBestPartitions
  simp only [so.best, okBind, List.nil_append]
  have e1 : (mapInsert lo (B lo) [] : List (F × P)) = [lo].map (fun p => (p, B p)) := rfl
  rw [e1, hA]
  obtain ⟨S, rfl, hc, hb⟩ := addBest_spec fl so t fuel lo hi [lo] s1 h0 hlt h1 (by simp) hA
  simp only [okBind]
  rw [mapInsert_last fl _ _ _ (by
    intro e he
    obtain ⟨x, hx, rfl⟩ := List.mem_map.mp he
    rcases List.mem_append.mp hx with hx | hx
    · simp at hx; subst hx; exact hlt
    · exact (hb x hx).2)]
  have e2 : ([lo] ++ S).map (fun p => (p, B p)) ++ [(hi, B hi)] = (lo :: S ++ [hi]).map (fun p => (p, B p)) := by simp
  have e3 : [lo] ++ S ++ [hi] = lo :: S ++ [hi] := rfl
  rw [e2, e3]
  have hpair := resolved_pairwise hc
  have hnd : (lo :: S ++ [hi]).Nodup := hpair.imp (fun {x y} hxy e => by subst e; exact lt_irrefl _ hxy)
  have := dedup_spec fl so ((lo :: S ++ [hi]).length - 1) (lo :: S ++ [hi]) [] (by simp) (by simpa using hnd)
  rw [List.append_nil, List.append_nil] at this
  rw [this]
  exact ⟨S, _, rfl, rfl, hc, hb, rfl, rfl, rfl, rfl⟩

theorem search_ok (fl : FloatLaws F K u) (so : SearchOps ops B) {fuel : Nat} {t lo hi : F} {st : PState F K P T}
    {s1 : Acc F P} (h0 : (0 : K) ≤ num lo) (hlt : (num lo : K) < num hi) (h1 : (num hi : K) ≤ 1)
    (hA : addBest ops t fuel (B lo) (B hi) ⟨[lo], [lo].map (fun p => (p, B p))⟩ = .ok s1) :
    ∃ (S : List F) (st' : PState F K P T), computeBestPartitions ops false fuel t lo hi st = .ok st' ∧
      List.IsChain (Resolved ops B t) (lo :: S ++ [hi]) ∧
      (∀ x ∈ S, (num lo : K) < num x ∧ (num x : K) < num hi) ∧
      st'.pList = keep (fun x y => ops.same (B x) (B y)) (lo :: S ++ [hi]) ∧
      st'.partitions = st'.pList.map (fun p => (p, B p)) ∧
      st'.qualityList = st'.partitions.foldl (fun m e => mapInsert e.1 (ops.quality e.2) m) [] ∧
      st'.tuples = st'.partitions.foldl (fun l e => l ++ ops.rows e.1 e.2) [] := by
  obtain ⟨S, st', _, r⟩ := search_ok_list fl so (st := st) h0 hlt h1 hA
  exact ⟨S, st', r⟩

/-- A search on `lo < hi` that returns. -/
theorem search_spec (fl : FloatLaws F K u) (so : SearchOps ops B) {fuel : Nat} {t lo hi : F} {st st' : PState F K P T}
    (h0 : (0 : K) ≤ num lo) (hlt : (num lo : K) < num hi) (h1 : (num hi : K) ≤ 1)
    (h : computeBestPartitions ops false fuel t lo hi st = .ok st') :
    ∃ S, List.IsChain (Resolved ops B t) (lo :: S ++ [hi]) ∧
      (∀ x ∈ S, (num lo : K) < num x ∧ (num x : K) < num hi) ∧
      st'.pList = keep (fun x y => ops.same (B x) (B y)) (lo :: S ++ [hi]) ∧
      st'.partitions = st'.pList.map (fun p => (p, B p)) ∧
      st'.qualityList = st'.partitions.foldl (fun m e => mapInsert e.1 (ops.quality e.2) m) [] ∧
      st'.tuples = st'.partitions.foldl (fun l e => l ++ ops.rows e.1 e.2) [] := by
  cases hA : addBest ops t fuel (B lo) (B hi) ⟨[lo], [lo].map (fun p => (p, B p))⟩ with
  | error e =>
    unfold computeBestPartitions at h
    simp only [so.best, okBind, List.nil_append] at h
    have e1 : (mapInsert lo (B lo) [] : List (F × P)) = [lo].map (fun p => (p, B p)) := rfl
    rw [e1, hA] at h
    simp at h
  | ok s1 =>
    obtain ⟨S, st2, e, r⟩ := search_ok fl so (st := st) h0 hlt h1 hA
    rw [h] at e
    obtain rfl := Except.ok.inj e
    exact ⟨S, r⟩

/-! ## Termination -/

/-- For a threshold that is positive and at least `11u` the sampling of an interval returns within a number of
steps that depends only on the threshold. -/
theorem addBest_total [IsStrictOrderedRing K] (fl : FloatLaws F K u) (so : SearchOps ops B) {t : F}
    (ht : (0 : K) < num t) (hu : 11 * u ≤ num t) :
    ∀ (N : Nat) (a b : F), (0 : K) ≤ num a → (num a : K) ≤ num b → (num b : K) ≤ 1 →
      (num b : K) - num a ≤ (4 / 3) ^ N * (num t - u) →
      ∀ (fuel : Nat), N < fuel → ∀ s : Acc F P, ∃ s', addBest ops t fuel (B a) (B b) s = .ok s' := by
  have hu0 := fl.err_nonneg
  intro N
  induction N with
  | zero =>
    intro a b h0 hab h1 hg fuel hf s
    obtain ⟨fuel, rfl⟩ : ∃ f, fuel = f + 1 := ⟨fuel - 1, by omega⟩
    rw [addBest_eq so]
    have hs := (abs_le.mp (fl.sub_err a b h0 hab h1)).2
    have : FloatP.lt t (FloatP.sub b a) = false := by
      apply lt_false fl
      simp only [pow_zero, one_mul] at hg
      change (FloatP.toK (FloatP.sub b a) : K) ≤ num t
      simp only [num] at hg ⊢
      linarith
    rw [this]
    exact ⟨s, by simp⟩
  | succ N ih =>
    intro a b h0 hab h1 hg fuel hf s
    obtain ⟨fuel, rfl⟩ : ∃ f, fuel = f + 1 := ⟨fuel - 1, by omega⟩
    rw [addBest_eq so]
    by_cases hc : (!(ops.same (B a) (B b)) && FloatP.lt t (FloatP.sub b a)) = true
    · rw [if_pos hc]
      have hm := fl.mid a b h0 hab h1
      change (num a : K) ≤ num (midp a b) ∧ (num (midp a b) : K) ≤ num b at hm
      simp only [Bool.and_eq_true] at hc
      have hlt := (fl.lt_iff _ _).mp hc.2
      have hs := abs_le.mp (fl.sub_err a b h0 hab h1)
      obtain ⟨s0, s1⟩ := fl.sub_nonneg a b h0 hab h1
      have hh := abs_le.mp (fl.half_err _ s0 s1)
      obtain ⟨t0, t1⟩ := fl.half_nonneg _ s0 s1
      have ha := abs_le.mp (fl.add_err a (FloatP.half (FloatP.sub b a)) h0 (le_trans hab h1) t0 t1
        (by simp only [num] at hab h1; linarith))
      have em : (FloatP.toK (FloatP.add a (FloatP.half (FloatP.sub b a))) : K) = FloatP.toK (midp a b) := rfl
      rw [em] at ha
      simp only [num] at *
      have e : (4 / 3 : K) ^ (N + 1) * (FloatP.toK t - u) = 4 / 3 * ((4 / 3) ^ N * (FloatP.toK t - u)) := by ring
      rw [e] at hg
      obtain ⟨ha1, ha2⟩ := ha
      obtain ⟨hh1, hh2⟩ := hh
      obtain ⟨hs1, hs2⟩ := hs
      have g1 : (FloatP.toK (midp a b) : K) - FloatP.toK a ≤ (4 / 3) ^ N * (FloatP.toK t - u) := by linarith
      have g2 : (FloatP.toK b : K) - FloatP.toK (midp a b) ≤ (4 / 3) ^ N * (FloatP.toK t - u) := by linarith
      obtain ⟨s1, e1⟩ := ih a (midp a b) h0 hm.1 (le_trans hm.2 h1) g1 fuel (by omega) s
      rw [e1, okBind]
      exact ih (midp a b) b (le_trans h0 hm.1) hm.2 h1 g2 fuel (by omega) _
    · rw [if_neg hc]; exact ⟨s, rfl⟩

/-! ## Properties of what is kept -/

section keepProps
variable {same : F → F → Bool}

omit [FloatP F K] in
theorem keepAux_sublist : ∀ (l : List F) (x : F), (keepAux same x l).Sublist l := by
  intro l
  induction l with
  | nil => intro x; exact List.Sublist.refl _
  | cons y l ih =>
    intro x
    unfold keepAux
    split
    · exact (ih y).trans (List.sublist_cons_self _ _)
    · exact (ih y).cons_cons y

omit [FloatP F K] in
theorem keep_sublist (l : List F) : (keep same l).Sublist l := by
  cases l with
  | nil => exact List.Sublist.refl _
  | cons x l => exact (keepAux_sublist l x).cons_cons x

omit [FloatP F K] in
/-- Every element is equal to a kept one. -/
theorem keep_repr (hr : ∀ x, same x x = true) (ht : ∀ x y z, same x y = true → same y z = true → same x z = true) :
    ∀ (l : List F), ∀ z ∈ l, ∃ y ∈ keep same l, same z y = true := by
  have aux : ∀ (l : List F) (x : F), ∀ z ∈ l, ∃ y ∈ x :: keepAux same x l, same z y = true := by
    intro l
    induction l with
    | nil => intro x z hz; simp at hz
    | cons y l ih =>
      intro x z hz
      unfold keepAux
      rcases List.mem_cons.mp hz with rfl | hz
      · split
        · rename_i h; exact ⟨x, by simp, h⟩
        · exact ⟨z, by simp, hr z⟩
      · obtain ⟨w, hw, hs⟩ := ih y z hz
        split
        · rename_i h
          rcases List.mem_cons.mp hw with rfl | hw
          · exact ⟨x, by simp, ht _ _ _ hs h⟩
          · exact ⟨w, by simp [hw], hs⟩
        · exact ⟨w, by simp at hw; simp; tauto, hs⟩
  intro l z hz
  cases l with
  | nil => simp at hz
  | cons x l =>
    rcases List.mem_cons.mp hz with rfl | hz
    · exact ⟨z, by simp [keep], hr z⟩
    · exact aux l x z hz

/-- No two kept elements are equal. -/
theorem keep_distinct (hs : ∀ x y, same x y = true → same y x = true)
    (ht : ∀ x y z, same x y = true → same y z = true → same x z = true) (ok : F → Prop)
    (hi : ∀ x y z, ok x → ok y → ok z → (num x : K) < num y → (num y : K) < num z → same x z = true → same x y = true) :
    ∀ (l : List F), (∀ x ∈ l, ok x) → l.Pairwise (fun x y => (num x : K) < num y) →
      (keep same l).Pairwise (fun x y => same x y = false) := by
  have aux : ∀ (l : List F) (x : F), ok x → (∀ y ∈ l, ok y) → (x :: l).Pairwise (fun x y => (num x : K) < num y) →
      (∀ z ∈ keepAux same x l, same x z = false) ∧ (keepAux same x l).Pairwise (fun x y => same x y = false) := by
    intro l
    induction l with
    | nil => intro x _ _ _; simp [keepAux]
    | cons y l ih =>
      intro x hx hl hp
      rw [List.pairwise_cons] at hp
      obtain ⟨i1, i2⟩ := ih y (hl y (by simp)) (fun z hz => hl z (by simp [hz])) hp.2
      unfold keepAux
      split
      · rename_i h
        refine ⟨?_, i2⟩
        intro z hz
        have := i1 z hz
        rw [Bool.eq_false_iff] at this ⊢
        exact fun h' => this (ht _ _ _ h h')
      · rename_i h
        refine ⟨?_, List.pairwise_cons.mpr ⟨i1, i2⟩⟩
        intro z hz
        rcases List.mem_cons.mp hz with rfl | hz
        · rw [Bool.eq_false_iff]; exact fun h' => h (hs _ _ h')
        · rw [Bool.eq_false_iff]
          intro h'
          have hzl := (keepAux_sublist l y).mem hz
          have hyz := (List.pairwise_cons.mp hp.2).1 z hzl
          exact h (hs _ _ (hi x y z hx (hl y (by simp)) (hl z (by simp [hzl])) (hp.1 y (by simp)) hyz h'))
  intro l hok hp
  cases l with
  | nil => simp [keep]
  | cons x l =>
    obtain ⟨a, b⟩ := aux l x (hok x (by simp)) (fun y hy => hok y (by simp [hy])) hp
    exact List.pairwise_cons.mpr ⟨a, b⟩

omit [FloatP F K] in
/-- The last kept element is equal to the last element. -/
theorem keep_last (hr : ∀ x, same x x = true) (ht : ∀ x y z, same x y = true → same y z = true → same x z = true) :
    ∀ (l : List F) (z : F), ∃ k : List F, ∃ y, keep same (l ++ [z]) = k ++ [y] ∧ same z y = true := by
  have aux : ∀ (l : List F) (x z : F), ∃ k : List F, ∃ y, x :: keepAux same x (l ++ [z]) = k ++ [y] ∧ same z y = true := by
    intro l
    induction l with
    | nil =>
      intro x z
      simp only [List.nil_append, keepAux]
      split
      · rename_i h; exact ⟨[], x, rfl, h⟩
      · exact ⟨[x], z, rfl, hr z⟩
    | cons y l ih =>
      intro x z
      obtain ⟨k, w, h1, h2⟩ := ih y z
      simp only [List.cons_append, keepAux]
      split
      · rename_i h
        cases k with
        | nil =>
          simp only [List.nil_append, List.cons.injEq] at h1
          obtain ⟨rfl, h1⟩ := h1
          exact ⟨[], x, by rw [h1]; rfl, ht _ _ _ h2 h⟩
        | cons a k =>
          simp only [List.cons_append, List.cons.injEq] at h1
          exact ⟨x :: k, w, by rw [h1.2]; rfl, h2⟩
      · exact ⟨x :: k, w, by rw [h1]; rfl, h2⟩
  intro l z
  cases l with
  | nil => exact ⟨[], z, rfl, hr z⟩
  | cons x l => exact aux l x z

end keepProps

end Lp

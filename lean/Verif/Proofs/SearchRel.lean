import Verif.Model.Partitioner
import Verif.Proofs.Rel
import Mathlib.Data.List.Forall2

/-!
# Two searches over related partitions

If two partitioners give related partitions for every parameter, and the relation respects `operator==`, `getParameter`
and `getQuality`, their searches find the same parameters and the same qualities.
-/

namespace Lp
variable {F K P P' T T' : Type} [FloatP F K]

/-- Two maps with the same keys and related values. -/
def RelMap (R : P → P' → Prop) : List (F × P) → List (F × P') → Prop :=
  List.Forall₂ (fun x y => x.1 = y.1 ∧ R x.2 y.2)

omit [FloatP F K] in
theorem RelMap.length_eq {R : P → P' → Prop} {m : List (F × P)} {m' : List (F × P')} (h : RelMap R m m') :
    m.length = m'.length := List.Forall₂.length_eq h

theorem RelMap.insert {R : P → P' → Prop} {m : List (F × P)} {m' : List (F × P')} (h : RelMap R m m') (k : F) {v : P}
    {v' : P'} (hv : R v v') : RelMap R (mapInsert (K := K) k v m) (mapInsert (K := K) k v' m') := by
  induction h with
  | nil => exact .cons ⟨rfl, hv⟩ .nil
  | @cons x y l l' hxy hl ih =>
    obtain ⟨kx, vx⟩ := x
    obtain ⟨ky, vy⟩ := y
    obtain ⟨rfl, hr⟩ := hxy
    unfold mapInsert
    dsimp only
    split
    · exact .cons ⟨rfl, hv⟩ (.cons ⟨rfl, hr⟩ hl)
    · split
      · exact .cons ⟨rfl, hr⟩ ih
      · exact .cons ⟨rfl, hv⟩ hl

theorem RelMap.erase {R : P → P' → Prop} {m : List (F × P)} {m' : List (F × P')} (h : RelMap R m m') (k : F) :
    RelMap R (mapErase (K := K) k m) (mapErase (K := K) k m') := by
  induction h with
  | nil => exact .nil
  | @cons x y l l' hxy hl ih =>
    obtain ⟨kx, vx⟩ := x
    obtain ⟨ky, vy⟩ := y
    obtain ⟨rfl, hr⟩ := hxy
    unfold mapErase
    dsimp only
    split
    · exact hl
    · exact .cons ⟨rfl, hr⟩ ih

theorem RelMap.deref {R : P → P' → Prop} {m : List (F × P)} {m' : List (F × P')} (h : RelMap R m m') (k : F) :
    RelRes R (mapDeref (K := K) k m) (mapDeref (K := K) k m') := by
  induction h with
  | nil => rfl
  | @cons x y l l' hxy hl ih =>
    obtain ⟨kx, vx⟩ := x
    obtain ⟨ky, vy⟩ := y
    obtain ⟨rfl, hr⟩ := hxy
    unfold mapDeref at ih ⊢
    unfold mapFind
    dsimp only
    by_cases hc : (!(FloatP.lt (K := K) k kx) && !(FloatP.lt (K := K) kx k)) = true
    · simp only [hc, if_true]; exact hr
    · simp only [hc, Bool.false_eq_true, if_false]
      exact ih

/-- What two partitioners must have in common. -/
structure OpsRel (R : P → P' → Prop) (ops : PartOps F K P T) (ops' : PartOps F K P' T') : Prop where
  best : ∀ p, RelRes R (ops.best p) (ops'.best p)
  same : ∀ a a' b b', R a a' → R b b' → ops'.same a' b' = ops.same a b
  param : ∀ a a', R a a' → ops'.param a' = ops.param a
  quality : ∀ a a', R a a' → ops'.quality a' = ops.quality a

/-- Related intermediate states. -/
def AccRel (R : P → P' → Prop) (s : Acc F P) (s' : Acc F P') : Prop := s'.pList = s.pList ∧ RelMap R s.partitions s'.partitions

variable {R : P → P' → Prop} {ops : PartOps F K P T} {ops' : PartOps F K P' T'}

theorem addBest_rel (h : OpsRel R ops ops') (t : F) : ∀ (fuel : Nat) (a b : P) (a' b' : P') (s : Acc F P) (s' : Acc F P'),
    R a a' → R b b' → AccRel R s s' → RelRes (AccRel R) (addBest ops t fuel a b s) (addBest ops' t fuel a' b' s') := by
  intro fuel
  induction fuel with
  | zero => intro a b a' b' s s' _ _ _; rfl
  | succ fuel ih =>
    intro a b a' b' s s' ha hb hs
    unfold addBest
    rw [h.same a a' b b' ha hb, h.param a a' ha, h.param b b' hb]
    split
    · refine (h.best _).bind (fun x y hxy => ?_)
      refine (ih a x a' y s s' ha hxy hs).bind (fun u u' hu => ?_)
      exact ih x b y b' _ _ hxy hb ⟨by rw [hu.1], hu.2.insert _ hxy⟩
    · exact hs

theorem dedup_rel (h : OpsRel R ops ops') (strict : Bool) : ∀ (idx : Nat) (s : Acc F P) (s' : Acc F P'), AccRel R s s' →
    RelRes (AccRel R) (dedup ops strict idx s) (dedup ops' strict idx s') := by
  intro idx
  induction idx with
  | zero => intro s s' hs; exact hs
  | succ idx ih =>
    intro s s' hs
    unfold dedup
    rw [hs.1]
    refine (relRes_refl _).bind (fun x x' hx => ?_)
    subst hx
    refine (relRes_refl _).bind (fun y y' hy => ?_)
    subst hy
    refine (hs.2.deref x).bind (fun a a' ha => ?_)
    refine (hs.2.deref y).bind (fun b b' hb => ?_)
    rw [h.same a a' b b' ha hb]
    split
    · split
      · rfl
      · exact ih _ _ ⟨rfl, hs.2.erase x⟩
    · exact ih _ _ ⟨hs.1, hs.2⟩

/-- Related final states. -/
structure StateRel (R : P → P' → Prop) (g : T → T') (st : PState F K P T) (st' : PState F K P' T') : Prop where
  pList : st'.pList = st.pList
  partitions : RelMap R st.partitions st'.partitions
  qualityList : st'.qualityList = st.qualityList
  tuples : st'.tuples.Perm (st.tuples.map g)

/-- The two searches run alike. -/
theorem search_rel (h : OpsRel R ops ops') (g : T → T') (hrows : ∀ p a a', R a a' → (ops'.rows p a').Perm ((ops.rows p a).map g))
    (strict : Bool) (fuel : Nat) (t lo hi : F) (st : PState F K P T) (st' : PState F K P' T') :
    RelRes (StateRel R g) (computeBestPartitions ops strict fuel t lo hi st)
      (computeBestPartitions ops' strict fuel t lo hi st') := by
  unfold computeBestPartitions
  refine (h.best lo).bind (fun a a' ha => ?_)
  refine (h.best hi).bind (fun b b' hb => ?_)
  refine (addBest_rel h t fuel a b a' b' _ _ ha hb ⟨rfl, RelMap.insert .nil lo ha⟩).bind (fun s s' hs => ?_)
  have hl : (s'.pList ++ [hi]).length = (s.pList ++ [hi]).length := by rw [hs.1]
  dsimp only
  rw [hl]
  refine (dedup_rel h strict _ _ _ ⟨by rw [hs.1], hs.2.insert hi hb⟩).bind (fun u u' hu => ?_)
  have key : ∀ {m : List (F × P)} {m' : List (F × P')}, RelMap R m m' →
      (∀ z, m'.foldl (fun m e => mapInsert e.1 (ops'.quality e.2) m) z =
        m.foldl (fun m e => mapInsert e.1 (ops.quality e.2) m) z) ∧
      ∀ z z', z'.Perm (z.map g) → (m'.foldl (fun l e => l ++ ops'.rows e.1 e.2) z').Perm
        ((m.foldl (fun l e => l ++ ops.rows e.1 e.2) z).map g) := by
    intro m m' hm
    induction hm with
    | nil => exact ⟨fun _ => rfl, fun z z' hz => hz⟩
    | @cons x y l l' hxy hl ih =>
      refine ⟨fun z => ?_, fun z z' hz => ?_⟩
      · rw [List.foldl_cons, List.foldl_cons, ih.1, h.quality _ _ hxy.2, hxy.1]
      · rw [List.foldl_cons, List.foldl_cons]
        apply ih.2
        rw [List.map_append, hxy.1]
        exact hz.append (hrows _ _ _ hxy.2)
  exact ⟨hu.1, hu.2, (key hu.2).1 [], (key hu.2).2 [] [] (List.Perm.refl _)⟩

variable [LD K]

/-- `getP` and `computeAUC` look only at the parameters and qualities. -/
theorem getP_rel {g : T → T'} {st : PState F K P T} {st' : PState F K P' T'} (h : StateRel R g st st') (randMax : K) (s : Int) :
    getP randMax s st' = getP randMax s st := by
  unfold getP computePOpt
  rw [h.pList, h.qualityList]

theorem computeAUC_rel {g : T → T'} {st : PState F K P T} {st' : PState F K P' T'} (h : StateRel R g st st') (rnd : K → K) :
    computeAUC rnd st' = computeAUC rnd st := by
  unfold computeAUC
  rw [h.pList, h.qualityList]

end Lp

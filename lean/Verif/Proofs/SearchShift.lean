import Verif.Proofs.Mirror

/-!
# Two searches whose partitions have corresponding qualities

If the qualities of the best partitions of two partitioners correspond by an injective function for every parameter of
`[0,1]`, a search inside `[0,1]` finds the same parameters, and corresponding qualities.
-/

namespace Lp
open Spec
variable {F K P P' T T' : Type} [FloatP F K]

theorem dedup_relSame {R : P → P' → Prop} {ops : PartOps F K P T} {ops' : PartOps F K P' T'}
    (h : ∀ a a' b b', R a a' → R b b' → ops'.same a' b' = ops.same a b) (strict : Bool) :
    ∀ (idx : Nat) (s : Acc F P) (s' : Acc F P'), AccRel R s s' →
      RelRes (AccRel R) (dedup ops strict idx s) (dedup ops' strict idx s') := by
  intro idx
  induction idx with
  | zero => intro s s' hs; exact hs
  | succ idx ih =>
    intro s s' hs
    unfold dedup
    rw [hs.1]
    refine (relRes_refl _).bind (fun x x' hx => ?_)
    subst hx
    refine (relRes_refl _).bind (fun y y' hy => ?_)
    subst hy
    refine (hs.2.deref x).bind (fun a a' ha => ?_)
    refine (hs.2.deref y).bind (fun b b' hb => ?_)
    rw [h a a' b b' ha hb]
    split
    · split
      · rfl
      · exact ih _ _ ⟨rfl, hs.2.erase x⟩
    · exact ih _ _ ⟨hs.1, hs.2⟩

theorem mapInsert_map {V W : Type} (f : V → W) (k : F) (v : V) : ∀ m : List (F × V),
    mapInsert (K := K) k (f v) (m.map (fun e => (e.1, f e.2))) = (mapInsert (K := K) k v m).map (fun e => (e.1, f e.2)) := by
  intro m
  induction m with
  | nil => rfl
  | cons e m ih =>
    obtain ⟨k', v'⟩ := e
    simp only [List.map_cons, mapInsert]
    split
    · rfl
    · split
      · rw [ih]; rfl
      · rfl

variable [Field K] [LinearOrder K] {u : K}

/-- The relation between the partitions: the best ones for one parameter between 0 and 1. -/
def AtP (B : F → P) (B' : F → P') (X : P) (X' : P') : Prop :=
  ∃ p : F, (0 : K) ≤ FloatP.toK p ∧ (FloatP.toK p : K) ≤ 1 ∧ X = B p ∧ X' = B' p

theorem addBest_atP (fl : FloatLaws F K u) {ops : PartOps F K P T} {ops' : PartOps F K P' T'} {B : F → P} {B' : F → P'}
    (so : SearchOps ops B) (so' : SearchOps ops' B')
    (hs : ∀ X X' Y Y', AtP (K := K) B B' X X' → AtP (K := K) B B' Y Y' → ops'.same X' Y' = ops.same X Y) (t : F) :
    ∀ (fuel : Nat) (a b : F) (s : Acc F P) (s' : Acc F P'), (0 : K) ≤ FloatP.toK a → (FloatP.toK a : K) ≤ FloatP.toK b →
      (FloatP.toK b : K) ≤ 1 → AccRel (AtP (K := K) B B') s s' →
      RelRes (AccRel (AtP (K := K) B B')) (addBest ops t fuel (B a) (B b) s) (addBest ops' t fuel (B' a) (B' b) s') := by
  intro fuel
  induction fuel with
  | zero => intro a b s s' _ _ _ _; rfl
  | succ fuel ih =>
    intro a b s s' h0 hab h1 hr
    have ha : AtP (K := K) B B' (B a) (B' a) := ⟨a, h0, le_trans hab h1, rfl, rfl⟩
    have hb : AtP (K := K) B B' (B b) (B' b) := ⟨b, le_trans h0 hab, h1, rfl, rfl⟩
    obtain ⟨m1, m2⟩ := fl.mid a b h0 hab h1
    unfold addBest
    rw [hs _ _ _ _ ha hb, so.param, so.param, so'.param, so'.param]
    split
    · dsimp only
      rw [so.best, so'.best, okBind, okBind]
      refine (ih a _ s s' h0 m1 (le_trans m2 h1) hr).bind (fun v v' hv => ?_)
      exact ih _ b _ _ (le_trans h0 m1) m2 h1
        ⟨by rw [hv.1], hv.2.insert _ ⟨_, le_trans h0 m1, le_trans m2 h1, rfl, rfl⟩⟩
    · exact hr

/-- The two searches. -/
theorem search_atP (fl : FloatLaws F K u) {ops : PartOps F K P T} {ops' : PartOps F K P' T'} {B : F → P} {B' : F → P'}
    (so : SearchOps ops B) (so' : SearchOps ops' B')
    (hs : ∀ X X' Y Y', AtP (K := K) B B' X X' → AtP (K := K) B B' Y Y' → ops'.same X' Y' = ops.same X Y)
    (f : Quality K → Quality K) (hf : ∀ X X', AtP (K := K) B B' X X' → ops'.quality X' = f (ops.quality X))
    (strict : Bool) (fuel : Nat) (t lo hi : F) (h0 : (0 : K) ≤ FloatP.toK lo) (hl : (FloatP.toK lo : K) ≤ FloatP.toK hi)
    (h1 : (FloatP.toK hi : K) ≤ 1) (st : PState F K P T) (st' : PState F K P' T') :
    RelRes (fun s s' => s'.pList = s.pList ∧ RelMap (AtP (K := K) B B') s.partitions s'.partitions ∧
        s'.qualityList = s.qualityList.map (fun e => (e.1, f e.2)))
      (computeBestPartitions ops strict fuel t lo hi st) (computeBestPartitions ops' strict fuel t lo hi st') := by
  have ha : AtP (K := K) B B' (B lo) (B' lo) := ⟨lo, h0, le_trans hl h1, rfl, rfl⟩
  have hb : AtP (K := K) B B' (B hi) (B' hi) := ⟨hi, le_trans h0 hl, h1, rfl, rfl⟩
  unfold computeBestPartitions
  dsimp only
  rw [so.best, so'.best, okBind, okBind, so.best, so'.best, okBind, okBind]
  refine (addBest_atP fl so so' hs t fuel lo hi _ _ h0 hl h1 ⟨rfl, RelMap.insert .nil lo ha⟩).bind (fun s s' hss => ?_)
  have hlen : (s'.pList ++ [hi]).length = (s.pList ++ [hi]).length := by rw [hss.1]
  rw [hlen]
  refine (dedup_relSame hs strict _ _ _ ⟨by rw [hss.1], hss.2.insert hi hb⟩).bind (fun v v' hv => ?_)
  have key : ∀ {m : List (F × P)} {m' : List (F × P')}, RelMap (AtP (K := K) B B') m m' → ∀ z,
      m'.foldl (fun m e => mapInsert e.1 (ops'.quality e.2) m) (z.map (fun e => (e.1, f e.2))) =
        (m.foldl (fun m e => mapInsert e.1 (ops.quality e.2) m) z).map (fun e => (e.1, f e.2)) := by
    intro m m' hm
    induction hm with
    | nil => intro z; rfl
    | @cons x y l l' hxy _ ih =>
      intro z
      rw [List.foldl_cons, List.foldl_cons, hf _ _ hxy.2, ← hxy.1, mapInsert_map, ih]
  exact ⟨hv.1, hv.2, key hv.2 []⟩

/-- Partitioners whose best partitions have corresponding qualities. -/
theorem search_corr [IsStrictOrderedRing K] (fl : FloatLaws F K u) {ops : PartOps F K P T} {ops' : PartOps F K P' T'}
    (h : IsPartitioner ops) (h' : IsPartitioner ops') (f : Quality K → Quality K) (hinj : Function.Injective f)
    (hq : ∀ p, (0 : K) ≤ FloatP.toK p → (FloatP.toK p : K) ≤ 1 → ∀ X X', ops.best p = .ok X → ops'.best p = .ok X' →
      ops'.quality X' = f (ops.quality X))
    (strict : Bool) (fuel : Nat) (t lo hi : F) (h0 : (0 : K) ≤ FloatP.toK lo) (hl : (FloatP.toK lo : K) ≤ FloatP.toK hi)
    (h1 : (FloatP.toK hi : K) ≤ 1) (st : PState F K P T) (st' : PState F K P' T') :
    RelRes (fun s s' => s'.pList = s.pList ∧ s'.qualityList = s.qualityList.map (fun e => (e.1, f e.2)))
      (computeBestPartitions ops strict fuel t lo hi st) (computeBestPartitions ops' strict fuel t lo hi st') := by
  obtain ⟨B, so⟩ := isPartitioner_ops h
  obtain ⟨B', so'⟩ := isPartitioner_ops h'
  have hQ : ∀ X X', AtP (K := K) B B' X X' → ops'.quality X' = f (ops.quality X) := by
    rintro X X' ⟨p, p0, p1, rfl, rfl⟩
    exact hq p p0 p1 _ _ (so.best p) (so'.best p)
  have hs : ∀ X X' Y Y', AtP (K := K) B B' X X' → AtP (K := K) B B' Y Y' → ops'.same X' Y' = ops.same X Y := by
    intro X X' Y Y' hX hY
    have e1 := hQ X X' hX
    have e2 := hQ Y Y' hY
    obtain ⟨p, _, _, rfl, rfl⟩ := hX
    obtain ⟨r, _, _, rfl, rfl⟩ := hY
    have key : ops.same (B p) (B r) = true ↔ ops.quality (B p) = ops.quality (B r) :=
      ⟨isPartitioner_sameQ h p r _ _ (so.best p) (so.best r), (isPartitioner_curve h).det p r _ _ (so.best p) (so.best r)⟩
    have key' : ops'.same (B' p) (B' r) = true ↔ ops'.quality (B' p) = ops'.quality (B' r) :=
      ⟨isPartitioner_sameQ h' p r _ _ (so'.best p) (so'.best r), (isPartitioner_curve h').det p r _ _ (so'.best p) (so'.best r)⟩
    rw [Bool.eq_iff_iff, key, key', e1, e2, hinj.eq_iff]
  have := search_atP fl so so' hs f hQ strict fuel t lo hi h0 hl h1 st st'
  revert this
  cases computeBestPartitions ops strict fuel t lo hi st <;> cases computeBestPartitions ops' strict fuel t lo hi st'
  · exact id
  · exact id
  · exact id
  · exact fun x => ⟨x.1, x.2.2⟩

end Lp

import Verif.Spec.Reading
import Verif.Proofs.SearchList

/-!
# The search does not look at the arithmetic of the qualities
-/

namespace Lp
open Spec
variable {F K P T : Type} [FloatP F K] {val : F → ℚ}

/-- The same operations with parameters read as rational numbers, forgetting the qualities. -/
def PartOps.read (val : F → ℚ) (ops : PartOps F K P T) : PartOps (Reading F val) ℚ P T :=
  ⟨ops.best, ops.same, ops.param, fun _ => ⟨0, 0⟩, ops.rows⟩

theorem withLaws {F : Type} [FloatP F ℚ] {u : ℚ} (fl : FloatLaws F ℚ u) {K : Type} (c : ℚ → K) :
    FloatLaws (Reading (With F c) With.val) ℚ u :=
  ⟨fl.lt_iff, fl.inj, fl.zero, fl.oneSub_anti, fl.oneSub_pos, fl.oneSub_zero, fl.oneSub_one, fl.err_nonneg, fl.sub_err,
    fl.half_err, fl.add_err, fl.sub_nonneg, fl.half_nonneg, fl.sub_mono, fl.mid⟩

theorem SearchOps.read {ops : PartOps F K P T} {B : F → P} (so : SearchOps ops B) :
    SearchOps (ops.read val) (B : Reading F val → P) := ⟨so.best, so.param, so.refl, so.symm, so.trans⟩

theorem mapInsert_read {V : Type} (k : F) (v : V) : ∀ m : List (F × V),
    mapInsert k v m = mapInsert (F := Reading F val) k v m := by
  intro m
  induction m with
  | nil => rfl
  | cons e m ih =>
    obtain ⟨k', v'⟩ := e
    unfold mapInsert
    rw [ih]
    rfl

theorem mapFind_read {V : Type} (k : F) : ∀ m : List (F × V), mapFind k m = mapFind (F := Reading F val) k m := by
  intro m
  induction m with
  | nil => rfl
  | cons e m ih =>
    obtain ⟨k', v'⟩ := e
    unfold mapFind
    rw [ih]
    rfl

theorem mapErase_read {V : Type} (k : F) : ∀ m : List (F × V), mapErase k m = mapErase (F := Reading F val) k m := by
  intro m
  induction m with
  | nil => rfl
  | cons e m ih =>
    obtain ⟨k', v'⟩ := e
    unfold mapErase
    rw [ih]
    rfl

theorem mapDeref_read {V : Type} (k : F) (m : List (F × V)) : mapDeref k m = mapDeref (F := Reading F val) k m := by
  unfold mapDeref
  rw [mapFind_read (val := val)]

theorem addBest_read (ops : PartOps F K P T) (t : F) : ∀ (fuel : Nat) (a b : P) (s : Acc F P),
    addBest ops t fuel a b s = addBest (ops.read val) (t : Reading F val) fuel a b s := by
  intro fuel
  induction fuel with
  | zero => intro a b s; rfl
  | succ fuel ih =>
    intro a b s
    unfold addBest
    simp only [ih, mapInsert_read (val := val)]
    rfl

theorem dedup_read (ops : PartOps F K P T) (strict : Bool) : ∀ (idx : Nat) (s : Acc F P),
    dedup ops strict idx s = dedup (ops.read val) strict idx s := by
  intro idx
  induction idx with
  | zero => intro s; rfl
  | succ idx ih =>
    intro s
    unfold dedup
    simp only [ih, mapDeref_read (val := val), mapErase_read (val := val)]
    rfl

/-- The steps of a search that returns. -/
structure Steps (ops : PartOps F K P T) (strict : Bool) (fuel : Nat) (t lo hi : F) (pmin pmax : P) (a d : Acc F P) : Prop where
  best0 : ops.best lo = .ok pmin
  best1 : ops.best hi = .ok pmax
  sample : addBest ops t fuel pmin pmax ⟨[lo], [(lo, pmin)]⟩ = .ok a
  clean : dedup ops strict ((a.pList ++ [hi]).length - 1) ⟨a.pList ++ [hi], mapInsert hi pmax a.partitions⟩ = .ok d

theorem Steps.search {ops : PartOps F K P T} {strict : Bool} {fuel : Nat} {t lo hi : F} {pmin pmax : P} {a d : Acc F P}
    (h : Steps ops strict fuel t lo hi pmin pmax a d) (st : PState F K P T) :
    computeBestPartitions ops strict fuel t lo hi st = .ok ⟨d.pList, d.partitions,
      d.partitions.foldl (fun l e => l ++ ops.rows e.1 e.2) [],
      d.partitions.foldl (fun m e => mapInsert e.1 (ops.quality e.2) m) []⟩ := by
  unfold computeBestPartitions
  dsimp only
  rw [h.best0]
  simp only [okBind]
  rw [h.best1]
  simp only [okBind]
  rw [show addBest ops t fuel pmin pmax ⟨[] ++ [lo], mapInsert lo pmin []⟩ = .ok a from h.sample]
  simp only [okBind]
  rw [h.clean]
  rfl

theorem steps_of {ops : PartOps F K P T} {strict : Bool} {fuel : Nat} {t lo hi : F} {st st' : PState F K P T}
    (h : computeBestPartitions ops strict fuel t lo hi st = .ok st') :
    ∃ pmin pmax a d, Steps ops strict fuel t lo hi pmin pmax a d ∧ st' = ⟨d.pList, d.partitions,
      d.partitions.foldl (fun l e => l ++ ops.rows e.1 e.2) [],
      d.partitions.foldl (fun m e => mapInsert e.1 (ops.quality e.2) m) []⟩ := by
  unfold computeBestPartitions at h
  dsimp only at h
  cases h1 : ops.best lo with
  | error e => rw [h1] at h; cases h
  | ok pmin =>
    rw [h1] at h
    simp only [okBind] at h
    cases h2 : ops.best hi with
    | error e => rw [h2] at h; cases h
    | ok pmax =>
      rw [h2] at h
      simp only [okBind] at h
      cases h3 : addBest ops t fuel pmin pmax ⟨[] ++ [lo], mapInsert lo pmin []⟩ with
      | error e => rw [h3] at h; cases h
      | ok a =>
        rw [h3] at h
        simp only [okBind] at h
        cases h4 : dedup ops strict ((a.pList ++ [hi]).length - 1) ⟨a.pList ++ [hi], mapInsert hi pmax a.partitions⟩ with
        | error e => rw [h4] at h; cases h
        | ok d =>
          rw [h4] at h
          exact ⟨pmin, pmax, a, d, ⟨h1, h2, h3, h4⟩, (Except.ok.inj h).symm⟩

/-- The steps are the same. -/
theorem steps_read (ops : PartOps F K P T) (strict : Bool) (fuel : Nat) (t lo hi : F) (pmin pmax : P) (a d : Acc F P) :
    Steps ops strict fuel t lo hi pmin pmax a d ↔
      Steps (ops.read val) strict fuel (t : Reading F val) lo hi pmin pmax a d := by
  constructor
  · rintro ⟨h1, h2, h3, h4⟩
    refine ⟨h1, h2, (addBest_read (val := val) ops t _ _ _ _).symm.trans h3, ?_⟩
    rw [mapInsert_read (val := val)] at h4
    exact (dedup_read (val := val) ops strict _ _).symm.trans h4
  · rintro ⟨h1, h2, h3, h4⟩
    refine ⟨h1, h2, (addBest_read (val := val) ops t _ _ _ _).trans h3, ?_⟩
    rw [mapInsert_read (val := val)]
    exact (dedup_read (val := val) ops strict _ _).trans h4

theorem foldl_insert_read {V W : Type} (g : V → W) : ∀ (l : List (F × V)) (m : List (F × W)),
    l.foldl (fun m e => mapInsert e.1 (g e.2) m) m = l.foldl (fun m e => mapInsert (F := Reading F val) e.1 (g e.2) m) m := by
  intro l
  induction l with
  | nil => intro m; rfl
  | cons e l ih =>
    intro m
    rw [List.foldl_cons, mapInsert_read (val := val)]
    exact ih _

variable {u : ℚ} {ops : PartOps F K P T} {B : F → P}

/-- `search_full` for every arithmetic on the qualities. -/
theorem search_any (fl : FloatLaws (Reading F val) ℚ u) (so : SearchOps ops B) {fuel : Nat} {t lo hi : F}
    {st st' : PState F K P T} (h0 : 0 ≤ val lo) (hlt : val lo < val hi) (h1 : val hi ≤ 1)
    (h : computeBestPartitions ops false fuel t lo hi st = .ok st') :
    ∃ S : List F, List.IsChain (fun x y => val x < val y ∧
        (ops.same (B x) (B y) = true ∨ FloatP.lt t (FloatP.sub y x) = false)) (lo :: S ++ [hi]) ∧
      (∀ x ∈ S, val lo < val x ∧ val x < val hi) ∧
      st'.pList = keep (fun x y => ops.same (B x) (B y)) (lo :: S ++ [hi]) ∧
      st'.pList.Pairwise (fun x y => val x < val y) ∧
      st'.partitions = st'.pList.map (fun p => (p, B p)) ∧
      st'.qualityList = st'.pList.map (fun p => (p, ops.quality (B p))) ∧
      st'.tuples = st'.pList.flatMap (fun p => ops.rows p (B p)) := by
  obtain ⟨pmin, pmax, a, d, hs, rfl⟩ := steps_of h
  have hr := ((steps_read (val := val) ops false fuel t lo hi pmin pmax a d).mp hs).search PState.empty
  obtain ⟨S, e1, e2, e3, e4, e5, e6, e7⟩ := search_full fl (so.read (val := val)) (lo := lo) (hi := hi) h0 hlt h1 hr
  refine ⟨S, e1, e2, e3, e4, e5, ?_, e7⟩
  dsimp only at e4 e5 ⊢
  rw [foldl_insert_read (val := val)]
  have k := foldl_mapInsert fl (ops.quality) d.partitions [] (by simp) (by
    rw [e5]
    exact List.pairwise_map.mpr e4)
  refine k.trans ?_
  rw [List.nil_append]
  have e5' : d.partitions = d.pList.map (fun p => (p, B p)) := e5
  have : d.partitions.map (fun e => (e.1, ops.quality e.2)) = d.pList.map (fun p => (p, ops.quality (B p))) := by
    rw [e5', List.map_map]; rfl
  exact this

theorem deref_any (fl : FloatLaws (Reading F val) ℚ u) {V : Type} (Q : F → V) {l : List F} {p : F} (hp : p ∈ l) :
    mapDeref p (l.map (fun p => (p, Q p))) = .ok (Q p) := by
  rw [mapDeref_read (val := val)]
  exact mapDeref_ent fl (fun p : Reading F val => Q p) hp

/-- Termination for every arithmetic on the qualities. -/
theorem search_any_ok (fl : FloatLaws (Reading F val) ℚ u) (t : F) (ht : 0 < val t) (hu : 11 * u ≤ val t) :
    ∃ N : Nat, ∀ {P T : Type} {ops : PartOps F K P T} {B : F → P}, SearchOps ops B →
      ∀ (lo hi : F), 0 ≤ val lo → val lo < val hi → val hi ≤ 1 →
      ∀ (fuel : Nat), N ≤ fuel → ∀ (st : PState F K P T),
        ∃ st', computeBestPartitions ops false fuel t lo hi st = .ok st' := by
  have hu0 := fl.err_nonneg
  have hpos : 0 < val t - u := by
    rcases lt_or_eq_of_le hu0 with h | h
    · linarith
    · rw [← h]; linarith
  obtain ⟨N, hN⟩ := pow_unbounded_of_one_lt (1 / (val t - u)) (show (1 : ℚ) < 4 / 3 by norm_num)
  refine ⟨N + 1, fun {P T ops B} so lo hi h0 hlt h1 fuel hf st => ?_⟩
  rw [div_lt_iff₀ hpos] at hN
  have so' := so.read (val := val)
  obtain ⟨s1, e⟩ := addBest_total fl so' (t := t) ht hu N lo hi h0 hlt.le h1 (by
    change (val hi - val lo) ≤ _
    change _ < (4 / 3) ^ N * (val t - u) at hN
    change val hi - val lo ≤ (4 / 3) ^ N * (val t - u)
    linarith) fuel (by omega)
    ⟨[lo], [lo].map (fun p => (p, B p))⟩
  obtain ⟨S, st1, h, _⟩ := search_ok fl so' (lo := lo) (hi := hi) (st := PState.empty) h0 hlt h1 e
  obtain ⟨pmin, pmax, a, d, hs, _⟩ := steps_of h
  exact ⟨_, ((steps_read (val := val) ops false fuel t lo hi pmin pmax a d).mpr hs).search st⟩

/-- Consecutive kept elements: the first one's run ends next to the second one. -/
theorem keep_located {same : F → F → Bool} {R : F → F → Prop} (ht : ∀ x y z, same x y = true → same y z = true → same x z = true)
    (hr : ∀ x, same x x = true) (hR : ∀ x y, R x y → val x ≤ val y) :
    ∀ (l : List F), List.IsChain R l →
      List.IsChain (fun x y => ∃ w, same w x = true ∧ val x ≤ val w ∧ R w y ∧ same y w = false) (keep same l) := by
  have aux : ∀ (l : List F) (h x : F), same x h = true → val h ≤ val x → List.IsChain R (x :: l) →
      List.IsChain (fun x y => ∃ w, same w x = true ∧ val x ≤ val w ∧ R w y ∧ same y w = false) (h :: keepAux same x l) := by
    intro l
    induction l with
    | nil => intro h x _ _ _; simp [keepAux]
    | cons y l ih =>
      intro h x hx hle hc
      rw [List.isChain_cons_cons] at hc
      unfold keepAux
      split
      · rename_i hs
        exact ih h y (ht _ _ _ hs hx) (le_trans hle (hR _ _ hc.1)) hc.2
      · rename_i hs
        rw [List.isChain_cons_cons]
        refine ⟨⟨x, hx, hle, hc.1, by simpa using hs⟩, ih y y (hr y) (le_refl _) hc.2⟩
  intro l hc
  cases l with
  | nil => simp [keep]
  | cons x l => exact aux l x x (hr x) (le_refl _) hc

end Lp

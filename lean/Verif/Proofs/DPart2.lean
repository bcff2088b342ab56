import Verif.Proofs.DPart

/-!
# The spatiotemporal partitioner as a greedy derivation: the loops over nodes, and reading the parts
-/

namespace Lp
open Spec
variable {F K : Type} [LD K] [FloatP F K]
variable {leaves : Nat} {parents : List Int} {md : HMeta}
variable {q : List (UTM (Quality K))} {Q : Nat → Nat → Nat → Quality K} {p : F} {N n : Nat} {s : DBest K}
  {ft fs : Nat → Nat → Nat → Tradeoff K} {fc : Nat → Nat → Nat → Int}

/-- Effect of one node on the last column. -/
theorem dbNode_spec (hq : MRep q N n Q) (d : DRep N n s ft fs fc) {k h : Nat} (hh : h < N)
    {pa : Option Nat} (hpa : ∀ x, pa = some x → x < N ∧ md.parentOf h = .ok x) (hne : pa ≠ some h)
    (hpush : k < md.hsize - 1 ↔ pa.isSome = true) :
    ∃ s' ft' fs' fc', dbNode q p md n k h s = .ok s' ∧ DRep N n s' ft' fs' fc' ∧
      (∀ x a, x ≠ h → ft' x a (n - 1) = ft x a (n - 1)) ∧
      (∀ x a, x ≠ h → fc' x a (n - 1) = fc x a (n - 1)) ∧
      (∀ i, i < n → (ft' h i (n - 1), fc' h i (n - 1)) =
        dRow (decide (md.leaveSize ≤ k)) (Q h) p (fs h i (n - 1)) (fun c => ft' h c (n - 1)) i (n - 1) (n - 1)) ∧
      (∀ x a, a < n → fs' x a (n - 1) =
        if pa = some x then (fs x a (n - 1)).add (ft' h a (n - 1)) else fs x a (n - 1)) := by
  unfold dbNode
  obtain ⟨s', h1, ft', fs', fc', h2, h3, h4, h5, h6⟩ := forDown_inv
    (f := fun i s => forUp i n (fun j s => dbCell q p md k h i j s) s)
    (fun i0 s => ∃ ft' fs' fc', DRep N n s ft' fs' fc' ∧
      (∀ x a, x ≠ h → ft' x a (n - 1) = ft x a (n - 1)) ∧
      (∀ x a, x ≠ h → fc' x a (n - 1) = fc x a (n - 1)) ∧
      (∀ i, i0 ≤ i → i < n → (ft' h i (n - 1), fc' h i (n - 1)) =
        dRow (decide (md.leaveSize ≤ k)) (Q h) p (fs h i (n - 1)) (fun c => ft' h c (n - 1)) i (n - 1) (n - 1)) ∧
      (∀ x a, a < n → fs' x a (n - 1) =
        if pa = some x ∧ i0 ≤ a then (fs x a (n - 1)).add (ft' h a (n - 1)) else fs x a (n - 1)))
    n s ⟨ft, fs, fc, d, fun _ _ _ => rfl, fun _ _ _ => rfl, fun i h1 h2 => by omega, fun x a ha => by
      rw [if_neg (by omega)]⟩ (by
      rintro i s hi ⟨ft1, fs1, fc1, d1, e1, e2, e3, e4⟩
      obtain ⟨s', ft', fs', fc', g1, g2, g3, g4, g5, g6⟩ := dbRow_spec (p := p) hq d1 hh hi hpa hpush
      refine ⟨s', g1, ft', fs', fc', g2, ?_, ?_, ?_, ?_⟩
      · intro x a hx; rw [g3 x a (fun h' => hx h'.1), e1 x a hx]
      · intro x a hx; rw [g4 x a (fun h' => hx h'.1), e2 x a hx]
      · intro a ha1 ha2
        by_cases hai : a = i
        · subst hai
          rw [g5, e4 h a ha2, if_neg (fun h' => hne h'.1)]
          apply dRow_congr (fun _ => rfl)
          intro c hc1 hc2
          exact (g3 h c (fun h' => by omega)).symm
        · rw [g3 h a (fun h' => hai h'.2), g4 h a (fun h' => hai h'.2), e3 a (by omega) ha2]
          apply dRow_congr (fun _ => rfl)
          intro c hc1 hc2
          exact (g3 h c (fun h' => by omega)).symm
      · intro x a ha
        rw [g6, e4 x a ha]
        by_cases hx : pa = some x
        · by_cases hai : a = i
          · subst hai
            rw [if_pos ⟨hx, rfl⟩, if_neg (by omega), if_pos ⟨hx, le_refl _⟩]
          · rw [if_neg (fun h' => hai h'.2)]
            by_cases hle : i + 1 ≤ a
            · rw [if_pos ⟨hx, hle⟩, if_pos ⟨hx, by omega⟩, g3 h a (fun h' => hai h'.2)]
            · rw [if_neg (fun h' => hle h'.2), if_neg (fun h' => by omega)]
        · rw [if_neg (fun h' => hx h'.1), if_neg (fun h' => hx h'.1), if_neg (fun h' => hx h'.1)])
  refine ⟨s', ft', fs', fc', h1, h2, h3, h4, fun i hi => h5 i (by omega) hi, ?_⟩
  intro x a ha
  rw [h6 x a ha]
  simp

/-- The equation of node `h` and first slice `i` in the last column. -/
def DEq (leaves : Nat) (parents : List Int) (path : List Nat) (Q : Nat → Nat → Nat → Quality K) (p : F) (n : Nat)
    (T : Nat → Nat → Tradeoff K) (C : Nat → Nat → Int) (h i : Nat) : Prop :=
  (T h i, C h i) = dRow (!decide (h < leaves)) (Q h) p (tsum (fun c => T c i) (kidsIn parents path h)) (T h)
    i (n - 1) (n - 1)

/-- Invariant after the first `k` nodes of the path. -/
structure DInv (leaves : Nat) (parents : List Int) (md : HMeta) (Q : Nat → Nat → Nat → Quality K) (p : F)
    (n k : Nat) (s : DBest K) (ft fs : Nat → Nat → Nat → Tradeoff K) (fc : Nat → Nat → Nat → Int) : Prop where
  rep : DRep parents.length n s ft fs fc
  done : ∀ j h i : Nat, j < k → md.path[j]? = some h → i < n →
    DEq leaves parents md.path Q p n (fun h i => ft h i (n - 1)) (fun h i => fc h i (n - 1)) h i
  sums : ∀ h i, h < parents.length → i < n →
    fs h i (n - 1) = tsum (fun c => ft c i (n - 1)) (kidsIn parents (md.path.take k) h)

/-- One step of the path loop. -/
theorem DInv.step (r : RightMeta leaves parents md) (hq : MRep q parents.length n Q) {k : Nat}
    (iv : DInv leaves parents md Q p n k s ft fs fc) {h : Nat} (hk : md.path[k]? = some h) :
    ∃ s' ft' fs' fc', dbNode q p md n k h s = .ok s' ∧ DInv leaves parents md Q p n (k + 1) s' ft' fs' fc' := by
  have hl : h < parents.length := (r.pathMem h).mp (List.mem_of_getElem? hk)
  have hkl : k < parents.length := by
    have := (List.getElem?_eq_some_iff.mp hk).1; rwa [r.pathLen] at this
  have hnot : h ∉ md.path.take k := r.notMem_take hk
  have hinner : decide (md.leaveSize ≤ k) = !decide (h < leaves) := by
    rw [r.leaveSize, ← decide_not, decide_eq_decide]
    rw [r.leafIff hk]; omega
  -- the parent
  obtain ⟨pa, hpa, hne, hpush, hpar⟩ : ∃ pa : Option Nat,
      (∀ x, pa = some x → x < parents.length ∧ md.parentOf h = .ok x) ∧ pa ≠ some h ∧
      (k < md.hsize - 1 ↔ pa.isSome = true) ∧ (∀ x, pa = some x ↔ ParentIs parents h x) := by
    rw [r.hsize]
    by_cases hlt : k + 1 < parents.length
    · obtain ⟨px, hp, hpl, hpo, hpn⟩ := r.par hk hlt
      refine ⟨some px, ?_, ?_, by simp; omega, ?_⟩
      · rintro x hx; obtain rfl := Option.some.inj hx; exact ⟨hpl, hpo⟩
      · intro e
        obtain rfl := Option.some.inj e
        rw [RightMeta.take_succ hk] at hpn
        exact hpn (by simp)
      · intro x
        constructor
        · intro e; obtain rfl := Option.some.inj e; exact hp
        · intro h'; rw [hp.fun h']
    · have : k = parents.length - 1 := by omega
      refine ⟨none, by simp, by simp, by simp; omega, ?_⟩
      intro x
      simp only [reduceCtorEq, false_iff]
      intro h'
      have hroot := r.last
      rw [← this, hk] at hroot
      obtain rfl := Option.some.inj hroot
      have := r.tree.rootPar
      unfold ParentIs at h'
      rw [this] at h'
      have := Option.some.inj h'
      omega
  obtain ⟨s', ft', fs', fc', h1, h2, h3, h4, h5, h6⟩ := dbNode_spec (p := p) hq iv.rep hl hpa hne hpush
  have hsame : ∀ (i x : Nat) (l : List Nat), h ∉ kidsIn parents l x →
      tsum (fun c => ft' c i (n - 1)) (kidsIn parents l x) = tsum (fun c => ft c i (n - 1)) (kidsIn parents l x) := by
    intro i x l hx
    apply tsum_congr
    intro c hc
    exact h3 c i (fun e => hx (e ▸ hc))
  refine ⟨s', ft', fs', fc', h1, h2, ?_, ?_⟩
  · intro j x i hj hx hi
    have hkids : h ∉ kidsIn parents md.path x := by
      rw [← r.kidsTake hx]
      intro hm
      exact hnot (List.take_subset_take_left _ (by omega) (mem_kidsIn.mp hm).1)
    unfold DEq
    rw [hsame i x md.path hkids]
    by_cases hxh : x = h
    · subst hxh
      rw [h5 i hi, hinner, iv.sums x i hl hi, r.kidsTake hk]
    · have hjk : j < k := by
        by_contra hc
        have : j = k := by omega
        subst this
        rw [hk] at hx
        exact hxh (Option.some.inj hx).symm
      have := iv.done j x i hjk hx hi
      unfold DEq at this
      dsimp only at this ⊢
      rw [h3 x i hxh, h4 x i hxh, this]
      apply dRow_congr (fun _ => rfl)
      intro c _ _
      exact (h3 x c hxh).symm
  · intro x i hx hi
    rw [h6 x i hi, iv.sums x i hx hi]
    have hk0 : h ∉ kidsIn parents (md.path.take k) x := fun hm => hnot (mem_kidsIn.mp hm).1
    rw [← hsame i x _ hk0]
    rw [RightMeta.take_succ hk]
    unfold kidsIn
    rw [List.filter_append]
    by_cases hp : pa = some x
    · rw [if_pos hp]
      have : parents[h]? = some (x : Int) := (hpar x).mp hp
      simp only [List.filter_cons, List.filter_nil, this, decide_true, if_true]
      rw [tsum_append]
    · rw [if_neg hp]
      have : ¬ parents[h]? = some (x : Int) := fun h' => hp ((hpar x).mpr h')
      simp only [List.filter_cons, List.filter_nil, this, decide_false, Bool.false_eq_true, if_false,
        List.append_nil]

/-- The tables after the whole loop. -/
theorem dbLoop_spec (r : RightMeta leaves parents md) (hq : MRep q parents.length n Q) (hn : n ≤ 65535) (p : F) :
    ∃ s T C fcs, dbLoop q p md = .ok s ∧ MRep s.cuts parents.length n fcs ∧ (∀ h i, C h i = fcs h i (n - 1)) ∧
      ∀ h i, h < parents.length → i < n → DEq leaves parents md.path Q p n T C h i := by
  have h0 : 0 < parents.length := by have := r.tree.rootLt; omega
  obtain ⟨t0, ht0, hrep0⟩ := hq.cell 0 h0
  unfold dbLoop
  rw [vget_eq_ok.mpr ht0]
  simp only [okBind, hrep0.size]
  rw [r.hsize]
  have main : ∀ cnt k (s : DBest K), k + cnt = parents.length → k < parents.length →
      (∃ ft fs fc, DInv leaves parents md Q p n k s ft fs fc) →
      ∃ s' ft fs fc, dbPath q p md n cnt k s = .ok s' ∧ DInv leaves parents md Q p n parents.length s' ft fs fc := by
    intro cnt
    induction cnt with
    | zero => intro k s h1 h2; omega
    | succ cnt ih =>
      rintro k s h1 h2 ⟨ft, fs, fc, iv⟩
      obtain ⟨h, hk, hl⟩ := r.at_ h2
      obtain ⟨s', ft', fs', fc', e1, e2⟩ := iv.step r hq hk
      unfold dbPath
      rw [vget_eq_ok.mpr hk]
      simp only [okBind, e1]
      by_cases hroot : h = md.root
      · rw [if_pos hroot]
        subst hroot
        have := r.inj hk r.last
        have e : k + 1 = parents.length := by omega
        rw [e] at e2
        exact ⟨s', ft', fs', fc', rfl, e2⟩
      · rw [if_neg hroot]
        have : k + 1 < parents.length := by
          by_contra hc
          have : k = parents.length - 1 := by omega
          have hlast := r.last
          rw [← this, hk] at hlast
          exact hroot (Option.some.inj hlast)
        exact ih (k + 1) s' (by omega) this ⟨ft', fs', fc', e2⟩
  obtain ⟨s', ft, fs, fc, e1, e2⟩ := main parents.length 0
    ⟨List.replicate parents.length (UTM.mk' n ((n : Int) - 1)),
      List.replicate parents.length (UTM.mk' n Tradeoff.zero), List.replicate parents.length (UTM.mk' n Tradeoff.zero)⟩
    (by omega) h0 ⟨_, _, _, ⟨MRep.replicate hn _, MRep.replicate hn _, MRep.replicate hn _⟩,
      fun j h i hj => by omega, fun h i _ _ => by simp [kidsIn, tsum]⟩
  refine ⟨s', fun h i => ft h i (n - 1), fun h i => fc h i (n - 1), fc, e1, e2.rep.cuts, fun _ _ => rfl, ?_⟩
  intro h i hh hi
  obtain ⟨j, hj, hjp⟩ := r.pos hh
  exact e2.done j h i hj hjp hi

/-! ## Reading the parts off the cuts -/

/-- Decisions at node `h` for the slices `i..n-1`: the whole rectangle; (inner node) the children; a prefix ending
at `c`. -/
def dDecs (leaves : Nat) (children : List (List Nat)) (n : Nat) : Decs (Nat × Nat) Rect := fun s =>
  ([⟨s.1, s.2, n - 1⟩], []) ::
    ((if s.1 < leaves then [] else [([], ((children[s.1]?).getD []).map (fun c => (c, s.2)))]) ++
      (List.range' s.2 (n - 1 - s.2)).map (fun c => ([⟨s.1, s.2, c⟩], [(s.1, c + 1)])))

/-- The decision of the code. -/
def dChoice (leaves n : Nat) (C : Nat → Nat → Int) (s : Nat × Nat) : Nat :=
  if C s.1 s.2 = (n : Int) - 1 then 0
  else if C s.1 s.2 = -1 then 1
  else (C s.1 s.2).toNat - s.2 + (if s.1 < leaves then 1 else 2)

/-- The part object of a rectangle. -/
def dPartOf (md : HMeta) (Q : Nat → Nat → Nat → Quality K) (r : Rect) : DPart K :=
  ⟨r.node, md.sizeOf r.node, r.first, r.last, Q r.node r.first r.last⟩

/-- The three kinds of decisions. -/
theorem dDecs_cases {children : List (List Nat)} {n h i k : Nat} {e : List Rect} {succ : List (Nat × Nat)}
    (hk : (dDecs leaves children n (h, i))[k]? = some (e, succ)) :
    (k = 0 ∧ e = [⟨h, i, n - 1⟩] ∧ succ = []) ∨
    (¬ h < leaves ∧ k = 1 ∧ e = [] ∧ succ = ((children[h]?).getD []).map (fun c => (c, i))) ∨
    (∃ c, i ≤ c ∧ c < n - 1 ∧ k = c - i + (if h < leaves then 1 else 2) ∧ e = [⟨h, i, c⟩] ∧ succ = [(h, c + 1)]) := by
  unfold dDecs at hk
  cases k with
  | zero => simp at hk; left; exact ⟨rfl, hk.1.symm, hk.2⟩
  | succ k =>
    right
    simp only [List.getElem?_cons_succ] at hk
    have hrange : ∀ j : Nat, ((List.range' i (n - 1 - i)).map
        (fun c => (([⟨h, i, c⟩] : List Rect), [(h, c + 1)])))[j]? = some (e, succ) →
        ∃ c, i ≤ c ∧ c < n - 1 ∧ j = c - i ∧ e = [⟨h, i, c⟩] ∧ succ = [(h, c + 1)] := by
      intro j hj
      simp only [List.getElem?_map, Option.map_eq_some_iff] at hj
      obtain ⟨c, hc, hc2⟩ := hj
      have hjm : j < n - 1 - i := by
        have := (List.getElem?_eq_some_iff.mp hc).1; simpa using this
      rw [List.getElem?_range' hjm] at hc
      simp only [one_mul, Option.some.injEq] at hc
      simp only [Prod.mk.injEq] at hc2
      exact ⟨c, by omega, by omega, by omega, hc2.1.symm, hc2.2.symm⟩
    by_cases hl : h < leaves
    · right
      rw [if_pos hl, List.nil_append] at hk
      obtain ⟨c, h1, h2, h3, h4⟩ := hrange k hk
      exact ⟨c, h1, h2, by rw [if_pos hl]; omega, h4⟩
    · rw [if_neg hl] at hk
      cases k with
      | zero =>
        left
        simp at hk
        exact ⟨hl, rfl, hk.1, hk.2.symm⟩
      | succ k =>
        right
        simp only [List.singleton_append, List.getElem?_cons_succ] at hk
        obtain ⟨c, h1, h2, h3, h4⟩ := hrange k hk
        exact ⟨c, h1, h2, by rw [if_neg hl]; omega, h4⟩

theorem dDecs_whole {children : List (List Nat)} {n h i : Nat} :
    (dDecs leaves children n (h, i))[0]? = some ([⟨h, i, n - 1⟩], []) := rfl

theorem dDecs_split {children : List (List Nat)} {n h i : Nat} {ch : List Nat} (hl : ¬ h < leaves)
    (hc : children[h]? = some ch) :
    (dDecs leaves children n (h, i))[1]? = some ([], ch.map (fun c => (c, i))) := by
  simp [dDecs, hl, hc]

theorem dDecs_cut {children : List (List Nat)} {n h i c : Nat} (h1 : i ≤ c) (h2 : c < n - 1) :
    (dDecs leaves children n (h, i))[c - i + (if h < leaves then 1 else 2)]? =
      some ([⟨h, i, c⟩], [(h, c + 1)]) := by
  have e : i + 1 * (c - i) = c := by omega
  have hr : (List.range' i (n - 1 - i))[c - i]? = some c := by
    rw [List.getElem?_range' (by omega), e]
  unfold dDecs
  split <;> simp [hr]

/-- The stored cut is one of the three kinds. -/
theorem DEq.cut {path : List Nat} {T : Nat → Nat → Tradeoff K} {C : Nat → Nat → Int} {h i : Nat}
    (e : DEq leaves parents path Q p n T C h i) (hi : i < n) :
    C h i = (n : Int) - 1 ∨ (C h i = -1 ∧ ¬ h < leaves) ∨ ∃ c : Nat, C h i = c ∧ i ≤ c ∧ c < n - 1 := by
  unfold DEq dRow at e
  obtain ⟨k, hk⟩ := firstBest_mem Tradeoff.gt (Tradeoff.set (Q h i (n - 1)) p, ((n - 1 : Nat) : Int))
    ((if (!decide (h < leaves)) = true then [(tsum (fun c => T c i) (kidsIn parents path h), (-1 : Int))] else []) ++
      (List.range' i (n - 1 - i)).map (fun c =>
        ((Tradeoff.zero.add (Tradeoff.set (Q h i c) p)).add (T h (c + 1)), (c : Int))))
  rw [← e] at hk
  have := List.mem_of_getElem? hk
  rw [List.mem_cons, List.mem_append] at this
  rcases this with h1 | h1 | h1
  · left
    have := (Prod.mk.inj h1).2
    rw [this]; omega
  · right; left
    by_cases hl : h < leaves
    · simp [hl] at h1
    · simp [hl] at h1
      exact ⟨h1.2, hl⟩
  · right; right
    rw [List.mem_map] at h1
    obtain ⟨c, hc, h2⟩ := h1
    have := List.mem_range'_1.mp hc
    exact ⟨c, (Prod.mk.inj h2).2.symm, by omega, by omega⟩

omit [LD K] in
theorem dSubPart_spec (r : RightMeta leaves parents md) (hq : MRep q parents.length n Q) {cuts : List (UTM Int)}
    {fcs : Nat → Nat → Nat → Int} {C : Nat → Nat → Int}
    (hC : MRep cuts parents.length n fcs) (hCe : ∀ h i, C h i = fcs h i (n - 1))
    (hcut : ∀ h i, h < parents.length → i < n →
      C h i = (n : Int) - 1 ∨ (C h i = -1 ∧ ¬ h < leaves) ∨ ∃ c : Nat, C h i = c ∧ i ≤ c ∧ c < n - 1) :
    ∀ fuel k h i parts, md.path[k]? = some h → i < n → k + (n - i) < fuel →
      ∃ ds L, dSubPart cuts q md fuel h i (n - 1) parts = .ok (parts ++ L.map (dPartOf md Q)) ∧
        Greedy (dDecs leaves md.children n) (dChoice leaves n C) [(h, i)] ds L := by
  intro fuel
  induction fuel with
  | zero => intro k h i parts _ _ hf; omega
  | succ fuel ih =>
    intro k h i parts hk hi hf
    have hl : h < parents.length := (r.pathMem h).mp (List.mem_of_getElem? hk)
    unfold dSubPart
    rw [hC.get hl (show i ≤ n - 1 by omega) (show n - 1 < n by omega), ← hCe]
    simp only [okBind]
    have step : ∀ (k' : Nat) (e : List Rect) (succ : List (Nat × Nat)) (ds : List Nat) (L : List Rect),
        dChoice leaves n C (h, i) = k' → (dDecs leaves md.children n (h, i))[k']? = some (e, succ) →
        Greedy (dDecs leaves md.children n) (dChoice leaves n C) succ ds L →
        Greedy (dDecs leaves md.children n) (dChoice leaves n C) [(h, i)] (k' :: ds) (e ++ L) := by
      intro k' e succ ds L h1 h2 h3
      subst h1
      exact Greedy.cons h2 (by simpa using h3)
    rcases hcut h i hl hi with hc | ⟨hc, hin⟩ | ⟨c, hc, hc1, hc2⟩
    · rw [if_neg (by rw [hc]; omega)]
      have hz : C h i = ((n - 1 : Nat) : Int) := by rw [hc]; omega
      rw [hz, toIdx_nat]
      simp only [okBind, hq.get hl (show i ≤ n - 1 by omega) (show n - 1 < n by omega), lt_irrefl, if_false, pureOk]
      exact ⟨[0], [⟨h, i, n - 1⟩], rfl, step 0 _ _ _ _ (by simp [dChoice, hc]) dDecs_whole .nil⟩
    · rw [if_pos hc]
      obtain ⟨ch, hch, _, hmem⟩ := r.kidsPerm hl
      rw [vget_eq_ok.mpr hch]
      simp only [okBind]
      obtain ⟨parts', e1, ds, L, e2, e3⟩ := forEach_inv
        (f := fun c parts => dSubPart cuts q md fuel c i (n - 1) parts)
        (fun pre parts' => ∃ ds L, parts' = parts ++ L.map (dPartOf md Q) ∧
          Greedy (dDecs leaves md.children n) (dChoice leaves n C) (pre.map (fun c => (c, i))) ds L) ch parts
        ⟨[], [], by simp, .nil⟩ (by
          rintro pre c post parts1 hpre ⟨ds, L, rfl, hg⟩
          have hcp : ParentIs parents c h := (hmem c).mp (by rw [hpre]; simp)
          obtain ⟨j, _, hj⟩ := r.pos hcp.lt
          have := r.pathOrder _ _ _ _ hj hk hcp
          obtain ⟨ds', L', g1, g2⟩ := ih j c i (parts ++ L.map (dPartOf md Q)) hj hi (by omega)
          refine ⟨_, g1, ds ++ ds', L ++ L', by simp, ?_⟩
          rw [List.map_append]
          exact hg.append g2)
      refine ⟨1 :: ds, L, by rw [e1, e2], ?_⟩
      have hne : C h i ≠ (n : Int) - 1 := by rw [hc]; omega
      exact step 1 [] _ _ _ (by unfold dChoice; rw [if_neg hne, if_pos hc]) (dDecs_split hin hch) e3
    · rw [if_neg (by rw [hc]; omega), hc, toIdx_nat]
      simp only [okBind, hq.get hl hc1 (show c < n by omega), hc2, if_true]
      obtain ⟨ds, L, g1, g2⟩ := ih k h (c + 1) (parts ++ [⟨h, md.sizeOf h, i, c, Q h i c⟩]) hk (by omega) (by omega)
      refine ⟨_, [⟨h, i, c⟩] ++ L, ?_, step (c - i + (if h < leaves then 1 else 2)) _ _ _ _ ?_
        (dDecs_cut hc1 hc2) g2⟩
      · rw [g1]; simp [dPartOf]
      · unfold dChoice
        simp only [hc]
        rw [if_neg (by omega), if_neg (by omega), Int.toNat_natCast]

/-- `computeBestPartition` succeeds; its parts are the greedy derivation for tables that satisfy the recursive
equations. -/
theorem dBest_spec (r : RightMeta leaves parents md) (hq : MRep q parents.length n Q) (h0 : 0 < n) (hn : n ≤ 65535)
    (p : F) :
    ∃ (P : DPartition F K) (T : Nat → Nat → Tradeoff K) (C : Nat → Nat → Int) (ds : List Nat) (L : List Rect),
      dBestPartition q md p = .ok P ∧
      (∀ h i, h < parents.length → i < n → DEq leaves parents md.path Q p n T C h i) ∧
      Greedy (dDecs leaves md.children n) (dChoice leaves n C) [(md.root, 0)] ds L ∧
      P.parts = L.map (dPartOf md Q) ∧
      P.quality = sumQuality (L.map (fun r => Q r.node r.first r.last)) ∧ P.parameter = p := by
  obtain ⟨s, T, C, fcs, h1, h2, h3, h4⟩ := dbLoop_spec r hq hn p
  obtain ⟨ds, L, e1, e2⟩ := dSubPart_spec r hq h2 h3 (fun h i hh hi => (h4 h i hh hi).cut hi)
    (md.hsize + n + 1) (parents.length - 1) md.root 0 [] r.last h0 (by rw [r.hsize]; omega)
  have hl0 : 0 < parents.length := by have := r.tree.rootLt; omega
  obtain ⟨t0, ht0, hrep0⟩ := hq.cell 0 hl0
  refine ⟨⟨p, s.cuts, L.map (dPartOf md Q), sumQuality (L.map (fun r => Q r.node r.first r.last))⟩,
    T, C, ds, L, ?_, h4, e2, rfl, rfl, rfl⟩
  unfold dBestPartition mkDPartition
  simp only [h1, okBind, vget_eq_ok.mpr ht0, hrep0.size]
  rw [if_neg (by omega), e1]
  simp only [okBind, List.nil_append, List.map_map]
  rfl

end Lp

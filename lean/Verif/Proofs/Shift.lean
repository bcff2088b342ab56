import Verif.Proofs.OPart
import Verif.Proofs.DCover
import Verif.Proofs.HExact

/-!
# Later slices do not depend on earlier ones

The dynamic programs run from the last slice to the first, so the tables of the data from slice `k` on are the shifted
tables of the whole data.
-/

namespace Lp
open Spec

/-- The comparison loop does not look at the labels. -/
theorem firstBest_mapId {T ι κ : Type} (gt : T → T → Bool) (g : ι → κ) (x : T × ι) (l : List (T × ι)) :
    firstBest gt (x.1, g x.2) (l.map (fun c => (c.1, g c.2))) =
      ((firstBest gt x l).1, g (firstBest gt x l).2) := by
  induction l using List.reverseRecOn with
  | nil => rfl
  | append_singleton l c ih =>
    rw [List.map_append, List.map_cons, List.map_nil, firstBest_append, firstBest_append, ih]
    split <;> rfl

/-- A greedy derivation can be carried over by maps of states and atoms. -/
theorem Greedy.transport {σ τ A B : Type} {decs : Decs σ A} {decs' : Decs τ B} {D : σ → Nat} {D' : τ → Nat}
    {φ : σ → τ} {ψ : A → B} (ok : σ → Prop)
    (h : ∀ s, ok s → ∃ e succ, (decs s)[D s]? = some (e, succ) ∧ (∀ s' ∈ succ, ok s') ∧
      (decs' (φ s))[D' (φ s)]? = some (e.map ψ, succ.map φ))
    {st : List σ} {ds : List Nat} {L : List A} (g : Greedy decs D st ds L) (hst : ∀ s ∈ st, ok s) :
    ∃ ds', Greedy decs' D' (st.map φ) ds' (L.map ψ) := by
  induction g with
  | nil => exact ⟨[], .nil⟩
  | @cons s rest e succ ds L hk _ ih =>
    obtain ⟨e', succ', h1, h2, h3⟩ := h s (hst s (by simp))
    rw [hk] at h1
    simp only [Option.some.injEq, Prod.mk.injEq] at h1
    obtain ⟨rfl, rfl⟩ := h1
    obtain ⟨ds', g'⟩ := ih (by
      intro x hx
      rcases List.mem_append.mp hx with hx | hx
      · exact h2 x hx
      · exact hst x (by simp [hx]))
    refine ⟨D' (φ s) :: ds', ?_⟩
    rw [List.map_append, List.map_cons]
    exact .cons h3 (by simpa using g')

variable {F K : Type} [LD K] [FloatP F K]

/-! ## Ordered data -/

section Ordered
variable {f : Nat → Nat → Quality K} {p : F}

omit [LD K] in
/-- The part of a derivation from an emitted interval on is the derivation of the suffix. -/
theorem oGreedy_suffix {n : Nat} {C : Nat → Int} (hr : ∀ i, i < n → ∃ c : Nat, C i = c ∧ i ≤ c ∧ c < n)
    {L : List (Nat × Nat)} : ∀ {i : Nat} {ds : List Nat}, Greedy (oDecs n) (oChoice n C) (oStart n i) ds L →
      ∀ A x B, L = A ++ x :: B → x.1 < n ∧ ∃ ds', Greedy (oDecs n) (oChoice n C) (oStart n x.1) ds' (x :: B) := by
  induction L with
  | nil => intro i ds _ A x B h; simp at h
  | cons y L ih =>
    intro i ds g A x B h
    have hin : i < n := by
      by_contra hc
      rw [oStart, if_neg hc] at g
      cases g
    have g0 := g
    rw [oStart, if_pos hin] at g
    generalize hL : y :: L = M at g
    cases g with
    | @cons _ _ e succ ds L' hk g' =>
      obtain ⟨c, hc, h1, h2⟩ := hr i hin
      rw [oChoice_spec hc h1 h2] at hk
      simp only [Option.some.injEq, Prod.mk.injEq] at hk
      obtain ⟨rfl, rfl⟩ := hk
      simp only [List.singleton_append, List.cons.injEq] at hL
      obtain ⟨rfl, rfl⟩ := hL
      rw [List.append_nil] at g'
      cases A with
      | nil =>
        simp only [List.nil_append, List.cons.injEq] at h
        obtain ⟨rfl, rfl⟩ := h
        exact ⟨hin, _, g0⟩
      | cons a A =>
        simp only [List.cons_append, List.cons.injEq] at h
        exact ih g' A x B h.2

/-- The tables of a suffix are the shifted tables. -/
theorem oTables_shift {n k : Nat} {T T' : Nat → Tradeoff K} {C C' : Nat → Int}
    (e : ∀ i, i < n → (T i, C i) = oRow f n p T i (n - 1))
    (e' : ∀ i, i < n - k → (T' i, C' i) = oRow (fun i j => f (i + k) (j + k)) (n - k) p T' i (n - k - 1)) :
    ∀ m i, n - k - i = m → i < n - k → T' i = T (i + k) ∧ C' i = C (i + k) - k := by
  intro m
  induction m using Nat.strong_induction_on with
  | _ m ih =>
    intro i hm hi
    have h1 := e (i + k) (by omega)
    have h2 := e' i hi
    have : oRow (fun i j => f (i + k) (j + k)) (n - k) p T' i (n - k - 1) =
        ((oRow f n p T (i + k) (n - 1)).1, (oRow f n p T (i + k) (n - 1)).2 - k) := by
      unfold oRow
      rw [← firstBest_mapId Tradeoff.gt (fun z : Int => z - k)]
      dsimp only
      have a1 : n - k - 1 + k = n - 1 := by omega
      have a2 : ((n - k : Nat) : Int) - 1 = (n : Int) - 1 - k := by omega
      have a3 : n - 1 - (i + k) = n - k - 1 - i := by omega
      rw [a1, a2, a3, List.map_map]
      congr 1
      apply List.ext_getElem?
      intro x
      simp only [List.getElem?_map]
      by_cases hx : x < n - k - 1 - i
      · rw [List.getElem?_range' hx, List.getElem?_range' hx]
        simp only [Option.map_some, one_mul, Function.comp, Option.some.injEq, Prod.mk.injEq]
        have b1 : i + x + k = i + k + x := by omega
        have b2 : T' (i + x + 1) = T (i + k + x + 1) := by
          rw [(ih (n - k - (i + x + 1)) (by omega) (i + x + 1) rfl (by omega)).1]
          congr 1; omega
        rw [b1, b2]
        exact ⟨rfl, by push_cast; ring⟩
      · rw [List.getElem?_eq_none (by simpa using hx), List.getElem?_eq_none (by simpa using hx)]; rfl
    rw [← h1, ← h2] at this
    exact ⟨(Prod.mk.inj this).1, (Prod.mk.inj this).2⟩

/-- The best partition of the slices from `k` on, shifted back, is the rest of the best partition of the whole data from a
part starting at `k`. -/
theorem oBest_suffix {q q' : UTM (Quality K)} {n k : Nat} (hq : q.Rep n f)
    (hq' : q'.Rep (n - k) (fun i j => f (i + k) (j + k))) (p : F) :
    ∃ (P P' : OPartition F K) (L L' : List (Nat × Nat)), oBestPartition q p = .ok P ∧ oBestPartition q' p = .ok P' ∧
      P.parts = L.map (oPartOf f) ∧ P'.parts = L'.map (oPartOf (fun i j => f (i + k) (j + k))) ∧
      ∀ A x B, L = A ++ x :: B → x.1 = k → x :: B = L'.map (fun y => (y.1 + k, y.2 + k)) := by
  obtain ⟨P, T, C, ds, L, h1, h2, h3, h4, _⟩ := oBest_spec hq p
  obtain ⟨P', T', C', ds', L', h1', h2', h3', h4', _⟩ := oBest_spec hq' p
  refine ⟨P, P', L, L', h1, h1', h4, h4', ?_⟩
  rintro A x B hL rfl
  have hr : ∀ i, i < n → ∃ c : Nat, C i = c ∧ i ≤ c ∧ c < n := by
    intro i hi
    obtain ⟨c, hc⟩ := oRow_cut (f := f) (p := p) (T := T) hi
    rw [← h2 i hi] at hc
    exact ⟨c, hc⟩
  obtain ⟨hx, ds1, g⟩ := oGreedy_suffix hr h3 A x B hL
  rw [oStart, if_pos hx] at g
  have hs := oTables_shift h2 h2'
  rw [oStart, if_pos (by omega)] at h3'
  obtain ⟨ds2, g'⟩ := h3'.transport (decs' := oDecs n) (D' := oChoice n C) (φ := fun i => i + x.1)
    (ψ := fun y => (y.1 + x.1, y.2 + x.1)) (fun i => i < n - x.1) (by
      intro i hi
      obtain ⟨c, hc⟩ := oRow_cut (f := fun i j => f (i + x.1) (j + x.1)) (p := p) (T := T') hi
      rw [← h2' i hi] at hc
      obtain ⟨hc, hc1, hc2⟩ := hc
      refine ⟨_, _, oChoice_spec hc hc1 hc2, ?_, ?_⟩
      · intro s' hs'
        unfold oStart at hs'
        split at hs'
        · simp at hs'; omega
        · simp at hs'
      · have e1 : C (i + x.1) = ((c + x.1 : Nat) : Int) := by
          have := (hs _ i rfl hi).2
          dsimp only at hc
          rw [hc] at this
          push_cast; omega
        rw [oChoice_spec e1 (by omega) (by omega)]
        simp only [List.map_cons, List.map_nil, Option.some.injEq, Prod.mk.injEq, true_and]
        unfold oStart
        by_cases hcn : c + 1 < n - x.1
        · rw [if_pos hcn, if_pos (by omega)]; simp; omega
        · rw [if_neg hcn, if_neg (by omega)]; rfl) (by simp; omega)
  simp only [List.map_cons, List.map_nil, Nat.zero_add] at g'
  exact (g.unique g').2

end Ordered

/-! ## Spatiotemporal data -/

section Spatiotemporal
variable {leaves : Nat} {parents : List Int} {md : HMeta} {Q : Nat → Nat → Nat → Quality K} {p : F}

/-- A stored cut seen from slice `k`: `-1` is the mark of a spatial split. -/
def dShift (k : Nat) (z : Int) : Int := if z = -1 then -1 else z - k

/-- The tables of a suffix are the shifted tables. -/
theorem dTables_shift (r : RightMeta leaves parents md) {n k : Nat} {T T' : Nat → Nat → Tradeoff K}
    {C C' : Nat → Nat → Int}
    (e : ∀ h i, h < parents.length → i < n → DEq leaves parents md.path Q p n T C h i)
    (e' : ∀ h i, h < parents.length → i < n - k →
      DEq leaves parents md.path (fun h i j => Q h (i + k) (j + k)) p (n - k) T' C' h i) :
    ∀ m i, n - k - i = m → i < n - k → ∀ j h : Nat, md.path[j]? = some h →
      T' h i = T h (i + k) ∧ C' h i = dShift k (C h (i + k)) := by
  intro m
  induction m using Nat.strong_induction_on with
  | _ m ih =>
    intro i hm hi j
    induction j using Nat.strong_induction_on with
    | _ j ihj =>
      intro h hj
      have hl : h < parents.length := (r.pathMem h).mp (List.mem_of_getElem? hj)
      have h1 := e h (i + k) hl (by omega)
      have h2 := e' h i hl hi
      unfold DEq at h1 h2
      have hsum : tsum (fun c => T' c i) (kidsIn parents md.path h) =
          tsum (fun c => T c (i + k)) (kidsIn parents md.path h) := by
        apply tsum_congr
        intro c hc
        obtain ⟨_, hcp⟩ := mem_kidsIn.mp hc
        obtain ⟨j', _, hj'⟩ := r.pos (ParentIs.lt hcp)
        exact (ihj j' (r.pathOrder _ _ _ _ hj' hj hcp) c hj').1
      rw [hsum] at h2
      have : dRow (!decide (h < leaves)) (fun i j => Q h (i + k) (j + k)) p
            (tsum (fun c => T c (i + k)) (kidsIn parents md.path h)) (T' h) i (n - k - 1) (n - k - 1) =
          ((dRow (!decide (h < leaves)) (Q h) p (tsum (fun c => T c (i + k)) (kidsIn parents md.path h)) (T h)
            (i + k) (n - 1) (n - 1)).1,
           dShift k (dRow (!decide (h < leaves)) (Q h) p (tsum (fun c => T c (i + k)) (kidsIn parents md.path h)) (T h)
            (i + k) (n - 1) (n - 1)).2) := by
        unfold dRow
        rw [← firstBest_mapId Tradeoff.gt (dShift k)]
        dsimp only
        have a1 : n - k - 1 + k = n - 1 := by omega
        have a2 : ((n - k - 1 : Nat) : Int) = dShift k ((n - 1 : Nat) : Int) := by
          unfold dShift; rw [if_neg (by omega)]; omega
        have a3 : n - 1 - (i + k) = n - k - 1 - i := by omega
        rw [a1, a2, a3, List.map_append, List.map_map]
        congr 2
        · by_cases hlf : h < leaves
          · simp [hlf]
          · simp [hlf, dShift]
        · apply List.ext_getElem?
          intro x
          simp only [List.getElem?_map]
          by_cases hx : x < n - k - 1 - i
          · rw [List.getElem?_range' hx, List.getElem?_range' hx]
            simp only [Option.map_some, one_mul, Function.comp, Option.some.injEq, Prod.mk.injEq]
            have b1 : i + x + k = i + k + x := by omega
            have b2 : T' h (i + x + 1) = T h (i + k + x + 1) := by
              rw [(ih (n - k - (i + x + 1)) (by omega) (i + x + 1) rfl (by omega) j h hj).1]
              congr 1; omega
            rw [b1, b2]
            refine ⟨rfl, ?_⟩
            unfold dShift
            rw [if_neg (by omega)]; push_cast; ring
          · rw [List.getElem?_eq_none (by simpa using hx), List.getElem?_eq_none (by simpa using hx)]; rfl
      rw [← h1, ← h2] at this
      exact ⟨(Prod.mk.inj this).1, (Prod.mk.inj this).2⟩

omit [LD K] in
/-- A stack without the root never emits the root. -/
theorem dGreedy_noRoot (r : RightMeta leaves parents md) {n : Nat} {D : Nat × Nat → Nat} {st : List (Nat × Nat)}
    {ds : List Nat} {L : List Rect} (g : Greedy (dDecs leaves md.children n) D st ds L)
    (hst : ∀ s ∈ st, s.1 < parents.length ∧ s.1 ≠ md.root) : ∀ x ∈ L, x.node ≠ md.root := by
  induction g with
  | nil => simp
  | @cons s rest e succ ds L hk _ ih =>
    obtain ⟨h, i⟩ := s
    have hs := hst (h, i) (by simp)
    have hrest : ∀ s ∈ rest, s.1 < parents.length ∧ s.1 ≠ md.root := fun s hs => hst s (by simp [hs])
    rcases dDecs_cases hk with ⟨_, rfl, rfl⟩ | ⟨_, _, rfl, rfl⟩ | ⟨c, _, _, _, rfl, rfl⟩
    · intro x hx
      rcases List.mem_append.mp hx with hx | hx
      · rw [List.mem_singleton.mp hx]; exact hs.2
      · exact ih (by simpa using hrest) x hx
    · obtain ⟨ch, hch, _, hmem⟩ := r.kidsPerm hs.1
      intro x hx
      rw [List.nil_append] at hx
      refine ih ?_ x hx
      intro s' hs'
      rcases List.mem_append.mp hs' with hs' | hs'
      · rw [hch, Option.getD_some] at hs'
        obtain ⟨c, hc, rfl⟩ := List.mem_map.mp hs'
        have hp := (hmem c).mp hc
        refine ⟨hp.lt, ?_⟩
        rintro rfl
        have := r.tree.rootPar
        unfold ParentIs at hp
        rw [this] at hp
        have := Option.some.inj hp
        omega
      · exact hrest s' hs'
    · intro x hx
      rcases List.mem_append.mp hx with hx | hx
      · rw [List.mem_singleton.mp hx]; exact hs.2
      · refine ih ?_ x hx
        intro s' hs'
        rcases List.mem_append.mp hs' with hs' | hs'
        · rw [List.mem_singleton.mp hs']; exact hs
        · exact hrest s' hs'

omit [LD K] in
/-- After a part of the root that ends before the last slice, the derivation goes on with the root alone. -/
theorem dGreedy_suffix (r : RightMeta leaves parents md) {n : Nat} {D : Nat × Nat → Nat}
    {L : List Rect} : ∀ {i : Nat} {ds : List Nat}, Greedy (dDecs leaves md.children n) D [(md.root, i)] ds L →
      ∀ A x B, L = A ++ x :: B → x.node = md.root → x.last + 1 < n →
        ∃ ds', Greedy (dDecs leaves md.children n) D [(md.root, x.last + 1)] ds' B := by
  induction L with
  | nil => intro i ds _ A x B h; simp at h
  | cons y L ih =>
    intro i ds g A x B h hx hn
    generalize hL : y :: L = M at g
    cases g with
    | @cons _ _ e succ ds L' hk g' =>
      rw [List.append_nil] at g'
      rcases dDecs_cases hk with ⟨_, rfl, rfl⟩ | ⟨_, _, rfl, rfl⟩ | ⟨c, _, hc, _, rfl, rfl⟩
      · cases g'
        simp only [List.append_nil, List.cons.injEq] at hL
        obtain ⟨rfl, rfl⟩ := hL
        cases A with
        | nil =>
          simp only [List.nil_append, List.cons.injEq] at h
          obtain ⟨rfl, rfl⟩ := h
          dsimp only at hn; omega
        | cons a A => simp at h
      · exfalso
        rw [List.nil_append] at hL
        subst hL
        obtain ⟨ch, hch, _, hmem⟩ := r.kidsPerm (r.tree.rootLt)
        refine dGreedy_noRoot r g' ?_ x (by rw [h]; simp) hx
        intro s' hs'
        rw [hch, Option.getD_some] at hs'
        obtain ⟨c, hc, rfl⟩ := List.mem_map.mp hs'
        have hp := (hmem c).mp hc
        refine ⟨hp.lt, ?_⟩
        rintro rfl
        have := r.tree.rootPar
        unfold ParentIs at hp
        rw [this] at hp
        have := Option.some.inj hp
        omega
      · simp only [List.singleton_append, List.cons.injEq] at hL
        obtain ⟨rfl, rfl⟩ := hL
        cases A with
        | nil =>
          simp only [List.nil_append, List.cons.injEq] at h
          obtain ⟨rfl, rfl⟩ := h
          exact ⟨_, g'⟩
        | cons a A =>
          simp only [List.cons_append, List.cons.injEq] at h
          exact ih g' A x B h.2 hx hn

/-- What follows a part of the root that ends at slice `k - 1` is the best partition of the slices from `k` on. -/
theorem dBest_suffix (r : RightMeta leaves parents md) {q q' : List (UTM (Quality K))} {n k : Nat} (hk : k < n)
    (hn : n ≤ 65535) (hq : MRep q parents.length n Q)
    (hq' : MRep q' parents.length (n - k) (fun h i j => Q h (i + k) (j + k))) (p : F) :
    ∃ (P P' : DPartition F K) (L L' : List Rect), dBestPartition q md p = .ok P ∧ dBestPartition q' md p = .ok P' ∧
      P.parts = L.map (dPartOf md Q) ∧ P'.parts = L'.map (dPartOf md (fun h i j => Q h (i + k) (j + k))) ∧
      ∀ A x B, L = A ++ x :: B → x.node = md.root → x.last + 1 = k →
        B = L'.map (fun y => ⟨y.node, y.first + k, y.last + k⟩) := by
  obtain ⟨P, T, C, ds, L, h1, h2, h3, h4, _⟩ := dBest_spec r hq (by omega) hn p
  obtain ⟨P', T', C', ds', L', h1', h2', h3', h4', _⟩ := dBest_spec r hq' (by omega) (by omega) p
  refine ⟨P, P', L, L', h1, h1', h4, h4', ?_⟩
  rintro A x B hL hx hxk
  obtain ⟨ds1, g⟩ := dGreedy_suffix r h3 A x B hL hx (by omega)
  rw [hxk] at g
  have hs := dTables_shift r h2 h2'
  obtain ⟨ds2, g'⟩ := h3'.transport (decs' := dDecs leaves md.children n) (D' := dChoice leaves n C)
    (φ := fun s => (s.1, s.2 + k)) (ψ := fun y => (⟨y.node, y.first + k, y.last + k⟩ : Rect))
    (fun s => s.1 < parents.length ∧ s.2 < n - k) (by
      rintro ⟨h, i⟩ ⟨hh, hi⟩
      dsimp only at hh hi ⊢
      obtain ⟨j, _, hj⟩ := r.pos hh
      have hC := (hs _ i rfl hi j h hj).2
      have hcut := (h2 h (i + k) hh (by omega)).cut (by omega)
      rcases hcut with hc | ⟨hc, hin⟩ | ⟨c, hc, hc1, hc2⟩
      · have hc' : C' h i = ((n - k : Nat) : Int) - 1 := by
          rw [hC, hc]; unfold dShift; rw [if_neg (by omega)]; omega
        refine ⟨[⟨h, i, n - k - 1⟩], [], ?_, by simp, ?_⟩
        · rw [show dChoice leaves (n - k) C' (h, i) = 0 by simp [dChoice, hc']]; exact dDecs_whole
        · rw [show dChoice leaves n C (h, i + k) = 0 by simp [dChoice, hc], dDecs_whole]
          simp; omega
      · have hc' : C' h i = -1 := by rw [hC, hc]; rfl
        obtain ⟨ch, hch, _, hmem⟩ := r.kidsPerm hh
        have d1 : dChoice leaves (n - k) C' (h, i) = 1 := by
          unfold dChoice; rw [if_neg (by rw [hc']; omega), if_pos hc']
        have d2 : dChoice leaves n C (h, i + k) = 1 := by
          unfold dChoice; rw [if_neg (by rw [hc]; omega), if_pos hc]
        refine ⟨[], ch.map (fun c => (c, i)), by rw [d1]; exact dDecs_split hin hch, ?_, ?_⟩
        · intro s' hs'
          obtain ⟨c, hc, rfl⟩ := List.mem_map.mp hs'
          exact ⟨((hmem c).mp hc).lt, hi⟩
        · rw [d2, dDecs_split hin hch, List.map_map]; rfl
      · have hc' : C' h i = ((c - k : Nat) : Int) := by
          rw [hC, hc]; unfold dShift; rw [if_neg (by omega)]; omega
        have d1 : dChoice leaves (n - k) C' (h, i) = (c - k) - i + (if h < leaves then 1 else 2) := by
          unfold dChoice
          simp only [hc']
          rw [if_neg (by omega), if_neg (by omega), Int.toNat_natCast]
        have d2 : dChoice leaves n C (h, i + k) = c - (i + k) + (if h < leaves then 1 else 2) := by
          unfold dChoice
          simp only [hc]
          rw [if_neg (by omega), if_neg (by omega), Int.toNat_natCast]
        refine ⟨[⟨h, i, c - k⟩], [(h, c - k + 1)], ?_, ?_, ?_⟩
        · rw [d1]; exact dDecs_cut (by omega) (by omega)
        · intro s' hs'
          rw [List.mem_singleton.mp hs']
          exact ⟨hh, by dsimp only; omega⟩
        · rw [d2, dDecs_cut (by omega) (by omega)]
          simp; omega) (by
      intro s hs
      rw [List.mem_singleton.mp hs]
      exact ⟨r.tree.rootLt, by dsimp only; omega⟩)
  simp only [List.map_cons, List.map_nil, Nat.zero_add] at g'
  exact (g.unique g').2

end Spatiotemporal

/-! ## Hierarchies: a subtree does not depend on the rest -/

section Hierarchy
variable {leaves : Nat} {parents : List Int} {md : HMeta}

omit [LD K] [FloatP F K] in
/-- The nodes emitted from `h`: the flagged nodes below `h` with no flagged node above them (and below `h`). -/
theorem hGreedy_mem (r : RightMeta leaves parents md) {A : Nat → Bool} (hleaf : ∀ h, h < leaves → A h = true) :
    ∀ (k h : Nat) (ds L : List Nat), md.path[k]? = some h → Greedy (hDecs leaves md.children) (hChoice A) [h] ds L →
      ∀ x, x ∈ L ↔ Under parents h x ∧ A x = true ∧
        ∀ y, Under parents h y → Under parents y x → y ≠ x → A y = false := by
  intro k
  induction k using Nat.strong_induction_on with
  | _ k ih =>
    intro h ds L hk g x
    have hl : h < parents.length := (r.pathMem h).mp (List.mem_of_getElem? hk)
    cases g with
    | @cons _ _ e succ ds L hd g =>
      rw [List.append_nil] at g
      cases hA : A h with
      | true =>
        have e0 : hChoice A h = 0 := by simp [hChoice, hA]
        have h0 : (hDecs leaves md.children h)[0]? = some ([h], []) := by unfold hDecs; split <;> rfl
        rw [e0, h0] at hd
        simp only [Option.some.injEq, Prod.mk.injEq] at hd
        obtain ⟨rfl, rfl⟩ := hd
        cases g
        simp only [List.append_nil, List.mem_singleton]
        constructor
        · rintro rfl
          exact ⟨.self, hA, fun y h1 h2 h3 => absurd (under_antisymm r.tree h2 h1) h3⟩
        · rintro ⟨h1, h2, h3⟩
          by_contra hne
          have := h3 h .self h1 (fun e => hne e.symm)
          rw [hA] at this; simp at this
      | false =>
        have hin : ¬ h < leaves := fun hl' => by rw [hleaf h hl'] at hA; simp at hA
        obtain ⟨ch, hch, _, hmem⟩ := r.kidsPerm hl
        have e0 : hChoice A h = 1 := by simp [hChoice, hA]
        rw [e0, hDecs_inner hin hch] at hd
        simp only [List.getElem?_cons_succ, List.getElem?_cons_zero, Option.some.injEq, Prod.mk.injEq] at hd
        obtain ⟨rfl, rfl⟩ := hd
        rw [List.nil_append]
        have main : ∀ (st : List Nat), (∀ c ∈ st, ParentIs parents c h) → ∀ (ds L : List Nat),
            Greedy (hDecs leaves md.children) (hChoice A) st ds L →
            (x ∈ L ↔ ∃ c ∈ st, Under parents c x ∧ A x = true ∧
              ∀ y, Under parents c y → Under parents y x → y ≠ x → A y = false) := by
          intro st
          induction st with
          | nil => intro _ ds L g; cases g; simp
          | cons c st ihs =>
            intro hst ds L g
            obtain ⟨ds1, ds2, L1, L2, rfl, rfl, g1, g2⟩ := g.split [c] st rfl
            obtain ⟨j, _, hj⟩ := r.pos (hst c (by simp)).lt
            rw [List.mem_append, ih j (r.pathOrder _ _ _ _ hj hk (hst c (by simp))) c ds1 L1 hj g1 x,
              ihs (fun c' hc' => hst c' (by simp [hc'])) ds2 L2 g2]
            simp
        rw [main _ (fun c hc => (hmem c).mp hc) _ _ g]
        constructor
        · rintro ⟨c, hc, h1, h2, h3⟩
          have hcp := (hmem c).mp hc
          refine ⟨under_iff.mpr (Or.inr ⟨c, hcp, h1⟩), h2, ?_⟩
          intro y hy1 hy2 hy3
          rcases under_iff.mp hy1 with rfl | ⟨c', hc', hy⟩
          · exact hA
          · obtain rfl := under_child_unique r.tree hcp hc' h1 (hy.trans hy2)
            exact h3 y hy hy2 hy3
        · rintro ⟨h1, h2, h3⟩
          rcases under_iff.mp h1 with rfl | ⟨c, hc, hcx⟩
          · rw [hA] at h2; simp at h2
          · exact ⟨c, (hmem c).mpr hc, hcx, h2, fun y hy => h3 y (under_iff.mpr (Or.inr ⟨c, hc, hy⟩))⟩

/-- The tables of two sets of qualities agree below a node if the qualities do. -/
theorem hTables_local (r : RightMeta leaves parents md) {Q Q' : Nat → Quality K} {p : F} {T T' : Nat → Tradeoff K}
    {A A' : Nat → Bool} {h0 : Nat}
    (e : ∀ h, h < parents.length → (T h, A h) = hNode leaves parents md.path Q p T h)
    (e' : ∀ h, h < parents.length → (T' h, A' h) = hNode leaves parents md.path Q' p T' h)
    (hQ : ∀ h, Under parents h0 h → Q h = Q' h) :
    ∀ k h : Nat, md.path[k]? = some h → Under parents h0 h → T h = T' h ∧ A h = A' h := by
  intro k
  induction k using Nat.strong_induction_on with
  | _ k ih =>
    intro h hk hu
    have hl : h < parents.length := (r.pathMem h).mp (List.mem_of_getElem? hk)
    have hsum : tsum T (kidsIn parents md.path h) = tsum T' (kidsIn parents md.path h) := by
      apply tsum_congr
      intro c hc
      obtain ⟨_, hcp⟩ := mem_kidsIn.mp hc
      obtain ⟨j, _, hj⟩ := r.pos (ParentIs.lt hcp)
      exact (ih j (r.pathOrder _ _ _ _ hj hk hcp) c hj (.up hcp hu)).1
    have h1 := e h hl
    have h2 := e' h hl
    unfold hNode at h1 h2
    rw [hsum, hQ h hu, ← h2] at h1
    exact ⟨(Prod.mk.inj h1).1, (Prod.mk.inj h1).2⟩

/-- If no node strictly above `h` is a part, the parts below `h` are the flagged nodes below `h` with no flagged node
between. -/
theorem hGreedy_below (r : RightMeta leaves parents md) {A : Nat → Bool} (hleaf : ∀ h, h < leaves → A h = true)
    {ds L : List Nat} (g : Greedy (hDecs leaves md.children) (hChoice A) [md.root] ds L) {h : Nat}
    (hh : h < parents.length) (hab : ∀ y ∈ L, Under parents y h → y = h) {x : Nat} (hx : Under parents h x) :
    x ∈ L ↔ A x = true ∧ ∀ y, Under parents h y → Under parents y x → y ≠ x → A y = false := by
  have hm := hGreedy_mem r hleaf _ _ _ _ r.last g
  -- every node strictly above `h` is not flagged
  have key : ∀ y, Under parents y h → y ≠ h → A y = false := by
    obtain ⟨d, _, hd⟩ := r.tree.depth
    have : ∀ m y, d y = m → Under parents y h → y ≠ h → A y = false := by
      intro m
      induction m using Nat.strong_induction_on with
      | _ m ih =>
        intro y hy hyh hne
        by_contra hA
        have hA : A y = true := by simpa using hA
        apply hne
        apply hab y _ hyh
        rw [hm]
        refine ⟨r.tree.reach y (under_lt r.tree hyh hh), hA, ?_⟩
        intro z _ hz2 hz3
        have hdz := under_depth hd hz2
        refine ih (d z) ?_ z rfl (hz2.trans hyh) ?_
        · rcases Nat.lt_or_ge (d z) m with h' | h'
          · exact h'
          · exact absurd (hdz.2 (by omega)) hz3
        · rintro rfl
          exact hz3 (under_antisymm r.tree hz2 hyh)
    exact fun y => this (d y) y rfl
  rw [hm]
  constructor
  · rintro ⟨_, h2, h3⟩
    exact ⟨h2, fun y hy1 => h3 y (r.tree.reach y (by
      by_contra hc
      have := hy1
      cases hy1 with
      | self => exact hc hh
      | up hp _ => exact hc hp.lt))⟩
  · rintro ⟨h2, h3⟩
    refine ⟨(r.tree.reach h hh).trans hx, h2, ?_⟩
    intro y _ hy2 hy3
    rcases under_total hy2 hx with hu | hu
    · by_cases hyh : y = h
      · subst hyh; exact h3 y .self hy2 hy3
      · exact key y hu hyh
    · exact h3 y hu hy2 hy3

/-- Two sets of qualities that agree below `h`: if no part of either best partition is strictly above `h`, the parts
below `h` are the same. -/
theorem hBest_local (r : RightMeta leaves parents md) (hlt : leaves < parents.length) {q q' : List (Quality K)}
    {Q Q' : Nat → Quality K} (hq : VRep q parents.length Q) (hq' : VRep q' parents.length Q') {h : Nat}
    (hh : h < parents.length) (hQ : ∀ x, Under parents h x → Q x = Q' x) (p : F) :
    ∃ (P P' : HPartition F K) (L L' : List Nat), hBestPartition q md p = .ok P ∧ hBestPartition q' md p = .ok P' ∧
      P.parts = L.map (hPartOf md Q) ∧ P'.parts = L'.map (hPartOf md Q') ∧
      ((∀ y ∈ L, Under parents y h → y = h) → (∀ y ∈ L', Under parents y h → y = h) →
        ∀ x, Under parents h x → (x ∈ L ↔ x ∈ L')) := by
  obtain ⟨P, T, A, ds, L, h1, h2, h3, h4, _⟩ := hBest_spec r hlt hq p
  obtain ⟨P', T', A', ds', L', h1', h2', h3', h4', _⟩ := hBest_spec r hlt hq' p
  refine ⟨P, P', L, L', h1, h1', h4, h4', ?_⟩
  intro ha ha' x hx
  have leafA : ∀ {Q : Nat → Quality K} {T : Nat → Tradeoff K} {A : Nat → Bool},
      (∀ h, h < parents.length → (T h, A h) = hNode leaves parents md.path Q p T h) →
      ∀ h, h < leaves → A h = true := by
    intro Q T A h2 h hh
    have := h2 h (by omega)
    unfold hNode at this
    rw [if_pos hh] at this
    exact (Prod.mk.inj this).2
  rw [hGreedy_below r (leafA h2) h3 hh ha hx, hGreedy_below r (leafA h2') h3' hh ha' hx]
  have hlt' : ∀ y, Under parents h y → y < parents.length := by
    intro y hy
    cases hy with
    | self => exact hh
    | up hp _ => exact hp.lt
  have hAA : ∀ y, Under parents h y → A y = A' y := by
    intro y hy
    obtain ⟨j, _, hj⟩ := r.pos (hlt' y hy)
    exact (hTables_local r h2 h2' hQ j y hj hy).2
  rw [hAA x hx]
  constructor
  · rintro ⟨a, b⟩
    exact ⟨a, fun y hy => by rw [← hAA y hy]; exact b y hy⟩
  · rintro ⟨a, b⟩
    exact ⟨a, fun y hy => by rw [hAA y hy]; exact b y hy⟩

end Hierarchy
end Lp

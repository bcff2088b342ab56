import Verif.Proofs.HCover
import Verif.Proofs.Exact
import Verif.Proofs.Choice

/-!
# The hierarchical partitioner in exact arithmetic
-/

namespace Lp
open Spec
variable {F K : Type} [Field K] [LinearOrder K] [IsStrictOrderedRing K] [FloatP F K]
variable {leaves : Nat} {parents : List Int} {md : HMeta}

omit [IsStrictOrderedRing K] in
theorem lt_iff_value (a b : Tradeoff K) : Tradeoff.lt a b = true ↔ a.value < b.value := by
  unfold Tradeoff.lt Tradeoff.gt Tradeoff.eqOp
  simp only [BEq.beq, Bool.not_eq_true', Bool.or_eq_false_iff, Bool.and_eq_false_iff, decide_eq_false_iff_not]
  constructor
  · rintro ⟨⟨h1, _⟩, h2⟩
    exact lt_of_le_of_ne (not_lt.mp h1) h2
  · intro h
    exact ⟨⟨not_lt.mpr h.le, Or.inl (ne_of_lt h)⟩, ne_of_lt h⟩

omit [IsStrictOrderedRing K] in
theorem tsum_value (T : Nat → Tradeoff K) (l : List Nat) : (tsum T l).value = wsum (fun h => (T h).value) l := by
  have : ∀ z : Tradeoff K, (l.foldl (fun a c => a.add (T c)) z).value = z.value + wsum (fun h => (T h).value) l := by
    induction l with
    | nil => intro z; simp
    | cons a l ih =>
      intro z
      simp only [List.foldl_cons, ih, wsum_cons]
      change z.value + (T a).value + _ = _
      rw [add_assoc]
  unfold tsum
  rw [this]
  change 0 + _ = _
  rw [zero_add]

theorem wsum_perm {A Ob : Type} [AddCommGroup Ob] (w : A → Ob) {L M : List A} (h : L.Perm M) :
    wsum w L = wsum w M := by
  unfold wsum; exact (h.map w).sum_eq

theorem h_dpEq (r : RightMeta leaves parents md) {Q : Nat → Quality K} {p : F} {T : Nat → Tradeoff K} {A : Nat → Bool}
    (h : ∀ h, h < parents.length → (T h, A h) = hNode leaves parents md.path Q p T h) :
    DpEq (hDecs leaves md.children) (valq p Q) (fun h => h < parents.length) (fun h => (T h).value)
      (hChoice A) := by
  have hset : ∀ x, (Tradeoff.set (Q x) p : Tradeoff K).value = valq p Q x := fun _ => rfl
  have hleaf : ∀ x, x < parents.length → x < leaves → (T x).value = valq p Q x ∧ A x = true := by
    intro x hx hl
    have := h x hx
    unfold hNode at this
    rw [if_pos hl] at this
    obtain ⟨e1, e2⟩ := Prod.mk.inj this
    exact ⟨by rw [e1, hset], e2⟩
  have hinner : ∀ x ch, x < parents.length → ¬ x < leaves → md.children[x]? = some ch →
      (valq p Q x < wsum (fun h => (T h).value) ch ∧ A x = false ∧ (T x).value = wsum (fun h => (T h).value) ch) ∨
      (wsum (fun h => (T h).value) ch ≤ valq p Q x ∧ A x = true ∧ (T x).value = valq p Q x) := by
    intro x ch hx hl hch
    obtain ⟨ch', h1, h2, _⟩ := r.kidsPerm hx
    rw [hch] at h1
    obtain rfl := Option.some.inj h1
    have := h x hx
    unfold hNode at this
    rw [if_neg hl] at this
    have hs : (tsum T (kidsIn parents md.path x)).value = wsum (fun h => (T h).value) ch := by
      rw [tsum_value, wsum_perm _ h2]
    by_cases hc : Tradeoff.lt (Tradeoff.set (Q x) p) (tsum T (kidsIn parents md.path x)) = true
    · rw [if_pos hc] at this
      obtain ⟨e1, e2⟩ := Prod.mk.inj this
      rw [lt_iff_value, hset, hs] at hc
      exact Or.inl ⟨hc, e2, by rw [e1, hs]⟩
    · rw [if_neg hc] at this
      obtain ⟨e1, e2⟩ := Prod.mk.inj this
      rw [lt_iff_value, hset, hs] at hc
      exact Or.inr ⟨not_lt.mp hc, e2, by rw [e1, hset]⟩
  refine ⟨?_, ?_, ?_⟩
  · intro x hx k e succ hk y hy
    by_cases hl : x < leaves
    · rw [hDecs_leaf hl] at hk
      cases k with
      | succ k => simp at hk
      | zero => simp at hk; rw [hk.2] at hy; simp at hy
    · obtain ⟨ch, hch, _, hmem⟩ := r.kidsPerm hx
      rw [hDecs_inner hl hch] at hk
      match k, hk with
      | 0, hk => simp at hk; rw [hk.2] at hy; simp at hy
      | 1, hk => simp at hk; rw [← hk.2] at hy; exact ((hmem y).mp hy).lt
      | k + 2, hk => simp at hk
  · intro x hx
    by_cases hl : x < leaves
    · obtain ⟨e1, e2⟩ := hleaf x hx hl
      exact ⟨[x], [], by simp [hDecs_leaf hl, hChoice, e2], by simp [e1]⟩
    · obtain ⟨ch, hch, _, hmem⟩ := r.kidsPerm hx
      rw [hDecs_inner hl hch]
      rcases hinner x ch hx hl hch with ⟨_, e2, e3⟩ | ⟨_, e2, e3⟩
      · exact ⟨[], ch, by simp [hChoice, e2], by simp [e3]⟩
      · exact ⟨[x], [], by simp [hChoice, e2], by simp [e3]⟩
  · intro x hx k e succ hk
    by_cases hl : x < leaves
    · obtain ⟨e1, e2⟩ := hleaf x hx hl
      rw [hDecs_leaf hl] at hk
      cases k with
      | succ k => simp at hk
      | zero =>
        simp at hk
        obtain ⟨rfl, rfl⟩ := hk
        simp [e1, hChoice, e2]
    · obtain ⟨ch, hch, _, hmem⟩ := r.kidsPerm hx
      rw [hDecs_inner hl hch] at hk
      match k, hk with
      | 0, hk =>
        simp at hk
        obtain ⟨rfl, rfl⟩ := hk
        rcases hinner x ch hx hl hch with ⟨e1, e2, e3⟩ | ⟨e1, e2, e3⟩
        · simp [hChoice, e2, e3, e1, e1.le]
        · simp [hChoice, e2, e3]
      | 1, hk =>
        simp at hk
        obtain ⟨rfl, rfl⟩ := hk
        rcases hinner x ch hx hl hch with ⟨e1, e2, e3⟩ | ⟨e1, e2, e3⟩
        · simp [hChoice, e2, e3]
        · simp [hChoice, e2, e3, e1]
      | k + 2, hk => simp at hk

theorem Greedy.split {σ A : Type} {decs : Decs σ A} {D : σ → Nat} {st : List σ} {ds : List Nat} {L : List A}
    (h : Greedy decs D st ds L) :
    ∀ st1 st2, st = st1 ++ st2 → ∃ ds1 ds2 L1 L2, ds = ds1 ++ ds2 ∧ L = L1 ++ L2 ∧
      Greedy decs D st1 ds1 L1 ∧ Greedy decs D st2 ds2 L2 := by
  induction h with
  | nil =>
    intro st1 st2 h
    obtain ⟨rfl, rfl⟩ := List.append_eq_nil_iff.mp h.symm
    exact ⟨[], [], [], [], rfl, rfl, .nil, .nil⟩
  | @cons s rest e succ ds L hk hsol ih =>
    intro st1 st2 h
    cases st1 with
    | nil =>
      simp only [List.nil_append] at h
      subst h
      exact ⟨[], D s :: ds, [], e ++ L, rfl, rfl, .nil, .cons hk hsol⟩
    | cons a st1 =>
      simp only [List.cons_append, List.cons.injEq] at h
      obtain ⟨rfl, rfl⟩ := h
      obtain ⟨ds1, ds2, L1, L2, rfl, rfl, h1, h2⟩ := ih (succ ++ st1) st2 (by simp)
      exact ⟨D s :: ds1, ds2, e ++ L1, L2, rfl, by simp, .cons hk h1, h2⟩

/-- Every solution of maximal value refines the greedy one. -/
theorem h_coarsest (r : RightMeta leaves parents md) {Q : Nat → Quality K} {p : F} {T : Nat → Tradeoff K}
    {A : Nat → Bool}
    (hdp : DpEq (hDecs leaves md.children) (valq p Q) (fun h => h < parents.length) (fun h => (T h).value)
      (hChoice A)) :
    ∀ (k h : Nat) (ds ds' L L' : List Nat), md.path[k]? = some h →
      Greedy (hDecs leaves md.children) (hChoice A) [h] ds L → Sol (hDecs leaves md.children) [h] ds' L' →
      wsum (valq p Q) L' = (T h).value → Refines parents L' L := by
  intro k
  induction k using Nat.strong_induction_on with
  | _ k ih =>
    intro h ds ds' L L' hk hg hs hw
    have hh : h < parents.length := (r.pathMem h).mp (List.mem_of_getElem? hk)
    -- elements of `L'` are below `h`
    have hbelow : ∀ x ∈ L', Under parents h x := by
      intro x hx
      obtain ⟨_, s, hs', hu⟩ := (hSol_cover r hs (by intro s hs; simp at hs; subst hs; exact hh)).1 x hx
      simp at hs'; subst hs'; exact hu
    cases hg with
    | @cons _ _ e succ ds0 L0 hkD hg0 =>
      rw [List.append_nil] at hg0
      cases hs with
      | @cons _ _ k' e' succ' ds0' L0' hk' hs0 =>
        rw [List.append_nil] at hs0
        by_cases hl : h < leaves
        · have : h ∈ e ++ L0 := by
            rw [hDecs_leaf hl] at hkD
            match hD : hChoice A h, hkD with
            | 0, hkD => simp at hkD; rw [← hkD.1]; simp
            | k + 1, hkD => simp at hkD
          exact fun x hx => ⟨h, this, hbelow x hx⟩
        · obtain ⟨ch, hch, _, hmem⟩ := r.kidsPerm hh
          rw [hDecs_inner hl hch] at hkD hk'
          match hD : hChoice A h, hkD with
          | 0, hkD =>
            simp [hD] at hkD
            exact fun x hx => ⟨h, by rw [← hkD.1]; simp, hbelow x hx⟩
          | k + 2, hkD => simp [hD] at hkD
          | 1, hkD =>
            simp [hD] at hkD
            obtain ⟨rfl, rfl⟩ := hkD
            -- the optimal solution cannot aggregate `h`
            match k', hk' with
            | k + 2, hk' => simp at hk'
            | 0, hk' =>
              simp at hk'
              obtain ⟨rfl, rfl⟩ := hk'
              cases hs0
              have := (hdp.best h hh 0 [h] [] (by rw [hDecs_inner hl hch]; rfl)).2 (by rw [hD]; omega)
              simp only [List.append_nil] at hw
              simp only [wsum_nil, add_zero] at this
              exact absurd hw (ne_of_lt this)
            | 1, hk' =>
              simp at hk'
              obtain ⟨rfl, rfl⟩ := hk'
              simp only [List.nil_append] at hw ⊢
              obtain ⟨e, succ, hk1, hT⟩ := hdp.chosen h hh
              rw [hD, hDecs_inner hl hch] at hk1
              simp at hk1
              obtain ⟨rfl, rfl⟩ := hk1
              rw [hT] at hw
              simp only [wsum_nil, zero_add] at hw
              -- children one after the other
              have main : ∀ (cs dsa dsb La Lb : List Nat), (∀ c ∈ cs, ParentIs parents c h) →
                  Greedy (hDecs leaves md.children) (hChoice A) cs dsa La →
                  Sol (hDecs leaves md.children) cs dsb Lb →
                  wsum (valq p Q) Lb = wsum (fun h => (T h).value) cs → Refines parents Lb La := by
                intro cs
                induction cs with
                | nil =>
                  intro dsa dsb La Lb _ hga hsb _
                  cases hsb
                  intro x hx; simp at hx
                | cons c cs ihc =>
                  intro dsa dsb La Lb hcs hga hsb hwb
                  obtain ⟨da1, da2, La1, La2, rfl, rfl, ga1, ga2⟩ := hga.split [c] cs rfl
                  obtain ⟨db1, db2, Lb1, Lb2, rfl, rfl, sb1, sb2⟩ := hsb.split [c] cs rfl
                  have hcp := hcs c (by simp)
                  have o1 := (hdp.optimal sb1 (by intro s hs; simp at hs; subst hs; exact hcp.lt)).1
                  have o2 := (hdp.optimal sb2 (by intro s hs; exact (hcs s (by simp [hs])).lt)).1
                  simp only [wsum_append, wsum_cons, wsum_nil, add_zero] at hwb o1
                  have w1 : wsum (valq p Q) Lb1 = (T c).value := by linarith
                  have w2 : wsum (valq p Q) Lb2 = wsum (fun h => (T h).value) cs := by linarith
                  obtain ⟨j, _, hj⟩ := r.pos hcp.lt
                  have r1 := ih j (r.pathOrder _ _ _ _ hj hk hcp) c da1 db1 La1 Lb1 hj ga1 sb1 w1
                  have r2 := ihc da2 db2 La2 Lb2 (fun x hx => hcs x (by simp [hx])) ga2 sb2 w2
                  intro x hx
                  rcases List.mem_append.mp hx with hx | hx
                  · obtain ⟨y, hy, hu⟩ := r1 x hx; exact ⟨y, by simp [hy], hu⟩
                  · obtain ⟨y, hy, hu⟩ := r2 x hx; exact ⟨y, by simp [hy], hu⟩
              exact main ch ds0 ds0' L0 L0' (fun c hc => (hmem c).mp hc) hg0 hs0 hw

/-- In exact arithmetic the hierarchical partition is the first derivation of maximal value, and the coarsest. -/
theorem hBest_first (r : RightMeta leaves parents md) (hlt : leaves < parents.length)
    {q : List (Quality K)} {Q : Nat → Quality K} (hq : VRep q parents.length Q) (p : F) :
    ∃ (P : HPartition F K) (ds L : List Nat),
      hBestPartition q md p = .ok P ∧ P.parts = L.map (hPartOf md Q) ∧
      P.quality = ⟨gainOf Q L, lossOf Q L⟩ ∧ P.parameter = p ∧
      ValFirst (Sol (hDecs leaves md.children) [md.root]) (wGain p) (wLoss p) Q ds L ∧
      ∀ ds' L', Sol (hDecs leaves md.children) [md.root] ds' L' →
        valueOf (wGain p) (wLoss p) Q L' = valueOf (wGain p) (wLoss p) Q L → Refines parents L' L := by
  obtain ⟨P, T, A, ds, L, h1, h2, h3, h4, h5, h6⟩ := hBest_spec r hlt hq p
  have hdp := h_dpEq r h2
  have hok : ∀ s ∈ [md.root], s < parents.length := by
    intro s hs; simp at hs; subst hs; exact r.tree.rootLt
  have hw := hdp.greedy_weight h3 hok
  refine ⟨P, ds, L, h1, h4, by rw [h5]; exact sumQuality_eq Q L, h6, ⟨h3.sol, ?_, ?_⟩, ?_⟩
  · intro ds' L' hs'
    rw [← wsum_valq, ← wsum_valq, hw]
    exact (hdp.optimal hs' hok).1
  · intro ds' L' hs' he
    rw [← wsum_valq, ← wsum_valq, hw] at he
    exact (hdp.optimal hs' hok).2 ds L h3 he
  · intro ds' L' hs' he
    rw [← wsum_valq, ← wsum_valq, hw] at he
    exact h_coarsest r hdp _ md.root ds ds' L L' r.last h3 hs' (by simpa using he)

end Lp

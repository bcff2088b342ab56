import Verif.Spec.Renumber
import Verif.Proofs.Shift
import Verif.Proofs.Ent

/-!
# Renumbering a hierarchy

The results of the hierarchical and spatiotemporal partitioners for two numberings of one hierarchy.
-/

namespace Lp
open Spec

/-- A greedy derivation can be carried over by maps of states and atoms that respect decisions up to order. -/
theorem Greedy.transportPerm {σ τ A B : Type} {decs : Decs σ A} {decs' : Decs τ B} {D : σ → Nat} {D' : τ → Nat}
    {φ : σ → τ} {ψ : A → B} (ok : σ → Prop)
    (h : ∀ s, ok s → ∃ e succ e' succ', (decs s)[D s]? = some (e, succ) ∧ (∀ s' ∈ succ, ok s') ∧
      (decs' (φ s))[D' (φ s)]? = some (e', succ') ∧ e'.Perm (e.map ψ) ∧ succ'.Perm (succ.map φ))
    {st : List σ} {ds : List Nat} {L : List A} (g : Greedy decs D st ds L) (hst : ∀ s ∈ st, ok s) :
    ∀ st' : List τ, st'.Perm (st.map φ) → ∃ ds' L', Greedy decs' D' st' ds' L' ∧ L'.Perm (L.map ψ) := by
  induction g with
  | nil =>
    intro st' hp
    rw [List.map_nil] at hp
    rw [hp.eq_nil]
    exact ⟨[], [], .nil, List.Perm.refl _⟩
  | @cons s rest e succ ds L hk _ ih =>
    intro st' hp
    obtain ⟨e0, succ0, e', succ', h1, h2, h3, h4, h5⟩ := h s (hst s (by simp))
    rw [hk] at h1
    simp only [Option.some.injEq, Prod.mk.injEq] at h1
    obtain ⟨rfl, rfl⟩ := h1
    have hm : φ s ∈ st' := hp.mem_iff.mpr (by simp)
    obtain ⟨a, b, rfl⟩ := List.append_of_mem hm
    have hp' : (a ++ b).Perm (rest.map φ) := by
      rw [List.map_cons] at hp
      exact (List.perm_middle.symm.trans hp).cons_inv
    obtain ⟨ds', L', g', hL⟩ := ih (by
      intro x hx
      rcases List.mem_append.mp hx with hx | hx
      · exact h2 x hx
      · exact hst x (by simp [hx])) (succ' ++ (a ++ b)) (by
        rw [List.map_append]; exact h5.append hp')
    obtain ⟨d1, d2, L1, L2, rfl, rfl, g1, g2⟩ := g'.split succ' (a ++ b) rfl
    obtain ⟨d3, d4, L3, L4, rfl, rfl, g3, g4⟩ := g2.split a b rfl
    refine ⟨_, _, g3.append (.cons h3 (g1.append g4)), ?_⟩
    rw [List.map_append]
    refine List.Perm.trans ?_ (h4.append hL)
    have : (L3 ++ (e' ++ (L1 ++ L4))).Perm (e' ++ (L1 ++ (L3 ++ L4))) := by
      have i1 : (L3 ++ (e' ++ (L1 ++ L4))).Perm ((e' ++ L1) ++ (L3 ++ L4)) := by
        rw [← List.append_assoc e' L1 L4, ← List.append_assoc L3, ← List.append_assoc (e' ++ L1)]
        exact List.perm_append_comm.append_right _
      rwa [List.append_assoc] at i1
    exact this

section Sums
variable {K : Type} [LD K]

/-- Sums do not depend on the order if addition is commutative and associative enough. -/
theorem tsum_perm (hadd : ∀ a b c : K, a + b + c = a + c + b) {T : Nat → Tradeoff K} {l m : List Nat} (h : l.Perm m) :
    tsum T l = tsum T m := by
  unfold tsum
  refine List.Perm.foldl_eq' h ?_ _
  intro x _ y _ z
  unfold Tradeoff.add
  simp only [hadd]

theorem tsum_map (T : Nat → Tradeoff K) (g : Nat → Nat) (l : List Nat) : tsum T (l.map g) = tsum (fun c => T (g c)) l := by
  unfold tsum; rw [List.foldl_map]

theorem sumQuality_perm (hadd : ∀ a b c : K, a + b + c = a + c + b) {l m : List (Quality K)} (h : l.Perm m) :
    sumQuality l = sumQuality m := by
  unfold sumQuality
  refine List.Perm.foldl_eq' h ?_ _
  intro x _ y _ z
  unfold Quality.add
  simp only [hadd]

end Sums

namespace Spec.Renumbering
variable {parents parents' : List Int} {σ : Nat → Nat}

theorem surj (s : Renumbering parents parents' σ) {y : Nat} (hy : y < parents.length) :
    ∃ x, x < parents.length ∧ σ x = y := by
  have : Function.Surjective (fun x : Fin parents.length => (⟨σ x, s.lt x x.2⟩ : Fin parents.length)) := by
    apply Finite.injective_iff_surjective.mp
    intro a b h
    exact Fin.ext (s.inj a b a.2 b.2 (by simpa using h))
  obtain ⟨x, hx⟩ := this ⟨y, hy⟩
  exact ⟨x, x.2, by simpa using hx⟩

variable {leaves : Nat} {root root' : Nat}

theorem leafIff (s : Renumbering parents parents' σ) (t : IsTree leaves parents root) (t' : IsTree leaves parents' root')
    {h : Nat} (hh : h < parents.length) : σ h < leaves ↔ h < leaves := by
  rw [t.leaf h hh, t'.leaf (σ h) (by rw [s.length]; exact s.lt h hh)]
  apply not_congr
  constructor
  · rintro ⟨c, hc⟩
    have hcl := hc.lt
    rw [s.length] at hcl
    obtain ⟨x, hx, rfl⟩ := s.surj hcl
    exact ⟨x, (s.parent x h hx hh).mp hc⟩
  · rintro ⟨c, hc⟩
    exact ⟨σ c, (s.parent c h hc.lt hh).mpr hc⟩

theorem rootEq (s : Renumbering parents parents' σ) (t : IsTree leaves parents root) (t' : IsTree leaves parents' root') :
    σ root = root' := by
  by_contra hne
  obtain ⟨p, hp, hpar⟩ := t'.other (σ root) (by rw [s.length]; exact s.lt _ t.rootLt) hne
  rw [s.length] at hp
  obtain ⟨x, hx, rfl⟩ := s.surj hp
  have := (s.parent root x t.rootLt hx).mp hpar
  unfold ParentIs at this
  rw [t.rootPar] at this
  have := Option.some.inj this
  omega

theorem parLt (t : IsTree leaves parents root) {h p : Nat} (hp : ParentIs parents h p) : p < parents.length := by
  have hne : h ≠ root := by
    rintro rfl
    unfold ParentIs at hp
    rw [t.rootPar] at hp
    have := Option.some.inj hp
    omega
  obtain ⟨p', hp', hpar⟩ := t.other h hp.lt hne
  unfold ParentIs at hp hpar
  rw [hp] at hpar
  have := Option.some.inj hpar
  have : p = p' := by omega
  rw [this]; exact hp'

theorem under (s : Renumbering parents parents' σ) (t : IsTree leaves parents root) {a h : Nat}
    (ha : a < parents.length) (hu : Under parents a h) : Under parents' (σ a) (σ h) := by
  induction hu with
  | self => exact .self
  | up hp _ ih => exact .up ((s.parent _ _ hp.lt (parLt t hp)).mpr hp) ih

theorem under' (s : Renumbering parents parents' σ) (t' : IsTree leaves parents' root') {a : Nat} (ha : a < parents.length)
    {y : Nat} (hu : Under parents' (σ a) y) : ∀ h, h < parents.length → σ h = y → Under parents a h := by
  induction hu with
  | self => intro h hh e; rw [s.inj h a hh ha e]; exact .self
  | @up y p hp _ ih =>
    rintro h hh rfl
    have hpl : p < parents.length := by rw [← s.length]; exact parLt t' hp
    obtain ⟨x, hx, rfl⟩ := s.surj hpl
    exact .up ((s.parent h x hh hx).mp hp) (ih x hx rfl)

theorem underIff (s : Renumbering parents parents' σ) (t : IsTree leaves parents root) (t' : IsTree leaves parents' root')
    {a h : Nat} (ha : a < parents.length) (hh : h < parents.length) :
    Under parents' (σ a) (σ h) ↔ Under parents a h :=
  ⟨fun hu => s.under' t' ha hu h hh rfl, s.under t ha⟩

/-- The leaves below the image of a node are the images of the leaves below it. -/
theorem leavesUnder (s : Renumbering parents parents' σ) (t : IsTree leaves parents root)
    (t' : IsTree leaves parents' root') {h : Nat} (hh : h < parents.length) :
    leavesUnder leaves parents' (σ h) = (leavesUnder leaves parents h).image σ := by
  ext x
  simp only [Spec.leavesUnder, Finset.mem_filter, Finset.mem_range, Finset.mem_image]
  constructor
  · rintro ⟨hx, hu⟩
    have := t'.leavesLe
    obtain ⟨y, hy, rfl⟩ := s.surj (show x < parents.length by rw [← s.length]; omega)
    exact ⟨y, ⟨(s.leafIff t t' hy).mp hx, (s.underIff t t' hh hy).mp hu⟩, rfl⟩
  · rintro ⟨y, ⟨hy, hu⟩, rfl⟩
    have := t.leavesLe
    exact ⟨(s.leafIff t t' (by omega)).mpr hy, s.under t hh hu⟩

theorem injLeaves (s : Renumbering parents parents' σ) (t : IsTree leaves parents root) (h : Nat) :
    Set.InjOn σ (Spec.leavesUnder leaves parents h : Set Nat) := by
  intro a ha b hb e
  simp only [Spec.leavesUnder, Finset.coe_filter, Finset.mem_range, Set.mem_setOf_eq] at ha hb
  have := t.leavesLe
  exact s.inj a b (by omega) (by omega) e

variable {md md' : HMeta}

theorem sizeOf (s : Renumbering parents parents' σ) (r : RightMeta leaves parents md) (r' : RightMeta leaves parents' md')
    {h : Nat} (hh : h < parents.length) : md'.sizeOf (σ h) = md.sizeOf h := by
  rw [r.sizeOf hh, r'.sizeOf (by rw [s.length]; exact s.lt h hh), s.leavesUnder r.tree r'.tree hh,
    Finset.card_image_of_injOn (s.injLeaves r.tree h)]

/-- The children of the image are the images of the children, in some order. -/
theorem kids (s : Renumbering parents parents' σ) (r : RightMeta leaves parents md) (r' : RightMeta leaves parents' md')
    {h : Nat} (hh : h < parents.length) :
    (kidsIn parents' md'.path (σ h)).Perm ((kidsIn parents md.path h).map σ) := by
  have n1 : (kidsIn parents' md'.path (σ h)).Nodup := r'.pathNodup.filter _
  have n2 : ((kidsIn parents md.path h).map σ).Nodup := by
    apply List.Nodup.map_on _ (r.pathNodup.filter _)
    intro a ha b hb e
    exact s.inj a b ((mem_kidsIn.mp ha).2.lt) ((mem_kidsIn.mp hb).2.lt) e
  rw [List.perm_ext_iff_of_nodup n1 n2]
  intro y
  rw [mem_kidsIn, List.mem_map]
  constructor
  · rintro ⟨_, hp⟩
    have hy := hp.lt
    rw [s.length] at hy
    obtain ⟨x, hx, rfl⟩ := s.surj hy
    exact ⟨x, mem_kidsIn.mpr ⟨(r.pathMem x).mpr hx, (s.parent x h hx hh).mp hp⟩, rfl⟩
  · rintro ⟨x, hx, rfl⟩
    have hp := (mem_kidsIn.mp hx).2
    have := (s.parent x h hp.lt hh).mpr hp
    exact ⟨(r'.pathMem _).mpr this.lt, this⟩

theorem children (s : Renumbering parents parents' σ) (r : RightMeta leaves parents md) (r' : RightMeta leaves parents' md')
    {h : Nat} (hh : h < parents.length) : ∃ ch ch', md.children[h]? = some ch ∧ md'.children[σ h]? = some ch' ∧
      ch'.Perm (ch.map σ) ∧ ∀ c ∈ ch, ParentIs parents c h := by
  obtain ⟨ch, h1, h2, h3⟩ := r.kidsPerm hh
  obtain ⟨ch', h1', h2', _⟩ := r'.kidsPerm (show σ h < parents'.length by rw [s.length]; exact s.lt h hh)
  exact ⟨ch, ch', h1, h1', h2'.trans ((s.kids r r' hh).trans (h2.map σ).symm), fun c hc => (h3 c).mp hc⟩

end Spec.Renumbering

section
variable {F K : Type} [LD K] [FloatP F K] {leaves : Nat} {parents parents' : List Int} {σ : Nat → Nat} {md md' : HMeta}
  {p : F}

theorem hTables_renumber (hadd : ∀ a b c : K, a + b + c = a + c + b) (s : Renumbering parents parents' σ)
    (r : RightMeta leaves parents md) (r' : RightMeta leaves parents' md') {Q Q' : Nat → Quality K}
    {T T' : Nat → Tradeoff K} {A A' : Nat → Bool} (hQ : ∀ h, h < parents.length → Q' (σ h) = Q h)
    (e : ∀ h, h < parents.length → (T h, A h) = hNode leaves parents md.path Q p T h)
    (e' : ∀ h, h < parents'.length → (T' h, A' h) = hNode leaves parents' md'.path Q' p T' h) :
    ∀ k h : Nat, md.path[k]? = some h → T' (σ h) = T h ∧ A' (σ h) = A h := by
  intro k
  induction k using Nat.strong_induction_on with
  | _ k ih =>
    intro h hk
    have hl : h < parents.length := (r.pathMem h).mp (List.mem_of_getElem? hk)
    have hsum : tsum T' (kidsIn parents' md'.path (σ h)) = tsum T (kidsIn parents md.path h) := by
      rw [tsum_perm hadd (s.kids r r' hl), tsum_map]
      apply tsum_congr
      intro c hc
      obtain ⟨_, hcp⟩ := mem_kidsIn.mp hc
      obtain ⟨j, _, hj⟩ := r.pos (ParentIs.lt hcp)
      exact (ih j (r.pathOrder _ _ _ _ hj hk hcp) c hj).1
    have h1 := e h hl
    have h2 := e' (σ h) (by rw [s.length]; exact s.lt h hl)
    unfold hNode at h1 h2
    simp only [hsum, hQ h hl, s.leafIff r.tree r'.tree hl] at h2
    rw [← h1] at h2
    exact ⟨(Prod.mk.inj h2).1, (Prod.mk.inj h2).2⟩

/-- The best hierarchical partitions for two numberings are the same, up to the order of the parts. -/
theorem hBest_renumber (hadd : ∀ a b c : K, a + b + c = a + c + b) (s : Renumbering parents parents' σ)
    (r : RightMeta leaves parents md) (r' : RightMeta leaves parents' md') (hlt : leaves < parents.length)
    {q q' : List (Quality K)} {Q Q' : Nat → Quality K} (hq : VRep q parents.length Q)
    (hq' : VRep q' parents'.length Q') (hQ : ∀ h, h < parents.length → Q' (σ h) = Q h) (p : F) :
    ∃ (P P' : HPartition F K), hBestPartition q md p = .ok P ∧ hBestPartition q' md' p = .ok P' ∧
      P'.parts.Perm (P.parts.map (fun x => ⟨σ x.h, x.size, x.quality⟩)) ∧ P'.quality = P.quality := by
  obtain ⟨P, T, A, ds, L, h1, h2, h3, h4, h5, _⟩ := hBest_spec r hlt hq p
  obtain ⟨P', T', A', ds', L', h1', h2', h3', h4', h5', _⟩ := hBest_spec r' (by rw [s.length]; exact hlt) hq' p
  have tab := hTables_renumber (p := p) hadd s r r' hQ h2 h2'
  have hA : ∀ h, h < parents.length → A' (σ h) = A h := by
    intro h hh
    obtain ⟨j, _, hj⟩ := r.pos hh
    exact (tab j h hj).2
  have hleaf : ∀ h, h < leaves → A h = true := by
    intro h hh
    have := h2 h (by omega)
    unfold hNode at this
    rw [if_pos hh] at this
    exact (Prod.mk.inj this).2
  have step : ∀ h, h < parents.length → ∃ e succ e' succ', (hDecs leaves md.children h)[hChoice A h]? = some (e, succ) ∧
      (∀ s' ∈ succ, s' < parents.length) ∧
      (hDecs leaves md'.children (σ h))[hChoice A' (σ h)]? = some (e', succ') ∧ e'.Perm (e.map σ) ∧
      succ'.Perm (succ.map σ) := by
    intro h hh
    have lf := s.leafIff r.tree r'.tree hh
    by_cases hl : h < leaves
    · refine ⟨[h], [], [σ h], [], ?_, by simp, ?_, by simp, by simp⟩
      · simp [hDecs, hl, hChoice, hleaf h hl]
      · simp [hDecs, lf.mpr hl, hChoice, hA h hh, hleaf h hl]
    · obtain ⟨ch, ch', c1, c2, c3, c4⟩ := s.children r r' hh
      rw [hDecs_inner hl c1, hDecs_inner (fun hc => hl (lf.mp hc)) c2]
      unfold hChoice
      rw [hA h hh]
      cases A h with
      | true => exact ⟨[h], [], [σ h], [], by simp, by simp, by simp, by simp, by simp⟩
      | false => exact ⟨[], ch, [], ch', by simp, fun c hc => (c4 c hc).lt, by simp, by simp, c3⟩
  have okL : ∀ x ∈ L, x < parents.length := by
    have : ∀ {st ds L}, Greedy (hDecs leaves md.children) (hChoice A) st ds L → (∀ x ∈ st, x < parents.length) →
        ∀ x ∈ L, x < parents.length := by
      intro st ds L g
      induction g with
      | nil => simp
      | @cons x rest e succ ds L hk _ ih =>
        intro hst y hy
        obtain ⟨e0, succ0, _, _, k1, k2, _⟩ := step x (hst x (by simp))
        rw [hk] at k1
        simp only [Option.some.injEq, Prod.mk.injEq] at k1
        obtain ⟨rfl, rfl⟩ := k1
        rcases List.mem_append.mp hy with hy | hy
        · have hx := hst x (by simp)
          have : e = [x] ∨ e = [] := by
            unfold hDecs at hk
            split at hk
            · match h : hChoice A x, hk with
              | 0, hk => simp at hk; exact Or.inl hk.1.symm
              | k + 1, hk => simp at hk
            · match h : hChoice A x, hk with
              | 0, hk => simp at hk; exact Or.inl hk.1.symm
              | 1, hk => simp at hk; exact Or.inr hk.1
              | k + 2, hk => simp at hk
          rcases this with rfl | rfl
          · rw [List.mem_singleton.mp hy]; exact hx
          · simp at hy
        · refine ih ?_ y hy
          intro z hz
          rcases List.mem_append.mp hz with hz | hz
          · exact k2 z hz
          · exact hst z (by simp [hz])
    exact this h3 (by simpa using r.tree.rootLt)
  obtain ⟨ds2, L2, g2, hL2⟩ := h3.transportPerm (decs' := hDecs leaves md'.children) (D' := hChoice A') (φ := σ) (ψ := σ)
    (fun h => h < parents.length) step (by simpa using r.tree.rootLt) [md'.root]
    (by rw [List.map_singleton, s.rootEq r.tree r'.tree])
  obtain ⟨rfl, rfl⟩ := h3'.unique g2
  refine ⟨P, P', h1, h1', ?_, ?_⟩
  · rw [h4, h4', List.map_map]
    refine (hL2.map _).trans ?_
    rw [List.map_map]
    apply List.Perm.of_eq
    apply List.map_congr_left
    intro x hx
    simp only [Function.comp, hPartOf, hQ x (okL x hx), s.sizeOf r r' (okL x hx)]
  · rw [h5, h5', sumQuality_perm hadd (hL2.map Q'), List.map_map]
    congr 1
    apply List.map_congr_left
    intro x hx
    exact hQ x (okL x hx)

theorem dTables_renumber (hadd : ∀ a b c : K, a + b + c = a + c + b) (s : Renumbering parents parents' σ)
    (r : RightMeta leaves parents md) (r' : RightMeta leaves parents' md') {n : Nat} {Q Q' : Nat → Nat → Nat → Quality K}
    {T T' : Nat → Nat → Tradeoff K} {C C' : Nat → Nat → Int}
    (hQ : ∀ h i j, h < parents.length → i ≤ j → j < n → Q' (σ h) i j = Q h i j)
    (e : ∀ h i, h < parents.length → i < n → DEq leaves parents md.path Q p n T C h i)
    (e' : ∀ h i, h < parents'.length → i < n → DEq leaves parents' md'.path Q' p n T' C' h i) :
    ∀ m i, n - i = m → i < n → ∀ j h : Nat, md.path[j]? = some h → T' (σ h) i = T h i ∧ C' (σ h) i = C h i := by
  intro m
  induction m using Nat.strong_induction_on with
  | _ m ih =>
    intro i hm hi j
    induction j using Nat.strong_induction_on with
    | _ j ihj =>
      intro h hj
      have hl : h < parents.length := (r.pathMem h).mp (List.mem_of_getElem? hj)
      have h1 := e h i hl hi
      have h2 := e' (σ h) i (by rw [s.length]; exact s.lt h hl) hi
      unfold DEq at h1 h2
      have hsum : tsum (fun c => T' c i) (kidsIn parents' md'.path (σ h)) =
          tsum (fun c => T c i) (kidsIn parents md.path h) := by
        rw [tsum_perm hadd (s.kids r r' hl), tsum_map]
        apply tsum_congr
        intro c hc
        obtain ⟨_, hcp⟩ := mem_kidsIn.mp hc
        obtain ⟨j', _, hj'⟩ := r.pos (ParentIs.lt hcp)
        exact (ihj j' (r.pathOrder _ _ _ _ hj' hj hcp) c hj').1
      rw [hsum] at h2
      have : dRow (!decide (σ h < leaves)) (Q' (σ h)) p (tsum (fun c => T c i) (kidsIn parents md.path h)) (T' (σ h))
            i (n - 1) (n - 1) =
          dRow (!decide (h < leaves)) (Q h) p (tsum (fun c => T c i) (kidsIn parents md.path h)) (T h) i (n - 1) (n - 1) := by
        unfold dRow
        simp only [s.leafIff r.tree r'.tree hl]
        rw [hQ h i (n - 1) hl (by omega) (by omega)]
        congr 2
        apply List.map_congr_left
        intro c hc
        simp only [List.mem_range'_1] at hc
        rw [hQ h i c hl (by omega) (by omega), (ih (n - (c + 1)) (by omega) (c + 1) rfl (by omega) j h hj).1]
      rw [← h1, ← h2] at this
      exact ⟨(Prod.mk.inj this).1, (Prod.mk.inj this).2⟩

/-- The best spatiotemporal partitions for two numberings are the same, up to the order of the parts. -/
theorem dBest_renumber (hadd : ∀ a b c : K, a + b + c = a + c + b) (s : Renumbering parents parents' σ)
    (r : RightMeta leaves parents md) (r' : RightMeta leaves parents' md') {n : Nat} (h0 : 0 < n) (hn : n ≤ 65535)
    {q q' : List (UTM (Quality K))} {Q Q' : Nat → Nat → Nat → Quality K} (hq : MRep q parents.length n Q)
    (hq' : MRep q' parents'.length n Q')
    (hQ : ∀ h i j, h < parents.length → i ≤ j → j < n → Q' (σ h) i j = Q h i j) (p : F) :
    ∃ (P P' : DPartition F K), dBestPartition q md p = .ok P ∧ dBestPartition q' md' p = .ok P' ∧
      P'.parts.Perm (P.parts.map (fun x => ⟨σ x.h, x.hsize, x.start, x.end, x.quality⟩)) ∧ P'.quality = P.quality := by
  obtain ⟨P, T, C, ds, L, h1, h2, h3, h4, h5, _⟩ := dBest_spec r hq h0 hn p
  obtain ⟨P', T', C', ds', L', h1', h2', h3', h4', h5', _⟩ := dBest_spec r' hq' h0 hn p
  have tab := dTables_renumber (p := p) hadd s r r' hQ h2 h2'
  have hC : ∀ h i, h < parents.length → i < n → C' (σ h) i = C h i := by
    intro h i hh hi
    obtain ⟨j, _, hj⟩ := r.pos hh
    exact (tab _ i rfl hi j h hj).2
  let φ : Nat × Nat → Nat × Nat := fun x => (σ x.1, x.2)
  let ψ : Rect → Rect := fun x => ⟨σ x.node, x.first, x.last⟩
  let ok : Nat × Nat → Prop := fun x => x.1 < parents.length ∧ x.2 < n
  have step : ∀ x, ok x → ∃ e succ e' succ',
      (dDecs leaves md.children n x)[dChoice leaves n C x]? = some (e, succ) ∧
      (∀ s' ∈ succ, ok s') ∧ (∀ y ∈ e, y.node < parents.length ∧ y.first ≤ y.last ∧ y.last < n) ∧
      (dDecs leaves md'.children n (φ x))[dChoice leaves n C' (φ x)]? = some (e', succ') ∧ e'.Perm (e.map ψ) ∧
      succ'.Perm (succ.map φ) := by
    rintro ⟨h, i⟩ ⟨hh, hi⟩
    dsimp only at hh hi
    have lf := s.leafIff r.tree r'.tree hh
    have hch : dChoice leaves n C' (φ (h, i)) = dChoice leaves n C (h, i) := by
      unfold dChoice
      simp only [φ, hC h i hh hi, lf]
    rw [hch]
    obtain ⟨ch, ch', c1, c2, c3, c4⟩ := s.children r r' hh
    have hcut := (h2 h i hh hi).cut hi
    rcases hcut with hc | ⟨hc, hl⟩ | ⟨c, hc, hc1, hc2⟩
    · have e0 : dChoice leaves n C (h, i) = 0 := by unfold dChoice; rw [if_pos hc]
      rw [e0]
      exact ⟨_, _, _, _, dDecs_whole, by simp, by simpa using ⟨hh, by omega, by omega⟩, dDecs_whole, List.Perm.refl _,
        List.Perm.refl _⟩
    · have e0 : dChoice leaves n C (h, i) = 1 := by
        unfold dChoice; rw [if_neg (by dsimp only; omega), if_pos hc]
      rw [e0]
      refine ⟨_, _, _, _, dDecs_split hl c1, ?_, by simp, dDecs_split (fun hx => hl (lf.mp hx)) c2, List.Perm.refl _, ?_⟩
      · intro x hx
        obtain ⟨c, hc, rfl⟩ := List.mem_map.mp hx
        exact ⟨(c4 c hc).lt, hi⟩
      · refine (c3.map _).trans ?_
        rw [List.map_map, List.map_map]
        exact List.Perm.refl _
    · have e0 : dChoice leaves n C (h, i) = c - i + (if h < leaves then 1 else 2) := by
        unfold dChoice
        rw [if_neg (by dsimp only; omega), if_neg (by dsimp only; omega)]
        dsimp only
        rw [hc]; rfl
      have e1 : dChoice leaves n C (h, i) = c - i + (if σ h < leaves then 1 else 2) := by
        rw [e0]; simp only [lf]
      refine ⟨_, _, _, _, by rw [e0]; exact dDecs_cut hc1 hc2, ?_, ?_, by rw [e1]; exact dDecs_cut hc1 hc2,
        List.Perm.refl _, List.Perm.refl _⟩
      · simpa [ok] using ⟨hh, by omega⟩
      · simpa using ⟨hh, by omega, by omega⟩
  have okL : ∀ x ∈ L, x.node < parents.length ∧ x.first ≤ x.last ∧ x.last < n := by
    have : ∀ {st ds L}, Greedy (dDecs leaves md.children n) (dChoice leaves n C) st ds L → (∀ x ∈ st, ok x) →
        ∀ x ∈ L, x.node < parents.length ∧ x.first ≤ x.last ∧ x.last < n := by
      intro st ds L g
      induction g with
      | nil => simp
      | @cons x rest e succ ds L hk _ ih =>
        intro hst y hy
        obtain ⟨e0, succ0, _, _, k1, k2, k3, _⟩ := step x (hst x (by simp))
        rw [hk] at k1
        simp only [Option.some.injEq, Prod.mk.injEq] at k1
        obtain ⟨rfl, rfl⟩ := k1
        rcases List.mem_append.mp hy with hy | hy
        · exact k3 y hy
        · refine ih ?_ y hy
          intro z hz
          rcases List.mem_append.mp hz with hz | hz
          · exact k2 z hz
          · exact hst z (by simp [hz])
    exact this h3 (by simpa [ok] using ⟨r.tree.rootLt, h0⟩)
  obtain ⟨ds2, L2, g2, hL2⟩ := h3.transportPerm (decs' := dDecs leaves md'.children n) (D' := dChoice leaves n C') (φ := φ)
    (ψ := ψ) ok (fun x hx => by
      obtain ⟨e, succ, e', succ', a, b, _, c, d⟩ := step x hx
      exact ⟨e, succ, e', succ', a, b, c, d⟩) (by simpa [ok] using ⟨r.tree.rootLt, h0⟩) [(md'.root, 0)]
    (by rw [List.map_singleton]; simp only [φ, s.rootEq r.tree r'.tree]; exact List.Perm.refl _)
  obtain ⟨rfl, rfl⟩ := h3'.unique g2
  refine ⟨P, P', h1, h1', ?_, ?_⟩
  · rw [h4, h4', List.map_map]
    refine (hL2.map _).trans ?_
    rw [List.map_map]
    apply List.Perm.of_eq
    apply List.map_congr_left
    intro x hx
    obtain ⟨a, b, c⟩ := okL x hx
    simp only [Function.comp, dPartOf, ψ, hQ _ _ _ a b c, s.sizeOf r r' a]
  · rw [h5, h5', sumQuality_perm hadd (hL2.map _), List.map_map]
    congr 1
    apply List.map_congr_left
    intro x hx
    obtain ⟨a, b, c⟩ := okL x hx
    exact hQ _ _ _ a b c

end
end Lp

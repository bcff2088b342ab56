import Verif.Proofs.DCover
import Verif.Spec.CoarseFirst

/-!
# The partitions that the spatiotemporal algorithm considers are the coarse-first ones
-/

namespace Lp
open Spec
variable {leaves n : Nat} {parents : List Int} {md : HMeta}
open Classical

/-- Two rectangles at different positions do not share a cell. -/
theorem hits_two {x y : Rect} {M : List Rect} {l t : Nat} (hx : x.Has parents l t) (hy : y ∈ M)
    (hy' : y.Has parents l t) : 2 ≤ hits parents l t (x :: M) := by
  have : 0 < hits parents l t M := by
    unfold hits; rw [List.countP_pos_iff]; exact ⟨y, hy, by simpa using hy'⟩
  unfold hits at *
  rw [List.countP_cons_of_pos (by simpa using hx)]
  omega

/-- Every coarse-first partition of (leaves below `h`) × (slices from `i`) is, up to order, in the grammar. -/
theorem coarse_sufPart (r : RightMeta leaves parents md) : ∀ (m k h i : Nat) (M : List Rect), k + (n - i) < m →
    md.path[k]? = some h → i < n →
    (∀ x ∈ M, x.node < parents.length ∧ Under parents h x.node ∧ i ≤ x.first ∧ x.first ≤ x.last ∧ x.last < n) →
    (∀ l t, l < leaves → Under parents h l → i ≤ t → t < n → hits parents l t M = 1) →
    CoarseFirst parents M → ∃ L, SufPart parents n h i L ∧ L.Perm M := by
  intro m
  induction m with
  | zero => intro k h i M hm; omega
  | succ m ih =>
    intro k h i M hm hk hi hM hc hcf
    have hh : h < parents.length := (r.pathMem h).mp (List.mem_of_getElem? hk)
    by_cases hn : ∃ x ∈ M, x.node = h
    · obtain ⟨x, hx, hxh⟩ := hn
      obtain ⟨l, hl, hul⟩ := r.tree.exists_leaf hh
      -- the rectangle that starts at `i`
      obtain ⟨s, hs, hsn, hsf⟩ : ∃ s ∈ M, s.node = h ∧ s.first = i := by
        have hpos : 0 < hits parents l i M := by rw [hc l i hl hul (le_refl _) hi]; omega
        unfold hits at hpos
        rw [List.countP_pos_iff] at hpos
        obtain ⟨s, hs, hs'⟩ := hpos
        have hs' : s.Has parents l i := by simpa using hs'
        obtain ⟨_, hu, h1, h2, h3⟩ := hM s hs
        have hf : s.first = i := by have := hs'.2.1; omega
        refine ⟨s, hs, ?_, hf⟩
        by_contra hne
        have := hcf x hx s hs (by rw [hxh]; exact fun e => hne e.symm) (by rw [hxh]; exact hu)
        have := hM x hx
        omega
      obtain ⟨M', hM'⟩ : ∃ M', M.Perm (s :: M') := ⟨_, List.perm_cons_erase hs⟩
      have hits_eq : ∀ l t, hits parents l t M = hits parents l t (s :: M') := fun l t => by
        unfold hits; exact hM'.countP_eq _
      obtain ⟨_, _, _, hs2, hs3⟩ := hM s hs
      -- everything else is later
      have later : ∀ y ∈ M', s.last < y.first := by
        intro y hy
        by_contra hle
        obtain ⟨hy1, hy2, hy3, hy4, hy5⟩ := hM y (hM'.mem_iff.mpr (by simp [hy]))
        obtain ⟨l', hl', hu'⟩ := r.tree.exists_leaf hy1
        have h1 := hc l' y.first hl' (hy2.trans hu') hy3 (by omega)
        rw [hits_eq] at h1
        have := hits_two (parents := parents) (x := s) (y := y) (M := M') (l := l') (t := y.first)
          ⟨by rw [hsn]; exact hy2.trans hu', by omega, by omega⟩ hy ⟨hu', le_refl _, hy4⟩
        omega
      by_cases hlast : s.last = n - 1
      · have : M' = [] := by
          cases M' with
          | nil => rfl
          | cons y M'' =>
            exfalso
            have h1 := later y (by simp)
            have := hM y (hM'.mem_iff.mpr (by simp))
            omega
        subst this
        have es : s = ⟨h, i, n - 1⟩ := by cases s; simp_all
        exact ⟨[⟨h, i, n - 1⟩], .whole, by rw [← es]; exact hM'.symm⟩
      · obtain ⟨L, hL, hp⟩ := ih k h (s.last + 1) M' (by omega) hk (by omega)
          (by
            intro y hy
            obtain ⟨hy1, hy2, hy3, hy4, hy5⟩ := hM y (hM'.mem_iff.mpr (by simp [hy]))
            exact ⟨hy1, hy2, later y hy, hy4, hy5⟩)
          (by
            intro l t hl hu h1 h2
            have h3 := hc l t hl hu (by omega) h2
            rw [hits_eq] at h3
            unfold hits at h3 ⊢
            rwa [List.countP_cons_of_neg (by
              have : ¬ s.Has parents l t := fun hh => by have := hh.2.2; omega
              simpa using this)] at h3)
          (fun a ha b hb => hcf a (hM'.mem_iff.mpr (by simp [ha])) b (hM'.mem_iff.mpr (by simp [hb])))
        have es : s = ⟨h, i, s.last⟩ := by cases s; simp_all
        refine ⟨⟨h, i, s.last⟩ :: L, .cut (by omega) (by omega) hL, ?_⟩
        rw [← es]
        exact (hp.cons s).trans hM'.symm
    · have hin : ¬ h < leaves := by
        intro hl
        have hpos : 0 < hits parents h i M := by rw [hc h i hl .self (le_refl _) hi]; omega
        unfold hits at hpos
        rw [List.countP_pos_iff] at hpos
        obtain ⟨x, hx, hux⟩ := hpos
        have hux : x.Has parents h i := by simpa using hux
        exact hn ⟨x, hx, (under_antisymm r.tree (hM x hx).2.1 hux.1).symm⟩
      obtain ⟨ch, hch, hnd, hmem⟩ := r.children h hh
      have hcl : ∀ a ∈ M, ∃ c ∈ ch, Under parents c a.node := by
        intro a ha
        rcases under_iff.mp (hM a ha).2.1 with e | ⟨c, h1, h2⟩
        · exact absurd ⟨a, ha, e⟩ hn
        · exact ⟨c, (hmem c).mpr h1, h2⟩
      have hperm := perm_flatMap_filter (fun c (a : Rect) => Under parents c a.node) ch M hnd hcl
        (fun a _ c hc c' hc' u u' => under_child_unique r.tree ((hmem c).mp hc) ((hmem c').mp hc') u u')
      have hsub : ∀ c, ParentIs parents c h →
          ∃ L, SufPart parents n c i L ∧ L.Perm (M.filter (fun a => decide (Under parents c a.node))) := by
        intro c hcp
        obtain ⟨j, _, hj⟩ := r.pos hcp.lt
        have hjk := r.pathOrder _ _ _ _ hj hk hcp
        apply ih j c i _ (by omega) hj hi
        · intro x hx
          rw [List.mem_filter] at hx
          obtain ⟨h1, _, h3⟩ := hM x hx.1
          exact ⟨h1, by simpa using hx.2, h3⟩
        · intro l t hl hul hit htn
          rw [← hc l t hl ((Under.up hcp .self).trans hul) hit htn]
          unfold hits
          rw [List.countP_filter]
          apply List.countP_congr
          intro x hx
          simp only [Bool.and_eq_true, decide_eq_true_eq]
          constructor
          · exact fun h' => h'.1
          · intro hxl
            refine ⟨hxl, ?_⟩
            rcases under_total hul hxl.1 with hu | hu
            · exact hu
            · obtain ⟨c', hc', hu'⟩ := hcl x hx
              have := under_child_unique r.tree hcp ((hmem c').mp hc') hul (hu'.trans hxl.1)
              rwa [this]
        · exact fun a ha b hb => hcf a (List.mem_filter.mp ha).1 b (List.mem_filter.mp hb).1
      have hex : ∃ c, ParentIs parents c h := by
        by_contra hc'
        exact hin ((r.tree.leaf h hh).mpr hc')
      choose! parts hp1 hp2 using hsub
      refine ⟨ch.flatMap parts, .split ch parts hex hnd hmem hp1, ?_⟩
      refine List.Perm.trans ?_ hperm.symm
      exact List.Perm.flatMap_left ch (fun c hc => hp2 c ((hmem c).mp hc))

/-- The rectangles of the grammar lie below the node, after the slice, and are coarse-first. -/
theorem sufPart_coarse {root : Nat} (t : IsTree leaves parents root) {h i : Nat} {L : List Rect} (hs : SufPart parents n h i L) : i < n →
    (∀ x ∈ L, Under parents h x.node ∧ i ≤ x.first) ∧ CoarseFirst parents L := by
  induction hs with
  | @whole h i =>
    intro _
    refine ⟨by simpa using .self, ?_⟩
    intro r hr s hs hne
    simp at hr hs
    subst hr hs
    exact absurd rfl hne
  | @cut h i c L hic hc _ ih =>
    intro hi
    obtain ⟨h1, h2⟩ := ih (by omega)
    refine ⟨?_, ?_⟩
    · intro x hx
      rcases List.mem_cons.mp hx with rfl | hx
      · exact ⟨.self, le_refl _⟩
      · have := h1 x hx
        exact ⟨this.1, by omega⟩
    · intro r hr s hs hne hu
      rcases List.mem_cons.mp hr with rfl | hr <;> rcases List.mem_cons.mp hs with rfl | hs
      · exact absurd rfl hne
      · have := (h1 s hs).2
        simpa using this
      · exact absurd (under_antisymm t hu (h1 r hr).1) hne
      · exact h2 r hr s hs hne hu
  | @split h i children parts hex hnd hmem _ ih =>
    intro hi
    refine ⟨?_, ?_⟩
    · intro x hx
      obtain ⟨c, hc, hx⟩ := List.mem_flatMap.mp hx
      have hcp := (hmem c).mp hc
      have := (ih c hcp hi).1 x hx
      exact ⟨(Under.up hcp .self).trans this.1, this.2⟩
    · intro r hr s hs hne hu
      obtain ⟨c, hc, hr⟩ := List.mem_flatMap.mp hr
      obtain ⟨c', hc', hs⟩ := List.mem_flatMap.mp hs
      have u1 := (ih c ((hmem c).mp hc) hi).1 r hr
      have u2 := (ih c' ((hmem c').mp hc') hi).1 s hs
      have := under_child_unique t ((hmem c).mp hc) ((hmem c').mp hc') (u1.1.trans hu) u2.1
      subst this
      exact (ih c ((hmem c).mp hc) hi).2 r hr s hs hne hu

/-- With one slice every partition is coarse-first. -/
theorem oneSlice_coarse {root : Nat} (t : IsTree leaves parents root) {L : List Rect} (h : CellCover leaves parents 1 L) :
    CoarseFirst parents L := by
  intro r hr s hs hne hu
  exfalso
  have h1 := h.1 r hr
  have h2 := h.1 s hs
  obtain ⟨l, hl, hul⟩ := t.exists_leaf h2.1
  obtain ⟨k, _, hk⟩ := h.2 l 0 hl (by norm_num)
  obtain ⟨a, ha⟩ := List.getElem?_of_mem hr
  obtain ⟨b, hb⟩ := List.getElem?_of_mem hs
  have ea := hk a ⟨r, ha, hu.trans hul, by omega, by omega⟩
  have eb := hk b ⟨s, hb, hul, by omega, by omega⟩
  subst ea
  rw [eb, ha] at hb
  exact hne (by simpa using congrArg Rect.node (Option.some.inj hb))

/-- Coarse-first partitions are derivations. -/
theorem coarse_dSol (r : RightMeta leaves parents md) {L : List Rect} (hn : 0 < n) (hc : CellCover leaves parents n L)
    (hf : CoarseFirst parents L) :
    ∃ ds L', Sol (dDecs leaves md.children n) [(md.root, 0)] ds L' ∧ L'.Perm L := by
  obtain ⟨L1, h1, h2⟩ := coarse_sufPart r _ _ md.root 0 L (Nat.lt_succ_self _) r.last hn
    (fun x hx => ⟨(hc.1 x hx).1, r.tree.reach _ (hc.1 x hx).1, Nat.zero_le _, (hc.1 x hx).2.1, (hc.1 x hx).2.2⟩)
    (by
      intro l t hl _ _ ht
      have := hc.2 l t hl ht
      rw [exactlyOne_countP] at this
      exact this) hf
  obtain ⟨ds, L2, h3, h4⟩ := sufPart_dSol r h1 r.tree.rootLt hn
  exact ⟨ds, L2, h3, h4.trans h2⟩

/-- Derivations are coarse-first. -/
theorem dSol_coarse (r : RightMeta leaves parents md) {ds : List Nat} {L : List Rect} (hn : 0 < n)
    (h : Sol (dDecs leaves md.children n) [(md.root, 0)] ds L) : CoarseFirst parents L :=
  (sufPart_coarse r.tree (dSol_sufPart r _ _ md.root 0 ds L (Nat.lt_succ_self _) r.last hn h) hn).2

end Lp

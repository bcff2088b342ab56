import Verif.Proofs.DPart2
import Verif.Proofs.HCover
import Verif.Proofs.Suffix

/-!
# Derivations of the spatiotemporal decision system
-/

namespace Lp
open Spec
variable {leaves n : Nat} {parents : List Int} {md : HMeta}
open Classical

/-- The number of rectangles of `L` that contain the cell. -/
noncomputable def hits (parents : List Int) (l t : Nat) (L : List Rect) : Nat :=
  L.countP (fun r => decide (r.Has parents l t))

/-- The number of pending states that contain the cell. -/
noncomputable def pending (parents : List Int) (l t : Nat) (st : List (Nat × Nat)) : Nat :=
  st.countP (fun s => decide (Under parents s.1 l ∧ s.2 ≤ t))

theorem pending_children (r : RightMeta leaves parents md) {h i : Nat} (hh : h < parents.length) (hi : ¬ h < leaves)
    {ch : List Nat} (hch : md.children[h]? = some ch) {l t : Nat} (hl : l < leaves) :
    pending parents l t (ch.map (fun c => (c, i))) = pending parents l t [(h, i)] := by
  have h1 := above_children r hh hi hch hl
  unfold above at h1
  unfold pending
  rw [List.countP_map]
  by_cases hit : i ≤ t
  · have e1 : ((fun s : Nat × Nat => decide (Under parents s.1 l ∧ s.2 ≤ t)) ∘ fun c => (c, i)) =
        fun c => decide (Under parents c l) := by
      funext c; simp [hit]
    rw [e1, h1]
    simp [List.countP_cons, hit]
  · have e1 : ((fun s : Nat × Nat => decide (Under parents s.1 l ∧ s.2 ≤ t)) ∘ fun c => (c, i)) =
        fun _ => false := by
      funext c; simp [hit]
    rw [e1]
    simp [List.countP_cons, hit]

theorem dSol_cover (r : RightMeta leaves parents md) {st : List (Nat × Nat)} {ds : List Nat} {L : List Rect}
    (h : Sol (dDecs leaves md.children n) st ds L) : (∀ s ∈ st, s.1 < parents.length ∧ s.2 < n) →
      (∀ x ∈ L, x.node < parents.length ∧ x.first ≤ x.last ∧ x.last < n) ∧
      ∀ l t, l < leaves → t < n → hits parents l t L = pending parents l t st := by
  induction h with
  | nil => intro _; exact ⟨by simp, fun _ _ _ _ => rfl⟩
  | @cons s rest k e succ ds L hk _ ih =>
    obtain ⟨h, i⟩ := s
    intro hst
    obtain ⟨hs, hsi⟩ := hst (h, i) (by simp)
    have hrest : ∀ s ∈ rest, s.1 < parents.length ∧ s.2 < n := fun s hs => hst s (by simp [hs])
    simp only at hs hsi
    rcases dDecs_cases hk with ⟨_, rfl, rfl⟩ | ⟨hl, _, rfl, rfl⟩ | ⟨c, hc1, hc2, _, rfl, rfl⟩
    · obtain ⟨i1, i2⟩ := ih (by simpa using hrest)
      refine ⟨?_, ?_⟩
      · intro x hx
        rcases List.mem_append.mp hx with hx | hx
        · simp at hx; subst hx; refine ⟨hs, ?_, ?_⟩ <;> simp only <;> omega
        · exact i1 x hx
      · intro l t hl ht
        have := i2 l t hl ht
        unfold hits pending at this ⊢
        rw [List.countP_append, this, List.nil_append]
        simp only [List.countP_cons, List.countP_nil, decide_eq_true_eq]
        have e : (Rect.Has parents ⟨h, i, n - 1⟩ l t) ↔ (Under parents h l ∧ i ≤ t) := by
          unfold Rect.Has; simp only; constructor
          · rintro ⟨a, b, _⟩; exact ⟨a, b⟩
          · rintro ⟨a, b⟩; exact ⟨a, b, by omega⟩
        simp only [e]
        omega
    · obtain ⟨ch, hch, _, hmem⟩ := r.kidsPerm hs
      rw [hch] at ih
      simp only [Option.getD_some] at ih
      obtain ⟨i1, i2⟩ := ih (by
        intro x hx
        rcases List.mem_append.mp hx with hx | hx
        · rw [List.mem_map] at hx
          obtain ⟨c, hc, rfl⟩ := hx
          exact ⟨((hmem c).mp hc).lt, hsi⟩
        · exact hrest x hx)
      refine ⟨by simpa using i1, ?_⟩
      intro l t hl' ht
      have h1 := i2 l t hl' ht
      have h2 := pending_children (i := i) (t := t) r hs hl hch hl'
      unfold hits pending at h1 h2 ⊢
      rw [List.nil_append, h1, List.countP_append, h2, ← List.countP_append]
      rfl
    · obtain ⟨i1, i2⟩ := ih (by
        intro x hx
        rcases List.mem_append.mp hx with hx | hx
        · simp at hx; subst hx; exact ⟨hs, by simp only; omega⟩
        · exact hrest x hx)
      refine ⟨?_, ?_⟩
      · intro x hx
        rcases List.mem_append.mp hx with hx | hx
        · simp at hx; subst hx; refine ⟨hs, ?_, ?_⟩ <;> simp only <;> omega
        · exact i1 x hx
      · intro l t hl ht
        have := i2 l t hl ht
        unfold hits pending at this ⊢
        rw [List.countP_append, this, List.countP_append]
        simp only [List.countP_cons, List.countP_nil, decide_eq_true_eq]
        unfold Rect.Has
        simp only
        by_cases hu : Under parents h l
        · by_cases h1 : i ≤ t
          · by_cases h2 : t ≤ c
            · rw [if_pos ⟨hu, h1, h2⟩, if_neg (by omega), if_pos ⟨hu, h1⟩]; omega
            · rw [if_neg (by omega), if_pos ⟨hu, by omega⟩, if_pos ⟨hu, h1⟩]; omega
          · rw [if_neg (by omega), if_neg (by omega), if_neg (by omega)]; omega
        · rw [if_neg (fun h' => hu h'.1), if_neg (fun h' => hu h'.1), if_neg (fun h' => hu h'.1)]; omega

theorem dSol_cellCover (r : RightMeta leaves parents md) {ds : List Nat} {L : List Rect} (hn : 0 < n)
    (h : Sol (dDecs leaves md.children n) [(md.root, 0)] ds L) : CellCover leaves parents n L := by
  obtain ⟨h1, h2⟩ := dSol_cover r h (by intro s hs; simp at hs; subst hs; exact ⟨r.tree.rootLt, hn⟩)
  refine ⟨h1, ?_⟩
  intro l t hl ht
  rw [exactlyOne_countP]
  have := h2 l t hl ht
  unfold hits at this
  rw [this]
  unfold pending
  rw [List.countP_singleton, if_pos]
  simpa using r.tree.reach l (lt_of_lt_of_le hl r.tree.leavesLe)

/-- Every partition of the grammar is, up to order, a derivation. -/
theorem sufPart_dSol (r : RightMeta leaves parents md) {h i : Nat} {L : List Rect}
    (hs : SufPart parents n h i L) : h < parents.length → i < n →
    ∃ ds L', Sol (dDecs leaves md.children n) [(h, i)] ds L' ∧ L'.Perm L := by
  induction hs with
  | @whole h i =>
    intro _ _
    exact ⟨[0], _, Sol.cons (rest := []) dDecs_whole .nil, by simp⟩
  | @cut h i c L hic hc _ ih =>
    intro hh hi
    obtain ⟨ds, L', h1, h2⟩ := ih hh (by omega)
    exact ⟨_, _, Sol.cons (rest := []) (dDecs_cut hic hc) h1, h2.cons _⟩
  | @split h i children parts hex hnd hmem hparts ih =>
    intro hh hi
    obtain ⟨ch, hch, hnd', hmem'⟩ := r.children h hh
    have hl : ¬ h < leaves := fun hl => (r.tree.leaf h hh).mp hl hex
    have hperm : ch.Perm children := by
      rw [List.perm_ext_iff_of_nodup hnd' hnd]
      intro c; rw [hmem, hmem']
    have hsub : ∀ cs : List Nat, (∀ c ∈ cs, ParentIs parents c h) →
        ∃ ds L', Sol (dDecs leaves md.children n) (cs.map (fun c => (c, i))) ds L' ∧
          L'.Perm (cs.flatMap parts) := by
      intro cs
      induction cs with
      | nil => intro _; exact ⟨[], [], .nil, by simp⟩
      | cons c cs ihc =>
        intro hcs
        have hc := hcs c (by simp)
        obtain ⟨ds2, L2, s2, p2⟩ := ihc (fun x hx => hcs x (by simp [hx]))
        obtain ⟨ds1, L1, s1, p1⟩ := ih c hc hc.lt hi
        refine ⟨ds1 ++ ds2, L1 ++ L2, by simpa using s1.append s2, ?_⟩
        rw [List.flatMap_cons]
        exact p1.append p2
    obtain ⟨ds, L', s, pm⟩ := hsub ch (fun c hc => (hmem' c).mp hc)
    refine ⟨1 :: ds, L', ?_, pm.trans (hperm.flatMap_right _)⟩
    have := Sol.cons (decs := dDecs leaves md.children n) (s := (h, i)) (rest := []) (dDecs_split hl hch)
      (by simpa using s)
    simpa using this

/-- Conversely every derivation is in the grammar. -/
theorem dSol_sufPart (r : RightMeta leaves parents md) : ∀ (m k h i : Nat) (ds : List Nat) (L : List Rect),
    k + (n - i) < m → md.path[k]? = some h → i < n →
    Sol (dDecs leaves md.children n) [(h, i)] ds L → SufPart parents n h i L := by
  intro m
  induction m with
  | zero => intro k h i ds L hm; omega
  | succ m ih =>
    intro k h i ds L hm hk hi hs
    have hh : h < parents.length := (r.pathMem h).mp (List.mem_of_getElem? hk)
    cases hs with
    | @cons _ _ k' e succ ds L hd hs =>
      rw [List.append_nil] at hs
      rcases dDecs_cases hd with ⟨_, rfl, rfl⟩ | ⟨hl, _, rfl, rfl⟩ | ⟨c, hc1, hc2, _, rfl, rfl⟩
      · cases hs; exact .whole
      · obtain ⟨ch, hch, hnd, hmem⟩ := r.children h hh
        rw [hch] at hs
        simp only [Option.getD_some] at hs
        have hsub : ∀ (cs : List Nat) (ds : List Nat) (L : List Rect), cs.Nodup → (∀ c ∈ cs, ParentIs parents c h) →
            Sol (dDecs leaves md.children n) (cs.map (fun c => (c, i))) ds L →
            ∃ parts : Nat → List Rect, L = cs.flatMap parts ∧ ∀ c ∈ cs, SufPart parents n c i (parts c) := by
          intro cs
          induction cs with
          | nil => intro ds L _ _ hs; cases hs; exact ⟨fun _ => [], rfl, by simp⟩
          | cons c cs ihc =>
            intro ds L hn hcs hs
            rw [List.nodup_cons] at hn
            obtain ⟨ds1, ds2, L1, L2, rfl, rfl, s1, s2⟩ := hs.split [(c, i)] (cs.map (fun c => (c, i))) rfl
            obtain ⟨parts, rfl, hp⟩ := ihc ds2 L2 hn.2 (fun x hx => hcs x (by simp [hx])) s2
            have hc := hcs c (by simp)
            obtain ⟨j, _, hj⟩ := r.pos hc.lt
            have := r.pathOrder _ _ _ _ hj hk hc
            have h1 := ih j c i ds1 L1 (by omega) hj hi s1
            refine ⟨fun x => if x = c then L1 else parts x, ?_, ?_⟩
            · rw [List.flatMap_cons, if_pos rfl]
              congr 1
              apply List.flatMap_congr
              intro x hx
              rw [if_neg (fun (e : x = c) => hn.1 (e ▸ hx))]
            · intro x hx
              by_cases e : x = c
              · subst e; simpa using h1
              · simp only [if_neg e]
                exact hp x (by simpa [e] using hx)
        obtain ⟨parts, rfl, hp⟩ := hsub ch ds L hnd (fun c hc => (hmem c).mp hc) hs
        rw [List.nil_append]
        have hex : ∃ c, ParentIs parents c h := by
          by_contra hc
          exact hl ((r.tree.leaf h hh).mpr hc)
        exact .split ch parts hex hnd hmem (fun c hc => hp c ((hmem c).mpr hc))
      · rw [List.singleton_append]
        exact .cut hc1 hc2 (ih k h (c + 1) ds L (by omega) hk (by omega) hs)

end Lp

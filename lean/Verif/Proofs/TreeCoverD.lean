import Verif.Proofs.TreeCover
import Verif.Proofs.DCover

/-!
# Any tree: if the spatiotemporal computation returns, the parts cover
-/

namespace Lp
open Spec
variable {F K : Type} {leaves n : Nat} {parents : List Int} {root : Nat} {md : HMeta}

/-- An entry of the cut table that the reconstruction can follow. -/
def GoodCut (leaves : Nat) (f : Nat → Nat → Nat → Int) (h i j : Nat) : Prop :=
  (f h i j = -1 ∧ ¬ h < leaves) ∨ ∃ c : Nat, i ≤ c ∧ c ≤ j ∧ f h i j = c

/-- The cut table has the right dimensions and the cells in `S` are good. -/
def CutsOk (leaves N n : Nat) (S : Nat → Nat → Nat → Prop) (cuts : List (UTM Int)) : Prop :=
  ∃ f, MRep cuts N n f ∧ ∀ h i j, S h i j → GoodCut leaves f h i j

theorem CutsOk.mono {N : Nat} {S S' : Nat → Nat → Nat → Prop} {cuts : List (UTM Int)}
    (h : CutsOk leaves N n S cuts) (hs : ∀ a b c, S' a b c → S a b c) : CutsOk leaves N n S' cuts := by
  obtain ⟨f, h1, h2⟩ := h
  exact ⟨f, h1, fun a b c hc => h2 a b c (hs a b c hc)⟩

theorem CutsOk.set {N : Nat} {S : Nat → Nat → Nat → Prop} {cuts cuts' : List (UTM Int)} {h i j : Nat} {v : Int}
    (hc : CutsOk leaves N n S cuts) (hh : h < N) (hij : i ≤ j) (hj : j < n)
    (hv : (v = -1 ∧ ¬ h < leaves) ∨ ∃ c : Nat, i ≤ c ∧ c ≤ j ∧ v = c) (e : mset cuts h i j v = .ok cuts') :
    CutsOk leaves N n (fun a b c => S a b c ∨ (a = h ∧ b = i ∧ c = j)) cuts' := by
  obtain ⟨f, h1, h2⟩ := hc
  obtain ⟨m', e1, r⟩ := h1.set v hh hij hj
  rw [e] at e1
  obtain rfl := Except.ok.inj e1
  refine ⟨_, r, ?_⟩
  intro a b c hs
  unfold GoodCut
  by_cases heq : a = h ∧ b = i ∧ c = j
  · obtain ⟨rfl, rfl, rfl⟩ := heq
    rw [mupd_same]; exact hv
  · rw [mupd_ne heq]
    exact h2 a b c (hs.resolve_right heq)

theorem forUpAux_pci {σ : Type} {f : Nat → σ → Res σ} (P : Nat → σ → Prop) : ∀ (m i : Nat) (s s' : σ),
    (∀ k a b, i ≤ k → k < i + m → P k a → f k a = .ok b → P (k + 1) b) → P i s → forUpAux f m i s = .ok s' →
    P (i + m) s' := by
  intro m
  induction m with
  | zero => intro i s s' _ h e; simp [forUpAux] at e; exact e ▸ h
  | succ m ih =>
    intro i s s' hf h e
    unfold forUpAux at e
    cases h1 : f i s with
    | error er => rw [h1] at e; simp at e
    | ok b =>
      rw [h1] at e
      have := ih (i + 1) b s' (fun k a b h1 h2 => hf k a b (by omega) (by omega))
        (hf i s b (by omega) (by omega) h h1) e
      rwa [show i + 1 + m = i + (m + 1) by omega] at this

theorem forUp_pci {σ : Type} {f : Nat → σ → Res σ} (P : Nat → σ → Prop) {lo hi : Nat} (hle : lo ≤ hi) {s s' : σ}
    (hf : ∀ k a b, lo ≤ k → k < hi → P k a → f k a = .ok b → P (k + 1) b) (h : P lo s)
    (e : forUp lo hi f s = .ok s') : P hi s' := by
  have := forUpAux_pci P (hi - lo) lo s s' (fun k a b h1 h2 => hf k a b h1 (by omega)) h e
  rwa [Nat.add_sub_cancel' hle] at this

theorem forDown_pci {σ : Type} (P : Nat → σ → Prop) : ∀ (m : Nat) {f : Nat → σ → Res σ} {s s' : σ},
    (∀ k a b, k < m → P (k + 1) a → f k a = .ok b → P k b) → P m s → forDown m f s = .ok s' → P 0 s' := by
  intro m
  induction m with
  | zero => intro f s s' _ h e; simp [forDown] at e; exact e ▸ h
  | succ m ih =>
    intro f s s' hf h e
    unfold forDown at e
    cases h1 : f m s with
    | error er => rw [h1] at e; simp at e
    | ok b =>
      rw [h1] at e
      exact ih (fun k a b hk => hf k a b (by omega)) (hf m s b (by omega) h h1) e

section
variable [LD K] [FloatP F K]

theorem dbCut_ok {N : Nat} {S : Nat → Nat → Nat → Prop} {q : List (UTM (Quality K))} {p : F} {h i j c : Nat}
    {s s' : DBest K} (hc : CutsOk leaves N n S s.cuts) (hS : S h i j) (hh : h < N) (hic : i ≤ c) (hcj : c < j)
    (hj : j < n) (e : dbCut q p h i j c s = .ok s') : CutsOk leaves N n S s'.cuts := by
  obtain ⟨_, _, e⟩ := bind_eq_ok' e
  obtain ⟨_, _, e⟩ := bind_eq_ok' e
  obtain ⟨_, _, e⟩ := bind_eq_ok' e
  obtain ⟨_, _, e⟩ := bind_eq_ok' e
  dsimp only at e
  obtain ⟨_, _, e⟩ := bind_eq_ok' e
  split at e
  · obtain ⟨cuts, e1, e⟩ := bind_eq_ok' e
    obtain ⟨_, _, e⟩ := bind_eq_ok' e
    simp at e; subst e
    refine (hc.set hh (by omega) hj (Or.inr ⟨c, hic, by omega, rfl⟩) e1).mono ?_
    intro a b d hd; exact Or.inl hd
  · simp at e; subst e; exact hc

theorem dbCell_ok {N : Nat} {S : Nat → Nat → Nat → Prop} {q : List (UTM (Quality K))} {p : F} {k h i j : Nat}
    {s s' : DBest K} (hc : CutsOk leaves N n S s.cuts) (hh : h < N) (hij : i ≤ j) (hj : j < n)
    (hk : md.leaveSize ≤ k → ¬ h < leaves) (e : dbCell q p md k h i j s = .ok s') :
    CutsOk leaves N n (fun a b c => S a b c ∨ (a = h ∧ b = i ∧ c = j)) s'.cuts := by
  unfold dbCell at e
  obtain ⟨c1, e1, e⟩ := bind_eq_ok' e
  obtain ⟨_, _, e⟩ := bind_eq_ok' e
  obtain ⟨t1, _, e⟩ := bind_eq_ok' e
  dsimp only at e
  have h1 := hc.set hh hij hj (v := (j : Int)) (Or.inr ⟨j, hij, le_refl _, rfl⟩) e1
  obtain ⟨s2, e2, e⟩ := bind_eq_ok' e
  have h2 : CutsOk leaves N n (fun a b c => S a b c ∨ (a = h ∧ b = i ∧ c = j)) s2.cuts := by
    split at e2
    next hk' =>
      obtain ⟨_, _, e2⟩ := bind_eq_ok' e2
      obtain ⟨_, _, e2⟩ := bind_eq_ok' e2
      split at e2
      · obtain ⟨c2, e3, e2⟩ := bind_eq_ok' e2
        obtain ⟨_, _, e2⟩ := bind_eq_ok' e2
        simp at e2; subst e2
        refine (h1.set hh hij hj (Or.inl ⟨rfl, hk hk'⟩) e3).mono ?_
        intro a b d hd; exact Or.inl hd
      · simp at e2; subst e2; exact h1
    next => simp at e2; subst e2; exact h1
  obtain ⟨s3, e3, e⟩ := bind_eq_ok' e
  have h3 : CutsOk leaves N n (fun a b c => S a b c ∨ (a = h ∧ b = i ∧ c = j)) s3.cuts :=
    forUp_pc (fun s : DBest K => CutsOk leaves N n (fun a b c => S a b c ∨ (a = h ∧ b = i ∧ c = j)) s.cuts)
      (fun k a b hk1 hk2 hP e => dbCut_ok hP (Or.inr ⟨rfl, rfl, rfl⟩) hh hk1 hk2 hj e) h2 e3
  split at e
  · obtain ⟨_, _, e⟩ := bind_eq_ok' e
    obtain ⟨_, _, e⟩ := bind_eq_ok' e
    obtain ⟨_, _, e⟩ := bind_eq_ok' e
    obtain ⟨_, _, e⟩ := bind_eq_ok' e
    simp at e; subst e; exact h3
  · simp at e; subst e; exact h3

theorem dbNode_ok {N : Nat} {S : Nat → Nat → Nat → Prop} {q : List (UTM (Quality K))} {p : F} {k h : Nat}
    {s s' : DBest K} (hc : CutsOk leaves N n S s.cuts) (hh : h < N)
    (hk : md.leaveSize ≤ k → ¬ h < leaves) (e : dbNode q p md n k h s = .ok s') :
    CutsOk leaves N n (fun a b c => S a b c ∨ (a = h ∧ b ≤ c ∧ c < n)) s'.cuts := by
  unfold dbNode at e
  have := forDown_pci (fun i (s : DBest K) =>
      CutsOk leaves N n (fun a b c => S a b c ∨ (a = h ∧ i ≤ b ∧ b ≤ c ∧ c < n)) s.cuts) n ?_ ?_ e
  · refine this.mono ?_
    rintro a b c (h1 | ⟨h1, h2, h3⟩)
    · exact Or.inl h1
    · exact Or.inr ⟨h1, by omega, h2, h3⟩
  · intro i a b hi hP e
    have := forUp_pci (fun j (s : DBest K) =>
      CutsOk leaves N n (fun a b c => S a b c ∨ (a = h ∧ i + 1 ≤ b ∧ b ≤ c ∧ c < n) ∨ (a = h ∧ b = i ∧ i ≤ c ∧ c < j))
        s.cuts) (by omega : i ≤ n) ?_ ?_ e
    · refine this.mono ?_
      rintro a b c (h1 | ⟨h1, h2, h3, h4⟩)
      · exact Or.inl h1
      · by_cases hb : b = i
        · exact Or.inr (Or.inr ⟨h1, hb, by omega, h4⟩)
        · exact Or.inr (Or.inl ⟨h1, by omega, h3, h4⟩)
    · intro j a b hj1 hj2 hP e
      refine (dbCell_ok hP hh hj1 hj2 hk e).mono ?_
      rintro a b c (h1 | h1 | ⟨h1, h2, h3, h4⟩)
      · exact Or.inl (Or.inl h1)
      · exact Or.inl (Or.inr (Or.inl h1))
      · by_cases hcj : c = j
        · exact Or.inr ⟨h1, h2, hcj⟩
        · exact Or.inl (Or.inr (Or.inr ⟨h1, h2, h3, by omega⟩))
    · refine hP.mono ?_
      rintro a b c (h1 | h1 | ⟨h1, h2, h3, h4⟩)
      · exact Or.inl h1
      · exact Or.inr h1
      · omega
  · refine hc.mono ?_
    rintro a b c (h1 | ⟨h1, h2, h3⟩)
    · exact h1
    · omega

theorem dbPath_ok (r : KidsRight leaves parents root md) {q : List (UTM (Quality K))} {p : F} :
    ∀ (cnt k : Nat) (s s' : DBest K), k + cnt = md.hsize →
    CutsOk leaves parents.length n (fun a b c => (∃ j, j < k ∧ md.path[j]? = some a) ∧ b ≤ c ∧ c < n) s.cuts →
    dbPath q p md n cnt k s = .ok s' → md.path[md.hsize - 1]? = some root →
    CutsOk leaves parents.length n (fun a b c => a < parents.length ∧ b ≤ c ∧ c < n) s'.cuts := by
  intro cnt
  have all : ∀ (k : Nat) (cuts : List (UTM Int)), k = md.hsize →
      CutsOk leaves parents.length n (fun a b c => (∃ j, j < k ∧ md.path[j]? = some a) ∧ b ≤ c ∧ c < n) cuts →
      CutsOk leaves parents.length n (fun a b c => a < parents.length ∧ b ≤ c ∧ c < n) cuts := by
    intro k cuts hk hc
    refine hc.mono ?_
    rintro a b c ⟨h1, h2⟩
    obtain ⟨j, hj⟩ := List.getElem?_of_mem (r.full a h1)
    refine ⟨⟨j, ?_, hj⟩, h2⟩
    have := (List.getElem?_eq_some_iff.mp hj).1
    have hl : md.path.length ≤ parents.length := by
      have hsub : md.path ⊆ List.range parents.length := by
        intro y hy
        exact List.mem_range.mpr (r.pathLt y hy)
      have := (List.subperm_of_subset r.nodup hsub).length_le
      rwa [List.length_range] at this
    rw [hk, r.hsize]; omega
  induction cnt with
  | zero =>
    intro k s s' hk hc e _
    obtain ⟨_, _, e⟩ := bind_eq_ok' e
    simp at e; subst e
    exact all k s.cuts (by omega) hc
  | succ cnt ih =>
    intro k s s' hk hc e hlast
    obtain ⟨x, e1, e⟩ := bind_eq_ok' e
    obtain ⟨s1, e2, e⟩ := bind_eq_ok' e
    have hx := vget_eq_ok.mp e1
    have hxl := r.pathLt x (List.mem_of_getElem? hx)
    have h1 := (dbNode_ok hc hxl (fun hk => r.inner hx (by rwa [r.leaveSize] at hk)) e2).mono
      (S' := fun a b c => (∃ j, j < k + 1 ∧ md.path[j]? = some a) ∧ b ≤ c ∧ c < n) (by
        rintro a b c ⟨⟨j, hj1, hj2⟩, h3⟩
        by_cases hjk : j = k
        · subst hjk
          rw [hx] at hj2
          exact Or.inr ⟨(Option.some.inj hj2).symm, h3⟩
        · exact Or.inl ⟨⟨j, by omega, hj2⟩, h3⟩)
    by_cases hr : x = md.root
    · rw [if_pos hr] at e
      simp at e; subst e
      have : k = md.hsize - 1 :=
        (List.getElem?_inj (List.getElem?_eq_some_iff.mp hx).1 r.nodup).mp (by rw [hx, hlast, hr, r.rootEq])
      exact all (k + 1) s1.cuts (by omega) h1
    · rw [if_neg hr] at e
      exact ih (k + 1) s1 s' (by omega) h1 e hlast

omit [LD K] in
theorem dSubPart_cover (r : KidsRight leaves parents root md) {cuts : List (UTM Int)} {q : List (UTM (Quality K))}
    (hc : CutsOk leaves parents.length n (fun a b c => a < parents.length ∧ b ≤ c ∧ c < n) cuts) :
    ∀ (fuel h i j : Nat) (parts parts' : List (DPart K)), h < parents.length → i ≤ j → j < n →
    dSubPart cuts q md fuel h i j parts = .ok parts' →
    ∃ L, parts'.map (fun x => (⟨x.h, x.start, x.end⟩ : Rect)) =
        parts.map (fun x => (⟨x.h, x.start, x.end⟩ : Rect)) ++ L ∧
      (∀ x ∈ L, x.node < parents.length ∧ x.first ≤ x.last ∧ x.last < n) ∧
      ∀ l t, l < leaves → hits parents l t L = hits parents l t [⟨h, i, j⟩] := by
  classical
  obtain ⟨f, hf, hgood⟩ := hc
  intro fuel
  induction fuel with
  | zero => intro h i j parts parts' _ _ _ e; simp [dSubPart] at e
  | succ fuel ih =>
    intro h i j parts parts' hh hij hj e
    unfold dSubPart at e
    obtain ⟨cut, e1, e⟩ := bind_eq_ok' e
    rw [hf.get hh hij hj] at e1
    have e1 := Except.ok.inj e1
    rcases hgood h i j ⟨hh, hij, hj⟩ with ⟨g1, g2⟩ | ⟨c, g1, g2, g3⟩
    · rw [if_pos (by rw [← e1, g1])] at e
      obtain ⟨ch, e2, e⟩ := bind_eq_ok' e
      obtain ⟨ch', c1, c2, c3⟩ := r.children h hh
      rw [vget_eq_ok.mp e2] at c1
      obtain rfl := Option.some.inj c1
      have loop : ∀ (cs : List Nat) (parts parts' : List (DPart K)), (∀ c ∈ cs, c < parents.length) →
          forEach (fun c parts => dSubPart cuts q md fuel c i j parts) cs parts = .ok parts' →
          ∃ L, parts'.map (fun x => (⟨x.h, x.start, x.end⟩ : Rect)) =
              parts.map (fun x => (⟨x.h, x.start, x.end⟩ : Rect)) ++ L ∧
            (∀ x ∈ L, x.node < parents.length ∧ x.first ≤ x.last ∧ x.last < n) ∧
            ∀ l t, l < leaves → hits parents l t L = if i ≤ t ∧ t ≤ j then above parents l cs else 0 := by
        intro cs
        induction cs with
        | nil =>
          intro p1 p2 _ e
          simp [forEach] at e
          subst e
          exact ⟨[], by simp, by simp, fun _ _ _ => by simp [hits, above]⟩
        | cons c cs ihc =>
          intro p1 p2 hcs e
          unfold forEach at e
          cases hc : dSubPart cuts q md fuel c i j p1 with
          | error er => rw [hc] at e; simp at e
          | ok p3 =>
            rw [hc] at e
            obtain ⟨L1, a1, a2, a3⟩ := ih c i j p1 p3 (hcs c (by simp)) hij hj hc
            obtain ⟨L2, b1, b2, b3⟩ := ihc p3 p2 (fun x hx => hcs x (by simp [hx])) e
            refine ⟨L1 ++ L2, by rw [b1, a1, List.append_assoc], ?_, ?_⟩
            · intro x hx
              rcases List.mem_append.mp hx with hx | hx
              · exact a2 x hx
              · exact b2 x hx
            · intro l t hl
              have x1 := a3 l t hl
              have x2 := b3 l t hl
              unfold hits at x1 x2 ⊢
              rw [List.countP_append, x1, x2, List.countP_singleton]
              unfold above Rect.Has
              rw [List.countP_cons]
              simp only [decide_eq_true_eq]
              by_cases ht : i ≤ t ∧ t ≤ j
              · simp [ht]; omega
              · simp [ht]
      obtain ⟨L, l1, l2, l3⟩ := loop ch parts parts' (fun c hc => ParentIs.lt ((c3 c).mp hc)) e
      refine ⟨L, l1, l2, ?_⟩
      intro l t hl
      rw [l3 l t hl, r.above_children g2 c2 c3 hl]
      unfold above hits Rect.Has
      rw [List.countP_singleton, List.countP_singleton]
      simp only [decide_eq_true_eq]
      by_cases ht : i ≤ t ∧ t ≤ j
      · simp [ht]
      · simp [ht]
    · have hcut : cut = (c : Int) := by rw [← e1, g3]
      subst hcut
      rw [if_neg (by omega), toIdx_nat] at e
      simp only [okBind] at e
      obtain ⟨x, e2, e⟩ := bind_eq_ok' e
      by_cases hcj : c < j
      · rw [if_pos hcj] at e
        obtain ⟨L, l1, l2, l3⟩ := ih h (c + 1) j _ parts' hh (by omega) hj e
        refine ⟨⟨h, i, c⟩ :: L, by rw [l1]; simp, ?_, ?_⟩
        · intro y hy
          rcases List.mem_cons.mp hy with rfl | hy
          · refine ⟨hh, g1, ?_⟩
            show c < n
            omega
          · exact l2 y hy
        · intro l t hl
          have := l3 l t hl
          unfold hits at this ⊢
          rw [List.countP_cons, this, List.countP_singleton, List.countP_singleton]
          unfold Rect.Has
          simp only [decide_eq_true_eq]
          by_cases hu : Under parents h l
          · simp only [hu, true_and]
            by_cases t1 : i ≤ t ∧ t ≤ c
            · rw [if_neg (by omega), if_pos t1, if_pos (by omega)]
            · rw [if_neg t1]
              by_cases t2 : c + 1 ≤ t ∧ t ≤ j
              · rw [if_pos t2, if_pos (by omega)]
              · rw [if_neg t2, if_neg (by omega)]
          · simp [hu]
      · rw [if_neg hcj] at e
        simp at e
        subst e
        have : c = j := by omega
        subst this
        refine ⟨[⟨h, i, c⟩], by simp, ?_, fun _ _ _ => rfl⟩
        intro y hy
        simp at hy; subst hy
        exact ⟨hh, hij, hj⟩

/-- Any tree, any qualities: if the spatiotemporal partition is computed, it covers. -/
theorem dBest_cover_tree (t : IsTree leaves parents root) (hm : mkMeta leaves parents = .ok md)
    {q : List (UTM (Quality K))} {Q : Nat → Nat → Nat → Quality K} (hn : n ≤ 65535)
    (hq : MRep q parents.length n Q) {p : F} {P : DPartition F K} (h : dBestPartition q md p = .ok P) :
    CellCover leaves parents n (P.parts.map (fun x => (⟨x.h, x.start, x.end⟩ : Rect))) := by
  have w := dBest_walked hm t.leavesLe h
  have r := kidsRight_of_walked t hm w
  obtain ⟨m1, m2, m3, m4, m5⟩ := mkMeta_path hm
  obtain ⟨s, h1, h⟩ := bind_eq_ok' h
  obtain ⟨q0, e0, h⟩ := bind_eq_ok' h
  have hsz : q0.size = n := by
    obtain ⟨t0, a1, a2⟩ := hq.cell 0 (by have := t.rootLt; omega)
    rw [vget_eq_ok.mp e0] at a1
    obtain rfl := Option.some.inj a1
    exact a2.size
  split at h
  · simp at h
  next h0 =>
  obtain ⟨parts, h2, h⟩ := bind_eq_ok' h
  simp at h
  subst h
  obtain ⟨q1, e1, h1⟩ := bind_eq_ok' h1
  rw [e0] at e1
  obtain rfl := Except.ok.inj e1
  dsimp only at h1
  rw [hsz] at h1 h0 h2
  have hlast : md.path[md.hsize - 1]? = some root := by
    have w1 := w.last
    have := t.leavesLe
    have e : md.hsize - 1 = md.path.length - 1 := by rw [m1] at w1 ⊢; omega
    rw [e, m5, r.rootEq]
  have hcuts := dbPath_ok r md.hsize 0 _ s (by omega) ⟨_, by
      have := MRep.replicate (N := md.hsize) hn ((n : Int) - 1)
      rw [r.hsize] at this ⊢
      exact this, by
      rintro a b c ⟨⟨j, hj, _⟩, _⟩; omega⟩ h1 hlast
  have hr : md.root < parents.length := by rw [r.rootEq]; exact t.rootLt
  obtain ⟨L, l1, l2, l3⟩ := dSubPart_cover r hcuts _ _ _ _ _ _ hr (by omega) (by omega) h2
  simp only [List.map_nil, List.nil_append] at l1
  simp only
  rw [l1]
  refine ⟨l2, ?_⟩
  intro l u hl hu
  classical
  rw [exactlyOne_countP]
  have := l3 l u hl
  unfold hits at this
  rw [r.rootEq] at this
  have hun : Under parents root l := t.reach l (lt_of_lt_of_le hl t.leavesLe)
  rw [List.countP_singleton, if_pos (by
    unfold Rect.Has; simp only [decide_eq_true_eq]; exact ⟨hun, by omega, by omega⟩)] at this
  rw [← this]
end

end Lp

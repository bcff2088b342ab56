import Verif.Model.DPartition
import Verif.Spec.Float
import Verif.Props.C16
import Verif.Props.C19
import Verif.Props.C21
import Verif.Proofs.Samples

/-!
# C17 — the quality of a partition is the sum over its parts
-/

namespace Lp.C17
variable {F K : Type}

/-- The component-wise sum, from left to right, starting from zero. -/
def Sums [LD K] (total : Quality K) (parts : List (Quality K)) : Prop :=
  total.gain = (parts.map Quality.gain).foldl (· + ·) 0 ∧ total.loss = (parts.map Quality.loss).foldl (· + ·) 0

theorem sums_aux [LD K] (l : List (Quality K)) : Sums (sumQuality l) l := by
  suffices H : ∀ a : Quality K, (l.foldl Quality.add a).gain = (l.map Quality.gain).foldl (· + ·) a.gain ∧
      (l.foldl Quality.add a).loss = (l.map Quality.loss).foldl (· + ·) a.loss from H Quality.zero
  induction l with
  | nil => intro a; exact ⟨rfl, rfl⟩
  | cons x l ih => intro a; simp only [List.foldl_cons, List.map_cons]; exact ih _

theorem res_aux {α β : Type} {x : Res α} {f : α → Res β} {b : β} (h : (x >>= f) = .ok b) :
    ∃ a, x = .ok a ∧ f a = .ok b := by
  cases x with
  | error e => exact absurd h (by simp)
  | ok a => exact ⟨a, rfl, h⟩

theorem oParts_aux {cuts : List Int} {q : UTM (Quality K)} : ∀ (fuel : Nat) (i : Int) (l : List (OPart K)),
    oParts cuts q fuel i = .ok l →
    ∀ x ∈ l, ∃ a b : Nat, x.start = a ∧ x.end = b ∧ q.get a b = .ok x.quality := by
  intro fuel
  induction fuel with
  | zero => intro i l h; simp [oParts] at h
  | succ fuel ih =>
    intro i l h
    unfold oParts at h
    split at h
    · rename_i hi
      obtain ⟨c, hc, h⟩ := res_aux h
      obtain ⟨ci, hci, h⟩ := res_aux h
      obtain ⟨x, hx, h⟩ := res_aux h
      obtain ⟨rest, hrest, h⟩ := res_aux h
      simp only [pureOk, Except.ok.injEq] at h
      subst h
      intro y hy
      rcases List.mem_cons.mp hy with rfl | hy
      · refine ⟨i.toNat, ci, by simp; omega, ?_, hx⟩
        unfold toIdx at hci
        split at hci
        · simp at hci; simp; omega
        · simp at hci
      · exact ih _ _ hrest y hy
    · simp at h; subst h; simp

/-- Ordered partitions: for every cuts vector, table of qualities and arithmetic, a partition object, once built,
reports the sum of the qualities of its parts, and every part has the quality the table has for its interval. -/
theorem ordered [LD K] (cuts : List Int) (q : UTM (Quality K)) (p : F) (P : OPartition F K)
    (h : mkOPartition cuts q p = .ok P) :
    Sums P.quality (P.parts.map OPart.quality) ∧ P.parameter = p ∧
    ∀ x ∈ P.parts, ∃ a b : Nat, x.start = a ∧ x.end = b ∧ q.get a b = .ok x.quality := by
  unfold mkOPartition at h
  obtain ⟨parts, h1, h⟩ := res_aux h
  simp only [pureOk, Except.ok.injEq] at h
  subst h
  exact ⟨sums_aux _, rfl, oParts_aux _ _ _ h1⟩

theorem forEach_aux {α σ : Type} {f : α → σ → Res σ} (I : σ → Prop) : ∀ (l : List α) (s s' : σ),
    forEach f l s = .ok s' → I s → (∀ x ∈ l, ∀ t t', f x t = .ok t' → I t → I t') → I s' := by
  intro l
  induction l with
  | nil => intro s s' h hs _; simp [forEach] at h; exact h ▸ hs
  | cons x l ih =>
    intro s s' h hs step
    unfold forEach at h
    split at h
    · simp at h
    · rename_i t ht
      exact ih t s' h (step x (by simp) s t ht hs) (fun y hy => step y (by simp [hy]))

theorem hParts_aux {agg : List Bool} {q : List (Quality K)} {md : HMeta} : ∀ (fuel h : Nat) (l l' : List (HPart K)),
    hSubPart agg q md fuel h l = .ok l' →
    (∀ x ∈ l, q[x.h]? = some x.quality ∧ x.size = md.sizeOf x.h) →
    ∀ x ∈ l', q[x.h]? = some x.quality ∧ x.size = md.sizeOf x.h := by
  intro fuel
  induction fuel with
  | zero => intro h l l' e; simp [hSubPart] at e
  | succ fuel ih =>
    intro h l l' e hl
    unfold hSubPart at e
    obtain ⟨a, ha, e⟩ := res_aux e
    split at e
    · obtain ⟨x, hx, e⟩ := res_aux e
      simp only [pureOk, Except.ok.injEq] at e
      subst e
      intro y hy
      rcases List.mem_append.mp hy with hy | hy
      · exact hl y hy
      · simp at hy; subst hy; exact ⟨vget_eq_ok.mp hx, rfl⟩
    · obtain ⟨ch, hch, e⟩ := res_aux e
      exact forEach_aux (fun l => ∀ x ∈ l, q[x.h]? = some x.quality ∧ x.size = md.sizeOf x.h) ch l l' e hl
        (fun c _ t t' ht hi => ih c t t' ht hi)

/-- Hierarchical partitions: the same, and every part has the size the metadata has for its node. -/
theorem hierarchical [LD K] (agg : List Bool) (q : List (Quality K)) (p : F) (md : HMeta) (P : HPartition F K)
    (h : mkHPartition agg q p md = .ok P) :
    Sums P.quality (P.parts.map HPart.quality) ∧ P.parameter = p ∧
    ∀ x ∈ P.parts, q[x.h]? = some x.quality ∧ x.size = md.sizeOf x.h := by
  unfold mkHPartition at h
  obtain ⟨parts, h1, h⟩ := res_aux h
  simp only [pureOk, Except.ok.injEq] at h
  subst h
  exact ⟨sums_aux _, rfl, hParts_aux _ _ _ _ h1 (by simp)⟩

theorem dParts_aux {cuts : List (UTM Int)} {q : List (UTM (Quality K))} {md : HMeta} :
    ∀ (fuel h i j : Nat) (l l' : List (DPart K)),
    dSubPart cuts q md fuel h i j l = .ok l' →
    (∀ x ∈ l, mget q x.h x.start x.end = .ok x.quality ∧ x.hsize = md.sizeOf x.h) →
    ∀ x ∈ l', mget q x.h x.start x.end = .ok x.quality ∧ x.hsize = md.sizeOf x.h := by
  intro fuel
  induction fuel with
  | zero => intro h i j l l' e; simp [dSubPart] at e
  | succ fuel ih =>
    intro h i j l l' e hl
    unfold dSubPart at e
    obtain ⟨cut, ha, e⟩ := res_aux e
    split at e
    · obtain ⟨ch, hch, e⟩ := res_aux e
      exact forEach_aux (fun l => ∀ x ∈ l, mget q x.h x.start x.end = .ok x.quality ∧ x.hsize = md.sizeOf x.h)
        ch l l' e hl (fun c _ t t' ht hi => ih c i j t t' ht hi)
    · obtain ⟨c, hc, e⟩ := res_aux e
      obtain ⟨x, hx, e⟩ := res_aux e
      have hl2 : ∀ y ∈ l ++ [⟨h, md.sizeOf h, i, c, x⟩],
          mget q y.h y.start y.end = .ok y.quality ∧ y.hsize = md.sizeOf y.h := by
        intro y hy
        rcases List.mem_append.mp hy with hy | hy
        · exact hl y hy
        · simp at hy; subst hy; exact ⟨hx, rfl⟩
      simp only at e
      split at e
      · exact ih _ _ _ _ _ e hl2
      · simp only [pureOk, Except.ok.injEq] at e
        exact e ▸ hl2

/-- Spatiotemporal partitions: the same. -/
theorem spatiotemporal [LD K] (cuts : List (UTM Int)) (q : List (UTM (Quality K))) (p : F) (md : HMeta)
    (P : DPartition F K) (h : mkDPartition cuts q p md = .ok P) :
    Sums P.quality (P.parts.map DPart.quality) ∧ P.parameter = p ∧
    ∀ x ∈ P.parts, mget q x.h x.start x.end = .ok x.quality ∧ x.hsize = md.sizeOf x.h := by
  unfold mkDPartition at h
  obtain ⟨q0, _, h⟩ := res_aux h
  split at h
  · simp at h
  · obtain ⟨parts, h1, h⟩ := res_aux h
    simp only [pureOk, Except.ok.injEq] at h
    subst h
    exact ⟨sums_aux _, rfl, dParts_aux _ _ _ _ _ _ h1 (by simp)⟩

/-- The partitions returned by `computeBestPartition` are such objects. -/
theorem returned [LD K] [FloatP F K] (p : F) :
    (∀ (q : UTM (Quality K)) (P : OPartition F K), oBestPartition q p = .ok P →
      Sums P.quality (P.parts.map OPart.quality)) ∧
    (∀ (q : List (Quality K)) (md : HMeta) (P : HPartition F K), hBestPartition q md p = .ok P →
      Sums P.quality (P.parts.map HPart.quality)) ∧
    (∀ (q : List (UTM (Quality K))) (md : HMeta) (P : DPartition F K), dBestPartition q md p = .ok P →
      Sums P.quality (P.parts.map DPart.quality)) := by
  refine ⟨fun q P h => ?_, fun q md P h => ?_, fun q md P h => ?_⟩
  · obtain ⟨s, _, h⟩ := res_aux h
    exact (ordered _ _ _ _ h).1
  · obtain ⟨s, _, h⟩ := res_aux h
    exact (hierarchical _ _ _ _ _ h).1
  · obtain ⟨s, _, h⟩ := res_aux h
    exact (spatiotemporal _ _ _ _ _ h).1

/-! ## Concrete cases (`C15`, `C18`, `C20` show that `computeBestPartition` always succeeds) -/

example : (mkOPartition [1, 1, 2] C16.exQ (1 / 2 : ℚ)).map (fun P => (P.parts, P.quality)) =
    .ok ([⟨0, 1, ⟨2, 1⟩⟩, ⟨2, 2, ⟨0, 0⟩⟩], ⟨2, 1⟩) := by decide +kernel

example : (do let md ← mkMeta 4 [4, 4, 6, 6, 5, -1, 5]
              let P ← hBestPartition C19.exQ md (1 / 2 : ℚ)
              return (P.parts.map (fun x => (x.h, x.size)), P.quality) : Res (List (Nat × Nat) × Quality ℚ)) =
    .ok ([(4, 2), (2, 1), (3, 1)], ⟨3, 1⟩) := by decide +kernel

/-! ## The hypotheses are met by concrete inputs (`Proofs/Samples.lean`) -/

section
open Spec

example (P : OPartition ℚ ℚ) (h : oBestPartition Sample.oQ (1 / 2 : ℚ) = .ok P) := (returned (1 / 2 : ℚ)).1 _ P h
example (P : HPartition ℚ ℚ) (h : hBestPartition Sample.hQ Sample.md (1 / 2 : ℚ) = .ok P) := (returned (1 / 2 : ℚ)).2.1 _ _ P h
example (P : DPartition ℚ ℚ) (h : dBestPartition Sample.dQ Sample.md (1 / 2 : ℚ) = .ok P) := (returned (1 / 2 : ℚ)).2.2 _ _ P h

end

end Lp.C17

import Verif.Proofs.HeapD
import Verif.Proofs.Norm

/-!
# `normalize` with shared objects
-/

namespace Lp
variable {K : Type} [LD K]

/-- The table of distinct objects `d` after some of its objects were overwritten. -/
structure VecAfter (m : Heap K) (d : List Ptr) (m' : Heap K) (d' : List (Quality K)) : Prop where
  table : d' = d.map (deref m')
  len : m'.length = m.length
  other : ∀ a, a ∉ d → deref m' a = deref m a

theorem map_deref_set {m : Heap K} {d : List Ptr} (nd : d.Nodup) (hd : ∀ a ∈ d, a < m.length) {i a : Nat}
    (ha : d[i]? = some a) (x : Quality K) : d.map (deref (m.set a x)) = (d.map (deref m)).set i x := by
  apply List.ext_getElem?
  intro k
  have hi : i < d.length := (List.getElem?_eq_some_iff.1 ha).1
  by_cases e : k = i
  · subst e
    rw [List.getElem?_map, ha, List.getElem?_set_self (by simpa using hi), Option.map_some,
      deref_set_eq (hd a (List.mem_of_getElem? ha))]
  · rw [List.getElem?_set_ne (Ne.symm e), List.getElem?_map, List.getElem?_map]
    cases hb : d[k]? with
    | none => rfl
    | some b =>
      simp only [Option.map_some]
      rw [deref_set_ne]
      intro hab
      subst hab
      apply e
      apply (List.getElem?_inj (List.getElem?_eq_some_iff.1 hb).1 nd).1
      rw [hb, ha]

theorem normVec_rel {m : Heap K} {d : List Ptr} (nd : d.Nodup) (hd : ∀ a ∈ d, a < m.length) {k : Nat} {mx : Ptr}
    (hk : d[k]? = some mx) (n : Nat) :
    RelRes (VecAfter m d) (forUp 0 n (fun i m => do
        let a ← vget d i
        sDivide mx a m) m)
      (forUp 0 n (fun i d => do
        let x ← vget d i
        let y ← vget d k
        vset d i (x.div y)) (d.map (deref m))) := by
  apply forUp_relC (VecAfter m d)
  · exact ⟨rfl, rfl, fun _ _ => rfl⟩
  · rintro i m' _ - - ⟨rfl, hl, ho⟩
    by_cases hi : i < d.length
    · obtain ⟨a, ha⟩ : ∃ a, d[i]? = some a := ⟨_, List.getElem?_eq_getElem hi⟩
      have hin : ∀ a ∈ d, a < m'.length := by intro a h; rw [hl]; exact hd a h
      have ha' := hin a (List.mem_of_getElem? ha)
      rw [vget_eq_ok.2 ha, vget_eq_ok.2 (show (d.map (deref m'))[i]? = some (deref m' a) by rw [List.getElem?_map, ha]; rfl),
        vget_eq_ok.2 (show (d.map (deref m'))[k]? = some (deref m' mx) by rw [List.getElem?_map, hk]; rfl)]
      simp only [okBind]
      unfold sDivide
      rw [vget_deref ha', vget_deref (hin mx (List.mem_of_getElem? hk))]
      simp only [okBind]
      rw [vset_ok ha', vset_ok (by simpa using hi)]
      refine ⟨(map_deref_set nd hin ha _).symm, by simpa using hl, ?_⟩
      intro b hb
      rw [deref_set_ne, ho b hb]
      rintro rfl
      exact hb (List.mem_of_getElem? ha)
    · rw [vget_err (by omega), vget_err (by simp; omega)]
      rfl

theorem soNormalize_rel {m : Heap K} {q : UTM Ptr} (nd : q.data.Nodup) (hq : ∀ a ∈ q.data, a < m.length) (osize : Nat) :
    RelRes (fun m' q' => q' = q.deref m' ∧ m'.length = m.length ∧ ∀ a, a ∉ q.data → deref m' a = deref m a)
      (soNormalize osize q m) (oqNormalize osize (q.deref m)) := by
  unfold soNormalize oqNormalize
  simp only [UTM.deref]
  by_cases hi : UTM.index q.size 0 (osize - 1) < q.data.length
  · obtain ⟨a, ha⟩ : ∃ a, q.data[UTM.index q.size 0 (osize - 1)]? = some a := ⟨_, List.getElem?_eq_getElem hi⟩
    rw [vget_eq_ok.2 ha, vget_eq_ok.2 (show (q.data.map (deref m))[UTM.index q.size 0 (osize - 1)]? = some (deref m a) by
      rw [List.getElem?_map, ha]; rfl)]
    simp only [okBind]
    have h := normVec_rel nd hq ha q.getElements
    have e : (UTM.getElements ⟨q.size, q.data.map (deref m)⟩ : Nat) = q.getElements := rfl
    rw [e]
    exact h.bind_right (fun m' d h => ⟨by rw [h.table], h.len, h.other⟩)
  · rw [vget_err (by omega), vget_err (by simp; omega)]
    rfl

theorem shNormalize_rel {m : Heap K} {q : List Ptr} (nd : q.Nodup) (hq : ∀ a ∈ q, a < m.length) (md : HMeta) :
    RelRes (fun m' q' => q' = q.map (deref m') ∧ m'.length = m.length ∧ ∀ a, a ∉ q → deref m' a = deref m a)
      (shNormalize md q m) (hqNormalize md (q.map (deref m))) := by
  unfold shNormalize hqNormalize
  by_cases hi : md.root < q.length
  · obtain ⟨a, ha⟩ : ∃ a, q[md.root]? = some a := ⟨_, List.getElem?_eq_getElem hi⟩
    rw [vget_eq_ok.2 ha, vget_eq_ok.2 (show (q.map (deref m))[md.root]? = some (deref m a) by
      rw [List.getElem?_map, ha]; rfl)]
    simp only [okBind, List.length_map]
    exact (normVec_rel nd hq ha q.length).mono (fun m' d h => ⟨h.1, h.2, h.3⟩)
  · rw [vget_err (by omega), vget_err (by simp; omega)]
    rfl

theorem cell_deref (q : List (UTM Ptr)) (m : Heap K) (h k : Nat) :
    cell (q.map (UTM.deref m)) h k = (cell q h k).map (deref m) := by
  unfold cell
  rw [List.getElem?_map]
  cases q[h]? with
  | none => rfl
  | some t => simp [UTM.deref]

theorem fget_cell {α : Type} {ms : List (UTM α)} {h k : Nat} :
    fget ms h k = match cell ms h k with
      | some x => .ok x
      | none => .error .outOfBounds := by
  unfold fget cell vget
  cases ms[h]? with
  | none => rfl
  | some t => simp only [okBind, Option.bind_some]; cases t.data[k]? <;> rfl

theorem fset_cell {α : Type} {ms : List (UTM α)} {h k : Nat} {t : UTM α} (ht : ms[h]? = some t) (hk : k < t.data.length)
    (x : α) : fset ms h k x = .ok (ms.set h ⟨t.size, t.data.set k x⟩) := by
  unfold fset
  rw [vget_eq_ok.2 ht]
  simp only [okBind]
  rw [vset_ok hk]
  simp only [okBind]
  rw [vset_ok (List.getElem?_eq_some_iff.1 ht).1]

/-- No object occurs twice. -/
theorem cell_inj : ∀ {q : List (UTM Ptr)}, (q.flatMap UTM.data).Nodup → ∀ {h k h' k' a : Nat}, cell q h k = some a →
    cell q h' k' = some a → h = h' ∧ k = k' := by
  intro q
  induction q with
  | nil => intro _ h k h' k' a e; simp [cell] at e
  | cons t q ih =>
    intro nd h k h' k' a e e'
    rw [List.flatMap_cons, List.nodup_append] at nd
    obtain ⟨n1, n2, n3⟩ := nd
    have mem : ∀ {h k : Nat}, cell q h k = some a → a ∈ q.flatMap UTM.data := by
      intro h k hc
      unfold cell at hc
      obtain ⟨u, hu, hk⟩ := Option.bind_eq_some_iff.1 hc
      exact List.mem_flatMap.2 ⟨u, List.mem_of_getElem? hu, List.mem_of_getElem? hk⟩
    cases h with
    | zero =>
      have e0 : t.data[k]? = some a := e
      cases h' with
      | zero =>
        have e0' : t.data[k']? = some a := e'
        exact ⟨rfl, (List.getElem?_inj (List.getElem?_eq_some_iff.1 e0).1 n1).1 (e0.trans e0'.symm)⟩
      | succ h' => exact absurd rfl (n3 a (List.mem_of_getElem? e0) a (mem (show cell q h' k' = some a from e')))
    | succ h =>
      have e1 : cell q h k = some a := e
      cases h' with
      | zero =>
        have e0' : t.data[k']? = some a := e'
        exact absurd rfl (n3 a (List.mem_of_getElem? e0') a (mem e1))
      | succ h' =>
        obtain ⟨i1, i2⟩ := ih n2 e1 (show cell q h' k' = some a from e')
        exact ⟨by rw [i1], i2⟩

theorem mats_deref_set {m : Heap K} {q : List (UTM Ptr)} (nd : (q.flatMap UTM.data).Nodup) {h i a : Nat} {t : UTM Ptr}
    (ht : q[h]? = some t) (ha : t.data[i]? = some a) (ham : a < m.length) (x : Quality K) :
    q.map (UTM.deref (m.set a x)) = (q.map (UTM.deref m)).set h ⟨t.size, (t.data.map (deref m)).set i x⟩ := by
  have hc : cell q h i = some a := by unfold cell; rw [ht]; exact ha
  apply List.ext_getElem?
  intro h'
  rw [List.getElem?_map]
  cases hu : q[h']? with
  | none =>
    rw [List.getElem?_set_ne, List.getElem?_map, hu]; · rfl
    rintro rfl; rw [hu] at ht; cases ht
  | some u =>
    rw [Option.map_some]
    have key : ∀ k, ((u.data.map (deref (m.set a x)))[k]?) = if h' = h ∧ k = i then some x else (u.data.map (deref m))[k]? := by
      intro k
      rw [List.getElem?_map, List.getElem?_map]
      cases hb : u.data[k]? with
      | none =>
        rw [if_neg]
        · rfl
        · rintro ⟨rfl, rfl⟩
          obtain rfl : u = t := Option.some.inj (hu.symm.trans ht)
          rw [hb] at ha; cases ha
      | some b =>
        have hcb : cell q h' k = some b := by unfold cell; rw [hu]; exact hb
        simp only [Option.map_some]
        split
        · rename_i e
          obtain ⟨rfl, rfl⟩ := e
          rw [hc] at hcb
          rw [← Option.some.inj hcb, deref_set_eq ham]
        · rename_i e
          rw [deref_set_ne]
          rintro rfl
          exact e (cell_inj nd hcb hc)
    by_cases e : h' = h
    · subst e
      obtain rfl : u = t := Option.some.inj (hu.symm.trans ht)
      rw [List.getElem?_set_self (by simpa using (List.getElem?_eq_some_iff.1 ht).1)]
      congr 1
      unfold UTM.deref
      congr 1
      apply List.ext_getElem?
      intro k
      rw [key k]
      by_cases ek : k = i
      · subst ek
        rw [if_pos ⟨rfl, rfl⟩, List.getElem?_set_self (by simpa using (List.getElem?_eq_some_iff.1 ha).1)]
      · rw [if_neg (by tauto), List.getElem?_set_ne (Ne.symm ek)]
    · rw [List.getElem?_set_ne (Ne.symm e), List.getElem?_map, hu, Option.map_some]
      congr 1
      unfold UTM.deref
      congr 1
      apply List.ext_getElem?
      intro k
      rw [key k, if_neg (by tauto)]

theorem sdNormalize_rel {m : Heap K} {q : List (UTM Ptr)} (nd : (q.flatMap UTM.data).Nodup)
    (hq : ∀ t ∈ q, ∀ a ∈ t.data, a < m.length) (md : HMeta) (osize : Nat) :
    RelRes (fun m' q' => q' = q.map (UTM.deref m') ∧ m'.length = m.length ∧
        ∀ a, (∀ t ∈ q, a ∉ t.data) → deref m' a = deref m a)
      (sdNormalize md osize q m) (dqNormalize md osize (q.map (UTM.deref m))) := by
  unfold sdNormalize dqNormalize
  cases hr : q[md.root]? with
  | none =>
    have e1 : vget q md.root = .error .outOfBounds := by unfold vget; rw [hr]
    have e2 : vget (q.map (UTM.deref m)) md.root = .error .outOfBounds := by unfold vget; rw [List.getElem?_map, hr]; rfl
    rw [e1, e2]; rfl
  | some t =>
    rw [vget_eq_ok.2 hr, vget_eq_ok.2 (show (q.map (UTM.deref m))[md.root]? = some (t.deref m) by
      rw [List.getElem?_map, hr]; rfl)]
    simp only [okBind]
    have hsz : (t.deref m).size = t.size := rfl
    rw [hsz]
    cases hx : t.data[UTM.index t.size 0 (osize - 1)]? with
    | none =>
      have e1 : vget t.data (UTM.index t.size 0 (osize - 1)) = .error .outOfBounds := by unfold vget; rw [hx]
      have e2 : vget (t.deref m).data (UTM.index t.size 0 (osize - 1)) = .error .outOfBounds := by
        unfold vget UTM.deref; simp only; rw [List.getElem?_map, hx]; rfl
      rw [e1, e2]; rfl
    | some mx =>
      have e2 : vget (t.deref m).data (UTM.index t.size 0 (osize - 1)) = .ok (deref m mx) := by
        apply vget_eq_ok.2; unfold UTM.deref; simp only; rw [List.getElem?_map, hx]; rfl
      rw [vget_eq_ok.2 hx, e2]
      simp only [okBind]
      have hmx : cell q md.root (UTM.index t.size 0 (osize - 1)) = some mx := by unfold cell; rw [hr]; exact hx
      have hmxm : mx < m.length := hq t (List.mem_of_getElem? hr) mx (List.mem_of_getElem? hx)
      apply forUp_relC (fun m' q' => q' = q.map (UTM.deref m') ∧ m'.length = m.length ∧
        ∀ a, (∀ t ∈ q, a ∉ t.data) → deref m' a = deref m a) ⟨rfl, rfl, fun _ _ => rfl⟩
      rintro h m1 _ - - ⟨rfl, hl, ho⟩
      cases hu : q[h]? with
      | none =>
        have e1 : vget q h = .error .outOfBounds := by unfold vget; rw [hu]
        have e2 : vget (q.map (UTM.deref m1)) h = .error .outOfBounds := by unfold vget; rw [List.getElem?_map, hu]; rfl
        rw [e1, e2]; rfl
      | some u =>
        rw [vget_eq_ok.2 hu, vget_eq_ok.2 (show (q.map (UTM.deref m1))[h]? = some (u.deref m1) by
          rw [List.getElem?_map, hu]; rfl)]
        simp only [okBind]
        have hge : (u.deref m1).getElements = u.getElements := rfl
        rw [hge]
        apply forUp_relC (fun m' q' => q' = q.map (UTM.deref m') ∧ m'.length = m.length ∧
          ∀ a, (∀ t ∈ q, a ∉ t.data) → deref m' a = deref m a) ⟨rfl, hl, ho⟩
        rintro i m2 _ - - ⟨rfl, hl2, ho2⟩
        cases ha : u.data[i]? with
        | none =>
          have e1 : vget u.data i = .error .outOfBounds := by unfold vget; rw [ha]
          have e2 : fget (q.map (UTM.deref m2)) h i = .error .outOfBounds := by
            rw [fget_cell, cell_deref]; unfold cell; rw [hu, Option.bind_some, ha]; rfl
          rw [e1, e2]; rfl
        | some a =>
          have e2 : fget (q.map (UTM.deref m2)) h i = .ok (deref m2 a) := by
            rw [fget_cell, cell_deref]; unfold cell; rw [hu, Option.bind_some, ha]; rfl
          have e3 : fget (q.map (UTM.deref m2)) md.root (UTM.index t.size 0 (osize - 1)) = .ok (deref m2 mx) := by
            rw [fget_cell, cell_deref, hmx]; rfl
          have ham : a < m2.length := by
            rw [hl2]; exact hq u (List.mem_of_getElem? hu) a (List.mem_of_getElem? ha)
          rw [vget_eq_ok.2 ha, e2, e3]
          simp only [okBind]
          unfold sDivide
          rw [vget_deref ham, vget_deref (by rw [hl2]; exact hmxm)]
          simp only [okBind]
          rw [vset_ok ham, fset_cell (t := u.deref m2) (by rw [List.getElem?_map, hu]; rfl)
            (by simpa [UTM.deref] using (List.getElem?_eq_some_iff.1 ha).1)]
          refine ⟨(mats_deref_set nd hu ha ham _).symm, by simpa using hl2, ?_⟩
          intro b hb
          rw [deref_set_ne, ho2 b hb]
          rintro rfl
          exact hb u (List.mem_of_getElem? hu) (List.mem_of_getElem? ha)

end Lp

import Verif.Spec.Dump
import Verif.Proofs.Hierarchy

/-!
# Reading a dump
-/

namespace Lp
open Spec

theorem selectRows_map {N α : Type} (k : Nature) (f : Line N → α) : ∀ lines : List (Line N),
    selectRows (lines.map (·.nature)) k (lines.map f) = (lines.filter (fun l => l.nature = k)).map f := by
  intro lines
  induction lines with
  | nil => rfl
  | cons l lines ih =>
    unfold selectRows at ih ⊢
    simp only [List.map_cons, List.zip_cons_cons, List.filter_cons]
    by_cases h : l.nature = k
    · simp only [h, decide_true, if_true, List.map_cons]; rw [ih]
    · simp only [h, decide_false]; exact ih

theorem replaceAt_map {N α : Type} (k : Nature) (f g : Line N → α) : ∀ lines : List (Line N),
    replaceAt k (lines.map (·.nature)) (lines.map f) ((lines.filter (fun l => l.nature = k)).map g) =
      lines.map (fun l => if l.nature = k then g l else f l) := by
  intro lines
  induction lines with
  | nil => rfl
  | cons l lines ih =>
    simp only [List.map_cons, List.filter_cons]
    by_cases h : l.nature = k
    · simp only [h, decide_true, if_true, List.map_cons, replaceAt]
      rw [ih]
    · simp only [h, decide_false, if_false, replaceAt, Bool.false_eq_true]
      rw [ih]

theorem allOk_map {α β : Type} {g : α → Res β} {h : α → β} {l : List α} (e : ∀ x ∈ l, g x = .ok (h x)) :
    allOk (l.map g) = .ok (l.map h) := by
  have : ∀ (l : List α) (acc : List β), forEach (fun x (acc : List β) => do let y ← x; return acc ++ [y]) (l.map g) acc =
      forEach (fun x (acc : List β) => do let i ← g x; return acc ++ [i]) l acc := by
    intro l
    induction l with
    | nil => intro acc; rfl
    | cons x l ih =>
      intro acc
      simp only [List.map_cons, forEach]
      cases g x with
      | error e => rfl
      | ok y => exact ih _
  unfold allOk
  rw [this, forEach_snoc l [] e]
  simp

theorem allOk_error {α : Type} {l : List (Res α)} {x : Res α} (hx : x ∈ l) (e : ∀ y, x ≠ .ok y) : ∃ e, allOk l = .error e := by
  have : ∀ (l : List (Res α)) (acc : List α), x ∈ l →
      ∃ e, forEach (fun x (acc : List α) => do let y ← x; return acc ++ [y]) l acc = .error e := by
    intro l
    induction l with
    | nil => intro acc hx; simp at hx
    | cons z l ih =>
      intro acc hx
      simp only [forEach]
      cases z with
      | error e => exact ⟨e, rfl⟩
      | ok y =>
        rcases List.mem_cons.mp hx with h | h
        · exact absurd h (e y)
        · exact ih _ h
  exact this l [] hx

/-- Results paired row by row. -/
theorem say_map {N α β : Type} {rel : Line N → α → Prop} {k : Nature} {lines : List (Line N)} {rows : List α}
    (hs : Say rel k lines rows) (g : Line N → β) (h : α → β) (e : ∀ l r, l ∈ lines → l.nature = k → rel l r → g l = h r) :
    (lines.filter (fun l => l.nature = k)).map g = rows.map h := by
  unfold Say at hs
  have hm : ∀ l ∈ lines.filter (fun l => l.nature = k), l ∈ lines ∧ l.nature = k := by
    intro l hl
    rw [List.mem_filter] at hl
    exact ⟨hl.1, by simpa using hl.2⟩
  revert hm hs
  generalize lines.filter (fun l => l.nature = k) = L
  intro hs hm
  induction hs with
  | nil => rfl
  | cons h1 _ ih =>
    rw [List.map_cons, List.map_cons, e _ _ (hm _ (by simp)).1 (hm _ (by simp)).2 h1,
      ih (fun l hl => hm l (List.mem_cons_of_mem _ hl))]

variable {N K : Type} [LinearOrder N] [Field K] [LinearOrder K] {T : Texts N K} {lines : List (Line N)}

theorem textAt_eq {l : Line N} {k : Nat} : textAt T l k = l.field T k := by
  unfold textAt Line.field
  split
  · rename_i h
    simp [h]
  · rename_i h
    simp [Nat.le_of_not_lt h]

theorem readCol_fac {k : Nat} (h : ∃ l ∈ lines, IsText T k l) :
    readCol T (lines.map (·.field T k)) = .fac (lines.map (fun l => some (l.field T k))) := by
  unfold readCol
  rw [if_neg, List.map_map]; rfl
  intro hc
  obtain ⟨l, hl, h1, h2⟩ := h
  rw [textAt_eq] at h1 h2
  rcases hc _ (List.mem_map.mpr ⟨l, hl, rfl⟩) with h | h
  · exact h1 h
  · rw [h2] at h; simp at h

theorem readCol_num {k : Nat} (h : ∀ l ∈ lines, ¬ IsText T k l) :
    readCol T (lines.map (·.field T k)) = .num (lines.map (fun l => readNum T (l.field T k))) := by
  unfold readCol
  rw [if_pos, List.map_map]; rfl
  intro x hx
  obtain ⟨l, hl, rfl⟩ := List.mem_map.mp hx
  by_contra hc
  push Not at hc
  exact h l hl ⟨by rw [textAt_eq]; exact hc.1, by rw [textAt_eq]; simpa using hc.2⟩

theorem Spec.IsNum.readNum {k : Nat} {l : Line N} {x : K} (h : IsNum T k l x) : readNum T (l.field T k) = some x := by
  unfold Lp.readNum
  rw [← textAt_eq, if_neg h.1]; exact h.2

theorem numbers_num (c : List (Option K)) : (RCol.num c : RCol N K).numbers = c.map (fun x => x.elim (.error .outOfBounds) .ok) := rfl

/-- A column of times. -/
theorem times_numbers (h : Times T lines) {k : Nat} (hk : k ∈ [2, 3, 4]) (m : Nature) {α : Type} {rel : Line N → α → Prop} {rows : List α}
    (hs : Say rel m lines rows) (v : α → K) (hv : ∀ l r, rel l r → IsNum T k l (v r)) :
    allOk (selectRows (lines.map (·.nature)) m (readCol T (lines.map (·.field T k))).numbers) = .ok (rows.map v) := by
  rw [readCol_num (fun l hl => h l hl k hk), numbers_num, List.map_map, selectRows_map,
    say_map hs _ (fun r => .ok (v r)) (fun l r _ _ hr => by simp [(hv l r hr).readNum])]
  exact allOk_map (fun x _ => rfl)

/-- A column of names. -/
theorem kept_names {m : Nature} {k : Nat} (h : Kept T lines m k) {α : Type} {rel : Line N → α → Prop} {rows : List α}
    (hs : Say rel m lines rows) (v : α → N) (hv : ∀ l r, rel l r → textAt T l k = v r) :
    allOk (selectRows (lines.map (·.nature)) m ((readCol T (lines.map (·.field T k))).names T)) = .ok (rows.map v) := by
  have fin : ∀ g : Line N → Res N, (∀ l ∈ lines, l.nature = m → g l = .ok (l.field T k)) →
      allOk (selectRows (lines.map (·.nature)) m (lines.map g)) = .ok (rows.map v) := by
    intro g hg
    rw [selectRows_map, say_map hs g (fun r => .ok (v r)) (fun l r hl hm hr => by rw [hg l hl hm, ← textAt_eq, hv l r hr])]
    exact allOk_map (fun x _ => rfl)
  by_cases ht : ∃ l ∈ lines, IsText T k l
  · rw [readCol_fac ht]
    change allOk (selectRows _ m (List.map _ (List.map _ lines))) = _
    rw [List.map_map]
    exact fin _ (fun l _ _ => rfl)
  · have hc := h.resolve_left ht
    push Not at ht
    rw [readCol_num ht]
    change allOk (selectRows _ m (List.map _ (List.map _ lines))) = _
    rw [List.map_map]
    refine fin _ (fun l hl hm => ?_)
    obtain ⟨x, hx, e⟩ := hc l hl hm
    rw [textAt_eq] at e
    simp only [Function.comp_apply, hx.readNum, Option.elim_some]
    rw [e]

theorem depthNumbers_fac (h : ∃ l ∈ lines, IsText T 5 l) :
    depthNumbers T (readTable T lines).nature (readTable T lines).depth =
      .ok ((lines.filter (fun l => l.nature = .variable)).map (fun l => readNum T (l.field T 5))) := by
  unfold readTable
  dsimp only
  rw [readCol_fac h]
  unfold depthNumbers
  dsimp only
  rw [selectRows_map, List.map_map]
  rfl

theorem depthNumbers_num (h : ∀ l ∈ lines, ¬ IsText T 5 l) :
    depthNumbers T (readTable T lines).nature (readTable T lines).depth =
      emptyIndex ((lines.filter (fun l => l.nature = .variable)).map (fun l => readNum T (l.field T 5))) := by
  unfold readTable
  dsimp only
  rw [readCol_num h]
  unfold depthNumbers
  dsimp only
  rw [selectRows_map]

/-- Line 122 does not touch the other columns, nor the other rows. -/
theorem setValues_other (h : (∃ l ∈ lines, IsText T 5 l) ∨ ∀ l ∈ lines, l.nature ≠ .variable) :
    ∃ f', setValues T (readTable T lines) = .ok f' ∧
      f' = { readTable T lines with value := f'.value } ∧
      (((∃ l ∈ lines, IsText T 6 l) ∧ ∃ c : Line N → Option N, f'.value = .fac (lines.map c) ∧
          ∀ l ∈ lines, l.nature ≠ .variable → c l = some (l.field T 6)) ∨
       ((∀ l ∈ lines, ¬ IsText T 6 l) ∧ ∃ c : Line N → Option K, f'.value = .num (lines.map c) ∧
          (∀ l ∈ lines, l.nature ≠ .variable → c l = readNum T (l.field T 6)) ∧
          ∀ l ∈ lines, l.nature = .variable → c l = readNum T (l.field T 5))) := by
  have hd : depthNumbers T (readTable T lines).nature (readTable T lines).depth =
      .ok ((lines.filter (fun l => l.nature = .variable)).map (fun l => readNum T (l.field T 5))) := by
    by_cases ht : ∃ l ∈ lines, IsText T 5 l
    · exact depthNumbers_fac ht
    · have hn := h.resolve_left ht
      push Not at ht
      rw [depthNumbers_num ht]
      have : lines.filter (fun l => l.nature = .variable) = [] := by
        rw [List.filter_eq_nil_iff]
        intro l hl
        simpa using hn l hl
      rw [this]
      rfl
  unfold setValues
  rw [hd]
  simp only [okBind]
  by_cases ht : ∃ l ∈ lines, IsText T 6 l
  · have e : (readTable T lines).value = .fac (lines.map (fun l => some (l.field T 6))) := readCol_fac ht
    rw [e]
    dsimp only
    have e2 : (readTable T lines).nature = lines.map (·.nature) := rfl
    rw [List.map_map, e2, replaceAt_map]
    refine ⟨_, rfl, rfl, Or.inl ⟨ht, _, rfl, ?_⟩⟩
    intro l _ hl
    rw [if_neg hl]
  · push Not at ht
    have e : (readTable T lines).value = .num (lines.map (fun l => readNum T (l.field T 6))) := readCol_num ht
    rw [e]
    dsimp only
    have e2 : (readTable T lines).nature = lines.map (·.nature) := rfl
    rw [e2, replaceAt_map]
    refine ⟨_, rfl, rfl, Or.inr ⟨ht, _, rfl, ?_, ?_⟩⟩
    · intro l _ hl
      rw [if_neg hl]
    · intro l _ hl
      rw [if_pos hl]

theorem zip_map_map {α β γ : Type} (f : α → β) (g : α → γ) (l : List α) : (l.map f).zip (l.map g) = l.map (fun x => (f x, g x)) := by
  rw [List.zip_map']

theorem resourcesOf_spec {cs : List (Container N)} {f : Frame N K} (hs : Say (SaysContainer T) .container lines cs)
    (h0 : Kept T lines .container 0) (h5 : Kept T lines .container 5) (e1 : f.nature = lines.map (·.nature))
    (e2 : f.resource = readCol T (lines.map (·.field T 0))) (e3 : f.depth = readCol T (lines.map (·.field T 5))) :
    resourcesOf T f = .ok cs := by
  unfold resourcesOf
  rw [e1, e2, e3, kept_names h0 hs (fun c => c.parent) (fun l r h => h.parent),
    kept_names h5 hs (fun c => c.resource) (fun l r h => h.resource)]
  simp only [okBind]
  rw [zip_map_map, List.map_map]
  exact congrArg Except.ok (List.map_id _)

end Lp

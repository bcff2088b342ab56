import Verif.Proofs.Scale
import Verif.Proofs.Stretch

/-!
# One decision system inside another

`Sim`: the decisions of the first system are, in order, the decisions of the second that emit only good atoms and lead to solutions
with good atoms only.
-/

namespace Lp
open Spec
variable {σ τ A B : Type}

structure Sim (decs : Decs σ A) (decs' : Decs τ B) (f : σ → τ) (g : A → B) (κ : σ → Nat → Nat) (ok : σ → Prop) (good : B → Prop) :
    Prop where
  step : ∀ s, ok s → ∀ k e succ, (decs s)[k]? = some (e, succ) →
    (decs' (f s))[κ s k]? = some (e.map g, succ.map f) ∧ ∀ s' ∈ succ, ok s'
  mono : ∀ s, ok s → ∀ k l d d', (decs s)[k]? = some d → (decs s)[l]? = some d' → k < l → κ s k < κ s l
  inv : ∀ s, ok s → ∀ k' e' succ', (decs' (f s))[k']? = some (e', succ') → (∀ b ∈ e', good b) →
    (∃ rest ds M, Sol decs' (succ' ++ rest) ds M ∧ ∀ b ∈ M, good b) →
    ∃ k e succ, (decs s)[k]? = some (e, succ) ∧ κ s k = k'

/-- The decisions `ds` of the first system and the corresponding ones of the second. -/
inductive Img (decs : Decs σ A) (κ : σ → Nat → Nat) : List σ → List Nat → List Nat → Prop
  | nil : Img decs κ [] [] []
  | cons {s : σ} {rest : List σ} {k : Nat} {e : List A} {succ : List σ} {ds ds' : List Nat} :
      (decs s)[k]? = some (e, succ) → Img decs κ (succ ++ rest) ds ds' → Img decs κ (s :: rest) (k :: ds) (κ s k :: ds')

variable {decs : Decs σ A} {decs' : Decs τ B} {f : σ → τ} {g : A → B} {κ : σ → Nat → Nat} {ok : σ → Prop} {good : B → Prop}

theorem Sim.up (h : Sim decs decs' f g κ ok good) {st : List σ} {ds : List Nat} {L : List A} (hs : Sol decs st ds L) :
    (∀ s ∈ st, ok s) → ∃ ds', Sol decs' (st.map f) ds' (L.map g) ∧ Img decs κ st ds ds' := by
  induction hs with
  | nil => intro _; exact ⟨[], .nil, .nil⟩
  | @cons s rest k e succ ds L hk _ ih =>
    intro hok
    obtain ⟨h1, h2⟩ := h.step s (hok s (by simp)) k e succ hk
    obtain ⟨ds', h3, h4⟩ := ih (by
      intro s' hs'
      rcases List.mem_append.mp hs' with h' | h'
      · exact h2 s' h'
      · exact hok s' (by simp [h']))
    refine ⟨κ s k :: ds', ?_, .cons hk h4⟩
    rw [List.map_append] at h3 ⊢
    exact Sol.cons h1 h3

theorem Sim.down (h : Sim decs decs' f g κ ok good) {st' : List τ} {ds' : List Nat} {M : List B} (hs : Sol decs' st' ds' M) :
    ∀ st : List σ, st' = st.map f → (∀ s ∈ st, ok s) → (∀ b ∈ M, good b) →
      ∃ ds L, Sol decs st ds L ∧ Img decs κ st ds ds' ∧ M = L.map g := by
  induction hs with
  | nil =>
    intro st e _ _
    obtain rfl := List.map_eq_nil_iff.mp e.symm
    exact ⟨[], [], .nil, .nil, rfl⟩
  | @cons t rest' k' e' succ' ds' M hk htail ih =>
    intro st est hok hgood
    cases st with
    | nil => cases est
    | cons s rest =>
      rw [List.map_cons] at est
      injection est with e1 e2
      subst e1 e2
      obtain ⟨k, e, succ, hk1, rfl⟩ := h.inv s (hok s (by simp)) k' e' succ' hk (fun b hb => hgood b (by simp [hb]))
        ⟨_, _, _, htail, fun b hb => hgood b (by simp [hb])⟩
      obtain ⟨h1, h2⟩ := h.step s (hok s (by simp)) k e succ hk1
      rw [hk] at h1
      obtain ⟨rfl, rfl⟩ := Prod.mk.inj (Option.some.inj h1)
      obtain ⟨ds, L, h3, h4, rfl⟩ := ih (succ ++ rest) (by rw [List.map_append]) (by
        intro s' hs'
        rcases List.mem_append.mp hs' with h' | h'
        · exact h2 s' h'
        · exact hok s' (by simp [h'])) (fun b hb => hgood b (by simp [hb]))
      exact ⟨k :: ds, e ++ L, .cons hk1 h3, .cons hk1 h4, by rw [List.map_append]⟩

theorem Sim.before (h : Sim decs decs' f g κ ok good) {st : List σ} {d1 e1 : List Nat} (h1 : Img decs κ st d1 e1) :
    ∀ {d2 e2 : List Nat}, Img decs κ st d2 e2 → (∀ s ∈ st, ok s) → d1 = d2 ∨ Before d1 d2 → e1 = e2 ∨ Before e1 e2 := by
  induction h1 with
  | nil => intro d2 e2 h2 _ _; cases h2; exact .inl rfl
  | @cons s rest k e succ ds ds' hk _ ih =>
    intro d2 e2 h2 hok hb
    cases h2 with
    | @cons _ _ k2 e2 succ2 ds2 ds2' hk2 h2' =>
      have tail : k = k2 → (ds = ds2 ∨ Before ds ds2) → κ s k :: ds' = κ s k2 :: ds2' ∨ Before (κ s k :: ds') (κ s k2 :: ds2') := by
        rintro rfl hb
        rw [hk] at hk2
        obtain ⟨rfl, rfl⟩ := Prod.mk.inj (Option.some.inj hk2)
        have := ih h2' (by
          intro s' hs'
          rcases List.mem_append.mp hs' with h' | h'
          · exact (h.step s (hok s (by simp)) k _ _ hk).2 s' h'
          · exact hok s' (by simp [h'])) hb
        rcases this with rfl | h'
        · exact .inl rfl
        · exact .inr (.tail h')
      rcases hb with hb | hb
      · injection hb with h1 h2
        exact tail h1 (.inl h2)
      · cases hb with
        | lt hlt => exact .inr (.lt (h.mono s (hok s (by simp)) k k2 _ _ hk hk2 hlt))
        | tail hb => exact tail rfl (.inr hb)

/-! ### Averages -/

theorem numLe_total (a b g l g' l' : ℝ) : NumLe a b g l g' l' ∨ NumLe a b g' l' g l := by
  unfold NumLe
  rcases lt_trichotomy (a * g - b * l) (a * g' - b * l') with h | h | h
  · exact .inl (.inl h)
  · rcases lt_trichotomy g g' with h1 | h1 | h1
    · exact .inl (.inr ⟨h, .inl h1⟩)
    · rcases le_total l' l with h2 | h2
      · exact .inl (.inr ⟨h, .inr ⟨h1, h2⟩⟩)
      · exact .inr (.inr ⟨h.symm, .inr ⟨h1.symm, h2⟩⟩)
    · exact .inr (.inr ⟨h.symm, .inl h1⟩)
  · exact .inr (.inl h)

theorem numLe_refl (a b g l : ℝ) : NumLe a b g l g l := .inr ⟨rfl, .inr ⟨rfl, le_refl _⟩⟩

theorem numLe_antisymm {a b g l g' l' : ℝ} (h : NumLe a b g l g' l') (h' : NumLe a b g' l' g l) : g = g' ∧ l = l' := by
  unfold NumLe at h h'
  rcases h with h | ⟨h, h1 | ⟨h1, h2⟩⟩ <;> rcases h' with k | ⟨k, k1 | ⟨k1, k2⟩⟩ <;>
    first | exact ⟨h1, le_antisymm k2 h2⟩ | (exfalso; linarith)

theorem avg_le {c : Nat} {a b g l g' l' S : ℝ} {G Lo : Nat → ℝ} (hc : 0 < c) (ha : 0 ≤ a) (hb : 0 ≤ b)
    (hs : ∀ s < c, NumLe a b (G s) (Lo s) g l)
    (hg : c * g' ≤ ∑ s ∈ Finset.range c, (G s + S)) (hl : ∑ s ∈ Finset.range c, Lo s ≤ c * l') :
    NumLe a b g' l' (g + S) l ∧ (g' = g + S → l' = l → c * g' = ∑ s ∈ Finset.range c, (G s + S)) := by
  constructor
  · rcases numLe_total a b g' l' (g + S) l with h | h
    · exact h
    · obtain ⟨e1, e2, _⟩ := avg_best hc ha hb hs h hg hl
      rw [e1, e2]; exact numLe_refl _ _ _ _
  · intro e1 e2
    refine (avg_best hc ha hb hs ?_ hg hl).2.2
    rw [e1, e2]; exact numLe_refl _ _ _ _

theorem gainOf_perm {q : A → Quality ℝ} {L M : List A} (h : L.Perm M) : gainOf q L = gainOf q M := (h.map _).sum_eq
theorem lossOf_perm {q : A → Quality ℝ} {L M : List A} (h : L.Perm M) : lossOf q L = lossOf q M := (h.map _).sum_eq

/-- The coarse problem inside the fine one: if the solutions of the fine problem can be averaged over solutions of the coarse problem,
then the image of the first best coarse solution is best, and, if the solutions with equality are good, the first best. -/
theorem LexFirst.stretch (sim : Sim decs decs' f g κ ok good) {st : List σ} (hok : ∀ s ∈ st, ok s) {a b S : ℝ} (ha : 0 ≤ a) (hb : 0 ≤ b)
    {q : A → Quality ℝ} {q' : B → Quality ℝ} {c : Nat} (hc : 0 < c)
    (hup : ∀ ds L, Sol decs st ds L → gainOf q' (L.map g) = gainOf q L + S ∧ lossOf q' (L.map g) = lossOf q L)
    (Ls : List B → Nat → List A)
    (hdown : ∀ ds M, Sol decs' (st.map f) ds M → (∀ s < c, ∃ ds L', Sol decs st ds L' ∧ L'.Perm (Ls M s)) ∧
      c * gainOf q' M ≤ ∑ s ∈ Finset.range c, (gainOf q (Ls M s) + S) ∧ ∑ s ∈ Finset.range c, lossOf q (Ls M s) ≤ c * lossOf q' M)
    {ds : List Nat} {L : List A} (h : LexFirst (Sol decs st) a b q ds L) :
    (∃ ds', Sol decs' (st.map f) ds' (L.map g)) ∧
    (∀ ds' M, Sol decs' (st.map f) ds' M → LexLe a b q' M (L.map g)) ∧
    ((∀ ds' M, Sol decs' (st.map f) ds' M →
        c * gainOf q' M = ∑ s ∈ Finset.range c, (gainOf q (Ls M s) + S) → ∀ b ∈ M, good b) →
      ∃ ds', LexFirst (Sol decs' (st.map f)) a b q' ds' (L.map g)) := by
  obtain ⟨ds', h1, h2⟩ := sim.up h.mem hok
  obtain ⟨u1, u2⟩ := hup ds L h.mem
  have key : ∀ e M, Sol decs' (st.map f) e M → LexLe a b q' M (L.map g) ∧
      (gainOf q' M = gainOf q' (L.map g) → lossOf q' M = lossOf q' (L.map g) →
        c * gainOf q' M = ∑ s ∈ Finset.range c, (gainOf q (Ls M s) + S)) := by
    intro e M hM
    obtain ⟨k1, k2, k3⟩ := hdown e M hM
    have hs : ∀ s < c, NumLe a b (gainOf q (Ls M s)) (lossOf q (Ls M s)) (gainOf q L) (lossOf q L) := by
      intro s hs
      obtain ⟨d, L', hd, hp⟩ := k1 s hs
      rw [← gainOf_perm hp, ← lossOf_perm hp]
      exact h.best d _ hd
    obtain ⟨r1, r2⟩ := avg_le hc ha hb hs k2 k3
    rw [u1, u2]
    refine ⟨?_, r2⟩
    unfold LexLe valueOf
    rw [u1, u2]
    exact r1
  refine ⟨⟨ds', h1⟩, fun e M hM => (key e M hM).1, fun hgood => ⟨ds', h1, fun e M hM => (key e M hM).1, ?_⟩⟩
  intro e M hM eg el
  obtain ⟨d, L', k1, k2, rfl⟩ := sim.down hM st rfl hok (hgood e M hM ((key e M hM).2 eg el))
  obtain ⟨w1, w2⟩ := hup d L' k1
  have := h.first d L' k1 (by linarith) (by linarith)
  exact sim.before h2 k2 hok this

/-- Gain and loss of the first best solutions of the two problems. -/
theorem LexFirst.quality_eq {st : List τ} {a b : ℝ} {q' : B → Quality ℝ} {ds : List Nat} {M N : List B}
    (h : LexFirst (Sol decs' st) a b q' ds M) {ds' : List Nat} (hN : Sol decs' st ds' N)
    (hb : ∀ ds' M, Sol decs' st ds' M → LexLe a b q' M N) : gainOf q' M = gainOf q' N ∧ lossOf q' M = lossOf q' N :=
  numLe_antisymm (hb ds M h.mem) (h.best ds' N hN)

end Lp

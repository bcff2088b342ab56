import Verif.Model.RMacro

namespace Lp

/-! ## Grouping -/

theorem mem_groupRows {R κ : Type} [DecidableEq κ] {key : R → κ} {rows : List R} {g : κ × List R} :
    g ∈ groupRows key rows ↔ (∃ r ∈ rows, key r = g.1) ∧ g.2 = rows.filter (fun r => key r = g.1) := by
  unfold groupRows
  rw [List.mem_map]
  constructor
  · rintro ⟨k, hk, rfl⟩
    rw [List.mem_dedup, List.mem_map] at hk
    exact ⟨hk, rfl⟩
  · rintro ⟨h1, h2⟩
    exact ⟨g.1, by rw [List.mem_dedup, List.mem_map]; exact h1, by rw [← h2]⟩

theorem groupRows_nodup {R κ : Type} [DecidableEq κ] (key : R → κ) (rows : List R) :
    ((groupRows key rows).map Prod.fst).Nodup := by
  unfold groupRows
  rw [List.map_map]
  have : (Prod.fst ∘ fun k => (k, rows.filter (fun r => decide (key r = k)))) = id := rfl
  rw [this, List.map_id]
  exact List.nodup_dedup _

end Lp

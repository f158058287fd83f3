import Verif.Model.Distribute
/-! C22: the orders used for sorting. -/
namespace FleCSPH
open Distribute

/-- The comparison of particles is a strict weak order, it orders first by key, and two different particles with different ids are ordered
one way or the other. -/
theorem C22_particle_order :
    (∀ a, less a a = false) ∧
    (∀ a b c, less a b = true → less b c = true → less a c = true) ∧
    (∀ a b c, less a b = false → less b a = false → less b c = false → less c b = false → less a c = false ∧ less c a = false) ∧
    (∀ a b, a.id ≠ b.id → less a b = true ∨ less b a = true) ∧
    (∀ a b, a.key < b.key → less a b = true) := by
  have key : ∀ a b, less a b = true ↔ a.key < b.key ∨ (a.key = b.key ∧ a.id < b.id) := by
    intro a b
    unfold less
    split_ifs <;> simp <;> omega
  have key' : ∀ a b, less a b = false ↔ ¬ (a.key < b.key ∨ (a.key = b.key ∧ a.id < b.id)) := by
    intro a b; rw [← key]; simp
  refine ⟨fun a => ?_, fun a b c => ?_, fun a b c => ?_, fun a b => ?_, fun a b => ?_⟩
  · rw [key']; omega
  · simp only [key]; omega
  · simp only [key']; omega
  · simp only [key]; omega
  · simp only [key]; omega

/-- The comparison of entities orders entities with different keys by key. -/
theorem C22_entity_order_partial (a b : Item) (h : a.key ≠ b.key) : (entityLess a b = true ↔ a.key < b.key) ∧ (entityLess a b = true ↔ entityLess b a = false) := by
  unfold entityLess; simp; omega

/-- It is not a strict weak order: every entity is less than itself, and two entities with the same key are each less than the other. -/
theorem C22_entity_order_violated (a b : Item) (h : a.key = b.key) : entityLess a a = true ∧ entityLess a b = true ∧ entityLess b a = true := by
  unfold entityLess; simp [h]

/-- Non-vacuity. -/
example : less ⟨3, 7⟩ ⟨3, 9⟩ = true ∧ (⟨3, 7⟩ : Item).key ≠ (⟨4, 7⟩ : Item).key := by decide

end FleCSPH

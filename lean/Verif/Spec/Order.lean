import Verif.Prelude
/-! Specification vocabulary: strict weak orderings, sorted lists, stability. -/
namespace MI

/-- A strict weak ordering (the requirement the documentation puts on user comparison predicates). -/
structure StrictWeak {α : Type _} (lt : α → α → Bool) : Prop where
  irrefl : ∀ x, lt x x = false
  trans : ∀ {x y z}, lt x y = true → lt y z = true → lt x z = true
  incomp : ∀ {x y z}, lt x y = false → lt y x = false → lt y z = false → lt z y = false →
    lt x z = false ∧ lt z x = false

/-- Sorted w.r.t. a strict ordering: no later element is less than an earlier one. -/
def Sorted {α : Type _} (lt : α → α → Bool) (l : List α) : Prop := l.Pairwise (fun a b => lt b a = false)

/-- Two elements are equivalent. -/
def equivOf {α : Type _} (lt : α → α → Bool) (x y : α) : Bool := !lt x y && !lt y x

/-- `l'` is a stable rearrangement of `l` w.r.t. `lt`: every class of equivalent elements keeps its order. -/
def StableOf {α : Type _} (lt : α → α → Bool) (l l' : List α) : Prop :=
  ∀ x, l'.filter (equivOf lt x) = l.filter (equivOf lt x)

namespace StrictWeak
variable {α : Type _} {lt : α → α → Bool}

theorem asymm (h : StrictWeak lt) {x y : α} (hx : lt x y = true) : lt y x = false := by
  by_contra hy
  have := h.trans hx (by simpa using hy)
  rw [h.irrefl] at this; cases this

/-- "not less" is transitive. -/
theorem le_trans (h : StrictWeak lt) {x y z : α} (h1 : lt y x = false) (h2 : lt z y = false) : lt z x = false := by
  by_contra h3
  have h3 : lt z x = true := by simpa using h3
  have a : lt y z = false := by
    by_contra h4; have := h.trans (by simpa using h4) h3; rw [this] at h1; cases h1
  have b : lt x y = false := by
    by_contra h4; have := h.trans h3 (by simpa using h4); rw [this] at h2; cases h2
  have := h.incomp b h1 a h2
  rw [this.2] at h3; cases h3

theorem lt_le_trans (h : StrictWeak lt) {x y z : α} (h1 : lt x y = true) (h2 : lt z y = false) : lt x z = true := by
  by_contra h3
  have := h.le_trans h2 (by simpa using h3)
  rw [this] at h1; cases h1

theorem le_lt_trans (h : StrictWeak lt) {x y z : α} (h1 : lt y x = false) (h2 : lt y z = true) : lt x z = true := by
  by_contra h3
  have := h.le_trans (by simpa using h3) h1
  rw [this] at h2; cases h2

theorem equiv_refl (h : StrictWeak lt) (x : α) : equivOf lt x x = true := by simp [equivOf, h.irrefl]

theorem equiv_symm {x y : α} : equivOf lt x y = equivOf lt y x := by
  simp only [equivOf]; rw [Bool.and_comm]

theorem equiv_iff {x y : α} : equivOf lt x y = true ↔ lt x y = false ∧ lt y x = false := by
  simp [equivOf]

theorem equiv_trans (h : StrictWeak lt) {x y z : α} (h1 : equivOf lt x y = true) (h2 : equivOf lt y z = true) :
    equivOf lt x z = true := by
  rw [equiv_iff] at *
  exact h.incomp h1.1 h1.2 h2.1 h2.2

/-- A comparison on keys is a strict weak ordering on elements. -/
theorem comap {β : Type _} (h : StrictWeak lt) (f : β → α) : StrictWeak (fun x y => lt (f x) (f y)) where
  irrefl x := h.irrefl _
  trans := h.trans
  incomp := h.incomp

end StrictWeak
end MI

import Mathlib.Data.List.Basic

/-! Specification of ordered combinations. -/

namespace Verif.Spec

/-- `x 0 op x 1 op ... op x (i-1)`, combined from left to right starting with `unit`. -/
def exclusivePrefix {α : Type*} (op : α → α → α) (unit : α) (x : ℕ → α) (i : ℕ) : α :=
  ((List.range i).map x).foldl op unit

/-- `x 0 op x 1 op ... op x i`: the same without mention of a unit. -/
def inclusivePrefix {α : Type*} (op : α → α → α) (x : ℕ → α) : ℕ → α
  | 0 => x 0
  | i + 1 => op (inclusivePrefix op x i) (x (i + 1))

end Verif.Spec

import Mathlib.Algebra.BigOperators.Group.Finset.Basic
import Mathlib.Algebra.Ring.Defs
import Mathlib.Logic.Relation

/-! Specifications for gather, scatter, exchange and periodic identification. -/

namespace Verif.Spec

/-- `a` and `b` sit at the same place of two facets that are linked. -/
def LinkPair (links : List (List ℤ × List ℤ)) (a b : ℤ) : Prop :=
  ∃ l ∈ links, ∃ k : ℕ, l.1[k]? = some a ∧ l.2[k]? = some b

/-- A chain of links, walked in either direction, connects `a` and `b`. -/
def Linked (links : List (List ℤ × List ℤ)) : ℤ → ℤ → Prop := Relation.EqvGen (LinkPair links)

/-- Sum of `u` over all positions that hold the same node as position `i`. -/
def copiesSum {R : Type*} [AddCommMonoid R] (N : ℕ) (node : ℕ → ℤ) (u : ℕ → R) (i : ℕ) : R :=
  ∑ j ∈ (Finset.range N).filter (fun j => node j = node i), u j

/-- Sum of `u` over all (device, slot) pairs that hold node `x`. -/
def holdersSum {R : Type*} [AddCommMonoid R] (P N : ℕ) (node : ℕ → ℕ → ℤ) (u : ℕ → ℕ → R) (x : ℤ) : R :=
  ∑ q ∈ (Finset.range P ×ˢ Finset.range N).filter (fun q => node q.1 q.2 = x), u q.1 q.2

/-- No device holds a node in two slots (`-1` marks padding). -/
def NoRepeats (P N : ℕ) (node : ℕ → ℕ → ℤ) : Prop :=
  ∀ p < P, ∀ i < N, ∀ j < N, node p i = node p j → node p i ≠ -1 → i = j

end Verif.Spec

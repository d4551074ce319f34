import Mathlib.Algebra.BigOperators.Group.Finset.Basic
import Mathlib.Algebra.Order.Group.Multiset

/-! Vocabulary for statements about devices `0, ..., P-1`. -/

namespace Verif.Spec

/-- `f` permutes the devices and is its own inverse (partners are swapped). -/
def SwapsPartners (P : ℕ) (f : ℕ → ℕ) : Prop := ∀ i < P, f i < P ∧ f (f i) = i

/-- The collection of the first `n p` rows of every device `p`, each transformed by `g p`. -/
def collect {ρ σ : Type*} (P : ℕ) (n : ℕ → ℕ) (rows : ℕ → List ρ) (g : ℕ → ρ → σ) : Multiset σ :=
  ∑ p ∈ Finset.range P, (((rows p).take (n p)).map (g p) : Multiset σ)

end Verif.Spec

import Mathlib.Analysis.Calculus.LineDeriv.Basic
import Mathlib.Analysis.Calculus.Deriv.Add
import Mathlib.Analysis.Calculus.Deriv.Mul
import Verif.Lemmas.CubeTiling

/-!
# Functions on the cube that belong to nodal values
-/

namespace Verif.Core

open Verif.Spec MeasureTheory MvPolynomial Topology

variable {n d p : ℕ} {a b c : ℝ} {mesh : Mesh ℝ d} {node : ℕ → ℕ → ℕ}

/-- Partial derivative along axis `k`. -/
noncomputable def partialDeriv (k : Fin d) (f : (Fin d → ℝ) → ℝ) (x : Fin d → ℝ) : ℝ := lineDeriv ℝ f x (Pi.single k 1)

theorem hasLineDerivAt_eval (P : MvPolynomial (Fin d) ℝ) (k : Fin d) (x : Fin d → ℝ) :
    HasLineDerivAt ℝ (fun y => eval y P) (eval x (pderiv k P)) x (Pi.single k 1) := by
  unfold HasLineDerivAt
  induction P using MvPolynomial.induction_on with
  | C r => simpa using hasDerivAt_const (0 : ℝ) r
  | add P Q hP hQ =>
    simp only [map_add]
    exact hP.add hQ
  | mul_X P j hP =>
    have hX : HasDerivAt (fun t : ℝ => (x + t • (Pi.single k 1 : Fin d → ℝ)) j) ((Pi.single k (1 : ℝ) : Fin d → ℝ) j) 0 := by
      simp only [Pi.add_apply, Pi.smul_apply, smul_eq_mul]
      simpa using ((hasDerivAt_id (0 : ℝ)).mul_const ((Pi.single k (1 : ℝ) : Fin d → ℝ) j)).const_add (x j)
    have h := hP.mul hX
    simp only [map_mul, eval_X]
    rw [pderiv_mul, map_add, map_mul, map_mul, eval_X]
    have hpx : eval x (pderiv k (X j : MvPolynomial (Fin d) ℝ)) = (Pi.single k (1 : ℝ) : Fin d → ℝ) j := by
      rw [pderiv_X]
      by_cases hjk : k = j
      · subst hjk; simp
      · simp [hjk, Ne.symm hjk]
    rw [hpx]
    exact h.congr_deriv (by simp)

/-- `uh` is the function of the finite element space with nodal values `u`: a polynomial of degree at most `p` in every
variable on the box of every element, and the given values at the nodes. -/
structure NodalFunction (mesh : Mesh ℝ d) (p : ℕ) (u : ℕ → ℝ) (uh : (Fin d → ℝ) → ℝ) : Prop where
  piecewise : ∀ e < mesh.numElements, ∃ P : MvPolynomial (Fin d) ℝ, (∀ k, P.degreeOf k ≤ p) ∧
    ∀ x ∈ elementBox mesh e, uh x = eval x P
  nodal : ∀ j < mesh.numNodes, uh (mesh.coords j) = u j

/-- Interior of a cell. -/
def openCell (n d : ℕ) (a c : ℝ) (e : ℕ) : Set (Fin d → ℝ) :=
  Set.pi Set.univ (fun k => Set.Ioo (centre n d a c e k - c) (centre n d a c e k + c))

theorem openCell_sub {e : ℕ} : openCell n d a c e ⊆ CubeCells.cell n d a c e := by
  intro x hx
  have := fun k => hx k (Set.mem_univ k)
  exact ⟨fun k => (this k).1.le, fun k => (this k).2.le⟩

theorem openCell_open {e : ℕ} : IsOpen (openCell n d a c e) := isOpen_set_pi Set.finite_univ (fun _ _ => isOpen_Ioo)

theorem openCell_ae {e : ℕ} : openCell n d a c e =ᵐ[volume] CubeCells.cell n d a c e := by
  unfold openCell CubeCells.cell
  rw [volume_pi]
  exact Measure.univ_pi_Ioo_ae_eq_Icc

namespace CubeCells

/-- The integral over the cube of a function that is a polynomial inside every cell. -/
theorem global (hn : 1 ≤ n) (hc : 0 < c) (f : (Fin d → ℝ) → ℝ) (P : ℕ → MvPolynomial (Fin d) ℝ)
    (hf : ∀ e < n ^ d, ∀ x ∈ openCell n d a c e, f x = eval x (P e)) :
    IntegrableOn f (Set.Icc (fun _ : Fin d => a) (fun _ => a + 2 * c * n)) ∧
    ∫ x in Set.Icc (fun _ : Fin d => a) (fun _ => a + 2 * c * n), f x =
      ∑ e ∈ Finset.range (n ^ d), ∫ x in cell n d a c e, eval x (P e) := by
  have hint : IntegrableOn f (Set.Icc (fun _ : Fin d => a) (fun _ => a + 2 * c * n)) := by
    rw [← cover hn hc, integrableOn_finite_iUnion]
    intro e
    rw [← integrableOn_congr_set_ae openCell_ae]
    have h1 : IntegrableOn (fun x => eval x (P e)) (openCell n d a c e) :=
      (integrableOn_eval _ _ (P e)).mono_set openCell_sub
    exact h1.congr_fun (fun x hx => (hf e e.2 x hx).symm) openCell_open.measurableSet
  refine ⟨hint, ?_⟩
  rw [← tile hn hc f hint]
  refine Finset.sum_congr rfl fun e he => ?_
  rw [Finset.mem_range] at he
  rw [← setIntegral_congr_set openCell_ae, ← setIntegral_congr_set (openCell_ae (n := n) (a := a) (c := c) (e := e))]
  exact setIntegral_congr_fun openCell_open.measurableSet (fun x hx => hf e he x hx)

theorem node_mem (h : CubeCells n p a c mesh node) {e i : ℕ} (he : e < n ^ d) (hi : i < mesh.nodesPerElem) :
    mesh.coords (node e i) ∈ cell n d a c e := by
  have hc := h.width
  have hb : ∀ k : Fin d, -1 ≤ gridPoint d mesh.grid.value i k ∧ gridPoint d mesh.grid.value i k ≤ 1 := by
    intro k
    rw [h.grid]
    exact h.within _ (Verif.Common.digit_lt _ _ _ _ (by omega))
  constructor
  · intro k
    have := mul_le_mul_of_nonneg_left (hb k).1 hc.le
    change centre n d a c e k - c ≤ _
    rw [h.coords e he i hi]; linarith
  · intro k
    have := mul_le_mul_of_nonneg_left (hb k).2 hc.le
    change _ ≤ centre n d a c e k + c
    rw [h.coords e he i hi]; linarith

theorem nodalFunction (h : CubeCells n p a c mesh node) {u : ℕ → ℝ} {uh : (Fin d → ℝ) → ℝ} (hu : NodalFunction mesh p u uh) :
    ∃ U, CellField mesh p u U ∧ ∀ e < n ^ d, ∀ x ∈ cell n d a c e, uh x = eval x (U e) := by
  have h1 : ∀ e, ∃ P : MvPolynomial (Fin d) ℝ, e < n ^ d → (∀ k, P.degreeOf k ≤ p) ∧
      ∀ x ∈ cell n d a c e, uh x = eval x P := by
    intro e
    by_cases he : e < n ^ d
    · obtain ⟨P, h1, h2⟩ := hu.piecewise e (by rw [h.num]; exact he)
      rw [h.box he] at h2
      exact ⟨P, fun _ => ⟨h1, h2⟩⟩
    · exact ⟨0, fun h => absurd h he⟩
  choose U hU using h1
  refine ⟨U, fun e he => ?_, fun e he => (hU e he).2⟩
  rw [h.num] at he
  refine ⟨(hU e he).1, fun i hi v hv => ?_⟩
  rw [h.elem e he i hi] at hv
  have hv' : node e i = v := by exact_mod_cast hv
  rw [← hv', ← (hU e he).2 _ (h.node_mem he hi)]
  exact hu.nodal _ (h.lt e he i hi)

theorem partial_eq {U : ℕ → MvPolynomial (Fin d) ℝ} {uh : (Fin d → ℝ) → ℝ}
    (hU : ∀ e < n ^ d, ∀ x ∈ cell n d a c e, uh x = eval x (U e)) {e : ℕ} (he : e < n ^ d) {x : Fin d → ℝ}
    (hx : x ∈ openCell n d a c e) (k : Fin d) : partialDeriv k uh x = eval x (pderiv k (U e)) := by
  have h1 : uh =ᶠ[𝓝 x] fun y => eval y (U e) :=
    Filter.eventuallyEq_of_mem (openCell_open.mem_nhds hx) (fun y hy => hU e he y (openCell_sub hy))
  unfold partialDeriv
  rw [h1.lineDeriv_eq]
  exact (hasLineDerivAt_eval (U e) k x).lineDeriv

/-- Every nodal vector has a function. -/
theorem exists_nodalFunction (h : CubeCells n p a c mesh node) (u : ℕ → ℝ) : ∃ uh, NodalFunction mesh p u uh := by
  classical
  obtain ⟨U, hU⟩ := h.exists_field u
  let uh : (Fin d → ℝ) → ℝ := fun x => if hx : ∃ e < n ^ d, x ∈ cell n d a c e then eval x (U hx.choose) else 0
  have huh : ∀ e < n ^ d, ∀ x ∈ cell n d a c e, uh x = eval x (U e) := by
    intro e he x hx
    have hex : ∃ e < n ^ d, x ∈ cell n d a c e := ⟨e, he, hx⟩
    change (if hx : ∃ e < n ^ d, x ∈ cell n d a c e then eval x (U hx.choose) else 0) = _
    rw [dif_pos hex]
    exact h.continuous hU he hx _ _ hex.choose_spec.1 hex.choose_spec.2 rfl
  refine ⟨uh, fun e he => ?_, fun j hj => ?_⟩
  · have he' : e < n ^ d := by rw [← h.num]; exact he
    refine ⟨U e, (hU e he).1, fun x hx => ?_⟩
    rw [h.box he'] at hx
    exact huh e he' x hx
  · obtain ⟨e, he, i, hi, rfl⟩ := h.onto j hj
    rw [huh e he _ (h.node_mem he hi)]
    exact (hU e (by rw [h.num]; exact he)).2 i hi _ (h.elem e he i hi)

end CubeCells

end Verif.Core

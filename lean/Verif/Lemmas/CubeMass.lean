import Verif.Lemmas.LegendreSquares
import Verif.Lemmas.CubeExact
import Verif.Props.C93

/-!
# The masses of the pressure nodes of a cube are not all equal when there are at least three along an axis
-/

namespace Verif.NS

open Verif.Core Verif.Spec MeasureTheory MvPolynomial

variable {n d p over : ℕ} {a b : ℝ} {per : List ℕ} {bcs : List (String × BCType)} {cs : CubeStokes d}

/-- The pressure grid of the model. -/
theorem cubeStokes_pgrid (hcs : cubeStokes n d p over a b per bcs = .ok cs) :
    createNodes .gaussLegendre (p - 2 + 1) = some cs.pmesh.grid := by
  unfold cubeStokes at hcs
  split at hcs
  · exact absurd hcs (by simp)
  split at hcs
  · exact absurd hcs (by simp)
  split at hcs
  · exact absurd hcs (by simp)
  rename_i pmesh _ hpm
  split at hcs
  · exact absurd hcs (by simp)
  split at hcs
  · exact absurd hcs (by simp)
  split at hcs
  · exact absurd hcs (by simp)
  split at hcs
  · exact absurd hcs (by simp)
  split at hcs
  · exact absurd hcs (by simp)
  rw [Except.ok.injEq] at hcs
  subst hcs
  exact cubeMesh_grid hpm

/-- The squares of the Gauss-Legendre nodes. -/
theorem gl_squares {N : ℕ} {grid : Nodes1D ℝ} (hg : createNodes .gaussLegendre (N + 2) = some grid) :
    ∑ j ∈ Finset.range (N + 2), at0 grid.value j ^ 2 = ((N : ℝ) + 2) * (N + 1) / (2 * N + 3) := by
  obtain ⟨l, h1, h2, h3, h4⟩ := gl_list (N + 1)
  simp only [createNodes, h1, Option.some.injEq] at hg
  subst hg
  have hinj : Function.Injective (vec l (N + 2)) := (vec_strictMono h2 h3).injective
  have := legendre_squares hinj (fun i => (h4 _).mp (by
    unfold vec
    rw [List.getD_eq_getElem _ _ (by rw [h2]; exact i.2)]
    exact List.getElem_mem _))
  rw [← this, ← Fin.sum_univ_eq_sum_range (fun j => at0 (vec l (N + 2)) j ^ 2) (N + 2)]
  refine Finset.sum_congr rfl fun i _ => ?_
  simp [at0]

/-- The test pressure of a cell: the square of the first reference coordinate, less `s`. -/
noncomputable def squareTest (c s : ℝ) (x0 : Fin d → ℝ) (k0 : Fin d) : MvPolynomial (Fin d) ℝ :=
  (C (1 / c) * (X k0 - C (x0 k0))) ^ 2 - C s

theorem squareTest_degree (c s : ℝ) (x0 : Fin d → ℝ) (k0 k : Fin d) : (squareTest c s x0 k0).degreeOf k ≤ 2 := by
  unfold squareTest
  refine (degreeOf_sub_le _ _ _).trans (max_le ?_ (by rw [degreeOf_C]; omega))
  refine (degreeOf_pow_le _ _ _).trans ?_
  have : (C (1 / c) * (X k0 - C (x0 k0)) : MvPolynomial (Fin d) ℝ).degreeOf k ≤ 1 := by
    refine (degreeOf_mul_le _ _ _).trans ?_
    rw [degreeOf_C, zero_add]
    refine (degreeOf_sub_le _ _ _).trans (max_le ?_ (by rw [degreeOf_C]; omega))
    rw [degreeOf_X]
    split <;> omega
  omega

theorem squareTest_eval {c : ℝ} (hc : c ≠ 0) (s : ℝ) (x0 x : Fin d → ℝ) (k0 : Fin d) :
    eval (fun k => c * x k + x0 k) (squareTest c s x0 k0) = x k0 ^ 2 - s := by
  unfold squareTest
  simp only [map_sub, map_pow, map_mul, eval_C, eval_X]
  field_simp
  ring

theorem squareTest_prod (s : ℝ) (x : Fin d → ℝ) (k0 : Fin d) :
    x k0 ^ 2 - s = ∏ k, (fun t : ℝ => if k = k0 then t ^ 2 - s else 1) (x k) := by
  rw [Finset.prod_eq_single k0]
  · simp
  · intro k _ hk
    simp [hk]
  · intro h
    exact absurd (Finset.mem_univ k0) h

theorem squareTest_integral {c : ℝ} (hc : 0 < c) (s : ℝ) (x0 : Fin d → ℝ) (k0 : Fin d) :
    ∫ x in Set.Icc (fun k => x0 k - c) (fun k => x0 k + c), eval x (squareTest c s x0 k0) =
      c ^ d * (2 ^ (d - 1) * (2 / 3 - 2 * s)) := by
  rw [← integral_affSub hc x0]
  congr 1
  simp only [eval_affSub]
  have h0 : (fun x : Fin d → ℝ => eval (fun k => c * x k + x0 k) (squareTest c s x0 k0)) =
      fun x => ∏ k, (fun (k : Fin d) (t : ℝ) => if k = k0 then t ^ 2 - s else 1) k (x k) := by
    funext x
    rw [squareTest_eval hc.ne', squareTest_prod s x k0]
  have hb := integral_box_prod (d := d) (lo := fun _ => (-1 : ℝ)) (hi := fun _ => 1) (fun _ => by norm_num)
    (fun (k : Fin d) (t : ℝ) => if k = k0 then t ^ 2 - s else 1)
  rw [h0]
  refine hb.trans ?_
  rw [← Finset.mul_prod_erase Finset.univ _ (Finset.mem_univ k0)]
  have h1 : ∫ t in (-1 : ℝ)..1, (fun t : ℝ => if k0 = k0 then t ^ 2 - s else 1) t = 2 / 3 - 2 * s := by
    simp only [if_true]
    rw [intervalIntegral.integral_sub (Continuous.intervalIntegrable (by fun_prop) _ _) (Continuous.intervalIntegrable (by fun_prop) _ _), integral_pow, intervalIntegral.integral_const]
    norm_num
  have h2 : ∀ k ∈ Finset.univ.erase k0, ∫ t in (-1 : ℝ)..1, (fun t : ℝ => if k = k0 then t ^ 2 - s else 1) t = 2 := by
    intro k hk
    simp only [if_neg (Finset.ne_of_mem_erase hk)]
    rw [intervalIntegral.integral_const]
    norm_num
  rw [h1, Finset.prod_congr rfl h2, Finset.prod_const, Finset.card_erase_of_mem (Finset.mem_univ k0), Finset.card_univ,
    Fintype.card_fin]
  ring

namespace CubeSEM

variable {vnode pnode : ℕ → ℕ → ℕ} {l : List ℝ}

theorem pnum (h : CubeSEM n d p a b per bcs cs vnode pnode l) (hn : 1 ≤ n) :
    cs.pmesh.numNodes = n ^ d * (p - 2 + 1) ^ d := by
  have hP := h.pcube
  have hpos : 0 < (p - 2 + 1) ^ d := by positivity
  have hpos' : 0 < n ^ d := by positivity
  have hnpe : cs.pmesh.nodesPerElem = (p - 2 + 1) ^ d := hP.npe
  apply le_antisymm
  · by_contra hlt
    push Not at hlt
    obtain ⟨e, he, i, hi, heq⟩ := hP.onto (cs.pmesh.numNodes - 1) (by omega)
    rw [h.pnodes] at heq
    rw [hnpe] at hi
    have h1 : e * (p - 2 + 1) ^ d + i < (e + 1) * (p - 2 + 1) ^ d := by rw [Nat.succ_mul]; omega
    have h2 : (e + 1) * (p - 2 + 1) ^ d ≤ n ^ d * (p - 2 + 1) ^ d := Nat.mul_le_mul_right _ he
    omega
  · have h1 := hP.lt (n ^ d - 1) (by omega) ((p - 2 + 1) ^ d - 1) (by rw [hnpe]; omega)
    rw [h.pnodes] at h1
    have h2 : (n ^ d - 1) * (p - 2 + 1) ^ d + (p - 2 + 1) ^ d = n ^ d * (p - 2 + 1) ^ d := by
      rw [← Nat.succ_mul]
      congr 1
      omega
    omega

/-- The masses of the pressure nodes are not all equal. -/
theorem mass_varies (h : CubeSEM n d p a b per bcs cs vnode pnode l) (hcs : cubeStokes n d p over a b per bcs = .ok cs)
    (hn : 1 ≤ n) (hp : 4 ≤ p) : ¬ ∃ r : ℝ, ∀ j < cs.pmesh.numNodes, cs.sem.pressureB (fun _ => 1) j = r := by
  rintro ⟨r, hr⟩
  have hP := h.pcube
  have HP := h.pressureSetup hn
  have hc := hP.width
  have hd := hP.dim
  set c := (b - a) / (2 * n) with hcd
  obtain ⟨N, rfl⟩ : ∃ N, p = N + 3 := ⟨p - 3, by omega⟩
  have hN : 1 ≤ N := by omega
  have hgrid := cubeStokes_pgrid hcs
  have hNp : N + 3 - 2 + 1 = N + 2 := by omega
  have hNpe : N + 3 - 2 = N + 1 := by omega
  rw [hNp] at hgrid
  let k0 : Fin d := ⟨0, hd⟩
  obtain ⟨s, hs⟩ : ∃ s : ℝ, s = ((N : ℝ) + 1) / (2 * N + 3) := ⟨_, rfl⟩
  let Q : ℕ → MvPolynomial (Fin d) ℝ := fun e => squareTest c s (centre n d a c e) k0
  have hQd : ∀ e < n ^ d, ∀ k, (Q e).degreeOf k ≤ N + 3 - 2 := fun e _ k =>
    (squareTest_degree c s _ k0 k).trans (by omega)
  obtain ⟨q, hq⟩ := h.pressure_field Q hQd
  -- the mass weighted sum is the integral
  have h1 : nodeDot cs.sem.numP (cs.sem.pressureB (fun _ => 1)) q =
      ∑ e ∈ Finset.range (n ^ d), ∫ x in CubeCells.cell n d a c e, eval x (Q e) := by
    have hmw : nodeDot cs.sem.numP (cs.sem.pressureB (fun _ => 1)) q =
        integrate cs.sem.pspace (scalarFn cs.sem.pspace (cs.pmesh.gather q)) := by
      have hrg : cs.pmesh.InRange := hP.inRange
      have h5 := C39_mass cs.pmesh cs.quad cs.sem.pspace HP.points hrg HP.build (fun _ => 1) q
      have hm := HP.mesh_eq
      rw [nodeDot_comm]
      unfold nodeDot StokesSEM.numP StokesSEM.pressureB
      rw [hm, h5]
      apply integrate_congr
      intro m hm' i hi
      rw [gather_one HP 1 m (by rw [← hm]; exact hm') i hi, one_mul]
    rw [hmw]
    refine hP.integrate h.pbuild h.rule h.count h.values Q (fun e he k => (squareTest_degree c s _ k0 k).trans (by omega)) _ ?_
    intro e he i hi
    refine hP.scalarFn h.pbuild ?_ hq he hi
    rintro hsame
    have := hsame
    simp only [Nodes1D.same] at this
    have h6 := h.ptype
    have h7 := h.qtype
    rw [h6, h7] at this
    simp at this
  have h2 : nodeDot cs.sem.numP (cs.sem.pressureB (fun _ => 1)) q = (n : ℝ) ^ d * (c ^ d * (2 ^ (d - 1) * (2 / 3 - 2 * s))) := by
    have h5 : ∀ e ∈ Finset.range (n ^ d), ∫ x in CubeCells.cell n d a c e, eval x (Q e) =
        c ^ d * (2 ^ (d - 1) * (2 / 3 - 2 * s)) := fun e _ => squareTest_integral hc s (centre n d a c e) k0
    rw [h1, Finset.sum_congr rfl h5, Finset.sum_const,
      Finset.card_range, nsmul_eq_mul]
    push_cast
    ring
  -- the plain sum is zero
  have h3 : ∑ j ∈ Finset.range cs.pmesh.numNodes, q j = 0 := by
    rw [h.pnum hn, hNp, sum_range_mul]
    refine Finset.sum_eq_zero fun e he => ?_
    have he' := Finset.mem_range.mp he
    have hval : ∀ i ∈ Finset.range ((N + 2) ^ d), q (e * (N + 2) ^ d + i) =
        ∏ k : Fin d, (fun j => if k = k0 then at0 cs.pmesh.grid.value j ^ 2 - s else 1) (digit (N + 2) d k i) := by
      intro i hi
      have hi' : i < cs.pmesh.nodesPerElem := by rw [hP.npe, hNp]; exact Finset.mem_range.mp hi
      have h5 := hP.sample hq he' hi'
      rw [hP.gather q he' hi', h.pnodes, hNp, eval_affSub, squareTest_eval hc.ne', squareTest_prod s _ k0] at h5
      rw [h5]
      refine Finset.prod_congr rfl fun k _ => ?_
      have h6 : digit cs.pmesh.grid.numPoints d k i = digit (N + 2) d k i := by rw [hP.points, hNp]
      unfold gridPoint
      rw [h6]
    rw [Finset.sum_congr rfl hval, Verif.Core.sum_digits (N + 2) d (by omega)
      (fun k j => if k = k0 then at0 cs.pmesh.grid.value j ^ 2 - s else 1)]
    refine Finset.prod_eq_zero (Finset.mem_univ k0) ?_
    simp only [if_true]
    rw [Finset.sum_sub_distrib, gl_squares hgrid, Finset.sum_const, Finset.card_range, hs, nsmul_eq_mul]
    push_cast
    ring
  have h4 : nodeDot cs.sem.numP (cs.sem.pressureB (fun _ => 1)) q = 0 := by
    have hnumP : cs.sem.numP = cs.pmesh.numNodes := by unfold StokesSEM.numP; rw [HP.mesh_eq]
    unfold nodeDot
    rw [hnumP, Finset.sum_congr rfl fun j hj => by rw [hr j (Finset.mem_range.mp hj)], ← Finset.mul_sum, h3, mul_zero]
  rw [h4] at h2
  have hn' : (n : ℝ) ^ d ≠ 0 := pow_ne_zero _ (by exact_mod_cast (by omega : n ≠ 0))
  have hs' : 2 / 3 - 2 * s ≠ 0 := by
    rw [hs]
    have hN' : (1 : ℝ) ≤ N := by exact_mod_cast hN
    have : (0 : ℝ) < 2 * N + 3 := by positivity
    intro h0
    field_simp at h0
    linarith
  have : (n : ℝ) ^ d * (c ^ d * (2 ^ (d - 1) * (2 / 3 - 2 * s))) ≠ 0 :=
    mul_ne_zero hn' (mul_ne_zero (pow_ne_zero _ hc.ne') (mul_ne_zero (pow_ne_zero _ two_ne_zero) hs'))
  exact this h2.symm

end CubeSEM

end Verif.NS

import Verif.Lemmas.CubeMomentum

/-!
# C118: a Stokes step on a cube without walls changes the momentum by the force alone

The momentum along an axis is the integral over the cube of the velocity component. Meshes, spaces, quadratures and masks are
built by the model from the arguments of `unit_cube_mesh` and `StokesSEM.create`.
-/

namespace Verif.NS

open Verif.Core Verif.Spec MeasureTheory MvPolynomial

variable {n d p over : ℕ} {a b : ℝ} {per : List ℕ} {bcs : List (String × BCType)} {cs : CubeStokes d}

theorem CubeSEM.mass_cube {vnode pnode : ℕ → ℕ → ℕ} {l : List ℝ} (h : CubeSEM n d p a b per bcs cs vnode pnode l) (hn : 1 ≤ n)
    (hb : CubeBCs d per bcs) {u : Vel ℝ d} {k : Fin d} {uh : (Fin d → ℝ) → ℝ} (hu : NodalFunction cs.vmesh p (fun j => u j k) uh) :
    ∑ j ∈ Finset.range cs.vmesh.numNodes, cs.sem.massDiag j k * u j k = ∫ x in cube d a b, uh x := by
  have hC := h.vcube.cells
  obtain ⟨U, hU, hUx⟩ := hC.nodalFunction hu
  have g := CubeCells.global (a := a) (c := (b - a) / (2 * n)) hn hC.width uh U
    (fun e he x hx => hUx e he x (openCell_sub hx))
  rw [← cube_eq hn] at g
  rw [g.2]
  exact h.mass_total hn hb hU

/-- The filter keeps the integral of every component over the cube, for every filter strength, with or without walls. -/
theorem C118_filter (hn : 1 ≤ n) (hd : 1 ≤ d) (hp : 3 ≤ p) (hab : a < b) (hb : CubeBCs d per bcs)
    (hcs : cubeStokes n d p over a b per bcs = .ok cs) (alpha : ℝ) (u : Vel ℝ d)
    (hu : ∀ i < cs.vmesh.numNodes, ∀ j < cs.vmesh.numNodes, SamePoint cs.vmesh a b per i j → u i = u j) :
    ∃ w, cs.sem.filter cs.low alpha u = some w ∧ ∀ k uh wh, NodalFunction cs.vmesh p (fun j => u j k) uh →
      NodalFunction cs.vmesh p (fun j => w j k) wh → ∫ x in cube d a b, wh x = ∫ x in cube d a b, uh x := by
  obtain ⟨vnode, pnode, l, h⟩ := cubeStokes_of hn hd hp hab hb hcs
  obtain ⟨_, _, hvm, _⟩ := (h.setup hn hb).fields
  have F : FilterSetup cs.sem.vspace.mesh cs.low := by rw [hvm]; exact h.filterSetup hp
  obtain ⟨w, hw, _⟩ := filter_eq (sem := cs.sem) F alpha u
  refine ⟨w, hw, fun k uh wh huh hwh => ?_⟩
  rw [← h.mass_cube hn hb huh, ← h.mass_cube hn hb hwh]
  exact h.filter_total hcs hn hp hab hb (fun i hi j hj hs => congrFun (hu i hi j hj ((h.same_iff hi hj).mp hs)) k) hw

/-- The total of the covector of a force is its integral over the cube. -/
theorem C118_force (hn : 1 ≤ n) (hd : 1 ≤ d) (hp : 3 ≤ p) (hab : a < b)
    (hcs : cubeStokes n d p over a b per [] = .ok cs) (g : Vel ℝ d) (k : Fin d) {gh : (Fin d → ℝ) → ℝ}
    (hg : NodalFunction cs.vmesh p (fun j => g j k) gh) :
    ∑ j ∈ Finset.range cs.vmesh.numNodes, cs.sem.B g j k = ∫ x in cube d a b, gh x := by
  have hb : CubeBCs d per [] := Or.inr rfl
  obtain ⟨vnode, pnode, l, h⟩ := cubeStokes_of hn hd hp hab hb hcs
  rw [← h.mass_cube hn hb hg, ← h.unitVel_dot hn hb, B_dot (h.setup hn hb).valid (VSpace_masked (h.unitVel_mem hn k).1),
    h.unitVel_mass hn hb]

/-- A step balances the momentum along every axis: the backward differences of the momenta, divided by the step size, are the
total force. Viscosity, pressure, pressure correction, filter and preconditioner do not matter, nor do the iterations of the
pressure solve; the iterations of the velocity solve contribute at most the root of the number of nodes times the residual
reported by the step, which is within its tolerances. -/
theorem C118_step (hn : 1 ≤ n) (hd : 1 ≤ d) (hp : 3 ≤ p) (hab : a < b)
    (hcs : cubeStokes n d p over a b per [] = .ok cs) {ps : List (ℕ → ℝ)} {f : Vel ℝ d} {mu dt alpha tol atol : ℝ}
    {timeOrder : ℕ} {precond : Option ((ℕ → ℝ) → ℕ → ℝ)} {project : Bool} {st : StokesSEM.Step ℝ d}
    (U : Fin timeOrder → Vel ℝ d) {bd : Fin (timeOrder + 1) → ℝ} (hbd : bdfkCoeffs timeOrder = some bd) (hmu : 0 ≤ mu)
    (hdt : 0 < dt) (hf : ∀ j, cs.vmesh.numNodes ≤ j → f j = 0)
    (hst : cs.sem.oneStep cs.low (List.ofFn U) ps f mu dt timeOrder alpha none precond project tol atol = .ok st) :
    (∃ z, st.uResidual ≤ max (tol ^ 2 * z) (atol ^ 2)) ∧
    ∀ (k : Fin d) (Uh : Fin timeOrder → (Fin d → ℝ) → ℝ) (uh : (Fin d → ℝ) → ℝ),
      (∀ i, NodalFunction cs.vmesh p (fun j => U i j k) (Uh i)) → NodalFunction cs.vmesh p (fun j => st.u j k) uh →
      |((∑ i, bd i.castSucc * ∫ x in cube d a b, Uh i x) + bd (Fin.last timeOrder) * ∫ x in cube d a b, uh x) / dt -
        ∑ j ∈ Finset.range cs.vmesh.numNodes, f j k| ≤ Real.sqrt (cs.vmesh.numNodes * st.uResidual) := by
  have hb : CubeBCs d per [] := Or.inr rfl
  obtain ⟨vnode, pnode, l, h⟩ := cubeStokes_of hn hd hp hab hb hcs
  have key := h.step_total hcs hn hp hab U hbd hmu hdt hf hst
  refine ⟨(key ⟨0, hd⟩).2, fun k Uh uh hU hu => ?_⟩
  have g := (key k).1
  simp only [h.mass_cube hn hb (hU _), h.mass_cube hn hb hu] at g
  refine le_of_mul_le_mul_left ?_ hdt
  refine le_trans (le_of_eq ?_) g
  rw [← abs_of_pos hdt, ← abs_mul, abs_of_pos hdt]
  congr 1
  rw [mul_sub, mul_div_cancel₀ _ hdt.ne']

/-- Without a force a converged step keeps the momentum that its history agrees on. -/
theorem C118_conserved (hn : 1 ≤ n) (hd : 1 ≤ d) (hp : 3 ≤ p) (hab : a < b)
    (hcs : cubeStokes n d p over a b per [] = .ok cs) {ps : List (ℕ → ℝ)} {mu dt alpha : ℝ}
    {timeOrder : ℕ} {precond : Option ((ℕ → ℝ) → ℕ → ℝ)} {project : Bool} {st : StokesSEM.Step ℝ d}
    (U : Fin timeOrder → Vel ℝ d) (hmu : 0 ≤ mu) (hdt : 0 < dt)
    (hst : cs.sem.oneStep cs.low (List.ofFn U) ps 0 mu dt timeOrder alpha none precond project 0 0 = .ok st)
    (k : Fin d) (M : ℝ) {Uh : Fin timeOrder → (Fin d → ℝ) → ℝ} {uh : (Fin d → ℝ) → ℝ}
    (hU : ∀ i, NodalFunction cs.vmesh p (fun j => U i j k) (Uh i)) (hM : ∀ i, ∫ x in cube d a b, Uh i x = M)
    (hu : NodalFunction cs.vmesh p (fun j => st.u j k) uh) : ∫ x in cube d a b, uh x = M := by
  obtain ⟨_, _, bd, _, _, _, _, hbd, _⟩ := oneStep_ok hst
  obtain ⟨⟨z, hz⟩, key⟩ := C118_step hn hd hp hab hcs U hbd hmu hdt (fun _ _ => rfl) hst
  have g := key k Uh uh hU hu
  have hsum := C37_sum_zero timeOrder bd hbd
  have hlead := (C37_leading timeOrder bd hbd).2
  rw [Fin.sum_univ_castSucc] at hsum
  have hz0 : st.uResidual ≤ 0 := by simpa using hz
  rw [Real.sqrt_eq_zero_of_nonpos (mul_nonpos_of_nonneg_of_nonpos (Nat.cast_nonneg _) hz0)] at g
  have g0 := abs_nonpos_iff.mp g
  simp only [hM, Pi.zero_apply, Finset.sum_const_zero, sub_zero, ← Finset.sum_mul] at g0
  rw [div_eq_zero_iff, or_iff_left hdt.ne', show ∑ i : Fin timeOrder, bd i.castSucc = - bd (Fin.last timeOrder) by linarith] at g0
  have : bd (Fin.last timeOrder) * (∫ x in cube d a b, uh x) = bd (Fin.last timeOrder) * M := by linarith
  exact mul_left_cancel₀ hlead.ne' this

/-- A nontrivial case: four by four cells of order five on the periodic square, third order in time, with a force, viscosity,
filter and null space projection. -/
example : ∃ cs : CubeStokes 2, cubeStokes 4 2 5 2 0 1 [0, 1] [] = .ok cs ∧
    ∃ st, cs.sem.oneStep cs.low (List.ofFn fun (i : Fin 3) j _ => if j = 7 then (i : ℝ) else 1) [fun _ => 0, fun _ => 1]
      (fun j _ => if j < cs.vmesh.numNodes then 1 else 0) (1/10) (1/100) 3 (1/20) none none true 0 0 = .ok st := by
  have hb : CubeBCs 2 [0, 1] [] := Or.inr rfl
  obtain ⟨cs, hcs⟩ := C92_create (over := 2) (n := 4) (d := 2) (p := 5) (a := 0) (b := 1) (by norm_num) (by norm_num)
    (by norm_num) (by norm_num) [0, 1] hb
  obtain ⟨st, hst, _⟩ := C92_step (us := List.ofFn fun (i : Fin 3) j _ => if j = 7 then (i : ℝ) else 1)
    (ps := [fun _ => 0, fun _ => 1]) (f := fun j _ => if j < cs.vmesh.numNodes then 1 else 0) (mu := 1/10) (dt := 1/100)
    (alpha := 1/20) (timeOrder := 3) (project := true) (by norm_num) (by norm_num) (by norm_num) (by norm_num) hb hcs
    (fun _ => Or.inr (fun k => by fin_cases k <;> simp)) (fun h => absurd rfl h) (fun j hj => by funext k; exact if_neg (by omega))
    (by norm_num) (by norm_num) (by norm_num) (by simp)
  exact ⟨cs, hcs, st, hst⟩

end Verif.NS

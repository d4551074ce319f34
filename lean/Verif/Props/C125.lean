import Verif.Props.C121
import Verif.Props.C92
import Verif.Lemmas.StokesPotential
import Verif.Lemmas.CubePotential

/-!
# C125: forces that are gradients

A force that is the gradient of a potential should only change the pressure. It does if the pressures that are passed in
contain it; otherwise it changes the velocity, by at most a multiple of `mu dt^2`.
-/

namespace Verif.NS

open Verif.Core Verif.Linalg Verif.Spec MvPolynomial

section general

variable {K : Type*} [Field K] [LinearOrder K] {d : ℕ}
  {vmesh pmesh : Mesh K d} {quad overQuad : Quadrature1D K} {masks : List (String × (ℕ → Bool))}
  {bcs : List (String × BCType)} {sem : StokesSEM K d} {low : Nodes1D K} {us : List (Vel K d)} {ps : List (ℕ → K)}
  {f : Vel K d} {mu dt alpha tol atol : K} {timeOrder : ℕ} {ub : Option (Vel K d)} {precond : Option ((ℕ → K) → ℕ → K)}
  {project : Bool}

/-- If a potential is added to all pressures and its gradient to the force, then the step returns the same velocity, counts
and residuals, and the potential is added to the pressure; the step fails in the same cases. For every filter, boundary value,
preconditioner and tolerance. -/
theorem C125_shift [IsStrictOrderedRing K] (H : StokesSetup vmesh pmesh quad overQuad masks bcs sem) (φ : ℕ → K) :
    sem.oneStep low us (ps.map fun q => q + φ) (f - sem.Dt φ) mu dt timeOrder alpha ub precond project tol atol =
      (sem.oneStep low us ps f mu dt timeOrder alpha ub precond project tol atol).map fun st => { st with p := st.p + φ } :=
  oneStep_shift H.valid.pwf φ

/-- A fluid at rest stays at rest if the pressures balance the force, for every tolerance: no iteration is made. -/
theorem C125_rest [IsStrictOrderedRing K] (S : StepSetup vmesh pmesh quad overQuad masks bcs sem low alpha project)
    (hdt : 0 < dt) (htime : 1 ≤ timeOrder) (φ : ℕ → K) (hus : ∀ u ∈ us, u = 0) (hps : ∀ q ∈ ps, q = φ) (hlen : 2 ≤ ps.length) :
    ∃ st, sem.oneStep low us ps (-sem.Dt φ) mu dt timeOrder alpha none precond project tol atol = .ok st ∧ st.u = 0 ∧ st.p = φ ∧
      st.uIterations = 0 ∧ st.pIterations = 0 := by
  have H := S.setup
  have hv := H.valid
  obtain ⟨_, _, hvm, _⟩ := H.fields
  have F : FilterSetup sem.vspace.mesh low := by rw [hvm]; exact S.filter
  obtain ⟨c, hc, _⟩ := C36_exact (K := K) 1 le_rfl
  obtain ⟨b, hb, _⟩ := C37_exact (K := K) timeOrder htime
  have hbeta := (C37_leading timeOrder b hb).2
  obtain ⟨l, p2, p1, rfl⟩ : ∃ l p2 p1, ps = l ++ [p2, p1] := by
    rcases hr : ps.reverse with _ | ⟨p1, _ | ⟨p2, l⟩⟩
    · rw [← List.length_reverse, hr] at hlen; simp at hlen
    · rw [← List.length_reverse, hr] at hlen; simp at hlen
    · refine ⟨l.reverse, p2, p1, ?_⟩
      rw [← List.reverse_reverse ps, hr]
      simp
  have e1 := hps p1 (by simp)
  have e2 := hps p2 (by simp)
  have hext := extrapolate_eq hc l p2 p1
  have e3 : (fun j => 2 * p1 j - p2 j) = φ := by
    funext j
    rw [e1, e2]
    ring
  rw [e3] at hext
  have hhist : StokesSEM.history (List.ofFn (fun i : Fin timeOrder => b i.castSucc)) us = 0 := by
    funext j i
    unfold StokesSEM.history
    refine List.sum_eq_zero fun x hx => ?_
    obtain ⟨e, he, rfl⟩ := List.mem_map.mp hx
    rw [hus e.2 (List.of_mem_zip he).2]
    simp
  have hB0 : sem.B (fun p k => (1 / dt) * (0 : Vel K d) p k) = 0 := by
    funext j i
    simp [StokesSEM.B]
  have hrhs : -sem.Dt φ + sem.Dt φ - sem.B (fun p k => (1 / dt) * StokesSEM.history (List.ofFn (fun i : Fin timeOrder => b i.castSucc)) us p k) = 0 := by
    rw [hhist, hB0, neg_add_cancel, sub_zero]
  have hH0 : sem.H mu dt (b (Fin.last timeOrder)) 0 = 0 := by
    have := (HLin sem hv.vwf mu dt (b (Fin.last timeOrder))).map_zero
    rwa [HLin_apply] at this
  have hcg1 := cg_zero sem.vDot (sem.H mu dt (b (Fin.last timeOrder))) (vExchange sem.vspace.mesh) hH0
    (fun x => by simp [StokesSEM.vDot]) tol atol (10 * (sem.numV * d))
  obtain ⟨L, hL⟩ := filter_linear (sem := sem) F alpha
  have hfil : sem.filter low alpha 0 = some 0 := by rw [hL, map_zero]
  have hD0 : sem.D 0 = 0 := (DLin sem).map_zero
  have hE0 : sem.E dt (b (Fin.last timeOrder)) 0 = 0 := (ELin sem hv.pwf dt (b (Fin.last timeOrder))).map_zero
  have hcg2 := cg_zero (nodeDot sem.numP) (sem.E dt (b (Fin.last timeOrder)))
    (sem.precondFn (StokesSEM.choosePrecond precond project)) hE0 (fun x => by simp [nodeDot]) tol atol (10 * sem.numP)
  have hnan : ¬ (¬ sem.finite ∨ dt = 0 ∨ b (Fin.last timeOrder) = 0 ∨
      ((StokesSEM.choosePrecond precond project).isProject = true ∧
        nodeDot sem.numP (fun _ => 1) (sem.pressureB (fun _ => 1)) = 0)) := by
    have hp : ¬ ((StokesSEM.choosePrecond precond project).isProject = true ∧
        nodeDot sem.numP (fun _ => 1) (sem.pressureB (fun _ => 1)) = 0) := by
      rcases precond with _ | M
      · cases hproj : project with
        | false => simp [StokesSEM.choosePrecond, StokesSEM.PPrecond.isProject]
        | true =>
          obtain ⟨HP, _⟩ := S.pressure hproj
          have e : integrate sem.pspace (scalarFn sem.pspace (pmesh.gather (fun _ => (1 : K)))) = integrate sem.pspace (fun _ _ => 1) := by
            apply integrate_congr
            intro m hm q hq
            exact gather_one HP 1 m (by rw [← HP.mesh_eq]; exact hm) q hq
          rw [mean_eq HP, e]
          exact fun h => HP.volume h.2
      · simp [StokesSEM.choosePrecond, StokesSEM.PPrecond.isProject]
    push Not
    exact ⟨H.finite, hdt.ne', hbeta.ne', fun h h' => hp ⟨h, h'⟩⟩
  have hQ0 : sem.Q dt (b (Fin.last timeOrder)) (sem.Dt 0) = 0 :=
    ((QLin sem dt (b (Fin.last timeOrder))).comp (DtLin sem hv.pwf)).map_zero
  unfold StokesSEM.oneStep
  simp only [hc, hext, hb, if_neg hnan, hrhs, hcg1, hfil, hD0, neg_zero, hcg2, hQ0]
  exact ⟨_, rfl, by simp, by simp, rfl, rfl⟩

end general

section real

variable {d : ℕ} {sem : StokesSEM ℝ d}
  {vmesh pmesh : Mesh ℝ d} {quad overQuad : Quadrature1D ℝ} {masks : List (String × (ℕ → Bool))}
  {bcs : List (String × BCType)} {low : Nodes1D ℝ} {project : Bool}

theorem FreeField.of_mem (H : StokesSetup vmesh pmesh quad overQuad masks bcs sem) {v : Vel ℝ d} (h : v ∈ TSpace sem) :
    FreeField vmesh masks bcs v := by
  obtain ⟨_, _, hvm, _⟩ := H.fields
  have hV := (H.mem_VSpace v).mp h.1
  exact ⟨hV.1, hV.2, fun i hi j hj hs => funext fun k =>
    h.2 k i (by rw [hvm]; exact hi) j (by rw [hvm]; exact hj) (by rw [hvm]; exact hs)⟩

theorem kinetic_norm (H : StokesSetup vmesh pmesh quad overQuad masks bcs sem) {v : Vel ℝ d} (h : v ∈ TSpace sem) :
    kinetic sem vmesh v = ‖massCoord sem v‖ ^ 2 := by
  obtain ⟨_, _, hvm, _⟩ := H.fields
  rw [← real_inner_self_eq_norm_sq, massCoord_inner H.massPos' h.1 H.mask01, B_dot H.valid (VSpace_masked h.1), kinetic_eq H]
  unfold StokesSEM.numV
  rw [hvm]

/-- Missing: the velocity can change (`C125_violated`). With solves to zero tolerance, without the filter: two steps from the
same histories, whose forces differ by the gradient of a potential, return velocities whose difference has kinetic energy at
most a constant times `(mu dt^2)^2`; the constant does not depend on the viscosity, the time step, the histories and the
force. Without viscosity the velocities agree. -/
theorem C125_partial (S : StepSetup vmesh pmesh quad overQuad masks bcs sem low 0 project) {k : ℕ} (hk : 1 ≤ k) (φ : ℕ → ℝ) :
    ∃ C : ℝ, 0 ≤ C ∧ ∀ {mu dt : ℝ}, 0 ≤ mu → 0 < dt → ∀ (U : Fin k → Vel ℝ d), (∀ i, FreeField vmesh masks bcs (U i)) →
      ∀ (older : List (ℕ → ℝ)) (p2 p1 : ℕ → ℝ) (f : Vel ℝ d), (∀ j, DirichletNode masks bcs j → f j = 0) →
      (∀ j, vmesh.numNodes ≤ j → f j = 0) →
      ∃ st1 st2, sem.oneStep low (List.ofFn U) (older ++ [p2, p1]) f mu dt k 0 none none project 0 0 = .ok st1 ∧
        sem.oneStep low (List.ofFn U) (older ++ [p2, p1]) (f - sem.Dt φ) mu dt k 0 none none project 0 0 = .ok st2 ∧
        kinetic sem vmesh (st2.u - st1.u) ≤ C * (mu * dt ^ 2) ^ 2 ∧ (mu = 0 → st2.u = st1.u) := by
  have H := S.setup
  have hv := H.valid
  obtain ⟨b, hb, _⟩ := C37_exact (K := ℝ) k hk
  have hbeta := (C37_leading k b hb).2
  obtain ⟨L, hL0, hL⟩ := visc_bound H
  obtain ⟨c, hc⟩ : ∃ c, c = L * ‖massCoord sem (sem.Q 1 1 (sem.Dt φ))‖ / b (Fin.last k) ^ 2 := ⟨_, rfl⟩
  refine ⟨c ^ 2, sq_nonneg _, fun {mu dt} hmu hdt U hU older p2 p1 f hf hf' => ?_⟩
  obtain ⟨st1, st2, h1, h2, hT, hD, x, π, hx, h3, h4⟩ := potential_diff S hmu hdt hk hb (fun i => (hU i).mem H) older p2 p1
    ((H.mem_VSpace f).mpr ⟨hf, hf'⟩) ((VSpace sem).neg_mem (Dt_mem φ)) (q := φ) (fun v _ => by
      have := vDot_sub (sem := sem) v 0 (sem.Dt φ)
      rw [zero_sub] at this
      rw [this]
      simp [StokesSEM.vDot])
  rw [← sub_eq_add_neg] at h2
  have h5 := potential_bound H (div_pos hdt hbeta).le hmu hL0 hL hT hD hx h3 h4
  refine ⟨st1, st2, h1, h2, ?_, fun h0 => ?_⟩
  · rw [kinetic_norm H hT, ← mul_pow]
    refine pow_le_pow_left₀ (norm_nonneg _) (h5.trans_eq ?_) 2
    rw [hc]
    field_simp
  · rw [h0, zero_mul, zero_mul] at h5
    have h6 := norm_le_zero_iff.mp h5
    have h7 := massCoordInv_apply H.massPos' (fun j hj => hT.1 j (Or.inl hj))
    rw [h6, map_zero] at h7
    exact (sub_eq_zero.mp h7.symm)

end real

section cube

variable {n p over k : ℕ} {a b : ℝ} {cs : CubeStokes 2}

/-- False of the code: on every square with walls there is a polynomial `Q` such that adding the load of its gradient to the
force changes the velocity, whatever the histories and the force are, as long as `mu dt` is below some bound. -/
theorem C125_violated (hn : 1 ≤ n) (hp : 7 ≤ p) (hab : a < b) {project : Bool}
    (hcs : cubeStokes n 2 p over a b [] [("boundary", .dirichlet)] = .ok cs) (hk : 1 ≤ k) :
    ∃ (Q : MvPolynomial (Fin 2) ℝ) (s : ℝ), 0 < s ∧ ∀ {mu dt : ℝ}, 0 < mu → 0 < dt → mu * dt < s →
      ∀ (U : Fin k → Vel ℝ 2), (∀ i, FreeField cs.vmesh cs.masks [("boundary", .dirichlet)] (U i)) →
      ∀ (older : List (ℕ → ℝ)) (p2 p1 : ℕ → ℝ) (f : Vel ℝ 2),
      (∀ j, DirichletNode cs.masks [("boundary", .dirichlet)] j → f j = 0) → (∀ j, cs.vmesh.numNodes ≤ j → f j = 0) →
      ∃ st1 st2, cs.sem.oneStep cs.low (List.ofFn U) (older ++ [p2, p1]) f mu dt k 0 none none project 0 0 = .ok st1 ∧
        cs.sem.oneStep cs.low (List.ofFn U) (older ++ [p2, p1])
          (f + cs.sem.B fun j i => eval (cs.vmesh.coords j) (pderiv i Q)) mu dt k 0 none none project 0 0 = .ok st2 ∧
        st1.u ≠ st2.u := by
  have hb2 : CubeBCs 2 [] [("boundary", .dirichlet)] := Or.inl ⟨rfl, 0, by simp⟩
  obtain ⟨vnode, pnode, l, h⟩ := cubeStokes_of hn (by norm_num) (by omega) hab hb2 hcs
  have S : StepSetup cs.vmesh cs.pmesh cs.quad cs.overQuad cs.masks [("boundary", .dirichlet)] cs.sem cs.low 0 project :=
    h.stepSetup hn (by omega) hab hb2 0 project (fun _ => Or.inl (by simp))
  have H := S.setup
  have hv := H.valid
  obtain ⟨_, _, hvm, _⟩ := H.fields
  obtain ⟨z, hz, y, hy, q, hDz, hzy, hpos, hq⟩ := h.exists_vortex hn hp hab
  obtain ⟨β, hβ, _⟩ := C37_exact (K := ℝ) k hk
  have hbeta := (C37_leading k β hβ).2
  obtain ⟨L, hL0, hL⟩ := visc_bound H
  obtain ⟨Q, hQ⟩ : ∃ Q, Q = vortexQ ((a + b) / 2) ((b - a) / 2) := ⟨_, rfl⟩
  rw [← hQ] at hq
  obtain ⟨M, hM⟩ : ∃ M, M = ‖massCoord cs.sem y‖ * (L * ‖massCoord cs.sem (cs.sem.Q 1 1 (cs.sem.Dt q))‖) := ⟨_, rfl⟩
  have hM0 : 0 ≤ M := by rw [hM]; positivity
  refine ⟨Q, β (Fin.last k) * cs.sem.vDot y (cs.sem.Dt q) / (M + 1), by positivity,
    fun {mu dt} hmu hdt hsmall U hU older p2 p1 f hf hf' => ?_⟩
  have hg : (cs.sem.B fun j i => eval (cs.vmesh.coords j) (pderiv i Q)) ∈ VSpace cs.sem := B_mem H.massOutside
  have hgq : ∀ v ∈ TSpace cs.sem, cs.sem.vDot v (cs.sem.B fun j i => eval (cs.vmesh.coords j) (pderiv i Q)) = -cs.sem.vDot v (cs.sem.Dt q) := by
    intro v hv'
    have hw := h.weak hn (by omega) hb2 hv' (mu := 0) (U := 0) (Q := Q) (q := q) (fun k i => by simp)
      (fun i => by rw [hQ]; exact (vortexQ_degree _ _ i).trans (by omega)) hq (fun i hi => by simp at hi) (fun hE => by simp at hE)
    rw [zero_mul, zero_sub] at hw
    rw [hw, B_dot hv (VSpace_masked hv'.1), B_dot hv (VSpace_masked hv'.1)]
    refine Finset.sum_congr rfl fun j hj => Finset.sum_congr rfl fun i _ => ?_
    rw [Finset.mem_range] at hj
    unfold nodal
    rw [if_pos (by unfold StokesSEM.numV at hj; rwa [hvm] at hj)]
    simp
  obtain ⟨st1, st2, h1, h2, hT, hD, x, π, hx, h3, h4⟩ := potential_diff S hmu.le hdt hk hβ (fun i => (hU i).mem H) older p2 p1
    ((H.mem_VSpace f).mpr ⟨hf, hf'⟩) hg hgq
  refine ⟨st1, st2, h1, h2, fun he => ?_⟩
  rw [he, sub_self, zero_sub] at h3
  have hs : 0 < dt / β (Fin.last k) := div_pos hdt hbeta
  obtain ⟨_, h6⟩ := potential_vortex H hs hmu hz hDz hy hzy hx h3 h4
  have h7 := potential_star H hs.le hmu.le hx h4
  have h8 := hL x fun j hj => hx.1 j (Or.inl hj)
  rw [← massCoord_inner H.massPos' hy.1 H.mask01] at h6
  have h9 := neg_le_of_abs_le (abs_real_inner_le_norm (massCoord cs.sem y) (massCoord cs.sem (cs.sem.Q 1 1 (cs.sem.A x))))
  have h10 : ‖massCoord cs.sem y‖ * ‖massCoord cs.sem (cs.sem.Q 1 1 (cs.sem.A x))‖ ≤ dt / β (Fin.last k) * M := by
    refine (mul_le_mul_of_nonneg_left (h8.trans (mul_le_mul_of_nonneg_left h7 hL0)) (norm_nonneg _)).trans_eq ?_
    rw [hM]
    ring
  have h11 : cs.sem.vDot y (cs.sem.Dt q) ≤ mu * (dt / β (Fin.last k) * M) := by
    have h12 := mul_le_mul_of_nonneg_left (h9.trans' (neg_le_neg h10)) hmu.le
    linarith
  rw [lt_div_iff₀ (by linarith)] at hsmall
  have h13 : mu * (dt / β (Fin.last k) * M) = mu * dt * M / β (Fin.last k) := by ring
  rw [h13, le_div_iff₀ hbeta] at h11
  have h14 : 0 < mu * dt := mul_pos hmu hdt
  linarith

/-- Nor does a smaller time step or another viscosity help: for all of them there is a potential that changes the velocity. -/
theorem C125_violated_every (hn : 1 ≤ n) (hp : 7 ≤ p) (hab : a < b) {project : Bool}
    (hcs : cubeStokes n 2 p over a b [] [("boundary", .dirichlet)] = .ok cs) (hk : 1 ≤ k) {mu dt : ℝ} (hmu : 0 < mu) (hdt : 0 < dt) :
    ∃ φ : ℕ → ℝ, ∀ (U : Fin k → Vel ℝ 2), (∀ i, FreeField cs.vmesh cs.masks [("boundary", .dirichlet)] (U i)) →
      ∀ (older : List (ℕ → ℝ)) (p2 p1 : ℕ → ℝ) (f : Vel ℝ 2),
      (∀ j, DirichletNode cs.masks [("boundary", .dirichlet)] j → f j = 0) → (∀ j, cs.vmesh.numNodes ≤ j → f j = 0) →
      ∃ st1 st2, cs.sem.oneStep cs.low (List.ofFn U) (older ++ [p2, p1]) f mu dt k 0 none none project 0 0 = .ok st1 ∧
        cs.sem.oneStep cs.low (List.ofFn U) (older ++ [p2, p1]) (f + cs.sem.Dt φ) mu dt k 0 none none project 0 0 = .ok st2 ∧
        st1.u ≠ st2.u := by
  have hb2 : CubeBCs 2 [] [("boundary", .dirichlet)] := Or.inl ⟨rfl, 0, by simp⟩
  obtain ⟨vnode, pnode, l, h⟩ := cubeStokes_of hn (by norm_num) (by omega) hab hb2 hcs
  have S : StepSetup cs.vmesh cs.pmesh cs.quad cs.overQuad cs.masks [("boundary", .dirichlet)] cs.sem cs.low 0 project :=
    h.stepSetup hn (by omega) hab hb2 0 project (fun _ => Or.inl (by simp))
  have H := S.setup
  have hv := H.valid
  obtain ⟨z, hz, y, hy, q, hDz, hzy, hpos, hq⟩ := h.exists_vortex hn hp hab
  obtain ⟨β, hβ, _⟩ := C37_exact (K := ℝ) k hk
  have hbeta := (C37_leading k β hβ).2
  have hs : 0 < dt / β (Fin.last k) := div_pos hdt hbeta
  by_contra hcon
  push Not at hcon
  have hall : ∀ q : ℕ → ℝ, ∃ π : ℕ → ℝ, -((dt / β (Fin.last k)) • cs.sem.Q 1 1 (cs.sem.Dt π)) +
      (dt / β (Fin.last k) * mu) • cs.sem.Q 1 1 (cs.sem.A (-((dt / β (Fin.last k)) • cs.sem.Q 1 1 (cs.sem.Dt π)))) =
      -((dt / β (Fin.last k)) • cs.sem.Q 1 1 (cs.sem.Dt q)) := by
    intro q
    obtain ⟨U, hU, older, p2, p1, f, hf, hf', hno⟩ := hcon (-q)
    have e0 : cs.sem.Dt (-q) = -cs.sem.Dt q := (DtLin cs.sem hv.pwf).map_neg q
    obtain ⟨st1, st2, h1, h2, hT, hD, x, π, hx, h3, h4⟩ := potential_diff S hmu.le hdt hk hβ (fun i => (hU i).mem H) older p2 p1
      ((H.mem_VSpace f).mpr ⟨hf, hf'⟩) (Dt_mem (-q)) (q := q) (fun v _ => by
        have := vDot_sub (sem := cs.sem) v 0 (cs.sem.Dt q)
        rw [zero_sub] at this
        rw [e0, this]
        simp [StokesSEM.vDot])
    have he := hno st1 st2 h1 h2
    rw [he, sub_self, zero_sub] at h3
    exact ⟨π, by rw [← h3]; exact h4⟩
  obtain ⟨π, hπ⟩ := potential_all H hs hmu hall q
  have hx := Q_mem hv 1 1 (Dt_mem (sem := cs.sem) q)
  have h1 : cs.sem.vDot z (cs.sem.B (cs.sem.Q 1 1 (cs.sem.A (cs.sem.Q 1 1 (cs.sem.Dt q))))) = 0 := by
    rw [hπ, vDot_B_Q H.finite H.mask01 hz, ← D_Dt_adjoint hv z (VSpace_masked hz.1), hDz]
    simp [nodeDot]
  rw [vDot_B_Q H.finite H.mask01 hz, A_dot hv (VSpace_masked hz.1), vStiffForm_comm, ← A_dot hv (VSpace_masked hx.1), hzy _ hx,
    neg_eq_zero, ← massCoord_inner H.massPos' hx.1 H.mask01, real_inner_comm, massCoord_inner H.massPos' hy.1 H.mask01,
    vDot_B_Q H.finite H.mask01 hy] at h1
  exact hpos.ne' h1

/-- A square with walls and elements of order seven, a fluid at rest and no pressure: the gradient drives a flow, while with the
pressure in place nothing moves. -/
example : ∃ (cs : CubeStokes 2) (Q : MvPolynomial (Fin 2) ℝ) (s : ℝ), cubeStokes 4 2 7 1 0 1 [] [("boundary", .dirichlet)] = .ok cs ∧ 0 < s ∧
    ∀ mu dt : ℝ, 0 < mu → 0 < dt → mu * dt < s → ∃ st1 st2,
      cs.sem.oneStep cs.low [0, 0] [0, 0] 0 mu dt 2 0 none none true 0 0 = .ok st1 ∧ st1.u = 0 ∧
      cs.sem.oneStep cs.low [0, 0] [0, 0] (cs.sem.B fun j i => eval (cs.vmesh.coords j) (pderiv i Q)) mu dt 2 0 none none true 0 0 =
        .ok st2 ∧ st2.u ≠ 0 := by
  have hb : CubeBCs 2 [] [("boundary", .dirichlet)] := Or.inl ⟨rfl, 0, by simp⟩
  obtain ⟨cs, hcs⟩ := C92_create (over := 1) (n := 4) (d := 2) (p := 7) (a := 0) (b := 1) (by norm_num) (by norm_num)
    (by norm_num) (by norm_num) [] hb
  obtain ⟨Q, s, hs, h⟩ := C125_violated (k := 2) (project := true) (by norm_num) (by norm_num) (by norm_num) hcs (by norm_num)
  obtain ⟨vnode, pnode, l, hC⟩ := cubeStokes_of (by norm_num) (by norm_num) (by norm_num) (by norm_num) hb hcs
  have S : StepSetup cs.vmesh cs.pmesh cs.quad cs.overQuad cs.masks [("boundary", .dirichlet)] cs.sem cs.low 0 true :=
    hC.stepSetup (by norm_num) (by norm_num) (by norm_num) hb 0 true (fun _ => Or.inl (by simp))
  refine ⟨cs, Q, s, hcs, hs, fun mu dt hmu hdt hlt => ?_⟩
  obtain ⟨st1, st2, h1, h2, h3⟩ := h hmu hdt hlt (fun _ => 0) (fun _ => FreeField.of_mem S.setup (TSpace cs.sem).zero_mem) [] 0 0 0
    (fun _ _ => rfl) (fun _ _ => rfl)
  obtain ⟨st0, h4, h5, _⟩ := C125_rest (us := [0, 0]) (ps := [0, 0]) (mu := mu) (tol := 0) (atol := 0) (precond := none) S hdt
    (by norm_num : 1 ≤ 2) 0 (by simp) (by simp) (by norm_num)
  have e0 : cs.sem.Dt 0 = 0 := (DtLin cs.sem S.setup.valid.pwf).map_zero
  rw [e0, neg_zero] at h4
  have hU : List.ofFn (fun _ : Fin 2 => (0 : Vel ℝ 2)) = [0, 0] := rfl
  rw [hU, List.nil_append] at h1 h2
  rw [h4, Except.ok.injEq] at h1
  subst h1
  rw [zero_add] at h2
  exact ⟨st0, st2, h4, h5, h2, fun he => h3 (by rw [h5, he])⟩

/-- The same square: the setup of `C125_shift` and of `C125_partial`. -/
example : ∃ cs : CubeStokes 2, cubeStokes 4 2 7 1 0 1 [] [("boundary", .dirichlet)] = .ok cs ∧
    StokesSetup cs.vmesh cs.pmesh cs.quad cs.overQuad cs.masks [("boundary", .dirichlet)] cs.sem ∧
    StepSetup cs.vmesh cs.pmesh cs.quad cs.overQuad cs.masks [("boundary", .dirichlet)] cs.sem cs.low 0 true := by
  have hb : CubeBCs 2 [] [("boundary", .dirichlet)] := Or.inl ⟨rfl, 0, by simp⟩
  obtain ⟨cs, hcs⟩ := C92_create (over := 1) (n := 4) (d := 2) (p := 7) (a := 0) (b := 1) (by norm_num) (by norm_num)
    (by norm_num) (by norm_num) [] hb
  obtain ⟨vnode, pnode, l, hC⟩ := cubeStokes_of (by norm_num) (by norm_num) (by norm_num) (by norm_num) hb hcs
  have S : StepSetup cs.vmesh cs.pmesh cs.quad cs.overQuad cs.masks [("boundary", .dirichlet)] cs.sem cs.low 0 true :=
    hC.stepSetup (by norm_num) (by norm_num) (by norm_num) hb 0 true (fun _ => Or.inl (by simp))
  exact ⟨cs, hcs, S.setup, S⟩

end cube

end Verif.NS

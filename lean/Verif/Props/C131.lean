import Verif.Props.C103Violated
import Verif.Props.C104Violated

/-!
# C131: the steady states of the time stepping are the steady Stokes flows

A state is steady when a step from a constant history returns it. Without the filter and with exact solves these states are
the solutions of the discrete steady Stokes equations. They do not depend on the time step and on the order of the backward
differences, although the step splits velocity and pressure.
-/

set_option linter.unusedSectionVars false

namespace Verif.NS

open Verif.Core Verif.Linalg Verif.Spec

variable {d : ℕ} {sem : StokesSEM ℝ d}
  {vmesh pmesh : Mesh ℝ d} {quad overQuad : Quadrature1D ℝ} {masks : List (String × (ℕ → Bool))}
  {bcs : List (String × BCType)} {low : Nodes1D ℝ} {mu dt : ℝ} {k : ℕ} {project : Bool}
  {ub : Option (Vel ℝ d)} {f u : Vel ℝ d} {p : ℕ → ℝ}

/-- Velocity `u` and pressure `p` solve the steady Stokes equations with the load `f` and the boundary values `ub`. -/
structure SteadyFlow (vmesh pmesh : Mesh ℝ d) (masks : List (String × (ℕ → Bool))) (bcs : List (String × BCType))
    (sem : StokesSEM ℝ d) (mu : ℝ) (ub : Option (Vel ℝ d)) (f u : Vel ℝ d) (p : ℕ → ℝ) : Prop where
  velocity : HasBoundary vmesh masks bcs ub u
  divergence : ∀ j, sem.D u j = 0
  momentum : ∀ v, HasBoundary vmesh masks bcs none v →
    mu * vStiffForm sem.vspace (vGather vmesh u) (vGather vmesh v) =
    ∑ j ∈ Finset.range vmesh.numNodes, ∑ l, v j l * f j l +
      integrate sem.vspace (fun m q => divFn sem.vspace (vGather vmesh v) m q * scalarFn sem.pspace (pmesh.gather p) m q)

/-- Data of a step: boundary values that live on the nodes, agree on copies and extend to a velocity without divergence; a
load that is zero on Dirichlet nodes and beyond the nodes. -/
structure SteadyData (vmesh : Mesh ℝ d) (masks : List (String × (ℕ → Bool))) (bcs : List (String × BCType))
    (sem : StokesSEM ℝ d) (ub : Option (Vel ℝ d)) (f : Vel ℝ d) : Prop where
  outside : ∀ j, vmesh.numNodes ≤ j → ub.getD 0 j = 0
  copies : ∀ i < vmesh.numNodes, ∀ j < vmesh.numNodes, SameNode vmesh i j → ub.getD 0 i = ub.getD 0 j
  extends_ : ∃ x, HasBoundary vmesh masks bcs ub x ∧ ∀ j, sem.D x j = 0
  load : ∀ j, DirichletNode masks bcs j → f j = 0
  loadOutside : ∀ j, vmesh.numNodes ≤ j → f j = 0

/-- The step from the constant history `u`, `p` returns `u` and `p`. -/
def Unchanged (sem : StokesSEM ℝ d) (low : Nodes1D ℝ) (alpha mu dt : ℝ) (k : ℕ) (project : Bool) (ub : Option (Vel ℝ d))
    (f u : Vel ℝ d) (p : ℕ → ℝ) : Prop :=
  ∃ st, sem.oneStep low (List.replicate k u) [p, p] f mu dt k alpha ub none project 0 0 = .ok st ∧ st.u = u ∧ st.p = p

theorem steady_momentum (H : StokesSetup vmesh pmesh quad overQuad masks bcs sem) {v : Vel ℝ d} (hv : v ∈ TSpace sem) :
    (mu * vStiffForm sem.vspace (vGather vmesh u) (vGather vmesh v) =
      ∑ j ∈ Finset.range vmesh.numNodes, ∑ l, v j l * f j l +
        integrate sem.vspace (fun m q => divFn sem.vspace (vGather vmesh v) m q * scalarFn sem.pspace (pmesh.gather p) m q)) ↔
    mu * sem.vDot v (sem.A u) = sem.vDot v f + sem.vDot v (sem.Dt p) := by
  obtain ⟨_, _, hvm, hpm, _⟩ := H.fields
  have hval := H.valid
  have hM := VSpace_masked hv.1
  rw [A_dot hval hM, Dt_dot hval v hM, hvm, hpm]
  have : sem.vDot v f = ∑ j ∈ Finset.range vmesh.numNodes, ∑ l, v j l * f j l := by
    unfold StokesSEM.vDot StokesSEM.numV
    rw [hvm]
  rw [this]

theorem bdf_sum_zero (hk : 1 ≤ k) {b : Fin (k + 1) → ℝ} (hb : bdfkCoeffs k = some b) : ∑ i, b i = 0 := by
  have := bdf_moments hk hb 0 (Nat.zero_le k)
  simpa using this

theorem ofFn_const_replicate {α : Type*} (x : α) : List.replicate k x = List.ofFn fun _ : Fin k => x := (List.ofFn_const k x).symm

/-- Every step returns a velocity with the boundary values. -/
theorem step_hasBoundary {us : List (Vel ℝ d)} {ps : List (ℕ → ℝ)} (S : StepSetup vmesh pmesh quad overQuad masks bcs sem low 0 project) (hmu : 0 ≤ mu) (hdt : 0 < dt)
    (hd : SteadyData vmesh masks bcs sem ub f) {st : StokesSEM.Step ℝ d}
    (hst : sem.oneStep low us ps f mu dt k 0 ub none project 0 0 = .ok st) : HasBoundary vmesh masks bcs ub st.u := by
  have H := S.setup
  have hval := H.valid
  obtain ⟨_, _, hvm, _⟩ := H.fields
  have hf := (H.mem_VSpace f).mpr ⟨hd.load, hd.loadOutside⟩
  obtain ⟨c, pExt, b, us0, dp, _, _, hb, _, hcg, hfil, _, hu, _⟩ := oneStep_ok hst
  have hbeta := (C37_leading k b hb).2
  obtain ⟨x, r, m, hcg', hx, _⟩ := velocity_solve hval H.massOutside H.massPos' H.stiff mu dt (b (Fin.last k)) hmu hdt hbeta _
    (stepRhs_mem (us := us) (mu := mu) (dt := dt) H.massOutside hf pExt b ub) 0 0
  rw [hcg, Option.some.injEq, Prod.mk.injEq] at hcg'
  obtain ⟨rfl, _⟩ := hcg'
  rw [filter_zero (by rw [hvm]; exact S.filter), Option.some.injEq] at hfil
  have h1 : lift us0 ub = us0 + ub.getD 0 := by
    cases ub with
    | none => exact (add_zero us0).symm
    | some u => rfl
  have h2 : us0 + sem.Q dt (b (Fin.last k)) (sem.Dt dp) ∈ TSpace sem := (TSpace sem).add_mem hx (Q_mem hval _ _ (Dt_mem dp))
  have h3 := (mem_TSpace_iff H _).mp h2
  have h4 : st.u = (us0 + sem.Q dt (b (Fin.last k)) (sem.Dt dp)) + ub.getD 0 := by
    rw [hu, ← hfil, h1]
    abel
  rw [h4]
  refine ⟨fun j hj => ?_, fun i hi j hj hs => ?_, fun j hj hD => ?_⟩
  · rw [Pi.add_apply, h3.outside j hj, hd.outside j hj, add_zero]
  · exact congrArg₂ (· + ·) (h3.copies i hi j hj hs) (hd.copies i hi j hj hs)
  · rw [Pi.add_apply, h3.dirichlet j hj hD]
    exact zero_add _

theorem SteadyData.lift_boundary (hd : SteadyData vmesh masks bcs sem ub f) : HasBoundary vmesh masks bcs ub (ub.getD 0) :=
  ⟨hd.outside, hd.copies, fun _ _ _ => rfl⟩

/-- A steady flow that the filter does not change is not changed by a step. -/
theorem steady_unchanged (H : StokesSetup vmesh pmesh quad overQuad masks bcs sem)
    (hvol : nodeDot sem.numP (fun _ => 1) (sem.pressureB (fun _ => 1)) ≠ 0) (hmu : 0 ≤ mu) (hdt : 0 < dt) (hk : 1 ≤ k)
    (hd : SteadyData vmesh masks bcs sem ub f) (h : SteadyFlow vmesh pmesh masks bcs sem mu ub f u p) {alpha : ℝ}
    (hfil : sem.filter low alpha u = some u) (older : List (ℕ → ℝ)) :
    ∃ st, sem.oneStep low (List.replicate k u) (older ++ [p, p]) f mu dt k alpha ub none project 0 0 = .ok st ∧ st.u = u ∧ st.p = p := by
  have hval := H.valid
  have hf := (H.mem_VSpace f).mpr ⟨hd.load, hd.loadOutside⟩
  obtain ⟨b, hb, _⟩ := C37_exact (K := ℝ) k hk
  have hsum := bdf_sum_zero hk hb
  have hT := sub_mem_TSpace H h.velocity hd.lift_boundary
  have hlift : lift (u - ub.getD 0) ub = u := by
    cases ub with
    | none => exact sub_zero u
    | some x => exact sub_add_cancel u x
  have hpE : (fun j => 2 * p j - p j) = p := by funext j; ring
  obtain ⟨st, h1, h2, h3⟩ := step_filtered (low := low) (alpha := alpha) (us := List.replicate k u) (precond := none)
    (project := project) (ub := ub) (older := older) (p2 := p) (p1 := p) H hf hmu hdt hb hT (fun x hx => by
      rw [hlift, hpE]
      have hm := (steady_momentum H hx).mp (h.momentum x ((mem_TSpace_iff H x).mp hx))
      have hhist : (fun q l => (1 / dt) * StokesSEM.history (List.ofFn (fun i : Fin k => b i.castSucc)) (List.replicate k u) q l) =
          (-(b (Fin.last k) / dt)) • u := by
        funext q l
        rw [ofFn_const_replicate, C43_history, ← Finset.sum_mul]
        rw [Fin.sum_univ_castSucc] at hsum
        rw [eq_neg_of_add_eq_zero_left hsum]
        simp only [Pi.smul_apply, smul_eq_mul]
        ring
      have hB : sem.B ((-(b (Fin.last k) / dt)) • u) = (-(b (Fin.last k) / dt)) • sem.B u := (BLin sem).map_smul _ u
      rw [hhist, hB, H_eq, vDot_sub_right, vDot_add_right, vDot_add_right, vDot_smul_right, vDot_smul_right, vDot_smul_right, hm]
      ring) (y := u) (by rw [hlift]; exact hfil) (funext h.divergence) hvol
  exact ⟨st, h1, h2, h3.trans hpE⟩

/-- Missing: the filter (`C131_violated`), and solves that stop early. The states that a step leaves unchanged are the steady
Stokes flows. -/
theorem C131_partial (S : StepSetup vmesh pmesh quad overQuad masks bcs sem low 0 project)
    (hvol : nodeDot sem.numP (fun _ => 1) (sem.pressureB (fun _ => 1)) ≠ 0) (hmu : 0 ≤ mu) (hdt : 0 < dt) (hk : 1 ≤ k)
    (hd : SteadyData vmesh masks bcs sem ub f) :
    Unchanged sem low 0 mu dt k project ub f u p ↔ SteadyFlow vmesh pmesh masks bcs sem mu ub f u p := by
  have H := S.setup
  have hval := H.valid
  obtain ⟨_, _, hvm, _⟩ := H.fields
  have hf := (H.mem_VSpace f).mpr ⟨hd.load, hd.loadOutside⟩
  constructor
  · rintro ⟨st, hst, hu, hp⟩
    have hB : HasBoundary vmesh masks bcs ub u := by rw [← hu]; exact step_hasBoundary S hmu hdt hd hst
    obtain ⟨b, hb, _⟩ := C37_exact (K := ℝ) k hk
    have hsum := bdf_sum_zero hk hb
    rw [ofFn_const_replicate] at hst
    have hmz : sem.masked (0 : Vel ℝ d) = 0 := by funext j l; simp [StokesSEM.masked]
    have hconst : ∀ x : Vel ℝ d, ∑ i, b i • (fun _ : Fin (k + 1) => x) i = 0 := fun x => by
      rw [← Finset.sum_smul, hsum, zero_smul]
    have hτ : ∀ x : Vel ℝ d, sem.masked (0 - (1 / dt) • ∑ i, b i • (fun _ : Fin (k + 1) => x) i) = 0 := fun x => by
      rw [hconst, smul_zero, sub_zero, hmz]
    have hB0 : sem.B (0 : Vel ℝ d) = 0 := (BLin sem).map_zero
    have hz : ∀ v : Vel ℝ d, sem.vDot v (0 : Vel ℝ d) = 0 := fun v => by simp [StokesSEM.vDot]
    -- no divergence
    have hdiv : sem.D u = 0 := by
      obtain ⟨x, hx, hxD⟩ := hd.extends_
      have hDt0 : sem.Dt 0 = 0 := (DtLin sem hval.pwf).map_zero
      obtain ⟨st', hst', _, _, hD, _⟩ := step_error S hmu hdt hk hb (fun _ => u) [] p p hf ub (fun _ => x) 0 0
        (fe := mu • sem.A x) ((VSpace sem).smul_mem _ (A_mem x)) (fun _ => sub_mem_TSpace H hB hx)
        (sub_mem_TSpace H hx hd.lift_boundary) (funext hxD) (by rw [hτ]; exact (TSpace sem).zero_mem)
        (fun v _ => by rw [hB0, hz, hDt0, hz, vDot_smul_right]; ring)
      rw [List.nil_append, hst, Except.ok.injEq] at hst'
      rw [← hu, hst']
      exact hD
    have hA := A_mem (sem := sem) u
    have hfe : mu • sem.A u - sem.Dt p ∈ VSpace sem := (VSpace sem).sub_mem ((VSpace sem).smul_mem _ hA) (Dt_mem p)
    obtain ⟨st', hst', _, _, _, hmom, hstar⟩ := step_error S hmu hdt hk hb (fun _ => u) [] p p hf ub (fun _ => u) 0 p
      (fe := mu • sem.A u - sem.Dt p) hfe (fun _ => by rw [sub_self]; exact (TSpace sem).zero_mem)
      (sub_mem_TSpace H hB hd.lift_boundary) hdiv (by rw [hτ]; exact (TSpace sem).zero_mem)
      (fun v _ => by rw [hB0, hz, vDot_sub_right, vDot_smul_right]; ring)
    rw [List.nil_append, hst, Except.ok.injEq] at hst'
    subst hst'
    have hDt0 : sem.Dt 0 = 0 := (DtLin sem hval.pwf).map_zero
    have hQ0 : sem.Q 1 1 (0 : Vel ℝ d) = 0 := (QLin sem 1 1).map_zero
    have hA0 : sem.A (0 : Vel ℝ d) = 0 := (ALin sem hval.vwf).map_zero
    have hpp : st.p - (2 : ℝ) • p + p = 0 := by rw [hp]; funext j; simp; ring
    rw [hpp, hDt0, hQ0, smul_zero, sub_zero] at hstar
    rw [hτ, hstar, hu, hp, sub_self, sub_self, hDt0, hA0, hQ0] at hmom
    simp only [sub_self, smul_zero, Finset.sum_const_zero, add_zero, sub_zero, zero_add] at hmom
    have hQ : sem.Q 1 1 (f - (mu • sem.A u - sem.Dt p)) = 0 := (smul_eq_zero.mp hmom.symm).resolve_left hdt.ne'
    refine ⟨hB, fun j => congrFun hdiv j, fun v hv => ?_⟩
    have hvT := (mem_TSpace_iff H v).mpr hv
    refine (steady_momentum H hvT).mpr ?_
    have h1 := vDot_B_Q H.finite H.mask01 hvT (f - (mu • sem.A u - sem.Dt p))
    rw [hQ, hB0, hz, vDot_sub_right, vDot_sub_right, vDot_smul_right] at h1
    linarith
  · intro h
    obtain ⟨st, h1, h2, h3⟩ := steady_unchanged (project := project) (low := low) (alpha := 0) H hvol hmu hdt hk hd h
      (filter_zero (by rw [hvm]; exact S.filter) u) []
    exact ⟨st, h1, h2, h3⟩

/-- Whether a state is steady depends neither on the time step nor on the order of the backward differences nor on the
projection of the pressure. -/
theorem C131_independent {project' : Bool} (S : StepSetup vmesh pmesh quad overQuad masks bcs sem low 0 project)
    (S' : StepSetup vmesh pmesh quad overQuad masks bcs sem low 0 project')
    (hvol : nodeDot sem.numP (fun _ => 1) (sem.pressureB (fun _ => 1)) ≠ 0) (hmu : 0 ≤ mu) (hd : SteadyData vmesh masks bcs sem ub f)
    {dt' : ℝ} {k' : ℕ} (hdt : 0 < dt) (hdt' : 0 < dt') (hk : 1 ≤ k) (hk' : 1 ≤ k') :
    Unchanged sem low 0 mu dt k project ub f u p ↔ Unchanged sem low 0 mu dt' k' project' ub f u p :=
  (C131_partial S hvol hmu hdt hk hd).trans (C131_partial S' hvol hmu hdt' hk' hd).symm

/-- A run that starts at a steady flow stays there, when its loads and boundary values are those of the flow as long as the
velocities are. -/
theorem steady_run (S : StepSetup vmesh pmesh quad overQuad masks bcs sem low 0 project)
    (hvol : nodeDot sem.numP (fun _ => 1) (sem.pressureB (fun _ => 1)) ≠ 0) (hmu : 0 ≤ mu) (hdt : 0 < dt) (hk : 1 ≤ k)
    (hd : SteadyData vmesh masks bcs sem ub f) (h : SteadyFlow vmesh pmesh masks bcs sem mu ub f u p) {U : ℕ → Vel ℝ d}
    {P : ℕ → ℕ → ℝ} {older : ℕ → List (ℕ → ℝ)} {N : ℕ} {F : ℕ → Vel ℝ d} (hF : ∀ n ≤ N, (∀ i < n + k, U i = u) → F n = f)
    (hU : ∀ i < k, U i = u) (hP0 : P 0 = p) (hP1 : P 1 = p)
    (hrun : StokesRun sem low 0 mu dt k project F (fun _ => ub) older U P N) :
    (∀ n ≤ N + k, U n = u) ∧ ∀ n ≤ N + 2, P n = p := by
  have H := S.setup
  obtain ⟨_, _, hvm, _⟩ := H.fields
  have key : ∀ n ≤ N + 1, (∀ i < n + k, U i = u) ∧ ∀ i < n + 2, P i = p := by
    intro n
    induction n with
    | zero =>
      intro _
      refine ⟨fun i hi => hU i (by omega), fun i hi => ?_⟩
      have : i = 0 ∨ i = 1 := by omega
      rcases this with rfl | rfl
      · exact hP0
      · exact hP1
    | succ n ih =>
      intro hn
      obtain ⟨h1, h2⟩ := ih (by omega)
      obtain ⟨st, hst, hu, hp⟩ := hrun n (by omega)
      obtain ⟨st', hst', hu', hp'⟩ := steady_unchanged (project := project) (low := low) (alpha := 0) H hvol hmu hdt hk hd h
        (filter_zero (by rw [hvm]; exact S.filter) u) (older n)
      have e : (List.ofFn fun i : Fin k => U (n + i)) = List.replicate k u := by
        rw [ofFn_const_replicate]
        congr 1
        funext i
        exact h1 _ (by have := i.2; omega)
      rw [hF n (by omega) h1, e, h2 n (by omega), h2 (n + 1) (by omega), hst', Except.ok.injEq] at hst
      subst hst
      refine ⟨fun i hi => ?_, fun i hi => ?_⟩
      · by_cases hlt : i < n + k
        · exact h1 i hlt
        · rw [show i = n + k by omega, hu, hu']
      · by_cases hlt : i < n + 2
        · exact h2 i hlt
        · rw [show i = n + 2 by omega, hp, hp']
  obtain ⟨h1, h2⟩ := key (N + 1) le_rfl
  exact ⟨fun n hn => h1 n (by omega), fun n hn => h2 n (by omega)⟩

/-- A run that starts at a steady flow stays there. -/
theorem C131_run (S : StepSetup vmesh pmesh quad overQuad masks bcs sem low 0 project)
    (hvol : nodeDot sem.numP (fun _ => 1) (sem.pressureB (fun _ => 1)) ≠ 0) (hmu : 0 ≤ mu) (hdt : 0 < dt) (hk : 1 ≤ k)
    (hd : SteadyData vmesh masks bcs sem ub f) (h : SteadyFlow vmesh pmesh masks bcs sem mu ub f u p) {U : ℕ → Vel ℝ d}
    {P : ℕ → ℕ → ℝ} {older : ℕ → List (ℕ → ℝ)} {N : ℕ} (hU : ∀ i < k, U i = u) (hP0 : P 0 = p) (hP1 : P 1 = p)
    (hrun : StokesRun sem low 0 mu dt k project (fun _ => f) (fun _ => ub) older U P N) :
    (∀ n ≤ N + k, U n = u) ∧ ∀ n ≤ N + 2, P n = p :=
  steady_run S hvol hmu hdt hk hd h (fun _ _ _ => rfl) hU hP0 hP1 hrun

/-- With viscosity two steady flows with the same data differ by a velocity without gradient. -/
theorem C131_unique (H : StokesSetup vmesh pmesh quad overQuad masks bcs sem) (hmu : 0 < mu) {u' : Vel ℝ d} {p' : ℕ → ℝ}
    (h : SteadyFlow vmesh pmesh masks bcs sem mu ub f u p) (h' : SteadyFlow vmesh pmesh masks bcs sem mu ub f u' p') :
    vStiffForm sem.vspace (vGather vmesh (u - u')) (vGather vmesh (u - u')) = 0 := by
  have hval := H.valid
  obtain ⟨_, _, hvm, _⟩ := H.fields
  have hT := sub_mem_TSpace H h.velocity h'.velocity
  have hB := (mem_TSpace_iff H _).mp hT
  have h1 := (steady_momentum H hT).mp (h.momentum _ hB)
  have h2 := (steady_momentum H hT).mp (h'.momentum _ hB)
  have hM := VSpace_masked hT.1
  have hD : sem.D (u - u') = 0 := by rw [D_eq_sub, funext h.divergence, funext h'.divergence]; exact sub_self _
  have h3 : ∀ q : ℕ → ℝ, sem.vDot (u - u') (sem.Dt q) = 0 := by
    intro q
    rw [← D_Dt_adjoint hval _ hM, hD]
    simp [nodeDot]
  rw [h3, add_zero] at h1 h2
  have hA : sem.A (u - u') = sem.A u - sem.A u' := (ALin sem hval.vwf).map_sub u u'
  have h4 : mu * sem.vDot (u - u') (sem.A (u - u')) = 0 := by
    rw [hA, vDot_sub_right, mul_sub, h1, h2, sub_self]
  have h5 := (mul_eq_zero.mp h4).resolve_left hmu.ne'
  rw [A_dot hval hM, hvm] at h5
  exact h5

/-- With a filter that is not the identity there are steady flows that a step changes, on every cube without walls, for every
time step and order. -/
theorem C131_violated {n p over : ℕ} {a b : ℝ} {per : List ℕ} {cs : CubeStokes d} {alpha : ℝ} (hn : 1 ≤ n) (hd : 2 ≤ d) (hp : 3 ≤ p)
    (hab : a < b) (hcs : cubeStokes n d p over a b per [] = .ok cs) (ha : alpha ≠ 0) (hmu : 0 ≤ mu) (hdt : 0 < dt) (hk : 1 ≤ k) :
    ∃ f u : Vel ℝ d, SteadyData cs.vmesh cs.masks [] cs.sem none f ∧
      SteadyFlow cs.vmesh cs.pmesh cs.masks [] cs.sem mu none f u 0 ∧
      ¬ Unchanged cs.sem cs.low alpha mu dt k project none f u 0 := by
  have hb : CubeBCs d per [] := Or.inr rfl
  obtain ⟨vnode, pnode, l, h⟩ := cubeStokes_of hn (by omega) hp hab hb hcs
  have H := h.setup hn hb
  have hval := H.valid
  obtain ⟨v, hv, hD, ⟨j, hj, i, hne⟩, hfil⟩ := h.exists_damped hn hd hp hab
  obtain ⟨β, hβ, _⟩ := C37_exact (K := ℝ) k hk
  have hmem : mu • cs.sem.A v ∈ VSpace cs.sem := (VSpace cs.sem).smul_mem mu (A_mem v)
  obtain ⟨hf1, hf2⟩ := (H.mem_VSpace _).mp hmem
  have hz : HasBoundary cs.vmesh cs.masks [] (none : Option (Vel ℝ d)) 0 := ⟨fun _ _ => rfl, fun _ _ _ _ _ => rfl, fun _ _ _ => rfl⟩
  refine ⟨mu • cs.sem.A v, v, ⟨fun _ _ => rfl, fun _ _ _ _ _ => rfl, ⟨0, hz, fun j => ?_⟩, hf1, hf2⟩,
    ⟨(mem_TSpace_iff H v).mp hv, fun j => congrFun hD j, fun x hx => ?_⟩, ?_⟩
  · have : cs.sem.D (0 : Vel ℝ d) = 0 := (DLin cs.sem).map_zero
    rw [this]
    rfl
  · have hx' := (mem_TSpace_iff H x).mpr hx
    refine (steady_momentum H hx').mpr ?_
    have : cs.sem.Dt (0 : ℕ → ℝ) = 0 := (DtLin cs.sem hval.pwf).map_zero
    rw [this, vDot_zero_right, vDot_smul_right, add_zero]
  · rintro ⟨st', hst', hu', _⟩
    have hsum := bdf_moments hk hβ 0 (Nat.zero_le k)
    obtain ⟨st, hst, hu, _⟩ := scaled_step (low := cs.low) (project := project) (g := fun _ => 1) H hmu hdt hβ hv hD
      (by simpa using hsum) hmem (fun x _ => by rw [vDot_smul_right]; ring)
      (alpha := alpha) (s := 1 - alpha) (by rw [one_smul]; exact hfil alpha) (h.volume_ne hn)
    simp only [one_smul, List.nil_append] at hst
    rw [ofFn_const_replicate, hst, Except.ok.injEq] at hst'
    subst hst'
    rw [hu] at hu'
    have := congrFun (congrFun hu' j) i
    simp only [Pi.smul_apply, smul_eq_mul] at this
    have h0 : alpha * v j i = 0 := by linear_combination -this
    exact (mul_ne_zero ha hne) h0

/-- Steady states on cubes. -/
theorem C131_cube {n p over : ℕ} {a b : ℝ} {per : List ℕ} {cs : CubeStokes d} {q : ℕ → ℝ} (hn : 1 ≤ n) (hd : 1 ≤ d) (hp : 3 ≤ p)
    (hab : a < b) (hb : CubeBCs d per bcs) (hcs : cubeStokes n d p over a b per bcs = .ok cs)
    (hpr : project = true → bcs ≠ [] ∨ ∀ k : Fin d, (k : ℕ) ∈ per) (hmu : 0 ≤ mu) (hdt : 0 < dt) (hk : 1 ≤ k)
    (hdata : SteadyData cs.vmesh cs.masks bcs cs.sem ub f) :
    Unchanged cs.sem cs.low 0 mu dt k project ub f u q ↔ SteadyFlow cs.vmesh cs.pmesh cs.masks bcs cs.sem mu ub f u q := by
  obtain ⟨vnode, pnode, l, h⟩ := cubeStokes_of hn hd hp hab hb hcs
  exact C131_partial (h.stepSetup hn hp hab hb 0 project hpr) (h.volume_ne hn) hmu hdt hk hdata

/-- The hypotheses hold on a periodic square: a steady flow that is not at rest, and that the filter of the default configuration
changes. -/
example : ∃ cs : CubeStokes 2, cubeStokes 2 2 3 2 0 1 [0, 1] [] = .ok cs ∧ ∃ f u : Vel ℝ 2,
    SteadyData cs.vmesh cs.masks [] cs.sem none f ∧ SteadyFlow cs.vmesh cs.pmesh cs.masks [] cs.sem (1/10) none f u 0 ∧
    Unchanged cs.sem cs.low 0 (1/10) (1/100) 2 true none f u 0 ∧
    ¬ Unchanged cs.sem cs.low (1/20) (1/10) (1/100) 2 true none f u 0 := by
  have hb : CubeBCs 2 [0, 1] [] := Or.inr rfl
  obtain ⟨cs, vnode, pnode, l, hcs, h⟩ := cubeStokes_spec (n := 2) (d := 2) (p := 3) (over := 2) (a := 0) (b := 1) (by norm_num)
    (by norm_num) (by norm_num) (by norm_num) [0, 1] hb
  obtain ⟨f, u, h1, h2, h3⟩ := C131_violated (mu := 1/10) (dt := 1/100) (k := 2) (project := true) (alpha := 1/20) (n := 2)
    (by norm_num) le_rfl (by norm_num) (by norm_num) hcs (by norm_num) (by norm_num) (by norm_num) (by norm_num)
  refine ⟨cs, hcs, f, u, h1, h2, ?_, h3⟩
  exact (C131_cube (n := 2) (by norm_num) (by norm_num) (by norm_num) (by norm_num) hb hcs
    (fun _ => Or.inr fun k => by fin_cases k <;> simp) (by norm_num) (by norm_num) (by norm_num) h1).mpr h2

end Verif.NS

namespace Verif.Niles

open Verif.Core Verif.NS Verif.Linalg Verif.Spec

variable {sem : StokesSEM ℝ 2}
  {vmesh pmesh : Mesh ℝ 2} {quad overQuad : Quadrature1D ℝ} {masks : List (String × (ℕ → Bool))}
  {bcs : List (String × BCType)} {low : Nodes1D ℝ} {wave : ℝ → ℝ} {c : SolverConfig ℝ} {net : Closure ℝ}
  {Φ : Vel ℝ 2 → Vel ℝ 2} {T : ℝ} {u : Vel ℝ 2} {p : ℕ → ℝ}

/-- Rollouts from a steady Navier-Stokes flow with the closure term predict it without error, for every time step, every
`config.time_order` of at least two and every number of steps, so that every frame of the loss is zero. -/
theorem C131_rollout (S : StepSetup vmesh pmesh quad overQuad masks bcs sem low 0 true) (hk : 2 ≤ c.timeOrder)
    (hRe : 0 < c.reynolds) (hdt : 0 < c.dt) (halpha : c.alpha = 0) (hatol : c.atol = 0) (hT : 0 ≤ T)
    (hΦ : ClosureIs c vmesh net Φ) (hflow : NSFlow vmesh pmesh masks bcs sem wave c Φ T (fun _ => u) (fun _ => p)) (n : ℕ) :
    ∃ preds targets kl0 klp, rollout low wave c sem net n
        ⟨List.replicate (c.timeOrder + n) u, List.replicate (c.timeOrder + n) p⟩ = .ok (preds, targets, kl0, klp) ∧
      ∀ i < n, preds.getD i 0 = u ∧ targets.getD i 0 = u ∧ frameLoss sem (preds.getD i 0) (targets.getD i 0) = 0 := by
  obtain ⟨K, hK⟩ : ∃ K, c.timeOrder = K + 1 := ⟨c.timeOrder - 1, by omega⟩
  have hK1 : 1 ≤ K := by omega
  have H := S.setup
  obtain ⟨_, _, hvm, _⟩ := H.fields
  obtain ⟨preds, targets, kl0, klp, hroll⟩ := rollout_exists (wave := wave) S hK hK1 hRe hdt halpha hatol hΦ n
    ⟨List.replicate (c.timeOrder + n) u, List.replicate (c.timeOrder + n) p⟩ (by simp) (by simp)
  refine ⟨preds, targets, kl0, klp, hroll, fun i hi => ?_⟩
  have hgu : ∀ i < c.timeOrder + n, (List.replicate (c.timeOrder + n) u).getD i 0 = u := fun i hi => by
    exact List.getD_replicate _ hi
  have hgp : ∀ i < c.timeOrder + n, (List.replicate (c.timeOrder + n) p).getD i 0 = p := fun i hi => by
    exact List.getD_replicate _ hi
  obtain ⟨m, rfl⟩ : ∃ m, n = m + 1 := ⟨n - 1, by omega⟩
  obtain ⟨e, he, hex⟩ := C36_exact (K := ℝ) K hK1
  have hes : ∑ i, e i = 1 := by
    have := hex 1 0 0 (by simp)
    simpa using this
  obtain ⟨U, P, older, hU, hUp, hP, htar, _, hrun⟩ := rollout_run hvm hK hK1 halpha hatol he hΦ hroll
  have hst := hflow.stokes H
  have h0 : (0 : ℝ) ∈ Set.Icc 0 T := ⟨le_rfl, hT⟩
  obtain ⟨HP, _⟩ := S.pressure rfl
  have hvol : nodeDot sem.numP (fun _ => 1) (sem.pressureB (fun _ => 1)) ≠ 0 := by
    rw [mean_eq HP]
    have : integrate sem.pspace (scalarFn sem.pspace (pmesh.gather (fun _ => (1 : ℝ)))) = integrate sem.pspace (fun _ _ => 1) := by
      apply integrate_congr
      intro m hm q hq
      exact gather_one HP 1 m (by rw [← HP.mesh_eq]; exact hm) q hq
    rw [this]
    exact HP.volume
  have hD0 : ∀ j, sem.D (0 : Vel ℝ 2) j = 0 := fun j => by
    have : sem.D (0 : Vel ℝ 2) = 0 := (DLin sem).map_zero
    rw [this]
    rfl
  have hdata : SteadyData vmesh masks bcs sem none (-sem.C u + lagged sem wave c.drag Φ u) :=
    ⟨fun _ _ => rfl, fun _ _ _ _ _ => rfl, ⟨0, ⟨fun _ _ => rfl, fun _ _ _ _ _ => rfl, fun _ _ _ => rfl⟩, hD0⟩,
      (hst.load 0 h0).1, (hst.load 0 h0).2⟩
  have hsteady : SteadyFlow vmesh pmesh masks bcs sem (1 / c.reynolds) none (-sem.C u + lagged sem wave c.drag Φ u) u p := by
    refine ⟨hst.velocity 0 h0, hst.divergence 0 h0, fun v hv => ?_⟩
    have := hst.momentum 0 h0 v hv
    simp only [deriv_const] at this
    have hz : vMassForm sem.vspace (vGather vmesh (fun _ _ => (0 : ℝ))) (vGather vmesh v) = 0 := by
      rw [massForm_eq H]
      simp
    rw [hz, zero_add] at this
    exact this
  have hall := (steady_run S hvol (by positivity) hdt (by omega) hdata hsteady (fun n _ hn => by
      have h1 : ∀ i : Fin (K + 1), U (n + i) = u := fun i => hn _ (by have := i.2; omega)
      simp only [h1, hn (n + K) (by omega)]
      rw [← Finset.sum_smul, hes, one_smul])
    (fun i hi => by rw [hU i hi]; exact hgu i (by omega)) (by rw [hP 0 (by omega)]; exact hgp _ (by omega))
    (by rw [hP 1 (by omega)]; exact hgp _ (by omega)) hrun).1
  have hpred : preds.getD i 0 = u := by
    rw [← hUp i hi]
    exact hall _ (by omega)
  have htarget : targets.getD i 0 = u := by
    obtain ⟨_, _, h1, _⟩ := C72_window (by omega) hroll
    rw [List.getD_eq_getElem?_getD, h1 i hi, ← List.getD_eq_getElem?_getD]
    exact hgu _ (by omega)
  refine ⟨hpred, htarget, ?_⟩
  rw [hpred, htarget]
  simp [frameLoss]

/-- The hypotheses hold for a constant velocity on the periodic square without drag: rollouts of 50 steps of length 10 are
exact. -/
example : ∃ (cs : CubeStokes 2) (c : SolverConfig ℝ) (u : Vel ℝ 2) (preds targets : List (Vel ℝ 2)) (kl0 klp : ℝ),
    cubeStokes 2 2 3 2 0 1 [0, 1] [] = .ok cs ∧ (∀ j < cs.vmesh.numNodes, ∀ l, u j l = 1) ∧
    rollout cs.low (fun _ => 0) c cs.sem zeroNet 50
      ⟨List.replicate (c.timeOrder + 50) u, List.replicate (c.timeOrder + 50) 0⟩ = .ok (preds, targets, kl0, klp) ∧
    preds.getD 49 0 = u := by
  obtain ⟨cs, hcs⟩ := C92_create (over := 2) (n := 2) (d := 2) (p := 3) (a := 0) (b := 1) (by norm_num) (by norm_num)
    (by norm_num) (by norm_num) [0, 1] (bcs := []) (Or.inr rfl)
  let c : SolverConfig ℝ := ⟨3, 20000, 10, 0, 0, 0, cs.vmesh.numElements, cs.vmesh.nodesPerElem * 2, false⟩
  obtain ⟨S, hflow⟩ := decay_flow hcs c 1
  have hΦ : ClosureIs c cs.vmesh zeroNet (fun _ => 0) := by
    intro i v
    obtain ⟨f, r, hf, rfl⟩ := zeroNet_closure (c := c) (mesh := cs.vmesh) rfl ⟨rfl, rfl, by simp [c]⟩ i v
    exact ⟨r, hf⟩
  have hd : c.drag = 0 := rfl
  simp only [hd, neg_zero, zero_mul, Real.exp_zero] at hflow
  obtain ⟨preds, targets, kl0, klp, h1, h2⟩ := C131_rollout S (by norm_num [c]) (by norm_num [c]) (by norm_num [c]) rfl rfl zero_le_one
    hΦ hflow 50
  exact ⟨cs, c, _, preds, targets, kl0, klp, hcs, fun j hj l => by simp [nodal, hj], h1, (h2 49 (by norm_num)).1⟩

end Verif.Niles

import Verif.Lemmas.ClosureGrad
import Verif.Props.C101
import Verif.Props.C72

/-!
# The reverse pass of the rollout
-/

set_option linter.unusedSectionVars false

namespace Verif.Niles

open Verif.Core Verif.NS Verif.Linalg

section algebra

/-- Moving a window by one position and transposing this. -/
theorem shift_sum {V W : Type*} [Zero V] (F : V → W → ℝ) (h0 : ∀ w, F 0 w = 0) {T : ℕ} (hT : 1 ≤ T) (ct : ℕ → V) {l : List W}
    (hl : l.length = T) (x d : W) :
    ∑ i ∈ Finset.range T, F (ct i) ((l.drop 1 ++ [x]).getD i d) =
      ∑ i ∈ Finset.range T, F (if i = 0 then 0 else ct (i - 1)) (l.getD i d) + F (ct (T - 1)) x := by
  obtain ⟨n, rfl⟩ : ∃ n, T = n + 1 := ⟨T - 1, by omega⟩
  rw [Finset.sum_range_succ, Finset.sum_range_succ' (fun i => F (if i = 0 then 0 else ct (i - 1)) (l.getD i d))]
  have e1 : (l.drop 1 ++ [x]).getD n d = x := by
    rw [List.getD_eq_getElem _ _ (by simp [hl])]
    simp [hl]
  rw [e1]
  simp only [if_true, h0, add_zero, Nat.add_sub_cancel, Nat.add_eq_zero_iff, one_ne_zero, and_false, if_false]
  congr 1
  refine Finset.sum_congr rfl fun i hi => ?_
  have hi' := Finset.mem_range.mp hi
  rw [List.getD_eq_getElem?_getD, List.getElem?_append_left (by simp [hl]; omega), List.getElem?_drop, Nat.add_comm 1 i,
    ← List.getD_eq_getElem?_getD]

theorem shift_getD {W : Type*} {T : ℕ} (hT : 1 ≤ T) {l : List W} (hl : l.length = T) (x d : W) (i : ℕ) :
    (l.drop 1 ++ [x]).getD i d = if i + 1 < T then l.getD (i + 1) d else if i + 1 = T then x else d := by
  split_ifs with h1 h2
  · rw [List.getD_eq_getElem?_getD, List.getElem?_append_left (by simp [hl]; omega), List.getElem?_drop, Nat.add_comm 1 i,
      ← List.getD_eq_getElem?_getD]
  · rw [List.getD_eq_getElem _ _ (by simp [hl]; omega)]
    rw [List.getElem_append_right (by simp [hl]; omega)]
    simp
  · rw [List.getD_eq_default _ _ (by simp [hl]; omega)]

theorem ofFn_window' {W : Type*} (l : List W) (d : W) (T : ℕ) (h : l.length = T) : l = List.ofFn (fun i : Fin T => l.getD i d) := by
  apply List.ext_getElem (by simp [h])
  intro i h1 h2
  rw [List.getElem_ofFn, List.getD_eq_getElem _ _ h1]

theorem last_two {W : Type*} (l : List W) (d : W) {T : ℕ} (hT : 2 ≤ T) (h : l.length = T) :
    l = l.take (T - 2) ++ [l.getD (T - 2) d, l.getD (T - 1) d] := by
  obtain ⟨n, rfl⟩ : ∃ n, T = n + 2 := ⟨T - 2, by omega⟩
  have h1 : l.drop n = [l.getD n d, l.getD (n + 1) d] := by
    apply List.ext_getElem (by simp [h])
    intro i h1 h2
    simp only [List.length_cons, List.length_nil] at h2
    rw [List.getElem_drop]
    interval_cases i
    · rw [List.getElem_cons_zero, List.getD_eq_getElem _ _ (by omega)]; simp
    · rw [List.getElem_cons_succ, List.getElem_cons_zero, List.getD_eq_getElem _ _ (by omega)]
  conv_lhs => rw [← List.take_append_drop n l, h1]
  rfl

end algebra

variable {vmesh pmesh : Mesh ℝ 2} {quad overQuad : Quadrature1D ℝ} {masks : List (String × (ℕ → Bool))}
  {bcs : List (String × BCType)} {sem : StokesSEM ℝ 2} {low : Nodes1D ℝ} {wave : ℝ → ℝ} {c : SolverConfig ℝ}

variable {E : Type*} [NormedAddCommGroup E] [NormedSpace ℝ E] {θ₀ : E}

/-- The velocity returned by a step lives on the nodes. -/
theorem step_outside {alpha mu dt : ℝ} {timeOrder : ℕ} {project : Bool} {us : List (Vel ℝ 2)} {ps : List (ℕ → ℝ)} {f : Vel ℝ 2}
    {st : StokesSEM.Step ℝ 2} (S : StepSetup vmesh pmesh quad overQuad masks bcs sem low alpha project)
    (hf : ∀ j, DirichletNode masks bcs j → f j = 0) (hf' : ∀ j, vmesh.numNodes ≤ j → f j = 0) (hmu : 0 ≤ mu) (hdt : 0 < dt)
    (hst : sem.oneStep low us ps f mu dt timeOrder alpha none none project 0 0 = .ok st) (j : ℕ) (hj : vmesh.numNodes ≤ j) :
    st.u j = 0 := by
  have H := S.setup
  obtain ⟨c, pExt, b, us0, dp, hc, hp, hb, _, hcg, hfil, _, hu, _⟩ := oneStep_ok hst
  have hbeta := (C37_leading timeOrder b hb).2
  have hfm := (H.mem_VSpace f).mpr ⟨hf, hf'⟩
  obtain ⟨x, r, m, hcg', hx, _⟩ := velocity_solve H.valid H.massOutside H.massPos' H.stiff mu dt (b (Fin.last timeOrder)) hmu hdt hbeta _
    (stepRhs_mem (us := us) (mu := mu) (dt := dt) H.massOutside hfm pExt b none) 0 0
  rw [hcg, Option.some.injEq, Prod.mk.injEq] at hcg'
  obtain ⟨rfl, _⟩ := hcg'
  obtain ⟨y, hy, hyf⟩ := S.filter_mem us0 hx
  rw [lift, hyf, Option.some.injEq] at hfil
  subst hfil
  rw [hu]
  exact ((H.mem_VSpace _).mp ((VSpace sem).add_mem hy.1 (Q_mem H.valid _ _ (Dt_mem dp)).1)).2 j hj

/-- Carries that depend differentiably on the weights, and not at all in the pushforward steps. -/
structure CarryFam (sem : StokesSEM ℝ 2) (T i0 push : ℕ) (θ₀ : E) (s : E → Carry ℝ) : Prop where
  step : ∀ θ, (s θ).i = i0
  lenU : ∀ θ, (s θ).us.length = T
  lenP : ∀ θ, (s θ).ps.length = T
  lenC : ∀ θ, (s θ).cus.length = T
  us : ∀ i j l, DifferentiableAt ℝ (fun θ => (s θ).us.getD i 0 j l) θ₀
  usOut : ∀ i θ j, sem.numV ≤ j → (s θ).us.getD i 0 j = (s θ₀).us.getD i 0 j
  ps : ∀ i q, PressureCt sem q → DifferentiableAt ℝ (fun θ => nodeDot sem.numP q ((s θ).ps.getD i 0)) θ₀
  cus : ∀ i j l, DifferentiableAt ℝ (fun θ => (s θ).cus.getD i 0 j l) θ₀
  cusOut : ∀ i θ j, sem.numV ≤ j → (s θ).cus.getD i 0 j = 0
  frozen : i0 < push → ∀ θ, (s θ).us = (s θ₀).us ∧ (s θ).ps = (s θ₀).ps ∧ (s θ).cus = (s θ₀).cus

/-- Pairing of cotangents with a carry. -/
noncomputable def carryDot (sem : StokesSEM ℝ 2) (T : ℕ) (ct : CarryCt ℝ) (s : Carry ℝ) : ℝ :=
  ∑ i ∈ Finset.range T, sem.vDot (ct.us i) (s.us.getD i 0) + ∑ i ∈ Finset.range T, nodeDot sem.numP (ct.ps i) (s.ps.getD i 0) +
    ∑ i ∈ Finset.range T, sem.vDot (ct.cus i) (s.cus.getD i 0)

/-- Cotangents that only see the nodes and no pressures without gradient. -/
def GoodCt (sem : StokesSEM ℝ 2) (ct : CarryCt ℝ) : Prop :=
  (∀ i j, sem.numV ≤ j → ct.us i j = 0) ∧ ∀ i, PressureCt sem (ct.ps i)

theorem pressureCt_zero : PressureCt sem 0 := ⟨fun _ _ => rfl, fun q _ => by simp [nodeDot]⟩

theorem pressureCt_add {a b : ℕ → ℝ} (ha : PressureCt sem a) (hb : PressureCt sem b) : PressureCt sem (a + b) :=
  ⟨fun j hj => by rw [Pi.add_apply, ha.1 j hj, hb.1 j hj, add_zero], fun q hq => by
    rw [nodeDot_add_left, ha.2 q hq, hb.2 q hq, add_zero]⟩

theorem nodeDot_zero_left' (q : ℕ → ℝ) (N : ℕ) : nodeDot N 0 q = 0 := by simp [nodeDot]

theorem extAdvection_weight {k : ℕ} (e : Fin (k + 1) → ℝ) (he : extkCoeffs k = some e) {cus : List (Vel ℝ 2)} (hl : cus.length = k + 1) :
    extAdvection k cus = .ok (fun p j => ∑ i ∈ Finset.range (k + 1), extWeight k i * cus.getD i 0 p j) := by
  have h := extAdvection_ofFn k e he (fun i => cus.getD i 0)
  rw [← ofFn_window' cus 0 (k + 1) hl] at h
  rw [h]
  congr 1
  funext p j
  rw [Finset.sum_range]
  refine Finset.sum_congr rfl fun i _ => ?_
  congr 1
  unfold extWeight
  rw [he]
  simp [i.2]

/-- One step of the rollout. -/
theorem body_grad (S : StepSetup vmesh pmesh quad overQuad masks bcs sem low c.alpha true)
    (hfree : ∀ j < vmesh.numNodes, ¬ DirichletNode masks bcs j) (hT : 2 ≤ c.timeOrder) (hRe : 0 < c.reynolds) (hdt : 0 < c.dt)
    (hatol : c.atol = 0) (hc : SizesMatch c vmesh) {net : E → Closure ℝ} {vjp : NetVjp ℝ (E →L[ℝ] ℝ)}
    (hnet : ∀ θ, KeepsShapeAt vmesh.numElements (vmesh.nodesPerElem * 2) (net θ))
    (hvjp : VjpOf vmesh.numElements (vmesh.nodesPerElem * 2) net vjp θ₀) {push i0 : ℕ} {s : E → Carry ℝ}
    (hs : CarryFam sem c.timeOrder i0 push θ₀ s) :
    ∃ (s' : E → Carry ℝ) (u : E → Vel ℝ 2),
      (∀ θ, bodyFn low wave c sem (pushNet push net θ₀ θ) (s θ) = .ok (s' θ, u θ)) ∧
      CarryFam sem c.timeOrder (i0 + 1) push θ₀ s' ∧ (∀ j l, DifferentiableAt ℝ (fun θ => u θ j l) θ₀) ∧
      ∀ (ct : CarryCt ℝ) (ctPred : Vel ℝ 2) (k0 kp : ℝ), GoodCt sem ct → (∀ j, sem.numV ≤ j → ctPred j = 0) →
        ∃ g ct', bodyVjp low c sem vjp push (s θ₀) (u θ₀) ct ctPred k0 kp = .ok (g, ct') ∧ GoodCt sem ct' ∧
          HasFDerivAt (fun θ => sem.vDot ctPred (u θ) + carryDot sem c.timeOrder ct (s' θ) + k0 * ((s' θ).klQ0 - (s θ).klQ0) +
            kp * ((s' θ).klPath - (s θ).klPath) - carryDot sem c.timeOrder ct' (s θ)) g θ₀ := by
  have H := S.setup
  obtain ⟨_, _, hvm, _⟩ := H.fields
  have hnum : sem.numV = vmesh.numNodes := by unfold StokesSEM.numV; rw [hvm]
  have hT1 : 1 ≤ c.timeOrder := by omega
  have hlt : c.timeOrder - 1 + 1 = c.timeOrder := by omega
  obtain ⟨e, he, _⟩ := extk_exists (K := ℝ) (c.timeOrder - 1) (by omega)
  have hmu : 0 ≤ 1 / c.reynolds := (one_div_pos.mpr hRe).le
  -- the last velocity
  obtain ⟨ul, hul⟩ : ∃ ul : E → Vel ℝ 2, ul = fun θ => (s θ).us.getD (c.timeOrder - 1) 0 := ⟨_, rfl⟩
  have hlast : ∀ θ, (s θ).us.getLast? = some (ul θ) := fun θ => by
    have hl : c.timeOrder - 1 < (s θ).us.length := by rw [hs.lenU θ]; omega
    rw [List.getLast?_eq_getElem?, hs.lenU θ, List.getElem?_eq_getElem hl, hul]
    exact congrArg some (List.getD_eq_getElem _ _ hl).symm
  have hulD : ∀ j l, DifferentiableAt ℝ (fun θ => ul θ j l) θ₀ := by rw [hul]; exact hs.us _
  -- the closure term
  obtain ⟨f, q0, qp, hcl, hfD, hfc, hclv⟩ := closure_grad (c := c) H.valid.vrange (by rw [hvm]; exact hc) (by rw [hvm]; exact hnet) (by rw [hvm]; exact hvjp) push i0 hulD
    (fun hi θ => by rw [hul]; simp only [(hs.frozen hi θ).1])
  -- the force
  obtain ⟨f1, hf1⟩ : ∃ f1 : E → Vel ℝ 2, f1 = fun θ p k => f θ p k + kolmogorov wave c.drag (sem.vspace.mesh.coords p) (ul θ p) k :=
    ⟨_, rfl⟩
  obtain ⟨cu, hcu⟩ : ∃ cu : E → Vel ℝ 2, cu = fun θ p j => ∑ i ∈ Finset.range c.timeOrder,
    extWeight (c.timeOrder - 1) i * (s θ).cus.getD i 0 p j := ⟨_, rfl⟩
  obtain ⟨f2, hf2⟩ : ∃ f2 : E → Vel ℝ 2, f2 = fun θ p k => -cu θ p k + sem.B (f1 θ) p k := ⟨_, rfl⟩
  have hext : ∀ θ, extAdvection (c.timeOrder - 1) (s θ).cus = .ok (cu θ) := fun θ => by
    rw [extAdvection_weight e he (by rw [hs.lenC θ, hlt]), hcu, hlt]
  have hf1D : ∀ j l, DifferentiableAt ℝ (fun θ => f1 θ j l) θ₀ := by
    intro j l
    rw [hf1]
    simp only [kolmogorov]
    exact (hfD j l).fun_add ((hulD j l).const_mul _ |>.const_sub _)
  have hf2D : ∀ j l, DifferentiableAt ℝ (fun θ => f2 θ j l) θ₀ := by
    intro j l
    rw [hf2]
    simp only [hcu, StokesSEM.B]
    exact (DifferentiableAt.fun_sum fun i _ => (hs.cus i j l).const_mul _).fun_neg.fun_add ((hf1D j l).const_mul _)
  have hf2O : ∀ θ j, vmesh.numNodes ≤ j → f2 θ j = 0 := by
    intro θ j hj
    funext l
    have h1 : ∀ i, (s θ).cus.getD i 0 j l = 0 := fun i => by rw [hs.cusOut i θ j (by omega)]; rfl
    have h2 := H.massOutside j (by omega) l
    rw [hf2]
    simp only [hcu, h1, StokesSEM.B, h2]
    simp
  have hf2Dir : ∀ θ j, DirichletNode masks bcs j → f2 θ j = 0 := by
    intro θ j hj
    by_cases h : j < vmesh.numNodes
    · exact absurd hj (hfree j h)
    · exact hf2O θ j (not_lt.mp h)
  -- the step
  have hstep : ∀ θ, ∃ st, sem.oneStep low (s θ).us (s θ).ps (f2 θ) (1 / c.reynolds) c.dt c.timeOrder c.alpha none none true 0 0 = .ok st := by
    intro θ
    obtain ⟨st, hst, _⟩ := C42_step (us := (s θ).us) (ps := (s θ).ps) (tol := 0) (atol := 0) S (hf2Dir θ) (hf2O θ) hmu hdt hT1
      (by rw [hs.lenP θ]; exact hT)
    exact ⟨st, hst⟩
  choose st hst using hstep
  have huO : ∀ θ j, vmesh.numNodes ≤ j → (st θ).u j = 0 := fun θ =>
    step_outside S (hf2Dir θ) (hf2O θ) hmu hdt (hst θ)
  have hwin : ∀ θ, (s θ).us = List.ofFn (fun i : Fin c.timeOrder => (s θ).us.getD i 0) := fun θ => ofFn_window _ _ (hs.lenU θ)
  have hpw : ∀ θ, (s θ).ps = (s θ).ps.take (c.timeOrder - 2) ++ [(s θ).ps.getD (c.timeOrder - 2) 0, (s θ).ps.getD (c.timeOrder - 1) 0] :=
    fun θ => last_two _ 0 hT (hs.lenP θ)
  -- pairings of the result of the step
  have hpair : ∀ ctU ctP, (∀ j, vmesh.numNodes ≤ j → ctU j = 0) → PressureCt sem ctP →
      ∃ sc, sem.oneStepVjp low (1 / c.reynolds) c.dt c.timeOrder c.alpha none true 0 0 ctU ctP = .ok sc ∧
        (∀ θ, sem.vDot ctU (st θ).u + nodeDot sem.numP ctP (st θ).p =
          sem.vDot sc.f (f2 θ) + ∑ i, sem.vDot (sc.us i) ((s θ).us.getD i 0) +
            nodeDot sem.numP sc.p1 ((s θ).ps.getD (c.timeOrder - 1) 0) + nodeDot sem.numP sc.p2 ((s θ).ps.getD (c.timeOrder - 2) 0)) ∧
        (∀ i, ∀ j, vmesh.numNodes ≤ j → sc.us i j = 0) ∧ PressureCt sem sc.p1 ∧ PressureCt sem sc.p2 := by
    intro ctU ctP h1 h2
    obtain ⟨sc, g1, g2, _, g4, g5, g6⟩ := vjp_adjoint S hfree hmu hdt hT1 h1 h2
    refine ⟨sc, g1, fun θ => ?_, g4, g5, g6⟩
    have := g2 (fun i => (s θ).us.getD i 0) ((s θ).ps.take (c.timeOrder - 2)) _ _ (f2 θ) none (st θ) (hf2O θ)
      (fun u hu => by cases hu) (by rw [← hwin θ, ← hpw θ]; exact hst θ)
    rw [this]
    simp [vDot_zero_right]
  have hpairD : ∀ ctU ctP, (∀ j, vmesh.numNodes ≤ j → ctU j = 0) → PressureCt sem ctP →
      DifferentiableAt ℝ (fun θ => sem.vDot ctU (st θ).u + nodeDot sem.numP ctP (st θ).p) θ₀ := by
    intro ctU ctP h1 h2
    obtain ⟨sc, _, g2, _, g5, g6⟩ := hpair ctU ctP h1 h2
    simp only [g2]
    exact (((vDot_diff _ hf2D).fun_add (DifferentiableAt.fun_sum fun (i : Fin c.timeOrder) _ => vDot_diff (sc.us i) (hs.us i))).fun_add (hs.ps _ _ g5)).fun_add
      (hs.ps _ _ g6)
  have huD : ∀ j l, DifferentiableAt ℝ (fun θ => (st θ).u j l) θ₀ := by
    intro j l
    by_cases hj : j < vmesh.numNodes
    · have h := hpairD (vUnit j l) 0 (fun i hi => by
        funext k
        have : i ≠ j := by omega
        simp [vUnit, this]) pressureCt_zero
      refine h.congr_of_eventuallyEq (Filter.Eventually.of_forall fun θ => ?_)
      simp only [vDot_unit j (show j < sem.numV by omega), nodeDot_zero_left', add_zero]
    · have : (fun θ => (st θ).u j l) = fun _ => 0 := by
        funext θ
        rw [huO θ j (not_lt.mp hj)]; rfl
      rw [this]
      exact differentiableAt_const _
  have hpD : ∀ q, PressureCt sem q → DifferentiableAt ℝ (fun θ => nodeDot sem.numP q (st θ).p) θ₀ := by
    intro q hq
    refine (hpairD 0 q (fun _ _ => rfl) hq).congr_of_eventuallyEq (Filter.Eventually.of_forall fun θ => ?_)
    simp only [vDot_zero_left, zero_add]
  have huO' : ∀ θ j, sem.numV ≤ j → (st θ).u j = (st θ₀).u j := fun θ j hj => by
    rw [huO θ j (by omega), huO θ₀ j (by omega)]
  obtain ⟨s', hs'⟩ : ∃ s' : E → Carry ℝ, s' = fun θ => ⟨(s θ).i + 1, (s θ).us.drop 1 ++ [(st θ).u], (s θ).ps.drop 1 ++ [(st θ).p],
    (s θ).cus.drop 1 ++ [sem.C (st θ).u], q0 θ + (s θ).klQ0, qp θ + (s θ).klPath⟩ := ⟨_, rfl⟩
  refine ⟨s', fun θ => (st θ).u, fun θ => ?_, ?_, huD, ?_⟩
  · unfold bodyFn
    rw [hlast θ]
    simp only [hs.step θ, hcl θ]
    unfold solveStep
    rw [hext θ]
    simp only [hlast θ]
    rw [if_neg hRe.ne', hatol]
    have e2 : (fun p k => -cu θ p k + sem.B (fun p k => f θ p k + kolmogorov wave c.drag (sem.vspace.mesh.coords p) (ul θ p) k) p k) =
        f2 θ := by rw [hf2, hf1]
    rw [e2, hst θ, hs']
    simp only [hs.step θ]
  · rw [hs']
    refine ⟨fun θ => by simp [hs.step θ], fun θ => by simp [hs.lenU θ]; omega, fun θ => by simp [hs.lenP θ]; omega,
      fun θ => by simp [hs.lenC θ]; omega, fun i j l => ?_, fun i θ j hj => ?_, fun i q hq => ?_, fun i j l => ?_, fun i θ j hj => ?_,
      fun hi θ => ?_⟩
    · simp only [fun θ => shift_getD hT1 (hs.lenU θ) (st θ).u 0 i]
      split_ifs
      · exact hs.us _ j l
      · exact huD j l
      · exact differentiableAt_const _
    · simp only [fun θ => shift_getD hT1 (hs.lenU θ) (st θ).u 0 i]
      split_ifs
      · exact hs.usOut _ θ j hj
      · exact huO' θ j hj
      · rfl
    · simp only [fun θ => shift_getD hT1 (hs.lenP θ) (st θ).p 0 i]
      split_ifs
      · exact hs.ps _ q hq
      · exact hpD q hq
      · exact differentiableAt_const _
    · simp only [fun θ => shift_getD hT1 (hs.lenC θ) (sem.C (st θ).u) 0 i]
      split_ifs
      · exact hs.cus _ j l
      · exact C_diff H huD huO' j l
      · exact differentiableAt_const _
    · simp only [fun θ => shift_getD hT1 (hs.lenC θ) (sem.C (st θ).u) 0 i]
      split_ifs
      · exact hs.cusOut _ θ j hj
      · exact (C_mem (sem := sem) (st θ).u) j (Or.inl hj)
      · rfl
    · have hi' : i0 < push := by omega
      obtain ⟨g1, g2, g3⟩ := hs.frozen hi' θ
      have g4 : f2 θ = f2 θ₀ := by
        rw [hf2, hf1, hcu, hul]
        simp only [hfc hi' θ, g1, g3]
      have g5 : st θ = st θ₀ := by
        have := hst θ
        rw [g1, g2, g4, hst θ₀, Except.ok.injEq] at this
        exact this.symm
      simp only [g1, g2, g3, g5, and_self]
  · intro ct ctPred k0 kp hct hpred
    obtain ⟨sc, g1, g2, g4, g5, g6⟩ := hpair (ct.us (c.timeOrder - 1) + ctPred + sem.Cvjp (st θ₀).u (ct.cus (c.timeOrder - 1)))
      (ct.ps (c.timeOrder - 1)) (fun j hj => by
        have h3 : sem.Cvjp (st θ₀).u (ct.cus (c.timeOrder - 1)) j = 0 := vvT_outside _ _ j (by omega)
        rw [Pi.add_apply, Pi.add_apply, hct.1 _ j (by omega), hpred j (by omega), h3]
        simp) (hct.2 _)
    obtain ⟨g, ctUl, h1, h2, h3⟩ := hclv (sem.vvT sem.B sc.f) k0 kp
    refine ⟨g, _, by
      unfold bodyVjp
      simp only [hlast θ₀, hatol, g1, hs.step θ₀, h1]
      rfl, ⟨fun i j hj => ?_, fun i => ?_⟩, ?_⟩
    · have hB : sem.vvT sem.B sc.f j = 0 := vvT_outside _ _ j hj
      simp only [Pi.add_apply]
      have a1 : (if i = 0 then (0 : Vel ℝ 2) else ct.us (i - 1)) j = 0 := by
        split
        · rfl
        · exact hct.1 _ j hj
      have a2 : (if h : i < c.timeOrder then sc.us ⟨i, h⟩ else (0 : Vel ℝ 2)) j = 0 := by
        split
        · exact g4 _ j (by omega)
        · rfl
      have a3 : (if i + 1 = c.timeOrder then ctUl - c.drag • sem.vvT sem.B sc.f else (0 : Vel ℝ 2)) j = 0 := by
        split
        · rw [Pi.sub_apply, Pi.smul_apply, h2 j hj, hB]; simp
        · rfl
      rw [a1, a2, a3]
      simp
    · refine pressureCt_add (pressureCt_add ?_ ?_) ?_
      · split
        · exact pressureCt_zero
        · exact hct.2 _
      · split
        · exact g5
        · exact pressureCt_zero
      · split
        · exact g6
        · exact pressureCt_zero
    · have hC := C_grad H huD huO' (ct.cus (c.timeOrder - 1))
      have hadd := (h3.add hC).add_const (∑ j ∈ Finset.range sem.numV, ∑ l, sem.vvT sem.B sc.f j l *
        (if l = 0 then wave (sem.vspace.mesh.coords j 1) else 0))
      rw [add_zero] at hadd
      refine hadd.congr_of_eventuallyEq (Filter.Eventually.of_forall fun θ => ?_)
      -- the pairing with the new carry
      have c1 := shift_sum sem.vDot vDot_zero_left hT1 ct.us (hs.lenU θ) (st θ).u 0
      have c2 := shift_sum (nodeDot sem.numP) (fun q => nodeDot_zero_left' q _) hT1 ct.ps (hs.lenP θ) (st θ).p 0
      have c3 := shift_sum sem.vDot vDot_zero_left hT1 ct.cus (hs.lenC θ) (sem.C (st θ).u) 0
      -- the step
      have c4 := g2 θ
      rw [vDot_add_left, vDot_add_left] at c4
      have c5 : sem.vDot sc.f (f2 θ) = -(∑ i ∈ Finset.range c.timeOrder, extWeight (c.timeOrder - 1) i *
          sem.vDot sc.f ((s θ).cus.getD i 0)) + (sem.vDot (sem.vvT sem.B sc.f) (f θ) + (∑ j ∈ Finset.range sem.numV, ∑ l,
            sem.vvT sem.B sc.f j l * (if l = 0 then wave (sem.vspace.mesh.coords j 1) else 0)) -
            c.drag * sem.vDot (sem.vvT sem.B sc.f) (ul θ)) := by
        have d1 : f2 θ = -(∑ i ∈ Finset.range c.timeOrder, extWeight (K := ℝ) (c.timeOrder - 1) i • (s θ).cus.getD i 0) + sem.B (f1 θ) := by
          rw [hf2]
          funext p l
          rw [Pi.add_apply, Pi.add_apply, Pi.neg_apply, Pi.neg_apply, Finset.sum_apply, Finset.sum_apply, hcu]
          rfl
        have d2 : f1 θ = f θ + (fun j l => if l = 0 then wave (sem.vspace.mesh.coords j 1) else 0) - c.drag • ul θ := by
          rw [hf1]
          funext p l
          simp only [kolmogorov, Pi.sub_apply, Pi.add_apply, Pi.smul_apply, smul_eq_mul]
          ring
        have d3 : sem.vDot sc.f (-(∑ i ∈ Finset.range c.timeOrder, extWeight (K := ℝ) (c.timeOrder - 1) i • (s θ).cus.getD i 0)) =
            -(∑ i ∈ Finset.range c.timeOrder, extWeight (c.timeOrder - 1) i * sem.vDot sc.f ((s θ).cus.getD i 0)) := by
          rw [← zero_sub, vDot_sub_right, vDot_zero_right, zero_sub, vDot_comm, vDot_sum_left]
          congr 1
          refine Finset.sum_congr rfl fun i _ => ?_
          rw [vDot_comm, vDot_smul_right]
        rw [d1, vDot_add_right, d3, ← vvT_B, d2, vDot_sub_right, vDot_add_right, vDot_smul_right]
        rfl
      -- the pairing with the old carry
      have c6 : ∑ i ∈ Finset.range c.timeOrder, sem.vDot (if h : i < c.timeOrder then sc.us ⟨i, h⟩ else 0) ((s θ).us.getD i 0) =
          ∑ i, sem.vDot (sc.us i) ((s θ).us.getD i 0) := by
        rw [Finset.sum_range]
        exact Finset.sum_congr rfl fun i _ => by rw [dif_pos i.2]
      have c7 : ∑ i ∈ Finset.range c.timeOrder, sem.vDot (if i + 1 = c.timeOrder then ctUl - c.drag • sem.vvT sem.B sc.f else 0)
          ((s θ).us.getD i 0) = sem.vDot ctUl (ul θ) - c.drag * sem.vDot (sem.vvT sem.B sc.f) (ul θ) := by
        rw [Finset.sum_eq_single (c.timeOrder - 1)]
        · rw [if_pos hlt, vDot_sub_left, vDot_comm (c.drag • _), vDot_smul_right, vDot_comm _ (sem.vvT sem.B sc.f), hul]
        · intro i _ hi
          rw [if_neg (by omega), vDot_zero_left]
        · intro h
          exact absurd (Finset.mem_range.mpr (by omega)) h
      have c8 : ∑ i ∈ Finset.range c.timeOrder, nodeDot sem.numP (if i + 1 = c.timeOrder then sc.p1 else 0) ((s θ).ps.getD i 0) =
          nodeDot sem.numP sc.p1 ((s θ).ps.getD (c.timeOrder - 1) 0) := by
        rw [Finset.sum_eq_single (c.timeOrder - 1)]
        · rw [if_pos hlt]
        · intro i _ hi
          rw [if_neg (by omega), nodeDot_zero_left']
        · intro h
          exact absurd (Finset.mem_range.mpr (by omega)) h
      have c9 : ∑ i ∈ Finset.range c.timeOrder, nodeDot sem.numP (if i + 2 = c.timeOrder then sc.p2 else 0) ((s θ).ps.getD i 0) =
          nodeDot sem.numP sc.p2 ((s θ).ps.getD (c.timeOrder - 2) 0) := by
        rw [Finset.sum_eq_single (c.timeOrder - 2)]
        · rw [if_pos (by omega)]
        · intro i _ hi
          rw [if_neg (by omega), nodeDot_zero_left']
        · intro h
          exact absurd (Finset.mem_range.mpr (by omega)) h
      have c10 : ∑ i ∈ Finset.range c.timeOrder, sem.vDot ((-extWeight (K := ℝ) (c.timeOrder - 1) i) • sc.f) ((s θ).cus.getD i 0) =
          -(∑ i ∈ Finset.range c.timeOrder, extWeight (c.timeOrder - 1) i * sem.vDot sc.f ((s θ).cus.getD i 0)) := by
        rw [← Finset.sum_neg_distrib]
        refine Finset.sum_congr rfl fun i _ => ?_
        rw [vDot_comm, vDot_smul_right, vDot_comm, neg_mul]
      rw [hs']
      simp only [carryDot, vDot_add_left, nodeDot_add_left, Finset.sum_add_distrib, c1, c2, c3, c6, c7, c8, c9, c10, Pi.add_apply]
      rw [c5] at c4
      linarith

theorem pushNet_self (push : ℕ) (net : E → Closure ℝ) (θ₀ : E) : pushNet push net θ₀ θ₀ = net θ₀ := by
  funext i ts
  unfold pushNet
  split <;> rfl

/-- The scan over the steps. -/
theorem scan_grad (S : StepSetup vmesh pmesh quad overQuad masks bcs sem low c.alpha true)
    (hfree : ∀ j < vmesh.numNodes, ¬ DirichletNode masks bcs j) (hT : 2 ≤ c.timeOrder) (hRe : 0 < c.reynolds) (hdt : 0 < c.dt)
    (hatol : c.atol = 0) (hc : SizesMatch c vmesh) {net : E → Closure ℝ} {vjp : NetVjp ℝ (E →L[ℝ] ℝ)}
    (hnet : ∀ θ, KeepsShapeAt vmesh.numElements (vmesh.nodesPerElem * 2) (net θ))
    (hvjp : VjpOf vmesh.numElements (vmesh.nodesPerElem * 2) net vjp θ₀) {push : ℕ} : ∀ (n i0 : ℕ) (s : E → Carry ℝ),
    CarryFam sem c.timeOrder i0 push θ₀ s →
    ∃ (s' : E → Carry ℝ) (us : E → List (Vel ℝ 2)),
      (∀ θ, scanBody low wave c sem (pushNet push net θ₀ θ) n (s θ) = .ok (s' θ, us θ)) ∧
      (∀ i j l, DifferentiableAt ℝ (fun θ => (us θ).getD i 0 j l) θ₀) ∧
      ∀ (ctPreds : ℕ → Vel ℝ 2) (k0 kp : ℝ), (∀ i j, sem.numV ≤ j → ctPreds i j = 0) →
        ∃ g ct, scanVjp low wave c sem (net θ₀) vjp push k0 kp n (s θ₀) ctPreds = .ok (g, ct) ∧ GoodCt sem ct ∧
          HasFDerivAt (fun θ => ∑ i ∈ Finset.range n, sem.vDot (ctPreds i) ((us θ).getD i 0) +
            k0 * ((s' θ).klQ0 - (s θ).klQ0) + kp * ((s' θ).klPath - (s θ).klPath) - carryDot sem c.timeOrder ct (s θ)) g θ₀ := by
  intro n
  induction n with
  | zero =>
    intro i0 s hs
    refine ⟨s, fun _ => [], fun θ => rfl, fun i j l => by simp, fun ctPreds k0 kp _ =>
      ⟨0, _, rfl, ⟨fun _ _ _ => rfl, fun _ => pressureCt_zero⟩, ?_⟩⟩
    refine (hasFDerivAt_const (0 : ℝ) θ₀).congr_of_eventuallyEq (Filter.Eventually.of_forall fun θ => ?_)
    have e1 : ∀ a : Vel ℝ 2, sem.vDot (0 : Vel ℝ 2) a = 0 := vDot_zero_left
    have e2 : ∀ (N : ℕ) (a : ℕ → ℝ), nodeDot N (0 : ℕ → ℝ) a = 0 := fun N a => nodeDot_zero_left' a N
    simp [carryDot, e1, e2]
  | succ n ih =>
    intro i0 s hs
    obtain ⟨s1, u, hb, hs1, huD, hbv⟩ := body_grad (wave := wave) S hfree hT hRe hdt hatol hc hnet hvjp hs
    obtain ⟨s', us, hsc, husD, hsv⟩ := ih (i0 + 1) s1 hs1
    refine ⟨s', fun θ => u θ :: us θ, fun θ => by rw [scanBody, hb θ]; simp only [hsc θ], fun i j l => ?_, fun ctPreds k0 kp hct => ?_⟩
    · cases i with
      | zero => simpa using huD j l
      | succ i => simpa using husD i j l
    · obtain ⟨g', ct, h1, h2, h3⟩ := hsv (fun i => ctPreds (i + 1)) k0 kp (fun i => hct (i + 1))
      obtain ⟨g, ct', h4, h5, h6⟩ := hbv ct (ctPreds 0) k0 kp h2 (hct 0)
      have hb0 := hb θ₀
      rw [pushNet_self] at hb0
      refine ⟨g' + g, ct', ?_, h5, ?_⟩
      · rw [scanVjp, hb0]
        simp only [h1, h4]
      · refine (h3.add h6).congr_of_eventuallyEq (Filter.Eventually.of_forall fun θ => ?_)
        simp only [Finset.sum_range_succ', List.getD_cons_succ, List.getD_cons_zero, Pi.add_apply]
        ring

/-- The cotangent of a prediction. -/
theorem frame_grad {u : E → Vel ℝ 2} (hu : ∀ j l, DifferentiableAt ℝ (fun θ => u θ j l) θ₀) (r : ℝ) (t : Vel ℝ 2) :
    HasFDerivAt (fun θ => r * frameLoss sem (u θ) t -
      sem.vDot (fun p k => if p < sem.numV then r * (u θ₀ p k - t p k) else 0) (u θ)) (0 : E →L[ℝ] ℝ) θ₀ := by
  have e : (fun θ => r * frameLoss sem (u θ) t - sem.vDot (fun p k => if p < sem.numV then r * (u θ₀ p k - t p k) else 0) (u θ)) =
      fun θ => ∑ p ∈ Finset.range sem.numV, ∑ k, ((fun x => r * (1 / 2 * (x - t p k) ^ 2) - r * (u θ₀ p k - t p k) * x) ∘
        fun θ => u θ p k) θ := by
    funext θ
    unfold frameLoss StokesSEM.vDot
    rw [Finset.mul_sum, ← Finset.sum_sub_distrib]
    refine Finset.sum_congr rfl fun p hp => ?_
    rw [Finset.mul_sum, ← Finset.sum_sub_distrib]
    refine Finset.sum_congr rfl fun k _ => ?_
    simp only [if_pos (Finset.mem_range.mp hp), Function.comp_apply]
  rw [e]
  have hz : (0 : E →L[ℝ] ℝ) = ∑ p ∈ Finset.range sem.numV, ∑ k : Fin 2, 0 := by simp
  rw [hz]
  refine HasFDerivAt.fun_sum fun p _ => HasFDerivAt.fun_sum fun k _ => ?_
  have hd : HasDerivAt (fun x => r * (1 / 2 * (x - t p k) ^ 2) - r * (u θ₀ p k - t p k) * x) 0 (u θ₀ p k) := by
    have h1 := (((hasDerivAt_id (u θ₀ p k)).sub_const (t p k)).pow 2).const_mul (1 / 2) |>.const_mul r
    have h2 := (hasDerivAt_id (u θ₀ p k)).const_mul (r * (u θ₀ p k - t p k))
    refine (h1.sub h2).congr_deriv ?_
    simp
  have := hd.comp_hasFDerivAt θ₀ (hu p k).hasFDerivAt
  rw [zero_smul] at this
  exact this

/-- The share of an example in the loss of a batch of `B` examples. -/
noncomputable def lossShare (sem : StokesSEM ℝ 2) (pen : ℝ) (B n : ℕ) (r : List (Vel ℝ 2) × List (Vel ℝ 2) × ℝ × ℝ) : ℝ :=
  ∑ i ∈ Finset.range n, 1 / (B : ℝ) * frameLoss sem (r.1.getD i 0) (r.2.1.getD i 0) + pen / B * (r.2.2.1 + r.2.2.2)

theorem rollout_grad (S : StepSetup vmesh pmesh quad overQuad masks bcs sem low c.alpha true)
    (hfree : ∀ j < vmesh.numNodes, ¬ DirichletNode masks bcs j) (hT : 2 ≤ c.timeOrder) (hRe : 0 < c.reynolds) (hdt : 0 < c.dt)
    (hatol : c.atol = 0) (hc : SizesMatch c vmesh) {net : E → Closure ℝ} {vjp : NetVjp ℝ (E →L[ℝ] ℝ)}
    (hnet : ∀ θ, KeepsShapeAt vmesh.numElements (vmesh.nodesPerElem * 2) (net θ))
    (hvjp : VjpOf vmesh.numElements (vmesh.nodesPerElem * 2) net vjp θ₀) {push : ℕ} (pen : ℝ) (B n : ℕ) (ex : Example ℝ)
    (hlen : c.timeOrder + n ≤ ex.u.length ∧ c.timeOrder ≤ ex.p.length) :
    ∃ (r : E → List (Vel ℝ 2) × List (Vel ℝ 2) × ℝ × ℝ) (g : E →L[ℝ] ℝ),
      (∀ θ, rollout low wave c sem (pushNet push net θ₀ θ) n ex = .ok (r θ)) ∧
      rolloutVjp low wave c sem (net θ₀) vjp push pen B n ex = .ok g ∧
      HasFDerivAt (fun θ => lossShare sem pen B n (r θ)) g θ₀ := by
  have H := S.setup
  have hfam : CarryFam sem c.timeOrder 0 push θ₀ (fun _ : E =>
      ⟨0, ex.u.take c.timeOrder, ex.p.take c.timeOrder, (ex.u.take c.timeOrder).map sem.C, 0, 0⟩) := by
    refine ⟨fun _ => rfl, fun _ => by simp; omega, fun _ => by simp; omega, fun _ => by simp; omega, fun _ _ _ => differentiableAt_const _,
      fun _ _ _ _ => rfl, fun _ _ _ => differentiableAt_const _, fun _ _ _ => differentiableAt_const _, fun i θ j hj => ?_,
      fun _ _ => ⟨rfl, rfl, rfl⟩⟩
    simp only
    by_cases hi : i < ((ex.u.take c.timeOrder).map sem.C).length
    · rw [List.getD_eq_getElem _ _ hi, List.getElem_map]
      exact (C_mem (sem := sem) _) j (Or.inl hj)
    · rw [List.getD_eq_default _ _ (not_lt.mp hi)]
      rfl
  obtain ⟨s', us, h1, h2, h3⟩ := scan_grad (wave := wave) S hfree hT hRe hdt hatol hc hnet hvjp (push := push) n 0 _ hfam
  have hr : ∀ θ, rollout low wave c sem (pushNet push net θ₀ θ) n ex =
      .ok (us θ, (ex.u.drop c.timeOrder).take n, (s' θ).klQ0, (s' θ).klPath) := by
    intro θ
    unfold rollout
    rw [if_neg (by omega)]
    simp only [h1 θ]
    rw [if_neg (by omega)]
  obtain ⟨g, ct, h4, _, h6⟩ := h3 (fun i p k => if p < sem.numV then 1 / (B : ℝ) * ((us θ₀).getD i 0 p k -
    ((ex.u.drop c.timeOrder).take n).getD i 0 p k) else 0) (pen / B) (pen / B) (fun i j hj => by
      funext k
      rw [if_neg (by omega)]
      rfl)
  have hr0 := hr θ₀
  rw [pushNet_self] at hr0
  refine ⟨_, g, hr, ?_, ?_⟩
  · unfold rolloutVjp
    rw [hr0]
    simp only [h4]
  · have hsum : HasFDerivAt (fun θ => ∑ i ∈ Finset.range n, (1 / (B : ℝ) * frameLoss sem ((us θ).getD i 0) (((ex.u.drop c.timeOrder).take n).getD i 0) -
        sem.vDot (fun p k => if p < sem.numV then 1 / (B : ℝ) * ((us θ₀).getD i 0 p k -
          ((ex.u.drop c.timeOrder).take n).getD i 0 p k) else 0) ((us θ).getD i 0))) (∑ i ∈ Finset.range n, (0 : E →L[ℝ] ℝ)) θ₀ :=
      HasFDerivAt.fun_sum fun i _ => frame_grad (h2 i) (1 / (B : ℝ)) _
    rw [Finset.sum_const_zero] at hsum
    have hadd := (h6.add hsum).add_const (carryDot sem c.timeOrder ct
      ⟨0, ex.u.take c.timeOrder, ex.p.take c.timeOrder, (ex.u.take c.timeOrder).map sem.C, 0, 0⟩)
    rw [add_zero] at hadd
    refine hadd.congr_of_eventuallyEq (Filter.Eventually.of_forall fun θ => ?_)
    simp only [lossShare, Pi.add_apply, Finset.sum_sub_distrib]
    ring

/-- All examples of a batch. -/
theorem rollouts_grad (S : StepSetup vmesh pmesh quad overQuad masks bcs sem low c.alpha true)
    (hfree : ∀ j < vmesh.numNodes, ¬ DirichletNode masks bcs j) (hT : 2 ≤ c.timeOrder) (hRe : 0 < c.reynolds) (hdt : 0 < c.dt)
    (hatol : c.atol = 0) (hc : SizesMatch c vmesh) {nets : E → ℕ → Closure ℝ} {vjps : ℕ → NetVjp ℝ (E →L[ℝ] ℝ)}
    (hnet : ∀ θ b, KeepsShapeAt vmesh.numElements (vmesh.nodesPerElem * 2) (nets θ b))
    (hvjp : ∀ b, VjpOf vmesh.numElements (vmesh.nodesPerElem * 2) (fun θ => nets θ b) (vjps b) θ₀) {push : ℕ} (pen : ℝ) (B n : ℕ) :
    ∀ (b : ℕ) (exs : List (Example ℝ)), (∀ ex ∈ exs, c.timeOrder + n ≤ ex.u.length ∧ c.timeOrder ≤ ex.p.length) →
    ∃ (rs : E → List (List (Vel ℝ 2) × List (Vel ℝ 2) × ℝ × ℝ)) (g : E →L[ℝ] ℝ),
      (∀ θ, rollouts low wave c sem (fun b => pushNet push (fun θ => nets θ b) θ₀ θ) n b exs = .ok (rs θ)) ∧
      (∀ θ, (rs θ).length = exs.length) ∧
      rolloutsVjp low wave c sem (nets θ₀) vjps push pen B n b exs = .ok g ∧
      HasFDerivAt (fun θ => ((rs θ).map (lossShare sem pen B n)).sum) g θ₀
  | b, [], _ => ⟨fun _ => [], 0, fun _ => rfl, fun _ => rfl, rfl, by simpa using hasFDerivAt_const (0 : ℝ) θ₀⟩
  | b, ex :: exs, hlen => by
    obtain ⟨r, g, h1, h2, h3⟩ := rollout_grad (wave := wave) S hfree hT hRe hdt hatol hc (fun θ => hnet θ b) (hvjp b) (push := push)
      pen B n ex (hlen ex (by simp))
    obtain ⟨rs, g', h4, h5, h6, h7⟩ := rollouts_grad (push := push) S hfree hT hRe hdt hatol hc hnet hvjp pen B n (b + 1) exs
      (fun e he => hlen e (by simp [he]))
    refine ⟨fun θ => r θ :: rs θ, g + g', fun θ => ?_, fun θ => by simp [h5 θ], ?_, ?_⟩
    · rw [rollouts, h1 θ]
      simp only [h4 θ]
    · rw [rolloutsVjp, h2]
      simp only [h6]
    · simp only [List.map_cons, List.sum_cons]
      exact h3.add h7

/-- The loss is the sum of the shares. -/
theorem loss_shares (pen : ℝ) (n : ℕ) (B : ℕ) (rs : List (List (Vel ℝ 2) × List (Vel ℝ 2) × ℝ × ℝ)) (hB : rs.length = B) :
    ((List.range n).map fun i => meanOf (rs.map fun r => frameLoss sem (r.1.getD i 0) (r.2.1.getD i 0))).sum +
      pen * (meanOf (rs.map (·.2.2.1)) + meanOf (rs.map (·.2.2.2))) = (rs.map (lossShare sem pen B n)).sum := by
  have hl : ∀ (F : ℕ → ℝ) (n : ℕ), ((List.range n).map F).sum = ∑ i ∈ Finset.range n, F i := by
    intro F n
    induction n with
    | zero => rfl
    | succ n ih => rw [List.range_succ, List.map_append, List.sum_append, ih, Finset.sum_range_succ]; simp
  rw [hl]
  unfold meanOf
  simp only [List.length_map, hB]
  clear hB
  induction rs with
  | nil => simp
  | cons r rs ih =>
    simp only [List.map_cons, List.sum_cons]
    rw [← ih]
    simp only [lossShare, add_div, Finset.sum_add_distrib]
    have : ∑ i ∈ Finset.range n, frameLoss sem (r.1.getD i 0) (r.2.1.getD i 0) / (B : ℝ) =
        ∑ i ∈ Finset.range n, 1 / (B : ℝ) * frameLoss sem (r.1.getD i 0) (r.2.1.getD i 0) :=
      Finset.sum_congr rfl fun i _ => by ring
    rw [this]
    ring

end Verif.Niles

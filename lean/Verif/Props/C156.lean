import Verif.Props.C132
import Verif.Props.C101
import Verif.Props.C93

/-!
# C156: Stokes flows can be superposed

For exact solves the step is linear in velocities, pressures and force together: the step of a combination returns the
combination of the velocities, and of the pressures up to a pressure without gradient (`C156_superpose`); so do whole simulations
(`C156_trajectory`). On the mesh of a cube such a pressure is a constant (`C156_cube`). Without the filter a step of first or second
order with any force does not amplify the energy of the difference of two flows (`C156_errors`, `C156_errors_second`); the example
of C132 is a difference that meets the hypotheses.
-/

namespace Verif.NS

open Verif.Core Verif.Linalg Verif.Spec

section general

variable {K : Type*} [Field K] [LinearOrder K] {d : ℕ}
  {vmesh pmesh : Mesh K d} {quad overQuad : Quadrature1D K} {masks : List (String × (ℕ → Bool))}
  {bcs : List (String × BCType)} {sem : StokesSEM K d} {low : Nodes1D K} {mu dt : K} {timeOrder : ℕ} {alpha : K}
  {project : Bool}

/-- The equations that determine an exact step. -/
theorem exact_step_facts [IsStrictOrderedRing K] (S : StepSetup vmesh pmesh quad overQuad masks bcs sem low alpha project)
    (hmu : 0 ≤ mu) (hdt : 0 < dt) {b : Fin (timeOrder + 1) → K} (hb : bdfkCoeffs timeOrder = some b) {c : Fin 2 → K}
    (hc : extkCoeffs 1 = some c) {F : Vel K d →ₗ[K] Vel K d} (hF : ∀ u, sem.filter low alpha u = some (F u))
    {us : Fin timeOrder → Vel K d} {older : List (ℕ → K)} {p2 p1 : ℕ → K} {f : Vel K d}
    (hf : ∀ j, DirichletNode masks bcs j → f j = 0) (hf' : ∀ j, vmesh.numNodes ≤ j → f j = 0) {st : StokesSEM.Step K d}
    (h : sem.oneStep low (List.ofFn us) (older ++ [p2, p1]) f mu dt timeOrder alpha none none project 0 0 = .ok st) :
    ∃ x dp, x ∈ TSpace sem ∧
      (∀ v ∈ TSpace sem, sem.vDot v (sem.H mu dt (b (Fin.last timeOrder)) x) = sem.vDot v (f + sem.Dt (c 1 • p1 + c 0 • p2) -
        sem.B ((1 / dt) • ∑ i : Fin timeOrder, b i.castSucc • us i))) ∧
      sem.E dt (b (Fin.last timeOrder)) dp = -sem.D (F x) ∧ st.u = F x + sem.Q dt (b (Fin.last timeOrder)) (sem.Dt dp) ∧
      st.p = c 1 • p1 + c 0 • p2 + dp := by
  have H := S.setup
  have hv := H.valid
  have hbeta := (C37_leading timeOrder b hb).2
  have hdb : 0 < dt / b (Fin.last timeOrder) := div_pos hdt hbeta
  obtain ⟨c', pExt, b', us0, dp, hc', hp, hb', _, hcgu, hfil, hcgp, hu, hpst⟩ := oneStep_ok h
  rw [hb, Option.some.injEq] at hb'
  subst hb'
  rw [hc, Option.some.injEq] at hc'
  subst hc'
  have hpe : pExt = c 1 • p1 + c 0 • p2 := by
    simp [StokesSEM.extrapolate] at hp
    rw [← hp]
    rfl
  subst hpe
  have hrhs : stepRhs sem (List.ofFn us) (c 1 • p1 + c 0 • p2) f mu dt timeOrder b none = f + sem.Dt (c 1 • p1 + c 0 • p2) -
        sem.B ((1 / dt) • ∑ i : Fin timeOrder, b i.castSucc • us i) := by
    rw [stepRhs]
    congr 2
    funext p k
    rw [C43_history]
    simp [Finset.sum_apply]
  have hmem := stepRhs_mem (us := List.ofFn us) (mu := mu) (dt := dt) H.massOutside ((H.mem_VSpace f).mpr ⟨hf, hf'⟩)
    (c 1 • p1 + c 0 • p2) b none
  obtain ⟨x, r1, m1, hcgx, hxT, hx⟩ := velocity_exact hv H.massOutside H.massPos' H.stiff mu dt _ hmu hdt hbeta _ hmem
  rw [hcgx, Option.some.injEq, Prod.mk.injEq] at hcgu
  obtain ⟨rfl, _⟩ := hcgu
  have hstar : st.uStar = F x := by
    rw [lift, hF, Option.some.injEq] at hfil
    exact hfil.symm
  rw [hstar] at hcgp hu
  have hFT : F x ∈ TSpace sem := by
    obtain ⟨w, hw, hw'⟩ := S.filter_mem x hxT
    rw [hF, Option.some.injEq] at hw'
    rwa [hw']
  obtain ⟨dp', r2, m2, hcgd, hdp⟩ := pressure_exact hv S.pressure dt (b (Fin.last timeOrder)) hdb (-sem.D (F x))
    ((PSpace sem).neg_mem (D_mem hFT))
  rw [hcgd, Option.some.injEq, Prod.mk.injEq] at hcgp
  obtain ⟨rfl, _⟩ := hcgp
  exact ⟨x, dp', hxT, fun v hvT => by rw [hx v hvT, hrhs], hdp, hu, hpst⟩

theorem Q_noGradient (hv : sem.Valid) (dt beta : K) {q : ℕ → K} (hq : NoGradient sem q) : sem.Q dt beta (sem.Dt q) = 0 := by
  funext j k
  by_cases hj : j < sem.numV
  · unfold StokesSEM.Q StokesSEM.Bi
    rw [hq j hj k]
    simp
  · rw [(Q_mem hv dt beta (Dt_mem q)).1 j (Or.inl (not_lt.mp hj))]
    rfl

/-- Pressures without gradient are a space. -/
theorem noGradient_comb (hv : sem.Valid) {q q' : ℕ → K} (h : NoGradient sem q) (h' : NoGradient sem q') (r s : K) :
    NoGradient sem (r • q + s • q') := by
  intro j hj k
  have e : sem.Dt (r • q + s • q') = r • sem.Dt q + s • sem.Dt q' := by
    rw [show sem.Dt (r • q + s • q') = DtLin sem hv.pwf (r • q + s • q') from rfl, map_add, map_smul, map_smul]
    rfl
  have h1 : sem.vspace.mesh.exchange (fun i => sem.Dt q i k) j = 0 := h j hj k
  have h2 : sem.vspace.mesh.exchange (fun i => sem.Dt q' i k) j = 0 := h' j hj k
  have h3 : sem.vspace.mesh.exchange (fun i => (r • sem.Dt q + s • sem.Dt q') i k) j =
      r * sem.vspace.mesh.exchange (fun i => sem.Dt q i k) j + s * sem.vspace.mesh.exchange (fun i => sem.Dt q' i k) j := by
    rw [exchange_sum _ _ j hj, exchange_sum _ _ j hj, exchange_sum _ _ j hj, Finset.mul_sum, Finset.mul_sum, ← Finset.sum_add_distrib]
    refine Finset.sum_congr rfl fun i _ => ?_
    split_ifs <;> simp
  rw [e]
  refine Eq.trans h3 ?_
  rw [h1, h2, mul_zero, mul_zero, add_zero]

/-- Three steps, of which the third starts from a combination of the first two, up to pressures without gradient. -/
theorem superpose_core [IsStrictOrderedRing K] (S : StepSetup vmesh pmesh quad overQuad masks bcs sem low alpha project)
    (hmu : 0 ≤ mu) (hdt : 0 < dt) (htime : 1 ≤ timeOrder) {us us' us'' : Fin timeOrder → Vel K d}
    {older older' older'' : List (ℕ → K)} {p2 p1 p2' p1' p2'' p1'' : ℕ → K} {f f' f'' : Vel K d}
    (hf : ∀ j, DirichletNode masks bcs j → f j = 0) (hfo : ∀ j, vmesh.numNodes ≤ j → f j = 0)
    (hf' : ∀ j, DirichletNode masks bcs j → f' j = 0) (hfo' : ∀ j, vmesh.numNodes ≤ j → f' j = 0) {st st' st'' : StokesSEM.Step K d}
    (h : sem.oneStep low (List.ofFn us) (older ++ [p2, p1]) f mu dt timeOrder alpha none none project 0 0 = .ok st)
    (h' : sem.oneStep low (List.ofFn us') (older' ++ [p2', p1']) f' mu dt timeOrder alpha none none project 0 0 = .ok st')
    (h'' : sem.oneStep low (List.ofFn us'') (older'' ++ [p2'', p1'']) f'' mu dt timeOrder alpha none none project 0 0 = .ok st'')
    {r s : K} (hus : ∀ i, us'' i = r • us i + s • us' i) (hp2 : NoGradient sem (p2'' - (r • p2 + s • p2')))
    (hp1 : NoGradient sem (p1'' - (r • p1 + s • p1'))) (hff : f'' = r • f + s • f') :
    st''.u = r • st.u + s • st'.u ∧ NoGradient sem (st''.p - (r • st.p + s • st'.p)) := by
  subst hff
  obtain rfl : us'' = fun i => r • us i + s • us' i := funext hus
  have H := S.setup
  have hv := H.valid
  obtain ⟨_, _, hvm, _⟩ := H.fields
  have FS : FilterSetup sem.vspace.mesh low := by rw [hvm]; exact S.filter
  obtain ⟨F, hF⟩ := filter_linear FS alpha
  obtain ⟨c, hc, _⟩ := C36_exact (K := K) 1 le_rfl
  obtain ⟨b, hb, _⟩ := C37_exact (K := K) timeOrder htime
  have hbeta := (C37_leading timeOrder b hb).2
  have hdb : 0 < dt / b (Fin.last timeOrder) := div_pos hdt hbeta
  have hg : ∀ j, DirichletNode masks bcs j → (r • f + s • f') j = 0 := fun j hj => by simp [hf j hj, hf' j hj]
  have hg' : ∀ j, vmesh.numNodes ≤ j → (r • f + s • f') j = 0 := fun j hj => by simp [hfo j hj, hfo' j hj]
  obtain ⟨x, dp, hx, ex, edp, eu, ep⟩ := exact_step_facts S hmu hdt hb hc hF hf hfo h
  obtain ⟨x', dp', hx', ex', edp', eu', ep'⟩ := exact_step_facts S hmu hdt hb hc hF hf' hfo' h'
  obtain ⟨x'', dp'', hx'', ex'', edp'', eu'', ep''⟩ := exact_step_facts S hmu hdt hb hc hF hg hg' h''
  have hP := noGradient_comb hv hp1 hp2 (c 1) (c 0)
  set P := c 1 • p1 + c 0 • p2 with hPdef
  set P' := c 1 • p1' + c 0 • p2' with hPdef'
  set P'' := c 1 • p1'' + c 0 • p2'' with hPdef''
  have e2 : P'' = r • P + s • P' + (c 1 • (p1'' - (r • p1 + s • p1')) + c 0 • (p2'' - (r • p2 + s • p2'))) := by
    rw [hPdef, hPdef', hPdef'']
    simp only [smul_sub, smul_add, smul_smul]
    rw [mul_comm (c 1) r, mul_comm (c 1) s, mul_comm (c 0) r, mul_comm (c 0) s]
    abel
  set N := c 1 • (p1'' - (r • p1 + s • p1')) + c 0 • (p2'' - (r • p2 + s • p2')) with hN
  have hxx : x'' = r • x + s • x' := by
    refine velocity_unique H hmu hdt hbeta hx'' ((TSpace sem).add_mem ((TSpace sem).smul_mem r hx) ((TSpace sem).smul_mem s hx'))
      fun v hvT => ?_
    have e1 : sem.H mu dt (b (Fin.last timeOrder)) (r • x + s • x') =
        r • sem.H mu dt (b (Fin.last timeOrder)) x + s • sem.H mu dt (b (Fin.last timeOrder)) x' := by
      simp only [← HLin_apply sem hv.vwf, map_add, map_smul]
    have e3 : (1 / dt) • ∑ i : Fin timeOrder, b i.castSucc • (r • us i + s • us' i) =
        r • ((1 / dt) • ∑ i : Fin timeOrder, b i.castSucc • us i) + s • ((1 / dt) • ∑ i : Fin timeOrder, b i.castSucc • us' i) := by
      simp only [smul_add, Finset.sum_add_distrib, smul_smul, Finset.smul_sum]
      congr 1 <;> exact Finset.sum_congr rfl fun i _ => by congr 1; ring
    have e4 : sem.Dt P'' = r • sem.Dt P + s • sem.Dt P' + sem.Dt N := by
      rw [e2, show sem.Dt (r • P + s • P' + N) = DtLin sem hv.pwf (r • P + s • P' + N) from rfl, map_add, map_add, map_smul, map_smul]
      rfl
    have e5 : ∀ p q : Vel K d, sem.B (r • p + s • q) = r • sem.B p + s • sem.B q := fun p q => by
      rw [show sem.B (r • p + s • q) = BLin sem (r • p + s • q) from rfl, map_add, map_smul, map_smul]
      rfl
    have e6 : sem.vDot v (sem.Dt N) = 0 := vDot_exchange_zero hvT hP
    rw [ex'' v hvT, e1, vDot_add_right, vDot_smul_right, vDot_smul_right, ex v hvT, ex' v hvT, e3, e4, e5]
    simp only [vDot_sub_right, vDot_add_right, vDot_smul_right, e6]
    ring
  have hE : sem.E dt (b (Fin.last timeOrder)) (dp'' - (r • dp + s • dp')) = 0 := by
    have e1 : sem.D (F x'') = r • sem.D (F x) + s • sem.D (F x') := by
      rw [hxx, map_add, map_smul, map_smul]
      change DLin sem _ = _
      rw [map_add, map_smul, map_smul]
      rfl
    rw [← ELin_apply sem hv.pwf, map_sub, map_add, map_smul, map_smul, ELin_apply, ELin_apply, ELin_apply, edp, edp', edp'', e1]
    simp only [smul_neg]
    abel
  have hng : NoGradient sem (dp'' - (r • dp + s • dp')) :=
    E_form_zero hv dt _ hdb _ (by rw [hE]; simp [nodeDot])
  constructor
  · have h0 : sem.Q dt (b (Fin.last timeOrder)) (sem.Dt (dp'' - (r • dp + s • dp'))) = 0 :=
      Q_noGradient hv _ _ hng
    have h1 : ∀ q, sem.Q dt (b (Fin.last timeOrder)) (sem.Dt q) = QLin sem dt (b (Fin.last timeOrder)) (DtLin sem hv.pwf q) :=
      fun _ => rfl
    rw [h1, map_sub, map_add, map_smul, map_smul, map_sub, map_add, map_smul, map_smul, ← h1, ← h1, ← h1, sub_eq_zero] at h0
    rw [eu'', eu, eu', h0, hxx, map_add, map_smul, map_smul]
    simp only [smul_add]
    abel
  · have e : st''.p - (r • st.p + s • st'.p) = (1 : K) • N + (1 : K) • (dp'' - (r • dp + s • dp')) := by
      rw [ep'', ep, ep', e2, one_smul, one_smul]
      simp only [smul_add]
      abel
    rw [e]
    exact noGradient_comb hv hP hng 1 1

theorem noGradient_zero (hv : sem.Valid) : NoGradient sem 0 := by
  intro j hj k
  have e : sem.Dt 0 = 0 := (DtLin sem hv.pwf).map_zero
  have h3 : sem.vspace.mesh.exchange (fun i => (0 : Vel K d) i k) j = 0 := by
    rw [exchange_sum _ _ j hj]
    simp
  rw [e]
  exact h3

/-- The step of a combination of two states is the combination of the steps. -/
theorem C156_superpose [IsStrictOrderedRing K] (S : StepSetup vmesh pmesh quad overQuad masks bcs sem low alpha project)
    (hmu : 0 ≤ mu) (hdt : 0 < dt) (htime : 1 ≤ timeOrder) {us us' : Fin timeOrder → Vel K d} {older older' : List (ℕ → K)}
    {p2 p1 p2' p1' : ℕ → K} {f f' : Vel K d}
    (hf : ∀ j, DirichletNode masks bcs j → f j = 0) (hfo : ∀ j, vmesh.numNodes ≤ j → f j = 0)
    (hf' : ∀ j, DirichletNode masks bcs j → f' j = 0) (hfo' : ∀ j, vmesh.numNodes ≤ j → f' j = 0) {st st' : StokesSEM.Step K d}
    (h : sem.oneStep low (List.ofFn us) (older ++ [p2, p1]) f mu dt timeOrder alpha none none project 0 0 = .ok st)
    (h' : sem.oneStep low (List.ofFn us') (older' ++ [p2', p1']) f' mu dt timeOrder alpha none none project 0 0 = .ok st')
    (r s : K) (older'' : List (ℕ → K)) :
    ∃ st'', sem.oneStep low (List.ofFn fun i => r • us i + s • us' i) (older'' ++ [r • p2 + s • p2', r • p1 + s • p1'])
        (r • f + s • f') mu dt timeOrder alpha none none project 0 0 = .ok st'' ∧
      st''.u = r • st.u + s • st'.u ∧ NoGradient sem (st''.p - (r • st.p + s • st'.p)) := by
  obtain ⟨st'', hst'', _⟩ := C42_step (us := List.ofFn fun i => r • us i + s • us' i) (f := r • f + s • f')
    (ps := older'' ++ [r • p2 + s • p2', r • p1 + s • p1']) (tol := 0) (atol := 0) S
    (fun j hj => by simp [hf j hj, hf' j hj]) (fun j hj => by simp [hfo j hj, hfo' j hj]) hmu hdt htime (by simp)
  refine ⟨st'', hst'', superpose_core S hmu hdt htime hf hfo hf' hfo' h h' hst'' (fun _ => rfl) ?_ ?_ rfl⟩
  · rw [sub_self]
    exact noGradient_zero S.setup.valid
  · rw [sub_self]
    exact noGradient_zero S.setup.valid

/-- Velocities and pressures computed step by step: each step takes the last `timeOrder` velocities and the last two pressures. -/
def Computed (sem : StokesSEM K d) (low : Nodes1D K) (mu dt : K) (timeOrder : ℕ) (alpha : K) (project : Bool) (f : ℕ → Vel K d)
    (U : ℕ → Vel K d) (P : ℕ → ℕ → K) : Prop :=
  ∀ n, ∃ st, sem.oneStep low (List.ofFn fun i : Fin timeOrder => U (n + i)) [P n, P (n + 1)] (f n) mu dt timeOrder alpha none none
    project 0 0 = .ok st ∧ U (n + timeOrder) = st.u ∧ P (n + 2) = st.p

/-- Whole simulations can be superposed: if the initial states and the forces of a third are combinations of those of two others,
so is every velocity, and every pressure up to one without gradient. -/
theorem C156_trajectory [IsStrictOrderedRing K] (S : StepSetup vmesh pmesh quad overQuad masks bcs sem low alpha project)
    (hmu : 0 ≤ mu) (hdt : 0 < dt) (htime : 1 ≤ timeOrder) {f f' : ℕ → Vel K d} {U U' U'' : ℕ → Vel K d} {P P' P'' : ℕ → ℕ → K}
    (hf : ∀ n j, DirichletNode masks bcs j → f n j = 0) (hfo : ∀ n j, vmesh.numNodes ≤ j → f n j = 0)
    (hf' : ∀ n j, DirichletNode masks bcs j → f' n j = 0) (hfo' : ∀ n j, vmesh.numNodes ≤ j → f' n j = 0) (r s : K)
    (h : Computed sem low mu dt timeOrder alpha project f U P) (h' : Computed sem low mu dt timeOrder alpha project f' U' P')
    (h'' : Computed sem low mu dt timeOrder alpha project (fun n => r • f n + s • f' n) U'' P'')
    (hU : ∀ i < timeOrder, U'' i = r • U i + s • U' i) (hP : ∀ i < 2, P'' i = r • P i + s • P' i) (n : ℕ) :
    U'' n = r • U n + s • U' n ∧ NoGradient sem (P'' n - (r • P n + s • P' n)) := by
  have hz := noGradient_zero S.setup.valid
  have key : ∀ n, (∀ i < timeOrder, U'' (n + i) = r • U (n + i) + s • U' (n + i)) ∧
      NoGradient sem (P'' n - (r • P n + s • P' n)) ∧ NoGradient sem (P'' (n + 1) - (r • P (n + 1) + s • P' (n + 1))) := by
    intro n
    induction n with
    | zero =>
      refine ⟨fun i hi => by rw [zero_add]; exact hU i hi, ?_, ?_⟩
      · rw [hP 0 (by norm_num), sub_self]
        exact hz
      · rw [hP 1 (by norm_num), sub_self]
        exact hz
    | succ n ih =>
      obtain ⟨h1, h2, h3⟩ := ih
      obtain ⟨st, e1, e2, e3⟩ := h n
      obtain ⟨st', e1', e2', e3'⟩ := h' n
      obtain ⟨st'', e1'', e2'', e3''⟩ := h'' n
      obtain ⟨k1, k2⟩ := superpose_core (older := []) (older' := []) (older'' := []) S hmu hdt htime (hf n) (hfo n) (hf' n) (hfo' n)
        e1 e1' e1'' (r := r) (s := s) (fun i => h1 i i.2) h2 h3 rfl
      refine ⟨fun i hi => ?_, h3, ?_⟩
      · rcases Nat.lt_or_ge (i + 1) timeOrder with hlt | hge
        · have := h1 (i + 1) hlt
          rwa [show n + (i + 1) = n + 1 + i by omega] at this
        · rw [show n + 1 + i = n + timeOrder by omega, e2, e2', e2'', k1]
      · rw [show n + 1 + 1 = n + 2 by omega, e3, e3', e3'']
        exact k2
  refine ⟨?_, (key n).2.1⟩
  have := (key n).1 0 (by omega)
  rwa [add_zero] at this

/-- Every force and every initial state has a simulation. -/
theorem computed_exists [IsStrictOrderedRing K] (S : StepSetup vmesh pmesh quad overQuad masks bcs sem low alpha project)
    (hmu : 0 ≤ mu) (hdt : 0 < dt) (htime : 1 ≤ timeOrder) {f : ℕ → Vel K d}
    (hf : ∀ n j, DirichletNode masks bcs j → f n j = 0) (hfo : ∀ n j, vmesh.numNodes ≤ j → f n j = 0)
    (u0 : ℕ → Vel K d) (p0 : ℕ → ℕ → K) :
    ∃ U P, Computed sem low mu dt timeOrder alpha project f U P ∧ (∀ i < timeOrder, U i = u0 i) ∧ ∀ i < 2, P i = p0 i := by
  have hstep : ∀ n (us : Fin timeOrder → Vel K d) (p2 p1 : ℕ → K), ∃ st, sem.oneStep low (List.ofFn us) [p2, p1] (f n) mu dt timeOrder
      alpha none none project 0 0 = .ok st := fun n us p2 p1 => by
    obtain ⟨st, hst, _⟩ := C42_step (us := List.ofFn us) (ps := [p2, p1]) (tol := 0) (atol := 0) S (hf n) (hfo n) hmu hdt htime
      (by simp)
    exact ⟨st, hst⟩
  choose g hg using hstep
  let next : ℕ → (ℕ → Vel K d) × (ℕ → K) × (ℕ → K) → (ℕ → Vel K d) × (ℕ → K) × (ℕ → K) := fun n x =>
    (fun i => if i + 1 = timeOrder then (g n (fun i => x.1 i) x.2.1 x.2.2).u else x.1 (i + 1), x.2.2,
      (g n (fun i => x.1 i) x.2.1 x.2.2).p)
  let X : ℕ → (ℕ → Vel K d) × (ℕ → K) × (ℕ → K) := fun n => Nat.rec (u0, p0 0, p0 1) next n
  have hX : ∀ n, X (n + 1) = next n (X n) := fun _ => rfl
  have hwin : ∀ i < timeOrder, ∀ n, (X n).1 i = (X (n + i)).1 0 := by
    intro i
    induction i with
    | zero => intro _ n; rfl
    | succ i ih =>
      intro hi n
      have e := ih (by omega) (n + 1)
      rw [show n + (i + 1) = n + 1 + i by omega, ← e, hX]
      simp only [next]
      rw [if_neg (by omega)]
  have hlast : ∀ n, (X (n + timeOrder)).1 0 = (g n (fun i => (X n).1 i) (X n).2.1 (X n).2.2).u := by
    intro n
    have e := hwin (timeOrder - 1) (by omega) (n + 1)
    rw [show n + 1 + (timeOrder - 1) = n + timeOrder by omega] at e
    rw [← e, hX]
    simp only [next]
    rw [if_pos (by omega)]
  refine ⟨fun n => (X n).1 0, fun n => (X n).2.1, fun n => ⟨g n (fun i => (X n).1 i) (X n).2.1 (X n).2.2, ?_, hlast n, ?_⟩,
    fun i hi => ?_, fun i hi => ?_⟩
  · have e : (fun i : Fin timeOrder => (X (n + i)).1 0) = fun i : Fin timeOrder => (X n).1 i :=
      funext fun i => (hwin i i.2 n).symm
    rw [e]
    exact hg n _ _ _
  · rfl
  · have e := hwin i hi 0
    rw [zero_add] at e
    exact e.symm
  · interval_cases i <;> rfl

end general

/-- Without the filter a step of first order with any force does not amplify the difference of two flows: the kinetic energy of the
difference, plus `dt^2` times that of the gradient of the difference of the pressures, does not grow. -/
theorem C156_errors {d : ℕ} {sem : StokesSEM ℝ d} {vmesh pmesh : Mesh ℝ d} {quad overQuad : Quadrature1D ℝ}
    {masks : List (String × (ℕ → Bool))} {bcs : List (String × BCType)} {low : Nodes1D ℝ} {mu dt : ℝ} {project : Bool}
    (S : StepSetup vmesh pmesh quad overQuad masks bcs sem low 0 project) (hmu : 0 ≤ mu) (hdt : 0 < dt) {u u' : Vel ℝ d}
    (hu : FreeField vmesh masks bcs (u - u')) (hD : sem.D u = sem.D u') {older older' : List (ℕ → ℝ)} {p2 p1 p2' p1' : ℕ → ℝ}
    (hp : p2 - p2' = p1 - p1') {f : Vel ℝ d} (hf : ∀ j, DirichletNode masks bcs j → f j = 0)
    (hfo : ∀ j, vmesh.numNodes ≤ j → f j = 0) {st st' : StokesSEM.Step ℝ d}
    (h : sem.oneStep low [u] (older ++ [p2, p1]) f mu dt 1 0 none none project 0 0 = .ok st)
    (h' : sem.oneStep low [u'] (older' ++ [p2', p1']) f mu dt 1 0 none none project 0 0 = .ok st') :
    kinetic sem vmesh (st.u - st'.u) + dt ^ 2 * gradEnergy sem vmesh (st.p - st'.p) ≤
      kinetic sem vmesh (u - u') + dt ^ 2 * gradEnergy sem vmesh (p1 - p1') := by
  have hv := S.setup.valid
  have hD' : ∀ j, sem.D (u - u') j = 0 := fun j => by
    change DLin sem (u - u') j = 0
    rw [map_sub]
    change (sem.D u - sem.D u') j = 0
    rw [hD, sub_self]
    rfl
  obtain ⟨s0, h0, hle⟩ := C132_partial S hmu hdt hu hD' [] (p1 - p1')
  obtain ⟨s1, h1, hu1, hp1⟩ := C156_superpose (us := fun _ : Fin 1 => u) (us' := fun _ : Fin 1 => u') S hmu hdt le_rfl hf hfo hf hfo
    (by simpa using h) (by simpa using h') 1 (-1) []
  have e : ∀ x y : ℕ → ℝ, (1 : ℝ) • x + (-1 : ℝ) • y = x - y := fun x y => by rw [one_smul, neg_one_smul, sub_eq_add_neg]
  have e' : ∀ x y : Vel ℝ d, (1 : ℝ) • x + (-1 : ℝ) • y = x - y := fun x y => by rw [one_smul, neg_one_smul, sub_eq_add_neg]
  simp only [e, e', sub_self, hp] at h1 hu1 hp1
  rw [show (List.ofFn fun _ : Fin 1 => u - u') = [u - u'] by simp, h0, Except.ok.injEq] at h1
  subst h1
  have hg : gradEnergy sem vmesh (st.p - st'.p) = gradEnergy sem vmesh s0.p := by
    have hq := Q_noGradient hv 1 1 hp1
    have e2 : ∀ q, sem.Q 1 1 (sem.Dt q) = QLin sem 1 1 (DtLin sem hv.pwf q) := fun _ => rfl
    rw [e2, map_sub, map_sub, ← e2, ← e2, sub_eq_zero, Q_one_one, Q_one_one] at hq
    unfold gradEnergy
    rw [hq]
  rw [hg, ← hu1]
  exact hle

/-- The same for second order, with the energy of two differences. -/
theorem C156_errors_second {d : ℕ} {sem : StokesSEM ℝ d} {vmesh pmesh : Mesh ℝ d} {quad overQuad : Quadrature1D ℝ}
    {masks : List (String × (ℕ → Bool))} {bcs : List (String × BCType)} {low : Nodes1D ℝ} {mu dt : ℝ} {project : Bool}
    (S : StepSetup vmesh pmesh quad overQuad masks bcs sem low 0 project) (hmu : 0 ≤ mu) (hdt : 0 < dt) {u2 u1 u2' u1' : Vel ℝ d}
    (hu2 : FreeField vmesh masks bcs (u2 - u2')) (hD2 : sem.D u2 = sem.D u2') (hu1 : FreeField vmesh masks bcs (u1 - u1'))
    (hD1 : sem.D u1 = sem.D u1') {older older' : List (ℕ → ℝ)} {p2 p1 p2' p1' : ℕ → ℝ}
    (hp : p2 - p2' = p1 - p1') {f : Vel ℝ d} (hf : ∀ j, DirichletNode masks bcs j → f j = 0)
    (hfo : ∀ j, vmesh.numNodes ≤ j → f j = 0) {st st' : StokesSEM.Step ℝ d}
    (h : sem.oneStep low [u2, u1] (older ++ [p2, p1]) f mu dt 2 0 none none project 0 0 = .ok st)
    (h' : sem.oneStep low [u2', u1'] (older' ++ [p2', p1']) f mu dt 2 0 none none project 0 0 = .ok st') :
    kinetic sem vmesh (st.u - st'.u) + kinetic sem vmesh ((2 : ℝ) • (st.u - st'.u) - (u1 - u1')) +
        4 / 3 * (dt ^ 2 * gradEnergy sem vmesh (st.p - st'.p)) ≤
      kinetic sem vmesh (u1 - u1') + kinetic sem vmesh ((2 : ℝ) • (u1 - u1') - (u2 - u2')) +
        4 / 3 * (dt ^ 2 * gradEnergy sem vmesh (p1 - p1')) := by
  have hv := S.setup.valid
  have hD' : ∀ {u u' : Vel ℝ d}, sem.D u = sem.D u' → ∀ j, sem.D (u - u') j = 0 := fun {u u'} hD j => by
    change DLin sem (u - u') j = 0
    rw [map_sub]
    change (sem.D u - sem.D u') j = 0
    rw [hD, sub_self]
    rfl
  obtain ⟨s0, h0, hle⟩ := C132_partial_second S hmu hdt hu2 (hD' hD2) hu1 (hD' hD1) [] (p1 - p1')
  obtain ⟨s1, h1, hu, hp1⟩ := C156_superpose (us := ![u2, u1]) (us' := ![u2', u1']) S hmu hdt (by norm_num) hf hfo hf hfo
    (by simpa using h) (by simpa using h') 1 (-1) []
  have e : ∀ x y : ℕ → ℝ, (1 : ℝ) • x + (-1 : ℝ) • y = x - y := fun x y => by rw [one_smul, neg_one_smul, sub_eq_add_neg]
  have e' : ∀ x y : Vel ℝ d, (1 : ℝ) • x + (-1 : ℝ) • y = x - y := fun x y => by rw [one_smul, neg_one_smul, sub_eq_add_neg]
  simp only [e, e', sub_self, hp] at h1 hu hp1
  rw [show (List.ofFn fun i => (![u2, u1] : Fin 2 → Vel ℝ d) i - (![u2', u1'] : Fin 2 → Vel ℝ d) i) = [u2 - u2', u1 - u1'] by simp,
    h0, Except.ok.injEq] at h1
  subst h1
  have hg : gradEnergy sem vmesh (st.p - st'.p) = gradEnergy sem vmesh s0.p := by
    have hq := Q_noGradient hv 1 1 hp1
    have e2 : ∀ q, sem.Q 1 1 (sem.Dt q) = QLin sem 1 1 (DtLin sem hv.pwf q) := fun _ => rfl
    rw [e2, map_sub, map_sub, ← e2, ← e2, sub_eq_zero, Q_one_one, Q_one_one] at hq
    unfold gradEnergy
    rw [hq]
  rw [hg, ← hu]
  exact hle

section cube

variable {n d p over : ℕ} {a b : ℝ} {per : List ℕ} {bcs : List (String × BCType)} {cs : CubeStokes d} {mu dt alpha : ℝ}
  {timeOrder : ℕ} {project : Bool}

/-- On the mesh of a cube, with walls, periodic or open: steps exist, and the step of a combination of two flows is the combination
of the steps, up to a constant in the pressure, which is zero when the cube is open. -/
theorem C156_cube (hn : 1 ≤ n) (hd : 1 ≤ d) (hp : 3 ≤ p) (hab : a < b) (hb : CubeBCs d per bcs)
    (hcs : cubeStokes n d p over a b per bcs = .ok cs) (hclosed : project = true → bcs ≠ [] ∨ ∀ k : Fin d, (k : ℕ) ∈ per)
    (hmu : 0 ≤ mu) (hdt : 0 < dt) (htime : 1 ≤ timeOrder) (us us' : Fin timeOrder → Vel ℝ d) (older older' older'' : List (ℕ → ℝ))
    (p2 p1 p2' p1' : ℕ → ℝ) {f f' : Vel ℝ d} (hf : ∀ j, DirichletNode cs.masks bcs j → f j = 0)
    (hfo : ∀ j, cs.vmesh.numNodes ≤ j → f j = 0) (hf' : ∀ j, DirichletNode cs.masks bcs j → f' j = 0)
    (hfo' : ∀ j, cs.vmesh.numNodes ≤ j → f' j = 0) (r s : ℝ) :
    ∃ st st' st'' : StokesSEM.Step ℝ d,
      cs.sem.oneStep cs.low (List.ofFn us) (older ++ [p2, p1]) f mu dt timeOrder alpha none none project 0 0 = .ok st ∧
      cs.sem.oneStep cs.low (List.ofFn us') (older' ++ [p2', p1']) f' mu dt timeOrder alpha none none project 0 0 = .ok st' ∧
      cs.sem.oneStep cs.low (List.ofFn fun i => r • us i + s • us' i) (older'' ++ [r • p2 + s • p2', r • p1 + s • p1'])
        (r • f + s • f') mu dt timeOrder alpha none none project 0 0 = .ok st'' ∧
      st''.u = r • st.u + s • st'.u ∧
      ∃ c : ℝ, (∀ j < cs.pmesh.numNodes, st''.p j = r * st.p j + s * st'.p j + c) ∧
        (bcs = [] → (∃ k : Fin d, (k : ℕ) ∉ per) → c = 0) := by
  obtain ⟨vnode, pnode, l, h⟩ := cubeStokes_of hn hd hp hab hb hcs
  have S := h.stepSetup hn hp hab hb alpha project hclosed
  obtain ⟨st, hst, _⟩ := C42_step (us := List.ofFn us) (ps := older ++ [p2, p1]) (tol := 0) (atol := 0) S hf hfo hmu hdt htime
    (by simp)
  obtain ⟨st', hst', _⟩ := C42_step (us := List.ofFn us') (ps := older' ++ [p2', p1']) (tol := 0) (atol := 0) S hf' hfo' hmu hdt htime
    (by simp)
  obtain ⟨st'', hst'', h1, h2⟩ := C156_superpose S hmu hdt htime hf hfo hf' hfo' hst hst' r s older''
  obtain ⟨c, h3, h4⟩ := noGradient_cube h hn hp hb h2
  refine ⟨st, st', st'', hst, hst', hst'', h1, c, fun j hj => ?_, h4⟩
  have := h3 j hj
  simp only [Pi.sub_apply, Pi.add_apply, Pi.smul_apply, smul_eq_mul] at this
  linarith

end cube

/-- A square with walls on one axis and periodic on the other: the force of one flow is not zero, and the pressures differ. -/
example : ∃ cs : CubeStokes 2, cubeStokes 3 2 5 2 0 1 [1] [("boundary", .dirichlet)] = .ok cs ∧
    ∀ q : ℕ → ℝ, ∃ st st' st'' : StokesSEM.Step ℝ 2,
      cs.sem.oneStep cs.low (List.ofFn fun _ : Fin 3 => 0) [fun _ => 0, fun j => (j : ℝ)] (cs.sem.Dt q) (1/10) (1/100) 3 (1/20) none
        none true 0 0 = .ok st ∧
      cs.sem.oneStep cs.low (List.ofFn fun i : Fin 3 => fun _ _ => (i : ℝ)) [fun _ => 0, fun _ => 1] 0 (1/10) (1/100) 3 (1/20)
        none none true 0 0 = .ok st' ∧
      st''.u = (2 : ℝ) • st.u + (-3 : ℝ) • st'.u := by
  have hb : CubeBCs 2 [1] [("boundary", .dirichlet)] := Or.inl ⟨rfl, 0, by simp⟩
  obtain ⟨cs, hcs⟩ := C92_create (over := 2) (n := 3) (d := 2) (p := 5) (a := 0) (b := 1) (by norm_num) (by norm_num)
    (by norm_num) (by norm_num) [1] hb
  obtain ⟨vnode, pnode, l, h⟩ := cubeStokes_of (by norm_num) (by norm_num) (by norm_num) (by norm_num) hb hcs
  have H := h.setup (by norm_num) hb
  refine ⟨cs, hcs, fun q => ?_⟩
  obtain ⟨st, st', st'', h1, h2, _, h3, _⟩ := C156_cube (by norm_num) (by norm_num) (by norm_num) (by norm_num) hb hcs
    (mu := 1/10) (dt := 1/100) (alpha := 1/20) (timeOrder := 3) (project := true) (fun _ => Or.inl (by simp)) (by norm_num)
    (by norm_num) (by norm_num) (fun _ => 0) (fun i _ _ => (i : ℝ)) [] [] [] (fun _ => 0) (fun j => (j : ℝ)) (fun _ => 0) (fun _ => 1)
    (f := cs.sem.Dt q) (f' := 0) ((H.mem_VSpace _).mp (Dt_mem q)).1 ((H.mem_VSpace _).mp (Dt_mem q)).2 (fun _ _ => rfl)
    (fun _ _ => rfl) 2 (-3)
  exact ⟨st, st', st'', h1, h2, h3⟩

/-- Two simulations of a square with walls and their combination, with different initial velocities and pressures. -/
example : ∃ cs : CubeStokes 2, cubeStokes 3 2 5 2 0 1 [] [("boundary", .dirichlet)] = .ok cs ∧
    ∃ (U U' U'' : ℕ → Vel ℝ 2) (P P' P'' : ℕ → ℕ → ℝ),
      Computed cs.sem cs.low (1/10) (1/100) 2 (1/20) true (fun _ => 0) U P ∧
      Computed cs.sem cs.low (1/10) (1/100) 2 (1/20) true (fun n => cs.sem.Dt fun j => (n : ℝ) + j) U' P' ∧
      (∀ i < 2, U i = fun _ _ => 1) ∧ (∀ i < 2, P' i = fun j : ℕ => (j : ℝ)) ∧ ∀ n, U'' n = (2 : ℝ) • U n + (-3 : ℝ) • U' n := by
  have hb : CubeBCs 2 [] [("boundary", .dirichlet)] := Or.inl ⟨rfl, 0, by simp⟩
  obtain ⟨cs, hcs⟩ := C92_create (over := 2) (n := 3) (d := 2) (p := 5) (a := 0) (b := 1) (by norm_num) (by norm_num)
    (by norm_num) (by norm_num) [] hb
  obtain ⟨vnode, pnode, l, h⟩ := cubeStokes_of (by norm_num) (by norm_num) (by norm_num) (by norm_num) hb hcs
  have S := h.stepSetup (by norm_num) (by norm_num) (by norm_num) hb (1/20) true (fun _ => Or.inl (by simp))
  have hD : ∀ q, (∀ j, DirichletNode cs.masks [("boundary", .dirichlet)] j → cs.sem.Dt q j = 0) ∧
      ∀ j, cs.vmesh.numNodes ≤ j → cs.sem.Dt q j = 0 := fun q => (S.setup.mem_VSpace _).mp (Dt_mem q)
  have hmu : (0 : ℝ) ≤ 1/10 := by norm_num
  have hdt : (0 : ℝ) < 1/100 := by norm_num
  obtain ⟨U, P, h1, h2, h3⟩ := computed_exists (timeOrder := 2) (f := fun _ => 0) S hmu hdt (by norm_num) (fun _ _ _ => rfl)
    (fun _ _ _ => rfl) (fun _ _ _ => 1) (fun _ _ => 0)
  obtain ⟨U', P', h1', h2', h3'⟩ := computed_exists (timeOrder := 2) (f := fun n => cs.sem.Dt fun j => (n : ℝ) + j) S hmu hdt
    (by norm_num) (fun _ => (hD _).1) (fun _ => (hD _).2) (fun _ _ _ => 0) (fun _ j => (j : ℝ))
  obtain ⟨U'', P'', h1'', h2'', h3''⟩ := computed_exists (timeOrder := 2)
    (f := fun n => (2 : ℝ) • (0 : Vel ℝ 2) + (-3 : ℝ) • cs.sem.Dt fun j => (n : ℝ) + j) S hmu hdt
    (by norm_num) (fun n j hj => by simp [(hD _).1 j hj]) (fun n j hj => by simp [(hD _).2 j hj])
    (fun i => (2 : ℝ) • U i + (-3 : ℝ) • U' i) (fun i => (2 : ℝ) • P i + (-3 : ℝ) • P' i)
  exact ⟨cs, hcs, U, U', U'', P, P', P'', h1, h1', h2, h3', fun n =>
    (C156_trajectory S hmu hdt (by norm_num) (fun _ _ _ => rfl) (fun _ _ _ => rfl) (fun _ => (hD _).1) (fun _ => (hD _).2) 2 (-3)
      h1 h1' h1'' h2'' h3'' n).1⟩

end Verif.NS

import Verif.Props.C103
import Verif.Lemmas.CubeFilter
import Verif.Lemmas.CubeExact
import Verif.Lemmas.BDFUnstable
import Verif.Props.C92

/-!
# C103 on cubes, and where it fails

The steps with the filter and the steps of order 7 do not converge.
-/

set_option linter.unusedSectionVars false

namespace Verif.NS

open Verif.Core Verif.Linalg Verif.Spec MvPolynomial

variable {d : ℕ} {sem : StokesSEM ℝ d}
  {vmesh pmesh : Mesh ℝ d} {quad overQuad : Quadrature1D ℝ} {masks : List (String × (ℕ → Bool))}
  {bcs : List (String × BCType)} {low : Nodes1D ℝ} {mu : ℝ} {k : ℕ} {project : Bool}

/-- Flows along one velocity without divergence, with any amplitude. -/
theorem scaled_flow (H : StokesSetup vmesh pmesh quad overQuad masks bcs sem) {v : Vel ℝ d} (hv : v ∈ TSpace sem)
    (hD : sem.D v = 0) {g : ℝ → ℝ} (hg : Differentiable ℝ g) (mu T : ℝ) :
    StokesFlow vmesh pmesh masks bcs sem mu T (fun _ => none) (fun t => deriv g t • sem.B v + (mu * g t) • sem.A v)
      (fun t => g t • v) (fun _ => 0) := by
  have hval := H.valid
  obtain ⟨_, _, hvm, hpm, _⟩ := H.fields
  have hf : ∀ t, deriv g t • sem.B v + (mu * g t) • sem.A v ∈ VSpace sem := fun t =>
    (VSpace sem).add_mem ((VSpace sem).smul_mem _ (B_mem H.massOutside)) ((VSpace sem).smul_mem _ (A_mem v))
  refine ⟨fun t _ => (mem_TSpace_iff H _).mp ((TSpace sem).smul_mem _ hv), fun t _ => by simp,
    fun t _ => (H.mem_VSpace _).mp (hf t), fun t _ j => ?_, fun t _ x hx => ?_⟩
  · have h1 := (DLin sem).map_smul (g t) v
    have h2 : sem.D (g t • v) = g t • sem.D v := h1
    rw [h2, hD]
    simp
  · have hxT := (mem_TSpace_iff H x).mpr hx
    have hder : (fun j l => deriv (fun s => (g s • v) j l) t) = deriv g t • v := by
      funext j l
      have : (fun s => (g s • v) j l) = fun s => g s * v j l := by funext s; simp
      rw [this, deriv_mul_const (hg t)]
      simp
    have hp0 : integrate sem.vspace (fun m q => divFn sem.vspace (vGather vmesh x) m q *
        scalarFn sem.pspace (pmesh.gather (0 : ℕ → ℝ)) m q) = 0 := by
      have h0 : sem.Dt (0 : ℕ → ℝ) = 0 := (DtLin sem hval.pwf).map_zero
      have h1 := Dt_dot hval x (VSpace_masked hxT.1) 0
      rw [hvm, hpm, h0, vDot_zero_right] at h1
      exact h1.symm
    have hnum : sem.numV = vmesh.numNodes := by unfold StokesSEM.numV; rw [hvm]
    have h1 := A_dot hval (VSpace_masked hxT.1) (g t • v)
    have h2 := massForm_eq H (deriv g t • v) x
    have hA : sem.A (g t • v) = g t • sem.A v := (ALin sem hval.vwf).map_smul (g t) v
    have hB : sem.B (deriv g t • v) = deriv g t • sem.B v := (BLin sem).map_smul (deriv g t) v
    have h3 := B_dot hval (VSpace_masked hxT.1) (deriv g t • v)
    have h4 : ∑ j ∈ Finset.range vmesh.numNodes, ∑ l, x j l * (deriv g t • sem.B v + (mu * g t) • sem.A v) j l =
        sem.vDot x (deriv g t • sem.B v + (mu * g t) • sem.A v) := by
      unfold StokesSEM.vDot
      rw [hnum]
    rw [hvm, hA] at h1
    rw [hB, hnum, ← h2] at h3
    rw [hder, hp0, h4, vDot_add_right, ← h1, ← h3, vDot_smul_right, vDot_smul_right, vDot_smul_right]
    ring

/-- One step along one velocity. -/
theorem scaled_step (H : StokesSetup vmesh pmesh quad overQuad masks bcs sem) (hmu : 0 ≤ mu) {dt : ℝ} (hdt : 0 < dt)
    {b : Fin (k + 1) → ℝ} (hb : bdfkCoeffs k = some b) {v : Vel ℝ d} (hv : v ∈ TSpace sem) (hD : sem.D v = 0)
    {g : ℕ → ℝ} (hg : ∑ i : Fin (k + 1), b i * g i = 0) {f : Vel ℝ d} (hf : f ∈ VSpace sem)
    (hfv : ∀ x ∈ TSpace sem, sem.vDot x f = mu * (g k * sem.vDot x (sem.A v))) {alpha s : ℝ}
    (hfil : sem.filter low alpha (g k • v) = some (s • v))
    (hvol : nodeDot sem.numP (fun _ => 1) (sem.pressureB (fun _ => 1)) ≠ 0) :
    ∃ st, sem.oneStep low (List.ofFn fun i : Fin k => g i • v) ([] ++ [0, 0]) f mu dt k alpha none none project 0 0 = .ok st ∧
      st.u = s • v ∧ st.p = 0 := by
  have hval := H.valid
  have hD' : sem.D (s • v) = 0 := by
    have h2 : sem.D (s • v) = s • sem.D v := (DLin sem).map_smul s v
    rw [h2, hD, smul_zero]
  have hmom : ∀ x ∈ TSpace sem, sem.vDot x (sem.H mu dt (b (Fin.last k)) (lift (g k • v) none)) =
      sem.vDot x (f + sem.Dt (fun j => 2 * (0 : ℕ → ℝ) j - (0 : ℕ → ℝ) j) - sem.B (fun p l => (1 / dt) *
        StokesSEM.history (List.ofFn (fun i : Fin k => b i.castSucc)) (List.ofFn fun i : Fin k => g i • v) p l)) := by
    intro x hx
    have hext : (fun j => 2 * (0 : ℕ → ℝ) j - (0 : ℕ → ℝ) j) = 0 := by funext j; simp
    have h0 : sem.Dt (0 : ℕ → ℝ) = 0 := (DtLin sem hval.pwf).map_zero
    have hhist : (fun p l => (1 / dt) * StokesSEM.history (List.ofFn (fun i : Fin k => b i.castSucc))
        (List.ofFn fun i : Fin k => g i • v) p l) = (-(b (Fin.last k) * g k / dt)) • v := by
      funext p l
      rw [C43_history]
      rw [Fin.sum_univ_castSucc] at hg
      simp only [Fin.val_castSucc, Fin.val_last] at hg
      have : ∑ i : Fin k, b i.castSucc * (g i • v) p l = (∑ i : Fin k, b i.castSucc * g i) * v p l := by
        rw [Finset.sum_mul]
        refine Finset.sum_congr rfl fun i _ => ?_
        simp only [Pi.smul_apply, smul_eq_mul]
        ring
      rw [this, eq_neg_of_add_eq_zero_left hg]
      simp only [Pi.smul_apply, smul_eq_mul]
      ring
    have hB : sem.B ((-(b (Fin.last k) * g k / dt)) • v) = (-(b (Fin.last k) * g k / dt)) • sem.B v := (BLin sem).map_smul _ v
    have hH : sem.H mu dt (b (Fin.last k)) (g k • v) = g k • sem.H mu dt (b (Fin.last k)) v := by
      have := (HLin sem hval.vwf mu dt (b (Fin.last k))).map_smul (g k) v
      rwa [HLin_apply, HLin_apply] at this
    have hH2 : sem.H mu dt (b (Fin.last k)) v = (b (Fin.last k) / dt) • sem.B v + mu • sem.A v := by
      funext j l
      simp [StokesSEM.H]
    rw [hext, h0, add_zero, hhist, hB, vDot_sub_right, hfv x hx]
    simp only [lift]
    rw [hH, hH2, vDot_smul_right, vDot_add_right, vDot_smul_right, vDot_smul_right, vDot_smul_right]
    ring
  obtain ⟨st, h1, h2, h3⟩ := step_filtered (low := low) (alpha := alpha) (us := List.ofFn fun i : Fin k => g i • v)
    (precond := none) (project := project) (ub := none) (older := []) (p2 := 0) (p1 := 0) H hf hmu hdt hb
    ((TSpace sem).smul_mem (g k) hv) hmom hfil hD' hvol
  refine ⟨st, h1, h2, h3.trans ?_⟩
  funext j
  simp

variable {n p over : ℕ} {a b : ℝ} {per : List ℕ} {cs : CubeStokes d} {vnode pnode : ℕ → ℕ → ℕ} {l : List ℝ}

theorem CubeSEM.volume_ne (h : CubeSEM n d p a b per bcs cs vnode pnode l) (hn : 1 ≤ n) :
    nodeDot cs.sem.numP (fun _ => 1) (cs.sem.pressureB (fun _ => 1)) ≠ 0 := by
  have HP := h.pressureSetup hn
  rw [mean_eq HP]
  have : integrate cs.sem.pspace (scalarFn cs.sem.pspace (cs.pmesh.gather (fun _ => (1 : ℝ)))) =
      integrate cs.sem.pspace (fun _ _ => 1) := by
    apply integrate_congr
    intro m hm q hq
    exact gather_one HP 1 m (by rw [← HP.mesh_eq]; exact hm) q hq
  rw [this]
  exact HP.volume

/-- Convergence on cubes. -/
theorem C103_cube {ub : ℝ → Option (Vel ℝ d)} {f u : ℝ → Vel ℝ d} {q : ℝ → ℕ → ℝ} {T : ℝ}
    (hn : 1 ≤ n) (hd : 1 ≤ d) (hp : 3 ≤ p) (hab : a < b) (hb : CubeBCs d per bcs)
    (hcs : cubeStokes n d p over a b per bcs = .ok cs) (hpr : project = true → bcs ≠ [] ∨ ∀ k : Fin d, (k : ℕ) ∈ per)
    (hmu : 0 ≤ mu) (hk : 1 ≤ k) (hk6 : k ≤ 6) (hT : 0 < T)
    (hflow : StokesFlow cs.vmesh cs.pmesh cs.masks bcs cs.sem mu T ub f u q)
    (hu : ∀ j l, ContDiff ℝ (k + 1) (fun t => u t j l)) (hq : ∀ j, ContDiff ℝ 2 (fun t => q t j)) :
    StokesConvergence cs.vmesh cs.pmesh cs.masks bcs cs.sem cs.low 0 mu T k project ub f u q := by
  obtain ⟨vnode, pnode, l, h⟩ := cubeStokes_of hn hd hp hab hb hcs
  exact C103_partial (h.stepSetup hn hp hab hb 0 project hpr) hmu hk hk6 hT hflow hu hq

/-- With the filter there is no convergence: the filter removes a fixed share of some steady flow in every step, however short
the steps. -/
theorem C103_violated_filter {alpha T : ℝ} (hn : 1 ≤ n) (hd : 2 ≤ d) (hp : 3 ≤ p) (hab : a < b)
    (hcs : cubeStokes n d p over a b per [] = .ok cs) (ha : alpha ≠ 0) (hmu : 0 ≤ mu) (hk : 1 ≤ k) (hT : 0 < T) :
    ∃ (f u : Vel ℝ d), StokesFlow cs.vmesh cs.pmesh cs.masks [] cs.sem mu T (fun _ => none) (fun _ => f) (fun _ => u)
        (fun _ => 0) ∧
      ¬ StokesConvergence cs.vmesh cs.pmesh cs.masks [] cs.sem cs.low alpha mu T k project (fun _ => none) (fun _ => f)
        (fun _ => u) (fun _ => 0) := by
  have hb : CubeBCs d per [] := Or.inr rfl
  obtain ⟨vnode, pnode, l, h⟩ := cubeStokes_of hn (by omega) hp hab hb hcs
  have H := h.setup hn hb
  have hval := H.valid
  obtain ⟨v, hv, hD, ⟨j, hj, i, hne⟩, hfil⟩ := h.exists_damped hn hd hp hab
  have hflow := scaled_flow H hv hD (g := fun _ => 1) (differentiable_const 1) mu T
  simp only [deriv_const, zero_smul, zero_add, one_smul, mul_one] at hflow
  refine ⟨_, _, hflow, fun hcon => ?_⟩
  obtain ⟨C, dt0, hC, hdt0, hcon⟩ := hcon
  obtain ⟨β, hβ, _⟩ := C37_exact (K := ℝ) k hk
  have hk0 : (0 : ℝ) < k := by exact_mod_cast hk
  have hx : 0 < |alpha * v j i| := abs_pos.mpr (mul_ne_zero ha hne)
  obtain ⟨dt, hdt⟩ : ∃ dt, dt = min (min dt0 1) (min (T / k) (|alpha * v j i| / (2 * C))) := ⟨_, rfl⟩
  have hpos : 0 < dt := by rw [hdt]; positivity
  have hdt1 : dt ≤ dt0 := by rw [hdt]; exact (min_le_left _ _).trans (min_le_left _ _)
  have hdt2 : dt ≤ 1 := by rw [hdt]; exact (min_le_left _ _).trans (min_le_right _ _)
  have hdt3 : dt ≤ T / k := by rw [hdt]; exact (min_le_right _ _).trans (min_le_left _ _)
  have hdt4 : dt ≤ |alpha * v j i| / (2 * C) := by rw [hdt]; exact (min_le_right _ _).trans (min_le_right _ _)
  have hsum := bdf_moments hk hβ 0 (Nat.zero_le k)
  have hmem : mu • cs.sem.A v ∈ VSpace cs.sem := (VSpace cs.sem).smul_mem mu (A_mem v)
  obtain ⟨st, hst, hu, hp0⟩ := scaled_step (low := cs.low) (project := project) (g := fun _ => 1) H hmu hpos hβ hv hD
    (by simpa using hsum) hmem (fun x _ => by rw [vDot_smul_right]; ring)
    (alpha := alpha) (s := 1 - alpha) (by rw [one_smul]; exact hfil alpha) (h.volume_ne hn)
  have hrun : StokesRun cs.sem cs.low alpha mu dt k project (fun _ => mu • cs.sem.A v) (fun _ => none) (fun _ => [])
      (fun m => if m < k then v else (1 - alpha) • v) (fun _ => 0) 0 := by
    intro m hm
    have hm0 : m = 0 := by omega
    subst hm0
    refine ⟨st, ?_, ?_, hp0.symm⟩
    · rw [← hst]
      congr 2
      funext m
      simp [m.2]
    · rw [hu]
      simp
  have hfin := hcon dt 0 _ _ 0 0 hpos hdt1 (by rw [le_div_iff₀ hk0] at hdt3; simpa [mul_comm] using hdt3) le_rfl
    (fun m hm => ⟨by simp only [if_pos hm]; exact (mem_TSpace_iff H v).mp hv, fun j => by simp only [if_pos hm, hD]; rfl,
      fun j _ l => by simp [hm]⟩) (fun m _ j _ => by simp) hrun 0 le_rfl j hj i
  have h1 := hfin.1
  have e1 : (if 0 + k < k then v else (1 - alpha) • v) j i - v j i = -(alpha * v j i) := by
    rw [if_neg (by omega)]
    simp only [Pi.smul_apply, smul_eq_mul]
    ring
  rw [e1, abs_neg] at h1
  have h2 : dt ^ min k 3 ≤ dt := by
    have := pow_le_pow_of_le_one hpos.le hdt2 (show 1 ≤ min k 3 by omega)
    rwa [pow_one] at this
  have h3 : C * dt ≤ |alpha * v j i| / 2 := by
    have := mul_le_mul_of_nonneg_left hdt4 hC.le
    rwa [show C * (|alpha * v j i| / (2 * C)) = |alpha * v j i| / 2 by field_simp] at this
  have h4 := mul_le_mul_of_nonneg_left h2 hC.le
  simp only [mul_zero, zero_add] at h1
  linarith

/-- With the backward differences of order 7 there is no convergence, not even to the fluid at rest. -/
theorem C103_violated_bdf7 {T : ℝ} (hn : 1 ≤ n) (hd : 1 ≤ d) (hp : 3 ≤ p) (hab : a < b)
    (hcs : cubeStokes n d p over a b per [] = .ok cs) (hmu : 0 ≤ mu) (hT : 0 < T) :
    StokesFlow cs.vmesh cs.pmesh cs.masks [] cs.sem mu T (fun _ => none) (fun _ => 0) (fun _ => 0) (fun _ => 0) ∧
      ¬ StokesConvergence cs.vmesh cs.pmesh cs.masks [] cs.sem cs.low 0 mu T 7 project (fun _ => none) (fun _ => 0)
        (fun _ => 0) (fun _ => 0) := by
  have hb : CubeBCs d per [] := Or.inr rfl
  obtain ⟨vnode, pnode, l, h⟩ := cubeStokes_of hn hd hp hab hb hcs
  have H := h.setup hn hb
  have hval := H.valid
  obtain ⟨_, _, hvm, _, _, _, _⟩ := H.fields
  have F : FilterSetup cs.sem.vspace.mesh cs.low := by rw [hvm]; exact h.filterSetup hp
  -- constant velocities
  obtain ⟨v, hvd⟩ : ∃ v : Vel ℝ d, v = nodal cs.vmesh (fun _ => C 1) := ⟨_, rfl⟩
  have hvj : ∀ j < cs.vmesh.numNodes, ∀ l, v j l = 1 := fun j hj l => by rw [hvd]; simp [nodal, hj]
  have hv : v ∈ TSpace cs.sem := by
    refine (mem_TSpace_iff H v).mpr ⟨fun j hj => ?_, fun i hi j hj _ => ?_, fun j _ hD => ?_⟩
    · funext l; rw [hvd]; simp [nodal, not_lt.mpr hj]
    · funext l; rw [hvj i hi, hvj j hj]
    · obtain ⟨g, m, hg, _⟩ := hD
      simp at hg
  have hD : cs.sem.D v = 0 := by
    rw [hvd]
    exact h.div_zero hn hp hb (fun k i => by simp) (by simp)
  have hA : ∀ x ∈ TSpace cs.sem, cs.sem.vDot x (cs.sem.A v) = 0 := by
    intro x hx
    have hV := fun k : Fin d => h.vcube.cells.exists_field (fun j => x j k)
    choose V hV using hV
    rw [hvd, h.stiff_dot hn hp hb hx hV (fun k i => by simp)]
    simp
  have hflow := scaled_flow H hv hD (g := fun _ => 0) (differentiable_const 0) mu T
  simp only [deriv_const, zero_smul, mul_zero, add_zero] at hflow
  refine ⟨hflow, fun hcon => ?_⟩
  obtain ⟨K, dt0, hK, hdt0, hcon⟩ := hcon
  obtain ⟨β, hβ, _⟩ := C37_exact (K := ℝ) 7 (by norm_num)
  obtain ⟨z, hz, hroot⟩ := bdf7_unstable hβ
  -- real solutions of the recurrence are bounded
  have hbound : ∀ g : ℕ → ℝ, (∀ n : ℕ, ∑ i : Fin (7 + 1), β i * g (n + i) = 0) →
      ∃ M N0, ∀ m ≥ N0, |g m| ≤ M := by
    intro g hg
    obtain ⟨G, hG⟩ : ∃ G, G = ∑ i ∈ Finset.range 7, |g i| := ⟨_, rfl⟩
    obtain ⟨N0, hN0⟩ := exists_nat_gt (T / min dt0 1)
    refine ⟨K * (G + 1), N0 + 7, fun m hm => ?_⟩
    obtain ⟨N, rfl⟩ : ∃ N, m = N + 7 := ⟨m - 7, by omega⟩
    obtain ⟨dt, hdt⟩ : ∃ dt, dt = T / (N + 7) := ⟨_, rfl⟩
    have hN7 : (0 : ℝ) < N + 7 := by positivity
    have hpos : 0 < dt := by rw [hdt]; positivity
    have hle : dt ≤ min dt0 1 := by
      rw [hdt, div_le_iff₀ hN7]
      rw [div_lt_iff₀ (by positivity)] at hN0
      have : (N0 : ℝ) ≤ N := by exact_mod_cast (by omega : N0 ≤ N)
      have h1 : (N0 : ℝ) * min dt0 1 ≤ (N + 7) * min dt0 1 := mul_le_mul_of_nonneg_right (by linarith) (by positivity)
      linarith
    have hrun : StokesRun cs.sem cs.low 0 mu dt 7 project (fun _ => 0) (fun _ => none) (fun _ => [])
        (fun m => g m • v) (fun _ => 0) N := by
      intro m _
      obtain ⟨st, hst, hu, hp0⟩ := scaled_step (low := cs.low) (project := project) (g := fun i => g (m + i)) H hmu hpos hβ hv
        hD (hg m) (VSpace cs.sem).zero_mem (fun x hx => by rw [hA x hx, vDot_zero_right]; ring)
        (alpha := 0) (s := g (m + 7)) (filter_zero F _) (h.volume_ne hn)
      exact ⟨st, hst, hu.symm, hp0.symm⟩
    have hj : 0 < cs.vmesh.numNodes := by
      have := h.vcube.cells.lt 0 (Nat.pow_pos hn) 0 (by unfold Mesh.nodesPerElem; exact Nat.pow_pos h.vcube.cells.numPos)
      omega
    have h1 := (hcon dt N _ _ G 0 hpos (hle.trans (min_le_left _ _))
      (by rw [hdt]; push_cast; exact (mul_div_cancel₀ T hN7.ne').le) le_rfl
      (fun i hi => ⟨(mem_TSpace_iff H _).mp ((TSpace cs.sem).smul_mem _ hv), fun j => ?_, fun j hj l => ?_⟩)
      (fun m _ j _ => by simp) hrun N le_rfl 0 hj ⟨0, hd⟩).1
    · have h2 : dt ^ min 7 3 ≤ 1 := pow_le_one₀ hpos.le (hle.trans (min_le_right _ _))
      simp only [Pi.smul_apply, smul_eq_mul, hvj 0 hj, mul_one, Pi.zero_apply, sub_zero, mul_zero, add_zero] at h1
      exact h1.trans (mul_le_mul_of_nonneg_left (by linarith) hK.le)
    · have h2 : cs.sem.D (g i • v) = g i • cs.sem.D v := (DLin cs.sem).map_smul (g i) v
      rw [h2, hD]
      simp
    · simp only [Pi.smul_apply, smul_eq_mul, hvj j hj, mul_one, Pi.zero_apply, sub_zero]
      rw [hG]
      exact Finset.single_le_sum (f := fun i => |g i|) (fun _ _ => abs_nonneg _) (Finset.mem_range.mpr hi)
  have hre : ∀ n : ℕ, ∑ i : Fin (7 + 1), β i * (z ^ (n + (i : ℕ))).re = 0 := by
    intro n
    have := congrArg Complex.re (hroot n)
    simpa only [Complex.re_sum, Complex.re_ofReal_mul, Complex.zero_re] using this
  have him : ∀ n : ℕ, ∑ i : Fin (7 + 1), β i * (z ^ (n + (i : ℕ))).im = 0 := by
    intro n
    have := congrArg Complex.im (hroot n)
    simpa only [Complex.im_sum, Complex.im_ofReal_mul, Complex.zero_im] using this
  obtain ⟨M1, N1, hM1⟩ := hbound (fun m => (z ^ m).re) hre
  obtain ⟨M2, N2, hM2⟩ := hbound (fun m => (z ^ m).im) him
  obtain ⟨m, hm⟩ := pow_unbounded_of_one_lt (M1 + M2) hz
  have h1 : ‖z‖ ^ m ≤ ‖z‖ ^ (m + N1 + N2) := pow_le_pow_right₀ hz.le (by omega)
  have h2 := Complex.norm_le_abs_re_add_abs_im (z ^ (m + N1 + N2))
  rw [norm_pow] at h2
  have h3 := hM1 (m + N1 + N2) (by omega)
  have h4 := hM2 (m + N1 + N2) (by omega)
  linarith

/-- The hypotheses can be met by a flow that changes in time: the amplitude of a shear flow on a square oscillates. -/
example : ∃ cs : CubeStokes 2, cubeStokes 2 2 3 2 0 1 [0, 1] [] = .ok cs ∧ ∃ f u q,
    StokesFlow cs.vmesh cs.pmesh cs.masks [] cs.sem 1 1 (fun _ => none) f u q ∧ u 0 ≠ u 1 ∧
    (∀ j l, ContDiff ℝ (3 + 1) (fun t => u t j l)) ∧ (∀ j, ContDiff ℝ 2 (fun t => q t j)) ∧
    StokesConvergence cs.vmesh cs.pmesh cs.masks [] cs.sem cs.low 0 1 1 3 true (fun _ => none) f u q := by
  have hb : CubeBCs 2 [0, 1] [] := Or.inr rfl
  obtain ⟨cs, vnode, pnode, l, hcs, h⟩ := cubeStokes_spec (n := 2) (d := 2) (p := 3) (over := 2) (a := 0) (b := 1) (by norm_num)
    (by norm_num) (by norm_num) (by norm_num) [0, 1] hb
  have H := h.setup (by norm_num) hb
  obtain ⟨v, hv, hD, ⟨j, hj, i, hne⟩, _⟩ := h.exists_damped (by norm_num) (by norm_num) (by norm_num) (by norm_num)
  have hflow := scaled_flow H hv hD (g := fun t => t ^ 2) (by fun_prop) 1 1
  have hu : ∀ j l, ContDiff ℝ (3 + 1) (fun t : ℝ => (t ^ 2 • v) j l) := fun j l => by
    simp only [Pi.smul_apply, smul_eq_mul]
    fun_prop
  have hq : ∀ j : ℕ, ContDiff ℝ 2 (fun _ : ℝ => (0 : ℕ → ℝ) j) := fun j => contDiff_const
  refine ⟨cs, hcs, _, _, _, hflow, fun he => hne ?_, hu, hq, ?_⟩
  · have := congrFun (congrFun he j) i
    simpa using this.symm
  · exact C103_cube (by norm_num) (by norm_num) (by norm_num) (by norm_num) hb hcs
      (fun _ => Or.inr fun k => by fin_cases k <;> simp) (by norm_num) (by norm_num) (by norm_num) (by norm_num) hflow hu hq

end Verif.NS

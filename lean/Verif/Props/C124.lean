import Verif.Lemmas.CubeEnergy
import Verif.Lemmas.StokesGrad
import Verif.Props.C121

/-!
# C124: the filter and the kinetic energy

The filter moves a velocity towards its interpolant on the coarse grid. That interpolation is not orthogonal in the kinetic
energy: the filter adds energy to some velocities. Repeated filtering stays between the velocity and its interpolant.
-/

set_option linter.unusedSectionVars false

namespace Verif.NS

open Verif.Core Verif.Linalg Verif.Spec

section general

variable {K : Type*} [Field K] [LinearOrder K] [IsStrictOrderedRing K] {d : ℕ}
  {vmesh pmesh : Mesh K d} {quad overQuad : Quadrature1D K} {masks : List (String × (ℕ → Bool))}
  {bcs : List (String × BCType)} {sem : StokesSEM K d} {low : Nodes1D K} {u : Vel K d} {alpha : K}

/-- The filter applied `m` times. -/
def filtered (sem : StokesSEM K d) (low : Nodes1D K) (alpha : K) (u : Vel K d) : ℕ → Option (Vel K d)
  | 0 => some u
  | m + 1 => (filtered sem low alpha u m).bind (sem.filter low alpha)

/-- Equal values on copies of a node, as all velocities of the solver have. -/
def OnCopies (vmesh : Mesh K d) (u : Vel K d) : Prop :=
  ∀ i < vmesh.numNodes, ∀ j < vmesh.numNodes, SameNode vmesh i j → u i = u j

/-- No element has only some of its nodes. -/
def WholeElements (vmesh : Mesh K d) : Prop :=
  ∀ m < vmesh.numElements, ∀ n < vmesh.nodesPerElem, ∀ n' < vmesh.nodesPerElem,
    vmesh.elements m n = sentinel → vmesh.elements m n' = sentinel

theorem mass_add (H : StokesSetup vmesh pmesh quad overQuad masks bcs sem) (x y : K) (u v : Vel K d) :
    kinetic sem vmesh (x • u + y • v) = x ^ 2 * kinetic sem vmesh u +
      2 * (x * y) * vMassForm sem.vspace (vGather vmesh u) (vGather vmesh v) + y ^ 2 * kinetic sem vmesh v := by
  rw [kinetic_eq H, kinetic_eq H, kinetic_eq H, massForm_eq H]
  simp only [Finset.mul_sum, ← Finset.sum_add_distrib, Pi.add_apply, Pi.smul_apply, smul_eq_mul]
  refine Finset.sum_congr rfl fun j _ => Finset.sum_congr rfl fun k _ => ?_
  ring

/-- C124 as far as it holds: repeated filtering moves a velocity on the segment to its interpolant on the coarse grid, which
the filter keeps. Its energy never exceeds the larger one of the two. Missing: the interpolant may have more energy. -/
theorem C124_partial (H : StokesSetup vmesh pmesh quad overQuad masks bcs sem) (F : FilterSetup vmesh low)
    (hle : low.numPoints ≤ vmesh.grid.numPoints) (hal : Aligned vmesh low) (hfull : WholeElements vmesh) (hu : OnCopies vmesh u) :
    ∃ r, sem.filter low 1 u = some r ∧ (∀ alpha, sem.filter low alpha r = some r) ∧
      ∀ alpha m, ∃ w, filtered sem low alpha u m = some w ∧ w = (1 - alpha) ^ m • u + (1 - (1 - alpha) ^ m) • r ∧
        (0 ≤ alpha → alpha ≤ 1 → kinetic sem vmesh w ≤ max (kinetic sem vmesh u) (kinetic sem vmesh r)) := by
  obtain ⟨_, _, hvm, _⟩ := H.fields
  obtain ⟨mask, _, hcr⟩ := H.create
  obtain ⟨_, _, _, _, hdiag, _⟩ := StokesSEM.create_fields hcr
  have F' : FilterSetup sem.vspace.mesh low := by rw [hvm]; exact F
  obtain ⟨r, h1, _, h2, h3⟩ := filter_kept (sem := sem) (u := u) F' (by rw [hvm]; exact hle) (by rw [hvm]; exact H.vrange)
    (by rw [hvm]; exact hal) (by rw [hvm]; exact hdiag) (by rw [hvm]; exact H.covered) (by rw [hvm]; exact hfull)
    (fun k i hi j hj hs => by rw [hvm] at hi hj hs; beta_reduce; rw [hu i hi j hj hs])
  refine ⟨r, h1, h2, fun alpha m => ⟨_, ?_, rfl, fun h0 h1 => ?_⟩⟩
  · obtain ⟨L, hL⟩ := filter_linear (sem := sem) F' alpha
    have hLu : L u = (1 - alpha) • u + alpha • r := Option.some.inj ((hL u).symm.trans (h3 alpha))
    have hLr : L r = r := Option.some.inj ((hL r).symm.trans (h2 alpha))
    induction m with
    | zero => simp [filtered]
    | succ m ih =>
      rw [filtered, ih, Option.bind_some, hL, map_add, map_smul, map_smul, hLu, hLr]
      congr 1
      funext j k
      simp only [Pi.add_apply, Pi.smul_apply, smul_eq_mul]
      ring
  · obtain ⟨x, hx⟩ : ∃ x, x = (1 - alpha) ^ m := ⟨_, rfl⟩
    have hx0 : 0 ≤ x := by rw [hx]; exact pow_nonneg (by linarith) m
    have hx1 : x ≤ 1 := by rw [hx]; exact pow_le_one₀ (by linarith) (by linarith)
    rw [← hx, mass_add H]
    have hsq := (kinetic_nonneg H ((1 : K) • u + (-1 : K) • r)).1
    rw [mass_add H] at hsq
    obtain ⟨M, hM⟩ : ∃ M, M = max (kinetic sem vmesh u) (kinetic sem vmesh r) := ⟨_, rfl⟩
    have hMu : kinetic sem vmesh u ≤ M := by rw [hM]; exact le_max_left _ _
    have hMr : kinetic sem vmesh r ≤ M := by rw [hM]; exact le_max_right _ _
    rw [← hM]
    have hxy : 0 ≤ x * (1 - x) := mul_nonneg hx0 (by linarith)
    have e1 := mul_le_mul_of_nonneg_left hMu hx0
    have e2 := mul_le_mul_of_nonneg_left hMr (by linarith : 0 ≤ 1 - x)
    have e3 := mul_nonneg hxy hsq
    linarith

/-- The energy that the filter adds: it depends on the overlap of what is removed and what is kept. -/
theorem C124_change (H : StokesSetup vmesh pmesh quad overQuad masks bcs sem) (F : FilterSetup vmesh low)
    (hle : low.numPoints ≤ vmesh.grid.numPoints) (hal : Aligned vmesh low) (hfull : WholeElements vmesh) (hu : OnCopies vmesh u) :
    ∃ r, sem.filter low 1 u = some r ∧ ∀ alpha, ∃ w, sem.filter low alpha u = some w ∧
      kinetic sem vmesh w = kinetic sem vmesh u - alpha * (2 - alpha) * kinetic sem vmesh (u - r) -
        2 * alpha * vMassForm sem.vspace (vGather vmesh (u - r)) (vGather vmesh r) := by
  obtain ⟨r, h1, _, h3⟩ := C124_partial H F hle hal hfull hu
  refine ⟨r, h1, fun alpha => ?_⟩
  obtain ⟨w, hw, he, _⟩ := h3 alpha 1
  refine ⟨w, by simpa [filtered] using hw, ?_⟩
  have e1 : w = (1 - alpha) • (u - r) + (1 : K) • r := by
    rw [he]
    funext j k
    simp only [Pi.add_apply, Pi.smul_apply, Pi.sub_apply, smul_eq_mul]
    ring
  have e2 : u = (1 : K) • (u - r) + (1 : K) • r := by
    funext j k
    simp only [Pi.add_apply, Pi.smul_apply, Pi.sub_apply, smul_eq_mul]
    ring
  have e3 := mass_add H 1 1 (u - r) r
  rw [← e2] at e3
  rw [e1, mass_add H, e3]
  ring

end general

section cube

variable {n d p over : ℕ} {a b : ℝ} {per : List ℕ} {cs : CubeStokes d}

/-- The meshes of `unit_cube_mesh` meet the hypotheses of `C124_partial` and `C124_change`. -/
theorem C124_cube {bcs : List (String × BCType)} (hn : 1 ≤ n) (hd : 1 ≤ d) (hp : 3 ≤ p) (hab : a < b) (hb : CubeBCs d per bcs)
    (hcs : cubeStokes n d p over a b per bcs = .ok cs) :
    StokesSetup cs.vmesh cs.pmesh cs.quad cs.overQuad cs.masks bcs cs.sem ∧ FilterSetup cs.vmesh cs.low ∧
      cs.low.numPoints ≤ cs.vmesh.grid.numPoints ∧ Aligned cs.vmesh cs.low ∧ WholeElements cs.vmesh := by
  obtain ⟨vnode, pnode, l, h⟩ := cubeStokes_of hn hd hp hab hb hcs
  have hC := h.vcube.cells
  refine ⟨h.setup hn hb, h.filterSetup hp, by rw [h.lowPoints, hC.points]; omega, h.aligned hn hab, fun m hm n' hn' _ _ hs => ?_⟩
  rw [hC.elem m (by rw [← hC.num]; exact hm) n' hn'] at hs
  unfold sentinel at hs
  omega

/-- Ten applications of the filter to a velocity with one nonzero component, on a channel. -/
example : ∃ (cs : CubeStokes 2) (r w : Vel ℝ 2), cubeStokes 3 2 4 1 (-1) 1 [0] [("boundary", .dirichlet)] = .ok cs ∧
    cs.sem.filter cs.low 1 (fun j k => if k = 0 then cs.vmesh.coords j 1 ^ 7 else 0) = some r ∧
    filtered cs.sem cs.low (1 / 20) (fun j k => if k = 0 then cs.vmesh.coords j 1 ^ 7 else 0) 10 = some w ∧
    kinetic cs.sem cs.vmesh w ≤ max (kinetic cs.sem cs.vmesh fun j k => if k = 0 then cs.vmesh.coords j 1 ^ 7 else 0)
      (kinetic cs.sem cs.vmesh r) := by
  have hb : CubeBCs 2 [0] [("boundary", .dirichlet)] := Or.inl ⟨rfl, 1, by simp⟩
  obtain ⟨cs, hcs⟩ := C92_create (over := 1) (n := 3) (d := 2) (p := 4) (a := -1) (b := 1) (by norm_num) (by norm_num)
    (by norm_num) (by norm_num) [0] hb
  obtain ⟨H, F, hle, hal, hfull⟩ := C124_cube (by norm_num) (by norm_num) (by norm_num) (by norm_num) hb hcs
  obtain ⟨vnode, pnode, l, h⟩ := cubeStokes_of (by norm_num) (by norm_num) (by norm_num) (by norm_num) hb hcs
  obtain ⟨r, h1, _, h2⟩ := C124_partial (u := fun j k => if k = 0 then cs.vmesh.coords j 1 ^ 7 else 0) H F hle hal hfull
    (fun i hi j hj hs => funext fun k => by
      beta_reduce
      rcases (h.same_iff hi hj).mp hs 1 with he | ⟨hper, _⟩
      · rw [he]
      · simp at hper)
  obtain ⟨w, h3, _, h4⟩ := h2 (1 / 20) 10
  exact ⟨cs, r, w, hcs, h1, h3, h4 (by norm_num) (by norm_num)⟩

/-- C124 is false: on every cube mesh of order at least four and for every strength there are velocities whose energy the filter
increases, by any amount. -/
theorem C124_violated (hn : 1 ≤ n) (hd : 1 ≤ d) (hp : 4 ≤ p) (hab : a < b) (hcs : cubeStokes n d p over a b per [] = .ok cs)
    {alpha : ℝ} (ha : 0 < alpha) (gain : ℝ) : ∃ u w : Vel ℝ d, FreeField cs.vmesh cs.masks [] u ∧
      cs.sem.filter cs.low alpha u = some w ∧ kinetic cs.sem cs.vmesh u + gain < kinetic cs.sem cs.vmesh w := by
  have hb : CubeBCs d per [] := Or.inr rfl
  obtain ⟨vnode, pnode, l, h⟩ := cubeStokes_of hn hd (by omega) hab hb hcs
  have H := h.setup hn hb
  obtain ⟨_, _, hvm, _⟩ := H.fields
  have F : FilterSetup cs.sem.vspace.mesh cs.low := by rw [hvm]; exact h.filterSetup (by omega)
  obtain ⟨w, hw, g, hg, hfw, hfg, hne⟩ := h.exists_oblique hcs hn hp
  obtain ⟨L, hL⟩ := filter_linear (sem := cs.sem) F alpha
  have hLw : L w = (1 - alpha) • w := Option.some.inj ((hL w).symm.trans (hfw alpha))
  have hLg : L g = g := Option.some.inj ((hL g).symm.trans (hfg alpha))
  obtain ⟨E, hE⟩ : ∃ E, E = kinetic cs.sem cs.vmesh w := ⟨_, rfl⟩
  obtain ⟨M, hM⟩ : ∃ M, M = vMassForm cs.sem.vspace (vGather cs.vmesh w) (vGather cs.vmesh g) := ⟨_, rfl⟩
  rw [← hM] at hne
  have hE0 : 0 ≤ E := by rw [hE]; exact (kinetic_nonneg H w).1
  obtain ⟨c, hc⟩ : ∃ c, c = -M / (2 * (E + 1)) := ⟨_, rfl⟩
  obtain ⟨δ, hδ⟩ : ∃ δ, δ = alpha * M ^ 2 / (2 * (E + 1)) := ⟨_, rfl⟩
  have hδ0 : 0 < δ := by rw [hδ]; positivity
  have hgap : δ ≤ -(alpha * (2 - alpha) * c ^ 2 * E) - 2 * alpha * c * M := by
    have e1 : -(2 * alpha * c * M) = 2 * δ := by rw [hδ, hc]; field_simp
    have e2 : 2 * alpha * c ^ 2 * E ≤ δ := by
      have e3 : 2 * alpha * c ^ 2 * E = δ * (E / (E + 1)) := by rw [hδ, hc]; field_simp
      rw [e3]
      refine mul_le_of_le_one_right hδ0.le ?_
      rw [div_le_one (by linarith)]
      linarith
    have e4 : 0 ≤ alpha ^ 2 * c ^ 2 * E := by positivity
    have e5 : alpha * (2 - alpha) * c ^ 2 * E = 2 * alpha * c ^ 2 * E - alpha ^ 2 * c ^ 2 * E := by ring
    linarith
  obtain ⟨s, hs⟩ : ∃ s, s = 1 + |gain| / δ := ⟨_, rfl⟩
  have hs1 : 1 ≤ s := by rw [hs]; have : 0 ≤ |gain| / δ := by positivity
                         linarith
  refine ⟨(s * c) • w + s • g, (s * c * (1 - alpha)) • w + s • g, ?_, ?_, ?_⟩
  · have hT := (TSpace cs.sem).add_mem ((TSpace cs.sem).smul_mem (s * c) hw) ((TSpace cs.sem).smul_mem s hg)
    have hV := (H.mem_VSpace _).mp hT.1
    refine ⟨hV.1, hV.2, fun i hi j hj hsm => funext fun k => ?_⟩
    exact hT.2 k i (by rw [hvm]; exact hi) j (by rw [hvm]; exact hj) (by rw [hvm]; exact hsm)
  · rw [hL, map_add, map_smul, map_smul, hLw, hLg, smul_smul]
  · rw [mass_add H, mass_add H, ← hE, ← hM]
    have h1 : δ ≤ s * δ := le_mul_of_one_le_left hδ0.le hs1
    have h2 : s * δ ≤ s * (s * δ) := le_mul_of_one_le_left (by positivity) hs1
    have h3 : s * δ = δ + |gain| := by rw [hs]; field_simp
    have h4 := le_abs_self gain
    have h5 := mul_le_mul_of_nonneg_left hgap (by positivity : 0 ≤ s * s)
    have h6 : s * s * (-(alpha * (2 - alpha) * c ^ 2 * E) - 2 * alpha * c * M) =
        ((s * c * (1 - alpha)) ^ 2 * E + 2 * (s * c * (1 - alpha) * s) * M) - ((s * c) ^ 2 * E + 2 * (s * c * s) * M) := by ring
    have h7 : s * (s * δ) = s * s * δ := by ring
    linarith

/-- A periodic square with elements of order four and the default strength 0.05. -/
example : ∃ (cs : CubeStokes 2) (u w : Vel ℝ 2), cubeStokes 4 2 4 2 0 1 [0, 1] [] = .ok cs ∧
    FreeField cs.vmesh cs.masks [] u ∧ cs.sem.filter cs.low (1 / 20) u = some w ∧
    kinetic cs.sem cs.vmesh u + 1000 < kinetic cs.sem cs.vmesh w := by
  have hb : CubeBCs 2 [0, 1] [] := Or.inr rfl
  obtain ⟨cs, hcs⟩ := C92_create (over := 2) (n := 4) (d := 2) (p := 4) (a := 0) (b := 1) (by norm_num) (by norm_num)
    (by norm_num) (by norm_num) [0, 1] hb
  obtain ⟨u, w, h1, h2, h3⟩ := C124_violated (by norm_num) (by norm_num) (by norm_num) (by norm_num) hcs
    (by norm_num : (0 : ℝ) < 1 / 20) 1000
  exact ⟨cs, u, w, hcs, h1, h2, h3⟩

end cube

end Verif.NS

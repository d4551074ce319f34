import Verif.Lemmas.RolloutGrad
import Verif.Lemmas.NetVjp
import Verif.Props.C123

/-!
# C133: the gradient of a training step

`jax.value_and_grad` runs the training loss backwards, through the errors of the frames, the steps of the solver with their
linear solves, the history of velocities, pressures and convection terms, the permutation of the elements and the network. On
meshes without Dirichlet nodes and with exact solves the result is the derivative of the loss with respect to the weights.
-/

namespace Verif.Niles

open Verif.Core Verif.NS

variable {E : Type*} [NormedAddCommGroup E] [NormedSpace ℝ E] {vmesh pmesh : Mesh ℝ 2} {quad overQuad : Quadrature1D ℝ}
  {masks : List (String × (ℕ → Bool))} {bcs : List (String × BCType)} {sem : StokesSEM ℝ 2} {low : Nodes1D ℝ} {wave : ℝ → ℝ}
  {c : SolverConfig ℝ} {nets : E → ℕ → Closure ℝ} {vjps : ℕ → NetVjp ℝ (E →L[ℝ] ℝ)} {θ₀ : E} {batch : List (Example ℝ)} {n : ℕ}

/-- Whatever the number of steps, of pushforward steps and of examples: the loss is defined for all weights, the reverse pass
succeeds, and its result is the derivative of the loss with the first `push` steps stopped. -/
theorem C133_gradient (S : StepSetup vmesh pmesh quad overQuad masks bcs sem low c.alpha true)
    (hfree : ∀ j < vmesh.numNodes, ¬ DirichletNode masks bcs j) (hT : 2 ≤ c.timeOrder) (hRe : 0 < c.reynolds) (hdt : 0 < c.dt)
    (hatol : c.atol = 0) (hc : SizesMatch c vmesh)
    (hnet : ∀ θ b, KeepsShapeAt vmesh.numElements (vmesh.nodesPerElem * 2) (nets θ b))
    (hvjp : ∀ b, VjpOf vmesh.numElements (vmesh.nodesPerElem * 2) (fun θ => nets θ b) (vjps b) θ₀) (hb : batch ≠ [])
    (hlen : ∀ ex ∈ batch, c.timeOrder + n ≤ ex.u.length ∧ c.timeOrder ≤ ex.p.length) (push : ℕ) (pen : ℝ) :
    ∃ (l : E → ℝ) (mse : E → List ℝ) (g : E →L[ℝ] ℝ),
      (∀ θ, trainLoss low wave c sem nets pen n push batch θ₀ θ = .ok (l θ, mse θ)) ∧
      lossVjp low wave c sem (nets θ₀) vjps push pen n batch = .ok g ∧ HasFDerivAt l g θ₀ := by
  obtain ⟨rs, g, h1, h2, h3, h4⟩ := rollouts_grad (wave := wave) S hfree hT hRe hdt hatol hc hnet hvjp (push := push) pen
    batch.length n 0 batch hlen
  have hne : batch.isEmpty = false := by
    cases batch with
    | nil => exact absurd rfl hb
    | cons => rfl
  refine ⟨_, fun θ => (List.range n).map fun i => meanOf ((rs θ).map fun r => frameLoss sem (r.1.getD i 0) (r.2.1.getD i 0)), g,
    fun θ => ?_, ?_, h4⟩
  · rw [C123_mixed]
    unfold computeLoss
    rw [hne]
    have e := h1 θ
    unfold pushNet at e
    simp only [Bool.false_eq_true, if_false, e, Except.ok.injEq, Prod.mk.injEq, and_true]
    exact loss_shares pen n _ _ (h2 θ)
  · unfold lossVjp
    rw [hne]
    simpa using h3

/-- Without pushforward steps the reverse pass gives the derivative of the loss itself. -/
theorem C133_loss (S : StepSetup vmesh pmesh quad overQuad masks bcs sem low c.alpha true)
    (hfree : ∀ j < vmesh.numNodes, ¬ DirichletNode masks bcs j) (hT : 2 ≤ c.timeOrder) (hRe : 0 < c.reynolds) (hdt : 0 < c.dt)
    (hatol : c.atol = 0) (hc : SizesMatch c vmesh)
    (hnet : ∀ θ b, KeepsShapeAt vmesh.numElements (vmesh.nodesPerElem * 2) (nets θ b))
    (hvjp : ∀ b, VjpOf vmesh.numElements (vmesh.nodesPerElem * 2) (fun θ => nets θ b) (vjps b) θ₀) (hb : batch ≠ [])
    (hlen : ∀ ex ∈ batch, c.timeOrder + n ≤ ex.u.length ∧ c.timeOrder ≤ ex.p.length) (pen : ℝ) :
    ∃ (l : E → ℝ) (mse : E → List ℝ) (g : E →L[ℝ] ℝ),
      (∀ θ, computeLoss low wave c sem (nets θ) pen n batch = .ok (l θ, mse θ)) ∧
      lossVjp low wave c sem (nets θ₀) vjps 0 pen n batch = .ok g ∧ HasFDerivAt l g θ₀ := by
  obtain ⟨l, mse, g, h1, h2, h3⟩ := C133_gradient (wave := wave) S hfree hT hRe hdt hatol hc hnet hvjp hb hlen 0 pen
  exact ⟨l, mse, g, fun θ => by rw [← C123_zero θ₀ θ]; exact h1 θ, h2, h3⟩

/-- Then small steps in every direction on which the gradient is negative decrease the loss; the value of the loss before the
step is the one that `train_step` reports. -/
theorem C133_descent (S : StepSetup vmesh pmesh quad overQuad masks bcs sem low c.alpha true)
    (hfree : ∀ j < vmesh.numNodes, ¬ DirichletNode masks bcs j) (hT : 2 ≤ c.timeOrder) (hRe : 0 < c.reynolds) (hdt : 0 < c.dt)
    (hatol : c.atol = 0) (hc : SizesMatch c vmesh)
    (hnet : ∀ θ b, KeepsShapeAt vmesh.numElements (vmesh.nodesPerElem * 2) (nets θ b))
    (hvjp : ∀ b, VjpOf vmesh.numElements (vmesh.nodesPerElem * 2) (fun θ => nets θ b) (vjps b) θ₀) (hb : batch ≠ [])
    (hlen : ∀ ex ∈ batch, c.timeOrder + n ≤ ex.u.length ∧ c.timeOrder ≤ ex.p.length) (pen : ℝ) {g : E →L[ℝ] ℝ}
    (hg : lossVjp low wave c sem (nets θ₀) vjps 0 pen n batch = .ok g) {v : E} (hv : g v < 0) :
    ∃ ε : ℝ, 0 < ε ∧ ∀ t : ℝ, 0 < t → t < ε → ∃ l l' mse mse', computeLoss low wave c sem (nets θ₀) pen n batch = .ok (l, mse) ∧
      computeLoss low wave c sem (nets (θ₀ + t • v)) pen n batch = .ok (l', mse') ∧ l' < l := by
  obtain ⟨l, mse, g', h1, h2, h3⟩ := C133_loss (wave := wave) S hfree hT hRe hdt hatol hc hnet hvjp hb hlen pen
  rw [hg, Except.ok.injEq] at h2
  subst h2
  have hd : HasDerivAt (fun t : ℝ => l (θ₀ + t • v)) (g v) 0 := by
    have e : HasFDerivAt l g (θ₀ + (0 : ℝ) • v) := by simpa using h3
    have h4 : HasDerivAt (fun t : ℝ => θ₀ + t • v) v 0 := by
      simpa using ((hasDerivAt_id (0 : ℝ)).smul_const v).const_add θ₀
    exact e.comp_hasDerivAt 0 h4
  have hlt := hd.hasDerivWithinAt (s := Set.Ioi 0)
  rw [hasDerivWithinAt_iff_tendsto_slope' (by simp)] at hlt
  have hev := hlt.eventually (gt_mem_nhds hv)
  rw [eventually_nhdsWithin_iff, Metric.eventually_nhds_iff] at hev
  obtain ⟨ε, hε, h⟩ := hev
  refine ⟨ε, hε, fun t ht hte => ⟨_, _, _, _, h1 θ₀, h1 _, ?_⟩⟩
  have hs := h (y := t) (by rw [dist_zero_right, Real.norm_of_nonneg ht.le]; exact hte) ht
  rw [slope_def_field, div_lt_iff₀ (by linarith)] at hs
  simp only [zero_smul, add_zero, zero_mul] at hs
  linarith

/-- The periodic square of the training script: every resolution, order, domain, time order, Reynolds number, step size, filter
strength, number of steps and of pushforward steps, and every network that is differentiable in weights and tokens. -/
theorem C133_square {N p over : ℕ} {a b : ℝ} (hN : 1 ≤ N) (hp : 3 ≤ p) (hab : a < b) {cs : CubeStokes 2}
    (hcs : cubeStokes N 2 p over a b [0, 1] [] = .ok cs) (hT : 2 ≤ c.timeOrder) (hRe : 0 < c.reynolds) (hdt : 0 < c.dt)
    (hatol : c.atol = 0) (hc : SizesMatch c cs.vmesh)
    (hnet : ∀ θ b, KeepsShapeAt cs.vmesh.numElements (cs.vmesh.nodesPerElem * 2) (nets θ b))
    (hdiff : ∀ b, NetDiff cs.vmesh.numElements (cs.vmesh.nodesPerElem * 2) (fun θ => nets θ b) θ₀) (hb : batch ≠ [])
    (hlen : ∀ ex ∈ batch, c.timeOrder + n ≤ ex.u.length ∧ c.timeOrder ≤ ex.p.length) (push : ℕ) (pen : ℝ) :
    ∃ (l : E → ℝ) (mse : E → List ℝ) (g : E →L[ℝ] ℝ),
      (∀ θ, trainLoss cs.low wave c cs.sem nets pen n push batch θ₀ θ = .ok (l θ, mse θ)) ∧
      lossVjp cs.low wave c cs.sem (nets θ₀)
        (fun b => derivVjp cs.vmesh.numElements (cs.vmesh.nodesPerElem * 2) (fun θ => nets θ b) θ₀) push pen n batch = .ok g ∧
      HasFDerivAt l g θ₀ := by
  have hB : CubeBCs 2 [0, 1] [] := Or.inr rfl
  obtain ⟨vnode, pnode, lg, h⟩ := cubeStokes_of hN (by norm_num) hp hab hB hcs
  have S := h.stepSetup hN hp hab hB c.alpha true (fun _ => Or.inr fun k => by fin_cases k <;> simp)
  exact C133_gradient S (fun j hj hD => ((h.dirichlet_iff hB hj).1 hD).1 rfl) hT hRe hdt hatol hc hnet
    (fun b => (hdiff b).vjpOf) hb hlen push pen

/-- The network of the code on the periodic square: encoder, latent SDE and decoder, for all weights that depend differentiably on
a parameter and all noise, when the encoder does not take maxima over strides. -/
theorem C133_network {N p over : ℕ} {a b : ℝ} (hN : 1 ≤ N) (hp : 3 ≤ p) (hab : a < b) {cs : CubeStokes 2}
    (hcs : cubeStokes N 2 p over a b [0, 1] [] = .ok cs) (hT : 2 ≤ c.timeOrder) (hRe : 0 < c.reynolds) (hdt : 0 < c.dt)
    (hatol : c.atol = 0) (hc : SizesMatch c cs.vmesh) (hM : 0 < cs.vmesh.numElements) {w : E → ModelW}
    (hw : ModelFam (fun f : E → ℝ => DifferentiableAt ℝ f θ₀) w) {d : E → DynW}
    (hd : DynFam (fun f : E → ℝ => DifferentiableAt ℝ f θ₀) d) (layers hidden seq : ℕ) {latent : ℕ} (hl : 2 ∣ latent) (scale : ℝ)
    (ν : ℕ → ℕ → ℕ → SampleNoise (seq * latent)) (hν : ∀ e b i, (ν e b i).dw ≠ []) {ms : MSConfig}
    (hm : (∃ l < ms.depth, l ∈ ms.poolingLayers) → ms.poolingStridesQ.1 * ms.poolingStridesQ.2 ≤ 1) {pc : ProcConfig} {m : Bool}
    (hok : modelShape ms pc m ⟨1, cs.vmesh.numElements, cs.vmesh.nodesPerElem * 2⟩ =
      .ok ⟨1, cs.vmesh.numElements, cs.vmesh.nodesPerElem * 2⟩) (hb : batch ≠ [])
    (hlen : ∀ ex ∈ batch, c.timeOrder + n ≤ ex.u.length ∧ c.timeOrder ≤ ex.p.length) (push : ℕ) (pen : ℝ) :
    ∃ (l : E → ℝ) (mse : E → List ℝ) (g : E →L[ℝ] ℝ) (vjps : ℕ → NetVjp ℝ (E →L[ℝ] ℝ)),
      (∀ e, VjpOf cs.vmesh.numElements (cs.vmesh.nodesPerElem * 2) (fun θ => netClosure gelu (w θ)
        (sdeProcessor gelu (d θ) layers hidden seq latent scale (ν e)) ms pc m fun _ _ => (0, 0)) (vjps e) θ₀) ∧
      (∀ θ, trainLoss cs.low wave c cs.sem (fun θ e => netClosure gelu (w θ)
        (sdeProcessor gelu (d θ) layers hidden seq latent scale (ν e)) ms pc m fun _ _ => (0, 0)) pen n push batch θ₀ θ =
          .ok (l θ, mse θ)) ∧
      lossVjp cs.low wave c cs.sem (fun e => netClosure gelu (w θ₀)
        (sdeProcessor gelu (d θ₀) layers hidden seq latent scale (ν e)) ms pc m fun _ _ => (0, 0)) vjps push pen n batch = .ok g ∧
      HasFDerivAt l g θ₀ := by
  have hdiff := fun e => netClosure_netDiff (θ₀ := θ₀) hM hw hd layers hidden seq hl scale (ν e) (hν e) hm hok
    (kl := fun _ _ _ => (0, 0)) (fun i x => ⟨differentiableAt_const _, differentiableAt_const _⟩)
  obtain ⟨l, mse, g, h1, h2, h3⟩ := C133_square (wave := wave) hN hp hab hcs hT hRe hdt hatol hc
    (nets := fun θ e => netClosure gelu (w θ) (sdeProcessor gelu (d θ) layers hidden seq latent scale (ν e)) ms pc m fun _ _ => (0, 0))
    (fun θ e => netClosure_keepsAt hM hok _) hdiff hb hlen push pen
  exact ⟨l, mse, g, _, fun e => (hdiff e).vjpOf, h1, h2, h3⟩

/-- Eight steps of which three are pushforward steps, two examples, on a periodic square with the filter on, for a network with
one weight that scales the tokens: all hypotheses hold. -/
example : ∃ (cs : CubeStokes 2) (c : SolverConfig ℝ) (l : ℝ → ℝ) (mse : ℝ → List ℝ) (g : ℝ →L[ℝ] ℝ),
    cubeStokes 4 2 4 1 0 1 [0, 1] [] = .ok cs ∧
    (∀ θ : ℝ, trainLoss cs.low (fun x => x) c cs.sem (fun (θ : ℝ) _ _ ts => (ts.map fun t => t.map fun x => θ * x, θ ^ 2, θ)) (1 / 10)
      8 3 [⟨List.replicate 11 fun _ _ => 1, List.replicate 3 0⟩, ⟨List.replicate 11 0, List.replicate 3 0⟩] 1 θ = .ok (l θ, mse θ)) ∧
    HasFDerivAt l g 1 := by
  have hb : CubeBCs 2 [0, 1] [] := Or.inr rfl
  obtain ⟨cs, hcs⟩ := C92_create (over := 1) (n := 4) (d := 2) (p := 4) (a := 0) (b := 1) (by norm_num) (by norm_num)
    (by norm_num) (by norm_num) [0, 1] hb
  obtain ⟨l, mse, g, h1, -, h3⟩ := C133_square (N := 4) (p := 4) (wave := fun x => x) (pen := 1 / 10) (n := 8) (push := 3) (θ₀ := (1 : ℝ))
    (batch := [⟨List.replicate 11 fun _ _ => 1, List.replicate 3 0⟩, ⟨List.replicate 11 0, List.replicate 3 0⟩])
    (nets := fun (θ : ℝ) _ _ ts => (ts.map fun t => t.map fun x => θ * x, θ ^ 2, θ))
    (c := ⟨3, 20000, 1 / 1000, 1 / 20, 1 / 25, 0, cs.vmesh.numElements, cs.vmesh.nodesPerElem * 2, false⟩) (by norm_num) (by norm_num)
    (by norm_num) hcs (by norm_num) (by norm_num) (by norm_num) rfl ⟨rfl, rfl, by simp⟩ (fun θ b i ts h1 h2 =>
      ⟨by simp [h1], fun t ht => by obtain ⟨t', ht', rfl⟩ := List.mem_map.mp ht; simp [h2 t' ht']⟩)
    (fun b i x => ⟨fun t r => by
      have e : ∀ z : ℝ × (Fin cs.vmesh.numElements → Fin (cs.vmesh.nodesPerElem * 2) → ℝ),
          (((toksOf z.2).map fun t => t.map fun x => z.1 * x).getD t []).getD r 0 = z.1 * ((toksOf z.2).getD t []).getD r 0 := by
        intro z
        simp only [List.getD_eq_getElem?_getD, List.getElem?_map]
        cases (toksOf z.2)[t]? with
        | none => simp
        | some q =>
          simp only [Option.map_some, Option.getD_some, List.getElem?_map]
          cases q[r]? <;> simp
      simp only [e, toksOf_entry]
      refine differentiableAt_fst.fun_mul ?_
      split
      · rename_i h
        have e1 : DifferentiableAt ℝ (fun z : ℝ × (Fin cs.vmesh.numElements → Fin (cs.vmesh.nodesPerElem * 2) → ℝ) => z.2) (1, x) :=
          differentiableAt_snd
        exact differentiableAt_pi.1 (differentiableAt_pi.1 e1 ⟨t, h.1⟩) ⟨r, h.2⟩
      · exact differentiableAt_const _, differentiableAt_fst.fun_pow 2, differentiableAt_fst⟩)
    (by simp) (by intro ex hex; simp at hex; rcases hex with rfl | rfl <;> simp)
  exact ⟨cs, _, l, mse, g, hcs, h1, h3⟩

/-- A network without pooling layers on a periodic square, in the kernel of its embedding, for every further weight and noise: the
hypotheses of `C133_network` hold. -/
example (w : ModelW) (dw : DynW) (ν : ℕ → ℕ → ℕ → SampleNoise (4 * 2)) (hν : ∀ e b i, (ν e b i).dw ≠ []) :
    ∃ (cs : CubeStokes 2) (c : SolverConfig ℝ) (l : ℝ → ℝ) (mse : ℝ → List ℝ) (g : ℝ →L[ℝ] ℝ),
    cubeStokes 2 2 3 2 0 1 [0, 1] [] = .ok cs ∧
    (∀ θ : ℝ, trainLoss cs.low (fun x => x) c cs.sem (fun (θ : ℝ) e => netClosure gelu
      { w with embedding := ⟨fun _ _ => θ, w.embedding.bias⟩ } (sdeProcessor gelu dw 4 32 4 2 1 (ν e))
      ⟨2, 4, [], (1, 3), (1, 2), (1, 1), (2, 1), 1, true, true⟩ ⟨0, true, 2, 2, 2⟩ false fun _ _ => (0, 0)) (1 / 10)
      5 1 [⟨List.replicate 8 fun _ _ => 1, List.replicate 3 0⟩] 1 θ = .ok (l θ, mse θ)) ∧
    HasFDerivAt l g 1 := by
  obtain ⟨cs, hcs⟩ := C92_create (over := 2) (n := 2) (d := 2) (p := 3) (a := 0) (b := 1) (by norm_num) (by norm_num)
    (by norm_num) (by norm_num) [0, 1] (bcs := []) (Or.inr rfl)
  obtain ⟨vnode, pnode, lg, hc⟩ := cubeStokes_of (n := 2) (d := 2) (p := 3) (by norm_num) (by norm_num) le_rfl one_pos (Or.inr rfl) hcs
  have hM : cs.vmesh.numElements = 4 := hc.vcube.cells.num
  have hok : modelShape ⟨2, 4, [], (1, 3), (1, 2), (1, 1), (2, 1), 1, true, true⟩ ⟨0, true, 2, 2, 2⟩ false
      ⟨1, cs.vmesh.numElements, cs.vmesh.nodesPerElem * 2⟩ = .ok ⟨1, cs.vmesh.numElements, cs.vmesh.nodesPerElem * 2⟩ :=
    (C69_partial (c := ⟨2, 4, [], (1, 3), (1, 2), (1, 1), (2, 1), 1, true, true⟩) (s := 2) ⟨by decide, by decide, by decide, rfl, rfl⟩
      (k := 1) rfl (by decide) (by decide) (by decide) (by decide) ⟨0, true, 2, 2, 2⟩ false _
      (by rw [hM]; exact (by decide : 2 ^ pools ⟨2, 4, [], (1, 3), (1, 2), (1, 1), (2, 1), 1, true, true⟩ ∣ 4))).2
      (Or.inl ⟨rfl, rfl⟩)
  have hw := modelFam_const (Θ := ℝ) (netClass_diffAt 1) w
  obtain ⟨l, mse, g, vjps, -, h1, -, h3⟩ := C133_network (N := 2) (p := 3) (wave := fun x => x) (pen := 1 / 10) (n := 5) (push := 1)
    (θ₀ := (1 : ℝ)) (batch := [⟨List.replicate 8 fun _ _ => 1, List.replicate 3 0⟩])
    (w := fun θ => { w with embedding := ⟨fun _ _ => θ, w.embedding.bias⟩ }) (d := fun _ => dw)
    (ms := ⟨2, 4, [], (1, 3), (1, 2), (1, 1), (2, 1), 1, true, true⟩) (pc := ⟨0, true, 2, 2, 2⟩) (m := false)
    (c := ⟨3, 20000, 1 / 1000, 1 / 20, 1 / 25, 0, cs.vmesh.numElements, cs.vmesh.nodesPerElem * 2, false⟩) (by norm_num) le_rfl
    one_pos hcs (by norm_num) (by norm_num) (by norm_num) rfl ⟨rfl, rfl, by simp⟩ (by omega)
    { hw with embedding := ⟨fun _ _ => differentiableAt_id, fun _ => differentiableAt_const _⟩ }
    (DynFam.const (netClass_diffAt 1) dw) 4 32 4 (by norm_num : 2 ∣ 2) 1 ν hν (by simp) hok (by simp)
    (by intro ex hex; simp at hex; subst hex; simp)
  exact ⟨cs, _, l, mse, g, hcs, h1, h3⟩

end Verif.Niles

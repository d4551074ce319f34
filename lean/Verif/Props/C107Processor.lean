import Verif.Props.C107
import Verif.Props.C108

/-!
# C107 with the processor of the code

`sdeProcessor_fam`: the samples of `LatentSDE` are in every class of functions that is closed under the operations of the
layers, as functions of the tokens and of all weights of `Dynamics`, for fixed random numbers. Hence the assumption on the
processor in C107 holds for the processor of the code.
-/

namespace Verif.Niles

open Finset Verif.SDE Verif.Core Verif.NS

variable {Θ : Type*} {P : (Θ → ℝ) → Prop}

theorem entry_fam (hP : NetClass P) {n : ℕ} {z : Θ → Fin n → ℝ} (hz : ∀ i, P fun θ => z θ i) (k : ℕ) : P fun θ => entry (z θ) k := by
  unfold entry
  split_ifs with h
  · exact hz ⟨k, h⟩
  · exact hP.const 0

/-- The networks of `Dynamics` are in the class. -/
theorem dynNets_fam (hP : NetClass P) {w : Θ → DynW} (hw : DynFam P w) (layers hidden seq : ℕ) {latent : ℕ} (hl : 2 ∣ latent)
    {ctx z : Θ → Fin (seq * latent) → ℝ} (hc : ∀ i, P fun θ => ctx θ i) (hz : ∀ i, P fun θ => z θ i) (t : ℝ) (i : Fin (seq * latent)) :
    P (fun θ => (dynNets gelu (w θ) layers hidden seq latent (ctx θ)).post (z θ) t i) ∧
    P (fun θ => (dynNets gelu (w θ) layers hidden seq latent (ctx θ)).prior (z θ) t i) ∧
    P fun θ => (dynNets gelu (w θ) layers hidden seq latent (ctx θ)).sigma (z θ) i := by
  have hR := resClass_self hP
  have h1 : RFam (fun v => ∀ c, P fun θ => v θ c) ⟨1, seq + 1 + seq, latent⟩ fun θ => withContext seq latent (z θ) (ctx θ) t := by
    refine ⟨fun _ => rfl, fun b s c => ?_⟩
    simp only [withContext, withTime]
    split_ifs
    · exact entry_fam hP hz _
    · exact hP.const t
    · exact entry_fam hP hc _
  have h2 : RFam (fun v => ∀ c, P fun θ => v θ c) ⟨1, seq + 1, latent⟩ fun θ => withTime seq latent (z θ) t := by
    refine ⟨fun _ => rfl, fun b s c => ?_⟩
    simp only [withTime]
    split_ifs
    · exact entry_fam hP hz _
    · exact hP.const t
  obtain ⟨y, ey, hy⟩ := h1.transformerBlock hR hl hw.post (gelu_closed hP) layers latent
  obtain ⟨y', ey', hy'⟩ := h2.transformerBlock hR hl hw.prior (gelu_closed hP) layers latent
  have h3 : Fam P ⟨1, seq * latent, 1⟩ fun θ => (⟨⟨1, seq * latent, 1⟩, fun _ s _ => entry (z θ) s⟩ : Tensor) :=
    ⟨fun _ => rfl, fun b s c => entry_fam hP hz s⟩
  obtain ⟨S, hs⟩ := h3.mlpNet hP (tanh_closed hP) (fun hf => hP.exp hf) hw.diffusion (List.replicate layers hidden ++ [1]) 0
  refine ⟨?_, ?_, hs.val 0 i 0⟩
  · simp only [dynNets, ey]
    exact hy.val _ _ _
  · simp only [dynNets, ey']
    exact hy'.val _ _ _

/-- A trajectory as a function of the latent state and the weights. -/
theorem sampleSDE_fam (hP : NetClass P) {w : Θ → DynW} (hw : DynFam P w) (layers hidden seq : ℕ) {latent : ℕ} (hl : 2 ∣ latent) (scale : ℝ)
    {v : Θ → Fin (seq * latent) → ℝ} (hv : ∀ i, P fun θ => v θ i) (ν : SampleNoise (seq * latent)) (hν : ν.dw ≠ []) :
    ∃ (z : Θ → Fin (seq * latent) → ℝ) (kl : Θ → ℝ), (∀ θ, sampleSDE gelu (w θ) layers hidden seq latent scale (v θ) ν = .ok (z θ, kl θ)) ∧ ∀ i, P fun θ => z θ i := by
  have hlen : 0 < ν.dw.length := List.length_pos_iff.2 hν
  have hz0 : ∀ i, P fun θ => v θ i + scale * 1 * ν.start i := fun i => hP.add (hv i) (hP.const _)
  choose Z h0 h1 kl h2 _ _ using fun θ => C68_path (dynNets gelu (w θ) layers hidden seq latent fun i => v θ i + scale * 1 * ν.start i)
    (fun i => v θ i + scale * 1 * ν.start i) ν.dw hlen
  have key : ∀ k ≤ ν.dw.length, ∀ i, P fun θ => Z θ k i := by
    intro k
    induction k with
    | zero =>
      intro _ i
      have e : (fun θ => Z θ 0 i) = fun θ => v θ i + scale * 1 * ν.start i := by funext θ; rw [h0]
      rw [e]
      exact hz0 i
    | succ k ih =>
      intro hk i
      have ih := ih (by omega)
      rw [funext fun θ => h1 θ k (by omega) i]
      have hf := fun (z : Θ → Fin (seq * latent) → ℝ) (hz : ∀ i, P fun θ => z θ i) (i : Fin (seq * latent)) =>
        dynNets_fam hP hw layers hidden seq hl hz0 hz ((k : ℝ) / ν.dw.length) i
      refine hP.add (hP.add (ih i) (hP.mul (hP.const _) (hf _ ih i).1)) (hP.mul (hP.const _)
        (hP.add (hP.mul (hP.const _) (hf _ ih i).2.2) (hP.mul (hP.const _) ?_)))
      exact (hf (fun θ j => Z θ k j + ν.dw[k] j *
        (dynNets gelu (w θ) layers hidden seq latent fun i => v θ i + scale * 1 * ν.start i).sigma (Z θ k) j)
        (fun j => hP.add (ih j) (hP.mul (hP.const _) (hf _ ih j).2.2)) i).2.2
  exact ⟨fun θ => Z θ ν.dw.length, kl, h2, key _ le_rfl⟩

/-- The samples of the processor as functions of the tokens and the weights. -/
theorem sdeProcessor_fam (hP : NetClass P) {w : Θ → DynW} (hw : DynFam P w) (layers hidden seq : ℕ) {latent : ℕ} (hl : 2 ∣ latent)
    (scale : ℝ) (ν : ℕ → ℕ → SampleNoise (seq * latent)) (hν : ∀ b i, (ν b i).dw ≠ []) :
    ProcFam P fun θ => sdeProcessor gelu (w θ) layers hidden seq latent scale ν := by
  intro n k v _ hv b i t c
  obtain ⟨z, kl, h1, h2⟩ := sampleSDE_fam hP hw layers hidden seq hl scale (v := fun θ (j : Fin (seq * latent)) => v θ (j / latent) (j % latent))
    (fun j => hv _ _) (ν b i) (hν b i)
  have e : (fun θ => sdeProcessor gelu (w θ) layers hidden seq latent scale ν b i (v θ) t c) = fun θ => entry (z θ) (t * latent + c) := by
    funext θ
    unfold sdeProcessor
    rw [h1 θ]
  rw [e]
  exact entry_fam hP h2 _

theorem DynFam.const (hP : NetClass P) (w : DynW) : DynFam P fun _ => w :=
  ⟨TransFam.const hP _, TransFam.const hP _, fun _ => DenseFam.const hP _⟩

/-- The samples are Lipschitz continuous in the tokens on bounded sets. -/
theorem sdeProcessor_lip (w : DynW) (layers hidden seq : ℕ) {latent : ℕ} (hl : 2 ∣ latent)
    (scale : ℝ) (ν : ℕ → ℕ → SampleNoise (seq * latent)) (hν : ∀ b i, (ν b i).dw ≠ []) :
    ProcLip (sdeProcessor gelu w layers hidden seq latent scale ν) := by
  intro n k b i t c R
  let Θ := {v : ℕ → ℕ → ℝ // ∀ t c, ¬ (t < n ∧ c < k) → v t c = 0}
  have hP := netClass_boundedLip (Θ := Θ) (fun R => {v | ∀ t c, |v.1 t c| ≤ R})
    fun v v' => ∑ t ∈ range n, ∑ c ∈ range k, |v.1 t c - v'.1 t c|
  have hfam := sdeProcessor_fam hP (DynFam.const hP w) layers hidden seq hl scale ν hν n k (fun v : Θ => v.1) (fun v => v.2)
    (fun t c R => by
      refine ⟨|R|, 1, abs_nonneg R, zero_le_one, fun v hv => (hv t c).trans (le_abs_self R), fun v _ v' _ => ?_⟩
      rw [one_mul]
      dsimp only
      by_cases h : t < n ∧ c < k
      · exact (single_le_sum (f := fun c => |v.1 t c - v'.1 t c|) (fun c _ => abs_nonneg _) (mem_range.2 h.2)).trans
          (single_le_sum (f := fun t => ∑ c ∈ range k, |v.1 t c - v'.1 t c|) (fun t _ => sum_nonneg fun c _ => abs_nonneg _)
            (mem_range.2 h.1))
      · rw [v.2 t c h, v'.2 t c h, sub_self, abs_zero]
        exact sum_nonneg fun t _ => sum_nonneg fun c _ => abs_nonneg _) b i t c R
  obtain ⟨M, L, -, hL, -, h⟩ := hfam
  refine ⟨L * (n * k), by positivity, fun v v' h0 hR r hr => ?_⟩
  have := h ⟨v, fun t c htc => (h0 t c htc).1⟩ (fun t c => (hR t c).1) ⟨v', fun t c htc => (h0 t c htc).2⟩ (fun t c => (hR t c).2)
  refine this.trans ?_
  rw [mul_assoc]
  refine mul_le_mul_of_nonneg_left ?_ hL
  calc _ ≤ ∑ t ∈ range n, ∑ c ∈ range k, r := sum_le_sum fun t _ => sum_le_sum fun c _ => hr t c
    _ = n * k * r := by simp [mul_assoc]

section

variable {S : Shape} {x : Θ → Tensor} {w : Θ → ModelW} {d : Θ → DynW}

/-- **C107 with the processor of the code.** The outputs of the network are Lipschitz continuous on bounded sets as functions of
its inputs and of all weights, those of the processor included, for all random numbers. -/
theorem C107_processor [SeminormedAddCommGroup Θ] (hw : ModelFam (fun f : Θ → ℝ => LipBounded f) w)
    (hd : DynFam (fun f : Θ → ℝ => LipBounded f) d) (layers hidden seq : ℕ) {latent : ℕ} (hl : 2 ∣ latent) (scale : ℝ)
    (ν : ℕ → ℕ → SampleNoise (seq * latent)) (hν : ∀ b i, (ν b i).dw ≠ []) (c : MSConfig) (p : ProcConfig) (m : Bool)
    (hS : ∀ θ, (x θ).shape = S) (hx : ∀ b t k, LipBounded fun θ => (x θ).val b t k) :
    (∃ e, ∀ θ, modelT gelu (w θ) (sdeProcessor gelu (d θ) layers hidden seq latent scale ν) c p m (x θ) = .error e) ∨
      ∃ y : Θ → Tensor, (∀ θ, modelT gelu (w θ) (sdeProcessor gelu (d θ) layers hidden seq latent scale ν) c p m (x θ) = .ok (y θ)) ∧
        ∀ b t k, LipBounded fun θ => (y θ).val b t k :=
  C107_lipschitz gelu_lip hw (sdeProcessor_fam netClass_lipBounded hd layers hidden seq hl scale ν hν) c p m hS hx

/-- Without pooled residuals the outputs are infinitely differentiable in the inputs and all weights. -/
theorem C107_processor_smooth [NormedAddCommGroup Θ] [NormedSpace ℝ Θ] {n : WithTop ℕ∞}
    (hw : ModelFam (fun f : Θ → ℝ => ContDiff ℝ n f) w) (hd : DynFam (fun f : Θ → ℝ => ContDiff ℝ n f) d) (layers hidden seq : ℕ)
    {latent : ℕ} (hl : 2 ∣ latent) (scale : ℝ) (ν : ℕ → ℕ → SampleNoise (seq * latent)) (hν : ∀ b i, (ν b i).dw ≠ []) (c : MSConfig)
    (hc : (∀ l < c.depth, l ∉ c.poolingLayers) ∨ c.poolingStridesQ.1 * c.poolingStridesQ.2 ≤ 1) (p : ProcConfig) (m : Bool)
    (hS : ∀ θ, (x θ).shape = S) (hx : ∀ b t k, ContDiff ℝ n fun θ => (x θ).val b t k) :
    (∃ e, ∀ θ, modelT gelu (w θ) (sdeProcessor gelu (d θ) layers hidden seq latent scale ν) c p m (x θ) = .error e) ∨
      ∃ y : Θ → Tensor, (∀ θ, modelT gelu (w θ) (sdeProcessor gelu (d θ) layers hidden seq latent scale ν) c p m (x θ) = .ok (y θ)) ∧
        ∀ b t k, ContDiff ℝ n fun θ => (y θ).val b t k :=
  C107_partial (gelu_smooth n) hw (sdeProcessor_fam (netClass_contDiff n) hd layers hidden seq hl scale ν hν) c hc p m hS hx

end

/-- Rollouts with the network and its processor converge with order one, for all weights and random numbers, to smooth flows with
the closure that the network computes. -/
theorem C107_processor_rollout {cfg : SolverConfig ℝ} {vmesh pmesh : Mesh ℝ 2} {quad overQuad : Quadrature1D ℝ}
    {masks : List (String × (ℕ → Bool))} {bcs : List (String × BCType)} {sem : StokesSEM ℝ 2} {low : Nodes1D ℝ} {wave : ℝ → ℝ}
    {c : MSConfig} {p : ProcConfig} {m : Bool}
    (St : StepSetup vmesh pmesh quad overQuad masks bcs sem low 0 true) {K : ℕ} (hk : cfg.timeOrder = K + 1)
    (hK : 1 ≤ K) (hK5 : K ≤ 5) (hRe : 0 < cfg.reynolds) (halpha : cfg.alpha = 0) (hatol : cfg.atol = 0)
    (hc : SizesMatch cfg vmesh) (hN : 0 < vmesh.numNodes) (hM : 0 < vmesh.numElements)
    (w : ModelW) (d : DynW) (layers hidden seq : ℕ) {latent : ℕ} (hl : 2 ∣ latent) (scale : ℝ)
    (ν : ℕ → ℕ → SampleNoise (seq * latent)) (hν : ∀ b i, (ν b i).dw ≠ [])
    (hok : modelShape c p m ⟨1, vmesh.numElements, vmesh.nodesPerElem * 2⟩ = .ok ⟨1, vmesh.numElements, vmesh.nodesPerElem * 2⟩)
    (kl : ℕ → List (List ℝ) → ℝ × ℝ) :
    ∃ Φ, ClosureIs cfg vmesh (netClosure gelu w (sdeProcessor gelu d layers hidden seq latent scale ν) c p m kl) Φ ∧
      LipschitzOnBounded vmesh Φ ∧
      ∀ (T : ℝ) (u : ℝ → Vel ℝ 2) (q : ℝ → ℕ → ℝ), 0 < T → NSFlow vmesh pmesh masks bcs sem wave cfg Φ T u q →
        (∀ j l, ContDiff ℝ (K + 2) (fun t => u t j l)) → (∀ j, ContDiff ℝ 2 (fun t => q t j)) →
        RolloutConvergence vmesh pmesh masks bcs sem low wave cfg
          (netClosure gelu w (sdeProcessor gelu d layers hidden seq latent scale ν) c p m kl) T u q 1 := by
  obtain ⟨Φ, h1, h2⟩ := C107_closure hc hN hM gelu_lip w (sdeProcessor_lip d layers hidden seq hl scale ν hν) hok kl
  exact ⟨Φ, h1, h2, fun T u q hT hflow hu hq => C104_partial St hk hK hK5 hRe halpha hatol hT h1 h2 hflow hu hq⟩

/-- A sample of the processor of default size as a function of one factor of all tokens and of one weight of the diffusion. -/
example (d : DynW) (v : ℕ → ℕ → ℝ) (hv : ∀ t c, ¬ (t < 16 ∧ c < 192) → v t c = 0) (ν : ℕ → ℕ → SampleNoise (16 * 192))
    (hν : ∀ b i, (ν b i).dw.length = 16) (b i t c : ℕ) :
    ContDiff ℝ ⊤ fun θ : ℝ × ℝ => sdeProcessor gelu ⟨d.post, d.prior, fun l => ⟨fun _ _ => θ.2, (d.diffusion l).bias⟩⟩ 4 32 16 192
      (1 / 10) ν b i (fun t c => θ.1 * v t c) t c := by
  have hP := netClass_contDiff (Θ := ℝ × ℝ) ⊤
  exact sdeProcessor_fam hP (w := fun θ : ℝ × ℝ => ⟨d.post, d.prior, fun l => ⟨fun _ _ => θ.2, (d.diffusion l).bias⟩⟩)
    ⟨TransFam.const hP _, TransFam.const hP _, fun l => ⟨fun _ _ => contDiff_snd, fun _ => hP.const _⟩⟩ 4 32 16
    (by norm_num : 2 ∣ 192) (1 / 10) ν (fun b i h => by simpa [h] using hν b i) 16 192 _
    (fun θ t c h => by rw [hv t c h, mul_zero]) (fun t c => hP.mul contDiff_fst (hP.const _)) b i t c

end Verif.Niles

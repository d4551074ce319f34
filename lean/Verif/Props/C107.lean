import Verif.Lemmas.NetClosure
import Verif.Lemmas.NetSimple
import Verif.Props.C104
import Verif.Props.C66_C70

/-!
# C107: the closure network depends smoothly on inputs and weights

Full statement: the output of the network is a smooth function of the inputs and of all the weights, for a smooth activation
and smooth samples of the processor. Training computes its gradients, and rollouts converge to the flow with the closure. The
output is continuous (`C107_continuous`) and Lipschitz continuous on bounded sets (`C107_lipschitz`), which gives C104 for
rollouts with the network (`C107_closure`, `C107_rollout`). It is smooth in a network that does not pool its residuals
(`C107_partial`). In general it is not differentiable: the residuals of pooling layers are pooled with the maximum
(`C107_violated`).
-/

namespace Verif.Niles

open Finset Verif.Core Verif.NS

/-- Lipschitz continuous on bounded sets. -/
def LipBounded {E : Type*} [SeminormedAddCommGroup E] (f : E → ℝ) : Prop :=
  ∀ R : ℝ, ∃ L, ∀ x y, ‖x‖ ≤ R → ‖y‖ ≤ R → |f x - f y| ≤ L * ‖x - y‖

theorem LipBounded.iff {E : Type*} [SeminormedAddCommGroup E] (f : E → ℝ) :
    LipBounded f ↔ BoundedLip (fun R => {x | ‖x‖ ≤ R}) (fun x y => ‖x - y‖) f := by
  constructor
  · intro h R
    obtain ⟨L, hL⟩ := h |R|
    have hL' : ∀ x y, ‖x‖ ≤ |R| → ‖y‖ ≤ |R| → |f x - f y| ≤ |L| * ‖x - y‖ := fun x y hx hy =>
      (hL x y hx hy).trans (mul_le_mul_of_nonneg_right (le_abs_self L) (norm_nonneg _))
    refine ⟨|f 0| + |L| * |R|, |L|, by positivity, abs_nonneg L, fun x hx => ?_,
      fun x hx y hy => hL' x y (le_trans hx (le_abs_self R)) (le_trans hy (le_abs_self R))⟩
    have hx' : ‖x‖ ≤ |R| := le_trans hx (le_abs_self R)
    have h1 := hL' x 0 hx' (by simp)
    rw [sub_zero] at h1
    have h2 : |L| * ‖x‖ ≤ |L| * |R| := mul_le_mul_of_nonneg_left hx' (abs_nonneg L)
    have h3 : |f x| ≤ |f 0| + |f x - f 0| := by
      have := abs_add_le (f 0) (f x - f 0)
      simpa using this
    linarith
  · intro h R
    obtain ⟨M, L, -, -, -, hL⟩ := h R
    exact ⟨L, fun x y hx hy => hL x hx y hy⟩

theorem netClass_lipBounded {E : Type*} [SeminormedAddCommGroup E] : NetClass (fun f : E → ℝ => LipBounded f) := by
  have e : (fun f : E → ℝ => LipBounded f) = BoundedLip (fun R => {x | ‖x‖ ≤ R}) (fun x y => ‖x - y‖) := by
    funext f; exact propext (LipBounded.iff f)
  rw [e]
  exact netClass_boundedLip _ _

theorem closedMax_lipBounded {E : Type*} [SeminormedAddCommGroup E] : ClosedMax (fun f : E → ℝ => LipBounded f) := by
  have e : (fun f : E → ℝ => LipBounded f) = BoundedLip (fun R => {x | ‖x‖ ≤ R}) (fun x y => ‖x - y‖) := by
    funext f; exact propext (LipBounded.iff f)
  rw [e]
  exact fun {f g} hf hg => closedMax_boundedLip _ _ hf hg

theorem closedAct_boundedLip {Θ : Type*} (B : ℝ → Set Θ) (D : Θ → Θ → ℝ) {act : ℝ → ℝ} (ha : LipBounded act) :
    ClosedAct (BoundedLip B D) act := by
  intro f hf R
  obtain ⟨M, L, hM, hL, h1, h2⟩ := hf R
  obtain ⟨M', L', hM', hL', h1', h2'⟩ := (LipBounded.iff act).1 ha M
  refine ⟨M', L' * L, hM', by positivity, fun x hx => h1' _ (h1 x hx), fun x hx y hy => ?_⟩
  refine (h2' _ (h1 x hx) _ (h1 y hy)).trans ?_
  rw [mul_assoc]
  exact mul_le_mul_of_nonneg_left (h2 x hx y hy) hL'

/-- The samples of the processor are Lipschitz continuous in the tokens, on bounded sets of `n` tokens of length `k`. -/
def ProcLip (proc : Processor) : Prop :=
  ∀ n k b i t c : ℕ, ∀ R : ℝ, ∃ L, 0 ≤ L ∧ ∀ v v' : ℕ → ℕ → ℝ, (∀ t c, ¬ (t < n ∧ c < k) → v t c = 0 ∧ v' t c = 0) →
    (∀ t c, |v t c| ≤ R ∧ |v' t c| ≤ R) → ∀ r, (∀ t c, |v t c - v' t c| ≤ r) → |proc b i v t c - proc b i v' t c| ≤ L * r

theorem ProcLip.fam {Θ : Type*} (B : ℝ → Set Θ) (D : Θ → Θ → ℝ) {proc : Processor} (h : ProcLip proc) :
    ProcFam (BoundedLip B D) fun _ => proc := by
  intro n k v hv hP b i t c R
  choose M L hM hL h1 h2 using fun t c => hP t c R
  obtain ⟨A, hA⟩ : ∃ A, A = ∑ t ∈ range n, ∑ c ∈ range k, M t c := ⟨_, rfl⟩
  obtain ⟨Λ, hΛ⟩ : ∃ Λ, Λ = ∑ t ∈ range n, ∑ c ∈ range k, L t c := ⟨_, rfl⟩
  have hA0 : 0 ≤ A := by rw [hA]; exact sum_nonneg fun t _ => sum_nonneg fun c _ => hM t c
  have hΛ0 : 0 ≤ Λ := by rw [hΛ]; exact sum_nonneg fun t _ => sum_nonneg fun c _ => hL t c
  have single : ∀ {F : ℕ → ℕ → ℝ}, (∀ t c, 0 ≤ F t c) → ∀ {t c}, t < n → c < k → F t c ≤ ∑ t ∈ range n, ∑ c ∈ range k, F t c := by
    intro F hF t c ht hc
    exact (single_le_sum (f := fun c => F t c) (fun c _ => hF t c) (mem_range.2 hc)).trans
      (single_le_sum (f := fun t => ∑ c ∈ range k, F t c) (fun t _ => sum_nonneg fun c _ => hF t c) (mem_range.2 ht))
  have hbound : ∀ x ∈ B R, ∀ t c, |v x t c| ≤ A := by
    intro x hx t c
    by_cases htc : t < n ∧ c < k
    · rw [hA]; exact (h1 t c x hx).trans (single hM htc.1 htc.2)
    · rw [hv x t c htc, abs_zero]; exact hA0
  obtain ⟨L', hL', h'⟩ := h n k b i t c A
  refine ⟨|proc b i (fun _ _ => 0) t c| + L' * A, L' * Λ, by positivity, by positivity, fun x hx => ?_, fun x hx y hy => ?_⟩
  · have e := h' (v x) (fun _ _ => 0) (fun t c htc => ⟨hv x t c htc, rfl⟩) (fun t c => ⟨hbound x hx t c, by simpa using hA0⟩) A
      (fun t c => by simpa using hbound x hx t c)
    have e2 : |proc b i (v x) t c| ≤ |proc b i (fun _ _ => 0) t c| + |proc b i (v x) t c - proc b i (fun _ _ => 0) t c| := by
      have := abs_add_le (proc b i (fun _ _ => 0) t c) (proc b i (v x) t c - proc b i (fun _ _ => 0) t c)
      simpa using this
    linarith
  · rw [mul_assoc]
    refine h' (v x) (v y) (fun t c htc => ⟨hv x t c htc, hv y t c htc⟩) (fun t c => ⟨hbound x hx t c, hbound y hy t c⟩) _
      fun t c => ?_
    have hD : ∀ t c, 0 ≤ L t c * D x y := fun t c => (abs_nonneg _).trans (h2 t c x hx y hy)
    rw [hΛ, sum_mul]
    simp only [sum_mul]
    by_cases htc : t < n ∧ c < k
    · exact (h2 t c x hx y hy).trans (single hD htc.1 htc.2)
    · rw [hv x t c htc, hv y t c htc, sub_zero, abs_zero]
      exact sum_nonneg fun t _ => sum_nonneg fun c _ => hD t c

section

variable {Θ : Type*} {act : ℝ → ℝ} {w : Θ → ModelW} {proc : Θ → Processor} {S : Shape} {x : Θ → Tensor}

/-- **C107_continuous.** The network raises the same exception for all parameters, or its outputs are continuous functions
of the parameters, when inputs, weights and samples are. -/
theorem C107_continuous [TopologicalSpace Θ] (ha : Continuous act) (hw : ModelFam (fun f : Θ → ℝ => Continuous f) w)
    (hp : ProcFam (fun f : Θ → ℝ => Continuous f) proc) (c : MSConfig) (p : ProcConfig) (m : Bool)
    (hS : ∀ θ, (x θ).shape = S) (hx : ∀ b t k, Continuous fun θ => (x θ).val b t k) :
    (∃ e, ∀ θ, modelT act (w θ) (proc θ) c p m (x θ) = .error e) ∨
      ∃ y : Θ → Tensor, (∀ θ, modelT act (w θ) (proc θ) c p m (x θ) = .ok (y θ)) ∧ ∀ b t k, Continuous fun θ => (y θ).val b t k := by
  rcases modelT_fam netClass_continuous hw hp (act := act) (fun hf => ha.comp hf) c (fun _ _ => closedMax_continuous) p m
    ⟨hS, hx⟩ with ⟨e, he⟩ | ⟨y, ey, S', hy⟩
  · exact Or.inl ⟨e, he⟩
  · exact Or.inr ⟨y, ey, hy.val⟩

/-- **C107_lipschitz.** The same for Lipschitz continuity on bounded sets. -/
theorem C107_lipschitz [SeminormedAddCommGroup Θ] (ha : LipBounded act) (hw : ModelFam (fun f : Θ → ℝ => LipBounded f) w)
    (hp : ProcFam (fun f : Θ → ℝ => LipBounded f) proc) (c : MSConfig) (p : ProcConfig) (m : Bool)
    (hS : ∀ θ, (x θ).shape = S) (hx : ∀ b t k, LipBounded fun θ => (x θ).val b t k) :
    (∃ e, ∀ θ, modelT act (w θ) (proc θ) c p m (x θ) = .error e) ∨
      ∃ y : Θ → Tensor, (∀ θ, modelT act (w θ) (proc θ) c p m (x θ) = .ok (y θ)) ∧ ∀ b t k, LipBounded fun θ => (y θ).val b t k := by
  have hact : ClosedAct (fun f : Θ → ℝ => LipBounded f) act := fun {f} hf =>
    (LipBounded.iff _).2 (closedAct_boundedLip _ _ ha ((LipBounded.iff f).1 hf))
  rcases modelT_fam netClass_lipBounded hw hp hact c (fun _ _ => closedMax_lipBounded) p m ⟨hS, hx⟩ with ⟨e, he⟩ | ⟨y, ey, S', hy⟩
  · exact Or.inl ⟨e, he⟩
  · exact Or.inr ⟨y, ey, hy.val⟩

/-- **C107, without pooled residuals.** When the encoder has no pooling layer, or pooling layers without strides, the outputs
are as smooth as activation, inputs, weights and samples are. -/
theorem C107_partial [NormedAddCommGroup Θ] [NormedSpace ℝ Θ] {n : WithTop ℕ∞} (ha : ContDiff ℝ n act)
    (hw : ModelFam (fun f : Θ → ℝ => ContDiff ℝ n f) w) (hp : ProcFam (fun f : Θ → ℝ => ContDiff ℝ n f) proc) (c : MSConfig)
    (hc : (∀ l < c.depth, l ∉ c.poolingLayers) ∨ c.poolingStridesQ.1 * c.poolingStridesQ.2 ≤ 1) (p : ProcConfig) (m : Bool)
    (hS : ∀ θ, (x θ).shape = S) (hx : ∀ b t k, ContDiff ℝ n fun θ => (x θ).val b t k) :
    (∃ e, ∀ θ, modelT act (w θ) (proc θ) c p m (x θ) = .error e) ∨
      ∃ y : Θ → Tensor, (∀ θ, modelT act (w θ) (proc θ) c p m (x θ) = .ok (y θ)) ∧ ∀ b t k, ContDiff ℝ n fun θ => (y θ).val b t k := by
  rcases modelT_fam (netClass_contDiff n) hw hp (act := act) (fun hf => ha.comp hf) c (fun ⟨l, hl, hl'⟩ h => by
    rcases hc with hc | hc
    · exact absurd hl' (hc l hl)
    · exact absurd h (not_lt.2 hc)) p m ⟨hS, hx⟩ with ⟨e, he⟩ | ⟨y, ey, S', hy⟩
  · exact Or.inl ⟨e, he⟩
  · exact Or.inr ⟨y, ey, hy.val⟩

end

/-- The activation of the code is smooth. -/
theorem gelu_smooth (n : WithTop ℕ∞) : ContDiff ℝ n gelu := gelu_closed (netClass_contDiff n) (contDiff_id (𝕜 := ℝ) (E := ℝ))

/-- The activation of the code is Lipschitz continuous on bounded sets. -/
theorem gelu_lip : LipBounded gelu :=
  gelu_closed (Θ := ℝ) netClass_lipBounded (f := fun x => x) fun _ => ⟨1, fun x y _ _ => by rw [one_mul, Real.norm_eq_abs]⟩

/-- The velocities that are bounded by `R`. -/
def velBall (mesh : Mesh ℝ 2) (R : ℝ) : Set (Vel ℝ 2) := {u | ∀ j < mesh.numNodes, ∀ l, |u j l| ≤ R}

/-- The distance of two velocities at the nodes. -/
def velDist (mesh : Mesh ℝ 2) (u v : Vel ℝ 2) : ℝ := ∑ j ∈ range mesh.numNodes, ∑ l, |u j l - v j l|

theorem vGather_boundedLip {mesh : Mesh ℝ 2} (hN : 0 < mesh.numNodes) (m n : ℕ) (l : Fin 2) :
    BoundedLip (velBall mesh) (velDist mesh) fun u => vGather mesh u m n l := by
  by_cases hn : n < mesh.nodesPerElem
  · by_cases he : mesh.elements m n ≠ -1
    · have e : ∀ u : Vel ℝ 2, vGather mesh u m n l = u (readPos mesh.numNodes (mesh.elements m n)) l := fun u => by
        unfold vGather
        rw [Mesh.gather_apply _ _ _ _ hn, if_pos he]
      have hpos : readPos mesh.numNodes (mesh.elements m n) < mesh.numNodes := by unfold readPos; omega
      simp only [e]
      generalize readPos mesh.numNodes (mesh.elements m n) = j at hpos
      intro R
      refine ⟨|R|, 1, abs_nonneg R, zero_le_one, fun u hu => (hu j hpos l).trans (le_abs_self R), fun u _ v _ => ?_⟩
      rw [one_mul]
      unfold velDist
      exact (single_le_sum (f := fun l => |u j l - v j l|) (fun l _ => abs_nonneg _) (mem_univ l)).trans
        (single_le_sum (f := fun j => ∑ l, |u j l - v j l|) (fun j _ => sum_nonneg fun l _ => abs_nonneg _) (mem_range.2 hpos))
    · have e : ∀ u : Vel ℝ 2, vGather mesh u m n l = 0 := fun u => by
        unfold vGather
        rw [Mesh.gather_apply _ _ _ _ hn, if_neg he]
      simp only [e]
      exact (netClass_boundedLip _ _).const 0
  · have e : ∀ u : Vel ℝ 2, vGather mesh u m n l = 0 := fun u => Mesh.gather_outside _ _ _ _ hn
    simp only [e]
    exact (netClass_boundedLip _ _).const 0

/-- The weights do not depend on the parameter. -/
theorem modelFam_const {Θ : Type*} {P : (Θ → ℝ) → Prop} (hP : NetClass P) (w : ModelW) : ModelFam P fun _ => w := by
  have hd : ∀ d : DenseW, DenseFam P fun _ => d := fun d => ⟨fun _ _ => hP.const _, fun _ => hP.const _⟩
  have hn : ∀ d : NormW, NormFam P fun _ => d := fun d => ⟨fun _ => hP.const _, fun _ => hP.const _⟩
  have hb : ∀ d : BlockW, BlockFam P fun _ => d := fun d => ⟨hn _, ⟨hd _, hd _, hd _, hd _⟩, hn _, hd _, hd _, hd _⟩
  exact ⟨hd _, fun _ _ => hP.const _, fun _ => hb _, hn _, fun _ => hb _, hn _, hd _⟩

section

variable {cfg : SolverConfig ℝ} {vmesh pmesh : Mesh ℝ 2} {quad overQuad : Quadrature1D ℝ} {masks : List (String × (ℕ → Bool))}
  {bcs : List (String × BCType)} {sem : StokesSEM ℝ 2} {low : Nodes1D ℝ} {wave : ℝ → ℝ}
  {act : ℝ → ℝ} {proc : Processor} {c : MSConfig} {p : ProcConfig} {m : Bool}

/-- **C107_closure.** The closure term that the network adds to the steps of a rollout is a function of the last velocity,
Lipschitz continuous on bounded sets, for all weights. -/
theorem C107_closure (hc : SizesMatch cfg vmesh) (hN : 0 < vmesh.numNodes) (hM : 0 < vmesh.numElements) (ha : LipBounded act)
    (w : ModelW) (hp : ProcLip proc)
    (hok : modelShape c p m ⟨1, vmesh.numElements, vmesh.nodesPerElem * 2⟩ = .ok ⟨1, vmesh.numElements, vmesh.nodesPerElem * 2⟩)
    (kl : ℕ → List (List ℝ) → ℝ × ℝ) :
    ∃ Φ, ClosureIs cfg vmesh (netClosure act w proc c p m kl) Φ ∧ LipschitzOnBounded vmesh Φ := by
  have hP := netClass_boundedLip (velBall vmesh) (velDist vmesh)
  obtain ⟨f, q, h1, h2⟩ := closureTerm_fam hP hc hM (closedAct_boundedLip _ _ ha) (modelFam_const hP w) (hp.fam _ _)
    (fun _ _ => closedMax_boundedLip _ _) hok kl (u := fun u => u) (fun m _ n l => vGather_boundedLip hN m n l)
  refine ⟨f, fun i u => ⟨_, h1 i u⟩, fun R => ?_⟩
  choose M L hM hL h3 h4 using fun (j : ℕ) (l : Fin 2) => h2 j l R
  obtain ⟨Λ, hΛ⟩ : ∃ Λ, Λ = ∑ j ∈ range vmesh.numNodes, ∑ l, L j l := ⟨_, rfl⟩
  have hΛ0 : 0 ≤ Λ := by rw [hΛ]; exact sum_nonneg fun j _ => sum_nonneg fun l _ => hL j l
  refine ⟨Λ * (vmesh.numNodes * 2), by positivity, fun x y hx hy r hr hxy j hj l => ?_⟩
  have e1 := h4 j l x hx y hy
  have e2 : velDist vmesh x y ≤ vmesh.numNodes * 2 * r := by
    unfold velDist
    have : ∀ j ∈ range vmesh.numNodes, ∑ l : Fin 2, |x j l - y j l| ≤ 2 * r := by
      intro j hj
      rw [Fin.sum_univ_two]
      linarith [hxy j (mem_range.1 hj) 0, hxy j (mem_range.1 hj) 1]
    refine (sum_le_sum this).trans (le_of_eq ?_)
    rw [sum_const, card_range, nsmul_eq_mul]
    ring
  have e3 : L j l ≤ Λ := by
    rw [hΛ]
    exact (single_le_sum (f := fun l => L j l) (fun l _ => hL j l) (mem_univ l)).trans
      (single_le_sum (f := fun j => ∑ l, L j l) (fun j _ => sum_nonneg fun l _ => hL j l) (mem_range.2 hj))
  have e4 : 0 ≤ velDist vmesh x y := sum_nonneg fun j _ => sum_nonneg fun l _ => abs_nonneg _
  calc |f x j l - f y j l| ≤ L j l * velDist vmesh x y := e1
    _ ≤ Λ * (vmesh.numNodes * 2 * r) := mul_le_mul e3 e2 e4 hΛ0
    _ = Λ * (vmesh.numNodes * 2) * r := by ring

/-- **C107_rollout.** Rollouts with the network converge with order one, for all weights, to smooth flows with the closure
that the network computes. -/
theorem C107_rollout (St : StepSetup vmesh pmesh quad overQuad masks bcs sem low 0 true) {K : ℕ} (hk : cfg.timeOrder = K + 1)
    (hK : 1 ≤ K) (hK5 : K ≤ 5) (hRe : 0 < cfg.reynolds) (halpha : cfg.alpha = 0) (hatol : cfg.atol = 0)
    (hc : SizesMatch cfg vmesh) (hN : 0 < vmesh.numNodes) (hM : 0 < vmesh.numElements) (ha : LipBounded act)
    (w : ModelW) (hp : ProcLip proc)
    (hok : modelShape c p m ⟨1, vmesh.numElements, vmesh.nodesPerElem * 2⟩ = .ok ⟨1, vmesh.numElements, vmesh.nodesPerElem * 2⟩)
    (kl : ℕ → List (List ℝ) → ℝ × ℝ) :
    ∃ Φ, ClosureIs cfg vmesh (netClosure act w proc c p m kl) Φ ∧
      ∀ (T : ℝ) (u : ℝ → Vel ℝ 2) (q : ℝ → ℕ → ℝ), 0 < T → NSFlow vmesh pmesh masks bcs sem wave cfg Φ T u q →
        (∀ j l, ContDiff ℝ (K + 2) (fun t => u t j l)) → (∀ j, ContDiff ℝ 2 (fun t => q t j)) →
        RolloutConvergence vmesh pmesh masks bcs sem low wave cfg (netClosure act w proc c p m kl) T u q 1 := by
  obtain ⟨Φ, h1, h2⟩ := C107_closure hc hN hM ha w hp hok kl
  exact ⟨Φ, h1, fun T u q hT hflow hu hq => C104_partial St hk hK hK5 hRe halpha hatol hT h1 h2 hflow hu hq⟩

end

end Verif.Niles

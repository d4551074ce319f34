import Verif.Lemmas.ClosureGrad
import Verif.Props.C107Processor

/-!
# Reverse passes of differentiable networks
-/

namespace Verif.Niles

open Verif.Core Verif.NS

variable {E : Type*} [NormedAddCommGroup E] [NormedSpace ℝ E] {θ₀ : E} {M L : ℕ}

/-- An array as tokens. -/
def toksOf (x : Fin M → Fin L → ℝ) : List (List ℝ) := List.ofFn fun t => List.ofFn (x t)

/-- Tokens as an array. -/
def arrOf (M L : ℕ) (ts : List (List ℝ)) : Fin M → Fin L → ℝ := fun t r => (ts.getD t []).getD r 0

theorem toksOf_arrOf {ts : List (List ℝ)} (h1 : ts.length = M) (h2 : ∀ t ∈ ts, t.length = L) : toksOf (arrOf M L ts) = ts := by
  unfold toksOf arrOf
  refine List.ext_getElem (by simp [h1]) fun t ht1 ht2 => ?_
  rw [List.getElem_ofFn]
  have hl := h2 _ (List.getElem_mem ht2)
  refine List.ext_getElem (by simp [hl]) fun r hr1 hr2 => ?_
  rw [List.getElem_ofFn]
  simp [List.getD_eq_getElem?_getD, List.getElem?_eq_getElem ht2, List.getElem?_eq_getElem hr2]

theorem toksOf_entry (x : Fin M → Fin L → ℝ) (t r : ℕ) :
    ((toksOf x).getD t []).getD r 0 = if h : t < M ∧ r < L then x ⟨t, h.1⟩ ⟨r, h.2⟩ else 0 := by
  unfold toksOf
  by_cases ht : t < M <;> by_cases hr : r < L <;>
    simp [List.getD_eq_getElem?_getD, List.getElem?_ofFn, ht, hr]

/-- The outputs of the network are differentiable in weights and tokens, at the weights `θ₀` and all tokens. -/
def NetDiff (M L : ℕ) (net : E → Closure ℝ) (θ₀ : E) : Prop :=
  ∀ (i : ℕ) (x : Fin M → Fin L → ℝ),
    (∀ t r, DifferentiableAt ℝ (fun z : E × (Fin M → Fin L → ℝ) => ((net z.1 i (toksOf z.2)).1.getD t []).getD r 0) (θ₀, x)) ∧
    DifferentiableAt ℝ (fun z : E × (Fin M → Fin L → ℝ) => (net z.1 i (toksOf z.2)).2.1) (θ₀, x) ∧
    DifferentiableAt ℝ (fun z : E × (Fin M → Fin L → ℝ) => (net z.1 i (toksOf z.2)).2.2) (θ₀, x)

/-- The outputs paired with cotangents, as a function of weights and tokens. -/
noncomputable def netPair (net : E → Closure ℝ) (i : ℕ) (ct : ℕ → ℕ → ℝ) (k0 kp : ℝ) (z : E × (Fin M → Fin L → ℝ)) : ℝ :=
  tokDot M L ct (net z.1 i (toksOf z.2)).1 + k0 * (net z.1 i (toksOf z.2)).2.1 + kp * (net z.1 i (toksOf z.2)).2.2

/-- The reverse pass that the derivative of the network gives. -/
noncomputable def derivVjp (M L : ℕ) (net : E → Closure ℝ) (θ₀ : E) : NetVjp ℝ (E →L[ℝ] ℝ) := fun i ts ct k0 kp =>
  ((fderiv ℝ (netPair (M := M) (L := L) net i ct k0 kp) (θ₀, arrOf M L ts)).comp (ContinuousLinearMap.inl ℝ E _),
    fun t r => if h : t < M ∧ r < L then
      fderiv ℝ (netPair (M := M) (L := L) net i ct k0 kp) (θ₀, arrOf M L ts) (0, Pi.single ⟨t, h.1⟩ (Pi.single ⟨r, h.2⟩ 1)) else 0)

theorem arr_expand (x : Fin M → Fin L → ℝ) :
    x = ∑ t : Fin M, ∑ r : Fin L, x t r • (Pi.single t (Pi.single r 1) : Fin M → Fin L → ℝ) := by
  funext t r
  simp only [Finset.sum_apply, Pi.smul_apply, smul_eq_mul]
  rw [Finset.sum_eq_single t, Finset.sum_eq_single r]
  · simp
  · intro r' _ h
    rw [Pi.single_eq_same, Pi.single_eq_of_ne (Ne.symm h), mul_zero]
  · simp
  · intro t' _ h
    refine Finset.sum_eq_zero fun r' _ => ?_
    rw [Pi.single_eq_of_ne (Ne.symm h)]
    simp
  · simp

theorem tokDot_deriv (D : E × (Fin M → Fin L → ℝ) →L[ℝ] ℝ) (ts : List (List ℝ)) :
    tokDot M L (fun t r => if h : t < M ∧ r < L then D (0, Pi.single ⟨t, h.1⟩ (Pi.single ⟨r, h.2⟩ 1)) else 0) ts =
      D (0, arrOf M L ts) := by
  unfold tokDot
  have e : ((0 : E), arrOf M L ts) = ContinuousLinearMap.inr ℝ E _ (arrOf M L ts) := rfl
  rw [e]
  conv_rhs => rw [arr_expand (arrOf M L ts)]
  simp only [map_sum, map_smul, smul_eq_mul]
  rw [Finset.sum_range]
  refine Finset.sum_congr rfl fun t _ => ?_
  rw [Finset.sum_range]
  refine Finset.sum_congr rfl fun r _ => ?_
  rw [dif_pos ⟨t.2, r.2⟩, mul_comm]
  rfl

/-- The derivative of a differentiable network gives a reverse pass. -/
theorem NetDiff.vjpOf {net : E → Closure ℝ} (h : NetDiff M L net θ₀) : VjpOf M L net (derivVjp M L net θ₀) θ₀ := by
  intro i ts h1 h2 hts
  have hx : DifferentiableAt ℝ (fun θ => arrOf M L (ts θ)) θ₀ :=
    differentiableAt_pi.2 fun t => differentiableAt_pi.2 fun r => hts t r
  have hz : DifferentiableAt ℝ (fun θ => (θ, arrOf M L (ts θ))) θ₀ := differentiableAt_id.prodMk hx
  have hts' : ∀ θ, toksOf (arrOf M L (ts θ)) = ts θ := fun θ => toksOf_arrOf (h1 θ) (h2 θ)
  obtain ⟨g1, g2, g3⟩ := h i (arrOf M L (ts θ₀))
  refine ⟨fun t r => ?_, fun ct k0 kp => ?_⟩
  · have := DifferentiableAt.comp θ₀ (g1 t r) hz
    simpa only [Function.comp_def, hts'] using this
  · have hp : DifferentiableAt ℝ (netPair (M := M) (L := L) net i ct k0 kp) (θ₀, arrOf M L (ts θ₀)) := by
      unfold netPair tokDot
      refine DifferentiableAt.fun_add (DifferentiableAt.fun_add ?_ (g2.const_mul k0)) (g3.const_mul kp)
      exact DifferentiableAt.fun_sum fun t _ => DifferentiableAt.fun_sum fun r _ => (g1 t r).const_mul _
    obtain ⟨D, hD⟩ : ∃ D, D = fderiv ℝ (netPair (M := M) (L := L) net i ct k0 kp) (θ₀, arrOf M L (ts θ₀)) := ⟨_, rfl⟩
    have hDd : HasFDerivAt (netPair (M := M) (L := L) net i ct k0 kp) D (θ₀, arrOf M L (ts θ₀)) := hD ▸ hp.hasFDerivAt
    have d1 := hDd.comp θ₀ ((hasFDerivAt_id θ₀).prodMk hx.hasFDerivAt)
    have d2 := (D.comp (ContinuousLinearMap.inr ℝ E _)).hasFDerivAt.comp θ₀ hx.hasFDerivAt
    have d3 := d1.sub d2
    have e1 : (fun θ => tokDot M L ct (net θ i (ts θ)).1 + k0 * (net θ i (ts θ)).2.1 + kp * (net θ i (ts θ)).2.2 -
        tokDot M L (derivVjp M L net θ₀ i (ts θ₀) ct k0 kp).2 (ts θ)) =
        (netPair (M := M) (L := L) net i ct k0 kp ∘ fun θ => (id θ, arrOf M L (ts θ))) -
          ((D.comp (ContinuousLinearMap.inr ℝ E _)) ∘ fun θ => arrOf M L (ts θ)) := by
      funext θ
      have e2 : tokDot M L (derivVjp M L net θ₀ i (ts θ₀) ct k0 kp).2 (ts θ) = D (0, arrOf M L (ts θ)) := by
        rw [← tokDot_deriv]
        simp only [derivVjp, ← hD]
      rw [e2]
      simp [netPair, hts']
    rw [e1]
    refine d3.congr_fderiv ?_
    ext v
    simp only [derivVjp, ← hD]
    simp only [ContinuousLinearMap.comp_apply, ContinuousLinearMap.sub_apply, ContinuousLinearMap.inl_apply,
      ContinuousLinearMap.inr_apply, ContinuousLinearMap.prod_apply, ContinuousLinearMap.id_apply]
    rw [← map_sub]
    simp

/-- Weights as functions of another parameter. -/
theorem ModelFam.comp {Θ Θ' : Type*} {P : (Θ → ℝ) → Prop} {Q : (Θ' → ℝ) → Prop} {g : Θ' → Θ} (h : ∀ f, P f → Q fun z => f (g z))
    {w : Θ → ModelW} (hw : ModelFam P w) : ModelFam Q fun z => w (g z) := by
  have hd : ∀ {d : Θ → DenseW}, DenseFam P d → DenseFam Q fun z => d (g z) :=
    fun hd => ⟨fun i o => h _ (hd.kernel i o), fun o => h _ (hd.bias o)⟩
  have hn : ∀ {d : Θ → NormW}, NormFam P d → NormFam Q fun z => d (g z) :=
    fun hd => ⟨fun o => h _ (hd.scale o), fun o => h _ (hd.bias o)⟩
  have hb : ∀ {d : Θ → BlockW}, BlockFam P d → BlockFam Q fun z => d (g z) := fun b =>
    ⟨hn b.norm1, ⟨hd b.attn.query, hd b.attn.key, hd b.attn.value, hd b.attn.out⟩, hn b.norm2, hd b.first, hd b.second, hd b.proj⟩
  exact ⟨hd hw.embedding, fun t c => h _ (hw.posEmbedding t c), fun l => hb (hw.encoder l), hn hw.encoderNorm,
    fun l => hb (hw.decoder l), hn hw.decoderNorm, hd hw.patches⟩

theorem DynFam.comp {Θ Θ' : Type*} {P : (Θ → ℝ) → Prop} {Q : (Θ' → ℝ) → Prop} {g : Θ' → Θ} (h : ∀ f, P f → Q fun z => f (g z))
    {w : Θ → DynW} (hw : DynFam P w) : DynFam Q fun z => w (g z) := by
  have hd : ∀ {d : Θ → DenseW}, DenseFam P d → DenseFam Q fun z => d (g z) :=
    fun hd => ⟨fun i o => h _ (hd.kernel i o), fun o => h _ (hd.bias o)⟩
  have hn : ∀ {d : Θ → NormW}, NormFam P d → NormFam Q fun z => d (g z) :=
    fun hd => ⟨fun o => h _ (hd.scale o), fun o => h _ (hd.bias o)⟩
  have hb : ∀ {d : Θ → Enc1DW}, Enc1DFam P d → Enc1DFam Q fun z => d (g z) := fun b =>
    ⟨hn b.norm1, ⟨hd b.attn.query, hd b.attn.key, hd b.attn.value, hd b.attn.out⟩, hn b.norm2, hd b.first, hd b.second⟩
  have ht : ∀ {d : Θ → TransW}, TransFam P d → TransFam Q fun z => d (g z) :=
    fun b => ⟨fun l => hb (b.blocks l), hn b.norm, hd b.patches⟩
  exact ⟨ht hw.post, ht hw.prior, fun l => hd (hw.diffusion l)⟩

/-- The tokens of the network, as a family. -/
theorem netClosure_fam {Θ : Type*} {P : (Θ → ℝ) → Prop} (hP : NetClass P) (hM : 0 < M) {act : ℝ → ℝ} (ha : ClosedAct P act)
    {w : Θ → ModelW} (hw : ModelFam P w) {proc : Θ → Processor} (hp : ProcFam P proc) {c : MSConfig}
    (hm : (∃ l < c.depth, l ∈ c.poolingLayers) → c.poolingStridesQ.1 * c.poolingStridesQ.2 > 1 → ClosedMax P)
    {p : ProcConfig} {m : Bool} (hok : modelShape c p m ⟨1, M, L⟩ = .ok ⟨1, M, L⟩)
    (kl : Θ → ℕ → List (List ℝ) → ℝ × ℝ) {ts : Θ → List (List ℝ)} (h : TokFam P M L ts) (θ₀ : Θ) (i : ℕ) :
    TokFam P M L fun θ => (netClosure act (w θ) (proc θ) c p m (kl θ) i (ts θ)).1 := by
  have hA := arrayOf_fam hM h
  have hs : ∀ θ, shapeE (modelT act (w θ) (proc θ) c p m (arrayOf (ts θ))) = .ok ⟨1, M, L⟩ := fun θ => by
    rw [modelT_shape, hA.shape, hok]
  rcases modelT_fam hP hw hp ha c hm p m hA with ⟨e, he⟩ | ⟨y, ey, S, hy⟩
  · have := hs θ₀
    rw [show modelT act (w θ₀) (proc θ₀) c p m (arrayOf (ts θ₀)) = .error e from he θ₀] at this
    simp [shapeE] at this
  · have hS : S = ⟨1, M, L⟩ := by
      have := hs θ₀
      rw [show modelT act (w θ₀) (proc θ₀) c p m (arrayOf (ts θ₀)) = .ok (y θ₀) from ey θ₀] at this
      simp only [shapeE, hy.shape] at this
      simpa using this
    subst hS
    have e : (fun θ => (netClosure act (w θ) (proc θ) c p m (kl θ) i (ts θ)).1) = fun θ => tokensList (y θ) := by
      funext θ
      simp [netClosure, ey]
    rw [e]
    exact tokensList_fam hP hy

theorem toksOf_shape (x : Fin M → Fin L → ℝ) : (toksOf x).length = M ∧ ∀ t ∈ toksOf x, t.length = L := by
  refine ⟨by simp [toksOf], fun t ht => ?_⟩
  unfold toksOf at ht
  obtain ⟨i, rfl⟩ := (List.mem_ofFn' _ _).1 ht
  simp

/-- The closure network, with the latent SDE inside, is differentiable in weights and tokens when it does not take maxima over
strides. -/
theorem netClosure_netDiff (hM : 0 < M) {w : E → ModelW} (hw : ModelFam (fun f : E → ℝ => DifferentiableAt ℝ f θ₀) w)
    {d : E → DynW} (hd : DynFam (fun f : E → ℝ => DifferentiableAt ℝ f θ₀) d) (layers hidden seq : ℕ) {latent : ℕ} (hl : 2 ∣ latent)
    (scale : ℝ) (ν : ℕ → ℕ → SampleNoise (seq * latent)) (hν : ∀ b i, (ν b i).dw ≠ []) {c : MSConfig}
    (hm : (∃ l < c.depth, l ∈ c.poolingLayers) → c.poolingStridesQ.1 * c.poolingStridesQ.2 ≤ 1)
    {p : ProcConfig} {m : Bool} (hok : modelShape c p m ⟨1, M, L⟩ = .ok ⟨1, M, L⟩) {kl : E → ℕ → List (List ℝ) → ℝ × ℝ}
    (hkl : ∀ (i : ℕ) (x : Fin M → Fin L → ℝ),
      DifferentiableAt ℝ (fun z : E × (Fin M → Fin L → ℝ) => (kl z.1 i (toksOf z.2)).1) (θ₀, x) ∧
      DifferentiableAt ℝ (fun z : E × (Fin M → Fin L → ℝ) => (kl z.1 i (toksOf z.2)).2) (θ₀, x)) :
    NetDiff M L (fun θ => netClosure gelu (w θ) (sdeProcessor gelu (d θ) layers hidden seq latent scale ν) c p m (kl θ)) θ₀ := by
  intro i x
  refine ⟨fun t r => ?_, (hkl i x).1, (hkl i x).2⟩
  have hP := netClass_diffAt (E := E × (Fin M → Fin L → ℝ)) (θ₀, x)
  have hfst : ∀ f : E → ℝ, DifferentiableAt ℝ f θ₀ → DifferentiableAt ℝ (fun z : E × (Fin M → Fin L → ℝ) => f z.1) (θ₀, x) :=
    fun f hf => DifferentiableAt.comp (θ₀, x) (f := fun z : E × (Fin M → Fin L → ℝ) => z.1) hf differentiableAt_fst
  have hts : TokFam (fun f : E × (Fin M → Fin L → ℝ) → ℝ => DifferentiableAt ℝ f (θ₀, x)) M L fun z => toksOf z.2 := by
    refine ⟨fun z => (toksOf_shape z.2).1, fun z => (toksOf_shape z.2).2, fun t r => ?_⟩
    simp only [toksOf_entry]
    by_cases h : t < M ∧ r < L
    · simp only [dif_pos h]
      have e1 : DifferentiableAt ℝ (fun z : E × (Fin M → Fin L → ℝ) => z.2) (θ₀, x) := differentiableAt_snd
      exact differentiableAt_pi.1 (differentiableAt_pi.1 e1 ⟨t, h.1⟩) ⟨r, h.2⟩
    · simp only [dif_neg h]
      exact differentiableAt_const 0
  exact (netClosure_fam hP hM (gelu_closed hP) (hw.comp hfst) (sdeProcessor_fam hP (hd.comp hfst) layers hidden seq hl scale ν hν)
    (fun h1 h2 => absurd h2 (not_lt.2 (hm h1))) hok (fun z => kl z.1) hts (θ₀, x) i).val t r

/-- The network keeps the shape. -/
theorem netClosure_keepsAt (hM : 0 < M) {act : ℝ → ℝ} {w : ModelW} {proc : Processor} {c : MSConfig} {p : ProcConfig} {m : Bool}
    (hok : modelShape c p m ⟨1, M, L⟩ = .ok ⟨1, M, L⟩) (kl : ℕ → List (List ℝ) → ℝ × ℝ) :
    KeepsShapeAt M L (netClosure act w proc c p m kl) := by
  intro i ts h1 h2
  have hP := netClass_const (Θ := Unit)
  have ht : TokFam (ConstFn (Θ := Unit)) M L fun _ => ts := ⟨fun _ => h1, fun _ => h2, fun t k => hP.const _⟩
  have := netClosure_fam hP hM (closedAct_const act) (modelFam_const hP w) (proc := fun _ => proc) (fun n k v _ hv b i t c θ θ' => rfl)
    (c := c) (fun _ _ => fun hf hg => by intro θ θ'; rfl) hok (fun _ => kl) ht () i
  exact ⟨this.length (), this.each ()⟩

end Verif.Niles

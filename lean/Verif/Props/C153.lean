import Verif.Lemmas.TokenPerm
import Verif.Props.C109

/-!
# C153: the drift of a token and its context

`Dynamics.__call__` appends the tokens of the context to those of the state (transformer.py 743-744) so that the posterior drift
of each latent token can use the context of that token. `C153_violated`: it cannot. Neither `Dynamics` nor `Encoder1DBlock` adds
positions, and attention does not depend on the order of the keys: for all weights the posterior drift is the same when the
tokens of the context are permuted in any way, while the state stays as it is. `C153_moved`, `C153_partial`: drifts, diffusion
and trajectories commute with permutations of the tokens, and the KL term does not change.
-/

namespace Verif.Niles

open Finset Verif.SDE

/-- For all weights: when the tokens of the state are permuted by `σ`, and those of the context by `τ`, then the posterior drift
is permuted by `σ`, and so are the prior drift and the diffusion. -/
theorem C153_moved (act : ℝ → ℝ) (w : DynW) (layers hidden : ℕ) {seq latent : ℕ} (σ τ : Equiv.Perm (Fin seq))
    (ctx z : Fin (seq * latent) → ℝ) (t : ℝ) :
    let N := dynNets act w layers hidden seq latent ctx
    let N' := dynNets act w layers hidden seq latent fun i => ctx (tokPerm latent τ i)
    (N'.post (fun i => z (tokPerm latent σ i)) t = fun i => N.post z t (tokPerm latent σ i)) ∧
    (N'.prior (fun i => z (tokPerm latent σ i)) t = fun i => N.prior z t (tokPerm latent σ i)) ∧
    (N'.sigma (fun i => z (tokPerm latent σ i)) = fun i => N.sigma z (tokPerm latent σ i)) := by
  intro N N'
  refine ⟨?_, ?_, ?_⟩
  · exact driftOf_moved (n := seq + 1 + seq) (by omega) (fun t ht => if_pos (by omega))
      ((moved_context σ τ z ctx t).transformerBlock act w.post layers latent)
  · exact driftOf_moved (n := seq + 1) (by omega) (fun _ _ => rfl)
      ((moved_time σ z t).transformerBlock act w.prior layers latent)
  · funext i
    exact (dynNets_sigma act w layers hidden seq latent _ _ i).trans
      (dynNets_sigma act w layers hidden seq latent ctx z (tokPerm latent σ i)).symm

/-- For all weights, states and times the posterior drift is the same for all orders of the tokens of the context: which token
of the context belongs to which token of the state does not matter. -/
theorem C153_violated (act : ℝ → ℝ) (w : DynW) (layers hidden : ℕ) {seq latent : ℕ} (τ : Equiv.Perm (Fin seq))
    (ctx z : Fin (seq * latent) → ℝ) (t : ℝ) :
    (dynNets act w layers hidden seq latent fun i => ctx (tokPerm latent τ i)).post z t =
      (dynNets act w layers hidden seq latent ctx).post z t := by
  have h := (C153_moved act w layers hidden 1 τ ctx z t).1
  have e : ∀ i : Fin (seq * latent), tokPerm latent (1 : Equiv.Perm (Fin seq)) i = i := by
    intro i
    apply Fin.ext
    rw [tokPerm_val, liftPerm]
    split_ifs with h
    · exact Nat.div_add_mod' _ _
    · exact Nat.div_add_mod' _ _
  simp only [e] at h
  exact h

/-- So two tokens with the same latent state have the same drifts, even if their contexts differ. -/
theorem C153_same (act : ℝ → ℝ) (w : DynW) (layers hidden : ℕ) {seq latent : ℕ} (s s' : Fin seq) (ctx z : Fin (seq * latent) → ℝ)
    (t : ℝ) (h : ∀ c : Fin latent, z (finProdFinEquiv (s, c)) = z (finProdFinEquiv (s', c))) (c : Fin latent) :
    (dynNets act w layers hidden seq latent ctx).post z t (finProdFinEquiv (s, c)) =
      (dynNets act w layers hidden seq latent ctx).post z t (finProdFinEquiv (s', c)) := by
  have hp : ∀ (a : Fin seq) (c : Fin latent), tokPerm latent (Equiv.swap s s') (finProdFinEquiv (a, c)) =
      finProdFinEquiv (Equiv.swap s s' a, c) := by
    intro a c
    simp [tokPerm]
  have hz : (fun i => z (tokPerm latent (Equiv.swap s s') i)) = z := by
    funext i
    obtain ⟨⟨a, c⟩, rfl⟩ := finProdFinEquiv.surjective i
    rw [hp]
    by_cases h1 : a = s
    · rw [h1, Equiv.swap_apply_left, h]
    · by_cases h2 : a = s'
      · rw [h2, Equiv.swap_apply_right, h]
      · rw [Equiv.swap_apply_of_ne_of_ne h1 h2]
  have h1 := (C153_moved act w layers hidden (Equiv.swap s s') 1 ctx z t).1
  rw [hz] at h1
  have h2 := congrFun h1 (finProdFinEquiv (s, c))
  rw [hp, Equiv.swap_apply_left] at h2
  rw [← h2]
  exact (congrFun (C153_violated act w layers hidden 1 ctx z t) _).symm

/-- In particular no weights make the drift pull each token towards its own context, or towards any function of it that can tell
two contexts apart: such a drift needs to know which context belongs to the token. -/
theorem C153_unreachable (act : ℝ → ℝ) (w : DynW) (layers hidden : ℕ) {seq latent : ℕ} (hseq : 2 ≤ seq) (t : ℝ)
    (g : (Fin latent → ℝ) → (Fin latent → ℝ) → Fin latent → ℝ) (z u u' : Fin latent → ℝ) (hg : g z u ≠ g z u') :
    ¬ ∀ (ctx : Fin (seq * latent) → ℝ) (s : Fin seq) (c : Fin latent),
      (dynNets act w layers hidden seq latent ctx).post (fun i => z (finProdFinEquiv.symm i).2) t (finProdFinEquiv (s, c)) =
        g z (fun c => ctx (finProdFinEquiv (s, c))) c := by
  intro h
  apply hg
  funext c
  let a : Fin seq := ⟨0, by omega⟩
  let b : Fin seq := ⟨1, by omega⟩
  have hab : b ≠ a := fun e => by simpa [a, b] using congrArg Fin.val e
  let ctx : Fin (seq * latent) → ℝ := fun i => if (finProdFinEquiv.symm i).1 = a then u (finProdFinEquiv.symm i).2
    else u' (finProdFinEquiv.symm i).2
  have ha : (fun c => ctx (finProdFinEquiv (a, c))) = u := by
    funext c
    simp only [ctx, Equiv.symm_apply_apply, if_true]
  have hb : (fun c => ctx (finProdFinEquiv (b, c))) = u' := by
    funext c
    simp only [ctx, Equiv.symm_apply_apply, if_neg hab]
  have h1 := h ctx a c
  have h2 := h ctx b c
  rw [ha] at h1
  rw [hb] at h2
  rw [← h1, ← h2]
  exact C153_same act w layers hidden a b ctx _ t (fun c => by simp only [Equiv.symm_apply_apply]) c

/-- The state with its tokens moved, and the KL term as it is. -/
def moveState {n : ℕ} (p : Equiv.Perm (Fin n)) : ((Fin n → ℝ) × ℝ) →ₗ[ℝ] ((Fin n → ℝ) × ℝ) where
  toFun s := (fun i => s.1 (p i), s.2)
  map_add' _ _ := rfl
  map_smul' _ _ := rfl

/-- What holds: for all weights, permuting the tokens of the latent state, of the random numbers of the start and of all increments
permutes the tokens of the result of `sample_sde`, with the same KL term, or the same exception. -/
theorem C153_partial (act : ℝ → ℝ) (w : DynW) (layers hidden : ℕ) {seq latent : ℕ} (scale : ℝ) (σ : Equiv.Perm (Fin seq))
    (v : Fin (seq * latent) → ℝ) (ν : SampleNoise (seq * latent)) :
    sampleSDE act w layers hidden seq latent scale (fun i => v (tokPerm latent σ i))
        ⟨fun i => ν.start (tokPerm latent σ i), ν.dw.map fun dw i => dw (tokPerm latent σ i)⟩ =
      (sampleSDE act w layers hidden seq latent scale v ν).map fun r => (fun i => r.1 (tokPerm latent σ i), r.2) := by
  let z0 := fun i => v i + scale * 1 * ν.start i
  let N := dynNets act w layers hidden seq latent z0
  let N' := dynNets act w layers hidden seq latent fun i => z0 (tokPerm latent σ i)
  have hf : ∀ (x : (Fin (seq * latent) → ℝ) × ℝ) (t : ℝ) (dw : Fin (seq * latent) → ℝ),
      dynamics N' (moveState (tokPerm latent σ) x) t (fun i => dw (tokPerm latent σ i)) =
        (moveState (tokPerm latent σ) (dynamics N x t dw).1, moveState (tokPerm latent σ) (dynamics N x t dw).2) := by
    intro x t dw
    obtain ⟨h1, h2, h3⟩ := C153_moved act w layers hidden σ σ z0 x.1 t
    change N'.post (fun i => x.1 (tokPerm latent σ i)) t = _ at h1
    change N'.prior (fun i => x.1 (tokPerm latent σ i)) t = _ at h2
    change N'.sigma (fun i => x.1 (tokPerm latent σ i)) = _ at h3
    simp only [dynamics, moveState, LinearMap.coe_mk, AddHom.coe_mk, logqp, h1, h2, h3]
    have hs := Equiv.sum_comp (tokPerm latent σ) fun i => divideNoNan (N.post x.1 t i - N.prior x.1 t i) (N.sigma x.1 i) ^ 2
    refine Prod.ext (Prod.ext rfl ?_) rfl
    exact congrArg ((1 / 2 : ℝ) * ·) hs
  have hz : sampleSDE act w layers hidden seq latent scale (fun i => v (tokPerm latent σ i))
        ⟨fun i => ν.start (tokPerm latent σ i), ν.dw.map fun dw i => dw (tokPerm latent σ i)⟩ =
      samplePath (dynamics N') (fun i => z0 (tokPerm latent σ i)) (ν.dw.map fun dw i => dw (tokPerm latent σ i)) := rfl
  have hz' : sampleSDE act w layers hidden seq latent scale v ν = samplePath (dynamics N) z0 ν.dw := rfl
  rw [hz, hz']
  simp only [samplePath, sdeint, sdeintArgs, List.length_map]
  by_cases hl : ν.dw.length = 0
  · simp [hl, Except.map]
  · have hseg := sdeintSeg_conj (K := ℝ) (f := dynamics N) (g := dynamics N') (φ := moveState (tokPerm latent σ))
      (ψ := fun dw i => dw (tokPerm latent σ i)) hf (z0, 0) (0, 1) ν.dw
    have hm : (moveState (tokPerm latent σ)) (z0, 0) = ((fun i => z0 (tokPerm latent σ i), 0) : (Fin (seq * latent) → ℝ) × ℝ) := rfl
    rw [hm] at hseg
    have ht : ν.dw.take ν.dw.length = ν.dw := List.take_length
    have ht' : (ν.dw.map fun dw i => dw (tokPerm latent σ i)).take ν.dw.length = ν.dw.map fun dw i => dw (tokPerm latent σ i) := by
      rw [← List.map_take, ht]
    simp only [List.length_singleton, Nat.mod_one, Nat.div_one, hl, one_ne_zero, ne_eq, not_true_eq_false, or_self, if_false, segments,
      segScan, ht, ht', hseg, Except.map]
    rfl

/-- Two tokens with two channels: the contexts differ, and there are weights with which the drift depends on the context; but
it is the same for these two. -/
example : (fun i => unitVec (2 * 2) 1 (tokPerm 2 (Equiv.swap (0 : Fin 2) 1) i)) ≠ unitVec (2 * 2) 1 := by
  intro h
  have := congrFun h ⟨0, by decide⟩
  have e : (tokPerm 2 (Equiv.swap (0 : Fin 2) 1) ⟨0, by decide⟩ : Fin (2 * 2)) = ⟨2, by decide⟩ := by decide
  rw [e] at this
  norm_num [unitVec] at this

example : ∃ w : DynW, (dynNets id w 1 32 2 2 (unitVec (2 * 2) 1)).post 0 0 ≠ (dynNets id w 1 32 2 2 0).post 0 0 := by
  obtain ⟨h0, -, h2⟩ := C109_partial id 0 32 (seq := 2) (latent := 2) (by norm_num) (by norm_num) (by norm_num) 0 fun _ => copyDense
  refine ⟨⟨mixTrans, mixTrans, fun _ => copyDense⟩, fun h => ?_⟩
  exact h2.ne' ((congrFun h _).trans h0)

/-- The pull of a token towards its context is a drift as in `C153_unreachable`. -/
example : (fun z u : Fin 2 → ℝ => u - z) 0 0 ≠ (fun z u : Fin 2 → ℝ => u - z) 0 1 := by
  intro h
  have := congrFun h 0
  norm_num at this

end Verif.Niles

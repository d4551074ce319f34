import Verif.Model.Network
import Verif.Model.Rollout

/-!
# The closure network in a rollout

The network of `Verif.Model.Network` as the closure of `Verif.Model.Rollout`, for one example: by C106 its closure does not
depend on the other examples of the batch when the kernels have length one along the first axis. The samples of the processor
are the same in every step; in the code the noise changes with the step (train.py 230). The KL terms are arbitrary.
-/

namespace Verif.Niles

/-- The tokens of one example as an array (train.py 234-237). -/
noncomputable def arrayOf (ts : List (List ℝ)) : Tensor :=
  ⟨⟨1, ts.length, (ts.headD []).length⟩, fun _ t k => (ts.getD t []).getD k 0⟩

/-- The array of one example as tokens (train.py 258-263). -/
def tokensList (y : Tensor) : List (List ℝ) :=
  (List.range y.shape.seq).map fun t => (List.range y.shape.chan).map fun k => y.val 0 t k

/-- `model_apply_fn` (train.py 242-252); after an exception there are no tokens. -/
noncomputable def netClosure (act : ℝ → ℝ) (w : ModelW) (proc : Processor) (c : MSConfig) (p : ProcConfig) (m : Bool)
    (kl : ℕ → List (List ℝ) → ℝ × ℝ) : Closure ℝ := fun i ts =>
  (match modelT act w proc c p m (arrayOf ts) with
    | .ok y => tokensList y
    | .error _ => [], kl i ts)

end Verif.Niles

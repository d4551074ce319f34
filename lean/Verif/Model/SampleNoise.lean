import Verif.Model.Processor

/-!
# Model of the random numbers of the latent SDE

The arrays of random numbers of `LatentSDE.sample_sde` (transformer.py 883-937) as functions of the standard normal numbers that
the calls of `jax.random` return. The keys and the generator are not modelled: a key is its number, and the numbers drawn with it
are arguments.
-/

namespace Verif.Niles

/-- `brownian_path` (sdeint.py 32-36): the `n` increments from the `n` standard normal numbers drawn with the key. -/
noncomputable def brownianPath (n : ℕ) (normal : ℕ → ℝ) (i : ℕ) : ℝ := Real.sqrt (1 / n) * normal i

/-- `jax.vmap(..., out_axes=-1)` of `brownian_path` over the keys (transformer.py 849-850, 911-912): the keys are the last axis. -/
noncomputable def stackKeys (n : ℕ) (draw : ℕ → ℕ → ℝ) (i key : ℕ) : ℝ := brownianPath n (draw key) i

/-- `x.reshape((-1, n, N))` of an array with `cols` columns (transformer.py 851-852, 913-914). -/
def reshape3 (cols n N : ℕ) (x : ℕ → ℕ → ℝ) (e t l : ℕ) : ℝ :=
  x ((e * (n * N) + t * N + l) / cols) ((e * (n * N) + t * N + l) % cols)

/-- `dw` (transformer.py 847-852, 909-914) for `E` trajectories: one key per trajectory and coordinate. -/
noncomputable def increments (E n N : ℕ) (draw : ℕ → ℕ → ℝ) : ℕ → ℕ → ℕ → ℝ := reshape3 (E * N) n N (stackKeys n draw)

/-- The normal numbers of the initial states (transformer.py 899-906): drawn with shape `(S, batch, N)`, transposed and
reshaped to one row per trajectory. -/
def startNumbers (S : ℕ) (x : ℕ → ℕ → ℕ → ℝ) (e l : ℕ) : ℝ := x (e % S) (e / S) l

/-- The random numbers of sample `s` of example `b` (transformer.py 932-933 splits the trajectories by example). -/
noncomputable def sampleNoise (batch S n N : ℕ) (x : ℕ → ℕ → ℕ → ℝ) (draw : ℕ → ℕ → ℝ) (b s : ℕ) : SampleNoise N where
  start l := startNumbers S x (b * S + s) l
  dw := (List.range n).map fun t l => increments (batch * S) n N draw (b * S + s) t l

end Verif.Niles

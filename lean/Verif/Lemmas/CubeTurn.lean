import Verif.Lemmas.CubeSym
import Verif.Lemmas.IsoStokes
import Verif.Lemmas.CubeExact

/-!
Turns, mirrors and shifts of the cube: the permutations of the elements, of the nodes and of the quadrature points.
-/

namespace Verif.NS

open Verif.Core Verif.Common Verif.Spec MvPolynomial

variable {n d p over : ℕ} {a b c L : ℝ} {per : List ℕ}

/-- A symmetry of the cube: axis `k` becomes axis `axis k`, in the opposite direction if `flip k`; then the cube is moved by
`shift k` elements along axis `k`. -/
structure Turn (d : ℕ) where
  axis : Equiv.Perm (Fin d)
  flip : Fin d → Bool
  shift : Fin d → ℕ

namespace Turn

/-- The sign of an axis. -/
def sign (g : Turn d) (k : Fin d) : ℝ := if g.flip k then -1 else 1

theorem sign_sq (g : Turn d) (k : Fin d) : g.sign k * g.sign k = 1 := by
  unfold sign
  split <;> norm_num

theorem sign_ne (g : Turn d) (k : Fin d) : g.sign k ≠ 0 := by
  unfold sign
  split <;> norm_num

/-- The image of a point of the cube `[a, b]^d` with `n` elements per axis. -/
noncomputable def point (g : Turn d) (a b : ℝ) (n : ℕ) (x : Fin d → ℝ) : Fin d → ℝ := fun m =>
  (if g.flip (g.axis.symm m) then a + b - x (g.axis.symm m) else x (g.axis.symm m)) + g.shift m * ((b - a) / n)

/-- The image of a vector. -/
def vector (g : Turn d) (v : Fin d → ℝ) : Fin d → ℝ := fun m => g.sign (g.axis.symm m) * v (g.axis.symm m)

theorem point_axis (g : Turn d) (x : Fin d → ℝ) (k : Fin d) : g.point a b n x (g.axis k) =
    (if g.flip k then a + b - x k else x k) + g.shift (g.axis k) * ((b - a) / n) := by
  simp [point]

theorem vector_axis (g : Turn d) (v : Fin d → ℝ) (k : Fin d) : g.vector v (g.axis k) = g.sign k * v k := by
  simp [vector]

/-- The symmetries of the partly periodic cube: periodic axes become periodic axes, and only along these it is moved. -/
structure Keeps (g : Turn d) (per : List ℕ) : Prop where
  axes : ∀ k : Fin d, (k : ℕ) ∈ per ↔ ((g.axis k : Fin d) : ℕ) ∈ per
  shifts : ∀ k : Fin d, (k : ℕ) ∉ per → g.shift k = 0

end Turn

variable {g : Turn d}

namespace TorusPoint

variable {x y : Fin d → ℝ}

theorem turn (hg : g.Keeps per) (h : TorusPoint per L x y) : TorusPoint per L (g.point a b n x) (g.point a b n y) := fun m => by
  obtain ⟨k, rfl⟩ := g.axis.surjective m
  rw [Turn.point_axis, Turn.point_axis]
  rcases h k with h1 | ⟨hk, z, h1⟩
  · exact Or.inl (by rw [h1])
  · refine Or.inr ⟨(hg.axes k).1 hk, if g.flip k then -z else z, ?_⟩
    rw [h1]
    split
    · push_cast; ring
    · ring

theorem of_turn (hg : g.Keeps per) (h : TorusPoint per L (g.point a b n x) (g.point a b n y)) : TorusPoint per L x y := fun k => by
  have h0 := h (g.axis k)
  rw [Turn.point_axis, Turn.point_axis] at h0
  rcases h0 with h1 | ⟨hk, z, h1⟩
  · left
    split at h1 <;> linarith
  · refine Or.inr ⟨(hg.axes k).2 hk, if g.flip k then -z else z, ?_⟩
    split at h1
    · rename_i hf; rw [if_pos hf]; push_cast; linarith
    · rename_i hf; rw [if_neg hf]; linarith

end TorusPoint

/-! ### indices -/

/-- The image of an index along an axis. -/
def turnDigit (N : ℕ) (f : Bool) (s x : ℕ) : ℕ := ((if f then N - 1 - x else x) + s) % N

theorem turnDigit_inj {N : ℕ} {f : Bool} {s x y : ℕ} (hx : x < N) (hy : y < N) (h : turnDigit N f s x = turnDigit N f s y) : x = y := by
  unfold turnDigit at h
  have h2 : (if f then N - 1 - x else x) ≡ (if f then N - 1 - y else y) [MOD N] := Nat.ModEq.add_right_cancel' _ h
  unfold Nat.ModEq at h2
  cases f
  · simp only [Bool.false_eq_true, if_false] at h2
    rwa [Nat.mod_eq_of_lt hx, Nat.mod_eq_of_lt hy] at h2
  · simp only [if_true] at h2
    rw [Nat.mod_eq_of_lt (by omega), Nat.mod_eq_of_lt (by omega)] at h2
    omega

/-- The image of the multi-index `j` of an array with `N` entries per axis. -/
noncomputable def place (N : ℕ) (g : Turn d) (s : Fin d → ℕ) (j : ℕ) : ℕ :=
  if h : 0 < N then (digit_surj (fun m : Fin d => (⟨turnDigit N (g.flip (g.axis.symm m)) (s m) (digit N d (g.axis.symm m) j),
    Nat.mod_lt _ h⟩ : Fin N))).choose else j

variable {N : ℕ} {s : Fin d → ℕ}

theorem place_lt (hN : 1 ≤ N) (g : Turn d) (s : Fin d → ℕ) (j : ℕ) : place N g s j < N ^ d := by
  unfold place
  rw [dif_pos (show 0 < N by omega)]
  exact (digit_surj (fun m : Fin d => (⟨turnDigit N (g.flip (g.axis.symm m)) (s m) (digit N d (g.axis.symm m) j),
    Nat.mod_lt _ (by omega)⟩ : Fin N))).choose_spec.1

theorem place_digit (hN : 1 ≤ N) (g : Turn d) (s : Fin d → ℕ) (j : ℕ) (k : Fin d) :
    digit N d (g.axis k) (place N g s j) = turnDigit N (g.flip k) (s (g.axis k)) (digit N d k j) := by
  unfold place
  rw [dif_pos (show 0 < N by omega)]
  have := (digit_surj (fun m : Fin d => (⟨turnDigit N (g.flip (g.axis.symm m)) (s m) (digit N d (g.axis.symm m) j),
    Nat.mod_lt _ (by omega)⟩ : Fin N))).choose_spec.2 (g.axis k)
  rw [this]
  simp

theorem place_perm (hN : 1 ≤ N) (g : Turn d) (s : Fin d → ℕ) : PermOn (N ^ d) (place N g s) := by
  refine ⟨fun j _ => place_lt hN g s j, fun i hi j hj h => digit_ext hi hj fun k hk => ?_⟩
  have h1 := place_digit hN g s i ⟨k, hk⟩
  rw [h, place_digit hN g s j ⟨k, hk⟩] at h1
  exact (turnDigit_inj (digit_lt N d k j (by omega)) (digit_lt N d k i (by omega)) h1).symm

/-! ### symmetric points -/

/-- Points that are symmetric about zero. -/
def SymNodes (grid : Nodes1D ℝ) : Prop := ∀ i, grid.value (Fin.rev i) = - grid.value i

theorem SymNodes.at0 {grid : Nodes1D ℝ} (h : SymNodes grid) (f : Bool) {x : ℕ} (hx : x < grid.numPoints) :
    at0 grid.value (turnDigit grid.numPoints f 0 x) = (if f then -1 else 1) * Core.at0 grid.value x := by
  unfold turnDigit
  cases f
  · simp [Nat.mod_eq_of_lt hx]
  · simp only [if_true, Nat.add_zero]
    have h1 : grid.numPoints - 1 - x < grid.numPoints := by omega
    rw [Nat.mod_eq_of_lt h1]
    unfold Core.at0
    rw [dif_pos hx, dif_pos h1]
    have := h ⟨x, hx⟩
    rw [neg_one_mul, ← this]
    congr 1
    apply Fin.ext
    simp only [Fin.val_rev]
    omega

theorem gridPoint_place {grid : Nodes1D ℝ} (h : SymNodes grid) (hN : 1 ≤ grid.numPoints) (g : Turn d) (j : ℕ) (k : Fin d) :
    gridPoint d grid.value (place grid.numPoints g 0 j) (g.axis k) = g.sign k * gridPoint d grid.value j k := by
  unfold gridPoint
  rw [place_digit hN]
  exact h.at0 _ (digit_lt _ _ _ _ (by omega))

theorem symNodes_gll {m : ℕ} (hm : 1 ≤ m) {grid : Nodes1D ℝ} (h : createNodes .gaussLobattoLegendre (m + 1) = some grid) :
    SymNodes grid := by
  obtain ⟨l, h1, h2, h3, _⟩ := C78_rule m hm
  simp only [createNodes, h1, Option.some.injEq] at h
  subst h
  exact h3.symmetric

theorem symNodes_gl {m : ℕ} {grid : Nodes1D ℝ} (h : createNodes .gaussLegendre (m + 1) = some grid) : SymNodes grid := by
  obtain ⟨l, h1, h2, h3, h4⟩ := gl_list m
  simp only [createNodes, h1, Option.some.injEq] at h
  subst h
  refine vec_symmetric h2 h3 fun x hx => (h4 _).2 ?_
  rw [legendre_neg, (h4 x).1 hx, mul_zero]

/-- Weights that are symmetric. -/
def SymWeights (quad : Quadrature1D ℝ) : Prop :=
  quad.weights.length = quad.nodes.numPoints ∧ ∀ i < quad.nodes.numPoints,
    quad.weights.getD (quad.nodes.numPoints - 1 - i) 0 = quad.weights.getD i 0

theorem symWeights_gll {m : ℕ} (hm : 1 ≤ m) {quad : Quadrature1D ℝ}
    (h : createQuadrature .gaussLobattoLegendre (m + 1) = some quad) : SymWeights quad ∧ SymNodes quad.nodes ∧
      quad.nodes.numPoints = m + 1 := by
  obtain ⟨q, l, h1, h2, h3, h4, h5, h6, h7⟩ := gllQuadrature_spec hm
  rw [h, Option.some.injEq] at h1
  subst h1
  have hs := symNodes_gll hm h7
  refine ⟨?_, hs, h3⟩
  unfold createQuadrature at h
  rw [h7] at h
  simp only [Option.map_some, Option.some.injEq] at h
  have hw : quad.weights = gllWeights (m + 1) (List.ofFn quad.nodes.value) := by rw [← h]
  refine ⟨by rw [hw]; simp [gllWeights], fun i hi => ?_⟩
  have hi' : quad.nodes.numPoints - 1 - i < quad.nodes.numPoints := by omega
  have get : ∀ j (hj : j < quad.nodes.numPoints), quad.weights.getD j 0 =
      2 / (((m + 1 : ℕ) : ℝ) * (((m + 1 : ℕ) : ℝ) - 1)) / ((legendre (m + 1 - 1)).eval (quad.nodes.value ⟨j, hj⟩)) ^ 2 := by
    intro j hj
    rw [hw, gllWeights, List.getD_eq_getElem _ _ (by simpa using hj), List.getElem_map, List.getElem_ofFn]
  rw [get i hi, get _ hi']
  have e : (⟨quad.nodes.numPoints - 1 - i, hi'⟩ : Fin quad.nodes.numPoints) = Fin.rev ⟨i, hi⟩ := by
    apply Fin.ext
    simp only [Fin.val_rev]
    omega
  rw [e, hs, legendre_neg, mul_pow, ← pow_mul, mul_comm (m + 1 - 1) 2, pow_mul]
  norm_num

theorem weights_place {quad : Quadrature1D ℝ} (h : SymWeights quad) (hN : 1 ≤ quad.nodes.numPoints) (hd : 1 ≤ d) {W : List ℝ}
    (hW : weightsNd quad.weights d = some W) (g : Turn d) {q : ℕ} (hq : q < quad.nodes.numPoints ^ d) :
    W.getD (place quad.nodes.numPoints g 0 q) 0 = W.getD q 0 := by
  obtain ⟨d, rfl⟩ : ∃ d', d = d' + 1 := ⟨d - 1, by omega⟩
  obtain ⟨W', hW', _, hget⟩ := weightsNd_get quad.weights d
  rw [hW, Option.some.injEq] at hW'
  subst hW'
  rw [h.1] at hget
  rw [hget q hq, hget _ (place_lt hN g 0 q), ← Equiv.prod_comp g.axis]
  refine Finset.prod_congr rfl fun k _ => ?_
  rw [place_digit hN]
  have hlt := digit_lt quad.nodes.numPoints (d + 1) k q (by omega)
  unfold turnDigit
  simp only [Pi.zero_apply, Nat.add_zero]
  cases g.flip k
  · simp only [Bool.false_eq_true, if_false]
    rw [Nat.mod_eq_of_lt hlt]
  · simp only [if_true]
    rw [Nat.mod_eq_of_lt (by omega)]
    exact h.2 _ hlt

/-! ### polynomials -/

/-- The polynomial in the turned variables. -/
noncomputable def turnPoly (g : Turn d) (P : MvPolynomial (Fin d) ℝ) : MvPolynomial (Fin d) ℝ :=
  aeval (fun m => C (g.sign (g.axis.symm m)) * X (g.axis.symm m)) P

theorem turnPoly_eval (g : Turn d) (P : MvPolynomial (Fin d) ℝ) {x y : Fin d → ℝ} (h : ∀ k, y (g.axis k) = g.sign k * x k) :
    eval x (turnPoly g P) = eval y P := by
  unfold turnPoly
  induction P using MvPolynomial.induction_on with
  | C r => simp
  | add P Q hP hQ => rw [map_add, map_add, map_add, hP, hQ]
  | mul_X P m hP =>
    rw [map_mul, map_mul, map_mul, hP, aeval_X, eval_X, eval_mul, eval_C, eval_X, ← h, Equiv.apply_symm_apply]

theorem turnPoly_pderiv (g : Turn d) (P : MvPolynomial (Fin d) ℝ) (i : Fin d) :
    pderiv i (turnPoly g P) = C (g.sign i) * turnPoly g (pderiv (g.axis i) P) := by
  unfold turnPoly
  induction P using MvPolynomial.induction_on with
  | C r => simp
  | add P Q hP hQ => rw [map_add, map_add, map_add, map_add, hP, hQ, mul_add]
  | mul_X P m hP =>
    obtain ⟨k, rfl⟩ := g.axis.surjective m
    simp only [pderiv_mul, map_add, map_mul, aeval_X, Equiv.symm_apply_apply, pderiv_C, zero_mul, zero_add, pderiv_X, hP]
    by_cases hk : i = k
    · subst hk
      simp only [Pi.single_eq_same, map_one]
      ring
    · rw [Pi.single_eq_of_ne (by simpa using fun e => hk e.symm), Pi.single_eq_of_ne (by simpa using fun e => hk e.symm)]
      simp only [map_zero]
      ring

theorem turnPoly_degree (g : Turn d) (P : MvPolynomial (Fin d) ℝ) (k : Fin d) :
    degreeOf k (turnPoly g P) ≤ degreeOf (g.axis k) P := by
  unfold turnPoly
  rw [aeval_def, eval₂_eq']
  refine (degreeOf_sum_le _ _ _).trans (Finset.sup_le fun m hm => ?_)
  have h1 : degreeOf k (algebraMap ℝ (MvPolynomial (Fin d) ℝ) (coeff m P) *
      ∏ i, (C (g.sign (g.axis.symm i)) * X (g.axis.symm i)) ^ m i) ≤ m (g.axis k) := by
    rw [algebraMap_eq]
    refine (degreeOf_C_mul_le _ _ _).trans ((degreeOf_prod_le _ _ _).trans ?_)
    refine (Finset.sum_le_sum (g := fun i => if i = g.axis k then m i else 0) fun i _ => ?_).trans ?_
    · refine (degreeOf_pow_le _ _ _).trans ?_
      have h2 : degreeOf k (C (g.sign (g.axis.symm i)) * X (g.axis.symm i) : MvPolynomial (Fin d) ℝ) ≤
          if i = g.axis k then 1 else 0 := by
        refine (degreeOf_C_mul_le _ _ _).trans ?_
        rw [degreeOf_X]
        split_ifs with h3 h4 h4
        · exact le_rfl
        · exact absurd (by rw [h3, Equiv.apply_symm_apply]) h4
        · omega
        · exact le_rfl
      split_ifs at h2 ⊢ with h3
      · calc m i * _ ≤ m i * 1 := Nat.mul_le_mul_left _ h2
          _ = m i := mul_one _
      · rw [Nat.le_zero.mp h2, mul_zero]
    · rw [Finset.sum_ite_eq' Finset.univ (g.axis k) m]
      simp
  exact h1.trans ((degreeOf_le_iff (n := g.axis k)).mp le_rfl m hm)

end Verif.NS

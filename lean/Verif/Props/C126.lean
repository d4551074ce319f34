import Verif.Model.SampleNoise
import Mathlib.Probability.ProductMeasure
import Mathlib.Probability.Moments.Variance
import Mathlib.Probability.Distributions.Gaussian.Real
import Mathlib.Probability.Independence.InfinitePi
import Mathlib.MeasureTheory.Integral.Pi

/-!
# C126: the samples of the processor are independent

The normal numbers that `jax.random` returns are taken to be independent and standard normal. The reshape of the array of
increments mixes keys and times, but it uses every number once, so that the trajectories are independent, with the increments
of a Brownian motion.
-/

namespace Verif.Niles

open MeasureTheory ProbabilityTheory
open scoped NNReal

/-- The places of the normal numbers: sample, example and coordinate of the initial states; key and position of the increments. -/
abbrev Places (batch S n N : ℕ) : Type := (Fin S × Fin batch × Fin N) ⊕ (Fin (batch * S * N) × Fin n)

/-- The normal numbers of the initial states as an array. -/
def startArray {batch S n N : ℕ} (ω : Places batch S n N → ℝ) (s b l : ℕ) : ℝ :=
  if h : s < S ∧ b < batch ∧ l < N then ω (.inl (⟨s, h.1⟩, ⟨b, h.2.1⟩, ⟨l, h.2.2⟩)) else 0

/-- The normal numbers of the increments as an array. -/
def drawArray {batch S n N : ℕ} (ω : Places batch S n N → ℝ) (key i : ℕ) : ℝ :=
  if h : key < batch * S * N ∧ i < n then ω (.inr (⟨key, h.1⟩, ⟨i, h.2⟩)) else 0

/-- All random numbers of one trajectory: the initial state and the increments. -/
def noiseVec {n N : ℕ} (ν : SampleNoise N) : Fin N ⊕ (Fin n × Fin N) → ℝ
  | .inl l => ν.start l
  | .inr (t, l) => (ν.dw.getD t 0) l

/-- The random numbers of sample `s` of example `b`. -/
noncomputable def noiseAt {batch S n N : ℕ} (ω : Places batch S n N → ℝ) (b : Fin batch) (s : Fin S) : SampleNoise N :=
  sampleNoise batch S n N (startArray ω) (drawArray ω) b s

/-- Independent standard normal numbers. -/
noncomputable def normals (batch S n N : ℕ) : Measure (Places batch S n N → ℝ) := Measure.pi fun _ => gaussianReal 0 1

/-- The random numbers of a trajectory as they should be: independent, the initial state standard normal, the increments of
variance `1 / n`. -/
noncomputable def trajectoryLaw (n N : ℕ) : Measure (Fin N ⊕ (Fin n × Fin N) → ℝ) :=
  Measure.pi fun i => gaussianReal 0 (match i with
    | .inl _ => 1
    | .inr _ => 1 / n)

/-! ### The places -/

/-- The place of a number of a trajectory. -/
def placeOf {batch S n N : ℕ} : (Fin batch × Fin S) × (Fin N ⊕ (Fin n × Fin N)) → Places batch S n N
  | ((b, s), .inl l) => .inl (s, b, l)
  | ((b, s), .inr (t, l)) =>
    have hpos : 0 < batch * S * N := Nat.mul_pos (Nat.mul_pos (by have := b.2; omega) (by have := s.2; omega)) (by have := l.2; omega)
    .inr (⟨((b * S + s) * (n * N) + t * N + l) % (batch * S * N), Nat.mod_lt _ hpos⟩,
      ⟨((b * S + s) * (n * N) + t * N + l) / (batch * S * N), by
        rw [Nat.div_lt_iff_lt_mul hpos]
        have h1 : (b : ℕ) * S + s + 1 ≤ batch * S := by
          have := Nat.mul_le_mul_right S b.2
          have := s.2
          nlinarith
        have h2 : (t : ℕ) * N + l + 1 ≤ n * N := by
          have := Nat.mul_le_mul_right N t.2
          have := l.2
          nlinarith
        have h3 := Nat.mul_le_mul_right (n * N) h1
        nlinarith⟩)

theorem mul_add_inj {m a a' c c' : ℕ} (hc : c < m) (hc' : c' < m) (h : a * m + c = a' * m + c') : a = a' ∧ c = c' := by
  have h1 : (a * m + c) / m = a := by rw [mul_comm, Nat.mul_add_div (by omega), Nat.div_eq_of_lt hc, add_zero]
  have h2 : (a' * m + c') / m = a' := by rw [mul_comm, Nat.mul_add_div (by omega), Nat.div_eq_of_lt hc', add_zero]
  have h3 : a = a' := by rw [← h1, h, h2]
  subst h3
  exact ⟨rfl, by omega⟩

theorem placeOf_injective {batch S n N : ℕ} : Function.Injective (placeOf (batch := batch) (S := S) (n := n) (N := N)) := by
  rintro ⟨⟨b, s⟩, l | ⟨t, l⟩⟩ ⟨⟨b', s'⟩, l' | ⟨t', l'⟩⟩ h
  · simp only [placeOf, Sum.inl.injEq, Prod.mk.injEq] at h
    obtain ⟨rfl, rfl, rfl⟩ := h
    rfl
  · simp [placeOf] at h
  · simp [placeOf] at h
  · simp only [placeOf, Sum.inr.injEq, Prod.mk.injEq, Fin.mk.injEq] at h
    have e := Nat.div_add_mod ((b * S + s) * (n * N) + t * N + l) (batch * S * N)
    rw [h.1, h.2, Nat.div_add_mod] at e
    have ht : (t : ℕ) * N + l < n * N := by
      have := Nat.mul_le_mul_right N t.2
      have := l.2
      nlinarith
    have ht' : (t' : ℕ) * N + l' < n * N := by
      have := Nat.mul_le_mul_right N t'.2
      have := l'.2
      nlinarith
    rw [add_assoc, add_assoc] at e
    obtain ⟨e1, e2⟩ := mul_add_inj ht' ht e
    obtain ⟨e3, e4⟩ := mul_add_inj s'.2 s.2 e1
    obtain ⟨e5, e6⟩ := mul_add_inj l'.2 l.2 e2
    simp only [Prod.mk.injEq, Sum.inr.injEq]
    exact ⟨⟨Fin.ext e3.symm, Fin.ext e4.symm⟩, Fin.ext e5.symm, Fin.ext e6.symm⟩

/-- Every normal number is used exactly once. -/
theorem placeOf_bijective {batch S n N : ℕ} : Function.Bijective (placeOf (batch := batch) (S := S) (n := n) (N := N)) := by
  rw [Fintype.bijective_iff_injective_and_card]
  refine ⟨placeOf_injective, ?_⟩
  simp only [Places, Fintype.card_prod, Fintype.card_sum, Fintype.card_fin]
  ring

/-- The scale of the numbers. -/
noncomputable def scaleOf (n N : ℕ) : Fin N ⊕ (Fin n × Fin N) → ℝ
  | .inl _ => 1
  | .inr _ => Real.sqrt (1 / n)

theorem noiseVec_eq {batch S n N : ℕ} (ω : Places batch S n N → ℝ) (b : Fin batch) (s : Fin S) (i : Fin N ⊕ (Fin n × Fin N)) :
    noiseVec (noiseAt ω b s) i = scaleOf n N i * ω (placeOf ((b, s), i)) := by
  rcases i with l | ⟨t, l⟩
  · have h1 : ((b : ℕ) * S + s) % S = s := by rw [mul_comm, Nat.mul_add_mod, Nat.mod_eq_of_lt s.2]
    have h2 : ((b : ℕ) * S + s) / S = b := by
      rw [mul_comm, Nat.mul_add_div (by have := s.2; omega), Nat.div_eq_of_lt s.2, add_zero]
    simp only [noiseVec, noiseAt, sampleNoise, startNumbers, h1, h2, startArray, scaleOf, placeOf, one_mul]
    rw [dif_pos ⟨s.2, b.2, l.2⟩]
  · have hpos : 0 < batch * S * N := Nat.mul_pos (Nat.mul_pos (by have := b.2; omega) (by have := s.2; omega)) (by have := l.2; omega)
    have hlt : ((b * S + s) * (n * N) + t * N + l) / (batch * S * N) < n := by
      rw [Nat.div_lt_iff_lt_mul hpos]
      have h1 : (b : ℕ) * S + s + 1 ≤ batch * S := by
        have := Nat.mul_le_mul_right S b.2
        have := s.2
        nlinarith
      have h2 : (t : ℕ) * N + l + 1 ≤ n * N := by
        have := Nat.mul_le_mul_right N t.2
        have := l.2
        nlinarith
      have h3 := Nat.mul_le_mul_right (n * N) h1
      nlinarith
    simp only [noiseVec, noiseAt, sampleNoise, scaleOf, placeOf]
    rw [List.getD_eq_getElem?_getD, List.getElem?_map, List.getElem?_range t.2]
    simp only [Option.map_some, Option.getD_some, increments, reshape3, stackKeys, brownianPath, drawArray]
    rw [dif_pos ⟨Nat.mod_lt _ hpos, hlt⟩]

/-- The trajectories of all samples and examples are independent, and each has the random numbers of a Brownian motion. -/
theorem C126_law (batch S n N : ℕ) :
    (normals batch S n N).map (fun ω (i : Fin batch × Fin S) => noiseVec (n := n) (noiseAt ω i.1 i.2)) =
      Measure.pi fun _ => trajectoryLaw n N := by
  have hsq : ∀ i : Fin N ⊕ (Fin n × Fin N), (gaussianReal 0 1).map (fun x => scaleOf n N i * x) = gaussianReal 0 (match i with
    | .inl _ => 1
    | .inr _ => 1 / n) := by
    intro i
    rw [gaussianReal_map_const_mul, mul_zero, mul_one]
    congr 1
    rcases i with l | ⟨t, l⟩
    · ext
      simp [scaleOf]
    · ext
      simp only [scaleOf]
      have : (0 : ℝ) ≤ 1 / n := by positivity
      push_cast
      exact Real.sq_sqrt this
  have h1 : (normals batch S n N).map (fun ω j => scaleOf n N j.2 * ω (placeOf j)) =
      Measure.pi fun j : (Fin batch × Fin S) × (Fin N ⊕ (Fin n × Fin N)) => gaussianReal 0 (match j.2 with
        | .inl _ => 1
        | .inr _ => 1 / n) := by
    have hm := (measurePreserving_piCongrLeft (fun _ : (Fin batch × Fin S) × (Fin N ⊕ (Fin n × Fin N)) => gaussianReal 0 1)
      (Equiv.ofBijective _ (placeOf_bijective (batch := batch) (S := S) (n := n) (N := N))).symm)
    have e : (fun (ω : Places batch S n N → ℝ) j => scaleOf n N j.2 * ω (placeOf j)) =
        (fun x j => scaleOf n N j.2 * x j) ∘ (MeasurableEquiv.piCongrLeft (fun _ => ℝ)
          (Equiv.ofBijective _ (placeOf_bijective (batch := batch) (S := S) (n := n) (N := N))).symm) := by
      funext ω j
      rw [Function.comp_apply, MeasurableEquiv.coe_piCongrLeft]
      congr 1
      have := Equiv.piCongrLeft_apply_apply (fun _ => ℝ)
        (Equiv.ofBijective _ (placeOf_bijective (batch := batch) (S := S) (n := n) (N := N))).symm ω (placeOf j)
      rw [← this]
      exact congrArg _ (Equiv.ofBijective_symm_apply_apply placeOf placeOf_bijective j)
    rw [e, ← Measure.map_map (by fun_prop) hm.measurable]
    unfold normals
    rw [hm.map_eq, Measure.pi_map_pi (fun j => by fun_prop)]
    congr 1
    funext j
    exact hsq j.2
  have h2 : (fun ω (i : Fin batch × Fin S) => noiseVec (n := n) (noiseAt ω i.1 i.2)) =
      (MeasurableEquiv.curry (Fin batch × Fin S) (Fin N ⊕ (Fin n × Fin N)) ℝ) ∘ fun (ω : Places batch S n N → ℝ) j =>
        scaleOf n N j.2 * ω (placeOf j) := by
    funext ω i k
    rw [noiseVec_eq]
    rfl
  rw [h2, ← Measure.map_map (MeasurableEquiv.measurable _) (by fun_prop), h1]
  have h3 := Measure.infinitePi_map_curry (fun (_ : Fin batch × Fin S) (k : Fin N ⊕ (Fin n × Fin N)) => gaussianReal 0 (match k with
        | .inl _ => 1
        | .inr _ => 1 / (n : ℝ≥0)))
  rw [Measure.infinitePi_eq_pi, Measure.infinitePi_eq_pi] at h3
  rw [h3]
  unfold trajectoryLaw
  congr 1
  funext i
  rw [Measure.infinitePi_eq_pi]

instance (n N : ℕ) : IsProbabilityMeasure (trajectoryLaw n N) := by
  unfold trajectoryLaw
  infer_instance

instance (batch S n N : ℕ) : IsProbabilityMeasure (normals batch S n N) := by
  unfold normals
  infer_instance

theorem noiseVec_measurable {batch S n N : ℕ} (i : Fin batch × Fin S) :
    Measurable fun ω : Places batch S n N → ℝ => noiseVec (n := n) (noiseAt ω i.1 i.2) := by
  refine measurable_pi_lambda _ fun k => ?_
  simp only [noiseVec_eq]
  fun_prop

/-- The random numbers of every trajectory have the law they should have. -/
theorem noiseVec_law {batch S n N : ℕ} (i : Fin batch × Fin S) :
    (normals batch S n N).map (fun ω => noiseVec (n := n) (noiseAt ω i.1 i.2)) = trajectoryLaw n N := by
  have h := congrArg (Measure.map fun x : (Fin batch × Fin S) → (Fin N ⊕ (Fin n × Fin N)) → ℝ => x i) (C126_law batch S n N)
  rw [Measure.map_map (measurable_pi_apply i) (measurable_pi_lambda _ fun j => noiseVec_measurable j)] at h
  rw [(measurePreserving_eval (fun _ => trajectoryLaw n N) i).map_eq] at h
  exact h

theorem sum_gaussian {ι : Type} [Fintype ι] [DecidableEq ι] (v : ι → ℝ≥0) (T : Finset ι) :
    (Measure.pi fun i => gaussianReal 0 (v i)).map (∑ i ∈ T, fun x : ι → ℝ => x i) = gaussianReal 0 (∑ i ∈ T, v i) := by
  induction T using Finset.induction_on with
  | empty =>
    rw [Finset.sum_empty, Finset.sum_empty, gaussianReal_zero_var]
    have : (0 : (ι → ℝ) → ℝ) = fun _ => 0 := rfl
    rw [this, Measure.map_const, measure_univ, one_smul]
  | insert i T hi ih =>
    rw [Finset.sum_insert hi, Finset.sum_insert hi, add_comm, add_comm (v i)]
    have hind : iIndepFun (fun i (x : ι → ℝ) => x i) (Measure.pi fun i => gaussianReal 0 (v i)) :=
      iIndepFun_pi (X := fun _ x => x) fun i => aemeasurable_id
    have h := gaussianReal_add_gaussianReal_of_indepFun
      (hind.indepFun_finsetSum_of_notMem₀ (fun i => (measurable_pi_apply i).aemeasurable) hi) ih
      (measurePreserving_eval (fun i => gaussianReal 0 (v i)) i).map_eq
    rwa [add_zero] at h

/-- The Brownian path of a coordinate of a trajectory: the increments of any `T` of the steps add up to a normal number whose
variance is the part of the time interval that the steps cover. -/
theorem C126_brownian (batch S n N : ℕ) (b : Fin batch) (s : Fin S) (l : Fin N) (T : Finset (Fin n)) :
    (normals batch S n N).map (fun ω => ∑ t ∈ T, ((noiseAt ω b s).dw.getD t 0) l) = gaussianReal 0 (T.card / n) := by
  have h := congrArg (Measure.map (∑ t ∈ T, fun x : (Fin N ⊕ (Fin n × Fin N)) → ℝ => x (.inr (t, l))))
    (noiseVec_law (n := n) (N := N) (b, s))
  rw [Measure.map_map (by fun_prop) (noiseVec_measurable (b, s))] at h
  have e : (∑ t ∈ T, fun x : (Fin N ⊕ (Fin n × Fin N)) → ℝ => x (.inr (t, l))) =
      ∑ i ∈ T.map ⟨fun t => Sum.inr (t, l), fun a c hac => by simpa using hac⟩, fun x : (Fin N ⊕ (Fin n × Fin N)) → ℝ => x i := by
    rw [Finset.sum_map]
    rfl
  have h2 := sum_gaussian (fun i : Fin N ⊕ (Fin n × Fin N) => match i with
    | .inl _ => (1 : ℝ≥0)
    | .inr _ => 1 / n) (T.map ⟨fun t => Sum.inr (t, l), fun a c hac => by simpa using hac⟩)
  rw [← e, Finset.sum_map] at h2
  have h3 : (∑ _t ∈ T, (1 / n : ℝ≥0)) = T.card / n := by rw [Finset.sum_const, nsmul_eq_mul, mul_one_div]
  replace h2 := h2.trans (congrArg (gaussianReal 0) h3)
  unfold trajectoryLaw at h
  rw [h2] at h
  rw [← h]
  congr 1
  funext ω
  rw [Function.comp_apply, Finset.sum_apply]
  rfl

/-- The random numbers of a trajectory from the vector. -/
def ofVec {n N : ℕ} (v : Fin N ⊕ (Fin n × Fin N) → ℝ) : SampleNoise N where
  start l := v (.inl l)
  dw := List.ofFn fun t l => v (.inr (t, l))

theorem ofVec_noiseVec {batch S n N : ℕ} (ω : Places batch S n N → ℝ) (b : Fin batch) (s : Fin S) :
    ofVec (n := n) (noiseVec (noiseAt ω b s)) = noiseAt ω b s := by
  unfold ofVec
  have h : (List.ofFn fun (t : Fin n) l => noiseVec (n := n) (noiseAt ω b s) (.inr (t, l))) = (noiseAt ω b s).dw := by
    apply List.ext_getElem
    · simp [noiseAt, sampleNoise]
    · intro t h1 h2
      rw [List.getElem_ofFn]
      funext l
      simp only [noiseVec]
      rw [List.getD_eq_getElem?_getD, List.getElem?_eq_getElem h2]
      rfl
  rw [h]
  rfl

/-- The mean over the samples of an example of any number computed from a trajectory: its expectation does not depend on the
number of samples, and its variance is that of one sample divided by the number of samples. -/
theorem C126_mean (batch S n N : ℕ) (hS : 1 ≤ S) (b : Fin batch) (F : SampleNoise N → ℝ)
    (hF : MemLp (fun v => F (ofVec (n := n) v)) 2 (trajectoryLaw n N)) :
    ∫ ω, (∑ s : Fin S, F (noiseAt ω b s)) / S ∂normals batch S n N = ∫ v, F (ofVec v) ∂trajectoryLaw n N ∧
      Var[fun ω => (∑ s : Fin S, F (noiseAt ω b s)) / S; normals batch S n N] =
        Var[fun v => F (ofVec v); trajectoryLaw n N] / S := by
  have hS0 : (S : ℝ) ≠ 0 := by
    have : 0 < S := hS
    positivity
  have hmeas : Measurable fun (ω : Places batch S n N → ℝ) (i : Fin batch × Fin S) => noiseVec (n := n) (noiseAt ω i.1 i.2) :=
    measurable_pi_lambda _ fun j => noiseVec_measurable j
  let G : ((Fin batch × Fin S) → (Fin N ⊕ (Fin n × Fin N)) → ℝ) → ℝ := fun x => (∑ s : Fin S, F (ofVec (x (b, s)))) / S
  have hG : ∀ ω : Places batch S n N → ℝ, (∑ s : Fin S, F (noiseAt ω b s)) / S = G fun i => noiseVec (noiseAt ω i.1 i.2) := by
    intro ω
    simp only [G, ofVec_noiseVec]
  have hmem : ∀ i : Fin batch × Fin S, MemLp (fun x : (Fin batch × Fin S) → (Fin N ⊕ (Fin n × Fin N)) → ℝ => F (ofVec (x i))) 2
      (Measure.pi fun _ => trajectoryLaw n N) := fun i =>
    hF.comp_measurePreserving (measurePreserving_eval (fun _ => trajectoryLaw n N) i)
  have hGm : AEStronglyMeasurable G (Measure.pi fun _ => trajectoryLaw n N) := by
    have h1 : MemLp (fun x : (Fin batch × Fin S) → (Fin N ⊕ (Fin n × Fin N)) → ℝ => ∑ s : Fin S, F (ofVec (x (b, s)))) 2
        (Measure.pi fun _ => trajectoryLaw n N) := memLp_finsetSum _ fun s _ => hmem (b, s)
    simp only [G, div_eq_mul_inv]
    exact h1.aestronglyMeasurable.mul_const _
  simp only [hG]
  constructor
  · rw [← integral_map (φ := fun (ω : Places batch S n N → ℝ) (i : Fin batch × Fin S) => noiseVec (n := n) (noiseAt ω i.1 i.2))
      hmeas.aemeasurable (by rw [C126_law]; exact hGm), C126_law]
    simp only [G]
    rw [integral_div, integral_finsetSum _ fun s _ => (hmem (b, s)).integrable (by norm_num)]
    rw [Finset.sum_congr rfl fun s _ => integral_comp_eval (μ := fun _ : Fin batch × Fin S => trajectoryLaw n N) (i := (b, s))
      (f := fun v => F (ofVec v)) hF.aestronglyMeasurable]
    rw [Finset.sum_const, Finset.card_univ, Fintype.card_fin, nsmul_eq_mul]
    field_simp
  · have hv := variance_map (X := G) (Y := fun (ω : Places batch S n N → ℝ) (i : Fin batch × Fin S) =>
      noiseVec (n := n) (noiseAt ω i.1 i.2)) (μ := normals batch S n N) (by rw [C126_law]; exact hGm.aemeasurable) hmeas.aemeasurable
    rw [C126_law] at hv
    change Var[G ∘ fun (ω : Places batch S n N → ℝ) (i : Fin batch × Fin S) => noiseVec (n := n) (noiseAt ω i.1 i.2);
      normals batch S n N] = _
    rw [← hv]
    have h2 := variance_sum_pi (μ := fun _ : Fin batch × Fin S => trajectoryLaw n N)
      (X := fun i v => if i.1 = b then F (ofVec v) else 0) (by
        intro i
        by_cases hi : i.1 = b
        · simpa only [hi, if_true] using hF
        · simp only [hi, if_false]
          exact MemLp.zero')
    have h3 : G = fun x => (S : ℝ)⁻¹ * (∑ i : Fin batch × Fin S, fun x : (Fin batch × Fin S) → (Fin N ⊕ (Fin n × Fin N)) → ℝ =>
        if i.1 = b then F (ofVec (x i)) else 0) x := by
      funext x
      simp only [G, Finset.sum_apply, Fintype.sum_prod_type]
      rw [div_eq_inv_mul, Finset.sum_eq_single b]
      · simp
      · intro c _ hc
        simp [hc]
      · simp
    rw [h3, variance_const_mul, h2, Fintype.sum_prod_type, Finset.sum_eq_single b]
    · simp only [if_true, Finset.sum_const, Finset.card_univ, Fintype.card_fin, nsmul_eq_mul]
      field_simp
    · intro c _ hc
      have : Var[fun _ : (Fin N ⊕ (Fin n × Fin N)) → ℝ => (0 : ℝ); trajectoryLaw n N] = 0 := variance_zero _
      simp [hc, this]
    · simp

/-- The hypothesis of `C126_mean` holds for the first coordinate of the initial state. -/
example : MemLp (fun v => (fun ν : SampleNoise 1 => ν.start 0) (ofVec (n := 3) v)) 2 (trajectoryLaw 3 1) := by
  have h : MemLp (fun x : ℝ => x) 2 (gaussianReal 0 1) := memLp_id_gaussianReal 2
  exact h.comp_measurePreserving (measurePreserving_eval _ (Sum.inl 0))

end Verif.Niles

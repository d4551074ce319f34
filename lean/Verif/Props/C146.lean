import Verif.Model.FlaxSde
import Verif.Props.C145

/-! C146: the lifted solver for flax modules. -/

namespace Verif.SDE

open Verif.Comm

variable {R K W V : Type} [Field K] [LinearOrder K]

/-- **C146, partial.** A module with an array state and at least one parameter: `init` succeeds and returns rows of the shape
of the state, as many as there are output times; with the variables it returns, `apply` is `sdeint` of the function of the
module with the new parameters, and it returns as many rows of the same shape. -/
theorem C146_init_apply_partial (m : SdeModule R K W V) (key : R) (a : Arr K) (ts : List K) (dw : List W)
    (ha : a.data.length = a.shape.prod)
    (hf : ∀ b : Arr K, b.shape = a.shape → b.data.length = b.shape.prod → ∀ t w, ∃ p q : Arr K,
      m.fn (m.newParams key) (.leaf b) t w = (.leaf p, .leaf q) ∧ p.shape = a.shape ∧ q.shape = a.shape ∧
        p.data.length = p.shape.prod ∧ q.data.length = q.shape.prod)
    (hargs : ∃ c, sdeintArgs ts dw = .ok c) (hp : m.newParams key ≠ []) :
    ∃ out scope ys, nnInit m key (.leaf a) ts dw = .ok (out, scope) ∧
      nnApply m scope (.leaf a) ts dw = .ok ys ∧
      sdeintTree (m.fn (m.newParams key)) (.leaf a) ts dw = .ok ys ∧
      out.length + 1 = ts.length ∧ ys.length + 1 = ts.length ∧
      (∀ y ∈ out, ∃ b : Arr K, y = .leaf b ∧ b.shape = a.shape ∧ b.data.length = b.shape.prod) ∧
      ∀ y ∈ ys, ∃ b : Arr K, y = .leaf b ∧ b.shape = a.shape ∧ b.data.length = b.shape.prod := by
  -- states with the structure of an array are arrays
  have leaf_of : ∀ y : PyTree (Arr K), y.treeDef = (PyTree.leaf a).treeDef → leafShapes y = leafShapes (.leaf a) →
      WellShaped y → ∃ b : Arr K, y = .leaf b ∧ b.shape = a.shape ∧ b.data.length = b.shape.prod := by
    intro y h1 h2 h3
    cases y with
    | leaf b =>
      refine ⟨b, rfl, ?_, h3 b (by simp [PyTree.flatten])⟩
      simpa [leafShapes, PyTree.flatten] using h2
    | node s cs => simp [PyTree.treeDef] at h1
  have leaf_ok : ∀ p : Arr K, p.shape = a.shape → p.data.length = p.shape.prod →
      (PyTree.leaf p).treeDef = (PyTree.leaf a).treeDef ∧ leafShapes (.leaf p) = leafShapes (.leaf a) ∧
        WellShaped (.leaf p) := by
    intro p h1 h2
    refine ⟨by simp [PyTree.treeDef], by simp [leafShapes, PyTree.flatten, h1], ?_⟩
    intro c hc
    have : c = p := by simpa [PyTree.flatten] using hc
    rw [this]; exact h2
  obtain ⟨ys, h1, h2, h3⟩ := C145_structure_partial (m.fn (m.newParams key)) (.leaf a) (leaf_ok a rfl ha).2.2
    (by
      intro y t w e1 e2 e3
      obtain ⟨b, rfl, hb1, hb2⟩ := leaf_of y e1 e2 e3
      obtain ⟨p, q, e, s1, s2, l1, l2⟩ := hf b hb1 hb2 t w
      rw [e]
      exact ⟨leaf_ok p s1 l1, leaf_ok q s2 l2⟩) ts dw hargs
  -- the first call
  obtain ⟨c, hc⟩ := hargs
  unfold sdeintArgs at hc
  match ts, dw, hc, h2, h1 with
  | [], _, hc, _, _ => simp at hc
  | t0 :: touts, [], hc, _, _ =>
    exfalso
    revert hc
    simp only
    split_ifs <;> simp_all
  | t0 :: touts, w0 :: dw, hc, h2, h1 =>
    have hn : touts.length ≠ 0 := by
      intro h
      simp [h] at hc
    obtain ⟨p, q, e, s1, s2, l1, l2⟩ := hf a rfl ha t0 w0
    refine ⟨List.replicate touts.length (.leaf ⟨p.shape, List.zipWith (· + ·) p.data q.data⟩),
      [[("params", m.newParams key)]], ys, ?_, ?_, h1, by simp, h2, ?_, ?_⟩
    · simp only [nnInit, coreSdeint, isInitializing, isScopeInitializing, List.all_cons, List.all_nil, List.lookup, e,
        pyAdd, s1, s2, stackCopies, hn, isArray, hp]
      simp
    · have hi : isInitializing [[("params", m.newParams key)]] = false := by
        simp [isInitializing, isScopeInitializing, List.lookup, hp]
      have hpar : paramsOf [[("params", m.newParams key)]] = m.newParams key := by
        simp [paramsOf, List.lookup]
      unfold nnApply coreSdeint
      rw [hi]
      simp only [Bool.false_eq_true, if_false, hpar]
      exact h1
    · intro y hy
      obtain ⟨-, rfl⟩ := List.mem_replicate.1 hy
      exact ⟨_, rfl, s1, by simp [l1, l2, s1, s2]⟩
    · intro y hy
      obtain ⟨e1, e2, e3⟩ := h3 y hy
      exact leaf_of y e1 e2 e3

/-- **C146.** What `apply` does depends only on whether some scope has a parameter: then it is `sdeint`, for every state, also
a pytree. -/
theorem C146_apply (m : SdeModule R K W V) (scope : List (Vars V)) (x : PyTree (Arr K)) (ts : List K) (dw : List W)
    (h : paramsOf scope ≠ []) : nnApply m scope x ts dw = sdeintTree (m.fn (paramsOf scope)) x ts dw := by
  have : isInitializing scope = false := by
    by_contra hc
    apply h
    have hc' : isInitializing scope = true := by simpa using hc
    unfold isInitializing at hc'
    rw [List.all_eq_true] at hc'
    unfold paramsOf
    rw [List.flatMap_eq_nil_iff]
    intro vs hvs
    have := hc' vs hvs
    unfold isScopeInitializing at this
    cases hl : vs.lookup "params" with
    | none => rfl
    | some ps =>
      rw [hl] at this
      simpa using this
  unfold nnApply coreSdeint
  rw [this]
  rfl

/-- **C146, violated.** A module without parameters is never integrated: for every array state, `init` and `apply` return the sum
of the drift and the diffusion at the start, once for each output time, whatever the other times and increments are. -/
theorem C146_no_params (m : SdeModule R K W V) (key : R) (hp : m.newParams key = []) (x : PyTree (Arr K)) (t0 : K)
    (touts : List K) (w0 : W) (dw : List W) (hn : touts ≠ []) (p q : Arr K) (hpq : p.shape = q.shape)
    (hf : m.fn [] x t0 w0 = (.leaf p, .leaf q)) :
    ∃ scope, nnInit m key x (t0 :: touts) (w0 :: dw) =
        .ok (List.replicate touts.length (.leaf ⟨p.shape, List.zipWith (· + ·) p.data q.data⟩), scope) ∧
      nnApply m scope x (t0 :: touts) (w0 :: dw) =
        .ok (List.replicate touts.length (.leaf ⟨p.shape, List.zipWith (· + ·) p.data q.data⟩)) := by
  have hn' : touts.length ≠ 0 := by simpa using hn
  refine ⟨[[]], ?_, ?_⟩
  · simp only [nnInit, coreSdeint, isInitializing, isScopeInitializing, List.all_cons, List.all_nil, List.lookup, hp, hf,
      pyAdd, hpq, stackCopies, hn', isArray]
    simp
  · simp only [nnApply, paramsOf, coreSdeint, isInitializing, isScopeInitializing, List.all_cons, List.all_nil, List.lookup,
      List.flatMap_cons, List.flatMap_nil, Option.getD_none, List.append_nil, hf, pyAdd, hpq, stackCopies, hn', isArray]
    simp

/-- **C146, violated.** Whether `apply` integrates does not depend on the module but on the variables: if no scope holds a
parameter, also if there is a `params` collection and it is empty, `apply` returns copies of the sum of the drift and the diffusion
at the start. -/
theorem C146_apply_no_params (m : SdeModule R K W V) (scope : List (Vars V)) (h : paramsOf scope = []) (x : PyTree (Arr K))
    (t0 : K) (touts : List K) (w0 : W) (dw : List W) (hn : touts ≠ []) (p q : Arr K) (hpq : p.shape = q.shape)
    (hf : m.fn [] x t0 w0 = (.leaf p, .leaf q)) :
    nnApply m scope x (t0 :: touts) (w0 :: dw) =
      .ok (List.replicate touts.length (.leaf ⟨p.shape, List.zipWith (· + ·) p.data q.data⟩)) := by
  have hn' : touts.length ≠ 0 := by simpa using hn
  have hi : isInitializing scope = true := by
    unfold isInitializing
    rw [List.all_eq_true]
    intro vs hvs
    unfold paramsOf at h
    rw [List.flatMap_eq_nil_iff] at h
    have := h vs hvs
    unfold isScopeInitializing
    cases hl : vs.lookup "params" with
    | none => rfl
    | some ps =>
      rw [hl] at this
      simpa using this
  unfold nnApply coreSdeint
  rw [hi]
  simp only [if_true, h, hf, pyAdd, hpq, stackCopies, hn', isArray, if_false]

example : paramsOf ([[("params", [])], [("stats", [("mean", 1)])]] : List (Vars ℚ)) = [] := rfl

/-- A module without parameters: drift one, no diffusion. -/
def unitDrift : SdeModule Unit ℚ ℚ ℚ where
  newParams _ := []
  fn _ _ _ _ := (.leaf ⟨[1], [1]⟩, .leaf ⟨[1], [0]⟩)

/-- **C146, violated.** For `dy = dt` from `5` at time zero the lifted solver returns `1` at time one, `sdeint` returns `6`. -/
theorem C146_violated :
    (match nnInit unitDrift () (.leaf ⟨[1], [5]⟩) [0, 1] [0] with
      | .ok (_, scope) => (match nnApply unitDrift scope (.leaf ⟨[1], [5]⟩) [0, 1] [0] with
        | .ok [y] => some y.flatten
        | _ => none)
      | _ => none) = some [⟨[1], [1]⟩] ∧
    (match sdeintTree (unitDrift.fn []) (.leaf ⟨[1], [5]⟩) [0, 1] [0] with
      | .ok [y] => some y.flatten
      | _ => none) = some [⟨[1], [6]⟩] := by
  constructor <;> decide +kernel

/-- **C146, violated.** A state that is a tuple, list, dict or other container cannot be initialised, although `sdeint`
integrates it (C145) and the documentation allows "any jax pytree": `drift + diffusion` joins or refuses the containers and
`jnp.stack` refuses the result. -/
theorem C146_pytree_violated (m : SdeModule R K W V) (key : R) (x : PyTree (Arr K)) (ts : List K) (dw : List W)
    (hf : ∀ t w, ∃ s s' cs cs', m.fn (m.newParams key) x t w = (.node s cs, .node s' cs')) :
    ∃ e, nnInit m key x ts dw = .error e := by
  unfold nnInit coreSdeint
  have hi : isInitializing ([[]] : List (Vars V)) = true := by simp [isInitializing, isScopeInitializing, List.lookup]
  rw [hi, if_pos rfl]
  cases ts with
  | nil => exact ⟨_, rfl⟩
  | cons t0 touts =>
    cases dw with
    | nil => exact ⟨_, rfl⟩
    | cons w0 dw =>
      obtain ⟨s, s', cs, cs', h⟩ := hf t0 w0
      simp only [h, pyAdd]
      by_cases hs : s = s' ∧ (s = "tuple" ∨ s = "list")
      · rw [if_pos hs]
        simp only [stackCopies, isArray]
        by_cases hn : touts.length = 0
        · rw [if_pos hn]; exact ⟨_, rfl⟩
        · rw [if_neg hn]; exact ⟨_, rfl⟩
      · rw [if_neg hs]; exact ⟨_, rfl⟩

/-- A module with one parameter that meets the hypotheses of `C146_init_apply_partial`. -/
def scaled : SdeModule Unit ℚ ℚ ℚ where
  newParams _ := [("scale", 2)]
  fn ps x _ w :=
    match ps, x with
    | [(_, c)], .leaf a => (.leaf ⟨a.shape, a.data.map (c * ·)⟩, .leaf ⟨a.shape, a.data.map (w * ·)⟩)
    | _, x => (x, x)

example : ∀ b : Arr ℚ, b.shape = [2] → b.data.length = b.shape.prod → ∀ t w, ∃ p q : Arr ℚ,
    scaled.fn (scaled.newParams ()) (.leaf b) t w = (.leaf p, .leaf q) ∧ p.shape = [2] ∧ q.shape = [2] ∧
      p.data.length = p.shape.prod ∧ q.data.length = q.shape.prod := by
  intro b h1 h2 t w
  exact ⟨⟨b.shape, b.data.map (2 * ·)⟩, ⟨b.shape, b.data.map (w * ·)⟩, rfl, h1, h1, by simpa using h2, by simpa using h2⟩

example : scaled.newParams () ≠ [] := by simp [scaled]

/-- A pair of arrays as the state. -/
def pairModule : SdeModule Unit ℚ ℚ ℚ where
  newParams _ := [("scale", 2)]
  fn _ x _ _ :=
    match x with
    | .node s cs => (.node s cs, .node s cs)
    | .leaf a => (.leaf a, .leaf a)

example : ∀ t w, ∃ s s' cs cs', pairModule.fn (pairModule.newParams ()) (.node "tuple" [.leaf ⟨[], [1]⟩, .leaf ⟨[], [2]⟩]) t w =
    (.node s cs, .node s' cs') := fun _ _ => ⟨_, _, _, _, rfl⟩

end Verif.SDE

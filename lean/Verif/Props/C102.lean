import Verif.Lemmas.QFunction
import Verif.Lemmas.CubeWeak
import Verif.Lemmas.CubeStokes

/-!
# C102: forms are integrated with the values of their functions at the quadrature points
-/

set_option linter.unusedSectionVars false

namespace Verif.Core

open Verif.Spec MvPolynomial Filter Topology

variable {d : ℕ} {ι : Type*}

/-! ### What an expression means -/

/-- The value of the expression at the point `x` of element `m`, when the callable `u` stands for the functions `φ u m idx`
(one for each entry of its values). -/
def QExpr.denote (φ : ι → ℕ → Entry d → (Fin d → ℝ) → ℝ) (m : ℕ) : QExpr ℝ d ι → (Fin d → ℝ) → ℝ
  | .coord j, x => x j
  | .const c, _ => c
  | .op g a b, x => g (a.denote φ m x) (b.denote φ m x)
  | .call u arg idx, x => φ u m idx (fun j => (arg j).denote φ m x)

/-- The functions `φ m idx` are the ones that a nodal function of the space on `mesh` with the points of `quad` stands
for: the functions with its nodal values, or their partial derivatives. -/
def Stands (mesh : Mesh ℝ d) (quad : Quadrature1D ℝ) (u : Nodal ℝ d) (φ : ℕ → Entry d → (Fin d → ℝ) → ℝ) : Prop :=
  match u with
  | .scalar fs ul => ∀ m < mesh.numElements, ∀ q < fs.numQuad,
      RepresentsAt mesh m (ul m) (gridPoint d quad.nodes.value q) (φ m [])
  | .vector fs ul => ∀ m < mesh.numElements, ∀ q < fs.numQuad, ∀ k,
      RepresentsAt mesh m (fun n => ul m n k) (gridPoint d quad.nodes.value q) (φ m [k])
  | .scalarGrad fs ul => ∃ f : ℕ → (Fin d → ℝ) → ℝ, (∀ m < mesh.numElements, ∀ q < fs.numQuad,
      RepresentsAt mesh m (ul m) (gridPoint d quad.nodes.value q) (f m)) ∧
      ∀ m j x, φ m [j] x = fderiv ℝ (f m) x (Pi.single j 1)
  | .vectorGrad fs ul => ∃ f : ℕ → Fin d → (Fin d → ℝ) → ℝ, (∀ m < mesh.numElements, ∀ q < fs.numQuad, ∀ k,
      RepresentsAt mesh m (fun n => ul m n k) (gridPoint d quad.nodes.value q) (f m k)) ∧
      ∀ m j k x, φ m [j, k] x = fderiv ℝ (f m k) x (Pi.single j 1)

/-- The nodal function belongs to a space with the elements and the quadrature points of `mesh` and `quad`, though maybe
with other nodes, and stands for `φ`. -/
def Fits (mesh : Mesh ℝ d) (quad : Quadrature1D ℝ) (u : Nodal ℝ d) (φ : ℕ → Entry d → (Fin d → ℝ) → ℝ) : Prop :=
  ∃ mesh' quad', GoodSpace mesh' quad' u.space ∧ Stands mesh' quad' u φ ∧
    mesh'.numElements = mesh.numElements ∧ quad'.nodes.numPoints = quad.nodes.numPoints ∧
    (∀ q < quad.nodes.numPoints ^ d, gridPoint d quad'.nodes.value q = gridPoint d quad.nodes.value q) ∧
    ∀ m < mesh.numElements, ∀ F F', IsElemMap mesh m F → IsElemMap mesh' m F' → F = F'

/-- Every nodal function is applied to the argument `x` of the q-function itself. -/
def QExpr.Pointwise : QExpr ℝ d ι → Prop
  | .coord _ => True
  | .const _ => True
  | .op _ a b => a.Pointwise ∧ b.Pointwise
  | .call _ arg _ => arg = fun j => .coord j

/-- Entries are taken of arrays that have them. -/
def QExpr.Typed (env : ι → Nodal ℝ d) : QExpr ℝ d ι → Prop
  | .coord _ => True
  | .const _ => True
  | .op _ a b => a.Typed env ∧ b.Typed env
  | .call u _ idx => ((env u).values idx).isSome = true

variable {mesh : Mesh ℝ d} {quad : Quadrature1D ℝ} {fs : FESpace ℝ d} {env : ι → Nodal ℝ d}
  {φ : ι → ℕ → Entry d → (Fin d → ℝ) → ℝ}

theorem Staged.map₂_at {α β γ : Type*} (g : α → β → γ) (a : Staged α) (b : Staged β) (m q : ℕ) :
    (a.map₂ g b).at m q = g (a.at m q) (b.at m q) := by
  cases a <;> cases b <;> rfl

theorem allSome_some {α : Type*} (f : Fin d → α) : allSome (fun j => some (f j)) = some f := by
  unfold allSome
  have h : ∀ j : Fin d, ((fun j => some (f j)) j).isSome = true := fun j => rfl
  rw [dif_pos h]
  rfl

/-- The values of a nodal function are those of the function it stands for, at the quadrature points. -/
theorem Fits.values (h : GoodSpace mesh quad fs) {u : Nodal ℝ d} {ψ : ℕ → Entry d → (Fin d → ℝ) → ℝ}
    (hu : Fits mesh quad u ψ) {idx : Entry d} {v : QFun ℝ} (hv : u.values idx = some v) {m : ℕ} (hm : m < mesh.numElements)
    {F : Fin d → MvPolynomial (Fin d) ℝ} (hF : IsElemMap mesh m F) {q : ℕ} (hq : q < fs.numQuad) :
    v m q = ψ m idx (elemPoint F (gridPoint d quad.nodes.value q)) := by
  obtain ⟨mesh', quad', hg, hs, hne, hnp, hpt, hgeo⟩ := hu
  obtain ⟨hb, _⟩ := FESpace.create_build h.created
  obtain ⟨hb', _⟩ := FESpace.create_build hg.created
  have hnq := FESpace.build_numQuad hb
  have hnq' := FESpace.build_numQuad hb'
  have hq' : q < u.space.numQuad := by rw [hnq', hnp, ← hnq]; exact hq
  have hm' : m < mesh'.numElements := by rw [hne]; exact hm
  obtain ⟨F', hF'⟩ := hg.elemMap m
  have hFF := hgeo m hm F F' hF hF'
  subst hFF
  rw [← hpt q (by rw [← hnq]; exact hq)]
  have key : ∀ (x : ℕ → ℝ) (f : (Fin d → ℝ) → ℝ), RepresentsAt mesh' m x (gridPoint d quad'.nodes.value q) f →
      u.space.interpolate x q = f (elemPoint F (gridPoint d quad'.nodes.value q)) := by
    intro x f hf
    obtain ⟨p, hp⟩ := hg.patch x
    rw [hg.value hp hq', (hf F p hF' hp).1.self_of_nhds]
  cases u with
  | scalar fs' ul =>
    match idx, hv with
    | [], hv =>
      simp only [Nodal.values, Option.some.injEq] at hv
      rw [← hv]
      exact key _ _ (hs m hm' q hq')
  | vector fs' ul =>
    match idx, hv with
    | [k], hv =>
      simp only [Nodal.values, Option.some.injEq] at hv
      rw [← hv]
      exact key _ _ (hs m hm' q hq' k)
  | scalarGrad fs' ul =>
    match idx, hv with
    | [j], hv =>
      simp only [Nodal.values, Option.some.injEq] at hv
      obtain ⟨f, hf, hfd⟩ := hs
      rw [← hv, hfd]
      exact hg.scalarGrad_eq hm' hF' hq' (hf m hm' q hq') j
  | vectorGrad fs' ul =>
    match idx, hv with
    | [j, k], hv =>
      simp only [Nodal.values, Option.some.injEq] at hv
      obtain ⟨f, hf, hfd⟩ := hs
      rw [← hv, hfd]
      exact hg.scalarGrad_eq (ul := fun m n => ul m n k) hm' hF' hq' (hf m hm' q hq' k) j

/-- A q-function whose nodal functions are applied to its own argument evaluates, at every quadrature point of every
element, to the value of the expression there. Partial: for nodal functions applied to any other point, and for spaces with
other quadrature points, this is false, see below. -/
theorem C102_partial (h : GoodSpace mesh quad fs) (hu : ∀ u, Fits mesh quad (env u) (φ u)) (e : QExpr ℝ d ι)
    (hp : e.Pointwise) (ht : e.Typed env) : ∃ s, e.eval fs env = some s ∧
      ∀ m < mesh.numElements, ∀ F, IsElemMap mesh m F → ∀ q < fs.numQuad,
        s.at m q = e.denote φ m (elemPoint F (gridPoint d quad.nodes.value q)) := by
  obtain ⟨hb, _⟩ := FESpace.create_build h.created
  have hmesh := FESpace.build_mesh hb
  obtain ⟨_, _, _, _, _, _, hd, _⟩ := FESpace.build_fields hb
  induction e with
  | coord j =>
    refine ⟨_, rfl, fun m hm F hF q hq => ?_⟩
    change fs.quadCoords m q j = _
    rw [h.coords hF hq]
    rfl
  | const c => exact ⟨_, rfl, fun m hm F hF q hq => rfl⟩
  | op g a b iha ihb =>
    obtain ⟨s, hs, hs'⟩ := iha hp.1 ht.1
    obtain ⟨t, ht1, ht'⟩ := ihb hp.2 ht.2
    refine ⟨s.map₂ g t, by simp only [QExpr.eval, hs, ht1], fun m hm F hF q hq => ?_⟩
    rw [Staged.map₂_at, hs' m hm F hF q hq, ht' m hm F hF q hq]
    rfl
  | call u arg idx _ =>
    have harg : arg = fun j => .coord j := hp
    subst harg
    obtain ⟨v, hv⟩ := Option.isSome_iff_exists.mp (show ((env u).values idx).isSome = true from ht)
    have hs : (QExpr.call u (fun j => .coord j) idx : QExpr ℝ d ι).eval fs env = some (.batched v) := by
      simp only [QExpr.eval]
      rw [allSome_some]
      simp only [Nodal.call]
      rw [if_pos ⟨⟨0, Nat.pos_of_ne_zero hd⟩, rfl⟩, if_pos, hv]
      · rfl
      · obtain ⟨mesh', quad', hg, _, hne, hnp, _⟩ := hu u
        obtain ⟨hb', _⟩ := FESpace.create_build hg.created
        rw [FESpace.build_numQuad hb', FESpace.build_numQuad hb, FESpace.build_mesh hb', hmesh, hnp, hne]
        exact ⟨rfl, rfl⟩
    exact ⟨_, hs, fun m hm F hF q hq => (hu u).values h hv hm hF hq⟩

/-- `integrate` is the quadrature sum of the expression over the mapped elements: the value at the image of the reference
point, times the determinant of the derivative of the element map, times the weight. -/
theorem C102_integrate (h : GoodSpace mesh quad fs) (hu : ∀ u, Fits mesh quad (env u) (φ u)) (e : QExpr ℝ d ι)
    (hp : e.Pointwise) (ht : e.Typed env) (F : ℕ → Fin d → MvPolynomial (Fin d) ℝ)
    (hF : ∀ m < mesh.numElements, IsElemMap mesh m (F m)) : ∃ W, weightsNd quad.weights d = some W ∧
      e.integrate fs env = some (∑ m ∈ Finset.range mesh.numElements, ∑ q ∈ Finset.range (quad.nodes.numPoints ^ d),
        e.denote φ m (elemPoint (F m) (gridPoint d quad.nodes.value q)) *
          (Matrix.of fun i j => eval (gridPoint d quad.nodes.value q) (pderiv i (F m j))).det * W.getD q 0) := by
  obtain ⟨s, hs, hval⟩ := C102_partial h hu e hp ht
  obtain ⟨hb, _⟩ := FESpace.create_build h.created
  obtain ⟨_, _, W, _, _, hW, hd, hmesh, hnq, hfw, _⟩ := FESpace.build_fields hb
  refine ⟨W, hW, ?_⟩
  unfold QExpr.integrate
  rw [hs, Option.map_some]
  congr 1
  unfold integrate
  rw [hmesh, hnq, hfw]
  refine Finset.sum_congr rfl fun m hm => Finset.sum_congr rfl fun q hq => ?_
  rw [Finset.mem_range] at hm hq
  rw [hval m hm (F m) (hF m hm) q (by rw [hnq]; exact hq), (FESpace.build_wf hb h.points).det,
    h.jac (hF m hm) (by rw [hnq]; exact hq)]

/-! ### Linear forms -/

/-- The expression does not mention the functions in `S`. -/
def QExpr.Free (S : ι → Prop) : QExpr ℝ d ι → Prop
  | .coord _ => True
  | .const _ => True
  | .op _ a b => a.Free S ∧ b.Free S
  | .call u arg _ => ¬ S u ∧ ∀ j, (arg j).Free S

/-- The expression is linear in the functions in `S`. -/
inductive QExpr.LinearIn (S : ι → Prop) : QExpr ℝ d ι → Prop
  | call (u : ι) (idx : Entry d) : S u → QExpr.LinearIn S (.call u (fun j => .coord j) idx)
  | add (a b : QExpr ℝ d ι) : QExpr.LinearIn S a → QExpr.LinearIn S b → QExpr.LinearIn S (.op (· + ·) a b)
  | sub (a b : QExpr ℝ d ι) : QExpr.LinearIn S a → QExpr.LinearIn S b → QExpr.LinearIn S (.op (· - ·) a b)
  | mul_left (a b : QExpr ℝ d ι) : QExpr.LinearIn S a → b.Free S → QExpr.LinearIn S (.op (· * ·) a b)
  | mul_right (a b : QExpr ℝ d ι) : a.Free S → QExpr.LinearIn S b → QExpr.LinearIn S (.op (· * ·) a b)

/-- Functions that depend on the placeholder `v`: itself or its gradient; the others are fixed. -/
structure Slots (S : ι → Prop) (fs : FESpace ℝ d) (env : (ℕ → ℕ → ℝ) → ι → Nodal ℝ d) : Prop where
  fixed : ∀ u, ¬ S u → ∀ v w, env v u = env w u
  slot : ∀ u, S u → (∀ v, env v u = .scalar fs v) ∨ ∀ v, env v u = .scalarGrad fs v

theorem eval_free {S : ι → Prop} {env : (ℕ → ℕ → ℝ) → ι → Nodal ℝ d} (hS : Slots S fs env) (gs : FESpace ℝ d)
    (e : QExpr ℝ d ι) (he : e.Free S) (v w : ℕ → ℕ → ℝ) : e.eval gs (env v) = e.eval gs (env w) := by
  induction e with
  | coord j => rfl
  | const c => rfl
  | op g a b iha ihb => simp only [QExpr.eval]; rw [iha he.1, ihb he.2]
  | call u arg idx ih =>
    simp only [QExpr.eval]
    rw [show (fun j => (arg j).eval gs (env v)) = fun j => (arg j).eval gs (env w) from
      funext fun j => ih j (he.2 j), hS.fixed u he.1 v w]

/-- A linear expression evaluates to values that are linear in the placeholder and read only entries inside its shape. -/
theorem eval_linear {S : ι → Prop} {env : (ℕ → ℕ → ℝ) → ι → Nodal ℝ d} (hwf : fs.WF) (hd : 1 ≤ d) (hS : Slots S fs env)
    (e : QExpr ℝ d ι) (he : e.LinearIn S) (hdef : ∀ v, (e.eval fs (env v)).isSome = true) :
    ∃ L : (ℕ → ℕ → ℝ) → QFun ℝ, (∀ v, ∃ s, e.eval fs (env v) = some s ∧ s.at = L v) ∧
      (∀ v w, L (v + w) = L v + L w) ∧ (∀ (c : ℝ) v, L (c • v) = c • L v) ∧
      ∀ v w, (∀ m < fs.mesh.numElements, ∀ n < fs.mesh.nodesPerElem, v m n = w m n) →
        ∀ m < fs.mesh.numElements, ∀ q < fs.numQuad, L v m q = L w m q := by
  induction he with
  | call u idx hu =>
    have hcall : ∀ v, (QExpr.call u (fun j => .coord j) idx : QExpr ℝ d ι).eval fs (env v) =
        (env v u).call fs (fun j => .batched (fun m q => fs.quadCoords m q j)) idx := by
      intro v
      simp only [QExpr.eval]
      rw [allSome_some]
    have hb : ∃ j : Fin d, (Staged.batched (fun m q => fs.quadCoords m q j) : Staged ℝ).isBatched = true :=
      ⟨⟨0, hd⟩, rfl⟩
    rcases hS.slot u hu with hs | hs
    · have hidx : idx = [] := by
        have := hdef 0
        rw [hcall, hs 0, Nodal.call, if_pos hb] at this
        match idx, this with
        | [], _ => rfl
        | _ :: _, h => simp [Nodal.values, Nodal.space] at h
      subst hidx
      refine ⟨fun v m q => scalarFn fs v m q, fun v => ⟨.batched (fun m q => scalarFn fs v m q), ?_, rfl⟩, ?_, ?_, ?_⟩
      · rw [hcall, hs v, Nodal.call, if_pos hb, if_pos ⟨rfl, rfl⟩]; rfl
      · intro v w; funext m q; exact hwf.add _ _ _
      · intro c v; funext m q; exact hwf.smul _ _ _
      · intro v w hvw m hm q hq; exact hwf.local_ _ _ (hvw m hm) q hq
    · have hidx : ∃ j, idx = [j] := by
        have := hdef 0
        rw [hcall, hs 0, Nodal.call, if_pos hb] at this
        match idx, this with
        | [j], _ => exact ⟨j, rfl⟩
        | [], h => simp [Nodal.values, Nodal.space] at h
        | _ :: _ :: _, h => simp [Nodal.values, Nodal.space] at h
      obtain ⟨j, rfl⟩ := hidx
      refine ⟨fun v m q => Core.scalarGrad fs v m q j,
        fun v => ⟨.batched (fun m q => Core.scalarGrad fs v m q j), ?_, rfl⟩, ?_, ?_, ?_⟩
      · rw [hcall, hs v, Nodal.call, if_pos hb, if_pos ⟨rfl, rfl⟩]; rfl
      · intro v w; funext m q
        simp only [Core.scalarGrad, elemGrad, Pi.add_apply]
        rw [← Finset.sum_add_distrib]
        exact Finset.sum_congr rfl fun i _ => by rw [NMat.apply_add, add_mul]
      · intro c v; funext m q
        simp only [Core.scalarGrad, elemGrad, Pi.smul_apply, smul_eq_mul]
        rw [Finset.mul_sum]
        exact Finset.sum_congr rfl fun i _ => by rw [NMat.apply_smul, mul_assoc]
      · intro v w hvw m hm q hq
        simp only [Core.scalarGrad, elemGrad]
        refine Finset.sum_congr rfl fun i _ => ?_
        rw [NMat.apply_congr _ (v m) (w m) q (fun n hn => hvw m hm n (by rw [hwf.cols] at hn; exact hn))]
  | add a b _ _ iha ihb =>
    have hab : ∀ v, (a.eval fs (env v)).isSome = true ∧ (b.eval fs (env v)).isSome = true := by
      intro v
      have := hdef v
      simp only [QExpr.eval] at this
      revert this
      cases a.eval fs (env v) <;> cases b.eval fs (env v) <;> simp
    obtain ⟨L, hL, l1, l2, l3⟩ := iha fun v => (hab v).1
    obtain ⟨R, hR, r1, r2, r3⟩ := ihb fun v => (hab v).2
    refine ⟨fun v => L v + R v, fun v => ?_, ?_, ?_, ?_⟩
    · obtain ⟨s, hs, hs'⟩ := hL v
      obtain ⟨t, ht, ht'⟩ := hR v
      refine ⟨s.map₂ (· + ·) t, by simp only [QExpr.eval, hs, ht], ?_⟩
      funext m q
      rw [Staged.map₂_at, hs', ht']
      rfl
    · intro v w; simp only [l1, r1]; abel
    · intro c v; simp only [l2, r2, smul_add]
    · intro v w hvw m hm q hq
      change L v m q + R v m q = L w m q + R w m q
      rw [l3 v w hvw m hm q hq, r3 v w hvw m hm q hq]
  | sub a b _ _ iha ihb =>
    have hab : ∀ v, (a.eval fs (env v)).isSome = true ∧ (b.eval fs (env v)).isSome = true := by
      intro v
      have := hdef v
      simp only [QExpr.eval] at this
      revert this
      cases a.eval fs (env v) <;> cases b.eval fs (env v) <;> simp
    obtain ⟨L, hL, l1, l2, l3⟩ := iha fun v => (hab v).1
    obtain ⟨R, hR, r1, r2, r3⟩ := ihb fun v => (hab v).2
    refine ⟨fun v => L v - R v, fun v => ?_, ?_, ?_, ?_⟩
    · obtain ⟨s, hs, hs'⟩ := hL v
      obtain ⟨t, ht, ht'⟩ := hR v
      refine ⟨s.map₂ (· - ·) t, by simp only [QExpr.eval, hs, ht], ?_⟩
      funext m q
      rw [Staged.map₂_at, hs', ht']
      rfl
    · intro v w; simp only [l1, r1]; abel
    · intro c v; simp only [l2, r2, smul_sub]
    · intro v w hvw m hm q hq
      change L v m q - R v m q = L w m q - R w m q
      rw [l3 v w hvw m hm q hq, r3 v w hvw m hm q hq]
  | mul_left a b _ hfree iha =>
    have hab : ∀ v, (a.eval fs (env v)).isSome = true ∧ (b.eval fs (env v)).isSome = true := by
      intro v
      have := hdef v
      simp only [QExpr.eval] at this
      revert this
      cases a.eval fs (env v) <;> cases b.eval fs (env v) <;> simp
    obtain ⟨L, hL, l1, l2, l3⟩ := iha fun v => (hab v).1
    obtain ⟨t, ht⟩ := Option.isSome_iff_exists.mp (hab 0).2
    refine ⟨fun v m q => L v m q * t.at m q, fun v => ?_, ?_, ?_, ?_⟩
    · obtain ⟨s, hs, hs'⟩ := hL v
      refine ⟨s.map₂ (· * ·) t, by simp only [QExpr.eval, hs, eval_free hS fs b hfree v 0, ht], ?_⟩
      funext m q
      rw [Staged.map₂_at, hs']
    · intro v w; funext m q; simp only [l1]; exact add_mul _ _ _
    · intro c v; funext m q; simp only [l2]; exact mul_assoc _ _ _
    · intro v w hvw m hm q hq; change L v m q * _ = L w m q * _; rw [l3 v w hvw m hm q hq]
  | mul_right a b hfree _ ihb =>
    have hab : ∀ v, (a.eval fs (env v)).isSome = true ∧ (b.eval fs (env v)).isSome = true := by
      intro v
      have := hdef v
      simp only [QExpr.eval] at this
      revert this
      cases a.eval fs (env v) <;> cases b.eval fs (env v) <;> simp
    obtain ⟨L, hL, l1, l2, l3⟩ := ihb fun v => (hab v).2
    obtain ⟨t, ht⟩ := Option.isSome_iff_exists.mp (hab 0).1
    refine ⟨fun v m q => t.at m q * L v m q, fun v => ?_, ?_, ?_, ?_⟩
    · obtain ⟨s, hs, hs'⟩ := hL v
      refine ⟨t.map₂ (· * ·) s, by simp only [QExpr.eval, hs, eval_free hS fs a hfree v 0, ht], ?_⟩
      funext m q
      rw [Staged.map₂_at, hs']
    · intro v w; funext m q; simp only [l1]; exact mul_add _ _ _
    · intro c v; funext m q; simp only [l2]; exact mul_left_comm _ _ _
    · intro v w hvw m hm q hq; change _ * L v m q = _ * L w m q; rw [l3 v w hvw m hm q hq]

/-- `local_covector` represents every form that is linear in the placeholder: the sum of the products of its entries with
local nodal values `v` is `integrate(form(..., v, ...))`. -/
theorem C102_covector {S : ι → Prop} {env : (ℕ → ℕ → ℝ) → ι → Nodal ℝ d} (hwf : fs.WF) (hd : 1 ≤ d) (hS : Slots S fs env)
    (e : QExpr ℝ d ι) (he : e.LinearIn S) (hdef : ∀ v, (e.eval fs (env v)).isSome = true) (v : ℕ → ℕ → ℝ) :
    e.integrate fs (env v) = some (∑ m ∈ Finset.range fs.mesh.numElements, ∑ n ∈ Finset.range fs.mesh.nodesPerElem,
      v m n * scalarCovector (fun w => (e.integrate fs (env w)).getD 0) m n) := by
  obtain ⟨L, hL, l1, l2, l3⟩ := eval_linear hwf hd hS e he hdef
  have hval : ∀ w, e.integrate fs (env w) = some (integrate fs (L w)) := by
    intro w
    obtain ⟨s, hs, hs'⟩ := hL w
    unfold QExpr.integrate
    rw [hs, Option.map_some, hs']
  rw [C39_local_covector (F := fun w => (e.integrate fs (env w)).getD 0) ?_ v]
  · rw [hval v]; rfl
  · refine ⟨fun v w => ?_, fun c v => ?_, fun v w hvw => ?_⟩
    · simp only [hval, Option.getD_some, l1]
      unfold integrate
      rw [← Finset.sum_add_distrib]
      refine Finset.sum_congr rfl fun m _ => ?_
      rw [← Finset.sum_add_distrib]
      refine Finset.sum_congr rfl fun q _ => ?_
      simp only [Pi.add_apply]
      ring
    · simp only [hval, Option.getD_some, l2]
      unfold integrate
      rw [Finset.mul_sum]
      refine Finset.sum_congr rfl fun m _ => ?_
      rw [Finset.mul_sum]
      refine Finset.sum_congr rfl fun q _ => ?_
      simp only [Pi.smul_apply, smul_eq_mul]
      ring
    · simp only [hval, Option.getD_some]
      unfold integrate
      refine Finset.sum_congr rfl fun m hm => Finset.sum_congr rfl fun q hq => ?_
      rw [l3 v w hvw m (Finset.mem_range.mp hm) q (Finset.mem_range.mp hq)]

/-! ### Spaces and functions that meet the hypotheses -/

theorem IsPatch.unique {grid : Nodes1D ℝ} (hinj : Function.Injective grid.value) {x : ℕ → ℝ} {p p' : MvPolynomial (Fin d) ℝ}
    (h : IsPatch grid d x p) (h' : IsPatch grid d x p') : p = p' := by
  refine sub_eq_zero.mp (eq_zero_of_grid grid.value hinj (p - p') (fun k => ?_) fun j hj => ?_)
  · exact lt_of_le_of_lt (degreeOf_sub_le k p p') (max_lt (h.deg k) (h'.deg k))
  · rw [map_sub, h.nodal j hj, h'.nodal j hj, sub_self]

/-- The nodal values of a coordinate stand for this coordinate, on any mesh. -/
theorem fits_coord (h : GoodSpace mesh quad fs) (j : Fin d) :
    Fits mesh quad (.scalar fs fun m n => mesh.elementCoords m n j) (fun _ _ x => x j) := by
  refine ⟨mesh, quad, h, fun m hm q hq F p hF hp => ⟨Filter.Eventually.of_forall fun η => ?_, ?_⟩, rfl, rfl,
    fun q _ => rfl, fun m hm F F' hF hF' => funext fun k => (hF k).unique h.distinct (hF' k)⟩
  · rw [← (hF j).unique h.distinct hp]
    rfl
  · exact (ContinuousLinearMap.proj j : (Fin d → ℝ) →L[ℝ] ℝ).differentiableAt

/-- Its gradient. -/
theorem fits_coord_grad (h : GoodSpace mesh quad fs) (j : Fin d) :
    Fits mesh quad (.scalarGrad fs fun m n => mesh.elementCoords m n j)
      (fun _ idx _ => match idx with | [i] => if i = j then 1 else 0 | _ => 0) := by
  obtain ⟨_, _, _, hs, _⟩ := fits_coord h j
  refine ⟨mesh, quad, h, ⟨fun _ x => x j, fun m hm q hq F p hF hp => ⟨Filter.Eventually.of_forall fun η => ?_, ?_⟩, ?_⟩,
    rfl, rfl, fun q _ => rfl, fun m hm F F' hF hF' => funext fun k => (hF k).unique h.distinct (hF' k)⟩
  · rw [← (hF j).unique h.distinct hp]
    rfl
  · exact (ContinuousLinearMap.proj j : (Fin d → ℝ) →L[ℝ] ℝ).differentiableAt
  · intro m i x
    have : fderiv ℝ (fun x : Fin d → ℝ => x j) x = (ContinuousLinearMap.proj j : (Fin d → ℝ) →L[ℝ] ℝ) :=
      (ContinuousLinearMap.proj j : (Fin d → ℝ) →L[ℝ] ℝ).fderiv
    rw [this]
    simp only [ContinuousLinearMap.proj_apply, Pi.single_apply]
    by_cases hij : i = j
    · rw [if_pos hij, if_pos hij.symm]
    · rw [if_neg hij, if_neg (Ne.symm hij)]

/-- The spaces of `solve_poisson` on the mesh of a cube are good, with the Gauss-Legendre points as well as with as many
Gauss-Lobatto-Legendre points, and these are not the same. -/
theorem good_cube {n d p : ℕ} {a b : ℝ} (hn : 1 ≤ n) (hd : 1 ≤ d) (hp : 1 ≤ p) (hab : a < b) : ∃ (mesh : Mesh ℝ d)
    (masks : List (String × (ℕ → Bool))) (quad quad' : Quadrature1D ℝ) (fs fs' : FESpace ℝ d),
    cubeMesh n d p .newtonCotes a b [] = .ok (mesh, masks) ∧ poissonQuadrature p d = some quad ∧
    createQuadrature .gaussLobattoLegendre (p + (d + 1) / 2) = some quad' ∧ GoodSpace mesh quad fs ∧
    GoodSpace mesh quad' fs' ∧ mesh.numElements = n ^ d ∧ fs.numQuad = (p + (d + 1) / 2) ^ d ∧
    fs'.numQuad = fs.numQuad ∧ ∀ m < n ^ d, ∀ k, fs'.quadCoords m 0 k < fs.quadCoords m 0 k := by
  obtain ⟨mesh, masks, node, hc⟩ := cubeMesh_spec (t := .newtonCotes) hn hd hp (Or.inl rfl) hab []
  obtain ⟨quad, l, h1, h2, h3, h4, h5, h6, h7⟩ := poissonQuadrature_spec hp hd
  have hm : p + (d + 1) / 2 - 1 + 1 = p + (d + 1) / 2 := by omega
  obtain ⟨quad', l', g1, g2, g3, g4, g5, g6, g7⟩ := Verif.NS.gllQuadrature_spec (m := p + (d + 1) / 2 - 1) (by omega)
  rw [hm] at g1 g3 g4 g7
  have hlow : ∀ k, -1 < gridPoint d quad.nodes.value 0 k := by
    intro k
    obtain ⟨l0, e1, e2, _, e4, _⟩ := C79_gauss_legendre (p + (d + 1) / 2) (by omega)
    have h1' := h1
    simp only [poissonQuadrature, createQuadrature, createNodes, e1, Option.map_some, Option.some.injEq] at h1'
    rw [← h1']
    change -1 < at0 (vec l0 (p + (d + 1) / 2)) (digit (p + (d + 1) / 2) d k 0)
    rw [digit_at_zero, at0, dif_pos (by omega)]
    exact (e4 _ (vec_mem e2 _)).1
  have hends : ∀ k, gridPoint d quad'.nodes.value 0 k = -1 := by
    intro k
    obtain ⟨l0, e1, e2, e3, _⟩ := C78_rule (p + (d + 1) / 2 - 1) (by omega)
    have g7' := g7
    rw [← hm] at g7'
    simp only [createNodes, e1, Option.some.injEq] at g7'
    rw [← g7']
    change at0 (vec l0 (p + (d + 1) / 2 - 1 + 1)) (digit (p + (d + 1) / 2 - 1 + 1) d k 0) = -1
    rw [digit_at_zero, at0, dif_pos (by omega)]
    exact e3.first
  obtain ⟨W, hW, _⟩ := C80_tensor h7 d hd
  obtain ⟨W', hW', _⟩ := C80_tensor g6 d hd
  have hn0 : 0 < mesh.grid.numPoints := by rw [hc.cells.points]; omega
  obtain ⟨fs, hfs⟩ := FESpace.build_exists hd hn0 (by rw [h3]; omega) hc.cells.weights hc.cells.nodes hW
  obtain ⟨fs', hfs'⟩ := FESpace.build_exists hd hn0 (by rw [g3]; omega) hc.cells.weights hc.cells.nodes hW'
  have hG : GoodSpace mesh quad fs := ⟨hc.cells.toAffCells.create hfs, hn0, hc.cells.weights, hc.cells.nodes, fun hs => by
    have := hs.1; rw [hc.family, h2] at this; exact absurd this (by decide)⟩
  have hG' : GoodSpace mesh quad' fs' := ⟨hc.cells.toAffCells.create hfs', hn0, hc.cells.weights, hc.cells.nodes,
    fun hs => by have := hs.1; rw [hc.family, g2] at this; exact absurd this (by decide)⟩
  have hq : fs.numQuad = (p + (d + 1) / 2) ^ d := by rw [FESpace.build_numQuad hfs, h3]
  have hq' : fs'.numQuad = (p + (d + 1) / 2) ^ d := by rw [FESpace.build_numQuad hfs', g3]
  refine ⟨mesh, masks, quad, quad', fs, fs', hc.made, h1, g1, hG, hG', hc.cells.num, hq, by rw [hq, hq'], ?_⟩
  intro m hmn k
  have hwf : ∀ {Q : Quadrature1D ℝ} {gs : FESpace ℝ d}, GoodSpace mesh Q gs → 0 < gs.numQuad → gs.quadCoords m 0 k =
      (b - a) / (2 * n) * gridPoint d Q.nodes.value 0 k + centre n d a ((b - a) / (2 * n)) m k := by
    intro Q gs hg h0
    rw [(FESpace.build_wf (FESpace.create_build hg.created).1 hn0).coords,
      FESpace.build_mesh (FESpace.create_build hg.created).1, hg.value (p := C ((b - a) / (2 * n)) * X k +
        C (centre n d a ((b - a) / (2 * n)) m k)) ?_ h0]
    · simp
    · refine ⟨fun i => ?_, fun i hi => ?_⟩
      · have hX : (affSub ((b - a) / (2 * n)) (centre n d a ((b - a) / (2 * n)) m) (X k)).degreeOf i < mesh.grid.numPoints :=
          hc.cells.affDegree (fun k => by rw [degreeOf_X]; split <;> omega) _ i
        unfold affSub at hX
        rwa [bind₁_X_right] at hX
      · unfold Mesh.elementCoords
        rw [hc.cells.gather _ hmn hi, hc.cells.coords m hmn i hi]
        simp
  have h0 : 0 < (p + (d + 1) / 2) ^ d := Nat.pow_pos (by omega)
  rw [hwf hG (by rw [hq]; exact h0), hwf hG' (by rw [hq']; exact h0), hends k]
  have := mul_lt_mul_of_pos_left (hlow k) hc.cells.width
  linarith

/-- On every mesh of a cube: `x_0 ∂_0 x_0` of the nodal function with the values of the first coordinate. -/
example {n d p : ℕ} {a b : ℝ} (hn : 1 ≤ n) (hd : 1 ≤ d) (hp : 1 ≤ p) (hab : a < b) : ∃ (mesh : Mesh ℝ d)
    (quad : Quadrature1D ℝ) (fs : FESpace ℝ d) (env : Bool → Nodal ℝ d) (φ : Bool → ℕ → Entry d → (Fin d → ℝ) → ℝ)
    (e : QExpr ℝ d Bool), GoodSpace mesh quad fs ∧ (∀ u, Fits mesh quad (env u) (φ u)) ∧ e.Pointwise ∧ e.Typed env ∧
    ∀ m x, e.denote φ m x = x ⟨0, hd⟩ * 1 := by
  obtain ⟨mesh, _, quad, _, fs, _, _, _, _, hG, _⟩ := good_cube hn hd hp hab
  refine ⟨mesh, quad, fs, fun i => if i then .scalar fs fun m n => mesh.elementCoords m n ⟨0, hd⟩ else
    .scalarGrad fs fun m n => mesh.elementCoords m n ⟨0, hd⟩, fun i => if i then fun _ _ x => x ⟨0, hd⟩ else
    fun _ idx _ => match idx with | [i] => if i = ⟨0, hd⟩ then 1 else 0 | _ => 0,
    .op (· * ·) (.call true (fun j => .coord j) []) (.call false (fun j => .coord j) [⟨0, hd⟩]), hG, ?_, ⟨rfl, rfl⟩,
    ⟨rfl, rfl⟩, ?_⟩
  · intro u
    cases u
    · exact fits_coord_grad hG _
    · exact fits_coord hG _
  · intro m x
    simp [QExpr.denote]

/-- A form linear in the placeholder, on every mesh of a cube: `x_0 v(x) - ∂_0 v(x)`. -/
example {n d p : ℕ} {a b : ℝ} (hn : 1 ≤ n) (hd : 1 ≤ d) (hp : 1 ≤ p) (hab : a < b) : ∃ (fs : FESpace ℝ d)
    (env : (ℕ → ℕ → ℝ) → Bool → Nodal ℝ d) (e : QExpr ℝ d Bool), fs.WF ∧ Slots (fun _ => True) fs env ∧
    e.LinearIn (fun _ => True) ∧ ∀ v, (e.eval fs (env v)).isSome = true := by
  obtain ⟨mesh, _, quad, _, fs, _, _, _, _, hG, _⟩ := good_cube hn hd hp hab
  refine ⟨fs, fun v i => if i then .scalar fs v else .scalarGrad fs v, .op (· - ·) (.op (· * ·) (.coord ⟨0, hd⟩)
    (.call true (fun j => .coord j) [])) (.call false (fun j => .coord j) [⟨0, hd⟩]),
    FESpace.build_wf (FESpace.create_build hG.created).1 hG.points, ⟨fun u hu => absurd trivial hu, fun u _ => ?_⟩,
    .sub _ _ (.mul_right _ _ trivial (.call _ _ trivial)) (.call _ _ trivial), fun v => ?_⟩
  · cases u
    · exact Or.inr fun v => rfl
    · exact Or.inl fun v => rfl
  · have hb : ∃ j : Fin d, (Staged.batched (fun m q => fs.quadCoords m q j) : Staged ℝ).isBatched = true := ⟨⟨0, hd⟩, rfl⟩
    simp only [QExpr.eval, allSome_some, Nodal.call, if_pos hb, Nodal.space]
    simp [Nodal.values]

/-! ### Where it fails -/

/-- The expression does not mention the coordinates. -/
def QExpr.Frozen {ι : Type*} : QExpr ℝ d ι → Prop
  | .coord _ => False
  | .const _ => True
  | .op _ a b => a.Frozen ∧ b.Frozen
  | .call _ arg idx => (∀ j, (arg j).Frozen) ∧ idx = []

theorem QExpr.Frozen.eval {ι : Type*} (fs : FESpace ℝ d) (env : ι → Nodal ℝ d) {e : QExpr ℝ d ι} (h : e.Frozen) :
    ∃ c, e.eval fs env = some (.unbatched c) := by
  induction e with
  | coord j => exact h.elim
  | const c => exact ⟨c, rfl⟩
  | op g a b iha ihb =>
    obtain ⟨x, hx⟩ := iha h.1
    obtain ⟨y, hy⟩ := ihb h.2
    exact ⟨g x y, by simp only [QExpr.eval, hx, hy, Staged.map₂]⟩
  | call u arg idx ih =>
    obtain ⟨ha, rfl⟩ := h
    choose c hc using fun j => ih j (ha j)
    refine ⟨1, ?_⟩
    simp only [QExpr.eval, hc]
    rw [allSome_some]
    simp [Nodal.call, Staged.isBatched]

/-- A nodal function applied to a point that does not depend on the coordinates is the number 1, whatever its nodal values
are and however the point is computed. -/
theorem C102_frozen (fs : FESpace ℝ d) (env : ι → Nodal ℝ d) (u : ι) (arg : Fin d → QExpr ℝ d ι) (harg : ∀ j, (arg j).Frozen) :
    (QExpr.call u arg [] : QExpr ℝ d ι).integrate fs env = some (integrate fs fun _ _ => 1) := by
  choose c hc using fun j => (harg j).eval fs env
  unfold QExpr.integrate
  simp only [QExpr.eval, hc]
  rw [allSome_some]
  simp only [Nodal.call, Staged.isBatched]
  simp [Staged.at]

/-- The point `x₀ + x₀ / 2` as an argument. -/
example (fs : FESpace ℝ d) (env : ι → Nodal ℝ d) (u : ι) (x₀ : Fin d → ℝ) :
    (QExpr.call u (fun j => .op (· + ·) (.const (x₀ j)) (.op (· / ·) (.const (x₀ j)) (.const 2))) [] : QExpr ℝ d ι).integrate
      fs env = some (integrate fs fun _ _ => 1) :=
  C102_frozen fs env u _ fun _ => ⟨trivial, trivial, trivial⟩

/-- A nodal function applied to a shifted point has the values of the unshifted one. -/
theorem C102_shift (hd : 1 ≤ d) (fs : FESpace ℝ d) (env : ι → Nodal ℝ d) (u : ι) (h : Fin d → ℝ) (idx : Entry d) :
    (QExpr.call u (fun j => .op (· + ·) (.coord j) (.const (h j))) idx : QExpr ℝ d ι).eval fs env =
      (QExpr.call u (fun j => .coord j) idx : QExpr ℝ d ι).eval fs env := by
  simp only [QExpr.eval]
  rw [allSome_some, allSome_some]
  have h1 : ∃ j : Fin d, ((Staged.batched (fun m q => fs.quadCoords m q j) : Staged ℝ).map₂ (· + ·)
      (.unbatched (h j))).isBatched = true := ⟨⟨0, hd⟩, rfl⟩
  have h2 : ∃ j : Fin d, (Staged.batched (fun m q => fs.quadCoords m q j) : Staged ℝ).isBatched = true := ⟨⟨0, hd⟩, rfl⟩
  simp only [Nodal.call, if_pos h1, if_pos h2]

/-- The claim without the restriction on the arguments of nodal functions is false on the mesh of every cube: for a fixed
argument and for a shifted one. -/
theorem C102_violated {n d p : ℕ} {a b : ℝ} (hn : 1 ≤ n) (hd : 1 ≤ d) (hp : 1 ≤ p) (hab : a < b) :
    ∃ (mesh : Mesh ℝ d) (masks : List (String × (ℕ → Bool))) (quad : Quadrature1D ℝ) (fs : FESpace ℝ d),
      cubeMesh n d p .newtonCotes a b [] = .ok (mesh, masks) ∧ poissonQuadrature p d = some quad ∧
      GoodSpace mesh quad fs ∧ ∃ (env : Unit → Nodal ℝ d) (φ : Unit → ℕ → Entry d → (Fin d → ℝ) → ℝ),
        (∀ u, Fits mesh quad (env u) (φ u)) ∧
        (∀ c : ℝ, c ≠ 1 → ∃ (e : QExpr ℝ d Unit) (s : Staged ℝ), e.Typed env ∧ e.eval fs env = some s ∧
          ∀ m q x, e.denote φ m x = c ∧ s.at m q = 1) ∧
        ∀ h : Fin d → ℝ, h ⟨0, hd⟩ ≠ 0 → ∃ (e : QExpr ℝ d Unit) (s : Staged ℝ), e.Typed env ∧ e.eval fs env = some s ∧
          ∀ m < mesh.numElements, ∀ q < fs.numQuad, s.at m q ≠ e.denote φ m (fs.quadCoords m q) := by
  obtain ⟨mesh, masks, quad, _, fs, _, hmesh, hquad, _, hG, _⟩ := good_cube hn hd hp hab
  refine ⟨mesh, masks, quad, fs, hmesh, hquad, hG, fun _ => .scalar fs fun m n => mesh.elementCoords m n ⟨0, hd⟩,
    fun _ _ _ x => x ⟨0, hd⟩, fun _ => fits_coord hG _, fun c _ => ?_, fun h hh => ?_⟩
  · refine ⟨.call () (fun _ => .const c) [], .unbatched 1, rfl, ?_, fun m q x => ⟨rfl, rfl⟩⟩
    simp only [QExpr.eval]
    rw [allSome_some]
    simp [Nodal.call, Staged.isBatched]
  · obtain ⟨s, hs, hval⟩ := C102_partial hG (env := fun _ : Unit => .scalar fs fun m n => mesh.elementCoords m n ⟨0, hd⟩)
      (φ := fun _ _ _ x => x ⟨0, hd⟩) (fun _ => fits_coord hG _) (.call () (fun j => .coord j) []) rfl rfl
    refine ⟨.call () (fun j => .op (· + ·) (.coord j) (.const (h j))) [], s, rfl, (C102_shift hd _ _ _ _ _).trans hs,
      fun m hm q hq he => ?_⟩
    obtain ⟨F, hF⟩ := hG.elemMap m
    rw [hval m hm F hF q hq, ← hG.coords hF hq] at he
    simp only [QExpr.denote] at he
    exact hh (by linarith)

/-- A function of a space with as many quadrature points in other positions is accepted and evaluated at its own points:
the first coordinate, as a nodal function of the space with the Gauss-Lobatto-Legendre points, has the wrong value at the
first point of every element of the space with the Gauss-Legendre points. -/
theorem C102_violated_space {n d p : ℕ} {a b : ℝ} (hn : 1 ≤ n) (hd : 1 ≤ d) (hp : 1 ≤ p) (hab : a < b) :
    ∃ (mesh : Mesh ℝ d) (quad quad' : Quadrature1D ℝ) (fs fs' : FESpace ℝ d) (s : Staged ℝ),
      GoodSpace mesh quad fs ∧ GoodSpace mesh quad' fs' ∧ 0 < fs.numQuad ∧
      (QExpr.call () (fun j => .coord j) [] : QExpr ℝ d Unit).eval fs
        (fun _ => .scalar fs' fun m n => mesh.elementCoords m n ⟨0, hd⟩) = some s ∧
      ∀ m < mesh.numElements, s.at m 0 < fs.quadCoords m 0 ⟨0, hd⟩ := by
  obtain ⟨mesh, masks, quad, quad', fs, fs', _, _, _, hG, hG', hne, hq, hqq, hlt⟩ := good_cube hn hd hp hab
  have h0 : 0 < fs.numQuad := by rw [hq]; exact Nat.pow_pos (by omega)
  obtain ⟨hb, _⟩ := FESpace.create_build hG.created
  obtain ⟨hb', _⟩ := FESpace.create_build hG'.created
  refine ⟨mesh, quad, quad', fs, fs', .batched (fun m q => scalarFn fs' (fun m n => mesh.elementCoords m n ⟨0, hd⟩) m q),
    hG, hG', h0, ?_, fun m hm => ?_⟩
  · simp only [QExpr.eval]
    rw [allSome_some]
    have he : fs.mesh.numElements = fs'.mesh.numElements := by rw [FESpace.build_mesh hb, FESpace.build_mesh hb']
    simp only [Nodal.call]
    rw [if_pos ⟨⟨0, hd⟩, rfl⟩, if_pos]
    · rfl
    · exact ⟨he, hqq.symm⟩
  · have := hlt m (by rw [← hne]; exact hm) ⟨0, hd⟩
    rw [(FESpace.build_wf hb' hG'.points).coords, FESpace.build_mesh hb'] at this
    exact this

end Verif.Core

import Verif.Lemmas.ConvGrad
import Verif.Lemmas.NetClosure
import Verif.Props.C73_C75
import Mathlib.Analysis.SpecialFunctions.Sqrt
import Mathlib.Analysis.SpecialFunctions.ExpDeriv
import Mathlib.Analysis.Calculus.Deriv.Inv

/-!
# The reverse pass of the closure term
-/

set_option linter.unusedSectionVars false

namespace Verif.Niles

open Verif.Core Verif.NS

section algebra

variable {K : Type*} [Field K] [LinearOrder K] {sem : StokesSEM K 2}

/-- Pairing of cotangents with `M` tokens of length `L`. -/
def tokDot (M L : ℕ) (ct : ℕ → ℕ → K) (ts : List (List K)) : K :=
  ∑ t ∈ Finset.range M, ∑ r ∈ Finset.range L, ct t r * (ts.getD t []).getD r 0

theorem sum_range_two (n : ℕ) (f : ℕ → K) :
    ∑ r ∈ Finset.range (n * 2), f r = ∑ i ∈ Finset.range n, ∑ k : Fin 2, f (i * 2 + k) := by
  induction n with
  | zero => simp
  | succ n ih =>
    rw [Finset.sum_range_succ, ← ih, show (n + 1) * 2 = n * 2 + 1 + 1 by ring, Finset.sum_range_succ, Finset.sum_range_succ,
      Fin.sum_univ_two]
    simp [add_assoc]

theorem tokens_entry (mesh : Mesh K 2) (u : Vel K 2) {m n : ℕ} (hm : m < mesh.numElements) (hn : n < mesh.nodesPerElem) (k : Fin 2) :
    ((tokens mesh u).getD m []).getD (n * 2 + k) 0 = vGather mesh u m n k := by
  obtain ⟨fl, h1, h2⟩ := untokens_tokens mesh u
  unfold untokens at h1
  rw [if_pos (tokens_shape mesh u), Except.ok.injEq] at h1
  rw [← h2 m hm n hn k, ← h1]

theorem local_pair (hr : sem.vspace.mesh.InRange) (u : Vel K 2) (fl : ℕ → ℕ → Fin 2 → K) :
    ∑ m ∈ Finset.range sem.vspace.mesh.numElements, ∑ n ∈ Finset.range sem.vspace.mesh.nodesPerElem, ∑ k,
      vGather sem.vspace.mesh u m n k * fl m n k = sem.vDot u (vScatter sem.vspace.mesh fl) := by
  have h : ∀ k : Fin 2, _ := fun k => Mesh.gather_scatter_adjoint sem.vspace.mesh hr (fun p => u p k) (fun m n => fl m n k)
  unfold StokesSEM.vDot
  calc _ = ∑ k : Fin 2, ∑ m ∈ Finset.range sem.vspace.mesh.numElements, ∑ n ∈ Finset.range sem.vspace.mesh.nodesPerElem,
        vGather sem.vspace.mesh u m n k * fl m n k := by
        refine Eq.trans ?_ (Finset.sum_comm (s := Finset.range sem.vspace.mesh.numElements) (t := Finset.univ))
        exact Finset.sum_congr rfl fun m _ => Finset.sum_comm
    _ = ∑ k : Fin 2, ∑ j ∈ Finset.range sem.vspace.mesh.numNodes, u j k * sem.vspace.mesh.scatter (fun m n => fl m n k) j :=
        Finset.sum_congr rfl fun k _ => h k
    _ = _ := Finset.sum_comm

theorem tokDot_tokens (hr : sem.vspace.mesh.InRange) (ct : ℕ → ℕ → K) (u : Vel K 2) :
    tokDot sem.vspace.mesh.numElements (sem.vspace.mesh.nodesPerElem * 2) ct (tokens sem.vspace.mesh u) =
      sem.vDot (vScatter sem.vspace.mesh fun m n k => ct m (n * 2 + k)) u := by
  rw [vDot_comm, ← local_pair hr]
  unfold tokDot
  refine Finset.sum_congr rfl fun m hm => ?_
  rw [sum_range_two]
  refine Finset.sum_congr rfl fun n hn => Finset.sum_congr rfl fun k _ => ?_
  rw [tokens_entry _ _ (Finset.mem_range.mp hm) (Finset.mem_range.mp hn), mul_comm]

theorem tokDot_scatter (hr : sem.vspace.mesh.InRange) (a : Vel K 2) (ts : List (List K)) :
    sem.vDot a (vScatter sem.vspace.mesh fun m n k => (ts.getD m []).getD (n * 2 + k) 0) =
      tokDot sem.vspace.mesh.numElements (sem.vspace.mesh.nodesPerElem * 2)
        (fun m r => vGather sem.vspace.mesh a m (r / 2) ⟨r % 2, Nat.mod_lt _ (by decide)⟩) ts := by
  rw [← local_pair hr]
  unfold tokDot
  refine Finset.sum_congr rfl fun m hm => ?_
  rw [sum_range_two]
  refine Finset.sum_congr rfl fun n hn => Finset.sum_congr rfl fun k _ => ?_
  have h1 : (n * 2 + k) / 2 = n := by have := k.2; omega
  have h2 : (⟨(n * 2 + k) % 2, Nat.mod_lt _ (by decide)⟩ : Fin 2) = k := by
    ext
    have := k.2
    simp only
    omega
  simp only [h1, h2]

theorem tokDot_take {M L : ℕ} {idx : List ℕ} {ts ts' : List (List K)} (hlen : idx.length = M) (hidx : ∀ i ∈ idx, i < M)
    (hts : ∀ m < M, ts'.getD m [] = ts.getD (idx.getD m 0) []) (ct : ℕ → ℕ → K) :
    tokDot M L ct ts' = tokDot M L (takeT idx ct) ts := by
  unfold tokDot takeT
  rw [hlen]
  simp only [Finset.sum_mul]
  have e : ∀ j ∈ Finset.range M, (∑ r ∈ Finset.range L, ∑ m ∈ Finset.range M,
      (if idx.getD m 0 = j then ct m r else 0) * (ts.getD j []).getD r 0) =
      ∑ m ∈ Finset.range M, if idx.getD m 0 = j then ∑ r ∈ Finset.range L, ct m r * (ts.getD j []).getD r 0 else 0 := by
    intro j _
    refine Eq.trans Finset.sum_comm (Finset.sum_congr rfl fun m _ => ?_)
    split <;> simp
  rw [Finset.sum_congr rfl e]
  refine Eq.trans (Finset.sum_congr rfl fun m hm => ?_) Finset.sum_comm
  have hm' := Finset.mem_range.mp hm
  have hmem : idx.getD m 0 ∈ Finset.range M := by
    rw [List.getD_eq_getElem _ _ (by omega)]
    exact Finset.mem_range.mpr (hidx _ (List.getElem_mem _))
  rw [Finset.sum_ite_eq, if_pos hmem, hts m hm']

/-- A permuted list of tokens: the permutation that is applied, and its transpose. -/
theorem permute_pair {M L : ℕ} (b : Bool) {idx : List ℕ} (hidx : idx.Perm (List.range 144)) (hb : b = true → M = 144)
    {ts : List (List K)} (h1 : ts.length = M) (h2 : ∀ t ∈ ts, t.length = L) :
    ∃ ts', permuteIf b idx ts = .ok ts' ∧ ts'.length = M ∧ (∀ t ∈ ts', t.length = L) ∧
      (∀ m, ∃ m', ts'.getD m [] = ts.getD m' []) ∧
      ∀ ct, tokDot M L ct ts' = tokDot M L (permuteT b idx ct) ts := by
  cases b with
  | false => exact ⟨ts, rfl, h1, h2, fun m => ⟨m, rfl⟩, fun ct => rfl⟩
  | true =>
    have hM := hb rfl
    have hlen : idx.length = 144 := by rw [hidx.length_eq]; simp
    have hin : ∀ i ∈ idx, i < M := fun i hi => by rw [hM]; exact List.mem_range.1 (hidx.subset hi)
    obtain ⟨y, e1, e2, e3⟩ := takeIdx_some ts idx fun i hi => by rw [h1]; exact hin i hi
    have hg : ∀ m < M, y.getD m [] = ts.getD (idx.getD m 0) [] := fun m hm => by
      rw [List.getD_eq_getElem?_getD, e3 m (by omega), ← List.getD_eq_getElem?_getD]
    refine ⟨y, by simp [permuteIf, e1], by rw [e2, hlen, hM], takeIdx_shape e1 h2, fun m => ?_, fun ct => ?_⟩
    · by_cases hm : m < M
      · exact ⟨_, hg m hm⟩
      · exact ⟨M, by rw [List.getD_eq_default _ _ (by omega), List.getD_eq_default _ _ (by omega)]⟩
    · rw [tokDot_take (by omega) hin hg]
      rfl

end algebra

section analysis

variable {E : Type*} [NormedAddCommGroup E] [NormedSpace ℝ E] {θ₀ : E}

/-- The network returns `M` tokens of length `L` when it is given such tokens. -/
def KeepsShapeAt (M L : ℕ) (net : Closure ℝ) : Prop :=
  ∀ (i : ℕ) (ts : List (List ℝ)), ts.length = M → (∀ t ∈ ts, t.length = L) →
    (net i ts).1.length = M ∧ ∀ t ∈ (net i ts).1, t.length = L

/-- What it means that `vjp` is the reverse pass of a network for `M` tokens of length `L` with weights `θ` at the weights `θ₀`:
whenever the input tokens depend differentiably on the weights, so do the outputs, and the derivative of every pairing of the outputs is the cotangent of
the weights plus the derivative of the pairing of the inputs with their cotangent. -/
def VjpOf (M L : ℕ) (net : E → Closure ℝ) (vjp : NetVjp ℝ (E →L[ℝ] ℝ)) (θ₀ : E) : Prop :=
  ∀ (i : ℕ) (ts : E → List (List ℝ)), (∀ θ, (ts θ).length = M) → (∀ θ, ∀ t ∈ ts θ, t.length = L) →
    (∀ t r, DifferentiableAt ℝ (fun θ => ((ts θ).getD t []).getD r 0) θ₀) →
    (∀ t r, DifferentiableAt ℝ (fun θ => ((net θ i (ts θ)).1.getD t []).getD r 0) θ₀) ∧
    ∀ ct k0 kp, HasFDerivAt (fun θ => tokDot M L ct (net θ i (ts θ)).1 + k0 * (net θ i (ts θ)).2.1 +
      kp * (net θ i (ts θ)).2.2 - tokDot M L (vjp i (ts θ₀) ct k0 kp).2 (ts θ)) (vjp i (ts θ₀) ct k0 kp).1 θ₀

theorem gather_diff (mesh : Mesh ℝ 2) {u : E → Vel ℝ 2} (hu : ∀ j l, DifferentiableAt ℝ (fun θ => u θ j l) θ₀) (m n : ℕ)
    (l : Fin 2) : DifferentiableAt ℝ (fun θ => vGather mesh (u θ) m n l) θ₀ := by
  unfold vGather
  by_cases hn : n < mesh.nodesPerElem
  · simp only [Mesh.gather_apply _ _ _ _ hn]
    split_ifs
    · exact hu _ _
    · exact differentiableAt_const _
  · have : ∀ θ, mesh.gather (fun p => u θ p l) m n = 0 := by
      intro s
      unfold Mesh.gather Mesh.row Verif.Core.gather
      rw [List.getD_eq_default]
      simpa using hn
    simp only [this]
    exact differentiableAt_const _

/-- The class of functions that are differentiable at a point. -/
theorem netClass_diffAt (θ₀ : E) : NetClass (fun f : E → ℝ => DifferentiableAt ℝ f θ₀) where
  const a := differentiableAt_const a
  add := DifferentiableAt.fun_add
  mul := DifferentiableAt.fun_mul
  exp := fun h => h.exp
  inv := fun {f g} hf _ h => hf.fun_inv ((Real.exp_pos _).trans_le (h θ₀)).ne'
  sqrt := fun {f} hf h => (hf.add_const _).sqrt (by have := h θ₀; positivity)

variable {sem : StokesSEM ℝ 2} {c : SolverConfig ℝ}

/-- The network as it is differentiated: constant tokens in the first `push` steps. -/
def pushNet (push : ℕ) (net : E → Closure ℝ) (θ₀ : E) : E → Closure ℝ :=
  fun θ i ts => if i < push then ((net θ₀ i ts).1, (net θ i ts).2) else net θ i ts

theorem pushNet_keeps {M L push : ℕ} {net : E → Closure ℝ} (h : ∀ θ, KeepsShapeAt M L (net θ)) (θ : E) :
    KeepsShapeAt M L (pushNet push net θ₀ θ) := by
  intro i ts h1 h2
  unfold pushNet
  split
  · exact h θ₀ i ts h1 h2
  · exact h θ i ts h1 h2

/-- The reverse pass of the closure term. In the pushforward steps the velocity does not depend on the weights. -/
theorem closure_grad (hr : sem.vspace.mesh.InRange) (hc : SizesMatch c sem.vspace.mesh) {net : E → Closure ℝ}
    {vjp : NetVjp ℝ (E →L[ℝ] ℝ)} (hnet : ∀ θ, KeepsShapeAt sem.vspace.mesh.numElements (sem.vspace.mesh.nodesPerElem * 2) (net θ))
    (hvjp : VjpOf sem.vspace.mesh.numElements (sem.vspace.mesh.nodesPerElem * 2) net vjp θ₀) (push i : ℕ) {u : E → Vel ℝ 2}
    (hu : ∀ j l, DifferentiableAt ℝ (fun θ => u θ j l) θ₀) (hpush : i < push → ∀ θ, u θ = u θ₀) :
    ∃ (f : E → Vel ℝ 2) (q0 qp : E → ℝ),
      (∀ θ, closureTerm c sem.vspace.mesh (pushNet push net θ₀ θ) i (u θ) = .ok (f θ, q0 θ, qp θ)) ∧
      (∀ j l, DifferentiableAt ℝ (fun θ => f θ j l) θ₀) ∧ (i < push → ∀ θ, f θ = f θ₀) ∧
      ∀ ctF k0 kp, ∃ g ctU, closureVjp c sem.vspace.mesh vjp push i (u θ₀) ctF k0 kp = .ok (g, ctU) ∧
        (∀ j, sem.numV ≤ j → ctU j = 0) ∧
        HasFDerivAt (fun θ => sem.vDot ctF (f θ) + k0 * q0 θ + kp * qp θ - sem.vDot ctU (u θ)) g θ₀ := by
  have hperm : elementPerm.Perm (List.range 144) := C52_perm C52_default
  have hlen : elementPerm.length = 144 := by rw [hperm.length_eq]; simp
  have hperm' : (argsort elementPerm).Perm (List.range 144) := by
    have := argsort_perm elementPerm
    rwa [hlen] at this
  set mesh := sem.vspace.mesh with hmesh
  have hT := tokens_fam (netClass_diffAt θ₀) (mesh := mesh) (u := u) (fun m _ n l => gather_diff mesh hu m n l)
  -- the input tokens
  have k1 := fun θ => permute_pair (K := ℝ) c.permuteElements hperm hc.permuted (hT.length θ) (hT.each θ)
  choose ts e1 s1 s2 s3 s4 using k1
  have hfam1 : TokFam (fun f : E → ℝ => DifferentiableAt ℝ f θ₀) mesh.numElements (mesh.nodesPerElem * 2) ts := by
    obtain ⟨ts', e, ht⟩ := hT.permute (netClass_diffAt θ₀) c.permuteElements hperm hc.permuted
    have : ts' = ts := funext fun θ => by
      have := e θ
      rw [e1 θ, Except.ok.injEq] at this
      exact this.symm
    rw [← this]
    exact ht
  have hconst : i < push → ∀ θ, ts θ = ts θ₀ := fun hi θ => by
    have h1 := e1 θ
    rw [hpush hi θ, e1 θ₀, Except.ok.injEq] at h1
    exact h1.symm
  -- the output tokens
  obtain ⟨hout, hder⟩ := hvjp i ts s1 s2 hfam1.val
  set out : E → List (List ℝ) := fun θ => (pushNet push net θ₀ θ i (ts θ)).1 with hout_def
  have hofam : TokFam (fun f : E → ℝ => DifferentiableAt ℝ f θ₀) mesh.numElements (mesh.nodesPerElem * 2) out := by
    refine ⟨fun θ => (pushNet_keeps hnet θ i (ts θ) (s1 θ) (s2 θ)).1, fun θ => (pushNet_keeps hnet θ i (ts θ) (s1 θ) (s2 θ)).2,
      fun t r => ?_⟩
    by_cases hi : i < push
    · have : (fun θ => ((out θ).getD t []).getD r 0) = fun _ => ((net θ₀ i (ts θ₀)).1.getD t []).getD r 0 := by
        funext θ
        simp only [hout_def, pushNet, if_pos hi, hconst hi θ]
      rw [this]
      exact differentiableAt_const _
    · simp only [hout_def, pushNet, if_neg hi]
      exact hout t r
  have k2 := fun θ => permute_pair (K := ℝ) c.permuteElements hperm' hc.permuted (hofam.length θ) (hofam.each θ)
  choose ts2 f1 f2 f3 f4 f5 using k2
  have hfam2 : TokFam (fun f : E → ℝ => DifferentiableAt ℝ f θ₀) mesh.numElements (mesh.nodesPerElem * 2) ts2 := by
    obtain ⟨ts', e, ht⟩ := hofam.permute (netClass_diffAt θ₀) c.permuteElements hperm' hc.permuted
    have : ts' = ts2 := funext fun θ => by
      have := e θ
      rw [f1 θ, Except.ok.injEq] at this
      exact this.symm
    rw [← this]
    exact ht
  have hconst2 : i < push → ∀ θ, ts2 θ = ts2 θ₀ := fun hi θ => by
    have h0 : out θ = out θ₀ := by simp only [hout_def, pushNet, if_pos hi, hconst hi θ]
    have h1 := f1 θ
    rw [h0, f1 θ₀, Except.ok.injEq] at h1
    exact h1.symm
  refine ⟨fun θ => vScatter mesh fun m n k => ((ts2 θ).getD m []).getD (n * 2 + k) 0,
    fun θ => (net θ i (ts θ)).2.1, fun θ => (net θ i (ts θ)).2.2, fun θ => ?_, fun j l => ?_, fun hi θ => by simp only [hconst2 hi θ],
    fun ctF k0 kp => ?_⟩
  · unfold closureTerm
    rw [e1 θ]
    simp only
    have hsnd : (pushNet push net θ₀ θ i (ts θ)).2 = (net θ i (ts θ)).2 := by
      unfold pushNet
      split <;> rfl
    rw [if_neg, hsnd]
    · rw [f1 θ]
      simp only
      unfold untokens
      rw [if_pos ⟨f2 θ, f3 θ⟩]
    · rw [hc.elements, hc.channels]
      push Not
      exact ⟨s1 θ, s2 θ⟩
  · exact scatter_fam (netClass_diffAt θ₀) mesh (fun m n l => hfam2.val m (n * 2 + l)) j l
  · set ctTok : ℕ → ℕ → ℝ := fun m r => vGather mesh ctF m (r / 2) ⟨r % 2, Nat.mod_lt _ (by decide)⟩ with hct
    set ctOut := if i < push then fun _ _ => 0 else permuteT c.permuteElements (argsort elementPerm) ctTok with hco
    refine ⟨_, _, by unfold closureVjp; rw [e1 θ₀], fun j hj => funext fun l => vScatter_outside _ _ j hj l, ?_⟩
    rw [← hct, ← hco]
    have h := hder ctOut k0 kp
    have e : (fun θ => sem.vDot ctF (vScatter mesh fun m n k => ((ts2 θ).getD m []).getD (n * 2 + k) 0) +
        k0 * (net θ i (ts θ)).2.1 + kp * (net θ i (ts θ)).2.2 -
        sem.vDot (vScatter mesh fun m n k => permuteT c.permuteElements elementPerm (vjp i (ts θ₀) ctOut k0 kp).2 m (n * 2 + k))
          (u θ)) = fun θ => (tokDot mesh.numElements (mesh.nodesPerElem * 2) ctOut (net θ i (ts θ)).1 +
        k0 * (net θ i (ts θ)).2.1 + kp * (net θ i (ts θ)).2.2 -
        tokDot mesh.numElements (mesh.nodesPerElem * 2) (vjp i (ts θ₀) ctOut k0 kp).2 (ts θ)) +
        (if i < push then sem.vDot ctF (vScatter mesh fun m n k => ((ts2 θ₀).getD m []).getD (n * 2 + k) 0) else 0) := by
      funext θ
      rw [s4 θ, ← tokDot_tokens hr]
      by_cases hi : i < push
      · rw [if_pos hi, hconst2 hi θ, hco, if_pos hi]
        have : tokDot mesh.numElements (mesh.nodesPerElem * 2) (fun _ _ => (0 : ℝ)) (net θ i (ts θ)).1 = 0 := by
          simp [tokDot]
        rw [this]
        ring
      · rw [if_neg hi, hmesh, tokDot_scatter hr, ← hmesh, f5 θ, hco, if_neg hi]
        simp only [hout_def, pushNet, if_neg hi]
        ring
    rw [e]
    exact h.add_const _

end analysis

end Verif.Niles

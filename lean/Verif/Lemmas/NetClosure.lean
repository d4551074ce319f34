import Verif.Model.NetClosure
import Verif.Lemmas.NetLip
import Verif.Props.C72

/-!
# The closure term of a rollout as a function of the velocity
-/

namespace Verif.Niles

open Finset Verif.Core Verif.NS

variable {Θ : Type*} {P : (Θ → ℝ) → Prop}

/-- `M` tokens of length `L`, with entries in the class. -/
structure TokFam (P : (Θ → ℝ) → Prop) (M L : ℕ) (ts : Θ → List (List ℝ)) : Prop where
  length : ∀ θ, (ts θ).length = M
  each : ∀ θ, ∀ t ∈ ts θ, t.length = L
  val : ∀ t k, P fun θ => ((ts θ).getD t []).getD k 0

theorem tokens_fam (hP : NetClass P) {mesh : Mesh ℝ 2} {u : Θ → Vel ℝ 2}
    (hu : ∀ m < mesh.numElements, ∀ n l, P fun θ => vGather mesh (u θ) m n l) :
    TokFam P mesh.numElements (mesh.nodesPerElem * 2) fun θ => tokens mesh (u θ) := by
  refine ⟨fun θ => (tokens_shape mesh (u θ)).1, fun θ => (tokens_shape mesh (u θ)).2, fun t k => ?_⟩
  by_cases ht : t < mesh.numElements
  · have e : ∀ θ, (tokens mesh (u θ)).getD t [] =
        (List.range mesh.nodesPerElem).flatMap fun n => (List.finRange 2).map fun l => vGather mesh (u θ) t n l := by
      intro θ
      unfold tokens
      rw [List.getD_eq_getElem _ _ (by simpa using ht), List.getElem_map, List.getElem_range]
    have e' : ∀ θ, (tokens mesh (u θ)).getD t [] =
        ((List.range mesh.nodesPerElem).flatMap fun n => (List.finRange 2).map fun l => (n, l)).map
          fun q => vGather mesh (u θ) t q.1 q.2 := by
      intro θ
      rw [e, List.map_flatMap]
      simp [Function.comp_def]
    simp only [e']
    generalize (List.range mesh.nodesPerElem).flatMap (fun n => (List.finRange 2).map fun l => (n, l)) = ls
    by_cases hk : k < ls.length
    · simp only [List.getD_eq_getElem?_getD, List.getElem?_map, List.getElem?_eq_getElem hk, Option.map_some, Option.getD_some]
      exact hu t ht _ _
    · simp only [List.getD_eq_getElem?_getD, List.getElem?_map, List.getElem?_eq_none (not_lt.1 hk), Option.map_none,
        Option.getD_none]
      exact hP.const 0
  · have e : ∀ θ, (tokens mesh (u θ)).getD t [] = [] := by
      intro θ
      rw [List.getD_eq_default]
      rw [(tokens_shape mesh (u θ)).1]
      exact not_lt.1 ht
    simp only [e, List.getD_nil]
    exact hP.const 0

theorem TokFam.permute (hP : NetClass P) {M L : ℕ} {ts : Θ → List (List ℝ)} (h : TokFam P M L ts) (b : Bool) {idx : List ℕ}
    (hidx : idx.Perm (List.range 144)) (hb : b = true → M = 144) :
    ∃ ts' : Θ → List (List ℝ), (∀ θ, permuteIf b idx (ts θ) = .ok (ts' θ)) ∧ TokFam P M L ts' := by
  cases b with
  | false => exact ⟨ts, fun _ => rfl, h⟩
  | true =>
    have hM := hb rfl
    have key : ∀ θ, ∃ y, takeIdx (ts θ) idx = some y ∧ y.length = idx.length ∧
        ∀ k < idx.length, y[k]? = (ts θ)[idx.getD k 0]? := fun θ => takeIdx_some (ts θ) idx fun i hi => by
      rw [h.length, hM]; exact List.mem_range.1 (hidx.subset hi)
    choose ts' h1 h2 h3 using key
    have hlen : idx.length = 144 := by rw [hidx.length_eq]; simp
    refine ⟨ts', fun θ => by simp [permuteIf, h1], fun θ => by rw [h2, hlen, hM], fun θ => takeIdx_shape (h1 θ) (h.each θ),
      fun t k => ?_⟩
    by_cases ht : t < idx.length
    · have e : ∀ θ, (ts' θ).getD t [] = (ts θ).getD (idx.getD t 0) [] := by
        intro θ
        rw [List.getD_eq_getElem?_getD, h3 θ t ht, ← List.getD_eq_getElem?_getD]
      simp only [e]
      exact h.val _ k
    · have e : ∀ θ, (ts' θ).getD t [] = [] := fun θ => List.getD_eq_default _ _ (by rw [h2]; exact not_lt.1 ht)
      simp only [e, List.getD_nil]
      exact hP.const 0

theorem arrayOf_fam {M L : ℕ} (hM : 0 < M) {ts : Θ → List (List ℝ)} (h : TokFam P M L ts) :
    Fam P ⟨1, M, L⟩ fun θ => arrayOf (ts θ) := by
  refine ⟨fun θ => ?_, fun b t k => h.val t k⟩
  have h1 := h.length θ
  have h2 := h.each θ
  unfold arrayOf
  cases hts : ts θ with
  | nil => rw [hts] at h1; simp at h1; omega
  | cons a l =>
    rw [hts] at h1 h2
    simp only [List.headD_cons]
    rw [h1, h2 a (by simp)]

theorem tokensList_fam (hP : NetClass P) {S : Shape} {y : Θ → Tensor} (h : Fam P S y) :
    TokFam P S.seq S.chan fun θ => tokensList (y θ) := by
  refine ⟨fun θ => by simp [tokensList, h.shape], fun θ t ht => ?_, fun t k => ?_⟩
  · unfold tokensList at ht
    obtain ⟨i, -, rfl⟩ := List.mem_map.1 ht
    simp [h.shape]
  · by_cases ht : t < S.seq
    · have e0 : ∀ θ, (tokensList (y θ)).getD t [] = (List.range S.chan).map fun k => (y θ).val 0 t k := by
        intro θ
        unfold tokensList
        rw [h.shape, List.getD_eq_getElem _ _ (by simpa using ht), List.getElem_map, List.getElem_range]
      by_cases hk : k < S.chan
      · have e : ∀ θ, ((tokensList (y θ)).getD t []).getD k 0 = (y θ).val 0 t k := by
          intro θ
          rw [e0, List.getD_eq_getElem _ _ (by simpa using hk), List.getElem_map, List.getElem_range]
        simp only [e]
        exact h.val 0 t k
      · have e : ∀ θ, ((tokensList (y θ)).getD t []).getD k 0 = 0 := by
          intro θ
          rw [e0, List.getD_eq_default _ _ (by simpa using hk)]
        simp only [e]
        exact hP.const 0
    · have e : ∀ θ, (tokensList (y θ)).getD t [] = [] := by
        intro θ
        unfold tokensList
        rw [h.shape, List.getD_eq_default _ _ (by simpa using ht)]
      simp only [e, List.getD_nil]
      exact hP.const 0

theorem scatter_fam (hP : NetClass P) (mesh : Mesh ℝ 2) {v : Θ → ℕ → ℕ → Fin 2 → ℝ} (hv : ∀ m n l, P fun θ => v θ m n l)
    (j : ℕ) (l : Fin 2) : P fun θ => vScatter mesh (v θ) j l := by
  simp only [vScatter, Mesh.scatter_apply]
  refine hP.sum (f := fun m θ => ∑ n ∈ range mesh.nodesPerElem, if writePos mesh.numNodes (mesh.elements m n) = some j then
    maskOf (mesh.elements m n) * v θ m n l else 0) (fun m => ?_) _
  refine hP.sum (f := fun n θ => if writePos mesh.numNodes (mesh.elements m n) = some j then
    maskOf (mesh.elements m n) * v θ m n l else 0) (fun n => ?_) _
  by_cases h : writePos mesh.numNodes (mesh.elements m n) = some j
  · simp only [if_pos h]; exact hP.mul (hP.const _) (hv m n l)
  · simp only [if_neg h]; exact hP.const 0

/-- The closure term is in the class when velocity, weights and samples are. -/
theorem closureTerm_fam (hP : NetClass P) {cfg : SolverConfig ℝ} {mesh : Mesh ℝ 2} (hc : SizesMatch cfg mesh)
    (hM : 0 < mesh.numElements) {act : ℝ → ℝ} (ha : ClosedAct P act) {w : Θ → ModelW} (hw : ModelFam P w) {proc : Θ → Processor}
    (hp : ProcFam P proc) {c : MSConfig}
    (hm : (∃ l < c.depth, l ∈ c.poolingLayers) → c.poolingStridesQ.1 * c.poolingStridesQ.2 > 1 → ClosedMax P)
    {p : ProcConfig} {m : Bool}
    (hok : modelShape c p m ⟨1, mesh.numElements, mesh.nodesPerElem * 2⟩ = .ok ⟨1, mesh.numElements, mesh.nodesPerElem * 2⟩)
    (kl : ℕ → List (List ℝ) → ℝ × ℝ) {u : Θ → Vel ℝ 2}
    (hu : ∀ m < mesh.numElements, ∀ n l, P fun θ => vGather mesh (u θ) m n l) :
    ∃ (f : Θ → Vel ℝ 2) (q : ℕ → Θ → ℝ × ℝ),
      (∀ i θ, closureTerm cfg mesh (netClosure act (w θ) (proc θ) c p m kl) i (u θ) = .ok (f θ, q i θ)) ∧
      ∀ j l, P fun θ => f θ j l := by
  have hperm : elementPerm.Perm (List.range 144) := C52_perm C52_default
  have hlen : elementPerm.length = 144 := by rw [hperm.length_eq]; simp
  have hperm' : (argsort elementPerm).Perm (List.range 144) := by
    have := argsort_perm elementPerm
    rwa [hlen] at this
  obtain ⟨ts, e1, h1⟩ := (tokens_fam hP hu).permute hP cfg.permuteElements hperm hc.permuted
  have hA := arrayOf_fam hM h1
  have hnet : ∃ out : Θ → List (List ℝ), (∀ i θ, (netClosure act (w θ) (proc θ) c p m kl i (ts θ)).1 = out θ) ∧
      TokFam P mesh.numElements (mesh.nodesPerElem * 2) out := by
    have hs : ∀ θ, shapeE (modelT act (w θ) (proc θ) c p m (arrayOf (ts θ))) =
        .ok ⟨1, mesh.numElements, mesh.nodesPerElem * 2⟩ := fun θ => by rw [modelT_shape, hA.shape, hok]
    rcases modelT_fam hP hw hp ha c hm p m hA with ⟨e, he⟩ | ⟨y, ey, S, hy⟩
    · by_cases hne : Nonempty Θ
      · obtain ⟨θ⟩ := hne
        have := hs θ
        rw [show modelT act (w θ) (proc θ) c p m (arrayOf (ts θ)) = .error e from he θ] at this
        simp [shapeE] at this
      · refine ⟨fun θ => absurd ⟨θ⟩ hne, fun _ θ => absurd ⟨θ⟩ hne, fun θ => absurd ⟨θ⟩ hne, fun θ => absurd ⟨θ⟩ hne, fun t k => ?_⟩
        have e0 : (fun θ : Θ => (((absurd ⟨θ⟩ hne : List (List ℝ))).getD t []).getD k 0) = fun _ => 0 := by
          funext θ; exact absurd ⟨θ⟩ hne
        rw [e0]
        exact hP.const 0
    · refine ⟨fun θ => tokensList (y θ), fun i θ => by simp [netClosure, ey], ?_⟩
      by_cases hne : Nonempty Θ
      · obtain ⟨θ⟩ := hne
        have hS : S = ⟨1, mesh.numElements, mesh.nodesPerElem * 2⟩ := by
          have := hs θ
          rw [show modelT act (w θ) (proc θ) c p m (arrayOf (ts θ)) = .ok (y θ) from ey θ] at this
          simp only [shapeE, hy.shape] at this
          simpa using this
        subst hS
        exact tokensList_fam hP hy
      · refine ⟨fun θ => absurd ⟨θ⟩ hne, fun θ => absurd ⟨θ⟩ hne, (tokensList_fam hP hy).val⟩
  obtain ⟨out, e2, h2⟩ := hnet
  obtain ⟨ts', e3, h3⟩ := h2.permute hP cfg.permuteElements hperm' hc.permuted
  refine ⟨fun θ => vScatter mesh fun m n k => ((ts' θ).getD m []).getD (n * 2 + k) 0,
    fun i θ => kl i (ts θ), fun i θ => ?_, fun j l => scatter_fam hP mesh (fun m n l => h3.val m (n * 2 + l)) j l⟩
  unfold closureTerm
  rw [e1]
  simp only
  rw [if_neg]
  · rw [e2, e3]
    simp only
    unfold untokens
    rw [if_pos ⟨h3.length θ, h3.each θ⟩]
    rfl
  · rw [hc.elements, hc.channels]
    push Not
    exact ⟨h1.length θ, h1.each θ⟩

end Verif.Niles

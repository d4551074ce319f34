import Verif.Model.Rollout
import Verif.Props.C62
import Verif.Props.C71
import Verif.Props.C52

/-!
# C72: every predicted frame of the rollout solves the discrete Navier-Stokes equations

`C72_step`: one solver step (`_solve_one_step`, exact solves, filter off) returns a divergence free velocity that
satisfies, for every test velocity `v` that vanishes on the Dirichlet nodes and agrees on copies,

  `(1/dt) ∫ (β u + Σᵢ bᵢ uᵢ) v + (1/Re) ∫ ∇u* : ∇v + Σᵢ eᵢ ∫ (uᵢ·∇uᵢ) v = ∫ (closure + forcing(x, u_last)) v + ∫ p div v`

with the coefficients `b` of BDF and `e` of the extrapolation. `C72_window`: whenever a rollout succeeds, prediction `i`
is the result of a solver step applied to the `K` frames before it in the sequence "initial frames, predictions", with the
closure evaluated at the last of them, and is paired with frame `K + i` of the window. `C72_rollout`: with a closure that
keeps the shape of the tokens the rollout succeeds and every prediction satisfies the equation above.
-/

set_option linter.unusedSectionVars false

namespace Verif.Niles

open Verif.Core Verif.NS Verif.Linalg

variable {K : Type*} [Field K] [LinearOrder K]

section step

variable {vmesh pmesh : Mesh K 2} {quad overQuad : Quadrature1D K} {masks : List (String × (ℕ → Bool))}
  {bcs : List (String × BCType)} {sem : StokesSEM K 2} {low : Nodes1D K}

theorem extAdvection_ofFn (k : ℕ) (e : Fin (k + 1) → K) (he : extkCoeffs k = some e) (X : Fin (k + 1) → Vel K 2) :
    extAdvection k (List.ofFn X) = .ok (fun p j => ∑ i, e i * X i p j) := by
  unfold extAdvection
  rw [he]
  simp only [List.length_ofFn, lt_irrefl, if_false]
  congr 1
  funext p j
  rw [← Equiv.sum_comp Fin.revPerm (fun i => e i * X i p j)]
  refine Finset.sum_congr rfl fun i _ => ?_
  have : (List.ofFn X).reverse.getD i 0 = X (Fin.rev i) := by
    rw [List.getD_eq_getElem _ _ (by simp; omega), List.getElem_reverse, List.getElem_ofFn]
    congr 1
    ext
    simp [Fin.rev]
  rw [this]
  rfl

theorem C_outside (H : StokesSetup vmesh pmesh quad overQuad masks bcs sem) (u : Vel K 2) (j : ℕ)
    (hj : vmesh.numNodes ≤ j) : sem.C u j = 0 := by
  obtain ⟨_, hom⟩ := H.over
  have hvm : sem.vspace.mesh = vmesh := by
    obtain ⟨_, _, hvm, _⟩ := H.fields
    exact hvm
  funext k
  unfold StokesSEM.C StokesSEM.masked
  rw [vScatter_outside _ _ j (by rw [hvm]; exact hj), mul_zero]
  rfl

/-- The discrete Navier-Stokes equation that links the frames `U`, the new frame `u`, its pressure `p`, the tentative
velocity `uStar` and the nodal closure term `f`. -/
def SolvesNS (vmesh pmesh : Mesh K 2) (masks : List (String × (ℕ → Bool))) (bcs : List (String × BCType))
    (sem : StokesSEM K 2) (wave : K → K) (c : SolverConfig K) {k : ℕ} (b : Fin (k + 2) → K) (e : Fin (k + 1) → K)
    (U : Fin (k + 1) → Vel K 2) (f : Vel K 2) (u : Vel K 2) (p : ℕ → K) (uStar : Vel K 2) : Prop :=
  (∀ j, sem.D u j = 0) ∧
  ∀ v : Vel K 2, (∀ j, DirichletNode masks bcs j → v j = 0) → (∀ j, vmesh.numNodes ≤ j → v j = 0) →
    (∀ i < vmesh.numNodes, ∀ j < vmesh.numNodes, SameNode vmesh i j → v i = v j) →
    (1 / c.dt) * vMassForm sem.vspace
        (vGather vmesh (fun j l => b (Fin.last (k + 1)) * u j l + ∑ i : Fin (k + 1), b i.castSucc * U i j l))
        (vGather vmesh v) +
      (1 / c.reynolds) * vStiffForm sem.vspace (vGather vmesh uStar) (vGather vmesh v) +
      ∑ i, e i * vConvForm sem.overint (vGather vmesh (U i)) (vGather vmesh v) =
    vMassForm sem.vspace
        (vGather vmesh (fun j l => f j l +
          ((if l = 0 then wave (vmesh.coords j 1) else 0) - c.drag * U (Fin.last k) j l)))
        (vGather vmesh v) +
      integrate sem.vspace (fun m q => divFn sem.vspace (vGather vmesh v) m q * scalarFn sem.pspace (pmesh.gather p) m q)

theorem C72_step [IsStrictOrderedRing K] (S : StepSetup vmesh pmesh quad overQuad masks bcs sem low 0 true)
    (wave : K → K) (c : SolverConfig K) (k : ℕ) (hk : c.timeOrder = k + 1) (hk1 : 1 ≤ k) (hRe : 0 < c.reynolds)
    (hdt : 0 < c.dt) (halpha : c.alpha = 0) (hatol : c.atol = 0) (U : Fin (k + 1) → Vel K 2) (ps : List (ℕ → K))
    (hps : 2 ≤ ps.length) (f : Vel K 2) (b : Fin (k + 2) → K) (e : Fin (k + 1) → K)
    (hb : bdfkCoeffs (k + 1) = some b) (he : extkCoeffs k = some e) :
    ∃ u p uStar, solveStep low wave c sem (List.ofFn U) ps (List.ofFn (fun i => sem.C (U i))) f = .ok (u, p, sem.C u) ∧
      SolvesNS vmesh pmesh masks bcs sem wave c b e U f u p uStar := by
  have H := S.setup
  have hv := H.valid
  obtain ⟨_, _, hvm, _, hmask, _, _⟩ := H.fields
  have hlast : (List.ofFn U).getLast? = some (U (Fin.last k)) := by
    rw [List.getLast?_eq_getElem?, List.length_ofFn, List.getElem?_ofFn]
    simp [Fin.last]
  set f1 : Vel K 2 := fun p l => f p l + kolmogorov wave c.drag (sem.vspace.mesh.coords p) (U (Fin.last k) p) l with hf1
  set f2 : Vel K 2 := fun p l => -(∑ i, e i * sem.C (U i) p l) + sem.B f1 p l with hf2
  have hfD : ∀ j, DirichletNode masks bcs j → f2 j = 0 := by
    intro j hD
    funext l
    have h1 : ∀ i, sem.C (U i) j l = 0 := fun i => by rw [(C71_weak H (U i)).2 j hD]; rfl
    simp only [hf2, h1, StokesSEM.B, (hmask j).1 hD]
    simp
  have hfO : ∀ j, vmesh.numNodes ≤ j → f2 j = 0 := by
    intro j hj
    funext l
    have h1 : ∀ i, sem.C (U i) j l = 0 := fun i => by rw [C_outside H (U i) j hj]; rfl
    have h2 := H.massOutside j (by unfold StokesSEM.numV; rw [hvm]; exact hj) l
    simp only [hf2, h1, StokesSEM.B, h2]
    simp
  obtain ⟨st, hst, hdiv, hmom⟩ := C62_momentum S hfD hfO (one_div_pos.mpr hRe).le hdt (Nat.le_add_left 1 k) hps U b hb
  refine ⟨st.u, st.p, st.uStar, ?_, hdiv, ?_⟩
  · unfold solveStep
    rw [hk, Nat.add_sub_cancel, extAdvection_ofFn k e he]
    simp only [hlast]
    rw [if_neg hRe.ne', halpha, hatol]
    rw [← hf1, ← hf2, hst]
  · intro v hv0 hv1 hv2
    have h := hmom v hv0 hv1 hv2
    have hvT : v ∈ VSpace sem := (H.mem_VSpace v).mpr ⟨hv0, hv1⟩
    have hB := B_dot hv (VSpace_masked hvT) f1
    have hC : ∀ i, _ := fun i => C_dot H (U i) v hv0
    have hM := massForm_eq H f1 v
    have hsplit : ∑ j ∈ Finset.range vmesh.numNodes, ∑ l, v j l * f2 j l =
        -(∑ i, e i * ∑ j ∈ Finset.range vmesh.numNodes, ∑ l, v j l * sem.C (U i) j l) + sem.vDot v (sem.B f1) := by
      have e1 : ∑ i, e i * ∑ j ∈ Finset.range vmesh.numNodes, ∑ l, v j l * sem.C (U i) j l =
          ∑ j ∈ Finset.range vmesh.numNodes, ∑ l, v j l * ∑ i, e i * sem.C (U i) j l := by
        simp only [Finset.mul_sum]
        rw [Finset.sum_comm]
        refine Finset.sum_congr rfl fun j _ => ?_
        rw [Finset.sum_comm]
        refine Finset.sum_congr rfl fun l _ => Finset.sum_congr rfl fun i _ => ?_
        ring
      rw [e1]
      unfold StokesSEM.vDot StokesSEM.numV
      rw [hvm, ← Finset.sum_neg_distrib, ← Finset.sum_add_distrib]
      refine Finset.sum_congr rfl fun j _ => ?_
      rw [← Finset.sum_neg_distrib, ← Finset.sum_add_distrib]
      refine Finset.sum_congr rfl fun l _ => ?_
      simp only [hf2]
      ring
    rw [hsplit, hB] at h
    simp only [hC] at h
    unfold StokesSEM.numV at h
    rw [hvm, ← hM] at h
    have hf1' : f1 = fun j l => f j l +
        ((if l = 0 then wave (vmesh.coords j 1) else 0) - c.drag * U (Fin.last k) j l) := by
      rw [hf1, hvm]
      rfl
    rw [← hf1']
    linear_combination h

end step

section window

variable {sem : StokesSEM K 2} {low : Nodes1D K} {wave : K → K} {c : SolverConfig K} {net : Closure K}

theorem solveStep_cu {us : List (Vel K 2)} {ps : List (ℕ → K)} {cus : List (Vel K 2)} {f u : Vel K 2} {p : ℕ → K}
    {cu : Vel K 2} (h : solveStep low wave c sem us ps cus f = .ok (u, p, cu)) : cu = sem.C u := by
  unfold solveStep at h
  split at h
  · cases h
  · split at h
    · cases h
    · split at h
      · cases h
      · simp only at h
        split at h
        · cases h
        · simp only [Except.ok.injEq, Prod.mk.injEq] at h
          obtain ⟨rfl, rfl, rfl⟩ := h
          rfl

theorem getD_drop_one {α : Type*} (l : List α) (j : ℕ) (d : α) : (l.drop 1).getD j d = l.getD (j + 1) d := by
  rw [List.getD_eq_getElem?_getD, List.getD_eq_getElem?_getD, List.getElem?_drop, Nat.add_comm]

/-- What a run of the scan establishes. -/
theorem scanBody_spec (T : ℕ) (hT : 1 ≤ T) : ∀ (n : ℕ) (s s' : Carry K) (us : List (Vel K 2)),
    s.us.length = T → s.ps.length = T → s.cus = s.us.map sem.C →
    scanBody low wave c sem net n s = .ok (s', us) →
    us.length = n ∧ ∃ (P : List (ℕ → K)) (fs : ℕ → Vel K 2) (q0 qp : ℕ → K), P.length = n ∧
      s'.klQ0 = s.klQ0 + ∑ i ∈ Finset.range n, q0 i ∧ s'.klPath = s.klPath + ∑ i ∈ Finset.range n, qp i ∧
      ∀ i < n,
        closureTerm c sem.vspace.mesh net (s.i + i) ((s.us ++ us).getD (i + T - 1) 0) = .ok (fs i, q0 i, qp i) ∧
        ∃ cu, solveStep low wave c sem (((s.us ++ us).drop i).take T) (((s.ps ++ P).drop i).take T)
          ((((s.us ++ us).drop i).take T).map sem.C) (fs i) =
            .ok ((s.us ++ us).getD (i + T) 0, (s.ps ++ P).getD (i + T) 0, cu) := by
  intro n
  induction n with
  | zero =>
    intro s s' us _ _ _ h
    simp only [scanBody, Except.ok.injEq, Prod.mk.injEq] at h
    obtain ⟨rfl, rfl⟩ := h
    exact ⟨rfl, [], fun _ => 0, fun _ => 0, fun _ => 0, rfl, by simp, by simp, by simp⟩
  | succ n ih =>
    intro s s' us hu hp hc h
    rw [scanBody] at h
    cases hb : bodyFn low wave c sem net s with
    | error e => rw [hb] at h; cases h
    | ok r =>
      obtain ⟨s1, u⟩ := r
      rw [hb] at h
      simp only at h
      cases hs : scanBody low wave c sem net n s1 with
      | error e => rw [hs] at h; cases h
      | ok r2 =>
        obtain ⟨s2, us2⟩ := r2
        rw [hs] at h
        simp only [Except.ok.injEq, Prod.mk.injEq] at h
        obtain ⟨rfl, rfl⟩ := h
        unfold bodyFn at hb
        cases hlast : s.us.getLast? with
        | none => rw [hlast] at hb; cases hb
        | some ul =>
          rw [hlast] at hb
          simp only at hb
          cases hcl : closureTerm c sem.vspace.mesh net s.i ul with
          | error e => rw [hcl] at hb; cases hb
          | ok r3 =>
            obtain ⟨f, kl0, klp⟩ := r3
            rw [hcl] at hb
            simp only at hb
            cases hso : solveStep low wave c sem s.us s.ps s.cus f with
            | error e => rw [hso] at hb; cases hb
            | ok r4 =>
              obtain ⟨u', p, cu⟩ := r4
              rw [hso] at hb
              simp only [Except.ok.injEq, Prod.mk.injEq] at hb
              obtain ⟨rfl, rfl⟩ := hb
              have hcu := solveStep_cu hso
              obtain ⟨a, us0, hus⟩ : ∃ a l, s.us = a :: l := List.exists_cons_of_length_pos (by omega)
              obtain ⟨a', ps0, hpss⟩ : ∃ a l, s.ps = a :: l := List.exists_cons_of_length_pos (by omega)
              have hu0 : us0.length + 1 = T := by rw [hus] at hu; simpa using hu
              have hp0 : ps0.length + 1 = T := by rw [hpss] at hp; simpa using hp
              obtain ⟨hlen, P, fs, q0, qp, hP, hq0, hqp, hall⟩ := ih _ s2 us2 (by simp [hus, hu0]) (by simp [hpss, hp0])
                (by simp [hc, hus, hcu]) hs
              have e1 : (s.us.drop 1 ++ [u']) ++ us2 = (s.us ++ u' :: us2).drop 1 := by simp [hus]
              have e2 : (s.ps.drop 1 ++ [p]) ++ P = (s.ps ++ p :: P).drop 1 := by simp [hpss]
              refine ⟨by simp [hlen], p :: P, fun i => if i = 0 then f else fs (i - 1),
                fun i => if i = 0 then kl0 else q0 (i - 1), fun i => if i = 0 then klp else qp (i - 1), by simp [hP], ?_, ?_, ?_⟩
              · rw [hq0, Finset.sum_range_succ']
                simp only [Nat.add_eq_zero_iff, one_ne_zero, and_false, if_false, Nat.add_sub_cancel, if_true]
                ring
              · rw [hqp, Finset.sum_range_succ']
                simp only [Nat.add_eq_zero_iff, one_ne_zero, and_false, if_false, Nat.add_sub_cancel, if_true]
                ring
              · intro i hi
                cases i with
                | zero =>
                  simp only [if_true, Nat.add_zero, Nat.zero_add, List.drop_zero]
                  have t1 : (s.us ++ u' :: us2).take T = s.us := by rw [← hu, List.take_left]
                  have t2 : (s.ps ++ p :: P).take T = s.ps := by rw [← hp, List.take_left]
                  have g1 : (s.us ++ u' :: us2).getD T 0 = u' := by
                    rw [List.getD_eq_getElem _ _ (by simp; omega)]; simp [← hu]
                  have g2 : (s.ps ++ p :: P).getD T 0 = p := by
                    rw [List.getD_eq_getElem _ _ (by simp; omega)]; simp [← hp]
                  have g3 : (s.us ++ u' :: us2).getD (T - 1) 0 = ul := by
                    rw [List.getLast?_eq_getElem?, hu] at hlast
                    rw [List.getD_eq_getElem?_getD, List.getElem?_append_left (by omega), hlast]
                    rfl
                  rw [t1, t2, g1, g2, g3, ← hc]
                  exact ⟨hcl, cu, hso⟩
                | succ i =>
                  have := hall i (by omega)
                  simp only [e1, e2, List.drop_drop] at this
                  simp only [getD_drop_one] at this
                  simp only [Nat.add_eq_zero_iff, one_ne_zero, and_false, if_false, Nat.add_sub_cancel]
                  have x1 : i + T - 1 + 1 = i + 1 + T - 1 := by omega
                  have x2 : i + T + 1 = i + 1 + T := by omega
                  have x3 : s.i + 1 + i = s.i + (i + 1) := by omega
                  have x4 : 1 + i = i + 1 := by omega
                  rw [x1, x2, x3, x4] at this
                  exact this

/-- Every prediction of a successful rollout is a solver step from the frames before it, with the closure evaluated at the
last of them, and is paired with the frame of the window at the same time. -/
theorem C72_window (hT : 1 ≤ c.timeOrder) {n : ℕ} {ex : Example K} {preds targets : List (Vel K 2)} {kl0 klp : K}
    (h : rollout low wave c sem net n ex = .ok (preds, targets, kl0, klp)) :
    preds.length = n ∧ targets.length = n ∧ (∀ i < n, targets[i]? = ex.u[c.timeOrder + i]?) ∧
    ∃ (P : List (ℕ → K)) (fs : ℕ → Vel K 2) (q0 qp : ℕ → K), P.length = n ∧
      kl0 = ∑ i ∈ Finset.range n, q0 i ∧ klp = ∑ i ∈ Finset.range n, qp i ∧
      let W := ex.u.take c.timeOrder ++ preds
      let PW := ex.p.take c.timeOrder ++ P
      ∀ i < n,
        closureTerm c sem.vspace.mesh net i (W.getD (i + c.timeOrder - 1) 0) = .ok (fs i, q0 i, qp i) ∧
        ∃ cu, solveStep low wave c sem ((W.drop i).take c.timeOrder) ((PW.drop i).take c.timeOrder)
          (((W.drop i).take c.timeOrder).map sem.C) (fs i) =
            .ok (W.getD (i + c.timeOrder) 0, PW.getD (i + c.timeOrder) 0, cu) := by
  unfold rollout at h
  split at h
  · cases h
  · rename_i hlen
    push Not at hlen
    simp only at h
    split at h
    · cases h
    · rename_i s preds' hs
      split at h
      · cases h
      · rename_i hlen2
        push Not at hlen2
        simp only [Except.ok.injEq, Prod.mk.injEq] at h
        obtain ⟨rfl, rfl, rfl, rfl⟩ := h
        obtain ⟨h1, P, fs, q0, qp, hP, hq0, hqp, hall⟩ := scanBody_spec c.timeOrder hT n _ _ _ (by simp; omega)
          (by simp; omega) rfl hs
        refine ⟨h1, by simp; omega, ?_, P, fs, q0, qp, hP, by simpa using hq0, by simpa using hqp, ?_⟩
        · intro i hi
          rw [List.getElem?_take_of_lt hi, List.getElem?_drop]
        · intro W PW i hi
          have := hall i hi
          simpa only [Nat.zero_add] using this

end window

section run

variable {vmesh pmesh : Mesh K 2} {quad overQuad : Quadrature1D K} {masks : List (String × (ℕ → Bool))}
  {bcs : List (String × BCType)} {sem : StokesSEM K 2} {low : Nodes1D K} {wave : K → K} {c : SolverConfig K}
  {net : Closure K}

/-- The network returns as many tokens as it is given, of the same length. -/
def KeepsShape (net : Closure K) : Prop :=
  ∀ (i M L : ℕ) (ts : List (List K)), ts.length = M → (∀ t ∈ ts, t.length = L) →
    (net i ts).1.length = M ∧ ∀ t ∈ (net i ts).1, t.length = L

/-- The sizes in the configuration are those of the mesh. -/
structure SizesMatch (c : SolverConfig K) (mesh : Mesh K 2) : Prop where
  elements : c.numElements = mesh.numElements
  channels : c.numChannels = mesh.nodesPerElem * 2
  permuted : c.permuteElements = true → mesh.numElements = 144

theorem tokens_shape (mesh : Mesh K 2) (u : Vel K 2) : (tokens mesh u).length = mesh.numElements ∧
    ∀ t ∈ tokens mesh u, t.length = mesh.nodesPerElem * 2 := by
  unfold tokens
  refine ⟨by simp, fun t ht => ?_⟩
  obtain ⟨m, _, rfl⟩ := List.mem_map.mp ht
  simp [List.length_flatMap]

theorem takeIdx_shape {L : ℕ} {ts ts' : List (List K)} {idx : List ℕ} (h : takeIdx ts idx = some ts')
    (hL : ∀ t ∈ ts, t.length = L) : ∀ t ∈ ts', t.length = L := by
  induction idx generalizing ts' with
  | nil => simp [takeIdx] at h; subst h; simp
  | cons i idx ih =>
    unfold takeIdx at h ih
    rw [List.mapM_cons] at h
    cases hx : ts[i]? with
    | none => rw [hx] at h; cases h
    | some a =>
      rw [hx] at h
      cases hr : idx.mapM (fun i => ts[i]?) with
      | none => rw [hr] at h; cases h
      | some l =>
        rw [hr] at h
        cases h
        intro t ht
        rcases List.mem_cons.mp ht with rfl | ht
        · exact hL _ (List.mem_of_getElem? hx)
        · exact ih hr t ht

theorem permuteIf_ok (b : Bool) (idx : List ℕ) (hidx : idx.Perm (List.range 144)) (M L : ℕ) (ts : List (List K)) (hM : ts.length = M)
    (hL : ∀ t ∈ ts, t.length = L) (hb : b = true → M = 144) :
    ∃ ts', permuteIf b idx ts = .ok ts' ∧ ts'.length = M ∧ ∀ t ∈ ts', t.length = L := by
  cases b with
  | false => exact ⟨ts, rfl, hM, hL⟩
  | true =>
    have hM' := hb rfl
    obtain ⟨y, h1, h2, _⟩ := takeIdx_some ts idx (fun i hi => by
      rw [hM, hM']; exact List.mem_range.mp (hidx.subset hi))
    refine ⟨y, ?_, ?_, takeIdx_shape h1 hL⟩
    · unfold permuteIf; simp [h1]
    · rw [h2, hidx.length_eq, hM']; simp

theorem closureTerm_ok {mesh : Mesh K 2} (hc : SizesMatch c mesh) (hnet : KeepsShape net) (i : ℕ) (u : Vel K 2) :
    ∃ r, closureTerm c mesh net i u = .ok r := by
  have hp : elementPerm.Perm (List.range 144) := C52_perm C52_default
  have hlen : elementPerm.length = 144 := by rw [hp.length_eq]; simp
  have hp' : (argsort elementPerm).Perm (List.range 144) := by
    have := argsort_perm elementPerm
    rwa [hlen] at this
  obtain ⟨h1, h2⟩ := tokens_shape mesh u
  obtain ⟨ts, ht, h3, h4⟩ := permuteIf_ok c.permuteElements _ hp _ _ _ h1 h2 hc.permuted
  obtain ⟨h5, h6⟩ := hnet i _ _ ts h3 h4
  obtain ⟨ts', ht', h7, h8⟩ := permuteIf_ok c.permuteElements _ hp' _ _ _ h5 h6 hc.permuted
  unfold closureTerm
  rw [ht]
  simp only
  rw [if_neg]
  · rw [ht']
    simp only
    unfold untokens
    rw [if_pos ⟨h7, h8⟩]
    exact ⟨_, rfl⟩
  · rw [hc.elements, hc.channels]
    push Not
    exact ⟨h3, h4⟩

theorem ofFn_window (l : List (Vel K 2)) (T : ℕ) (h : l.length = T) : l = List.ofFn (fun i : Fin T => l.getD i 0) := by
  apply List.ext_getElem (by simp [h])
  intro i h1 h2
  rw [List.getElem_ofFn, List.getD_eq_getElem _ _ h1]

theorem scanBody_ok [IsStrictOrderedRing K] (S : StepSetup vmesh pmesh quad overQuad masks bcs sem low 0 true)
    (k : ℕ) (hk : c.timeOrder = k + 1) (hk1 : 1 ≤ k) (hRe : 0 < c.reynolds) (hdt : 0 < c.dt) (halpha : c.alpha = 0)
    (hatol : c.atol = 0) (hcl : ∀ i u, ∃ r, closureTerm c sem.vspace.mesh net i u = .ok r) :
    ∀ (n : ℕ) (s : Carry K), s.us.length = k + 1 → s.ps.length = k + 1 → s.cus = s.us.map sem.C →
      ∃ r, scanBody low wave c sem net n s = .ok r := by
  obtain ⟨e, he, _⟩ := extk_exists (K := K) k hk1
  obtain ⟨b, hb, _⟩ := bdfk_exists (K := K) (k + 1) (by omega)
  intro n
  induction n with
  | zero => intro s _ _ _; exact ⟨_, rfl⟩
  | succ n ih =>
    intro s hu hp hcus
    have hofn := ofFn_window s.us _ hu
    have hlast : ∃ ul, s.us.getLast? = some ul := by
      rw [List.getLast?_eq_getElem?]
      exact ⟨_, List.getElem?_eq_getElem (by omega)⟩
    obtain ⟨ul, hul⟩ := hlast
    obtain ⟨⟨f, kl0, klp⟩, hcl⟩ := hcl s.i ul
    obtain ⟨u, p, us, hso, _⟩ := C72_step S wave c k hk hk1 hRe hdt halpha hatol (fun i => s.us.getD i 0) s.ps (by omega) f b e hb he
    have hcus' : s.cus = List.ofFn (fun i : Fin (k + 1) => sem.C (s.us.getD i 0)) := by
      rw [hcus]
      conv_lhs => rw [hofn]
      rw [List.map_ofFn]
      rfl
    rw [← hofn, ← hcus'] at hso
    obtain ⟨⟨s', us'⟩, hs⟩ := ih ⟨s.i + 1, s.us.drop 1 ++ [u], s.ps.drop 1 ++ [p], s.cus.drop 1 ++ [sem.C u], kl0 + s.klQ0,
      klp + s.klPath⟩ (by simp [hu]) (by simp [hp]) (by simp [hcus])
    refine ⟨(s', u :: us'), ?_⟩
    rw [scanBody]
    unfold bodyFn
    rw [hul]
    simp only [hcl, hso, hs]

/-- The rollout succeeds, and every prediction solves the discrete Navier-Stokes equations. -/
theorem C72_rollout [IsStrictOrderedRing K] (S : StepSetup vmesh pmesh quad overQuad masks bcs sem low 0 true)
    (k : ℕ) (hk : c.timeOrder = k + 1) (hk1 : 1 ≤ k) (hRe : 0 < c.reynolds) (hdt : 0 < c.dt) (halpha : c.alpha = 0)
    (hatol : c.atol = 0) (hc : SizesMatch c vmesh) (hnet : KeepsShape net) (n : ℕ) (ex : Example K)
    (hu : c.timeOrder + n ≤ ex.u.length) (hp : c.timeOrder ≤ ex.p.length) :
    ∃ (b : Fin (k + 2) → K) (e : Fin (k + 1) → K) (preds targets : List (Vel K 2)) (kl0 klp : K),
      bdfkCoeffs (k + 1) = some b ∧ extkCoeffs k = some e ∧
      rollout low wave c sem net n ex = .ok (preds, targets, kl0, klp) ∧ preds.length = n ∧
      let W := ex.u.take c.timeOrder ++ preds
      ∀ i < n, ∃ f q p uStar, closureTerm c vmesh net i (W.getD (i + k) 0) = .ok (f, q) ∧
        SolvesNS vmesh pmesh masks bcs sem wave c b e (fun j => W.getD (i + j) 0) f (W.getD (i + k + 1) 0) p uStar := by
  obtain ⟨_, _, hvm, _⟩ := S.setup.fields
  obtain ⟨e, he, _⟩ := extk_exists (K := K) k hk1
  obtain ⟨b, hb, _⟩ := bdfk_exists (K := K) (k + 1) (by omega)
  obtain ⟨⟨s, preds⟩, hs⟩ := scanBody_ok (wave := wave) S k hk hk1 hRe hdt halpha hatol (closureTerm_ok (by rw [hvm]; exact hc) hnet) n
    ⟨0, ex.u.take c.timeOrder, ex.p.take c.timeOrder, (ex.u.take c.timeOrder).map sem.C, 0, 0⟩
    (by simp; omega) (by simp; omega) rfl
  have hr : rollout low wave c sem net n ex = .ok (preds, (ex.u.drop c.timeOrder).take n, s.klQ0, s.klPath) := by
    unfold rollout
    rw [if_neg (by omega)]
    simp only [hs]
    rw [if_neg (by omega)]
  obtain ⟨h1, _, _, P, fs, q0, qp, hP, _, _, hall⟩ := C72_window (by omega) hr
  refine ⟨b, e, preds, _, _, _, hb, he, hr, h1, ?_⟩
  intro W i hi
  obtain ⟨hcl, cu, hso⟩ := hall i hi
  have hWl : W.length = k + 1 + n := by simp [W, h1]; omega
  have hwin : ((W.drop i).take c.timeOrder) = List.ofFn (fun j : Fin (k + 1) => W.getD (i + j) 0) := by
    apply List.ext_getElem
    · simp; omega
    · intro j h1 h2
      rw [List.getElem_ofFn, List.getElem_take, List.getElem_drop, List.getD_eq_getElem]
  have hpl : 2 ≤ (((ex.p.take c.timeOrder ++ P).drop i).take c.timeOrder).length := by simp; omega
  obtain ⟨u, p, us, hso', hns⟩ := C72_step S wave c k hk hk1 hRe hdt halpha hatol (fun j => W.getD (i + j) 0) _ hpl (fs i) b e hb he
  change solveStep low wave c sem ((W.drop i).take c.timeOrder) _ (((W.drop i).take c.timeOrder).map sem.C) _ = _ at hso
  rw [hwin, List.map_ofFn] at hso
  have := hso'.symm.trans hso
  simp only [Except.ok.injEq, Prod.mk.injEq] at this
  obtain ⟨rfl, rfl, _⟩ := this
  rw [hvm] at hcl
  have x1 : i + c.timeOrder - 1 = i + k := by omega
  have x2 : i + c.timeOrder = i + k + 1 := by omega
  rw [x2] at hns
  rw [x1] at hcl
  exact ⟨fs i, _, _, us, hcl, hns⟩

/-- The hypotheses hold for the enclosed element of C42, a second order scheme and the zero closure. -/
example : ∃ (sem : StokesSEM ℚ 2) (c : SolverConfig ℚ),
    StepSetup exVMesh exPMesh exVQuad exVQuad exSMasks2 exSBCs sem exLow 0 true ∧ c.timeOrder = 3 ∧ 0 < c.reynolds ∧
      0 < c.dt ∧ c.alpha = 0 ∧ c.atol = 0 ∧ SizesMatch c exVMesh ∧
      KeepsShape (fun _ ts => (ts.map (fun t => t.map (fun _ => (0 : ℚ))), 0, 0)) := by
  obtain ⟨sem, S⟩ := exStep_enclosed
  refine ⟨sem, ⟨3, 20000, 1 / 1000, 0, 1 / 25, 0, exVMesh.numElements, exVMesh.nodesPerElem * 2, false⟩,
    ⟨S.setup, S.filter, Or.inl rfl, S.pressure⟩, rfl, by norm_num, by norm_num, rfl, rfl, ⟨rfl, rfl, by simp⟩, ?_⟩
  intro i M L ts h1 h2
  refine ⟨by simp [h1], fun t ht => ?_⟩
  obtain ⟨t', ht', rfl⟩ := List.mem_map.mp ht
  simp [h2 t' ht']

end run

end Verif.Niles

import Verif.Props.C41

/-! The two solves of a Stokes step: linear maps, the spaces on which they are definite, termination. -/

set_option linter.unusedSectionVars false

namespace Verif.Linalg

variable {K V : Type*} [Field K] [LinearOrder K] [AddCommGroup V] [Module K V]

/-- Like `C46_subspace` with a second subspace for the iterates. -/
theorem cg_range (dot : V → V → K) (A M : V → V) (S T : Submodule K V) (b x0 : V) (tol atol : K) (maxiter : ℕ)
    (hb : b ∈ S) (hx0 : x0 ∈ T) (hA : ∀ v ∈ T, A v ∈ S) (hM : ∀ v ∈ S, M v ∈ T)
    (x : V) (res : K) (n : ℕ) (h : cg dot A M b x0 tol atol maxiter = some (x, res, n)) : x ∈ T := by
  unfold cg at h
  split at h
  · exact absurd h (by simp)
  · rename_i s hs
    simp only [Option.some.injEq, Prod.mk.injEq] at h
    obtain ⟨rfl, rfl, rfl⟩ := h
    have hr0 : b - A x0 ∈ S := S.sub_mem hb (hA _ hx0)
    have hinv := cgLoop_inv (dot := dot) (A := A) (M := M) (atol2 := cgBound dot b tol atol) (maxiter := maxiter)
      (fun s => s.x ∈ T ∧ s.r ∈ S ∧ s.p ∈ T) (by
        rintro s s' ⟨h1, h2, h3⟩ ⟨_, hbody⟩
        obtain ⟨_, _, hx, hr, _, hp, _⟩ := cgBody_eq hbody
        have hr' : s'.r ∈ S := by rw [hr]; exact S.sub_mem h2 (S.smul_mem _ (hA _ h3))
        refine ⟨by rw [hx]; exact T.add_mem h1 (T.smul_mem _ h3), hr', ?_⟩
        rw [hp]
        exact T.add_mem (hM _ hr') (T.smul_mem _ h3)) _ _ _ ⟨hx0, hr0, hM _ hr0⟩ hs
    exact hinv.1

/-- Two states that differ by multiples of `one` in `x` and `p`. -/
def Shifted (one : V) (s s' : CGState K V) : Prop :=
  s.r = s'.r ∧ s.gamma = s'.gamma ∧ s.k = s'.k ∧ (∃ c : K, s.p = s'.p + c • one) ∧ ∃ c : K, s.x = s'.x + c • one

section shift

variable {dot : V → V → K} {A M : V → V} {one : V} {S : Submodule K V}
  (hA : ∀ (x : V) (c : K), A (x + c • one) = A x) (hdot : ∀ (x y : V) (c : K), dot (x + c • one) (A y) = dot x (A y))
  (hAS : ∀ x, A x ∈ S) (hM : ∀ r ∈ S, (∃ c : K, M r = r + c • one) ∧ dot r (M r) = dot r r)

include hA hdot hAS hM

theorem cgLoop_shift (atol2 : K) (maxiter fuel : ℕ) (s s' t' : CGState K V) (h : Shifted one s s') (hr : s'.r ∈ S)
    (ht : cgLoop dot A id atol2 maxiter fuel s' = some t') :
    ∃ t, cgLoop dot A M atol2 maxiter fuel s = some t ∧ Shifted one t t' := by
  induction fuel generalizing s s' with
  | zero =>
    simp only [cgLoop, Option.some.injEq] at ht ⊢
    subst ht
    exact ⟨s, rfl, h⟩
  | succ fuel ih =>
    obtain ⟨h1, h2, h3, ⟨c, h4⟩, c', h5⟩ := h
    rw [cgLoop] at ht ⊢
    have hc : cgCond atol2 maxiter s ↔ cgCond atol2 maxiter s' := by unfold cgCond; rw [h2, h3]
    by_cases hcond : cgCond atol2 maxiter s'
    · rw [if_pos hcond] at ht
      rw [if_pos (hc.mpr hcond)]
      cases hb' : cgBody dot A id s' with
      | none => rw [hb'] at ht; exact absurd ht (by simp)
      | some u' =>
        rw [hb'] at ht
        simp only at ht
        obtain ⟨hne, hg, hx, hr', hgam, hp, hk⟩ := cgBody_eq hb'
        have hAp : A s.p = A s'.p := by rw [h4, hA]
        have hd : dot s.p (A s.p) = dot s'.p (A s'.p) := by rw [hAp, h4, hdot]
        have hrS : u'.r ∈ S := by rw [hr']; exact S.sub_mem hr (S.smul_mem _ (hAS _))
        obtain ⟨⟨cM, hcM⟩, hdM⟩ := hM u'.r hrS
        have hbody : ∃ u, cgBody dot A M s = some u := by
          unfold cgBody
          simp only
          rw [if_neg (by rw [hd]; exact hne), if_neg (by rw [h2]; exact hg)]
          exact ⟨_, rfl⟩
        obtain ⟨u, hu⟩ := hbody
        obtain ⟨_, _, hx1, hr1, hgam1, hp1, hk1⟩ := cgBody_eq hu
        have hru : u.r = u'.r := by rw [hr1, hr', h1, h2, hd, hAp]
        have hgu : u.gamma = u'.gamma := by rw [hgam1, hgam, hru, hdM]; rfl
        rw [hu]
        refine ih u u' ⟨hru, hgu, by rw [hk1, hk, h3], ⟨cM + (u'.gamma / s'.gamma) * c, ?_⟩,
          ⟨c' + (s'.gamma / dot s'.p (A s'.p)) * c, ?_⟩⟩ hrS ht
        · rw [hp1, hp, hru, hcM, hgu, h2, h4]
          simp only [id_eq, smul_add, add_smul, mul_smul]
          abel
        · rw [hx1, hx, h5, h2, hd, h4]
          simp only [smul_add, add_smul, mul_smul]
          abel
    · rw [if_neg hcond] at ht
      rw [if_neg (fun h => hcond (hc.mp h))]
      simp only [Option.some.injEq] at ht
      subst ht
      exact ⟨s, rfl, h1, h2, h3, ⟨c, h4⟩, c', h5⟩

/-- A preconditioner that adds multiples of a null vector changes the result by such a multiple only. -/
theorem cg_shift (b x0 : V) (hb : b ∈ S) (tol atol : K) (maxiter : ℕ) (x : V) (res : K) (n : ℕ)
    (h : cg dot A id b x0 tol atol maxiter = some (x, res, n)) :
    ∃ c : K, cg dot A M b x0 tol atol maxiter = some (x + c • one, res, n) := by
  unfold cg at h ⊢
  split at h
  · exact absurd h (by simp)
  · rename_i s hs
    simp only [Option.some.injEq, Prod.mk.injEq] at h
    obtain ⟨rfl, rfl, rfl⟩ := h
    have hrS : b - A x0 ∈ S := S.sub_mem hb (hAS _)
    obtain ⟨⟨cM, hcM⟩, hdM⟩ := hM _ hrS
    obtain ⟨t, ht, h1, h2, h3, _, c, h5⟩ := cgLoop_shift hA hdot hAS hM (cgBound dot b tol atol) maxiter maxiter
      (cgInit dot A M b x0) (cgInit dot A id b x0) s ⟨rfl, hdM, rfl, ⟨cM, hcM⟩, 0, by simp [cgInit]⟩ hrS hs
    refine ⟨c, ?_⟩
    rw [ht]
    simp only [h5, h2, h3]

end shift

end Verif.Linalg

namespace Verif.NS

open Verif.Core Verif.Linalg

variable {K : Type*} [Field K] [LinearOrder K] {d : ℕ}

theorem exchange_outside (mesh : Mesh K d) (u : ℕ → K) (j : ℕ) (hj : mesh.numNodes ≤ j) : mesh.exchange u j = u j := by
  unfold Mesh.exchange meshExchange Verif.Core.exchange
  split
  · rfl
  · simp only [atAdd]
    have : ∀ e : ℤ × K, (if writePos mesh.numNodes e.1 = some j then e.2 else 0) = 0 := by
      intro e
      rw [if_neg]
      intro h
      have := writePos_lt h
      omega
    simp [this, Function.comp_def]

/-- Exchange as a linear map. -/
def vExchLin (mesh : Mesh K d) : Vel K d →ₗ[K] Vel K d where
  toFun := vExchange mesh
  map_add' u v := by
    funext j k
    simp only [vExchange, Pi.add_apply]
    by_cases hj : j < mesh.numNodes
    · simp only [exchange_sum _ _ j hj, ← Finset.sum_add_distrib]
      exact Finset.sum_congr rfl fun i _ => by split <;> simp
    · simp only [exchange_outside mesh _ j (not_lt.mp hj)]
  map_smul' c u := by
    funext j k
    simp only [vExchange, Pi.smul_apply, RingHom.id_apply, smul_eq_mul]
    by_cases hj : j < mesh.numNodes
    · simp only [exchange_sum _ _ j hj, Finset.mul_sum]
      exact Finset.sum_congr rfl fun i _ => by split <;> simp
    · simp only [exchange_outside mesh _ j (not_lt.mp hj)]

variable (sem : StokesSEM K d)

/-- `Q` as a linear map. -/
def QLin (dt beta : K) : Vel K d →ₗ[K] Vel K d where
  toFun := sem.Q dt beta
  map_add' u v := by
    funext j k
    have := congrFun (congrFun ((vExchLin sem.vspace.mesh).map_add u v) j) k
    simp only [vExchLin, LinearMap.coe_mk, AddHom.coe_mk, Pi.add_apply] at this
    simp only [StokesSEM.Q, StokesSEM.Bi, Pi.add_apply, this]
    ring
  map_smul' c u := by
    funext j k
    have := congrFun (congrFun ((vExchLin sem.vspace.mesh).map_smul c u) j) k
    simp only [vExchLin, LinearMap.coe_mk, AddHom.coe_mk, Pi.smul_apply, smul_eq_mul] at this
    simp only [StokesSEM.Q, StokesSEM.Bi, Pi.smul_apply, smul_eq_mul, RingHom.id_apply, this]
    ring

/-- `B` as a linear map. -/
def BLin : Vel K d →ₗ[K] Vel K d where
  toFun := sem.B
  map_add' u v := by funext j k; simp only [StokesSEM.B, Pi.add_apply]; ring
  map_smul' c u := by funext j k; simp only [StokesSEM.B, Pi.smul_apply, smul_eq_mul, RingHom.id_apply]; ring

/-- `A` as a linear map. -/
def ALin (hwf : sem.vspace.WF) : Vel K d →ₗ[K] Vel K d where
  toFun := sem.A
  map_add' u v := by
    have : vectorCovector (vStiffForm sem.vspace (vGather sem.vspace.mesh (u + v))) =
        vectorCovector (vStiffForm sem.vspace (vGather sem.vspace.mesh u)) +
          vectorCovector (vStiffForm sem.vspace (vGather sem.vspace.mesh v)) := by
      funext m n k
      simp only [vectorCovector, Pi.add_apply, vGather_add]
      rw [vStiffForm_comm, (vStiffForm_linear sem.vspace hwf _).add, vStiffForm_comm sem.vspace _ (vGather _ u),
        vStiffForm_comm sem.vspace _ (vGather _ v)]
    funext j k
    simp only [StokesSEM.A, StokesSEM.masked, this, vScatter_add, Pi.add_apply]
    ring
  map_smul' c u := by
    have : vectorCovector (vStiffForm sem.vspace (vGather sem.vspace.mesh (c • u))) =
        c • vectorCovector (vStiffForm sem.vspace (vGather sem.vspace.mesh u)) := by
      funext m n k
      simp only [vectorCovector, Pi.smul_apply, vGather_smul, smul_eq_mul]
      rw [vStiffForm_comm, (vStiffForm_linear sem.vspace hwf _).smul, vStiffForm_comm sem.vspace _ (vGather _ u)]
    funext j k
    simp only [StokesSEM.A, StokesSEM.masked, this, vScatter_smul, Pi.smul_apply, smul_eq_mul, RingHom.id_apply]
    ring

/-- `H_` as a linear map. -/
def HLin (hwf : sem.vspace.WF) (mu dt beta : K) : Vel K d →ₗ[K] Vel K d := (beta / dt) • BLin sem + mu • ALin sem hwf

theorem HLin_apply (hwf : sem.vspace.WF) (mu dt beta : K) (u : Vel K d) : HLin sem hwf mu dt beta u = sem.H mu dt beta u := by
  funext j k
  simp [HLin, BLin, ALin, StokesSEM.H]

/-- `D` as a linear map. -/
def DLin : Vel K d →ₗ[K] (ℕ → K) where
  toFun := sem.D
  map_add' u v := by
    unfold StokesSEM.D
    rw [← Mesh.scatter_add]
    congr 1
    funext m n
    simp only [scalarCovector, Pi.add_apply, vGather_add]
    rw [← integrate_add]
    congr 1
    funext m q
    rw [divFn_add, add_mul]
  map_smul' c u := by
    unfold StokesSEM.D
    simp only [RingHom.id_apply]
    rw [← Mesh.scatter_smul]
    congr 1
    funext m n
    simp only [scalarCovector, Pi.smul_apply, vGather_smul, smul_eq_mul]
    rw [← integrate_mul]
    congr 1
    funext m q
    rw [divFn_smul, mul_assoc]

/-- `Dt` as a linear map. -/
def DtLin (hwf : sem.pspace.WF) : (ℕ → K) →ₗ[K] Vel K d where
  toFun := sem.Dt
  map_add' p q := by
    have : vectorCovector (fun vl => integrate sem.vspace
        (fun m i => divFn sem.vspace vl m i * scalarFn sem.pspace (sem.pspace.mesh.gather (p + q)) m i)) =
        vectorCovector (fun vl => integrate sem.vspace
          (fun m i => divFn sem.vspace vl m i * scalarFn sem.pspace (sem.pspace.mesh.gather p) m i)) +
        vectorCovector (fun vl => integrate sem.vspace
          (fun m i => divFn sem.vspace vl m i * scalarFn sem.pspace (sem.pspace.mesh.gather q) m i)) := by
      funext m n k
      simp only [vectorCovector, Pi.add_apply]
      rw [← integrate_add]
      congr 1
      funext m i
      rw [Mesh.gather_add]
      unfold scalarFn
      rw [Pi.add_apply, hwf.add, mul_add]
    funext j k
    simp only [StokesSEM.Dt, StokesSEM.masked, this, vScatter_add, Pi.add_apply]
    ring
  map_smul' c p := by
    have : vectorCovector (fun vl => integrate sem.vspace
        (fun m i => divFn sem.vspace vl m i * scalarFn sem.pspace (sem.pspace.mesh.gather (c • p)) m i)) =
        c • vectorCovector (fun vl => integrate sem.vspace
          (fun m i => divFn sem.vspace vl m i * scalarFn sem.pspace (sem.pspace.mesh.gather p) m i)) := by
      funext m n k
      simp only [vectorCovector, Pi.smul_apply, smul_eq_mul]
      rw [← integrate_mul]
      congr 1
      funext m i
      rw [Mesh.gather_smul]
      unfold scalarFn
      rw [Pi.smul_apply, hwf.smul]
      ring
    funext j k
    simp only [StokesSEM.Dt, StokesSEM.masked, this, vScatter_smul, Pi.smul_apply, smul_eq_mul, RingHom.id_apply]
    ring

/-- `E` as a linear map. -/
def ELin (hwf : sem.pspace.WF) (dt beta : K) : (ℕ → K) →ₗ[K] (ℕ → K) := (DLin sem).comp ((QLin sem dt beta).comp (DtLin sem hwf))

theorem ELin_apply (hwf : sem.pspace.WF) (dt beta : K) (p : ℕ → K) : ELin sem hwf dt beta p = sem.E dt beta p := rfl

theorem D_outside (u : Vel K d) (j : ℕ) (hj : sem.numP ≤ j) : sem.D u j = 0 := Mesh.scatter_outside _ _ j hj

/-! ### the spaces -/

/-- Velocities on the nodes of the mesh that vanish where the mask does. -/
def VSpace : Submodule K (Vel K d) where
  carrier := {v | ∀ j, (sem.numV ≤ j ∨ sem.mask j = 0) → v j = 0}
  add_mem' := fun {a b} ha hb j hj => by simp [ha j hj, hb j hj]
  zero_mem' := fun j _ => rfl
  smul_mem' := fun c a ha j hj => by simp [ha j hj]

/-- Those that agree on copies. -/
def TSpace : Submodule K (Vel K d) where
  carrier := {v | v ∈ VSpace sem ∧ ∀ k, Continuous sem.vspace.mesh (fun j => v j k)}
  add_mem' := fun {a b} ha hb => ⟨(VSpace sem).add_mem ha.1 hb.1, fun k i hi j hj h => by
    simp only [Pi.add_apply]
    rw [show a i k = a j k from ha.2 k i hi j hj h, show b i k = b j k from hb.2 k i hi j hj h]⟩
  zero_mem' := ⟨(VSpace sem).zero_mem, fun _ _ _ _ _ _ => rfl⟩
  smul_mem' := fun c a ha => ⟨(VSpace sem).smul_mem c ha.1, fun k i hi j hj h => by
    simp only [Pi.smul_apply]
    rw [show a i k = a j k from ha.2 k i hi j hj h]⟩

variable {sem}

theorem VSpace_masked {v : Vel K d} (h : v ∈ VSpace sem) : sem.Masked v := fun j _ hj k => by
  rw [h j (Or.inr hj)]; rfl

/-- Restriction to the nodes. -/
def vRestrict : VSpace sem →ₗ[K] (Fin sem.numV × Fin d → K) where
  toFun v := fun j => v.1 j.1 j.2
  map_add' _ _ := rfl
  map_smul' _ _ := rfl

theorem vRestrict_injective : Function.Injective (vRestrict (sem := sem)) := by
  intro a b h
  apply Subtype.ext
  funext j
  by_cases hj : j < sem.numV
  · funext k
    exact congrFun h (⟨j, hj⟩, k)
  · rw [a.2 j (Or.inl (by omega)), b.2 j (Or.inl (by omega))]

instance : FiniteDimensional K (VSpace sem) := FiniteDimensional.of_injective vRestrict vRestrict_injective

theorem VSpace_finrank : Module.finrank K (VSpace sem) ≤ sem.numV * d := by
  have := LinearMap.finrank_le_finrank_of_injective (vRestrict_injective (sem := sem))
  simpa using this

/-- The dot product on `VSpace`. -/
def vDotLin (sem : StokesSEM K d) : VSpace sem →ₗ[K] VSpace sem →ₗ[K] K :=
  LinearMap.mk₂ K (fun u v => sem.vDot u.1 v.1)
    (fun a b c => by simp [StokesSEM.vDot, add_mul, Finset.sum_add_distrib])
    (fun c a b => by simp [StokesSEM.vDot, Finset.mul_sum, mul_assoc])
    (fun a b c => by simp [StokesSEM.vDot, mul_add, Finset.sum_add_distrib])
    (fun c a b => by simp [StokesSEM.vDot, Finset.mul_sum, mul_left_comm])

theorem masked_mem {u : Vel K d} (h : ∀ j, sem.numV ≤ j → u j = 0) : sem.masked u ∈ VSpace sem := by
  intro j hj
  funext k
  rcases hj with hj | hj
  · simp [StokesSEM.masked, h j hj]
  · simp [StokesSEM.masked, hj]

theorem A_mem (u : Vel K d) : sem.A u ∈ VSpace sem :=
  masked_mem fun j hj => funext fun k => vScatter_outside _ _ j hj k

theorem Dt_mem (p : ℕ → K) : sem.Dt p ∈ VSpace sem :=
  masked_mem fun j hj => funext fun k => vScatter_outside _ _ j hj k

theorem exchange_mem (hv : sem.Valid) {u : Vel K d} (h : u ∈ VSpace sem) : vExchange sem.vspace.mesh u ∈ TSpace sem := by
  refine ⟨fun j hj => ?_, fun k i hi j hj hs => exchange_same _ _ hi hj hs⟩
  funext k
  by_cases hlt : j < sem.numV
  · rcases hj with hj | hj
    · omega
    · exact vExchange_masked hv u (VSpace_masked h) j hlt hj k
  · have := exchange_outside sem.vspace.mesh (fun p => u p k) j (not_lt.mp hlt)
    unfold vExchange
    rw [this, h j (Or.inl (not_lt.mp hlt))]

theorem Q_mem (hv : sem.Valid) (dt beta : K) {u : Vel K d} (h : u ∈ VSpace sem) : sem.Q dt beta u ∈ TSpace sem := by
  obtain ⟨h1, h2⟩ := exchange_mem hv h
  refine ⟨fun j hj => ?_, fun k i hi j hj hs => ?_⟩
  · funext k
    simp only [StokesSEM.Q, StokesSEM.Bi, h1 j hj, Pi.zero_apply, mul_zero]
  · simp only [StokesSEM.Q, StokesSEM.Bi]
    have e1 : vExchange sem.vspace.mesh u i k = vExchange sem.vspace.mesh u j k := h2 k i hi j hj hs
    have e2 : vExchange sem.vspace.mesh sem.massDiag i k = vExchange sem.vspace.mesh sem.massDiag j k :=
      exchange_same _ _ hi hj hs
    rw [e1, e2]

theorem B_mem {u : Vel K d} (h : ∀ j, sem.numV ≤ j → ∀ k, sem.massDiag j k = 0) : sem.B u ∈ VSpace sem := by
  intro j hj
  funext k
  rcases hj with hj | hj
  · simp [StokesSEM.B, h j hj k]
  · simp [StokesSEM.B, hj]

/-! ### the velocity solve -/

theorem vDot_masked {x : Vel K d} (hv : sem.Valid) (hx : sem.Masked x) (y : Vel K d) :
    sem.vDot x (sem.masked y) = sem.vDot x y := by
  unfold StokesSEM.vDot
  refine Finset.sum_congr rfl fun j hj => Finset.sum_congr rfl fun k _ => ?_
  conv_rhs => rw [← hx.mul hv j (Finset.mem_range.mp hj) k]
  unfold StokesSEM.masked
  ring

theorem A_dot (hv : sem.Valid) {x : Vel K d} (hx : sem.Masked x) (y : Vel K d) :
    sem.vDot x (sem.A y) = vStiffForm sem.vspace (vGather sem.vspace.mesh y) (vGather sem.vspace.mesh x) := by
  unfold StokesSEM.A
  rw [vDot_masked hv hx]
  exact vCovector sem.vspace.mesh hv.vrange _ (vStiffForm_linear sem.vspace hv.vwf _) x

theorem B_dot (hv : sem.Valid) {x : Vel K d} (hx : sem.Masked x) (y : Vel K d) :
    sem.vDot x (sem.B y) = ∑ j ∈ Finset.range sem.numV, ∑ k, sem.massDiag j k * (x j k * y j k) := by
  unfold StokesSEM.vDot StokesSEM.B
  refine Finset.sum_congr rfl fun j hj => Finset.sum_congr rfl fun k _ => ?_
  conv_rhs => rw [← hx.mul hv j (Finset.mem_range.mp hj) k]
  ring

theorem H_dot (hv : sem.Valid) {x : Vel K d} (hx : sem.Masked x) (mu dt beta : K) (y : Vel K d) :
    sem.vDot x (sem.H mu dt beta y) =
      (beta / dt) * (∑ j ∈ Finset.range sem.numV, ∑ k, sem.massDiag j k * (x j k * y j k)) +
        mu * vStiffForm sem.vspace (vGather sem.vspace.mesh y) (vGather sem.vspace.mesh x) := by
  rw [← B_dot hv hx, ← A_dot hv hx]
  unfold StokesSEM.vDot StokesSEM.H
  simp only [Finset.mul_sum, ← Finset.sum_add_distrib]
  exact Finset.sum_congr rfl fun j _ => Finset.sum_congr rfl fun k _ => by ring

/-- `H_` restricted to the masked velocities. -/
def HRes (sem : StokesSEM K d) (hwf : sem.vspace.WF) (hout : ∀ j, sem.numV ≤ j → ∀ k, sem.massDiag j k = 0) (mu dt beta : K) :
    VSpace sem →ₗ[K] VSpace sem :=
  LinearMap.codRestrict _ ((HLin sem hwf mu dt beta).comp (Submodule.subtype _)) (fun v => by
    rw [LinearMap.comp_apply, HLin_apply]
    have : sem.H mu dt beta v.1 = (beta / dt) • sem.B v.1 + mu • sem.A v.1 := rfl
    rw [Submodule.subtype_apply, this]
    exact (VSpace sem).add_mem ((VSpace sem).smul_mem _ (B_mem hout)) ((VSpace sem).smul_mem _ (A_mem _)))

/-- The exchange restricted to the masked velocities. -/
def exchRes (sem : StokesSEM K d) (hv : sem.Valid) : VSpace sem →ₗ[K] VSpace sem :=
  LinearMap.codRestrict _ ((vExchLin sem.vspace.mesh).comp (Submodule.subtype _)) (fun v => (exchange_mem hv v.2).1)

theorem vDot_pos [IsStrictOrderedRing K] {x : Vel K d} (hx : x ∈ VSpace sem) (hne : x ≠ 0) : 0 < sem.vDot x x := by
  have : ∃ j < sem.numV, ∃ k, x j k ≠ 0 := by
    by_contra h
    push Not at h
    apply hne
    funext j
    by_cases hj : j < sem.numV
    · funext k; exact h j hj k
    · exact hx j (Or.inl (not_lt.mp hj))
  obtain ⟨j, hj, k, hne⟩ := this
  exact Finset.sum_pos' (fun j _ => Finset.sum_nonneg fun k _ => mul_self_nonneg _)
    ⟨j, Finset.mem_range.mpr hj, Finset.sum_pos' (fun k _ => mul_self_nonneg _) ⟨k, Finset.mem_univ k, mul_self_pos.mpr hne⟩⟩

theorem vStiff_nonneg [IsStrictOrderedRing K] (fs : FESpace K d) (hw : ∀ q < fs.numQuad, 0 ≤ fs.weights.getD q 0)
    (hj : ∀ m < fs.mesh.numElements, ∀ q < fs.numQuad, 0 ≤ fs.jacdets m q) (ul : ℕ → ℕ → Fin d → K) :
    0 ≤ vStiffForm fs ul ul := by
  unfold vStiffForm integrate
  refine Finset.sum_nonneg fun m hm => Finset.sum_nonneg fun q hq => ?_
  exact mul_nonneg (mul_nonneg (Finset.sum_nonneg fun i _ => Finset.sum_nonneg fun j _ => mul_self_nonneg _)
    (hj m (Finset.mem_range.mp hm) q (Finset.mem_range.mp hq))) (hw q (Finset.mem_range.mp hq))

/-- The velocity problem satisfies the assumptions of conjugate gradients. -/
theorem velocity_cgHyp [IsStrictOrderedRing K] (hv : sem.Valid) (hout : ∀ j, sem.numV ≤ j → ∀ k, sem.massDiag j k = 0)
    (hmass : ∀ j < sem.numV, ∀ k, 0 < sem.massDiag j k) (hstiff : ∀ ul, 0 ≤ vStiffForm sem.vspace ul ul)
    (mu dt beta : K) (hmu : 0 ≤ mu) (hdt : 0 < dt) (hbeta : 0 < beta) :
    CGHyp (vDotLin sem) (HRes sem hv.vwf hout mu dt beta) (exchRes sem hv) := by
  have hH : ∀ x y : VSpace sem, vDotLin sem x (HRes sem hv.vwf hout mu dt beta y) =
      (beta / dt) * (∑ j ∈ Finset.range sem.numV, ∑ k, sem.massDiag j k * (x.1 j k * y.1 j k)) +
        mu * vStiffForm sem.vspace (vGather sem.vspace.mesh y.1) (vGather sem.vspace.mesh x.1) := by
    intro x y
    rw [← H_dot hv (VSpace_masked x.2)]
    change sem.vDot x.1 (HLin sem hv.vwf mu dt beta y.1) = _
    rw [HLin_apply]
  have hsymm : ∀ x y : VSpace sem, vDotLin sem x y = vDotLin sem y x := fun x y => vDot_comm x.1 y.1
  refine ⟨hsymm, ?_, ?_, ?_, ?_, ?_⟩
  · intro x hx
    exact vDot_pos x.2 (fun h => hx (Subtype.ext h))
  · intro x y
    rw [hsymm, hH, hH, vStiffForm_comm]
    congr 2
    exact Finset.sum_congr rfl fun j _ => Finset.sum_congr rfl fun k _ => by ring
  · intro x y
    change sem.vDot (vExchange sem.vspace.mesh x.1) y.1 = sem.vDot x.1 (vExchange sem.vspace.mesh y.1)
    unfold StokesSEM.vDot
    rw [Finset.sum_comm, Finset.sum_comm (s := Finset.range sem.numV)]
    exact Finset.sum_congr rfl fun k _ => exchange_adjoint sem.vspace.mesh (fun p => x.1 p k) (fun p => y.1 p k)
  · intro x
    change 0 ≤ sem.vDot x.1 (vExchange sem.vspace.mesh x.1)
    unfold StokesSEM.vDot
    rw [Finset.sum_comm]
    refine Finset.sum_nonneg fun k _ => ?_
    have := exchange_psd sem.vspace.mesh (fun _ => 1) (fun p => x.1 p k) (fun _ _ _ _ _ => rfl) (fun _ _ => zero_le_one)
    simp only [one_mul] at this
    refine this.trans_eq (Finset.sum_congr rfl fun j _ => mul_comm _ _)
  · intro x hx
    rw [hH]
    set y := exchRes sem hv x
    have hne : ∃ j < sem.numV, ∃ k, y.1 j k ≠ 0 := by
      by_contra h
      push Not at h
      apply hx
      apply Subtype.ext
      funext j
      by_cases hj : j < sem.numV
      · funext k; exact h j hj k
      · exact y.2 j (Or.inl (not_lt.mp hj))
    obtain ⟨j, hj, k, hne⟩ := hne
    have h1 : 0 < ∑ j ∈ Finset.range sem.numV, ∑ k, sem.massDiag j k * (y.1 j k * y.1 j k) :=
      Finset.sum_pos' (fun j hj => Finset.sum_nonneg fun k _ =>
          mul_nonneg (hmass j (Finset.mem_range.mp hj) k).le (mul_self_nonneg _))
        ⟨j, Finset.mem_range.mpr hj, Finset.sum_pos'
          (fun k _ => mul_nonneg (hmass j hj k).le (mul_self_nonneg _))
          ⟨k, Finset.mem_univ k, mul_pos (hmass j hj k) (mul_self_pos.mpr hne)⟩⟩
    have h2 := mul_pos (div_pos hbeta hdt) h1
    have h3 := mul_nonneg hmu (hstiff (vGather sem.vspace.mesh y.1))
    linarith

/-- The velocity solve ends with a residual that meets the tolerances, in a field that is masked and agrees on copies. -/
theorem velocity_solve [IsStrictOrderedRing K] (hv : sem.Valid) (hout : ∀ j, sem.numV ≤ j → ∀ k, sem.massDiag j k = 0)
    (hmass : ∀ j < sem.numV, ∀ k, 0 < sem.massDiag j k) (hstiff : ∀ ul, 0 ≤ vStiffForm sem.vspace ul ul)
    (mu dt beta : K) (hmu : 0 ≤ mu) (hdt : 0 < dt) (hbeta : 0 < beta) (b : Vel K d) (hb : b ∈ VSpace sem) (tol atol : K) :
    ∃ x res n, cg sem.vDot (sem.H mu dt beta) (vExchange sem.vspace.mesh) b 0 tol atol (10 * (sem.numV * d)) =
        some (x, res, n) ∧ x ∈ TSpace sem ∧ n ≤ sem.numV * d ∧
      res = sem.vDot (b - sem.H mu dt beta x) (vExchange sem.vspace.mesh (b - sem.H mu dt beta x)) ∧
      res ≤ max (tol ^ 2 * sem.vDot b b) (atol ^ 2) := by
  have hyp := velocity_cgHyp hv hout hmass hstiff mu dt beta hmu hdt hbeta
  have hfin : Module.finrank K (LinearMap.range (exchRes sem hv)) ≤ 10 * (sem.numV * d) := by
    have h1 := VSpace_finrank (sem := sem)
    have h2 := LinearMap.finrank_range_le (exchRes sem hv)
    omega
  obtain ⟨x, res, n, hcg, _, hn, hres⟩ := C45_terminates hyp ⟨b, hb⟩ 0 tol atol (10 * (sem.numV * d)) hfin
  have hmap := cg_map (dot := sem.vDot) (A := sem.H mu dt beta) (M := vExchange sem.vspace.mesh)
    (emb := (VSpace sem).subtype) (dotW := fun u v => vDotLin sem u v) (A' := HRes sem hv.vwf hout mu dt beta)
    (M' := exchRes sem hv) (fun _ _ => rfl) (fun x => (HLin_apply sem hv.vwf mu dt beta x.1).symm) (fun _ => rfl) ⟨b, hb⟩ 0 tol atol
    (10 * (sem.numV * d))
  rw [hcg, map_zero] at hmap
  have hcg' : cg sem.vDot (sem.H mu dt beta) (vExchange sem.vspace.mesh) b 0 tol atol (10 * (sem.numV * d)) =
      some (x.1, res, n) := hmap
  have hHfun : (fun u => sem.H mu dt beta u) = HLin sem hv.vwf mu dt beta := funext fun u => (HLin_apply sem hv.vwf mu dt beta u).symm
  have hcg'' : cg sem.vDot (HLin sem hv.vwf mu dt beta) (vExchange sem.vspace.mesh) b 0 tol atol (10 * (sem.numV * d)) =
      some (x.1, res, n) := by rw [← hHfun]; exact hcg'
  obtain ⟨_, hr, _⟩ := C44_exit _ _ _ _ _ _ _ _ _ _ _ hcg''
  refine ⟨x.1, res, n, hcg', ?_, hn.trans VSpace_finrank, ?_, hres⟩
  · refine cg_range _ _ _ (VSpace sem) (TSpace sem) _ _ _ _ _ hb (TSpace sem).zero_mem ?_ (fun v hv' => exchange_mem hv hv') _ _ _ hcg'
    intro v hv'
    exact (HRes sem hv.vwf hout mu dt beta ⟨v, hv'.1⟩).2 |> fun h => by
      have e : (HRes sem hv.vwf hout mu dt beta ⟨v, hv'.1⟩).1 = sem.H mu dt beta v := HLin_apply sem hv.vwf mu dt beta v
      rw [← e]; exact h
  · rw [hr, HLin_apply]

/-! ### the pressure solve -/

/-- Divergences of masked velocities that agree on copies. -/
def PSpace (sem : StokesSEM K d) : Submodule K (ℕ → K) := (TSpace sem).map (DLin sem)

theorem PSpace.outside {p : ℕ → K} (h : p ∈ PSpace sem) (j : ℕ) (hj : sem.numP ≤ j) : p j = 0 := by
  obtain ⟨u, _, rfl⟩ := h
  exact D_outside sem u j hj

theorem D_mem {u : Vel K d} (h : u ∈ TSpace sem) : sem.D u ∈ PSpace sem := ⟨u, h, rfl⟩

theorem E_mem (hv : sem.Valid) (dt beta : K) (p : ℕ → K) : sem.E dt beta p ∈ PSpace sem :=
  D_mem (Q_mem hv dt beta (Dt_mem p))

/-- Restriction to the nodes. -/
def pRestrict : PSpace sem →ₗ[K] (Fin sem.numP → K) where
  toFun v := fun j => v.1 j
  map_add' _ _ := rfl
  map_smul' _ _ := rfl

theorem pRestrict_injective : Function.Injective (pRestrict (sem := sem)) := by
  intro a b h
  apply Subtype.ext
  funext j
  by_cases hj : j < sem.numP
  · exact congrFun h ⟨j, hj⟩
  · rw [PSpace.outside a.2 j (not_lt.mp hj), PSpace.outside b.2 j (not_lt.mp hj)]

instance : FiniteDimensional K (PSpace sem) := FiniteDimensional.of_injective pRestrict pRestrict_injective

theorem PSpace_finrank : Module.finrank K (PSpace sem) ≤ sem.numP := by
  have := LinearMap.finrank_le_finrank_of_injective (pRestrict_injective (sem := sem))
  simpa using this

/-- The dot product on `PSpace`. -/
def pDotLin (sem : StokesSEM K d) : PSpace sem →ₗ[K] PSpace sem →ₗ[K] K :=
  LinearMap.mk₂ K (fun u v => nodeDot sem.numP u.1 v.1)
    (fun a b c => by simp [nodeDot, add_mul, Finset.sum_add_distrib])
    (fun c a b => by simp [nodeDot, Finset.mul_sum, mul_assoc])
    (fun a b c => by simp [nodeDot, mul_add, Finset.sum_add_distrib])
    (fun c a b => by simp [nodeDot, Finset.mul_sum, mul_left_comm])

/-- `E` restricted to `PSpace`. -/
def ERes (sem : StokesSEM K d) (hv : sem.Valid) (dt beta : K) : PSpace sem →ₗ[K] PSpace sem :=
  LinearMap.codRestrict _ ((ELin sem hv.pwf dt beta).comp (Submodule.subtype _)) (fun v => E_mem hv dt beta v.1)

theorem nodeDot_comm (N : ℕ) (u v : ℕ → K) : nodeDot N u v = nodeDot N v u :=
  Finset.sum_congr rfl fun _ _ => mul_comm _ _

/-- A functional that vanishes after the exchange vanishes on fields that agree on copies. -/
theorem vDot_exchange_zero [IsStrictOrderedRing K] {u w : Vel K d} (hu : u ∈ TSpace sem)
    (h : ∀ j < sem.numV, ∀ k, vExchange sem.vspace.mesh w j k = 0) : sem.vDot u w = 0 := by
  unfold StokesSEM.vDot
  rw [Finset.sum_comm]
  refine Finset.sum_eq_zero fun k _ => ?_
  have := sum_continuous sem.vspace.mesh (fun j => u j k) (fun j => w j k) (hu.2 k)
  refine Eq.trans this (Finset.sum_eq_zero fun j hj => ?_)
  have h1 : sem.vspace.mesh.exchange (fun j => w j k) j = 0 := h j (Finset.mem_range.mp hj) k
  rw [h1, mul_zero]

/-- `E` vanishes on `p` only if the exchanged gradient of `p` does. -/
theorem E_form_zero [IsStrictOrderedRing K] (hv : sem.Valid) (dt beta : K) (h : 0 < dt / beta) (p : ℕ → K)
    (hz : nodeDot sem.numP p (sem.E dt beta p) = 0) :
    ∀ j < sem.numV, ∀ k, vExchange sem.vspace.mesh (sem.Dt p) j k = 0 := by
  rw [E_dot hv, vDot_Q, mul_eq_zero] at hz
  have hz' := hz.resolve_left h.ne'
  set w := sem.Dt p
  have hk : ∀ k, ∑ j ∈ Finset.range sem.numV,
      1 / vExchange sem.vspace.mesh sem.massDiag j k * sem.vspace.mesh.exchange (fun p => w p k) j * w j k =
      ∑ j ∈ Finset.range sem.numV, 1 / vExchange sem.vspace.mesh sem.massDiag j k *
        vExchange sem.vspace.mesh w j k / sem.vspace.mesh.exchange (fun _ => (1 : K)) j * vExchange sem.vspace.mesh w j k := by
    intro k
    refine sum_continuous sem.vspace.mesh (fun j => 1 / vExchange sem.vspace.mesh sem.massDiag j k *
      sem.vspace.mesh.exchange (fun p => w p k) j) (fun j => w j k) ?_
    intro i hi j hj hs
    have e := massInv_cont (sem := sem) k i hi j hj hs
    simp only at e ⊢
    rw [e, exchange_same sem.vspace.mesh _ hi hj hs]
  have hnn : ∀ k, ∀ j ∈ Finset.range sem.numV, 0 ≤ 1 / vExchange sem.vspace.mesh sem.massDiag j k *
        vExchange sem.vspace.mesh w j k / sem.vspace.mesh.exchange (fun _ => (1 : K)) j * vExchange sem.vspace.mesh w j k := by
    intro k j hj
    have h1 := hv.massPos j (Finset.mem_range.mp hj) k
    have h2 := exchange_one_pos sem.vspace.mesh j (Finset.mem_range.mp hj)
    have : 1 / vExchange sem.vspace.mesh sem.massDiag j k *
        vExchange sem.vspace.mesh w j k / sem.vspace.mesh.exchange (fun _ => (1 : K)) j * vExchange sem.vspace.mesh w j k =
        (1 / vExchange sem.vspace.mesh sem.massDiag j k / sem.vspace.mesh.exchange (fun _ => (1 : K)) j) *
          (vExchange sem.vspace.mesh w j k * vExchange sem.vspace.mesh w j k) := by ring
    rw [this]
    exact mul_nonneg (div_nonneg (one_div_nonneg.mpr h1.le) h2.le) (mul_self_nonneg _)
  rw [Finset.sum_congr rfl fun k _ => hk k,
    Finset.sum_eq_zero_iff_of_nonneg (fun k _ => Finset.sum_nonneg (hnn k))] at hz'
  intro j hj k
  have h3 := (Finset.sum_eq_zero_iff_of_nonneg (hnn k)).mp (hz' k (Finset.mem_univ k)) j (Finset.mem_range.mpr hj)
  have h1 := hv.massPos j hj k
  have h2 := exchange_one_pos sem.vspace.mesh j hj
  rcases mul_eq_zero.mp h3 with h4 | h4
  · rcases div_eq_zero_iff.mp h4 with h5 | h5
    · rcases mul_eq_zero.mp h5 with h6 | h6
      · exact absurd h6 (one_div_ne_zero h1.ne')
      · exact h6
    · exact absurd h5 h2.ne'
  · exact h4

theorem nodeDot_pos [IsStrictOrderedRing K] {p : ℕ → K} (hp : p ∈ PSpace sem) (hne : p ≠ 0) : 0 < nodeDot sem.numP p p := by
  have : ∃ j < sem.numP, p j ≠ 0 := by
    by_contra h
    push Not at h
    apply hne
    funext j
    by_cases hj : j < sem.numP
    · exact h j hj
    · exact PSpace.outside hp j (not_lt.mp hj)
  obtain ⟨j, hj, hne⟩ := this
  exact Finset.sum_pos' (fun j _ => mul_self_nonneg _) ⟨j, Finset.mem_range.mpr hj, mul_self_pos.mpr hne⟩

/-- On the divergences the pressure operator is positive definite. -/
theorem E_pos [IsStrictOrderedRing K] (hv : sem.Valid) (dt beta : K) (h : 0 < dt / beta) {p : ℕ → K} (hp : p ∈ PSpace sem)
    (hne : p ≠ 0) : 0 < nodeDot sem.numP p (sem.E dt beta p) := by
  refine lt_of_le_of_ne (E_psd hv dt beta h.le p) (fun h0 => ?_)
  have hz := E_form_zero hv dt beta h p h0.symm
  obtain ⟨u, hu, rfl⟩ := hp
  have h1 : nodeDot sem.numP (sem.D u) (sem.D u) = 0 := by
    rw [D_Dt_adjoint hv u (VSpace_masked hu.1)]
    exact vDot_exchange_zero hu hz
  exact absurd h1 (nodeDot_pos (D_mem hu) hne).ne'

theorem pressure_cgHyp [IsStrictOrderedRing K] (hv : sem.Valid) (dt beta : K) (h : 0 < dt / beta) :
    CGHyp (pDotLin sem) (ERes sem hv dt beta) LinearMap.id := by
  refine ⟨fun x y => nodeDot_comm _ _ _, fun x hx => nodeDot_pos x.2 (fun h => hx (Subtype.ext h)), ?_, fun _ _ => rfl, ?_, ?_⟩
  · intro x y
    change nodeDot sem.numP (sem.E dt beta x.1) y.1 = nodeDot sem.numP x.1 (sem.E dt beta y.1)
    rw [nodeDot_comm]
    exact E_symm hv dt beta x.1 y.1
  · intro x
    change 0 ≤ nodeDot sem.numP x.1 x.1
    exact Finset.sum_nonneg fun j _ => mul_self_nonneg (x.1 j)
  · intro x hx
    exact E_pos hv dt beta h x.2 (fun h => hx (Subtype.ext h))

/-- The pressure solve without a preconditioner ends with a residual that meets the tolerances. -/
theorem pressure_solve [IsStrictOrderedRing K] (hv : sem.Valid) (dt beta : K) (h : 0 < dt / beta) (b : ℕ → K)
    (hb : b ∈ PSpace sem) (tol atol : K) :
    ∃ x res n, cg (nodeDot sem.numP) (sem.E dt beta) id b 0 tol atol (10 * sem.numP) = some (x, res, n) ∧
      x ∈ PSpace sem ∧ n ≤ sem.numP ∧
      res = nodeDot sem.numP (b - sem.E dt beta x) (b - sem.E dt beta x) ∧
      res ≤ max (tol ^ 2 * nodeDot sem.numP b b) (atol ^ 2) := by
  have hyp := pressure_cgHyp hv dt beta h
  have hfin : Module.finrank K (LinearMap.range (LinearMap.id : PSpace sem →ₗ[K] PSpace sem)) ≤ 10 * sem.numP := by
    have h1 := PSpace_finrank (sem := sem)
    have h2 := LinearMap.finrank_range_le (LinearMap.id : PSpace sem →ₗ[K] PSpace sem)
    omega
  obtain ⟨x, res, n, hcg, _, hn, hres⟩ := C45_terminates hyp ⟨b, hb⟩ 0 tol atol (10 * sem.numP) hfin
  have hmap := cg_map (dot := nodeDot sem.numP) (A := sem.E dt beta) (M := id)
    (emb := (PSpace sem).subtype) (dotW := fun u v => pDotLin sem u v) (A' := ERes sem hv dt beta)
    (M' := (LinearMap.id : PSpace sem →ₗ[K] PSpace sem)) (fun _ _ => rfl) (fun x => rfl) (fun _ => rfl) ⟨b, hb⟩ 0 tol atol
    (10 * sem.numP)
  rw [hcg, map_zero] at hmap
  have hcg' : cg (nodeDot sem.numP) (sem.E dt beta) id b 0 tol atol (10 * sem.numP) = some (x.1, res, n) := hmap
  obtain ⟨_, hr, _⟩ := C44_exit (nodeDot sem.numP) (ELin sem hv.pwf dt beta) id _ _ _ _ _ _ _ _ hcg'
  exact ⟨x.1, res, n, hcg', x.2, hn.trans PSpace_finrank, hr, hres⟩

/-- No net flux: the exchanged gradient of a constant vanishes. -/
def StokesSEM.Closed (sem : StokesSEM K d) : Prop :=
  ∀ j < sem.numV, ∀ k, vExchange sem.vspace.mesh (sem.Dt (fun _ => 1)) j k = 0

theorem closed_Q (hv : sem.Valid) (hcl : sem.Closed) (dt beta : K) : sem.Q dt beta (sem.Dt (fun _ => 1)) = 0 := by
  funext j k
  by_cases hj : j < sem.numV
  · simp [StokesSEM.Q, StokesSEM.Bi, hcl j hj k]
  · have := (Q_mem hv dt beta (Dt_mem (sem := sem) (fun _ => 1))).1 j (Or.inl (not_lt.mp hj))
    rw [this]
    rfl

theorem closed_E (hv : sem.Valid) (hcl : sem.Closed) (dt beta : K) : sem.E dt beta (fun _ => 1) = 0 := by
  unfold StokesSEM.E
  rw [closed_Q hv hcl]
  exact (DLin sem).map_zero

theorem closed_sum [IsStrictOrderedRing K] (hv : sem.Valid) (hcl : sem.Closed) {p : ℕ → K} (hp : p ∈ PSpace sem) :
    ∑ j ∈ Finset.range sem.numP, p j = 0 := by
  obtain ⟨u, hu, rfl⟩ := hp
  have h1 := D_Dt_adjoint hv u (VSpace_masked hu.1) (fun _ => 1)
  rw [vDot_exchange_zero hu hcl] at h1
  unfold nodeDot at h1
  simp only [one_mul] at h1
  exact h1

/-- The pressure solve with the default preconditioner. -/
theorem pressure_solve_project [IsStrictOrderedRing K] (hv : sem.Valid) {pmesh : Mesh K d} {quad : Quadrature1D K}
    (HP : PressureSetup pmesh quad sem) (hcl : sem.Closed) (dt beta : K) (h : 0 < dt / beta) (b : ℕ → K)
    (hb : b ∈ PSpace sem) (tol atol : K) :
    ∃ x res n, cg (nodeDot sem.numP) (sem.E dt beta) sem.projectOut b 0 tol atol (10 * sem.numP) = some (x, res, n) ∧
      (∃ y ∈ PSpace sem, ∃ c : K, x = y + c • fun _ => (1 : K)) ∧ n ≤ sem.numP ∧
      res = nodeDot sem.numP (b - sem.E dt beta x) (b - sem.E dt beta x) ∧
      res ≤ max (tol ^ 2 * nodeDot sem.numP b b) (atol ^ 2) := by
  obtain ⟨x, res, n, hcg, hx, hn, hr, hres⟩ := pressure_solve hv dt beta h b hb tol atol
  have hA : ∀ (x : ℕ → K) (c : K), sem.E dt beta (x + c • fun _ => (1 : K)) = sem.E dt beta x := by
    intro x c
    rw [← ELin_apply sem hv.pwf, map_add, map_smul, ELin_apply, ELin_apply, closed_E hv hcl, smul_zero, add_zero]
  have hdot : ∀ (x y : ℕ → K) (c : K), nodeDot sem.numP (x + c • fun _ => (1 : K)) (sem.E dt beta y) =
      nodeDot sem.numP x (sem.E dt beta y) := by
    intro x y c
    have hs := closed_sum hv hcl (E_mem hv dt beta y)
    unfold nodeDot
    simp only [Pi.add_apply, Pi.smul_apply, smul_eq_mul, mul_one, add_mul, Finset.sum_add_distrib, ← Finset.mul_sum, hs,
      mul_zero, add_zero]
  have hpm := HP.mesh_eq
  have hM : ∀ r ∈ PSpace sem, (∃ c : K, sem.projectOut r = r + c • fun _ => (1 : K)) ∧
      nodeDot sem.numP r (sem.projectOut r) = nodeDot sem.numP r r := by
    intro r hr
    constructor
    · refine ⟨-(nodeDot sem.numP (fun _ => 1) (sem.pressureB (sem.pspace.mesh.exchange r)) /
        nodeDot sem.numP (fun _ => 1) (sem.pressureB (fun _ => 1))), ?_⟩
      funext j
      have hex : sem.pspace.mesh.exchange r j = r j := by
        rw [hpm]
        by_cases hj : j < pmesh.numNodes
        · exact exchange_distinct HP r j hj
        · exact exchange_outside pmesh r j (not_lt.mp hj)
      simp only [StokesSEM.projectOut, hex, Pi.add_apply, Pi.smul_apply, smul_eq_mul, mul_one]
      ring
    · have hs := closed_sum hv hcl hr
      unfold StokesSEM.numP at hs ⊢
      rw [hpm] at hs ⊢
      exact C41_inner HP r r hs
  obtain ⟨c, hcg'⟩ := cg_shift (dot := nodeDot sem.numP) (A := sem.E dt beta) (M := sem.projectOut)
    (one := fun _ => (1 : K)) (S := PSpace sem) hA hdot (fun x => E_mem hv dt beta x) hM b 0 hb tol atol _ x res n hcg
  refine ⟨_, res, n, hcg', ⟨x, hx, c, rfl⟩, hn, ?_, hres⟩
  rw [hA, hr]

end Verif.NS

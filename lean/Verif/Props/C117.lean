import Verif.Lemmas.NodeDistance
import Verif.Props.C113
import Verif.Props.C116

/-!
# C117: the logged CFL number

`run_simulation` logs the largest velocity component, without absolute value, times the time step over the distance of the two
closest nodes of an element. For the generated flows this is the largest absolute value: every flow is unchanged by the half turn
of the square.
-/

namespace Verif.Niles

open Verif.Core Verif.NS Verif.NS.IsoSem Verif.Spec

variable {n p over : ℕ} {cs : CubeStokes 2} {g : GenConsts}

section run

variable {K U P C L : Type*} [Ring K] {T : ℕ} {PU : U → Prop} {PP : P → Prop} {PC : C → Prop} {conv : U → C}
  {solve : List U → List P → List C → Except GenError (U × P × C)} {log : List U → Except GenError L}

/-- When the last step of the loop is recorded, the record ends with the last velocity. -/
theorem cycleLoop_last (DT : K) (m : ℕ) : ∀ (i : ℕ) (v w : GenVars K U P C), 10 ∣ i + m → cycleLoop DT solve (m + 1) i v = .ok w →
    w.du.getLast? = w.us.getLast? := by
  induction m with
  | zero =>
    intro i v w hi h
    rw [cycleLoop] at h
    split at h
    · cases h
    · rename_i v' hv'
      rw [cycleLoop, Except.ok.injEq] at h
      subst h
      unfold cycleBody at hv'
      split at hv'
      · cases hv'
      · dsimp only at hv'
        rw [if_pos (by omega), Except.ok.injEq] at hv'
        subst hv'
        simp
  | succ m ih =>
    intro i v w hi h
    rw [cycleLoop] at h
    split at h
    · cases h
    · exact ih (i + 1) _ w (by rw [show i + 1 + m = i + (m + 1) by omega]; exact hi) h

theorem lastSlice_last {α : Type*} (l : List α) : (lastSlice l).getLast? = l.getLast? := by
  unfold lastSlice
  rcases List.eq_nil_or_concat l with rfl | ⟨l', x, rfl⟩
  · rfl
  · simp

/-- The logging loop does what the loop does, and every logged number belongs to the last velocity of the file of its cycle. -/
theorem simLoopLog_inv (hT : 1 ≤ T) (H : KeepsInvariant T conv solve PU PP PC) (DT : K) {s : ℕ} (hs : 10 ∣ s)
    (hlog : ∀ us : List U, us.length = T → (∀ u ∈ us, PU u) → ∃ c, log us = .ok c) (m : ℕ) : ∀ (i : ℕ) (us : List U) (ps : List P)
    (dir : List (GenFile K U P)) (logs : List L), us.length = T → ps.length = T → (∀ u ∈ us, PU u) → (∀ p ∈ ps, PP p) →
    List.Forall₂ (fun f c => ∃ us : List U, us.length = T ∧ (∀ u ∈ us, PU u) ∧ us.getLast? = f.u.getLast? ∧ log us = .ok c) dir logs →
    ∃ files logs' r, simLoopLog DT T s conv solve log m i us ps dir logs = (files, logs', .ok r) ∧
      simLoop DT T s conv solve m i us ps dir = (files, .ok r) ∧ files.length = dir.length + m ∧
      List.Forall₂ (fun f c => ∃ us : List U, us.length = T ∧ (∀ u ∈ us, PU u) ∧ us.getLast? = f.u.getLast? ∧ log us = .ok c)
        files logs' := by
  induction m with
  | zero => intro i us ps dir logs h1 h2 h3 h4 h5; exact ⟨dir, logs, _, rfl, rfl, rfl, h5⟩
  | succ m ih =>
    intro i us ps dir logs h1 h2 h3 h4 h5
    obtain ⟨w, hw, w1, w2, w3, w4, w5, w6⟩ := cycleLoop_inv hT H DT s 1
      ⟨((i * s : ℕ) : K) * DT, us, ps, us.map conv, [((i * s : ℕ) : K) * DT], lastSlice us, lastSlice ps⟩ h1 h2 (by simpa using h1) h3 h4
      (fun c hc => by obtain ⟨u, hu, rfl⟩ := List.mem_map.mp hc; exact H.1 u (h3 u hu))
      (fun u hu => h3 u (List.mem_of_mem_drop hu)) (fun p hp => h4 p (List.mem_of_mem_drop hp))
    have hlast : w.du.getLast? = w.us.getLast? := by
      rcases Nat.eq_zero_or_pos s with rfl | hpos
      · rw [cycleLoop, Except.ok.injEq] at hw
        subst hw
        exact lastSlice_last us
      · obtain ⟨s', rfl⟩ : ∃ s', s = s' + 1 := ⟨s - 1, by omega⟩
        exact cycleLoop_last DT s' 1 _ w (by rw [add_comm]; exact hs) hw
    obtain ⟨c, hc⟩ := hlog w.us w1 w3
    rw [simLoopLog, if_neg (by omega), simLoop, if_neg (by omega)]
    simp only [oneCycle, hw, hc]
    obtain ⟨files, logs', r, h6, h7, h8, h9⟩ := ih (i + 1) w.us w.ps (dir ++ [⟨i * s, i * s + s, w.dt, w.du, w.dp⟩]) (logs ++ [c]) w1 w2 w3 w4
      (List.rel_append h5 (List.Forall₂.cons ⟨w.us, w1, w3, hlast.symm, hc⟩ List.Forall₂.nil))
    exact ⟨files, logs', r, h6, h7, by rw [h8]; simp; omega, h9⟩

end run

/-- The half turn of the square. -/
def halfTurn : Turn 2 := ⟨Equiv.refl _, fun _ => true, 0⟩

theorem halfTurn_keeps : halfTurn.Keeps [0, 1] := ⟨fun _ => by simp [halfTurn], fun _ _ => rfl⟩

theorem halfTurn_vector (v : Fin 2 → ℝ) : halfTurn.vector v = -v := by
  funext k
  simp [halfTurn, Turn.vector, Turn.sign]

theorem halfTurn_point (x : Fin 2 → ℝ) : halfTurn.point 0 1 n x = fun k => 1 - x k := by
  funext k
  simp [halfTurn, Turn.point]

theorem uInitFn_halfTurn (x : Fin 2 → ℝ) : uInitFn (fun k => 1 - x k) = -uInitFn x := by
  have hs : ∀ y : ℝ, Real.sin (2 * 2 * Real.pi * (1 - y)) = -Real.sin (2 * 2 * Real.pi * y) := fun y => by
    rw [← Real.sin_neg, ← Real.sin_add_int_mul_two_pi (-(2 * 2 * Real.pi * y)) 2]
    congr 1
    push_cast
    ring
  have hc : ∀ y : ℝ, Real.cos (2 * 2 * Real.pi * (1 - y)) = Real.cos (2 * 2 * Real.pi * y) := fun y => by
    rw [← Real.cos_neg (2 * 2 * Real.pi * y), ← Real.cos_add_int_mul_two_pi (-(2 * 2 * Real.pi * y)) 2]
    congr 1
    push_cast
    ring
  funext k
  fin_cases k <;> simp [uInitFn, hs, hc]

/-- A step from complete histories does not fail. -/
theorem genStep_runs (hn : 1 ≤ n) (hp : 3 ≤ p) (hcs : cubeStokes n 2 p over 0 1 [0, 1] [] = .ok cs) (htime : 2 ≤ g.timeOrder)
    (hRe : 0 < g.reynolds) (hdt : 0 < g.dt) {us cus : List (Vel ℝ 2)} {ps : List (ℕ → ℝ)} (hul : us.length = g.timeOrder)
    (hpl : ps.length = g.timeOrder) (hcl : cus.length = g.timeOrder) (hcus : ∀ c ∈ cus, ∀ j, cs.vmesh.numNodes ≤ j → c j = 0) :
    ∃ cu ul st, extAdvection (g.timeOrder - 1) cus = .ok cu ∧ us.getLast? = some ul ∧
      cs.sem.oneStep cs.low us ps (fun p k => -cu p k + cs.sem.B (fun p k => genForcing g.drag (cs.sem.vspace.mesh.coords p) (ul p) k) p k)
        (1 / g.reynolds) g.dt g.timeOrder g.alpha none none true g.tol g.atol = .ok st ∧
      genStep g cs.low cs.sem us ps cus = .ok (st.u, st.p, cs.sem.C st.u) := by
  have hbc : CubeBCs 2 [0, 1] [] := Or.inr rfl
  have hab : (0 : ℝ) < 1 := one_pos
  obtain ⟨vnode, pnode, l, h⟩ := cubeStokes_of hn (by norm_num) hp hab hbc hcs
  have hvm := FESpace.build_mesh h.vbuild
  have S := h.stepSetup hn hp hab hbc g.alpha true (fun _ => Or.inr fun k => by fin_cases k <;> simp)
  obtain ⟨e, he, _⟩ := extk_exists (K := ℝ) (g.timeOrder - 1) (by omega)
  obtain ⟨ul, hlast⟩ : ∃ ul, us.getLast? = some ul := by
    rw [List.getLast?_eq_getElem?]
    exact ⟨_, List.getElem?_eq_getElem (by omega)⟩
  obtain ⟨cu, hcu, hcu0⟩ : ∃ cu, extAdvection (g.timeOrder - 1) cus = .ok cu ∧ ∀ j, cs.vmesh.numNodes ≤ j → cu j = 0 := by
    unfold extAdvection
    rw [he]
    dsimp only
    rw [if_neg (by omega)]
    refine ⟨_, rfl, fun j hj => ?_⟩
    funext x
    refine Finset.sum_eq_zero fun y _ => ?_
    have h1 : (y : ℕ) < cus.reverse.length := by rw [List.length_reverse]; omega
    rw [List.getD_eq_getElem _ _ h1]
    rw [hcus _ (List.mem_reverse.mp (List.getElem_mem h1)) j hj]
    simp
  have H := S.setup
  obtain ⟨st, hst, _⟩ := C42_step (us := us) (ps := ps) (mu := 1 / g.reynolds) (dt := g.dt) (timeOrder := g.timeOrder) (tol := g.tol)
    (atol := g.atol) (f := fun p k => -cu p k + cs.sem.B (fun p k => genForcing g.drag (cs.sem.vspace.mesh.coords p) (ul p) k) p k) S
    (fun j hD => by simp [DirichletNode] at hD) (fun j hj => by
      funext x
      have := H.massOutside j (by unfold StokesSEM.numV; rw [hvm]; exact hj) x
      simp [hcu0 j hj, StokesSEM.B, this]) (by positivity) hdt (by omega) (by omega)
  refine ⟨cu, ul, st, hcu, hlast, hst, ?_⟩
  unfold genStep
  simp only [hcu, hlast, hst]

/-- One step keeps a symmetry of the forcing, and does not fail. -/
theorem genStep_turns {τ : Turn 2} (hτ : τ.Keeps [0, 1])
    (hw : ∀ x, wind (fun y => Real.sin (2 * Real.pi * 4 * y)) (τ.point 0 1 n x) = τ.vector (wind (fun y => Real.sin (2 * Real.pi * 4 * y)) x))
    (hn : 1 ≤ n) (hp : 3 ≤ p) (hcs : cubeStokes n 2 p over 0 1 [0, 1] [] = .ok cs) (htime : 2 ≤ g.timeOrder)
    (hRe : 0 < g.reynolds) (hdt : 0 < g.dt) :
    KeepsInvariant g.timeOrder cs.sem.C (genStep g cs.low cs.sem) (fun u => TurnedVel cs.vmesh [0, 1] 0 1 n τ u u)
      (fun q => Turned cs.pmesh [0, 1] 0 1 n τ q q)
      (fun c => TurnedForce cs.vmesh [0, 1] 0 1 n τ c c ∧ ∀ j, cs.vmesh.numNodes ≤ j → c j = 0) := by
  have hbc : CubeBCs 2 [0, 1] [] := Or.inr rfl
  have hab : (0 : ℝ) < 1 := one_pos
  obtain ⟨vnode, pnode, l, h⟩ := cubeStokes_of hn (by norm_num) hp hab hbc hcs
  have hV := isoVel_iff h hn hp hab hτ
  have hC := isoCovel_iff h hn hp hab hτ
  have hvm := FESpace.build_mesh h.vbuild
  have hsem := h.semIso hn hp hab hbc hcs hτ
  have hCout : ∀ v : Vel ℝ 2, ∀ j, cs.vmesh.numNodes ≤ j → cs.sem.C v j = 0 := by
    intro v j hj
    funext x
    unfold StokesSEM.C StokesSEM.masked
    rw [vScatter_outside _ _ _ (by rw [hvm]; exact hj), mul_zero]
    rfl
  refine ⟨fun u hu => ⟨(hC _ _).mp (hsem.C ((hV u u).mpr hu)), hCout u⟩, fun us ps cus hul hpl hcl hus hps hcus => ?_⟩
  obtain ⟨cu, ul, st, hcu, hlast, hst, hgen⟩ := genStep_runs (g := g) hn hp hcs htime hRe hdt hul hpl hcl (fun c hc => (hcus c hc).2)
  have hcus' : List.Forall₂ (IsoCovel cs.sem (turnMaps cs n τ)) cus cus := List.forall₂_same.mpr fun v hv => (hC v v).mpr (hcus v hv).1
  have hext := extAdvection_iso hsem (g.timeOrder - 1) hcus'
  rw [hcu] at hext
  have hcuS : IsoCovel cs.sem (turnMaps cs n τ) cu cu := by cases hext with | ok h => exact h
  have hulS := hus ul (List.mem_of_getLast? hlast)
  have hfS : TurnedVel cs.vmesh [0, 1] 0 1 n τ (fun p k => genForcing g.drag (cs.sem.vspace.mesh.coords p) (ul p) k)
      (fun p k => genForcing g.drag (cs.sem.vspace.mesh.coords p) (ul p) k) := by
    rw [hvm]
    intro i hi j hj hpt
    have h1 : wind (fun y => Real.sin (2 * Real.pi * 4 * y)) (cs.vmesh.coords j) =
        wind (fun y => Real.sin (2 * Real.pi * 4 * y)) (τ.point 0 1 n (cs.vmesh.coords i)) := by
      funext k
      unfold wind
      rcases hpt 1 with h1 | ⟨h0, z, h1⟩
      · rw [h1]
      · dsimp only
        rw [h1, show 2 * Real.pi * 4 * (τ.point 0 1 n (cs.vmesh.coords i) 1 + z * (1 - 0)) =
          2 * Real.pi * 4 * τ.point 0 1 n (cs.vmesh.coords i) 1 + (4 * z : ℤ) * (2 * Real.pi) by push_cast; ring, Real.sin_add_int_mul_two_pi]
    have h2 : ∀ x u : Fin 2 → ℝ, genForcing g.drag x u = wind (fun y => Real.sin (2 * Real.pi * 4 * y)) x - g.drag • u := by
      intro x u
      funext k
      fin_cases k <;> simp [genForcing, wind]
    have h3 : ∀ x u : Fin 2 → ℝ, τ.vector (x - g.drag • u) = τ.vector x - g.drag • τ.vector u := by
      intro x u
      funext k
      simp [Turn.vector]
      ring
    change genForcing g.drag (cs.vmesh.coords j) (ul j) = τ.vector (genForcing g.drag (cs.vmesh.coords i) (ul i))
    rw [h2, h2, h1, hw, h3, hulS i hi j hj hpt]
  have hF : IsoCovel cs.sem (turnMaps cs n τ)
      (fun p k => -cu p k + cs.sem.B (fun p k => genForcing g.drag (cs.sem.vspace.mesh.coords p) (ul p) k) p k)
      (fun p k => -cu p k + cs.sem.B (fun p k => genForcing g.drag (cs.sem.vspace.mesh.coords p) (ul p) k) p k) := by
    have := hsem.covel₂ hcuS (hsem.B ((hV _ _).mpr hfS)) (-1) 1
    simpa using this
  obtain ⟨r1, r2⟩ := C116_invariant hn (by norm_num) hp hab hbc hcs hτ hus hps ((hC _ _).mp hF) hst
  exact ⟨st.u, st.p, cs.sem.C st.u, hgen, r1, r2, (hC _ _).mp (hsem.C ((hV _ _).mpr r1)), hCout _⟩

theorem genStep_halfTurn (hn : 1 ≤ n) (hp : 3 ≤ p) (hcs : cubeStokes n 2 p over 0 1 [0, 1] [] = .ok cs) (htime : 2 ≤ g.timeOrder)
    (hRe : 0 < g.reynolds) (hdt : 0 < g.dt) :
    KeepsInvariant g.timeOrder cs.sem.C (genStep g cs.low cs.sem) (fun u => TurnedVel cs.vmesh [0, 1] 0 1 n halfTurn u u)
      (fun q => Turned cs.pmesh [0, 1] 0 1 n halfTurn q q)
      (fun c => TurnedForce cs.vmesh [0, 1] 0 1 n halfTurn c c ∧ ∀ j, cs.vmesh.numNodes ≤ j → c j = 0) :=
  genStep_turns halfTurn_keeps (C116_forcing n hn).1 hn hp hcs htime hRe hdt

theorem uInit_halfTurn (mesh : Mesh ℝ 2) : TurnedVel mesh [0, 1] 0 1 n halfTurn (fun j => uInitFn (mesh.coords j)) (fun j => uInitFn (mesh.coords j)) := by
  intro i _ j _ hpt
  rw [halfTurn_vector, ← uInitFn_halfTurn]
  rw [halfTurn_point] at hpt
  exact uInitFn_torus hpt

/-- In terms of points: the velocity at the opposite point is the opposite velocity. -/
def OddFlow (mesh : Mesh ℝ 2) (u : Vel ℝ 2) : Prop :=
  ∀ i < mesh.numNodes, ∀ j < mesh.numNodes, TorusPoint [0, 1] 1 (mesh.coords j) (fun k => 1 - mesh.coords i k) → u j = -u i

theorem turnedVel_odd {mesh : Mesh ℝ 2} {u : Vel ℝ 2} (h : TurnedVel mesh [0, 1] 0 1 n halfTurn u u) : OddFlow mesh u := by
  intro i hi j hj hpt
  rw [← halfTurn_vector]
  exact h i hi j hj (by rw [halfTurn_point, sub_zero]; exact hpt)

/-- Every node has an opposite node. -/
theorem opposite_node {vnode pnode : ℕ → ℕ → ℕ} {l : List ℝ} (h : CubeSEM n 2 p 0 1 [0, 1] [] cs vnode pnode l) (hn : 1 ≤ n) (hp : 3 ≤ p)
    {i : ℕ} (hi : i < cs.vmesh.numNodes) : ∃ j < cs.vmesh.numNodes, TorusPoint [0, 1] 1 (cs.vmesh.coords j) (fun k => 1 - cs.vmesh.coords i k) := by
  have hP := h.vPlaced hp one_pos
  obtain ⟨e, he, x, hx, rfl⟩ := hP.cells.onto i hi
  refine ⟨_, hP.cells.lt _ (place_lt hn halfTurn halfTurn.shift e) _ (hP.local_lt halfTurn x), ?_⟩
  have := hP.cells.turn hn hP.sym halfTurn_keeps he hx
  rw [halfTurn_point, sub_zero] at this
  exact this

theorem maxEntry_spec {N : ℕ} (hN : 1 ≤ N) (u : Vel ℝ 2) : ∃ m, maxEntry N u = some m ∧ (∃ j < N, ∃ k, u j k = m) ∧ ∀ j < N, ∀ k, u j k ≤ m := by
  have hmem : ∀ x, x ∈ ((List.range N).flatMap fun j => (List.finRange 2).map fun k => u j k) ↔ ∃ j < N, ∃ k, u j k = x := by
    intro x
    simp only [List.mem_flatMap, List.mem_range, List.mem_map, List.mem_finRange, true_and]
  unfold maxEntry
  obtain ⟨m, hm⟩ : ∃ m, ((List.range N).flatMap fun j => (List.finRange 2).map fun k => u j k).max? = some m := by
    rw [← Option.isSome_iff_exists, List.isSome_max?_iff]
    intro h
    have := (hmem (u 0 0)).mpr ⟨0, by omega, 0, rfl⟩
    rw [h] at this
    exact absurd this (by simp)
  refine ⟨m, hm, ?_⟩
  rw [List.max?_eq_some_iff] at hm
  exact ⟨(hmem m).mp hm.1, fun j hj k => hm.2 _ ((hmem _).mpr ⟨j, hj, k, rfl⟩)⟩

/-- **C117.** `compute_dx` looks at pairs of nodes of the same element only; on meshes of cubes it returns the distance of the two
closest nodes of the whole mesh, also when distances are measured across periodic boundaries. -/
theorem C117_dx {d : ℕ} {a b : ℝ} {per : List ℕ} {t : NodeType} {mesh : Mesh ℝ d} {masks : List (String × (ℕ → Bool))} (hn : 1 ≤ n) (hd : 1 ≤ d) (hp : 1 ≤ p)
    (ht : t.hasEnds) (hab : a < b) (hm : cubeMesh n d p t a b per = .ok (mesh, masks)) : ∃ dx : ℝ, computeDx mesh = dx ∧ 0 < dx ∧
      (∃ i < mesh.numNodes, ∃ j < mesh.numNodes, pointDistance (mesh.coords i) (mesh.coords j) = dx) ∧
      ∀ i < mesh.numNodes, ∀ j < mesh.numNodes, ∀ y, TorusPoint per (b - a) y (mesh.coords j) →
        y = mesh.coords i ∨ dx ≤ pointDistance (mesh.coords i) y := by
  obtain ⟨mesh', masks', node, h⟩ := cubeMesh_spec hn hd hp ht hab per
  have := h.made
  rw [hm, Except.ok.injEq, Prod.mk.injEq] at this
  obtain ⟨rfl, rfl⟩ := this
  exact h.cells.dx hn

/-- **C117.** Every velocity that `run_simulation` writes is opposite at opposite points, and every pressure is equal there. -/
theorem C117_odd (hn : 1 ≤ n) (hp : 3 ≤ p) (hcs : cubeStokes n 2 p over 0 1 [0, 1] [] = .ok cs) (htime : 2 ≤ g.timeOrder)
    (hRe : 0 < g.reynolds) (hdt : 0 < g.dt) (numCycles stepsPerCycle : ℕ) :
    ∃ files us ps, generate g numCycles stepsPerCycle cs.low cs.sem = (files, .ok (us, ps)) ∧ files.length = numCycles ∧
      ∀ f ∈ files, (∀ u ∈ f.u, OddFlow cs.vmesh u) ∧ ∀ q ∈ f.p, ∀ i < cs.pmesh.numNodes, ∀ j < cs.pmesh.numNodes,
        TorusPoint [0, 1] 1 (cs.pmesh.coords j) (fun k => 1 - cs.pmesh.coords i k) → q j = q i := by
  obtain ⟨files, us, ps, h1, h2, h3⟩ := runSimulation_inv (by omega) (genStep_halfTurn (g := g) hn hp hcs htime hRe hdt) g.dt numCycles stepsPerCycle
    (u0 := fun j => uInitFn (cs.vmesh.coords j)) (p0 := fun _ => 0) (uInit_halfTurn _) (fun _ _ _ _ _ => rfl)
  have hvm : cs.sem.vspace.mesh = cs.vmesh := by
    obtain ⟨vnode, pnode, l, h⟩ := cubeStokes_of hn (by norm_num) hp one_pos (Or.inr rfl : CubeBCs 2 [0, 1] []) hcs
    exact FESpace.build_mesh h.vbuild
  refine ⟨files, us, ps, by unfold generate; rw [hvm]; exact h1, h2, fun f hf => ⟨fun u hu => turnedVel_odd ((h3 f hf).1 u hu), ?_⟩⟩
  intro q hq i hi j hj hpt
  exact (h3 f hf).2 q hq i hi j hj (by rw [halfTurn_point, sub_zero]; exact hpt)

/-- **C117.** So the velocity vanishes in every snapshot at the corners, at the middle and at the middles of the sides of the
square, as far as they are nodes; the corners always are. -/
theorem C117_stagnation (hn : 1 ≤ n) (hp : 3 ≤ p) (hcs : cubeStokes n 2 p over 0 1 [0, 1] [] = .ok cs) (htime : 2 ≤ g.timeOrder)
    (hRe : 0 < g.reynolds) (hdt : 0 < g.dt) (numCycles stepsPerCycle : ℕ) :
    (∃ i < cs.vmesh.numNodes, cs.vmesh.coords i = 0) ∧
    ∀ f ∈ (generate g numCycles stepsPerCycle cs.low cs.sem).1, ∀ u ∈ f.u, ∀ i < cs.vmesh.numNodes,
      (∀ k, cs.vmesh.coords i k = 0 ∨ cs.vmesh.coords i k = 1 / 2 ∨ cs.vmesh.coords i k = 1) → u i = 0 := by
  constructor
  · obtain ⟨vnode, pnode, l, h⟩ := cubeStokes_of hn (by norm_num) hp one_pos (Or.inr rfl : CubeBCs 2 [0, 1] []) hcs
    have hA := h.vcube.cells.toAffCells
    have h0 : 0 < n ^ 2 := Nat.pow_pos (by omega)
    refine ⟨vnode 0 0, hA.lt 0 h0 0 (Nat.pow_pos (by have := hA.points; omega)), ?_⟩
    funext k
    rw [corner_coords h hn h0 k]
    simp [digit]
  · intro f hf u hu i hi hc
    obtain ⟨files, us, ps, h1, h2, h3⟩ := C117_odd (g := g) hn hp hcs htime hRe hdt numCycles stepsPerCycle
    rw [h1] at hf
    have h4 := (h3 f hf).1 u hu i hi i hi (fun k => Or.inr ⟨by fin_cases k <;> simp, ?_⟩)
    · funext k
      have h5 := congrFun h4 k
      simp only [Pi.neg_apply] at h5
      simp only [Pi.zero_apply]
      linarith
    · rcases hc k with h5 | h5 | h5
      · exact ⟨-1, by dsimp only; rw [h5]; norm_num⟩
      · exact ⟨0, by dsimp only; rw [h5]; norm_num⟩
      · exact ⟨1, by dsimp only; rw [h5]; norm_num⟩

/-- The signed maximum of an odd flow is the largest absolute value. -/
theorem cflNumber_odd {us : List (Vel ℝ 2)} {dx : ℝ} (hdx : 0 < dx) (hdt : 0 < g.dt) {mesh : Mesh ℝ 2} (hN : 1 ≤ mesh.numNodes)
    (hopp : ∀ i < mesh.numNodes, ∃ j < mesh.numNodes, TorusPoint [0, 1] 1 (mesh.coords j) (fun k => 1 - mesh.coords i k))
    {u : Vel ℝ 2} (hlast : us.getLast? = some u) (hodd : OddFlow mesh u) : ∃ c, cflNumber g.dt dx mesh.numNodes us = .ok c ∧
      (∀ j < mesh.numNodes, ∀ k, |u j k| * g.dt / dx ≤ c) ∧ ∃ j < mesh.numNodes, ∃ k, |u j k| * g.dt / dx = c := by
  obtain ⟨m, hm, ⟨j, hj, k, hk⟩, hle⟩ := maxEntry_spec hN u
  have habs : ∀ j < mesh.numNodes, ∀ k, |u j k| ≤ m := by
    intro j hj k
    obtain ⟨i, hi, hpt⟩ := hopp j hj
    have h1 := congrFun (hodd j hj i hi hpt) k
    have h2 := hle i hi k
    rw [h1, Pi.neg_apply] at h2
    exact abs_le.mpr ⟨by linarith, hle j hj k⟩
  have hm0 : 0 ≤ m := le_trans (abs_nonneg _) (habs j hj k)
  refine ⟨m * g.dt / dx, ?_, fun j hj k => ?_, j, hj, k, by rw [hk, abs_of_nonneg hm0]⟩
  · unfold cflNumber
    rw [hlast]
    dsimp only
    rw [hm]
  · exact div_le_div_of_nonneg_right (mul_le_mul_of_nonneg_right (habs j hj k) hdt.le) hdx.le

/-- **C117.** `run_simulation` on the unit square, with a number of steps per cycle that is a multiple of ten (so that the last
velocity of a cycle is written): the CFL number logged after each cycle is the largest of the numbers |u| DT / dx over all nodes and
components of the last velocity in the file of the cycle, `dx` being the distance of the two closest nodes. -/
theorem C117_cfl (hn : 1 ≤ n) (hp : 3 ≤ p) (hcs : cubeStokes n 2 p over 0 1 [0, 1] [] = .ok cs) (htime : 2 ≤ g.timeOrder)
    (hRe : 0 < g.reynolds) (hdt : 0 < g.dt) (numCycles : ℕ) {stepsPerCycle : ℕ} (hs : 10 ∣ stepsPerCycle) :
    ∃ files logs r, ∃ dx : ℝ, generateLogged g numCycles stepsPerCycle cs.low cs.sem = (files, logs, .ok r) ∧
      generate g numCycles stepsPerCycle cs.low cs.sem = (files, .ok r) ∧ files.length = numCycles ∧
      computeDx cs.vmesh = dx ∧ 0 < dx ∧ List.Forall₂ (fun f c => ∃ u, f.u.getLast? = some u ∧
        (∀ j < cs.vmesh.numNodes, ∀ k, |u j k| * g.dt / dx ≤ c) ∧ ∃ j < cs.vmesh.numNodes, ∃ k, |u j k| * g.dt / dx = c) files logs := by
  obtain ⟨vnode, pnode, l, h⟩ := cubeStokes_of hn (by norm_num) hp one_pos (Or.inr rfl : CubeBCs 2 [0, 1] []) hcs
  have hvm := FESpace.build_mesh h.vbuild
  have hA := h.vcube.cells.toAffCells
  have hN : 1 ≤ cs.vmesh.numNodes := by
    have := hA.lt 0 (Nat.pow_pos (by omega)) 0 (Nat.pow_pos (by have := hA.points; omega))
    omega
  obtain ⟨dx, h1, h2, _⟩ := h.vcube.cells.dx (per := [0, 1]) hn
  have hlogs : ∀ us : List (Vel ℝ 2), us.length = g.timeOrder → (∀ u ∈ us, TurnedVel cs.vmesh [0, 1] 0 1 n halfTurn u u) →
      ∃ u, us.getLast? = some u ∧ ∃ c, cflNumber g.dt dx cs.vmesh.numNodes us = .ok c ∧
        (∀ j < cs.vmesh.numNodes, ∀ k, |u j k| * g.dt / dx ≤ c) ∧ ∃ j < cs.vmesh.numNodes, ∃ k, |u j k| * g.dt / dx = c := by
    intro us hl hus
    obtain ⟨u, hu⟩ : ∃ u, us.getLast? = some u := by
      rw [List.getLast?_eq_getElem?]
      exact ⟨_, List.getElem?_eq_getElem (by omega)⟩
    exact ⟨u, hu, cflNumber_odd h2 hdt hN (fun i hi => opposite_node h hn hp hi) hu (turnedVel_odd (hus u (List.mem_of_getLast? hu)))⟩
  obtain ⟨files, logs, r, h3, h4, h5, h6⟩ := simLoopLog_inv (by omega) (genStep_halfTurn (g := g) hn hp hcs htime hRe hdt) g.dt hs
    (log := cflNumber g.dt dx cs.vmesh.numNodes) (fun us hl hus => by
      obtain ⟨_, _, c, hc, _⟩ := hlogs us hl hus
      exact ⟨c, hc⟩) numCycles 0
    (List.replicate g.timeOrder fun j => uInitFn (cs.vmesh.coords j)) (List.replicate g.timeOrder fun _ => 0) [] [] (by simp) (by simp)
    (fun u hu => by rw [List.eq_of_mem_replicate hu]; exact uInit_halfTurn _)
    (fun q hq => by rw [List.eq_of_mem_replicate hq]; exact fun _ _ _ _ _ => rfl) List.Forall₂.nil
  refine ⟨files, logs, r, dx, ?_, ?_, by simpa using h5, h1, h2, h6.imp ?_⟩
  · unfold generateLogged
    rw [hvm, h1]
    exact h3
  · unfold generate runSimulation
    rw [hvm]
    exact h4
  · rintro f c ⟨us, hl, hus, hlast, hc⟩
    obtain ⟨u, hu, c', hc', hr⟩ := hlogs us hl hus
    rw [hc', Except.ok.injEq] at hc
    subst hc
    exact ⟨u, hlast ▸ hu, hr⟩

/-- **C117.** It is the symmetry that makes the logged number right: a flow without it may have any CFL number, the logged one can
be negative. -/
theorem C117_signed {N : ℕ} (hN : 1 ≤ N) {DT dx : ℝ} (hDT : 0 < DT) (hdx : 0 < dx) (us : List (Vel ℝ 2)) {V : ℝ} (hV : 0 < V) : ∃ c,
    cflNumber DT dx N (us ++ [fun _ _ => -V]) = .ok c ∧ c < 0 ∧ 0 < |(-V)| * DT / dx := by
  obtain ⟨m, hm, ⟨j, hj, k, hk⟩, _⟩ := maxEntry_spec hN (fun _ _ => -V)
  refine ⟨m * DT / dx, ?_, ?_, ?_⟩
  · unfold cflNumber
    rw [List.getLast?_concat]
    dsimp only
    rw [hm]
  · rw [← hk]
    exact div_neg_of_neg_of_pos (by nlinarith) hdx
  · rw [abs_neg, abs_of_pos hV]
    positivity

/-- The constants of the code (lines 47-54) meet the hypotheses. -/
example : ∃ cs, cubeStokes 64 2 8 2 0 1 [0, 1] [] = .ok cs ∧ ∃ files logs r, generateLogged genConsts 500 500 cs.low cs.sem = (files, logs, .ok r) ∧
    files.length = 500 ∧ logs.length = 500 := by
  obtain ⟨cs, hcs⟩ := C92_create (over := 2) (n := 64) (d := 2) (p := 8) (a := 0) (b := 1) (by norm_num) (by norm_num)
    (by norm_num) (by norm_num) [0, 1] (bcs := []) (Or.inr rfl)
  obtain ⟨files, logs, r, dx, h1, _, h2, _, _, h3⟩ := C117_cfl (g := genConsts) (by norm_num) (by norm_num) hcs (by norm_num [genConsts])
    (by norm_num [genConsts]) (by norm_num [genConsts]) 500 (stepsPerCycle := 500) (by norm_num)
  exact ⟨cs, hcs, files, logs, r, h1, h2, by rw [← h3.length_eq, h2]⟩

end Verif.Niles

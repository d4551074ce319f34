import Mathlib.Data.List.TakeDrop
import Verif.Model.DatagenCrash
import Verif.Props.C58

/-!
# C120: the files of the data generator after crashes

Processes of the generator are killed at arbitrary points and started again.
-/

namespace Verif.Niles

variable {K U P C B : Type*} [Ring K]

/-- Names of files of different cycles are different. -/
theorem genFileName_inj {R O a b a' b' : ℕ} (h : genFileName R O a b = genFileName R O a' b') : a = a' ∧ b = b' := by
  unfold genFileName at h
  have h1 := congrArg String.toList h
  simp only [String.toList_append, Nat.toList_repr, List.append_assoc, List.append_cancel_left_eq] at h1
  have key : ∀ {c : Char} {x y : ℕ} {r r' : List Char}, c ∉ Nat.toDigits 10 x → c ∉ Nat.toDigits 10 y →
      Nat.toDigits 10 x ++ c :: r = Nat.toDigits 10 y ++ c :: r' → x = y ∧ r = r' := by
    intro c x y r r' hx hy e
    have ht : ∀ (l : List Char) (r : List Char), c ∉ l → (l ++ c :: r).takeWhile (fun d => d ≠ c) = l := by
      intro l r hl
      induction l with
      | nil => simp
      | cons d l ih =>
        simp only [List.mem_cons, not_or] at hl
        rw [List.cons_append, List.takeWhile_cons_of_pos (by simpa using fun h => hl.1 h.symm), ih hl.2]
    have e1 : Nat.toDigits 10 x = Nat.toDigits 10 y := by rw [← ht _ r hx, e, ht _ r' hy]
    refine ⟨by rw [← Nat.ofDigitChars_ten_toDigits (n := x), e1, Nat.ofDigitChars_ten_toDigits], ?_⟩
    rw [e1] at e
    simpa using e
  have hdot : ∀ n, '.' ∉ Nat.toDigits 10 n := by
    intro n hn
    have := Nat.isDigit_of_mem_toDigits (by norm_num) (by norm_num) hn
    revert this; decide
  obtain ⟨e1, e2⟩ := key Nat.underscore_not_in_toDigits Nat.underscore_not_in_toDigits h1
  exact ⟨e1, (key (hdot _) (hdot _) e2).1⟩

variable (DT : K) (conv : U → C) (solve : List U → List P → List C → Except GenError (U × P × C))

theorem genCycle_cases (start n : ℕ) (us : List U) (ps : List P) :
    (∃ e, ∀ dir, oneCycle DT conv solve start n us ps dir = (dir, .error e)) ∨
    ∃ f us' ps', f.first = start ∧ f.last = start + n ∧
      ∀ dir, oneCycle DT conv solve start n us ps dir = (dir ++ [f], .ok (us', ps')) := by
  cases h : cycleLoop DT solve n 1 ⟨start * DT, us, ps, us.map conv, [start * DT], lastSlice us, lastSlice ps⟩ with
  | error e => exact Or.inl ⟨e, fun _ => by simp only [oneCycle, h]⟩
  | ok v => exact Or.inr ⟨⟨start, start + n, v.dt, v.du, v.dp⟩, v.us, v.ps, rfl, rfl, fun _ => by simp only [oneCycle, h]⟩

theorem genLoop_prefix (timeOrder s : ℕ) : ∀ (n idx : ℕ) (us : List U) (ps : List P) (dir : List (GenFile K U P)),
    dir <+: (simLoop DT timeOrder s conv solve n idx us ps dir).1
  | 0, idx, us, ps, dir => List.prefix_refl _
  | n + 1, idx, us, ps, dir => by
    rw [simLoop]
    split_ifs with h0
    · exact List.prefix_refl _
    rcases genCycle_cases DT conv solve (idx * s) s us ps with ⟨e, he⟩ | ⟨f, us', ps', h1, h2, hf⟩
    · rw [he]
    · rw [hf]
      exact (List.prefix_append _ _).trans (genLoop_prefix timeOrder s n (idx + 1) us' ps' (dir ++ [f]))

theorem genLoop_files (timeOrder s : ℕ) : ∀ (n idx : ℕ) (us : List U) (ps : List P) (dir : List (GenFile K U P)),
    dir.length = idx → (∀ j F, dir[j]? = some F → F.first = j * s ∧ F.last = j * s + s) →
    (∀ j F, (simLoop DT timeOrder s conv solve n idx us ps dir).1[j]? = some F → F.first = j * s ∧ F.last = j * s + s) ∧
    ((∃ r, (simLoop DT timeOrder s conv solve n idx us ps dir).2 = .ok r) →
      (simLoop DT timeOrder s conv solve n idx us ps dir).1.length = idx + n)
  | 0, idx, us, ps, dir, hl, hd => ⟨hd, fun _ => by simpa [simLoop] using hl⟩
  | n + 1, idx, us, ps, dir, hl, hd => by
    rw [simLoop]
    split_ifs with h0
    · exact ⟨hd, fun ⟨r, hr⟩ => by cases hr⟩
    rcases genCycle_cases DT conv solve (idx * s) s us ps with ⟨e, he⟩ | ⟨f, us', ps', h1, h2, hf⟩
    · rw [he]
      exact ⟨hd, fun ⟨r, hr⟩ => by cases hr⟩
    · rw [hf]
      have hl' : (dir ++ [f]).length = idx + 1 := by simp [hl]
      obtain ⟨g2, g3⟩ := genLoop_files timeOrder s n (idx + 1) us' ps' (dir ++ [f]) hl' (by
        intro j F hj
        rcases lt_trichotomy j dir.length with hlt | heq | hgt
        · rw [List.getElem?_append_left hlt] at hj
          exact hd j F hj
        · subst heq
          rw [List.getElem?_concat_length] at hj
          cases hj
          rw [hl]
          exact ⟨h1, h2⟩
        · rw [List.getElem?_eq_none (by simp; omega)] at hj
          cases hj)
      refine ⟨g2, fun hr => ?_⟩
      rw [g3 hr]; omega

/-- A generator's file is on the disk, whole. -/
def FileComplete (r : GenRun K U P C B) (disk : GenDisk B) (F : GenFile K U P) : Prop := disk (r.nameOf F) = some (r.ser F)

/-- What is known of a process. -/
def GenProcInv (r : GenRun K U P C B) (disk : GenDisk B) (p : GenProc U P B) : Prop :=
  ∃ dir : List (GenFile K U P), dir.length = p.idx ∧ (∀ F ∈ dir, FileComplete r disk F) ∧
    match p.phase with
    | .between => p.idx ≤ r.numCycles ∧
        simLoop r.DT r.timeOrder r.stepsPerCycle r.conv r.solve (r.numCycles - p.idx) p.idx p.us p.ps dir = r.run
    | .writing name todo => p.idx < r.numCycles ∧ ∃ (F : GenFile K U P) (written : List B), name = r.nameOf F ∧
        r.ser F = written ++ todo ∧ disk name = some written ∧ F.first = p.idx * r.stepsPerCycle ∧
        F.last = p.idx * r.stepsPerCycle + r.stepsPerCycle ∧
        simLoop r.DT r.timeOrder r.stepsPerCycle r.conv r.solve (r.numCycles - (p.idx + 1)) (p.idx + 1) p.us p.ps (dir ++ [F]) =
          r.run
    | .done => dir = r.run.1 ∧ r.run.2 = .ok (p.us, p.ps)
    | .failed => dir = r.run.1 ∧ ∃ e, r.run.2 = .error e

/-- What is known of the disk. -/
def GenDiskInv (r : GenRun K U P C B) (disk0 disk : GenDisk B) : Prop :=
  ∀ name, disk name = disk0 name ∨
    ∃ F ∈ r.run.1, name = r.nameOf F ∧ ∃ k, disk name = some ((r.ser F).take k)

theorem genRun_files (r : GenRun K U P C B) :
    (∀ j F, r.run.1[j]? = some F → F.first = j * r.stepsPerCycle ∧ F.last = j * r.stepsPerCycle + r.stepsPerCycle) ∧
    ((∃ x, r.run.2 = .ok x) → r.run.1.length = r.numCycles) := by
  obtain ⟨h2, h3⟩ := genLoop_files r.DT r.conv r.solve r.timeOrder r.stepsPerCycle r.numCycles 0
    (List.replicate r.timeOrder r.uInit) (List.replicate r.timeOrder r.pInit) [] rfl (by simp)
  exact ⟨h2, fun h => by rw [Nat.zero_add] at h3; exact h3 h⟩

theorem genStart_inv (r : GenRun K U P C B) (disk : GenDisk B) : GenProcInv r disk r.start :=
  ⟨[], rfl, by simp, Nat.zero_le _, rfl⟩

theorem genTick_inv (r : GenRun K U P C B) (hs : 0 < r.stepsPerCycle) (disk0 disk : GenDisk B) (p : GenProc U P B)
    (hp : GenProcInv r disk p) (hd : GenDiskInv r disk0 disk) :
    GenProcInv r (r.tick disk p).1 (r.tick disk p).2 ∧ GenDiskInv r disk0 (r.tick disk p).1 := by
  obtain ⟨idx, us, ps, phase⟩ := p
  obtain ⟨dir, hlen, hdir, hph⟩ := hp
  simp only at hlen hph
  have hother : ∀ {D : List (GenFile K U P)}, D <+: r.run.1 → ∀ F ∈ D, ∀ G : GenFile K U P,
      G.first = D.length * r.stepsPerCycle → r.nameOf F ≠ r.nameOf G := by
    intro D hD F hF G hG e
    obtain ⟨j, hj⟩ := List.mem_iff_getElem?.mp hF
    have hjl : j < D.length := (List.getElem?_eq_some_iff.mp hj).1
    have h1 : r.run.1[j]? = some F := by
      obtain ⟨t, ht⟩ := hD
      rw [← ht, List.getElem?_append_left hjl, hj]
    have h2 := (genFileName_inj e).1
    rw [((genRun_files r).1 j F h1).1, hG] at h2
    exact absurd (Nat.eq_of_mul_eq_mul_right hs h2) (by omega)
  cases phase with
  | done => exact ⟨⟨dir, hlen, hdir, hph⟩, hd⟩
  | failed => exact ⟨⟨dir, hlen, hdir, hph⟩, hd⟩
  | between =>
    obtain ⟨hle, hsim⟩ := hph
    simp only [GenRun.tick]
    split_ifs with h0 h1
    · obtain ⟨n, hn⟩ : ∃ n, r.numCycles - idx = n + 1 := ⟨r.numCycles - idx - 1, by omega⟩
      rw [hn, simLoop, if_pos h1] at hsim
      exact ⟨⟨dir, hlen, hdir, by rw [← hsim], _, by rw [← hsim]⟩, hd⟩
    · obtain ⟨n, hn⟩ : ∃ n, r.numCycles - idx = n + 1 := ⟨r.numCycles - idx - 1, by omega⟩
      rw [hn, simLoop, if_neg h1] at hsim
      rcases genCycle_cases r.DT r.conv r.solve (idx * r.stepsPerCycle) r.stepsPerCycle us ps with
        ⟨e, he⟩ | ⟨f, us', ps', hf1, hf2, hf⟩
      · rw [he] at hsim
        rw [he]
        exact ⟨⟨dir, hlen, hdir, by rw [← hsim], _, by rw [← hsim]⟩, hd⟩
      · rw [hf] at hsim
        rw [hf]
        simp only [List.nil_append]
        have hpre : dir ++ [f] <+: r.run.1 := by rw [← hsim]; exact genLoop_prefix _ _ _ _ _ _ _ _ _ _
        refine ⟨⟨dir, hlen, fun F hF => ?_, h0, f, [], rfl, rfl, Function.update_self .., hf1, hf2, ?_⟩, fun name => ?_⟩
        · unfold FileComplete
          rw [Function.update_of_ne (hother ((List.prefix_append _ _).trans hpre) F hF f (by rw [hlen]; exact hf1))]
          exact hdir F hF
        · rw [show r.numCycles - (idx + 1) = n by omega]
          exact hsim
        · by_cases hn : name = r.nameOf f
          · subst hn
            exact Or.inr ⟨f, hpre.subset (by simp), rfl, 0, by rw [Function.update_self]; rfl⟩
          · rw [Function.update_of_ne hn]
            exact hd name
    · have hn : r.numCycles - idx = 0 := by omega
      rw [hn, simLoop] at hsim
      exact ⟨⟨dir, hlen, hdir, by rw [← hsim], by rw [← hsim]⟩, hd⟩
  | writing name todo =>
    obtain ⟨hlt, F, written, rfl, hser, hdisk, hf1, hf2, hsim⟩ := hph
    have hpre : dir ++ [F] <+: r.run.1 := by rw [← hsim]; exact genLoop_prefix _ _ _ _ _ _ _ _ _ _
    cases todo with
    | nil =>
      rw [List.append_nil] at hser
      refine ⟨⟨dir ++ [F], by simp [hlen, GenRun.tick], fun G hG => ?_, hlt, hsim⟩, hd⟩
      rw [List.mem_append, List.mem_singleton] at hG
      rcases hG with hG | rfl
      · exact hdir G hG
      · unfold FileComplete
        rw [hser]
        exact hdisk
    | cons b todo =>
      simp only [GenRun.tick, hdisk, Option.getD_some]
      refine ⟨⟨dir, hlen, fun G hG => ?_, hlt, F, written ++ [b], rfl, by rw [hser]; simp, Function.update_self .., hf1, hf2, hsim⟩,
        fun name => ?_⟩
      · unfold FileComplete
        rw [Function.update_of_ne (hother ((List.prefix_append _ _).trans hpre) G hG F (by rw [hlen]; exact hf1))]
        exact hdir G hG
      · by_cases hn : name = r.nameOf F
        · subst hn
          refine Or.inr ⟨F, hpre.subset (by simp), rfl, written.length + 1, ?_⟩
          rw [Function.update_self, hser, show written ++ b :: todo = (written ++ [b]) ++ todo by simp,
            List.take_left' (by simp)]
        · rw [Function.update_of_ne hn]
          exact hd name

theorem genReachable_inv (r : GenRun K U P C B) (hs : 0 < r.stepsPerCycle) (disk0 : GenDisk B) {sys : GenSys U P B}
    (h : GenReachable r disk0 sys) : GenDiskInv r disk0 sys.disk ∧ ∀ p, sys.proc = some p → GenProcInv r sys.disk p := by
  induction h with
  | init => exact ⟨fun _ => Or.inl rfl, fun p hp => by cases hp⟩
  | start _ ih => exact ⟨ih.1, fun p hp => by cases hp; exact genStart_inv r _⟩
  | tick _ ih =>
    obtain ⟨h1, h2⟩ := genTick_inv r hs disk0 _ _ (ih.2 _ rfl) ih.1
    exact ⟨h2, fun p hp => by cases hp; exact h1⟩
  | crash _ ih => exact ⟨ih.1, fun p hp => by cases hp⟩

/-- After every crash history, when a process ends normally the directory holds every file of the uninterrupted run, whole, and
all other files are as they were before; and a process ends normally only if the uninterrupted run does. -/
theorem C120_rerun (r : GenRun K U P C B) (hs : 0 < r.stepsPerCycle) (disk0 : GenDisk B) {disk : GenDisk B} {p : GenProc U P B}
    (h : GenReachable r disk0 ⟨disk, some p⟩) (hp : p.phase = .done) :
    r.run.2 = .ok (p.us, p.ps) ∧ (∀ F ∈ r.run.1, disk (r.nameOf F) = some (r.ser F)) ∧
      ∀ name, (∀ F ∈ r.run.1, name ≠ r.nameOf F) → disk name = disk0 name := by
  obtain ⟨hd, hpr⟩ := genReachable_inv r hs disk0 h
  obtain ⟨dir, _, hdir, hph⟩ := hpr p rfl
  rw [hp] at hph
  refine ⟨hph.2, by rw [← hph.1]; exact hdir, fun name hn => ?_⟩
  rcases hd name with h | ⟨F, hF, h, _⟩
  · exact h
  · exact absurd h (hn F hF)

/-- Ticks of a process that is left alone. -/
def GenRun.ticks (r : GenRun K U P C B) (m : ℕ) (s : GenDisk B × GenProc U P B) : GenDisk B × GenProc U P B :=
  (fun s => r.tick s.1 s.2)^[m] s

theorem genTicks_add (r : GenRun K U P C B) (m n : ℕ) (s : GenDisk B × GenProc U P B) :
    r.ticks (m + n) s = r.ticks m (r.ticks n s) := Function.iterate_add_apply _ m n s

theorem genTicks_reachable (r : GenRun K U P C B) (disk0 : GenDisk B) (s : GenDisk B × GenProc U P B)
    (h : GenReachable r disk0 ⟨s.1, some s.2⟩) (m : ℕ) : GenReachable r disk0 ⟨(r.ticks m s).1, some (r.ticks m s).2⟩ := by
  induction m with
  | zero => exact h
  | succ m ih =>
    unfold GenRun.ticks
    rw [Function.iterate_succ_apply']
    exact ih.tick

theorem genWrite_ticks (r : GenRun K U P C B) (name : String) (idx : ℕ) (us : List U) (ps : List P) (b : List B) :
    ∀ (a w : List B) (disk : GenDisk B), disk name = some w →
      ∃ disk', r.ticks a.length (disk, ⟨idx, us, ps, .writing name (a ++ b)⟩) = (disk', ⟨idx, us, ps, .writing name b⟩) ∧
        disk' name = some (w ++ a)
  | [], w, disk, h => ⟨disk, rfl, by rw [List.append_nil]; exact h⟩
  | x :: a, w, disk, h => by
    obtain ⟨disk', h1, h2⟩ := genWrite_ticks r name idx us ps b a (w ++ [x]) (Function.update disk name (some (w ++ [x])))
      (Function.update_self ..)
    refine ⟨disk', ?_, by rw [h2]; simp⟩
    rw [List.length_cons, genTicks_add, ← h1]
    congr 1
    simp [GenRun.ticks, GenRun.tick, h]

theorem genCycle_ticks (r : GenRun K U P C B) (disk : GenDisk B) (us : List U) (ps : List P) (dir : List (GenFile K U P))
    (hsim : simLoop r.DT r.timeOrder r.stepsPerCycle r.conv r.solve (r.numCycles - dir.length) dir.length us ps dir = r.run)
    (hlt : dir.length < r.run.1.length) :
    ∃ F us' ps', r.run.1[dir.length]? = some F ∧
      simLoop r.DT r.timeOrder r.stepsPerCycle r.conv r.solve (r.numCycles - (dir.length + 1)) (dir.length + 1) us' ps' (dir ++ [F]) =
        r.run ∧
      ∀ k ≤ (r.ser F).length, ∃ m disk', r.ticks m (disk, ⟨dir.length, us, ps, .between⟩) =
          (disk', ⟨dir.length, us', ps', .writing (r.nameOf F) ((r.ser F).drop k)⟩) ∧
        disk' (r.nameOf F) = some ((r.ser F).take k) := by
  have hN : dir.length < r.numCycles := by
    by_contra hN
    rw [show r.numCycles - dir.length = 0 by omega, simLoop] at hsim
    rw [← hsim] at hlt
    exact absurd hlt (lt_irrefl _)
  obtain ⟨n, hn⟩ : ∃ n, r.numCycles - dir.length = n + 1 := ⟨r.numCycles - dir.length - 1, by omega⟩
  rw [hn, simLoop] at hsim
  split_ifs at hsim with h1
  · rw [← hsim] at hlt
    exact absurd hlt (lt_irrefl _)
  rcases genCycle_cases r.DT r.conv r.solve (dir.length * r.stepsPerCycle) r.stepsPerCycle us ps with
    ⟨e, he⟩ | ⟨f, us', ps', hf1, hf2, hf⟩
  · rw [he] at hsim
    rw [← hsim] at hlt
    exact absurd hlt (lt_irrefl _)
  rw [hf] at hsim
  have hpre : dir ++ [f] <+: r.run.1 := by rw [← hsim]; exact genLoop_prefix _ _ _ _ _ _ _ _ _ _
  refine ⟨f, us', ps', ?_, by rw [show r.numCycles - (dir.length + 1) = n by omega]; exact hsim, fun k hk => ?_⟩
  · obtain ⟨t, ht⟩ := hpre
    rw [← ht, List.append_assoc]
    simp
  · obtain ⟨disk', g1, g2⟩ := genWrite_ticks r (r.nameOf f) dir.length us' ps' ((r.ser f).drop k) ((r.ser f).take k) []
      (Function.update disk (r.nameOf f) (some [])) (Function.update_self ..)
    refine ⟨((r.ser f).take k).length + 1, disk', ?_, by rw [g2, List.nil_append]⟩
    rw [genTicks_add, ← g1, List.take_append_drop]
    congr 1
    simp only [GenRun.ticks, Function.iterate_one, GenRun.tick]
    rw [if_pos hN, if_neg h1, hf]
    simp

theorem genRun_ticks (r : GenRun K U P C B) (disk : GenDisk B) : ∀ j ≤ r.run.1.length, ∃ m disk' us ps dir, dir.length = j ∧
    r.ticks m (disk, r.start) = (disk', ⟨j, us, ps, .between⟩) ∧
    simLoop r.DT r.timeOrder r.stepsPerCycle r.conv r.solve (r.numCycles - j) j us ps dir = r.run
  | 0, _ => ⟨0, disk, _, _, [], rfl, rfl, rfl⟩
  | j + 1, hj => by
    obtain ⟨m, disk', us, ps, dir, rfl, h1, h2⟩ := genRun_ticks r disk j (by omega)
    obtain ⟨F, us', ps', _, h3, h4⟩ := genCycle_ticks r disk' us ps dir h2 (by omega)
    obtain ⟨m', disk'', h5, _⟩ := h4 (r.ser F).length le_rfl
    rw [List.drop_length] at h5
    exact ⟨1 + (m' + m), disk'', us', ps', dir ++ [F], by simp, by rw [genTicks_add, genTicks_add, h1, h5]; rfl, h3⟩

/-- Started after any crash history, a process that is left alone ends normally, if the uninterrupted run does, and then the
directory is that of a run without crashes. -/
theorem C120_finishes (r : GenRun K U P C B) (hs : 0 < r.stepsPerCycle) (disk0 : GenDisk B) {disk : GenDisk B}
    (h : GenReachable r disk0 ⟨disk, none⟩) {x : List U × List P} (hr : r.run.2 = .ok x) :
    ∃ m, (r.ticks m (disk, r.start)).2.phase = .done ∧
      (∀ F ∈ r.run.1, (r.ticks m (disk, r.start)).1 (r.nameOf F) = some (r.ser F)) ∧
      ∀ name, (∀ F ∈ r.run.1, name ≠ r.nameOf F) → (r.ticks m (disk, r.start)).1 name = disk0 name := by
  have hN := (genRun_files r).2 ⟨x, hr⟩
  obtain ⟨m, disk', us, ps, dir, _, h1, _⟩ := genRun_ticks r disk r.numCycles hN.ge
  have hdone : (r.ticks (1 + m) (disk, r.start)).2.phase = .done := by
    rw [genTicks_add, h1]
    simp [GenRun.ticks, GenRun.tick]
  exact ⟨1 + m, hdone, (C120_rerun r hs disk0 (genTicks_reachable r disk0 (disk, r.start) h.start (1 + m)) hdone).2⟩

/-- In every reachable state: a running process has completed the files of the cycles before its own; every file on the disk is
one that was there before, or the beginning of the file of the uninterrupted run with this name. Missing: that it is the whole
file. -/
theorem C120_partial (r : GenRun K U P C B) (hs : 0 < r.stepsPerCycle) (disk0 : GenDisk B) {sys : GenSys U P B}
    (h : GenReachable r disk0 sys) :
    (∀ name, sys.disk name = disk0 name ∨
      ∃ F ∈ r.run.1, name = r.nameOf F ∧ ∃ k, sys.disk name = some ((r.ser F).take k)) ∧
    ∀ p, sys.proc = some p → ∀ j < p.idx, ∃ F, r.run.1[j]? = some F ∧ F.first = j * r.stepsPerCycle ∧
      sys.disk (r.nameOf F) = some (r.ser F) := by
  obtain ⟨hd, hpr⟩ := genReachable_inv r hs disk0 h
  refine ⟨hd, fun p hp j hj => ?_⟩
  obtain ⟨dir, hl, hdir, hph⟩ := hpr p hp
  have hpre : dir <+: r.run.1 := by
    rcases hphase : p.phase with _ | ⟨name, todo⟩ | _ | _ <;> rw [hphase] at hph
    · rw [← hph.2]; exact genLoop_prefix _ _ _ _ _ _ _ _ _ _
    · obtain ⟨_, F, _, _, _, _, _, _, hsim⟩ := hph
      rw [← hsim]
      exact (List.prefix_append _ _).trans (genLoop_prefix _ _ _ _ _ _ _ _ _ _)
    · rw [← hph.1]
    · rw [← hph.1]
  have hjl : j < dir.length := by omega
  have h1 : r.run.1[j]? = some dir[j] := by
    obtain ⟨t, ht⟩ := hpre
    rw [← ht, List.getElem?_append_left hjl, List.getElem?_eq_getElem hjl]
  exact ⟨dir[j], h1, ((genRun_files r).1 j _ h1).1, hdir _ (List.getElem_mem hjl)⟩

/-- **C120** is false: for every file of the run and every number of bytes up to its size there is a crash after which the file is
on the disk with that many bytes, and no process is running. -/
theorem C120_violated (r : GenRun K U P C B) (disk0 : GenDisk B) (F : GenFile K U P) (hF : F ∈ r.run.1)
    (k : ℕ) (hk : k ≤ (r.ser F).length) :
    ∃ disk, GenReachable r disk0 ⟨disk, none⟩ ∧ disk (r.nameOf F) = some ((r.ser F).take k) := by
  obtain ⟨j, hj⟩ := List.mem_iff_getElem?.mp hF
  have hjl : j < r.run.1.length := (List.getElem?_eq_some_iff.mp hj).1
  obtain ⟨m, disk', us, ps, dir, rfl, h1, h2⟩ := genRun_ticks r disk0 j hjl.le
  obtain ⟨F', us', ps', h3, _, h4⟩ := genCycle_ticks r disk' us ps dir h2 hjl
  obtain rfl : F' = F := by rw [hj] at h3; exact (Option.some.inj h3).symm
  obtain ⟨m', disk'', h5, h6⟩ := h4 k hk
  have := genTicks_reachable r disk0 (disk0, r.start) GenReachable.init.start (m' + m)
  rw [genTicks_add, h1, h5] at this
  exact ⟨disk'', this.crash, h6⟩

/-- Three cycles of twenty steps of a counter, in a directory with another file. -/
example : ∃ (r : GenRun ℤ ℤ ℤ ℤ ℤ) (disk0 : GenDisk ℤ), 0 < r.stepsPerCycle ∧ r.numCycles = 3 ∧ disk0 "notes" = some [1] ∧
    (∃ x, r.run.2 = .ok x) ∧ r.run.1.length = 3 ∧ ∃ F ∈ r.run.1, F.u = [0, 10, 20] ∧ (r.ser F).length = 3 := by
  have h := C58_partial (K := ℤ) (1 : ℤ) 2 3 20 (by norm_num) id (fun us ps _ => (us.getLastD 0 + 1, ps.getLastD 0)) (0 : ℤ) (0 : ℤ)
  refine ⟨⟨1, 64, 8, 2, 3, 20, id, goodSolve (fun us ps _ => (us.getLastD 0 + 1, ps.getLastD 0)) id, 0, 0, GenFile.u⟩,
    fun n => if n = "notes" then some [1] else none, by norm_num, rfl, if_pos rfl, ⟨_, congrArg Prod.snd h.1⟩, ?_, ?_⟩
  · unfold GenRun.run
    rw [h.1]
    simp
  · unfold GenRun.run
    rw [h.1]
    exact ⟨_, List.mem_map_of_mem (List.mem_range.mpr (by norm_num : 0 < 3)), by decide, by decide⟩

end Verif.Niles

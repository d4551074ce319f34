import Verif.Model.PScan
import Verif.Lemmas.Groups

/-! Correctness of the fan-in / fan-out scheme. -/

namespace Verif.Comm

variable {α : Type*}

/-- `op` is a monoid operation with identity `unit` on the set `S`. -/
structure IsMonoidOn (S : α → Prop) (op : α → α → α) (unit : α) : Prop where
  unit_mem : S unit
  op_mem : ∀ a b, S a → S b → S (op a b)
  assoc : ∀ a b c, S a → S b → S c → op (op a b) c = op a (op b c)
  left_id : ∀ a, S a → op unit a = a
  right_id : ∀ a, S a → op a unit = a

/-- Combination of `x a, ..., x (b-1)` in order. -/
def seg (op : α → α → α) (unit : α) (x : ℕ → α) (a b : ℕ) : α :=
  ((List.range' a (b - a)).map x).foldl op unit

section
variable {S : α → Prop} {op : α → α → α} {unit : α} (hm : IsMonoidOn S op unit)
include hm

theorem foldl_mem (l : List α) (hl : ∀ a ∈ l, S a) (u : α) (hu : S u) : S (l.foldl op u) := by
  induction l generalizing u with
  | nil => exact hu
  | cons a l ih =>
    exact ih (fun b hb => hl b (by simp [hb])) _ (hm.op_mem _ _ hu (hl a (by simp)))

theorem foldl_eq (l : List α) (hl : ∀ a ∈ l, S a) (u : α) (hu : S u) :
    l.foldl op u = op u (l.foldl op unit) := by
  induction l generalizing u with
  | nil => simp [hm.right_id u hu]
  | cons a l ih =>
    have ha : S a := hl a (by simp)
    have hl' : ∀ b ∈ l, S b := fun b hb => hl b (by simp [hb])
    simp only [List.foldl_cons]
    rw [ih hl' _ (hm.op_mem _ _ hu ha), ih hl' _ (hm.op_mem _ _ hm.unit_mem ha), hm.left_id a ha,
      hm.assoc u a _ hu ha (foldl_mem hm l hl' _ hm.unit_mem)]

theorem seg_mem {x : ℕ → α} (hx : ∀ i, S (x i)) (a b : ℕ) : S (seg op unit x a b) := by
  apply foldl_mem hm _ _ _ hm.unit_mem
  intro c hc
  obtain ⟨i, -, rfl⟩ := List.mem_map.1 hc
  exact hx i

theorem seg_append {x : ℕ → α} (hx : ∀ i, S (x i)) {a b c : ℕ} (hab : a ≤ b) (hbc : b ≤ c) :
    op (seg op unit x a b) (seg op unit x b c) = seg op unit x a c := by
  have e : List.range' a (c - a) = List.range' a (b - a) ++ List.range' b (c - b) := by
    have h1 : c - a = (b - a) + (c - b) := by omega
    have h2 : b = a + 1 * (b - a) := by omega
    conv_rhs => rw [h2]
    rw [h1, ← List.range'_append]
    congr 2 <;> omega
  unfold seg
  rw [e, List.map_append, List.foldl_append]
  symm
  apply foldl_eq hm
  · intro d hd
    obtain ⟨i, -, rfl⟩ := List.mem_map.1 hd
    exact hx i
  · exact seg_mem hm hx a b

theorem seg_single {x : ℕ → α} (hx : ∀ i, S (x i)) (a : ℕ) : seg op unit x a (a + 1) = x a := by
  simp [seg, hm.left_id _ (hx a)]

end

/-! ### shape of a stage -/

theorem baseHi_congr {n base : ℕ → ℕ} {i j : ℕ} (h1 : base j = base i) (h2 : n j = n i) :
    baseHi n base j = baseHi n base i := by
  unfold baseHi nLo; rw [h1, h2]

theorem isBaseHi_iff {n base : ℕ → ℕ} {i : ℕ} :
    (scanStage n base).isBaseHi i = true ↔ 1 < n i ∧ i = baseHi n base i := by
  simp only [scanStage, Bool.and_eq_true, decide_eq_true_eq]

theorem isBaseLo_iff {n base : ℕ → ℕ} {i : ℕ} :
    (scanStage n base).isBaseLo i = true ↔ 1 < n i ∧ i = base i := by
  simp only [scanStage, Bool.and_eq_true, decide_eq_true_eq]

theorem isBaseHi_false {n base : ℕ → ℕ} {i : ℕ} (h : ¬ (1 < n i ∧ i = baseHi n base i)) :
    (scanStage n base).isBaseHi i = false := by
  rw [Bool.eq_false_iff]; exact fun e => h (isBaseHi_iff.1 e)

theorem isBaseLo_false {n base : ℕ → ℕ} {i : ℕ} (h : ¬ (1 < n i ∧ i = base i)) :
    (scanStage n base).isBaseLo i = false := by
  rw [Bool.eq_false_iff]; exact fun e => h (isBaseLo_iff.1 e)

section
variable {P : ℕ} {n base : ℕ → ℕ} (h : GroupInv P n base)
include h

theorem scanStage_target_lt : ∀ i < P, (scanStage n base).target i < P := by
  intro i hi
  have h1 := h.base_le i hi
  have h2 := h.lt_end i hi
  have h3 := h.end_le i hi
  simp only [scanStage, baseHi, nLo, Bool.and_eq_true, decide_eq_true_eq]
  split_ifs <;> omega

theorem scanStage_target_inv :
    ∀ i < P, (scanStage n base).target ((scanStage n base).target i) = i := by
  intro i hi
  have h1 := h.base_le i hi
  have h2 := h.lt_end i hi
  have h3 := h.end_le i hi
  have hb := h.same i hi (base i) le_rfl (by omega)
  have hh := fun hlt => h.same i hi (baseHi n base i) (by unfold baseHi; omega) hlt
  have T : ∀ j, (scanStage n base).target j = if 1 < n j ∧ j = baseHi n base j then base j
      else if 1 < n j ∧ j = base j then baseHi n base j else j := by
    intro j; simp only [scanStage, Bool.and_eq_true, decide_eq_true_eq]
  by_cases c0 : 1 < n i
  · obtain ⟨hh1, hh2⟩ := hh (by unfold baseHi nLo; omega)
    by_cases c1 : i = baseHi n base i
    · have hne : base i ≠ baseHi n base i := by unfold baseHi nLo; omega
      have e2 : baseHi n base (base i) = baseHi n base i := by
        unfold baseHi nLo; rw [hb.1, hb.2]
      rw [T i, if_pos ⟨c0, c1⟩, T (base i), if_neg (by rw [e2]; tauto),
        if_pos ⟨by rw [hb.2]; exact c0, hb.1.symm⟩, e2]
      exact c1.symm
    · by_cases c2 : i = base i
      · have e2 : baseHi n base (baseHi n base i) = baseHi n base i := baseHi_congr hh1 hh2
        rw [T i, if_neg (by tauto), if_pos ⟨c0, c2⟩, T (baseHi n base i),
          if_pos ⟨by rw [hh2]; exact c0, e2.symm⟩, hh1]
        exact c2.symm
      · have : (scanStage n base).target i = i := by
          rw [T i, if_neg (by tauto), if_neg (by tauto)]
        rw [this, this]
  · have : (scanStage n base).target i = i := by
      rw [T i, if_neg (by tauto), if_neg (by tauto)]
    rw [this, this]

end

/-! ### fan-in -/

section
variable {P : ℕ} {S : α → Prop} {op : α → α → α} {unit : α} (hm : IsMonoidOn S op unit)

/-- One fan-in step when the shuffle is accepted. -/
def fanInStepPure (op : α → α → α) (s : ScanStage) (st : FanIn α) : FanIn α :=
  { red := fun i => if s.isBaseLo i then op (st.red i) (st.red (s.target i)) else st.red i
    scan := fun i => if s.isBaseHi i then st.red (s.target i) else st.scan i
    y := fun i => st.red (s.target i) }

def fanInPure (op : α → α → α) : List ScanStage → FanIn α → FanIn α
  | [], st => st
  | s :: rest, st => fanInStepPure op s (fanInPure op rest st)

def fanOutPure {β : Type*} (merge : β → β → β) : List ScanStage → (ℕ → β) → (ℕ → β)
  | [], data => data
  | s :: rest, data =>
    fanOutPure merge rest (fun i => if s.isBaseHi i then merge (data i) (data (s.target i)) else data i)

theorem scanSchedule_pos {n base : ℕ → ℕ} (hc : 1 < maxGlobal P n) : scanSchedule P n base =
    scanStage n base :: scanSchedule P (nextN n base) (nextBase n base) := by
  rw [scanSchedule, dif_pos hc]

theorem scanSchedule_neg {n base : ℕ → ℕ} (hc : ¬ 1 < maxGlobal P n) : scanSchedule P n base = [] := by
  rw [scanSchedule, dif_neg hc]

theorem fanIn_eq {n base : ℕ → ℕ} (h : GroupInv P n base) (st : FanIn α) :
    fanIn P op (scanSchedule P n base) st = .ok (fanInPure op (scanSchedule P n base) st) := by
  induction n, base using scanSchedule.induct (P := P) with
  | case1 n base hc ih =>
    rw [scanSchedule_pos hc]
    simp only [fanIn, ih h.next, fanInPure]
    simp only [bind, Except.bind, fanInStep,
      pshuffle_ok _ (scanStage_target_lt h) (scanStage_target_inv h)]
    rfl
  | case2 n base hc => rw [scanSchedule_neg hc]; rfl

theorem fanOut_eq {β : Type*} (merge : β → β → β) {n base : ℕ → ℕ} (h : GroupInv P n base) (data : ℕ → β) :
    fanOut P merge (scanSchedule P n base) data =
      .ok (fanOutPure merge (scanSchedule P n base) data) := by
  induction n, base using scanSchedule.induct (P := P) generalizing data with
  | case1 n base hc ih =>
    rw [scanSchedule_pos hc]
    simp only [fanOut, fanOutPure]
    simp only [bind, Except.bind,
      pshuffle_ok _ (scanStage_target_lt h) (scanStage_target_inv h)]
    exact ih h.next _
  | case2 n base hc => rw [scanSchedule_neg hc]; rfl

/-- If `i` starts a group on the current level, it starts its subgroup. -/
theorem nextBase_of_base {n base : ℕ → ℕ} (h : GroupInv P n base) {i : ℕ} (hi : i < P)
    (e : i = base i) : i = nextBase n base i := by
  have := h.n_pos hi
  unfold nextBase baseHi nLo
  rw [if_pos (by omega)]; exact e

theorem nextBase_cases {n base : ℕ → ℕ} {i : ℕ}
    (e : i = nextBase n base i) : i = base i ∨ i = baseHi n base i := by
  unfold nextBase at e
  split at e
  · exact .inl e
  · exact .inr e

/-- After the fan-in of the levels below `(n, base)` every group base holds the combination of its
group, and its `scan` is untouched. -/
theorem fanIn_spec {x : ℕ → α} (hm : IsMonoidOn S op unit) (hx : ∀ i, S (x i)) {n base : ℕ → ℕ}
    (h : GroupInv P n base) (st : FanIn α) (hst : st.red = x) :
    ∀ i < P, i = base i →
      (fanInPure op (scanSchedule P n base) st).red i = seg op unit x i (i + n i) ∧
      (fanInPure op (scanSchedule P n base) st).scan i = st.scan i := by
  induction n, base using scanSchedule.induct (P := P) with
  | case1 n base hc ih =>
    intro i hi e
    have ih' := ih h.next
    rw [scanSchedule_pos hc]
    simp only [fanInPure, fanInStepPure]
    have hn := h.n_pos hi
    have h3 := h.end_le i hi
    obtain ⟨r1, r2⟩ := ih' i hi (nextBase_of_base h hi e)
    have hnotHi : (scanStage n base).isBaseHi i = false := by
      apply isBaseHi_false
      unfold baseHi nLo; omega
    constructor
    · by_cases c : 1 < n i
      · have hlo : (scanStage n base).isBaseLo i = true := by
          simp only [scanStage, Bool.and_eq_true, decide_eq_true_eq]; exact ⟨c, e⟩
        have ht : (scanStage n base).target i = baseHi n base i := by
          simp only [scanStage]
          rw [if_neg, if_pos]
          · simp only [Bool.and_eq_true, decide_eq_true_eq]; exact ⟨c, e⟩
          · simp only [Bool.and_eq_true, decide_eq_true_eq]; unfold baseHi nLo; omega
        rw [hlo, if_pos rfl, r1, ht]
        obtain ⟨s1, s2⟩ := h.same i hi (baseHi n base i) (by unfold baseHi; omega)
          (by unfold baseHi nLo; omega)
        have ebh : baseHi n base (baseHi n base i) = baseHi n base i := baseHi_congr s1 s2
        have hlt : baseHi n base i < P := by unfold baseHi nLo; omega
        obtain ⟨q1, -⟩ := ih' (baseHi n base i) hlt (by
          unfold nextBase; rw [ebh, if_neg (by omega)])
        rw [q1]
        have en1 : i + nextN n base i = baseHi n base i := by
          unfold nextN
          rw [if_pos (by unfold baseHi nLo; omega)]
          unfold baseHi; omega
        have en2 : baseHi n base i + nextN n base (baseHi n base i) = i + n i := by
          unfold nextN
          rw [ebh, if_neg (by omega)]
          have : nLo n (baseHi n base i) = nLo n i := by unfold nLo; rw [s2]
          rw [this, s2]
          unfold baseHi nLo; omega
        rw [en1, en2]
        apply seg_append hm hx
        · unfold baseHi nLo; omega
        · unfold baseHi nLo; omega
      · have hlo : (scanStage n base).isBaseLo i = false := by
          simp only [scanStage, Bool.and_eq_false_iff, decide_eq_false_iff_not]; exact .inl c
        rw [hlo, if_neg (by simp), r1]
        congr 2
        unfold nextN nLo
        rw [if_pos (by unfold baseHi nLo; omega)]; omega
    · rw [hnotHi, if_neg (by simp), r2]
  | case2 n base hc =>
    intro i hi e
    rw [scanSchedule_neg hc]
    have h1 := h.n_pos hi
    have h2 := le_maxGlobal n hi
    have e1 : n i = 1 := by omega
    simp only [fanInPure, e1, hst, and_true]
    rw [seg_single hm hx]

/-- `scan` of the right child of a stage after fan-in. -/
theorem fanIn_scan_hi {x : ℕ → α} (hm : IsMonoidOn S op unit) (hx : ∀ i, S (x i)) {n base : ℕ → ℕ}
    (h : GroupInv P n base) (st : FanIn α) (hst : st.red = x) (hc : 1 < maxGlobal P n) {i : ℕ} (hi : i < P)
    (hhi : (scanStage n base).isBaseHi i = true) :
    (fanInPure op (scanSchedule P n base) st).scan i = seg op unit x (base i) i ∧
    (fanInPure op (scanSchedule P n base) st).y i = seg op unit x (base i) i ∧
    (fanInPure op (scanSchedule P n base) st).red i = seg op unit x i (base i + n i) ∧
    (scanStage n base).target i = base i ∧ base i < P ∧ base (base i) = base i := by
  have hhi' := hhi
  simp only [scanStage, Bool.and_eq_true, decide_eq_true_eq] at hhi'
  obtain ⟨c, e⟩ := hhi'
  have h1 := h.base_le i hi
  have h2 := h.lt_end i hi
  obtain ⟨s1, s2⟩ := h.same i hi (base i) le_rfl (by omega)
  have ht : (scanStage n base).target i = base i := by
    simp only [scanStage]
    rw [if_pos]; simp only [Bool.and_eq_true, decide_eq_true_eq]; exact ⟨c, e⟩
  have hb : base i < P := by omega
  obtain ⟨q1, -⟩ := fanIn_spec hm hx h.next st hst (base i) hb
    (nextBase_of_base h hb s1.symm)
  have en : base i + nextN n base (base i) = i := by
    unfold nextN
    rw [if_pos (by unfold baseHi nLo; rw [s1, s2]; omega)]
    unfold nLo; rw [s2]
    unfold baseHi nLo at e; omega
  rw [en] at q1
  obtain ⟨q2, -⟩ := fanIn_spec hm hx h.next st hst i hi (by
    unfold nextBase; rw [if_neg (by omega)]; exact e)
  rw [scanSchedule_pos hc]
  simp only [fanInPure, fanInStepPure, hhi, if_true, ht, q1, true_and]
  refine ⟨?_, hb, s1⟩
  have hlo : (scanStage n base).isBaseLo i = false := by
    apply isBaseLo_false
    unfold baseHi nLo at e; omega
  rw [hlo, if_neg (by simp), q2]
  congr 1
  unfold nextN
  rw [if_neg (by omega)]
  unfold baseHi nLo at *; omega

/-! ### fan-out -/

/-- Fan-out of the scan: if the scan is final on the group bases of a level and as left by the fan-in
elsewhere, it is final everywhere after fan-out of this level and the ones below. -/
theorem fanOut_scan {x : ℕ → α} (hm : IsMonoidOn S op unit) (hx : ∀ i, S (x i)) {n base : ℕ → ℕ}
    (h : GroupInv P n base) (st : FanIn α) (hst : st.red = x) (scan : ℕ → α)
    (hbase : ∀ i < P, i = base i → scan i = seg op unit x 0 i)
    (hrest : ∀ i < P, i ≠ base i → scan i = (fanInPure op (scanSchedule P n base) st).scan i) :
    ∀ i < P, fanOutPure (fun a b => op b a) (scanSchedule P n base) scan i = seg op unit x 0 i := by
  induction n, base using scanSchedule.induct (P := P) generalizing scan with
  | case1 n base hc ih =>
    rw [scanSchedule_pos hc] at hrest ⊢
    simp only [fanOutPure]
    apply ih h.next
    · intro i hi e
      by_cases hhi : (scanStage n base).isBaseHi i = true
      · rw [if_pos hhi]
        obtain ⟨r1, -, -, ht, hb, s1⟩ := fanIn_scan_hi hm hx h st hst hc hi hhi
        have hne : i ≠ base i := by
          have := isBaseHi_iff.1 hhi
          unfold baseHi nLo at this; omega
        have := hrest i hi hne
        rw [← scanSchedule_pos hc, r1] at this
        rw [this, ht, hbase _ hb s1.symm]
        exact seg_append hm hx (Nat.zero_le _) (h.base_le i hi)
      · rw [if_neg hhi]
        apply hbase i hi
        rcases nextBase_cases e with e' | e'
        · exact e'
        · exfalso
          have hlt := h.lt_end i hi
          apply hhi
          simp only [scanStage, Bool.and_eq_true, decide_eq_true_eq]
          refine ⟨?_, e'⟩
          unfold baseHi nLo at e'; omega
    · intro i hi e
      have e1 : i ≠ base i := fun e' => e (nextBase_of_base h hi e')
      have e2 : (scanStage n base).isBaseHi i = false := by
        apply isBaseHi_false
        intro hcon
        apply e
        unfold nextBase; rw [if_neg (by omega)]; exact hcon.2
      rw [e2, if_neg (by simp), hrest i hi e1]
      simp only [fanInPure, fanInStepPure, e2]
      simp
  | case2 n base hc =>
    intro i hi
    rw [scanSchedule_neg hc]
    simp only [fanOutPure]
    apply hbase i hi
    have h1 := h.base_le i hi
    have h2 := h.lt_end i hi
    have h3 := le_maxGlobal n hi
    omega

/-- Fan-out of the reduction. -/
theorem fanOut_red {n base : ℕ → ℕ} (h : GroupInv P n base) (tot : α) (red : ℕ → α)
    (hbase : ∀ i < P, i = base i → red i = tot) :
    ∀ i < P, fanOutPure (fun _ b => b) (scanSchedule P n base) red i = tot := by
  induction n, base using scanSchedule.induct (P := P) generalizing red with
  | case1 n base hc ih =>
    rw [scanSchedule_pos hc]
    simp only [fanOutPure]
    apply ih h.next
    intro i hi e
    split
    · rename_i hhi
      simp only [scanStage, Bool.and_eq_true, decide_eq_true_eq] at hhi ⊢
      rw [if_pos hhi]
      have h1 := h.base_le i hi
      have h2 := h.lt_end i hi
      exact hbase _ (by omega) ((h.same i hi (base i) le_rfl (by omega)).1).symm
    · rename_i hhi
      apply hbase i hi
      rcases nextBase_cases e with e' | e'
      · exact e'
      · exfalso
        have hlt := h.lt_end i hi
        apply hhi
        simp only [scanStage, Bool.and_eq_true, decide_eq_true_eq]
        refine ⟨?_, e'⟩
        unfold baseHi nLo at e'; omega
  | case2 n base hc =>
    intro i hi
    rw [scanSchedule_neg hc]
    simp only [fanOutPure]
    apply hbase i hi
    have h1 := h.base_le i hi
    have h2 := h.lt_end i hi
    have h3 := le_maxGlobal n hi
    omega

/-- Fan-out of a pair acts on the components. -/
theorem fanOut_pair (l : List ScanStage) (d : ℕ → α × α) (i : ℕ) :
    fanOutPure (fun (a b : α × α) => (op b.1 a.1, b.2)) l d i =
      (fanOutPure (fun a b => op b a) l (fun j => (d j).1) i,
       fanOutPure (fun _ b => b) l (fun j => (d j).2) i) := by
  induction l generalizing d with
  | nil => rfl
  | cons s l ih =>
    simp only [fanOutPure]
    rw [ih]
    congr 2 <;> · funext j; split <;> rfl

end

/-! ### the three entry points -/

section
variable {P : ℕ} {S : α → Prop} {op : α → α → α} {unit : α}

theorem maxGlobal_const (P m : ℕ) (hP : 0 < P) : maxGlobal P (fun _ => m) = m := by
  unfold maxGlobal
  exact Finset.sup_const (by simpa using by omega) m

/-- Data at the end of the fan-in phase, as used by the fan-out. -/
theorem fanInAll_spec {x : ℕ → α} (hm : IsMonoidOn S op unit) (hx : ∀ i, S (x i)) (b : Bool) :
    ∃ st, fanInAll P op unit x b = .ok (scanSchedule P (fun _ => P) (fun _ => 0), st) ∧
      (∀ i < P, fanOutPure (fun a b => op b a) (scanSchedule P (fun _ => P) (fun _ => 0)).tail st.scan i
          = seg op unit x 0 i) ∧
      (b = true → ∀ i < P,
        fanOutPure (fun _ b => b) (scanSchedule P (fun _ => P) (fun _ => 0)).tail st.red i
          = seg op unit x 0 P) := by
  have h := GroupInv.init P
  set n : ℕ → ℕ := fun _ => P with hn
  set base : ℕ → ℕ := fun _ => 0 with hbase
  set st0 : FanIn α := { red := x, scan := fun _ => unit, y := x } with hst0
  have hin := fanIn_eq (op := op) h st0
  by_cases hc : 1 < maxGlobal P n
  · have hP : 0 < P := by
      by_contra h0
      have : P = 0 := by omega
      subst this
      simp [maxGlobal] at hc
    have hP1 : 1 < P := by rwa [hn, maxGlobal_const P P hP] at hc
    have hs := scanSchedule_pos (P := P) (n := n) (base := base) hc
    have hspec := fanIn_spec hm hx h st0 rfl
    refine ⟨if b then { fanInPure op (scanSchedule P n base) st0 with
        red := fun i => if (scanStage n base).isBaseHi i then
          op ((fanInPure op (scanSchedule P n base) st0).y i)
            ((fanInPure op (scanSchedule P n base) st0).red i)
          else (fanInPure op (scanSchedule P n base) st0).red i } else
        fanInPure op (scanSchedule P n base) st0, ?_, ?_, ?_⟩
    · unfold fanInAll
      simp only [← hn, ← hbase, ← hst0, hin, bind, Except.bind]
      rw [hs]
      cases b <;> rfl
    · suffices hsuf : ∀ i < P, fanOutPure (fun a b => op b a) (scanSchedule P n base).tail
          (fanInPure op (scanSchedule P n base) st0).scan i = seg op unit x 0 i by
        cases b <;> exact hsuf
      rw [hs, List.tail_cons, ← hs]
      apply fanOut_scan hm hx h.next st0 rfl
      · intro i hi ei
        rcases nextBase_cases ei with e' | e'
        · obtain ⟨-, q⟩ := hspec i hi e'
          rw [q, e']
          simp [hst0, seg, hbase]
        · have hhi : (scanStage n base).isBaseHi i = true := by
            simp only [scanStage, Bool.and_eq_true, decide_eq_true_eq]
            exact ⟨hP1, e'⟩
          obtain ⟨q, -⟩ := fanIn_scan_hi hm hx h st0 rfl hc hi hhi
          rw [q]
      · intro i hi ei
        rw [hs]
        have e2 : (scanStage n base).isBaseHi i = false := by
          apply isBaseHi_false
          intro hcon
          apply ei
          unfold nextBase; rw [if_neg (by omega)]; exact hcon.2
        simp only [fanInPure, fanInStepPure, e2]
        simp
    · intro hb
      subst hb
      rw [if_pos rfl, hs, List.tail_cons, ← hs]
      apply fanOut_red h.next
      intro i hi ei
      simp only
      rcases nextBase_cases ei with e' | e'
      · have e2 : (scanStage n base).isBaseHi i = false := by
          apply isBaseHi_false
          unfold baseHi nLo
          simp only [hbase, hn] at e' ⊢; omega
        obtain ⟨q, -⟩ := hspec i hi e'
        rw [e2, if_neg (by simp), q, e']
        simp [hbase, hn]
      · have hhi : (scanStage n base).isBaseHi i = true := by
          simp only [scanStage, Bool.and_eq_true, decide_eq_true_eq]
          exact ⟨hP1, e'⟩
        obtain ⟨-, q1, q2, -⟩ := fanIn_scan_hi hm hx h st0 rfl hc hi hhi
        rw [if_pos hhi, q1, q2]
        rw [seg_append hm hx (h.base_le i hi) (by simp only [hbase, hn]; omega)]
        simp [hbase, hn]
  · have hs := scanSchedule_neg (P := P) (n := n) (base := base) hc
    have hspec := fanIn_spec hm hx h st0 rfl
    refine ⟨fanInPure op (scanSchedule P n base) st0, ?_, ?_, ?_⟩
    · unfold fanInAll
      simp only [← hn, ← hbase, ← hst0, hin, bind, Except.bind]
      rw [hs]
    · intro i hi
      rw [hs]
      simp only [List.tail_nil, fanOutPure, fanInPure]
      have : P ≤ 1 := by rw [hn, maxGlobal_const P P (by omega)] at hc; omega
      have : i = 0 := by omega
      subst this
      simp [hst0, seg]
    · intro _ i hi
      rw [hs]
      simp only [List.tail_nil, fanOutPure, fanInPure]
      have : P ≤ 1 := by rw [hn, maxGlobal_const P P (by omega)] at hc; omega
      have h0 : i = 0 := by omega
      have h1 : P = 1 := by omega
      subst h0
      rw [h1, show (1 : ℕ) = 0 + 1 from rfl, seg_single hm hx]

theorem fanOut_tail {β : Type*} (merge : β → β → β) (data : ℕ → β) :
    fanOut P merge (scanSchedule P (fun _ => P) (fun _ => 0)).tail data =
      .ok (fanOutPure merge (scanSchedule P (fun _ => P) (fun _ => 0)).tail data) := by
  by_cases hc : 1 < maxGlobal P (fun _ => P)
  · rw [scanSchedule_pos hc, List.tail_cons]
    exact fanOut_eq merge (GroupInv.init P).next data
  · rw [scanSchedule_neg hc]; rfl

theorem pscan_spec {x : ℕ → α} (hm : IsMonoidOn S op unit) (hx : ∀ i, S (x i)) :
    ∃ r, pscan P op unit x = .ok r ∧ ∀ i < P, r i = seg op unit x 0 i := by
  obtain ⟨st, h1, h2, -⟩ := fanInAll_spec (P := P) hm hx false
  refine ⟨_, ?_, h2⟩
  unfold pscan
  simp only [h1, bind, Except.bind]
  exact fanOut_tail _ _

theorem pscanReduce_spec {x : ℕ → α} (hm : IsMonoidOn S op unit) (hx : ∀ i, S (x i)) :
    ∃ r, pscanReduce P op unit x = .ok r ∧
      ∀ i < P, r i = (seg op unit x 0 i, seg op unit x 0 P) := by
  obtain ⟨st, h1, h2, h3⟩ := fanInAll_spec (P := P) hm hx true
  refine ⟨fanOutPure (fun (a b : α × α) => (op b.1 a.1, b.2))
    (scanSchedule P (fun _ => P) (fun _ => 0)).tail (fun i => (st.scan i, st.red i)), ?_, ?_⟩
  · unfold pscanReduce
    simp only [h1, bind, Except.bind]
    exact fanOut_tail _ _
  · intro i hi
    rw [fanOut_pair]
    exact Prod.ext (h2 i hi) (h3 rfl i hi)

theorem preduce_spec {x : ℕ → α} (hm : IsMonoidOn S op unit) (hx : ∀ i, S (x i)) :
    ∃ r, preduce P op unit x = .ok r ∧ ∀ i < P, r i = seg op unit x 0 P := by
  obtain ⟨st, h1, -, h3⟩ := fanInAll_spec (P := P) hm hx true
  refine ⟨_, ?_, h3 rfl⟩
  unfold preduce
  simp only [h1, bind, Except.bind]
  exact fanOut_tail _ _

theorem seg_zero (op : α → α → α) (unit : α) (x : ℕ → α) (b : ℕ) :
    seg op unit x 0 b = ((List.range b).map x).foldl op unit := by
  simp [seg, List.range_eq_range']

end

end Verif.Comm

import Verif.Model.Crystal
import Verif.Lemmas.Groups
import Mathlib.Algebra.Order.BigOperators.Group.Finset
import Mathlib.Algebra.BigOperators.Group.Finset.Basic
import Mathlib.Data.Multiset.Filter
import Mathlib.Data.Multiset.AddSub
import Mathlib.Algebra.BigOperators.Group.Multiset.Basic
import Mathlib.Algebra.Order.Group.Multiset
import Mathlib.Data.Nat.Log
import Mathlib.Algebra.BigOperators.Group.Finset.Piecewise

namespace Verif.Comm

variable {ρ : Type*}

/-- The rows within the dynamic length. -/
def CrystalData.valid (c : CrystalData ρ) : List ρ := c.data.take c.n

/-! ### Partners -/

section partners
variable {P : ℕ} {n base : ℕ → ℕ} (h : GroupInv P n base)
include h

theorem target1_group {i : ℕ} (hi : i < P) :
    base i ≤ target1 n base i ∧ target1 n base i < base i + n i := by
  have h1 := h.base_le i hi
  have h2 := h.lt_end i hi
  unfold target1; omega

theorem target1_lt : ∀ i < P, target1 n base i < P := by
  intro i hi
  have h1 := target1_group h hi
  have h3 := h.end_le i hi
  omega

theorem target1_inv : ∀ i < P, target1 n base (target1 n base i) = i := by
  intro i hi
  obtain ⟨h1, h2⟩ := target1_group h hi
  obtain ⟨e1, e2⟩ := h.same i hi _ h1 h2
  have h3 := h.base_le i hi
  have h4 := h.lt_end i hi
  have e3 : target1 n base (target1 n base i) =
      n i - 1 - (target1 n base i - base i) + base i := by
    conv_lhs => rw [target1, e1, e2]
  rw [e3]
  unfold target1 at *
  omega

theorem isSelfTarget_iff {i : ℕ} (hi : i < P) :
    isSelfTarget n base i = true ↔ n i % 2 = 1 ∧ i + 1 = baseHi n base i := by
  have h3 := h.base_le i hi
  have h4 := h.lt_end i hi
  unfold isSelfTarget target1 baseHi nLo
  rw [decide_eq_true_eq]
  omega

omit h in
theorem isRecvTwo_iff {i : ℕ} :
    isRecvTwo n base i = true ↔ n i % 2 = 1 ∧ i = baseHi n base i := by
  unfold isRecvTwo
  rw [Bool.and_eq_true, decide_eq_true_eq, decide_eq_true_eq]

theorem numRecv_cases {i : ℕ} (hi : i < P) :
    (isSelfTarget n base i = true ∧ isRecvTwo n base i = false ∧ numRecv n base i = 0) ∨
    (isSelfTarget n base i = false ∧ isRecvTwo n base i = true ∧ numRecv n base i = 2) ∨
    (isSelfTarget n base i = false ∧ isRecvTwo n base i = false ∧ numRecv n base i = 1) := by
  have a := isSelfTarget_iff h hi
  have b := isRecvTwo_iff (n := n) (base := base) (i := i)
  unfold numRecv
  cases ha : isSelfTarget n base i <;> cases hb : isRecvTwo n base i
  · right; right; exact ⟨rfl, rfl, rfl⟩
  · right; left; exact ⟨rfl, rfl, rfl⟩
  · left; exact ⟨rfl, rfl, rfl⟩
  · have := a.1 ha; have := b.1 hb; omega

/-- A device that receives twice has its partner of the second round just before it. -/
theorem recvTwo_pred {i : ℕ} (hi : i < P) (hr : isRecvTwo n base i = true) :
    base i ≤ i - 1 ∧ i - 1 + 1 = i ∧ base (i - 1) = base i ∧ n (i - 1) = n i ∧ 3 ≤ n i ∧
    isSelfTarget n base (i - 1) = true := by
  obtain ⟨h1, h2⟩ := isRecvTwo_iff.1 hr
  have h3 := h.base_le i hi
  have h4 := h.lt_end i hi
  have hh : base i ≤ i - 1 ∧ i - 1 + 1 = i ∧ 3 ≤ n i := by
    unfold baseHi nLo at h2; omega
  obtain ⟨e1, e2⟩ := h.same i hi (i - 1) hh.1 (by omega)
  refine ⟨hh.1, hh.2.1, e1, e2, hh.2.2, ?_⟩
  rw [isSelfTarget_iff h (by omega)]
  unfold baseHi nLo at *
  rw [e1, e2]; omega

/-- The middle device of an odd group with at least three members has a successor that receives twice. -/
theorem selfTarget_succ {i : ℕ} (hi : i < P) (hs : isSelfTarget n base i = true) (h3 : n i ≠ 1) :
    i + 1 < P ∧ base (i + 1) = base i ∧ n (i + 1) = n i ∧ isRecvTwo n base (i + 1) = true := by
  obtain ⟨h1, h2⟩ := (isSelfTarget_iff h hi).1 hs
  have h4 := h.base_le i hi
  have h5 := h.lt_end i hi
  have h6 := h.end_le i hi
  have hh : i + 1 < base i + n i := by unfold baseHi nLo at h2; omega
  obtain ⟨e1, e2⟩ := h.same i hi (i + 1) (by omega) hh
  refine ⟨by omega, e1, e2, isRecvTwo_iff.2 ⟨by omega, ?_⟩⟩
  unfold baseHi nLo at *
  rw [e1, e2]; exact h2

theorem n_ge_two (hb : Balanced P n) (hm : 1 < maxGlobal P (numRecv n base)) : ∀ i < P, 2 ≤ n i := by
  obtain ⟨j, hj, hj2⟩ := (Finset.lt_sup_iff).1 (show 1 < (Finset.range P).sup (numRecv n base) from hm)
  have hj := Finset.mem_range.1 hj
  intro i hi
  rcases numRecv_cases h hj with c | c | c
  · omega
  · have := (recvTwo_pred h hj c.2.1).2.2.2.2.1
    have := hb j hj i hi
    omega
  · omega

theorem target2_lt (h2 : ∀ i < P, 2 ≤ n i) : ∀ i < P, target2 n base i < P := by
  intro i hi
  unfold target2
  split
  · omega
  · split
    · next hs =>
      have := selfTarget_succ h hi hs (by have := h2 i hi; omega)
      have := ((isSelfTarget_iff h hi).1 hs).2
      omega
    · exact hi

theorem target2_inv (h2 : ∀ i < P, 2 ≤ n i) : ∀ i < P, target2 n base (target2 n base i) = i := by
  intro i hi
  conv_lhs => arg 3; unfold target2
  split
  · next hr =>
    obtain ⟨a1, a2, a3, a4, a5, a6⟩ := recvTwo_pred h hi hr
    have hne : isRecvTwo n base (i - 1) = false := by
      rcases numRecv_cases h (show i - 1 < P by omega) with c | c | c
      · exact c.2.1
      · rw [c.1] at a6; cases a6
      · exact c.2.1
    have := ((isSelfTarget_iff h (show i - 1 < P by omega)).1 a6).2
    unfold target2
    rw [hne, a6]
    simp only [Bool.false_eq_true, if_false, if_true]
    omega
  · next hr =>
    split
    · next hs =>
      obtain ⟨b1, b2, b3, b4⟩ := selfTarget_succ h hi hs (by have := h2 i hi; omega)
      rw [← ((isSelfTarget_iff h hi).1 hs).2]
      unfold target2
      rw [b4]; simp
    · next hs =>
      unfold target2
      rw [if_neg hr, if_neg hs]

end partners

/-! ### What a stage does to the valid rows -/

/-- Rows kept by device `i`. -/
def keepQ (tgt : ρ → ℤ) (n base : ℕ → ℕ) (i : ℕ) (r : ρ) : Bool :=
  decide (tgt r < (baseHi n base i : ℤ)) ^^ decide (baseHi n base i ≤ i)

def keepL (tgt : ρ → ℤ) (n base : ℕ → ℕ) (V : ℕ → List ρ) (i : ℕ) : List ρ :=
  (V i).filter (keepQ tgt n base i)

def sendL (tgt : ρ → ℤ) (n base : ℕ → ℕ) (V : ℕ → List ρ) (i : ℕ) : List ρ :=
  (V i).filter (fun r => !keepQ tgt n base i r)

/-- Rows after a stage. -/
def outL (tgt : ρ → ℤ) (n base : ℕ → ℕ) (V : ℕ → List ρ) (i : ℕ) : List ρ :=
  keepL tgt n base V i ++
  (if numRecv n base i > 0 then sendL tgt n base V (target1 n base i) else []) ++
  (if numRecv n base i = 2 then sendL tgt n base V (target1 n base (target2 n base i)) else [])

theorem zipIdx_filter (q : ρ → Bool) (m : ℕ) (l : List ρ) (k : ℕ) :
    ((l.zipIdx k).filter (fun rj => decide (rj.2 < m) && q rj.1)).map Prod.fst
      = (l.take (m - k)).filter q := by
  induction l generalizing k with
  | nil => simp
  | cons a l ih =>
    rw [List.zipIdx_cons]
    by_cases hk : k < m
    · obtain ⟨d, hd⟩ : ∃ d, m - k = d + 1 := ⟨m - k - 1, by omega⟩
      have hd' : m - (k + 1) = d := by omega
      rw [hd, List.take_succ_cons]
      have ih := ih (k + 1)
      rw [hd'] at ih
      cases hq : q a <;> simp [hk, hq, ih]
    · have : m - k = 0 := by omega
      have ih := ih (k + 1)
      have h2 : m - (k + 1) = 0 := by omega
      rw [h2] at ih
      simp [hk, this]
      simpa using ih

theorem select_spec (f : ρ) (c : CrystalData ρ) (mask : ℕ → ρ → Bool) (q : ρ → Bool) (size : ℕ)
    (hm : ∀ j r, mask j r = (decide (j < c.n) && q r)) (hs : c.data.length ≤ size) :
    (c.select f mask size).n = (c.valid.filter q).length ∧
    (c.select f mask size).data.length = size ∧
    (c.select f mask size).valid = c.valid.filter q := by
  have e : (c.data.zipIdx.filter (fun rj => mask rj.2 rj.1)).map Prod.fst = c.valid.filter q := by
    have := zipIdx_filter q c.n c.data 0
    simp only [hm]
    simpa [CrystalData.valid] using this
  have hle : (c.valid.filter q).length ≤ c.data.length := by
    refine le_trans (List.length_filter_le _ _) ?_
    simp [CrystalData.valid]
  unfold CrystalData.select
  rw [e]
  refine ⟨rfl, ?_, ?_⟩
  · simp; omega
  · change List.take _ (List.take size (c.valid.filter q) ++ _) = _
    rw [List.take_append_of_le_length (by simp; omega), List.take_take,
      List.take_of_length_le (by simp; omega)]

theorem add_n (c d : CrystalData ρ) : (c.add d).n = c.n + d.n := rfl

theorem add_len (c d : CrystalData ρ) (h : d.data.length ≤ c.data.length) :
    (c.add d).data.length = c.data.length := by
  unfold CrystalData.add dynamicUpdateSlice
  simp
  omega

theorem add_valid (c d : CrystalData ρ) (hd : d.n ≤ d.data.length)
    (h : c.n + d.data.length ≤ c.data.length) :
    (c.add d).valid = c.valid ++ d.valid := by
  unfold CrystalData.add dynamicUpdateSlice CrystalData.valid
  have : min c.n (c.data.length - d.data.length) = c.n := by omega
  simp only [this]
  have hl : (c.data.take c.n).length = c.n := by simp; omega
  rw [List.append_assoc, List.take_append, hl]
  have : c.n + d.n - c.n = d.n := by omega
  rw [this, List.take_of_length_le (by omega), List.take_append_of_le_length hd]

theorem resize_n (z : ρ) (c : CrystalData ρ) (size : ℕ) : (c.resize z size).n = c.n := rfl

theorem resize_len (z : ρ) (c : CrystalData ρ) (size : ℕ) : (c.resize z size).data.length = size := by
  unfold CrystalData.resize padToSize
  split_ifs <;> simp <;> omega

theorem resize_self (z : ρ) (c : CrystalData ρ) : c.resize z c.data.length = c := by
  unfold CrystalData.resize padToSize
  simp

theorem resize_valid (z : ρ) (c : CrystalData ρ) (size : ℕ) (h1 : c.n ≤ size) (h2 : c.n ≤ c.data.length) :
    (c.resize z size).valid = c.valid := by
  unfold CrystalData.resize padToSize CrystalData.valid
  split_ifs
  · rfl
  · simp [List.take_take, h1]
  · simp only
    rw [List.take_append_of_le_length h2]

theorem valid_length (c : CrystalData ρ) (h : c.n ≤ c.data.length) : c.valid.length = c.n := by
  simp [CrystalData.valid, h]

theorem maxGlobal_congr {P : ℕ} {a b : ℕ → ℕ} (h : ∀ i < P, a i = b i) : maxGlobal P a = maxGlobal P b :=
  Finset.sup_congr rfl (fun i hi => h i (Finset.mem_range.1 hi))

section stage
variable {P : ℕ} {n base : ℕ → ℕ} {tgt : ρ → ℤ} (h : GroupInv P n base) (hb : Balanced P n)
include h hb

theorem stage_spec (z f : ρ) (B : ℕ) (st : ℕ → CrystalData ρ) (hlen : ∀ i, (st i).data.length = B)
    (hn : ∀ i < P, (st i).n ≤ B) :
    ∃ next ms, crystalStage P tgt z f n base B st = .ok (next, ms) ∧
      ms = maxGlobal P (fun i => (outL tgt n base (fun i => (st i).valid) i).length) ∧
      (∀ i, (next i).data.length = B) ∧
      (ms ≤ B → ∀ i < P, (next i).n ≤ B ∧
        (next i).n = (outL tgt n base (fun i => (st i).valid) i).length ∧
        (next i).valid = outL tgt n base (fun i => (st i).valid) i) := by
  set V : ℕ → List ρ := fun i => (st i).valid with hV
  -- masks
  let mask (i j : ℕ) : Bool := decide (j < (st i).n)
  let keepMask (i j : ℕ) (r : ρ) : Bool :=
    (mask i j && decide (tgt r < (baseHi n base i : ℤ))) ^^ (mask i j && decide (baseHi n base i ≤ i))
  let sendMask (i j : ℕ) (r : ρ) : Bool := mask i j ^^ keepMask i j r
  let K := fun i => (st i).select f (keepMask i) (B + (st i).data.length)
  let S := fun i => (st i).select f (sendMask i) (st i).data.length
  have hK : ∀ i, (K i).n = (keepL tgt n base V i).length ∧ (K i).data.length = B + B ∧
      (K i).valid = keepL tgt n base V i := by
    intro i
    have := select_spec f (st i) (keepMask i) (keepQ tgt n base i) (B + (st i).data.length)
      (by intro j r; simp only [keepMask, keepQ, mask]; cases decide (j < (st i).n) <;> simp) (by omega)
    rw [hlen] at this
    simp only [K]
    rw [hlen]
    exact this
  have hS : ∀ i, (S i).n = (sendL tgt n base V i).length ∧ (S i).data.length = B ∧
      (S i).valid = sendL tgt n base V i := by
    intro i
    have := select_spec f (st i) (sendMask i) (fun r => !keepQ tgt n base i r) ((st i).data.length)
      (by intro j r; simp only [sendMask, keepMask, keepQ, mask]; cases decide (j < (st i).n) <;> simp) le_rfl
    rw [hlen] at this
    simp only [S]
    rw [hlen]
    exact this
  have hVl : ∀ i < P, (V i).length ≤ B := by
    intro i hi
    have := valid_length (st i) (by rw [hlen]; exact hn i hi)
    simp only [hV]; rw [this]; exact hn i hi
  have hKl : ∀ i < P, (keepL tgt n base V i).length ≤ B := fun i hi =>
    le_trans (List.length_filter_le _ _) (hVl i hi)
  have hSl : ∀ i < P, (sendL tgt n base V i).length ≤ B := fun i hi =>
    le_trans (List.length_filter_le _ _) (hVl i hi)
  -- first round
  let K1 := fun i => if numRecv n base i > 0 then (K i).add (S (target1 n base i)) else K i
  let L1 := fun i => keepL tgt n base V i ++
    (if numRecv n base i > 0 then sendL tgt n base V (target1 n base i) else [])
  have hK1l : ∀ i, (K1 i).data.length = B + B := by
    intro i
    simp only [K1]
    split
    · rw [add_len _ _ (by rw [(hS _).2.1, (hK _).2.1]; omega), (hK _).2.1]
    · exact (hK i).2.1
  have hK1 : ∀ i < P, (K1 i).n = (L1 i).length ∧ (K1 i).valid = L1 i := by
    intro i hi
    have ht := target1_lt h i hi
    simp only [K1, L1]
    split
    · refine ⟨?_, ?_⟩
      · rw [add_n, (hK i).1, (hS _).1, List.length_append]
      · rw [add_valid, (hK i).2.2, (hS _).2.2]
        · rw [(hS _).1, (hS _).2.1]; exact hSl _ ht
        · rw [(hK i).1, (hS _).2.1, (hK i).2.1]
          have := hKl i hi
          omega
    · rw [List.append_nil]; exact ⟨(hK i).1, (hK i).2.2⟩
  -- second round
  let K2 := fun i => if maxGlobal P (numRecv n base) > 1 ∧ numRecv n base i = 2 then (K1 i).add (S (target1 n base (target2 n base i))) else K1 i
  have hK2l : ∀ i, (K2 i).data.length = B + B := by
    intro i
    simp only [K2]
    split
    · rw [add_len _ _ (by rw [(hS _).2.1, hK1l]; omega), hK1l]
    · exact hK1l i
  have hK2c : ∀ i < P, (maxGlobal P (numRecv n base) > 1 ∧ numRecv n base i = 2) = (numRecv n base i = 2) := by
    intro i hi
    have := le_maxGlobal (numRecv n base) hi
    rw [eq_iff_iff]
    constructor
    · exact fun h => h.2
    · intro e; exact ⟨by omega, e⟩
  have hK2n : ∀ i < P, (K2 i).n = (outL tgt n base V i).length := by
    intro i hi
    simp only [K2, outL, hK2c i hi]
    split
    · rw [add_n, (hK1 i hi).1, (hS _).1, ← List.length_append]
    · rw [List.append_nil]; exact (hK1 i hi).1
  have hK2v : ∀ i < P, (K2 i).n ≤ B → (K2 i).valid = outL tgt n base V i := by
    intro i hi hle
    simp only [K2, outL, hK2c i hi] at hle ⊢
    split
    · next h2 =>
      rw [if_pos h2, add_n] at hle
      have h2' : ∀ i < P, 2 ≤ n i := n_ge_two h hb (lt_of_lt_of_le (by omega)
        (le_maxGlobal (numRecv n base) hi))
      have ht := target1_lt h _ (target2_lt h h2' i hi)
      rw [add_valid, (hK1 i hi).2, (hS _).2.2]
      · rw [(hS _).1, (hS _).2.1]; exact hSl _ ht
      · rw [(hS _).2.1, hK1l]
        omega
    · rw [List.append_nil]; exact (hK1 i hi).2
  refine ⟨fun i => (K2 i).resize z B, maxGlobal P (fun i => (K2 i).n), ?_, maxGlobal_congr hK2n,
    fun i => resize_len _ _ _, ?_⟩
  · have e1 := pshuffle_ok (P := P) (perm := target1 n base) S (target1_lt h) (target1_inv h)
    unfold crystalStage
    change (do
      let send ← pshuffle P (target1 n base) S
      let keep := fun i => if numRecv n base i > 0 then (K i).add (send i) else K i
      let keep ← if maxGlobal P (numRecv n base) > 1 then do
          let send ← pshuffle P (target2 n base) send
          .ok (fun i => if numRecv n base i = 2 then (keep i).add (send i) else keep i)
        else .ok keep
      .ok (fun i => (keep i).resize z B, maxGlobal P (fun i => (keep i).n))) = _
    rw [e1]
    simp only [bind, Except.bind]
    by_cases hm : maxGlobal P (numRecv n base) > 1
    · rw [if_pos hm, pshuffle_ok _ (target2_lt h (n_ge_two h hb hm)) (target2_inv h (n_ge_two h hb hm))]
      simp only [K2, hm, true_and]
      rfl
    · rw [if_neg hm]
      simp only [K2, hm, false_and, if_false]
      rfl
  · intro hms i hi
    have hi2 : (K2 i).n ≤ B := le_trans (le_maxGlobal (fun i => (K2 i).n) hi) hms
    refine ⟨hi2, hK2n i hi, ?_⟩
    simp only
    rw [resize_valid _ _ _ hi2 (by rw [hK2l]; omega)]
    exact hK2v i hi hi2

/-! ### conservation and targets -/

/-- Rows held by device `i` have their target in the group of `i`. -/
def InGroup (P : ℕ) (tgt : ρ → ℤ) (n base : ℕ → ℕ) (V : ℕ → List ρ) : Prop :=
  ∀ i < P, ∀ r ∈ V i, (base i : ℤ) ≤ tgt r ∧ tgt r < (base i : ℤ) + (n i : ℤ)

omit hb in
theorem outL_inGroup {V : ℕ → List ρ} (hV : InGroup P tgt n base V) :
    InGroup P tgt (nextN n base) (nextBase n base) (outL tgt n base V) := by
  intro i hi r hr
  have h1 := h.base_le i hi
  have h2 := h.lt_end i hi
  unfold outL at hr
  rw [List.mem_append, List.mem_append] at hr
  have hkeep : ∀ j < P, r ∈ V j → base j = base i → n j = n i →
      ((keepQ tgt n base j r = true ∧ (decide (baseHi n base i ≤ i) = decide (baseHi n base i ≤ j))) ∨
       (keepQ tgt n base j r = false ∧ (decide (baseHi n base i ≤ i) = !decide (baseHi n base i ≤ j)))) →
      (nextBase n base i : ℤ) ≤ tgt r ∧ tgt r < (nextBase n base i : ℤ) + (nextN n base i : ℤ) := by
    intro j hj hr e1 e2 hc
    have ht := hV j hj r hr
    have eb : baseHi n base j = baseHi n base i := by unfold baseHi nLo; rw [e1, e2]
    have hlt : tgt r < (baseHi n base i : ℤ) ↔ ¬ (baseHi n base i ≤ i) := by
      unfold keepQ at hc
      rw [eb] at hc
      by_cases c1 : tgt r < (baseHi n base i : ℤ) <;> by_cases c2 : baseHi n base i ≤ i <;>
        by_cases c3 : baseHi n base i ≤ j <;> simp [c1, c2, c3] at hc ⊢
    rw [e1, e2] at ht
    unfold nextBase nextN
    by_cases c : i < baseHi n base i
    · rw [if_pos c, if_pos c]
      have := hlt.2 (by omega)
      refine ⟨ht.1, ?_⟩
      unfold baseHi at this
      push_cast at this
      exact this
    · rw [if_neg c, if_neg c]
      have : ¬ tgt r < (baseHi n base i : ℤ) := fun hh => hlt.1 hh (by omega)
      refine ⟨by omega, ?_⟩
      have e : baseHi n base i = base i + nLo n i := rfl
      have : nLo n i ≤ n i := by unfold nLo; omega
      rw [e]
      have e2 : ((n i - nLo n i : ℕ) : ℤ) = (n i : ℤ) - (nLo n i : ℤ) := by omega
      rw [e2]
      push_cast
      omega
  rcases hr with (hr | hr) | hr
  · have hr := List.mem_filter.1 hr
    exact hkeep i hi hr.1 rfl rfl (.inl ⟨hr.2, rfl⟩)
  · split at hr
    · next hpos =>
      obtain ⟨t1, t2⟩ := target1_group h hi
      obtain ⟨e1, e2⟩ := h.same i hi _ t1 t2
      have hr := List.mem_filter.1 hr
      have hs : isSelfTarget n base i = false := by
        rcases numRecv_cases h hi with c | c | c
        · omega
        · exact c.1
        · exact c.1
      refine hkeep _ (target1_lt h i hi) hr.1 e1 e2 (.inr ⟨by simpa using hr.2, ?_⟩)
      have hs' : ¬ (n i % 2 = 1 ∧ i + 1 = baseHi n base i) := by
        rw [← isSelfTarget_iff h hi, hs]; simp
      have : (baseHi n base i ≤ i) ↔ ¬ (baseHi n base i ≤ target1 n base i) := by
        unfold target1 baseHi nLo at *; omega
      rw [← decide_not, decide_eq_decide]
      exact this
    · cases hr
  · split at hr
    · next h2 =>
      have hr2 : isRecvTwo n base i = true := by
        rcases numRecv_cases h hi with c | c | c
        · omega
        · exact c.2.1
        · omega
      obtain ⟨a1, a2, a3, a4, a5, a6⟩ := recvTwo_pred h hi hr2
      have et2 : target2 n base i = i - 1 := by unfold target2; rw [hr2]; rfl
      have et1 : target1 n base (i - 1) = i - 1 := by
        unfold isSelfTarget at a6; exact of_decide_eq_true a6
      rw [et2, et1] at hr
      have hr := List.mem_filter.1 hr
      refine hkeep _ (by omega) hr.1 a3 a4 (.inr ⟨by simpa using hr.2, ?_⟩)
      have := (isRecvTwo_iff.1 hr2).2
      rw [← decide_not, decide_eq_decide]
      omega
    · cases hr

theorem outL_congr {V V' : ℕ → List ρ} (hV : ∀ i < P, V i = V' i) {i : ℕ} (hi : i < P) :
    outL tgt n base V i = outL tgt n base V' i := by
  unfold outL keepL sendL
  rw [hV i hi, hV _ (target1_lt h i hi)]
  by_cases h2 : numRecv n base i = 2
  · have h2' : ∀ i < P, 2 ≤ n i := n_ge_two h hb (lt_of_lt_of_le (by omega)
        (le_maxGlobal (numRecv n base) hi))
    rw [hV _ (target1_lt h _ (target2_lt h h2' i hi))]
  · rw [if_neg h2, if_neg h2]

omit h hb in
theorem keep_add_send (V : ℕ → List ρ) (i : ℕ) :
    ((keepL tgt n base V i : Multiset ρ) + (sendL tgt n base V i : Multiset ρ)) = (V i : Multiset ρ) := by
  unfold keepL sendL
  rw [Multiset.coe_add, Multiset.coe_eq_coe]
  exact List.filter_append_perm (keepQ tgt n base i) (V i)

omit hb in
/-- Nothing is lost or duplicated in a stage. -/
theorem outL_sum {V : ℕ → List ρ} (hV : InGroup P tgt n base V) :
    ∑ i ∈ Finset.range P, (outL tgt n base V i : Multiset ρ) = ∑ i ∈ Finset.range P, (V i : Multiset ρ) := by
  classical
  set S : ℕ → Multiset ρ := fun i => (sendL tgt n base V i : Multiset ρ) with hS
  set K : ℕ → Multiset ρ := fun i => (keepL tgt n base V i : Multiset ρ) with hK
  have e1 : ∀ i ∈ Finset.range P, (outL tgt n base V i : Multiset ρ) =
      K i + ((if numRecv n base i > 0 then S (target1 n base i) else 0) +
        (if isRecvTwo n base i = true then S (i - 1) else 0)) := by
    intro i hi
    have hi := Finset.mem_range.1 hi
    unfold outL
    rw [← Multiset.coe_add, ← Multiset.coe_add, add_assoc]
    congr 2
    · split <;> rfl
    · rcases numRecv_cases h hi with c | c | c
      · rw [if_neg (by omega), if_neg (by rw [c.2.1]; simp)]; rfl
      · obtain ⟨a1, a2, a3, a4, a5, a6⟩ := recvTwo_pred h hi c.2.1
        have et2 : target2 n base i = i - 1 := by unfold target2; rw [c.2.1]; rfl
        have et1 : target1 n base (i - 1) = i - 1 := by
          unfold isSelfTarget at a6; exact of_decide_eq_true a6
        rw [if_pos c.2.2, if_pos c.2.1, et2, et1]
      · rw [if_neg (by omega), if_neg (by rw [c.2.1]; simp)]; rfl
  rw [Finset.sum_congr rfl e1, Finset.sum_add_distrib, Finset.sum_add_distrib]
  -- the first round
  have e2 : ∑ i ∈ Finset.range P, (if numRecv n base i > 0 then S (target1 n base i) else 0) +
      ∑ i ∈ Finset.range P, (if isSelfTarget n base i = true then S i else 0) =
      ∑ i ∈ Finset.range P, S i := by
    rw [← Finset.sum_add_distrib]
    rw [← Finset.sum_nbij' (s := Finset.range P) (t := Finset.range P) (f := fun i => S (target1 n base i))
      (g := S) (target1 n base) (target1 n base)
      (fun i hi => Finset.mem_range.2 (target1_lt h i (Finset.mem_range.1 hi)))
      (fun i hi => Finset.mem_range.2 (target1_lt h i (Finset.mem_range.1 hi)))
      (fun i hi => target1_inv h i (Finset.mem_range.1 hi))
      (fun i hi => target1_inv h i (Finset.mem_range.1 hi)) (fun i _ => rfl)]
    refine Finset.sum_congr rfl (fun i hi => ?_)
    have hi := Finset.mem_range.1 hi
    rcases numRecv_cases h hi with c | c | c
    · rw [if_neg (by omega), if_pos c.1, zero_add]
      have et1 : target1 n base i = i := by
        have := c.1; unfold isSelfTarget at this; exact of_decide_eq_true this
      rw [et1]
    · rw [if_pos (by omega), if_neg (by rw [c.1]; simp), add_zero]
    · rw [if_pos (by omega), if_neg (by rw [c.1]; simp), add_zero]
  -- the second round
  have e3 : ∑ i ∈ Finset.range P, (if isRecvTwo n base i = true then S (i - 1) else 0) =
      ∑ i ∈ Finset.range P, (if isSelfTarget n base i = true then S i else 0) := by
    rw [← Finset.sum_filter, ← Finset.sum_filter]
    have hsub : ∑ i ∈ (Finset.range P).filter (fun i => isSelfTarget n base i = true), S i =
        ∑ i ∈ (Finset.range P).filter (fun i => isSelfTarget n base i = true ∧ n i ≠ 1), S i := by
      symm
      refine Finset.sum_subset ?_ ?_
      · intro i hi
        rw [Finset.mem_filter] at hi ⊢
        exact ⟨hi.1, hi.2.1⟩
      · intro i hi hni
        rw [Finset.mem_filter] at hi hni
        have hi1 := Finset.mem_range.1 hi.1
        have hn1 : n i = 1 := by
          by_contra hc; exact hni ⟨hi.1, hi.2, hc⟩
        simp only [hS, sendL]
        rw [Multiset.coe_eq_zero, List.filter_eq_nil_iff]
        intro r hr
        have ht := hV i hi1 r hr
        have b1 := h.base_le i hi1
        have b2 := h.lt_end i hi1
        have hbh : baseHi n base i = base i + 1 := by unfold baseHi nLo; rw [hn1]
        unfold keepQ
        rw [hbh, decide_eq_true (by push_cast; omega), decide_eq_false (by omega)]
        simp
    rw [hsub]
    refine Finset.sum_nbij' (fun i => i - 1) (fun i => i + 1) ?_ ?_ ?_ ?_ ?_
    · intro i hi
      rw [Finset.mem_filter] at hi ⊢
      have hi1 := Finset.mem_range.1 hi.1
      obtain ⟨a1, a2, a3, a4, a5, a6⟩ := recvTwo_pred h hi1 hi.2
      exact ⟨Finset.mem_range.2 (by omega), a6, by omega⟩
    · intro i hi
      rw [Finset.mem_filter] at hi ⊢
      have hi1 := Finset.mem_range.1 hi.1
      obtain ⟨b1, b2, b3, b4⟩ := selfTarget_succ h hi1 hi.2.1 hi.2.2
      exact ⟨Finset.mem_range.2 b1, b4⟩
    · intro i hi
      rw [Finset.mem_filter] at hi
      exact (recvTwo_pred h (Finset.mem_range.1 hi.1) hi.2).2.1
    · intro i _; rfl
    · intro i _; rfl
  rw [e3, e2, ← Finset.sum_add_distrib]
  exact Finset.sum_congr rfl (fun i _ => keep_add_send V i)

end stage

/-! ### levels -/

/-- The groups `d` stages further on. -/
def lev (n base : ℕ → ℕ) : ℕ → (ℕ → ℕ) × (ℕ → ℕ)
  | 0 => (n, base)
  | d + 1 => lev (nextN n base) (nextBase n base) d

theorem lev_add (n base : ℕ → ℕ) (a b : ℕ) :
    lev (lev n base a).1 (lev n base a).2 b = lev n base (a + b) := by
  induction a generalizing n base with
  | zero => simp [lev]
  | succ a ih =>
    rw [show a + 1 + b = (a + b) + 1 by omega]
    exact ih _ _

theorem lev_one (n base : ℕ → ℕ) (a : ℕ) :
    lev n base (a + 1) = (nextN (lev n base a).1 (lev n base a).2, nextBase (lev n base a).1 (lev n base a).2) := by
  rw [← lev_add n base a 1]; rfl

theorem lev_inv {P : ℕ} {n base : ℕ → ℕ} (h : GroupInv P n base) (hb : Balanced P n) (d : ℕ) :
    GroupInv P (lev n base d).1 (lev n base d).2 ∧ Balanced P (lev n base d).1 := by
  induction d generalizing n base with
  | zero => exact ⟨h, hb⟩
  | succ d ih => exact ih h.next hb.next

theorem maxGlobal_next_le (P : ℕ) (n base : ℕ → ℕ) {e : ℕ} (h : maxGlobal P n ≤ 2 ^ (e + 1)) :
    maxGlobal P (nextN n base) ≤ 2 ^ e := by
  refine Finset.sup_le (fun i hi => ?_)
  have := le_maxGlobal n (Finset.mem_range.1 hi)
  rw [pow_succ] at h
  unfold nextN nLo
  split <;> omega

theorem maxGlobal_lev_le (P : ℕ) {n base : ℕ → ℕ} {e d : ℕ} (h : maxGlobal P n ≤ 2 ^ (e + d)) :
    maxGlobal P (lev n base d).1 ≤ 2 ^ e := by
  induction d generalizing n base with
  | zero => exact h
  | succ d ih => exact ih (maxGlobal_next_le P n base h)

/-- State invariant: static length `B`, dynamic lengths within it, targets in the groups, and `M` the
collection of all rows. -/
structure StInv (P : ℕ) (tgt : ρ → ℤ) (B : ℕ) (n base : ℕ → ℕ) (M : Multiset ρ) (st : ℕ → CrystalData ρ) :
    Prop where
  len : ∀ i, (st i).data.length = B
  n_le : ∀ i < P, (st i).n ≤ B
  inGroup : InGroup P tgt n base (fun i => (st i).valid)
  sum : ∑ i ∈ Finset.range P, ((st i).valid : Multiset ρ) = M

/-- Buffer size that the next stage needs. -/
def need (P : ℕ) (tgt : ρ → ℤ) (n base : ℕ → ℕ) (st : ℕ → CrystalData ρ) : ℕ :=
  maxGlobal P (fun i => (outL tgt n base (fun i => (st i).valid) i).length)

theorem stage_inv {P : ℕ} {n base : ℕ → ℕ} {tgt : ρ → ℤ} (h : GroupInv P n base) (hb : Balanced P n) (z f : ρ)
    {B : ℕ} {M : Multiset ρ} {st : ℕ → CrystalData ρ} (hst : StInv P tgt B n base M st) :
    ∃ next, crystalStage P tgt z f n base B st = .ok (next, need P tgt n base st) ∧
      (need P tgt n base st ≤ B → StInv P tgt B (nextN n base) (nextBase n base) M next ∧
        need P tgt n base st = maxGlobal P (fun i => (next i).n)) := by
  obtain ⟨next, ms, e1, e2, e3, e4⟩ := stage_spec (tgt := tgt) h hb z f B st hst.len hst.n_le
  subst e2
  refine ⟨next, e1, fun hle => ?_⟩
  have e5 := e4 hle
  refine ⟨⟨e3, fun i hi => (e5 i hi).1, ?_, ?_⟩, ?_⟩
  · intro i hi r hr
    have hr : r ∈ (next i).valid := hr
    rw [(e5 i hi).2.2] at hr
    exact outL_inGroup h hst.inGroup i hi r hr
  · rw [← hst.sum, ← outL_sum h hst.inGroup]
    exact Finset.sum_congr rfl (fun i hi => by rw [(e5 i (Finset.mem_range.1 hi)).2.2])
  · exact maxGlobal_congr (fun i hi => ((e5 i hi).2.1).symm)

theorem resize_state (z : ρ) {B : ℕ} {st : ℕ → CrystalData ρ} (hlen : ∀ i, (st i).data.length = B) :
    (fun p => (st p).resize z B) = st := by
  funext p
  rw [← hlen p]; exact resize_self z (st p)

section loop
variable {P : ℕ} {tgt : ρ → ℤ} {M : Multiset ρ}

/-- The loop from a stage that is executed: it either finishes or stops at some later stage with an
intact state because the buffer is too small. -/
theorem loop_run (z f : ρ) (start B : ℕ) (n base : ℕ → ℕ) (h : GroupInv P n base) (hb : Balanced P n)
    (st : ℕ → CrystalData ρ) (hst : StInv P tgt B n base M st) (ms i : ℕ) (hms : ms ≤ B) (hi : start ≤ i) :
    ∃ st' ms' i', crystalLoop P tgt z f start B n base st ms i = .ok (st', ms', i') ∧
      ((ms' ≤ B ∧ (∃ d, ¬ 1 < maxGlobal P (lev n base d).1 ∧ StInv P tgt B (lev n base d).1 (lev n base d).2 M st') ∧
          (1 < maxGlobal P n → ms' = maxGlobal P (fun p => (st' p).n))) ∨
       (B < ms' ∧ ∃ d, i' = i + d ∧ (∀ e ≤ d, 1 < maxGlobal P (lev n base e).1) ∧
          StInv P tgt B (lev n base d).1 (lev n base d).2 M st' ∧
          need P tgt (lev n base d).1 (lev n base d).2 st' = ms' ∧
          (need P tgt n base st ≤ B → 0 < d))) := by
  induction hm : maxGlobal P n using Nat.strong_induction_on generalizing n base st ms i with
  | _ m ih =>
    by_cases hc : 1 < maxGlobal P n
    · obtain ⟨next, e1, e2⟩ := stage_inv h hb z f hst
      rw [crystalLoop, dif_pos hc, e1]
      simp only [bind, Except.bind, if_pos (show i ≥ start from hi)]
      by_cases hB : need P tgt n base st > B
      · rw [if_pos hB]
        refine ⟨_, _, _, rfl, .inr ⟨hB, 0, rfl, ?_, ?_, ?_, ?_⟩⟩
        · intro e he
          have : e = 0 := by omega
          subst this; exact hc
        · rw [resize_state z hst.len]; exact hst
        · rw [resize_state z hst.len]; rfl
        · intro hh; omega
      · rw [if_neg hB]
        obtain ⟨e3, e4⟩ := e2 (by omega)
        have hlt := maxGlobal_next_lt P n base hc
        obtain ⟨st', ms', i', r1, r2⟩ := ih _ (by omega) _ _ h.next hb.next next e3
          (need P tgt n base st) (i + 1) (by omega) (by omega) rfl
        refine ⟨st', ms', i', r1, ?_⟩
        rcases r2 with ⟨r3, ⟨d, r4, r5⟩, r6⟩ | ⟨r3, d, r4, r5, r6, r7, r8⟩
        · refine .inl ⟨r3, ⟨d + 1, r4, r5⟩, fun _ => ?_⟩
          by_cases hc' : 1 < maxGlobal P (nextN n base)
          · exact r6 hc'
          · rw [crystalLoop, dif_neg hc'] at r1
            simp only [Except.ok.injEq, Prod.mk.injEq] at r1
            obtain ⟨q1, q2, -⟩ := r1
            rw [← q2, ← q1]; exact e4
        · refine .inr ⟨r3, d + 1, by omega, ?_, r6, r7, fun _ => by omega⟩
          intro e he
          cases e with
          | zero => exact hc
          | succ e => exact r5 e (by omega)
    · rw [crystalLoop, dif_neg hc]
      exact ⟨st, ms, i, rfl, .inl ⟨hms, ⟨0, hc, hst⟩, fun hh => absurd hh (by omega)⟩⟩

/-- Stages before `start` only pass the data on. -/
theorem loop_skip (z f : ρ) (start B d : ℕ) (n base : ℕ → ℕ) (h : GroupInv P n base) (hb : Balanced P n)
    (st : ℕ → CrystalData ρ) (hlen : ∀ i, (st i).data.length = B) (hn : ∀ i < P, (st i).n ≤ B)
    (ms i : ℕ) (hms : ms ≤ B) (hi : i + d ≤ start)
    (hd : ∀ e < d, 1 < maxGlobal P (lev n base e).1) :
    crystalLoop P tgt z f start B n base st ms i =
      crystalLoop P tgt z f start B (lev n base d).1 (lev n base d).2 st ms (i + d) := by
  induction d generalizing n base i with
  | zero => rfl
  | succ d ih =>
    obtain ⟨next, ms', e1, -⟩ := stage_spec (tgt := tgt) h hb z f B st hlen hn
    rw [crystalLoop, dif_pos (show 1 < maxGlobal P n from hd 0 (by omega)), e1]
    simp only [bind, Except.bind, if_neg (show ¬ i ≥ start by omega), resize_state z hlen]
    rw [if_neg (by omega), ih _ _ h.next hb.next (i + 1) (by omega) (fun e he => hd (e + 1) (by omega))]
    rw [show i + 1 + d = i + (d + 1) by omega]
    rfl

theorem le_bitCeil (n : ℕ) : n ≤ bitCeil n := by
  unfold bitCeil
  split
  · omega
  · have := Nat.lt_size_self (n - 1)
    rw [Nat.one_shiftLeft]; omega

/-- What the router promises about its result. -/
def RouterPost (P : ℕ) (tgt : ρ → ℤ) (M : Multiset ρ) (out : ℕ → CrystalData ρ) : Prop :=
  ∀ p < P, (out p).data.length = maxGlobal P (fun p => (out p).n) ∧
    ((out p).valid : Multiset ρ) = M.filter (fun r => tgt r = (p : ℤ))

theorem init_lev_pos (P : ℕ) (hP : 2 ≤ P) : 1 < maxGlobal P (fun _ => P) := by
  have := le_maxGlobal (fun _ => P) (show 0 < P by omega)
  omega

theorem post_of_inv {B : ℕ} {n base : ℕ → ℕ} (h : GroupInv P n base) (hc : ¬ 1 < maxGlobal P n)
    {st : ℕ → CrystalData ρ} (hst : StInv P tgt B n base M st) {ms : ℕ} (hms : ms ≤ B)
    (e : ms = maxGlobal P (fun p => (st p).n)) :
    RouterPost P tgt M (fun p => { data := (st p).data.take ms, n := (st p).n }) := by
  intro p hp
  have hle : (st p).n ≤ ms := by rw [e]; exact le_maxGlobal (fun p => (st p).n) hp
  constructor
  · simp only [List.length_take, hst.len]
    rw [← e]; omega
  · have hv : (({ data := (st p).data.take ms, n := (st p).n } : CrystalData ρ)).valid = (st p).valid := by
      simp [CrystalData.valid, List.take_take, hle]
    rw [hv, ← hst.sum]
    have htgt : ∀ q < P, ∀ r ∈ (st q).valid, tgt r = (q : ℤ) := by
      intro q hq r hr
      have h1 := hst.inGroup q hq r hr
      have h2 := h.base_le q hq
      have h3 := h.lt_end q hq
      have h4 := le_maxGlobal n hq
      omega
    have : ∀ s : Finset ℕ, (∀ q ∈ s, q < P) →
        (∑ q ∈ s, ((st q).valid : Multiset ρ)).filter (fun r => tgt r = (p : ℤ)) =
        ∑ q ∈ s, (if q = p then ((st q).valid : Multiset ρ) else 0) := by
      intro s
      classical
      induction s using Finset.induction_on with
      | empty => intro _; simp
      | insert a s ha ihs =>
        intro hs
        rw [Finset.sum_insert ha, Finset.sum_insert ha, Multiset.filter_add,
          ihs (fun q hq => hs q (Finset.mem_insert_of_mem hq))]
        congr 1
        have haP := hs a (Finset.mem_insert_self a s)
        split
        · next hap =>
          rw [Multiset.filter_eq_self]
          intro r hr
          rw [htgt a haP r (by simpa using hr), hap]
        · next hap =>
          rw [Multiset.filter_eq_nil]
          intro r hr
          rw [htgt a haP r (by simpa using hr)]
          omega
    rw [this _ (fun q hq => Finset.mem_range.1 hq), Finset.sum_ite_eq' , if_pos (Finset.mem_range.2 hp)]

/-- The state invariant survives growing the buffer. -/
theorem StInv.grow {B B' : ℕ} {n base : ℕ → ℕ} {st : ℕ → CrystalData ρ} (h : GroupInv P n base)
    (hb : Balanced P n) (z : ρ)
    (hst : StInv P tgt B n base M st) (hB : B ≤ B') :
    StInv P tgt B' n base M (fun p => (st p).resize z B') ∧
    need P tgt n base (fun p => (st p).resize z B') = need P tgt n base st := by
  have hv : ∀ i < P, ((st i).resize z B').valid = (st i).valid := by
    intro i hi
    have := hst.n_le i hi
    exact resize_valid z _ _ (by omega) (by rw [hst.len]; exact this)
  refine ⟨⟨fun i => resize_len _ _ _, fun i hi => le_trans (hst.n_le i hi) hB, ?_, ?_⟩, ?_⟩
  · intro i hi r hr
    have hr : r ∈ ((st i).resize z B').valid := hr
    rw [hv i hi] at hr
    exact hst.inGroup i hi r hr
  · rw [← hst.sum]
    exact Finset.sum_congr rfl (fun i hi => by rw [hv i (Finset.mem_range.1 hi)])
  · exact maxGlobal_congr (fun i hi => by rw [outL_congr h hb hv hi])

/-- One run of the loop resumed at stage `k`. -/
theorem while_step (z f : ρ) (k B fuel : ℕ) (st : ℕ → CrystalData ρ)
    (hk : ∀ e ≤ k, 1 < maxGlobal P (lev (fun _ => P) (fun _ => 0) e).1)
    (hst : StInv P tgt B (lev (fun _ => P) (fun _ => 0) k).1 (lev (fun _ => P) (fun _ => 0) k).2 M st) :
    (∃ out, crystalWhile P tgt z f (fuel + 1) B st k = some (.ok out) ∧ RouterPost P tgt M out) ∨
    (∃ d B' st', crystalWhile P tgt z f (fuel + 1) B st k = crystalWhile P tgt z f fuel B' st' (k + d) ∧
      (need P tgt (lev (fun _ => P) (fun _ => 0) k).1 (lev (fun _ => P) (fun _ => 0) k).2 st ≤ B → 0 < d) ∧
      (∀ e ≤ k + d, 1 < maxGlobal P (lev (fun _ => P) (fun _ => 0) e).1) ∧
      StInv P tgt B' (lev (fun _ => P) (fun _ => 0) (k + d)).1 (lev (fun _ => P) (fun _ => 0) (k + d)).2 M st' ∧
      need P tgt (lev (fun _ => P) (fun _ => 0) (k + d)).1 (lev (fun _ => P) (fun _ => 0) (k + d)).2 st' ≤ B') := by
  have hg0 := GroupInv.init P
  have hb0 : Balanced P (fun _ => P) := fun i _ j _ => Nat.le_succ P
  obtain ⟨hg, hb⟩ := lev_inv hg0 hb0 k
  have hskip := loop_skip (tgt := tgt) z f k B k _ _ hg0 hb0 st hst.len hst.n_le 0 0 (by omega) (by omega)
    (fun e he => hk e (by omega))
  obtain ⟨st', ms', i', r1, r2⟩ := loop_run z f k B _ _ hg hb st hst 0 (0 + k) (by omega) (by omega)
  rw [← hskip] at r1
  have hun : crystalWhile P tgt z f (fuel + 1) B st k =
      if ms' > B then
        crystalWhile P tgt z f fuel (bitCeil ms') (fun p => (st' p).resize z (bitCeil ms')) i'
      else
        some (.ok (fun p => { data := (st' p).data.take ms', n := (st' p).n })) := by
    conv_lhs => rw [crystalWhile]
    rw [r1]
  rw [hun]
  rcases r2 with ⟨r3, ⟨d, r4, r5⟩, r6⟩ | ⟨r3, d, r4, r5, r6, r7, r8⟩
  · left
    rw [if_neg (by omega)]
    exact ⟨_, rfl, post_of_inv (lev_inv hg hb d).1 r4 r5 r3 (r6 (hk k le_rfl))⟩
  · right
    rw [if_pos r3]
    simp only [lev_add] at r5 r6 r7
    have hle := le_bitCeil ms'
    obtain ⟨gk, bk⟩ := lev_inv hg0 hb0 (k + d)
    obtain ⟨g1, g2⟩ := r6.grow gk bk z (show B ≤ bitCeil ms' by omega)
    refine ⟨d, bitCeil ms', _, by rw [r4, Nat.zero_add], r8, ?_, g1, by rw [g2, r7]; exact hle⟩
    intro e he
    by_cases hek : e ≤ k
    · exact hk e hek
    · have := r5 (e - k) (by omega)
      rwa [show k + (e - k) = e by omega] at this

/-- With enough buffer for the next stage, as many runs as there are stages left suffice. -/
theorem while_spec (z f : ρ) (rem : ℕ) : ∀ (k B : ℕ) (st : ℕ → CrystalData ρ),
    (∀ e ≤ k, 1 < maxGlobal P (lev (fun _ => P) (fun _ => 0) e).1) →
    StInv P tgt B (lev (fun _ => P) (fun _ => 0) k).1 (lev (fun _ => P) (fun _ => 0) k).2 M st →
    need P tgt (lev (fun _ => P) (fun _ => 0) k).1 (lev (fun _ => P) (fun _ => 0) k).2 st ≤ B →
    maxGlobal P (lev (fun _ => P) (fun _ => 0) k).1 ≤ 2 ^ rem →
    ∀ fuel ≥ rem, ∃ out, crystalWhile P tgt z f fuel B st k = some (.ok out) ∧ RouterPost P tgt M out := by
  induction rem using Nat.strong_induction_on with
  | _ rem ih =>
    intro k B st hk hst hneed hmax fuel hfuel
    have hk1 := hk k le_rfl
    have hrem : 0 < rem := by
      rcases Nat.eq_zero_or_pos rem with e | e
      · subst e; simp at hmax; omega
      · exact e
    obtain ⟨fuel, rfl⟩ : ∃ g, fuel = g + 1 := ⟨fuel - 1, by omega⟩
    rcases while_step z f k B fuel st hk hst with r | ⟨d, B', st', r1, r2, r3, r4, r5⟩
    · exact r
    · have hd := r2 hneed
      have hdr : d < rem := by
        by_contra hc
        have : maxGlobal P (lev (fun _ => P) (fun _ => 0) (k + d)).1 ≤ 2 ^ 0 := by
          rw [← lev_add]
          apply maxGlobal_lev_le
          exact le_trans hmax (Nat.pow_le_pow_right (by omega) (by omega))
        have := r3 (k + d) le_rfl
        simp at *
        omega
      rw [r1]
      refine ih (rem - d) (by omega) (k + d) B' st' r3 r4 r5 ?_ fuel (by omega)
      rw [← lev_add]
      apply maxGlobal_lev_le
      rwa [show rem - d + d = rem by omega]

theorem while_total (hP : 2 ≤ P) (z f : ρ) (B : ℕ) (st : ℕ → CrystalData ρ)
    (hst : StInv P tgt B (fun _ => P) (fun _ => 0) M st) :
    ∀ fuel ≥ Nat.clog 2 P + 1,
      ∃ out, crystalWhile P tgt z f fuel B st 0 = some (.ok out) ∧ RouterPost P tgt M out := by
  intro fuel hfuel
  obtain ⟨fuel, rfl⟩ : ∃ g, fuel = g + 1 := ⟨fuel - 1, by omega⟩
  have h0 : ∀ e ≤ 0, 1 < maxGlobal P (lev (fun _ => P) (fun _ => 0) e).1 := by
    intro e he
    have : e = 0 := by omega
    subst this
    exact init_lev_pos P hP
  have hmax : maxGlobal P (lev (fun _ => P) (fun _ => 0) 0).1 ≤ 2 ^ Nat.clog 2 P :=
    Finset.sup_le (fun i _ => Nat.le_pow_clog (by omega) P)
  rcases while_step z f 0 B fuel st h0 hst with r | ⟨d, B', st', r1, r2, r3, r4, r5⟩
  · exact r
  · rw [r1]
    refine while_spec z f (Nat.clog 2 P) (0 + d) B' st' r3 r4 r5 ?_ fuel (by omega)
    rw [← lev_add]
    apply maxGlobal_lev_le
    exact le_trans hmax (Nat.pow_le_pow_right (by omega) (by omega))

theorem router_spec (hP : 2 ≤ P) (tgt : ρ → ℤ) (z f : ρ) (size : ℕ) (st : ℕ → CrystalData ρ)
    (hlen : ∀ p < P, (st p).data.length = size) (hn : ∀ p < P, (st p).n ≤ size)
    (ht : ∀ p < P, ∀ r ∈ (st p).valid, 0 ≤ tgt r ∧ tgt r < (P : ℤ)) :
    ∀ fuel ≥ Nat.clog 2 P + 1, ∃ out, crystalRouter P tgt z f size fuel st = some (.ok out) ∧
      RouterPost P tgt (∑ p ∈ Finset.range P, ((st p).valid : Multiset ρ)) out := by
  have hle := le_bitCeil size
  have hv : ∀ p < P, ((st p).resize z (bitCeil size)).valid = (st p).valid := by
    intro p hp
    have := hn p hp
    exact resize_valid _ _ _ (by omega) (by rw [hlen p hp]; exact this)
  refine while_total hP z f _ _ ⟨fun i => resize_len _ _ _, fun i hi => le_trans (hn i hi) hle, ?_, ?_⟩
  · intro i hi r hr
    have hr : r ∈ ((st i).resize z (bitCeil size)).valid := hr
    rw [hv i hi] at hr
    have := ht i hi r hr
    simp only
    omega
  · exact Finset.sum_congr rfl (fun i hi => by rw [hv i (Finset.mem_range.1 hi)])

/-- The router with source labels on rows `r`: the rows `(r, q)` for `r` from device `q`. -/
theorem routerSource_spec (hP : 2 ≤ P) (tgt : ρ → ℤ) (z f : ρ) (fs : ℤ) (size : ℕ) (st : ℕ → CrystalData ρ)
    (hlen : ∀ p < P, (st p).data.length = size) (hn : ∀ p < P, (st p).n ≤ size)
    (ht : ∀ p < P, ∀ r ∈ (st p).valid, 0 ≤ tgt r ∧ tgt r < (P : ℤ)) :
    ∀ fuel ≥ Nat.clog 2 P + 1, ∃ out, crystalRouterSource P tgt z f fs size fuel st = some (.ok out) ∧
      RouterPost P (fun r => tgt r.1)
        (∑ p ∈ Finset.range P, (((st p).valid.map (fun r => (r, (p : ℤ)))) : Multiset (ρ × ℤ))) out := by
  have hle := le_bitCeil size
  have hv : ∀ p < P, ((st p).resize z (bitCeil size)).valid = (st p).valid := by
    intro p hp
    have := hn p hp
    exact resize_valid _ _ _ (by omega) (by rw [hlen p hp]; exact this)
  have hv2 : ∀ p < P, (CrystalData.mk (((st p).resize z (bitCeil size)).data.map (fun r => (r, (p : ℤ))))
      ((st p).resize z (bitCeil size)).n).valid =
      (st p).valid.map (fun r => (r, (p : ℤ))) := by
    intro p hp
    rw [← hv p hp]
    simp [CrystalData.valid, List.map_take]
  refine while_total hP (z, 0) (f, fs) _ _ ⟨fun i => ?_, fun i hi => le_trans (hn i hi) hle, ?_, ?_⟩
  · simp only [List.length_map]; exact resize_len _ _ _
  · intro i hi r hr
    have hr : r ∈ (CrystalData.mk (((st i).resize z (bitCeil size)).data.map (fun r => (r, (i : ℤ))))
      ((st i).resize z (bitCeil size)).n).valid := hr
    rw [hv2 i hi] at hr
    obtain ⟨r', hr', rfl⟩ := List.mem_map.1 hr
    have := ht i hi r' hr'
    simp only
    omega
  · exact Finset.sum_congr rfl (fun i hi => by
      have := hv2 i (Finset.mem_range.1 hi)
      simp only at this ⊢
      rw [this])

/-- The loop never raises, whatever the targets are. -/
theorem loop_no_error (z f : ρ) (start B : ℕ) (n base : ℕ → ℕ) (h : GroupInv P n base) (hb : Balanced P n)
    (st : ℕ → CrystalData ρ) (hlen : ∀ i, (st i).data.length = B) (hn : ∀ i < P, (st i).n ≤ B) (ms i : ℕ) :
    ∃ st' ms' i', crystalLoop P tgt z f start B n base st ms i = .ok (st', ms', i') ∧
      (∀ i, (st' i).data.length = B) ∧ (∀ i < P, (st' i).n ≤ B) := by
  induction hm : maxGlobal P n using Nat.strong_induction_on generalizing n base st ms i with
  | _ m ih =>
    by_cases hc : 1 < maxGlobal P n
    · obtain ⟨next, ms', e1, e2, e3, e4⟩ := stage_spec (tgt := tgt) h hb z f B st hlen hn
      have hlt := maxGlobal_next_lt P n base hc
      rw [crystalLoop, dif_pos hc, e1]
      simp only [bind, Except.bind]
      by_cases hi : i ≥ start
      · simp only [if_pos hi]
        by_cases hB : ms' > B
        · rw [if_pos hB, resize_state z hlen]
          exact ⟨_, _, _, rfl, hlen, hn⟩
        · rw [if_neg hB]
          exact ih _ (by omega) _ _ h.next hb.next next e3 (fun i hi => (e4 (by omega) i hi).1) _ _ rfl
      · simp only [if_neg hi, resize_state z hlen]
        by_cases hB : ms > B
        · rw [if_pos hB]
          exact ⟨_, _, _, rfl, hlen, hn⟩
        · rw [if_neg hB]
          exact ih _ (by omega) _ _ h.next hb.next st hlen hn _ _ rfl
    · rw [crystalLoop, dif_neg hc]
      exact ⟨_, _, _, rfl, hlen, hn⟩

theorem while_no_error (z f : ρ) (fuel B : ℕ)
    (st : ℕ → CrystalData ρ) (hlen : ∀ i, (st i).data.length = B) (hn : ∀ i < P, (st i).n ≤ B) (i : ℕ) (e : String) :
    crystalWhile P tgt z f fuel B st i ≠ some (.error e) := by
  induction fuel generalizing B st i with
  | zero => simp [crystalWhile]
  | succ fuel ih =>
    obtain ⟨st', ms', i', e1, e2, e3⟩ := loop_no_error (tgt := tgt) z f i B _ _ (GroupInv.init P)
      (fun i _ j _ => Nat.le_succ P) st hlen hn 0 0
    rw [crystalWhile, e1]
    simp only
    split
    · next hB =>
      refine ih _ _ (fun i => resize_len _ _ _) (fun i hi => ?_) _
      have := le_bitCeil ms'
      exact le_trans (e3 i hi) (by omega)
    · simp

end loop

end Verif.Comm

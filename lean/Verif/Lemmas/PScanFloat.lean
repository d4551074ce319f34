import Verif.Lemmas.PScan
import Verif.Lemmas.ExchangeFloat
import Verif.Model.PScanFloat
import Mathlib.Algebra.BigOperators.Intervals
import Mathlib.Algebra.Order.BigOperators.Group.Finset
import Mathlib.Tactic.Linarith
import Mathlib.Tactic.Ring

/-! The fan-in / fan-out scheme for operators that are not associative: which bracketing it computes, and the rounding
errors of that bracketing. -/

namespace Verif.Comm

open Verif.Core

variable {α : Type*}

/-- The bracketing of the fan-in: the group of `n` devices that starts at `a`, cut in half with the larger half first. -/
def treeRed (op : α → α → α) (x : ℕ → α) (a n : ℕ) : α :=
  if _h : n ≤ 1 then x a
  else op (treeRed op x a ((n + 1) / 2)) (treeRed op x (a + (n + 1) / 2) (n - (n + 1) / 2))
termination_by n

theorem treeRed_one (op : α → α → α) (x : ℕ → α) (a : ℕ) {n : ℕ} (h : n ≤ 1) : treeRed op x a n = x a := by
  rw [treeRed, dif_pos h]

theorem treeRed_split (op : α → α → α) (x : ℕ → α) (a : ℕ) {n : ℕ} (h : 1 < n) :
    treeRed op x a n = op (treeRed op x a ((n + 1) / 2)) (treeRed op x (a + (n + 1) / 2) (n - (n + 1) / 2)) := by
  rw [treeRed, dif_neg (by omega)]

/-- The bracketing of the fan-out: the prefix of device `i` in the group of `n` devices that starts at `a`, when the prefix
of device `a` is `acc`. -/
def treeScan (op : α → α → α) (x : ℕ → α) (i a n : ℕ) (acc : α) : α :=
  if _h : n ≤ 1 then acc
  else if i < a + (n + 1) / 2 then treeScan op x i a ((n + 1) / 2) acc
  else treeScan op x i (a + (n + 1) / 2) (n - (n + 1) / 2) (op acc (treeRed op x a ((n + 1) / 2)))
termination_by n

theorem treeScan_one (op : α → α → α) (x : ℕ → α) (i a : ℕ) {n : ℕ} (acc : α) (h : n ≤ 1) :
    treeScan op x i a n acc = acc := by
  rw [treeScan, dif_pos h]

theorem treeScan_lo (op : α → α → α) (x : ℕ → α) {i a n : ℕ} (acc : α) (h : 1 < n) (hi : i < a + (n + 1) / 2) :
    treeScan op x i a n acc = treeScan op x i a ((n + 1) / 2) acc := by
  rw [treeScan, dif_neg (by omega), if_pos hi]

theorem treeScan_hi (op : α → α → α) (x : ℕ → α) {i a n : ℕ} (acc : α) (h : 1 < n) (hi : ¬ i < a + (n + 1) / 2) :
    treeScan op x i a n acc =
      treeScan op x i (a + (n + 1) / 2) (n - (n + 1) / 2) (op acc (treeRed op x a ((n + 1) / 2))) := by
  rw [treeScan, dif_neg (by omega), if_neg hi]

variable {P : ℕ} {op : α → α → α} {unit : α} {x : ℕ → α}

/-- After the fan-in every group base holds the tree of its group and its `scan` is untouched. -/
theorem fanIn_tree {n base : ℕ → ℕ} (h : GroupInv P n base) (st : FanIn α) (hst : st.red = x) :
    ∀ i < P, i = base i →
      (fanInPure op (scanSchedule P n base) st).red i = treeRed op x i (n i) ∧
      (fanInPure op (scanSchedule P n base) st).scan i = st.scan i := by
  induction n, base using scanSchedule.induct (P := P) with
  | case1 n base hc ih =>
    intro i hi e
    have ih' := ih h.next
    rw [scanSchedule_pos hc]
    simp only [fanInPure, fanInStepPure]
    have hn := h.n_pos hi
    have h3 := h.end_le i hi
    obtain ⟨r1, r2⟩ := ih' i hi (nextBase_of_base h hi e)
    have hnotHi : (scanStage n base).isBaseHi i = false := by
      apply isBaseHi_false
      unfold baseHi nLo; omega
    constructor
    · by_cases c : 1 < n i
      · have hlo : (scanStage n base).isBaseLo i = true := isBaseLo_iff.2 ⟨c, e⟩
        have ht : (scanStage n base).target i = baseHi n base i := by
          simp only [scanStage]
          rw [if_neg, if_pos]
          · simp only [Bool.and_eq_true, decide_eq_true_eq]; exact ⟨c, e⟩
          · simp only [Bool.and_eq_true, decide_eq_true_eq]; unfold baseHi nLo; omega
        rw [hlo, if_pos rfl, r1, ht]
        obtain ⟨s1, s2⟩ := h.same i hi (baseHi n base i) (by unfold baseHi; omega)
          (by unfold baseHi nLo; omega)
        have ebh : baseHi n base (baseHi n base i) = baseHi n base i := baseHi_congr s1 s2
        have hlt : baseHi n base i < P := by unfold baseHi nLo; omega
        obtain ⟨q1, -⟩ := ih' (baseHi n base i) hlt (by
          unfold nextBase; rw [ebh, if_neg (by omega)])
        rw [q1]
        have en1 : nextN n base i = (n i + 1) / 2 := by
          unfold nextN
          rw [if_pos (by unfold baseHi nLo; omega)]; rfl
        have en2 : nextN n base (baseHi n base i) = n i - (n i + 1) / 2 := by
          unfold nextN
          rw [ebh, if_neg (by omega)]
          unfold nLo; rw [s2]
        have en3 : baseHi n base i = i + (n i + 1) / 2 := by
          unfold baseHi nLo; omega
        rw [en1, en2, en3, treeRed_split op x i c]
      · have hlo : (scanStage n base).isBaseLo i = false := isBaseLo_false (fun hh => c hh.1)
        rw [hlo, if_neg (by simp), r1]
        congr 1
        unfold nextN nLo
        rw [if_pos (by unfold baseHi nLo; omega)]; omega
    · rw [hnotHi, if_neg (by simp), r2]
  | case2 n base hc =>
    intro i hi e
    rw [scanSchedule_neg hc]
    have h1 := h.n_pos hi
    have h2 := le_maxGlobal n hi
    have e1 : n i = 1 := by omega
    simp only [fanInPure, e1, hst, and_true]
    rw [treeRed_one _ _ _ le_rfl]

/-- `scan`, `y` and `red` of the right child of a stage after fan-in. -/
theorem fanIn_tree_hi {n base : ℕ → ℕ} (h : GroupInv P n base) (st : FanIn α) (hst : st.red = x)
    (hc : 1 < maxGlobal P n) {i : ℕ} (hi : i < P) (hhi : (scanStage n base).isBaseHi i = true) :
    (fanInPure op (scanSchedule P n base) st).scan i = treeRed op x (base i) ((n i + 1) / 2) ∧
    (fanInPure op (scanSchedule P n base) st).y i = treeRed op x (base i) ((n i + 1) / 2) ∧
    (fanInPure op (scanSchedule P n base) st).red i = treeRed op x i (n i - (n i + 1) / 2) ∧
    (scanStage n base).target i = base i ∧ base i < P ∧ base (base i) = base i := by
  obtain ⟨c, e⟩ := isBaseHi_iff.1 hhi
  have h1 := h.base_le i hi
  have h2 := h.lt_end i hi
  obtain ⟨s1, s2⟩ := h.same i hi (base i) le_rfl (by omega)
  have ht : (scanStage n base).target i = base i := by
    simp only [scanStage]
    rw [if_pos]; simp only [Bool.and_eq_true, decide_eq_true_eq]; exact ⟨c, e⟩
  have hb : base i < P := by omega
  obtain ⟨q1, -⟩ := fanIn_tree (op := op) h.next st hst (base i) hb (nextBase_of_base h hb s1.symm)
  have en : nextN n base (base i) = (n i + 1) / 2 := by
    unfold nextN
    rw [if_pos (by unfold baseHi nLo; rw [s1, s2]; omega)]
    unfold nLo; rw [s2]
  rw [en] at q1
  obtain ⟨q2, -⟩ := fanIn_tree (op := op) h.next st hst i hi (by
    unfold nextBase; rw [if_neg (by omega)]; exact e)
  rw [scanSchedule_pos hc]
  simp only [fanInPure, fanInStepPure, hhi, if_true, ht, q1, true_and]
  refine ⟨?_, hb, s1⟩
  have hlo : (scanStage n base).isBaseLo i = false := by
    apply isBaseLo_false
    unfold baseHi nLo at e; omega
  rw [hlo, if_neg (by simp), q2]
  congr 1
  unfold nextN
  rw [if_neg (by omega)]; rfl

/-- The fan-out of the scan computes `treeScan` from the prefixes of the group bases. -/
theorem fanOut_treeScan {n base : ℕ → ℕ} (h : GroupInv P n base) (st : FanIn α) (hst : st.red = x) (scan : ℕ → α)
    (hrest : ∀ i < P, i ≠ base i → scan i = (fanInPure op (scanSchedule P n base) st).scan i) :
    ∀ i < P, fanOutPure (fun a b => op b a) (scanSchedule P n base) scan i =
      treeScan op x i (base i) (n i) (scan (base i)) := by
  induction n, base using scanSchedule.induct (P := P) generalizing scan with
  | case1 n base hc ih =>
    intro i hi
    rw [scanSchedule_pos hc] at hrest ⊢
    simp only [fanOutPure]
    have key : ∀ j < P, j = base j → (scanStage n base).isBaseHi j = false := by
      intro j hj e
      apply isBaseHi_false
      intro hcon
      have := hcon.2
      unfold baseHi nLo at this; omega
    have h1 := h.base_le i hi
    have h2 := h.lt_end i hi
    have h3 := h.end_le i hi
    obtain ⟨s1, s2⟩ := h.same i hi (base i) le_rfl (by omega)
    rw [ih h.next]
    · by_cases c : 1 < n i
      · by_cases hlo : i < baseHi n base i
        · have e1 : nextBase n base i = base i := if_pos hlo
          have e2 : nextN n base i = (n i + 1) / 2 := if_pos hlo
          rw [e1, e2, key (base i) (by omega) s1.symm]
          simp only [Bool.false_eq_true, if_false]
          exact (treeScan_lo op x _ c hlo).symm
        · have e1 : nextBase n base i = baseHi n base i := if_neg hlo
          have e2 : nextN n base i = n i - (n i + 1) / 2 := if_neg hlo
          obtain ⟨t1, t2⟩ := h.same i hi (baseHi n base i) (by unfold baseHi; omega) (by omega)
          have ebh : baseHi n base (baseHi n base i) = baseHi n base i := baseHi_congr t1 t2
          have hhi : (scanStage n base).isBaseHi (baseHi n base i) = true :=
            isBaseHi_iff.2 ⟨by rw [t2]; exact c, ebh.symm⟩
          obtain ⟨r1, -, -, ht, hb, -⟩ := fanIn_tree_hi (op := op) h st hst hc (by omega) hhi
          have hne : baseHi n base i ≠ base (baseHi n base i) := by
            rw [t1]; unfold baseHi nLo; omega
          have hr := hrest _ (by omega) hne
          rw [← scanSchedule_pos hc, r1, t1, t2] at hr
          rw [e1, e2, hhi, if_pos rfl, ht, hr, t1]
          exact (treeScan_hi op x _ c hlo).symm
      · have e : n i = 1 := by omega
        have hlo : i < baseHi n base i := by unfold baseHi nLo; omega
        have e1 : nextBase n base i = base i := if_pos hlo
        have e2 : nextN n base i = 1 := by rw [nextN, if_pos hlo, nLo, e]
        rw [e1, e2, e, key (base i) (by omega) s1.symm]
        simp
    · intro j hj e
      have e1 : j ≠ base j := fun e' => e (nextBase_of_base h hj e')
      have e2 : (scanStage n base).isBaseHi j = false := by
        apply isBaseHi_false
        intro hcon
        apply e
        unfold nextBase; rw [if_neg (by omega)]; exact hcon.2
      rw [e2, if_neg (by simp), hrest j hj e1]
      simp only [fanInPure, fanInStepPure, e2]
      simp
    · exact hi
  | case2 n base hc =>
    intro i hi
    rw [scanSchedule_neg hc]
    simp only [fanOutPure]
    have h1 := h.base_le i hi
    have h2 := h.lt_end i hi
    have h3 := le_maxGlobal n hi
    rw [treeScan_one _ _ _ _ _ (by omega)]
    congr 1
    omega

/-- The prefix that `pscan` returns on device `i`. On the top level the right half starts from the tree of the left half
itself. -/
def prefixTree (op : α → α → α) (unit : α) (x : ℕ → α) (P i : ℕ) : α :=
  if P ≤ 1 then unit
  else if i < (P + 1) / 2 then treeScan op x i 0 ((P + 1) / 2) unit
  else treeScan op x i ((P + 1) / 2) (P - (P + 1) / 2) (treeRed op x 0 ((P + 1) / 2))

/-- Data at the end of the fan-in phase, for any operator. -/
theorem fanInAll_tree (op : α → α → α) (unit : α) (x : ℕ → α) (b : Bool) :
    ∃ st, fanInAll P op unit x b = .ok (scanSchedule P (fun _ => P) (fun _ => 0), st) ∧
      (∀ i < P, fanOutPure (fun a b => op b a) (scanSchedule P (fun _ => P) (fun _ => 0)).tail st.scan i
          = prefixTree op unit x P i) ∧
      (b = true → ∀ i < P,
        fanOutPure (fun _ b => b) (scanSchedule P (fun _ => P) (fun _ => 0)).tail st.red i
          = treeRed op x 0 P) := by
  have h := GroupInv.init P
  set n : ℕ → ℕ := fun _ => P with hn
  set base : ℕ → ℕ := fun _ => 0 with hbase
  set st0 : FanIn α := { red := x, scan := fun _ => unit, y := x } with hst0
  have hin := fanIn_eq (op := op) h st0
  by_cases hc : 1 < maxGlobal P n
  · have hP : 0 < P := by
      by_contra h0
      have : P = 0 := by omega
      subst this
      simp [maxGlobal] at hc
    have hP1 : 1 < P := by rwa [hn, maxGlobal_const P P hP] at hc
    have hs := scanSchedule_pos (P := P) (n := n) (base := base) hc
    have hspec := fanIn_tree (op := op) h st0 rfl
    refine ⟨if b then { fanInPure op (scanSchedule P n base) st0 with
        red := fun i => if (scanStage n base).isBaseHi i then
          op ((fanInPure op (scanSchedule P n base) st0).y i)
            ((fanInPure op (scanSchedule P n base) st0).red i)
          else (fanInPure op (scanSchedule P n base) st0).red i } else
        fanInPure op (scanSchedule P n base) st0, ?_, ?_, ?_⟩
    · unfold fanInAll
      simp only [← hn, ← hbase, ← hst0, hin, bind, Except.bind]
      rw [hs]
      cases b <;> rfl
    · suffices hsuf : ∀ i < P, fanOutPure (fun a b => op b a) (scanSchedule P n base).tail
          (fanInPure op (scanSchedule P n base) st0).scan i = prefixTree op unit x P i by
        cases b <;> exact hsuf
      intro i hi
      rw [hs, List.tail_cons, ← hs]
      rw [fanOut_treeScan h.next st0 rfl _ _ i hi]
      · unfold prefixTree
        rw [if_neg (by omega)]
        by_cases hlo : i < (P + 1) / 2
        · have hlo' : i < baseHi n base i := by simpa [baseHi, nLo, hn, hbase] using hlo
          have e1 : nextBase n base i = 0 := if_pos hlo'
          have e2 : nextN n base i = (P + 1) / 2 := if_pos hlo'
          rw [e1, e2, if_pos hlo, (hspec 0 hP rfl).2]
        · have hlo' : ¬ i < baseHi n base i := by simpa [baseHi, nLo, hn, hbase] using hlo
          have e0 : baseHi n base i = (P + 1) / 2 := by simp [baseHi, nLo, hn, hbase]
          have e1 : nextBase n base i = (P + 1) / 2 := (if_neg hlo').trans e0
          have e2 : nextN n base i = P - (P + 1) / 2 := if_neg hlo'
          have hhi : (scanStage n base).isBaseHi ((P + 1) / 2) = true :=
            isBaseHi_iff.2 ⟨hP1, by simp [baseHi, nLo, hn, hbase]⟩
          obtain ⟨q, -⟩ := fanIn_tree_hi (op := op) h st0 rfl hc (i := (P + 1) / 2) (by omega) hhi
          rw [e1, e2, if_neg hlo, q]
      · intro i hi ei
        rw [hs]
        have e2 : (scanStage n base).isBaseHi i = false := by
          apply isBaseHi_false
          intro hcon
          apply ei
          unfold nextBase; rw [if_neg (by omega)]; exact hcon.2
        simp only [fanInPure, fanInStepPure, e2]
        simp
    · intro hb
      subst hb
      rw [if_pos rfl, hs, List.tail_cons, ← hs]
      apply fanOut_red h.next
      intro i hi ei
      simp only
      rcases nextBase_cases ei with e' | e'
      · have e2 : (scanStage n base).isBaseHi i = false := by
          apply isBaseHi_false
          unfold baseHi nLo
          simp only [hbase, hn] at e' ⊢; omega
        obtain ⟨q, -⟩ := hspec i hi e'
        rw [e2, if_neg (by simp), q, e']
      · have hhi : (scanStage n base).isBaseHi i = true := isBaseHi_iff.2 ⟨hP1, e'⟩
        obtain ⟨-, q1, q2, -⟩ := fanIn_tree_hi (op := op) h st0 rfl hc hi hhi
        rw [if_pos hhi, q1, q2, treeRed_split op x 0 hP1]
        have e0 : i = (P + 1) / 2 := by simpa [baseHi, nLo, hn, hbase] using e'
        rw [zero_add, ← e0]
  · have hs := scanSchedule_neg (P := P) (n := n) (base := base) hc
    refine ⟨fanInPure op (scanSchedule P n base) st0, ?_, ?_, ?_⟩
    · unfold fanInAll
      simp only [← hn, ← hbase, ← hst0, hin, bind, Except.bind]
      rw [hs]
    · intro i hi
      rw [hs]
      simp only [List.tail_nil, fanOutPure, fanInPure]
      have : P ≤ 1 := by rw [hn, maxGlobal_const P P (by omega)] at hc; omega
      rw [prefixTree, if_pos this]
    · intro _ i hi
      rw [hs]
      simp only [List.tail_nil, fanOutPure, fanInPure]
      have : P ≤ 1 := by rw [hn, maxGlobal_const P P (by omega)] at hc; omega
      have h0 : i = 0 := by omega
      rw [treeRed_one _ _ _ this, h0]

/-- `pscan`, `pscan(reduction=True)` and `preduce` for any operator and unit. -/
theorem pscan_tree (P : ℕ) (op : α → α → α) (unit : α) (x : ℕ → α) :
    (∃ r, pscan P op unit x = .ok r ∧ ∀ i < P, r i = prefixTree op unit x P i) ∧
    (∃ r, pscanReduce P op unit x = .ok r ∧ ∀ i < P, r i = (prefixTree op unit x P i, treeRed op x 0 P)) ∧
    ∃ r, preduce P op unit x = .ok r ∧ ∀ i < P, r i = treeRed op x 0 P := by
  obtain ⟨st, h1, h2, -⟩ := fanInAll_tree (P := P) op unit x false
  obtain ⟨st', h1', h2', h3'⟩ := fanInAll_tree (P := P) op unit x true
  refine ⟨⟨_, ?_, h2⟩, ⟨fanOutPure (fun (a b : α × α) => (op b.1 a.1, b.2))
    (scanSchedule P (fun _ => P) (fun _ => 0)).tail (fun i => (st'.scan i, st'.red i)), ?_, ?_⟩, ⟨_, ?_, h3' rfl⟩⟩
  · unfold pscan
    simp only [h1, bind, Except.bind]
    exact fanOut_tail _ _
  · unfold pscanReduce
    simp only [h1', bind, Except.bind]
    exact fanOut_tail _ _
  · intro i hi
    rw [fanOut_pair]
    exact Prod.ext (h2' i hi) (h3' rfl i hi)
  · unfold preduce
    simp only [h1', bind, Except.bind]
    exact fanOut_tail _ _

/-! ### What a property of all bracketings says about the two trees -/

theorem treeRed_pred {Q : ℕ → ℕ → α → Prop} (h1 : ∀ a, Q a (a + 1) (x a))
    (hop : ∀ a b c v w, Q a b v → Q b c w → Q a c (op v w)) (a : ℕ) {n : ℕ} (hn : 1 ≤ n) :
    Q a (a + n) (treeRed op x a n) := by
  induction n using Nat.strong_induction_on generalizing a with
  | _ n ih =>
    by_cases c : 1 < n
    · rw [treeRed_split op x a c]
      have q1 := ih ((n + 1) / 2) (by omega) a (by omega)
      have q2 := ih (n - (n + 1) / 2) (by omega) (a + (n + 1) / 2) (by omega)
      have e : a + (n + 1) / 2 + (n - (n + 1) / 2) = a + n := by omega
      rw [e] at q2
      exact hop _ _ _ _ _ q1 q2
    · have e : n = 1 := by omega
      subst e
      rw [treeRed_one _ _ _ le_rfl]
      exact h1 a

theorem treeScan_pred {Q : ℕ → ℕ → α → Prop} {R : ℕ → α → Prop} (h1 : ∀ a, Q a (a + 1) (x a))
    (hop : ∀ a b c v w, Q a b v → Q b c w → Q a c (op v w)) (hR : ∀ b c v w, R b v → Q b c w → R c (op v w)) (i : ℕ)
    (a : ℕ) {n : ℕ} (hn : 1 ≤ n) (hai : a ≤ i) (hin : i < a + n) {acc : α} (hacc : R a acc) :
    R i (treeScan op x i a n acc) := by
  induction n using Nat.strong_induction_on generalizing a acc with
  | _ n ih =>
    by_cases c : 1 < n
    · by_cases hlo : i < a + (n + 1) / 2
      · rw [treeScan_lo op x acc c hlo]
        exact ih _ (by omega) a (by omega) hai hlo hacc
      · rw [treeScan_hi op x acc c hlo]
        exact ih _ (by omega) _ (by omega) (by omega) (by omega) (hR _ _ _ _ hacc (treeRed_pred h1 hop a (by omega)))
    · rw [treeScan_one _ _ _ _ _ (by omega)]
      have : i = a := by omega
      rw [this]; exact hacc

theorem prefixTree_pred {Q : ℕ → ℕ → α → Prop} {R : ℕ → α → Prop} (h1 : ∀ a, Q a (a + 1) (x a))
    (hop : ∀ a b c v w, Q a b v → Q b c w → Q a c (op v w)) (hR : ∀ b c v w, R b v → Q b c w → R c (op v w))
    (hQR : ∀ b v, Q 0 b v → R b v) (hu : R 0 unit) {i : ℕ} (hi : i < P) : R i (prefixTree op unit x P i) := by
  unfold prefixTree
  split_ifs with c hlo
  · have : i = 0 := by omega
    rw [this]; exact hu
  · exact treeScan_pred h1 hop hR i 0 (by omega) (by omega) (by omega) hu
  · have := treeRed_pred h1 hop 0 (n := (P + 1) / 2) (by omega)
    rw [zero_add] at this
    exact treeScan_pred h1 hop hR i _ (by omega) (by omega) (by omega) (hQR _ _ this)

/-! ### Rounding errors -/

section
variable {fl : ℚ → ℚ} {ε : ℚ}

/-- `v` is the number `s` after at most `k` roundings of every term, where the terms add up to `A` in absolute value. -/
def Near (ε : ℚ) (k : ℕ) (s A v : ℚ) : Prop := |s| ≤ A ∧ |v - s| ≤ ((1 + ε) ^ k - 1) * A

theorem Near.mono (hε : 0 ≤ ε) {k m : ℕ} (hkm : k ≤ m) {s A v : ℚ} (h : Near ε k s A v) : Near ε m s A v := by
  refine ⟨h.1, h.2.trans ?_⟩
  have hA : 0 ≤ A := (abs_nonneg _).trans h.1
  have : (1 + ε) ^ k ≤ (1 + ε) ^ m := pow_le_pow_right₀ (by linarith) hkm
  exact mul_le_mul_of_nonneg_right (by linarith) hA

theorem Near.add (hε : 0 ≤ ε) (hfl : ∀ x, |fl x - x| ≤ ε * |x|) {k : ℕ} {s A v t B w : ℚ} (h1 : Near ε k s A v)
    (h2 : Near ε k t B w) : Near ε (k + 1) (s + t) (A + B) (addFl fl v w) := by
  refine ⟨(abs_add_le _ _).trans (add_le_add h1.1 h2.1), ?_⟩
  unfold addFl
  have e : fl (v + w) - (s + t) = (fl (v + w) - (v + w)) + ((v - s) + (w - t)) := by ring
  have hv : |v| ≤ (1 + ε) ^ k * A := by
    calc |v| = |(v - s) + s| := by ring_nf
      _ ≤ |v - s| + |s| := abs_add_le _ _
      _ ≤ ((1 + ε) ^ k - 1) * A + A := add_le_add h1.2 h1.1
      _ = (1 + ε) ^ k * A := by ring
  have hw : |w| ≤ (1 + ε) ^ k * B := by
    calc |w| = |(w - t) + t| := by ring_nf
      _ ≤ |w - t| + |t| := abs_add_le _ _
      _ ≤ ((1 + ε) ^ k - 1) * B + B := add_le_add h2.2 h2.1
      _ = (1 + ε) ^ k * B := by ring
  have hvw : ε * |v + w| ≤ ε * ((1 + ε) ^ k * A + (1 + ε) ^ k * B) :=
    mul_le_mul_of_nonneg_left ((abs_add_le _ _).trans (add_le_add hv hw)) hε
  have h3 := hfl (v + w)
  rw [e]
  refine (abs_add_le _ _).trans ((add_le_add_right (abs_add_le _ _) _).trans ?_)
  have h4 := h1.2
  have h5 := h2.2
  rw [pow_succ]
  linarith

theorem near_sum (x : ℕ → ℚ) (a b : ℕ) : |∑ j ∈ Finset.Ico a b, x j| ≤ ∑ j ∈ Finset.Ico a b, |x j| :=
  Finset.abs_sum_le_sum_abs _ _

theorem treeRed_near (hε : 0 ≤ ε) (hfl : ∀ x, |fl x - x| ≤ ε * |x|) (x : ℕ → ℚ) (a : ℕ) {n : ℕ} (hn : 1 ≤ n) {k : ℕ}
    (hk : n ≤ 2 ^ k) : Near ε k (∑ j ∈ Finset.Ico a (a + n), x j) (∑ j ∈ Finset.Ico a (a + n), |x j|)
      (treeRed (addFl fl) x a n) := by
  induction n using Nat.strong_induction_on generalizing a k with
  | _ n ih =>
    by_cases c : 1 < n
    · rw [treeRed_split _ x a c]
      obtain ⟨m, rfl⟩ : ∃ m, k = m + 1 := ⟨k - 1, by
        cases k with
        | zero => simp at hk; omega
        | succ k => rfl⟩
      rw [pow_succ] at hk
      have q1 := ih ((n + 1) / 2) (by omega) a (by omega) (k := m) (by omega)
      have q2 := ih (n - (n + 1) / 2) (by omega) (a + (n + 1) / 2) (by omega) (k := m) (by omega)
      have e : a + (n + 1) / 2 + (n - (n + 1) / 2) = a + n := by omega
      rw [e] at q2
      rw [← Finset.sum_Ico_consecutive _ (show a ≤ a + (n + 1) / 2 by omega) (show a + (n + 1) / 2 ≤ a + n by omega),
        ← Finset.sum_Ico_consecutive _ (show a ≤ a + (n + 1) / 2 by omega) (show a + (n + 1) / 2 ≤ a + n by omega)]
      exact q1.add hε hfl q2
    · have e : n = 1 := by omega
      subst e
      rw [treeRed_one _ _ _ le_rfl]
      refine ⟨near_sum x _ _, ?_⟩
      simp only [Nat.Ico_succ_singleton, Finset.sum_singleton, sub_self, abs_zero]
      have : (1 : ℚ) ≤ (1 + ε) ^ k := one_le_pow₀ (by linarith)
      exact mul_nonneg (by linarith) (abs_nonneg _)

theorem treeScan_near (hε : 0 ≤ ε) (hfl : ∀ x, |fl x - x| ≤ ε * |x|) (x : ℕ → ℚ) (i a : ℕ) {n : ℕ} (hn : 1 ≤ n)
    (hai : a ≤ i) (hin : i < a + n) {k m : ℕ} (hk : n ≤ 2 ^ k) (hkm : k ≤ m) {acc : ℚ}
    (hacc : Near ε m (∑ j ∈ Finset.Ico 0 a, x j) (∑ j ∈ Finset.Ico 0 a, |x j|) acc) :
    Near ε (m + k) (∑ j ∈ Finset.Ico 0 i, x j) (∑ j ∈ Finset.Ico 0 i, |x j|) (treeScan (addFl fl) x i a n acc) := by
  induction n using Nat.strong_induction_on generalizing a k m acc with
  | _ n ih =>
    by_cases c : 1 < n
    · obtain ⟨r, rfl⟩ : ∃ r, k = r + 1 := ⟨k - 1, by
        cases k with
        | zero => simp at hk; omega
        | succ k => rfl⟩
      rw [pow_succ] at hk
      by_cases hlo : i < a + (n + 1) / 2
      · rw [treeScan_lo _ x acc c hlo]
        exact (ih _ (by omega) a (by omega) hai hlo (k := r) (by omega) (by omega) hacc).mono hε (by omega)
      · rw [treeScan_hi _ x acc c hlo]
        have q := treeRed_near hε hfl x a (n := (n + 1) / 2) (by omega) (k := r) (by omega)
        have q' := hacc.add hε hfl (q.mono hε (show r ≤ m by omega))
        rw [Finset.sum_Ico_consecutive _ (Nat.zero_le _) (by omega),
          Finset.sum_Ico_consecutive _ (Nat.zero_le _) (by omega)] at q'
        have := ih (n - (n + 1) / 2) (by omega) (a + (n + 1) / 2) (by omega) (by omega) (by omega) (k := r) (by omega)
          (show r ≤ m + 1 by omega) q'
        rwa [show m + (r + 1) = m + 1 + r by omega]
    · rw [treeScan_one _ _ _ _ _ (by omega)]
      have : i = a := by omega
      subst this
      exact hacc.mono hε (by omega)

theorem prefixTree_near (hε : 0 ≤ ε) (hfl : ∀ x, |fl x - x| ≤ ε * |x|) (x : ℕ → ℚ) {i k : ℕ} (hi : i < P)
    (hk : P ≤ 2 ^ (k + 1)) :
    Near ε (2 * k) (∑ j ∈ Finset.Ico 0 i, x j) (∑ j ∈ Finset.Ico 0 i, |x j|) (prefixTree (addFl fl) 0 x P i) := by
  have h0 : ∀ m, Near ε m (∑ j ∈ Finset.Ico 0 0, x j) (∑ j ∈ Finset.Ico 0 0, |x j|) 0 := fun m => by
    constructor <;> simp
  rw [pow_succ] at hk
  rw [two_mul]
  unfold prefixTree
  split_ifs with c hlo
  · have : i = 0 := by omega
    rw [this]; exact h0 _
  · exact treeScan_near hε hfl x i 0 (by omega) (by omega) (by omega) (by omega) le_rfl (h0 k)
  · have := treeRed_near hε hfl x 0 (n := (P + 1) / 2) (by omega) (k := k) (by omega)
    rw [zero_add] at this
    exact treeScan_near hε hfl x i _ (by omega) (by omega) (by omega) (by omega) le_rfl this

/-- Products: every multiplication adds one rounding. -/
theorem mul_near (hε : 0 ≤ ε) (hfl : ∀ x, |fl x - x| ≤ ε * |x|) {k m : ℕ} {s v t w : ℚ}
    (h1 : |v - s| ≤ ((1 + ε) ^ k - 1) * |s|) (h2 : |w - t| ≤ ((1 + ε) ^ m - 1) * |t|) :
    |mulFl fl v w - s * t| ≤ ((1 + ε) ^ (k + m + 1) - 1) * |s * t| := by
  unfold mulFl
  have hs := abs_nonneg s
  have ht := abs_nonneg t
  have hk1 : (1 : ℚ) ≤ (1 + ε) ^ k := one_le_pow₀ (by linarith)
  have hm1 : (1 : ℚ) ≤ (1 + ε) ^ m := one_le_pow₀ (by linarith)
  have hv : |v| ≤ (1 + ε) ^ k * |s| := by
    calc |v| = |(v - s) + s| := by ring_nf
      _ ≤ |v - s| + |s| := abs_add_le _ _
      _ ≤ ((1 + ε) ^ k - 1) * |s| + |s| := add_le_add_left h1 _
      _ = (1 + ε) ^ k * |s| := by ring
  have hw : |w| ≤ (1 + ε) ^ m * |t| := by
    calc |w| = |(w - t) + t| := by ring_nf
      _ ≤ |w - t| + |t| := abs_add_le _ _
      _ ≤ ((1 + ε) ^ m - 1) * |t| + |t| := add_le_add_left h2 _
      _ = (1 + ε) ^ m * |t| := by ring
  have e : fl (v * w) - s * t = (fl (v * w) - v * w) + ((v - s) * w + s * (w - t)) := by ring
  have h3 := hfl (v * w)
  have h4 : |v * w| ≤ (1 + ε) ^ (k + m) * |s * t| := by
    rw [abs_mul, abs_mul, pow_add]
    calc |v| * |w| ≤ ((1 + ε) ^ k * |s|) * ((1 + ε) ^ m * |t|) :=
          mul_le_mul hv hw (abs_nonneg _) (mul_nonneg (by linarith) hs)
      _ = _ := by ring
  have h5 : |(v - s) * w + s * (w - t)| ≤ ((1 + ε) ^ (k + m) - 1) * |s * t| := by
    refine (abs_add_le _ _).trans ?_
    rw [abs_mul, abs_mul, abs_mul, pow_add]
    calc |v - s| * |w| + |s| * |w - t|
        ≤ (((1 + ε) ^ k - 1) * |s|) * ((1 + ε) ^ m * |t|) + |s| * (((1 + ε) ^ m - 1) * |t|) :=
          add_le_add (mul_le_mul h1 hw (abs_nonneg _) (mul_nonneg (by linarith) hs)) (mul_le_mul_of_nonneg_left h2 hs)
      _ = _ := by ring
  have h6 : ε * |v * w| ≤ ε * ((1 + ε) ^ (k + m) * |s * t|) := mul_le_mul_of_nonneg_left h4 hε
  rw [e]
  refine (abs_add_le _ _).trans ?_
  rw [pow_succ]
  linarith

end

end Verif.Comm

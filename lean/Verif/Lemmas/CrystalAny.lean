import Verif.Lemmas.Crystal
import Mathlib.Data.Nat.Log

/-!
# The crystal router with arbitrary targets

The lemmas of `Verif.Lemmas.Crystal` follow rows whose target is a device. Here the targets are any
integers: first the retry loop for an arbitrary property of the rows that the stages maintain, then the
property that says where rows with foreign targets go.
-/

namespace Verif.Comm

variable {ρ : Type*}

/-- Group sizes after `d` stages. -/
abbrev grpN (P d : ℕ) : ℕ → ℕ := (lev (fun _ => P) (fun _ => 0) d).1

/-- Group starts after `d` stages. -/
abbrev grpBase (P d : ℕ) : ℕ → ℕ := (lev (fun _ => P) (fun _ => 0) d).2

theorem grp_inv (P d : ℕ) : GroupInv P (grpN P d) (grpBase P d) ∧ Balanced P (grpN P d) :=
  lev_inv (GroupInv.init P) (fun i _ j _ => Nat.le_succ P) d

theorem grpN_succ (P d : ℕ) : grpN P (d + 1) = nextN (grpN P d) (grpBase P d) := by
  unfold grpN grpBase; rw [lev_one]

theorem grpBase_succ (P d : ℕ) : grpBase P (d + 1) = nextBase (grpN P d) (grpBase P d) := by
  unfold grpN grpBase; rw [lev_one]

/-! ### The retry loop for a property `I d V` of the rows `V` held before stage `d` -/

section general
variable {P : ℕ} {tgt : ρ → ℤ} {I : ℕ → (ℕ → List ρ) → Prop}

structure StGen (P : ℕ) (I : ℕ → (ℕ → List ρ) → Prop) (B d : ℕ) (st : ℕ → CrystalData ρ) : Prop where
  len : ∀ i, (st i).data.length = B
  n_le : ∀ i < P, (st i).n ≤ B
  rows : I d (fun i => (st i).valid)

/-- The stages maintain `I`, and `I` only looks at the devices there are. -/
structure StageKeeps (P : ℕ) (tgt : ρ → ℤ) (I : ℕ → (ℕ → List ρ) → Prop) : Prop where
  congr : ∀ d V V', (∀ i < P, V i = V' i) → I d V → I d V'
  step : ∀ d V, 1 < maxGlobal P (grpN P d) → I d V → I (d + 1) (outL tgt (grpN P d) (grpBase P d) V)

theorem gen_run (hI : StageKeeps P tgt I) (z f : ρ) (start B a : ℕ)
    (st : ℕ → CrystalData ρ) (hst : StGen P I B a st) (ms i : ℕ) (hms : ms ≤ B) (hi : start ≤ i) :
    ∃ st' ms' i', crystalLoop P tgt z f start B (grpN P a) (grpBase P a) st ms i = .ok (st', ms', i') ∧
      ((ms' ≤ B ∧ (∃ d, ¬ 1 < maxGlobal P (grpN P (a + d)) ∧ (∀ e < d, 1 < maxGlobal P (grpN P (a + e))) ∧
            StGen P I B (a + d) st') ∧
          (1 < maxGlobal P (grpN P a) → ms' = maxGlobal P (fun p => (st' p).n))) ∨
       (B < ms' ∧ ∃ d, i' = i + d ∧ (∀ e ≤ d, 1 < maxGlobal P (grpN P (a + e))) ∧
          StGen P I B (a + d) st' ∧
          need P tgt (grpN P (a + d)) (grpBase P (a + d)) st' = ms' ∧
          (need P tgt (grpN P a) (grpBase P a) st ≤ B → 0 < d))) := by
  induction hm : maxGlobal P (grpN P a) using Nat.strong_induction_on generalizing a st ms i with
  | _ m ih =>
    by_cases hc : 1 < maxGlobal P (grpN P a)
    · obtain ⟨h, hb⟩ := grp_inv P a
      obtain ⟨next, ms0, e1, e2, e3, e4⟩ := stage_spec (tgt := tgt) h hb z f B st hst.len hst.n_le
      have e2 : ms0 = need P tgt (grpN P a) (grpBase P a) st := e2
      subst e2
      rw [crystalLoop, dif_pos hc, e1]
      simp only [bind, Except.bind, if_pos (show i ≥ start from hi)]
      by_cases hB : need P tgt (grpN P a) (grpBase P a) st > B
      · rw [if_pos hB]
        refine ⟨_, _, _, rfl, .inr ⟨hB, 0, rfl, ?_, ?_, ?_, ?_⟩⟩
        · intro e he
          have : e = 0 := by omega
          subst this; exact hc
        · rw [resize_state z hst.len]; exact hst
        · rw [resize_state z hst.len]; rfl
        · intro hh; omega
      · rw [if_neg hB]
        have e5 := e4 (by omega)
        have hnext : StGen P I B (a + 1) next := by
          refine ⟨e3, fun i hi => (e5 i hi).1, ?_⟩
          exact hI.congr _ _ _ (fun i hi => (e5 i hi).2.2.symm) (hI.step a _ hc hst.rows)
        have hneed : need P tgt (grpN P a) (grpBase P a) st = maxGlobal P (fun i => (next i).n) :=
          maxGlobal_congr (fun i hi => ((e5 i hi).2.1).symm)
        have hlt := maxGlobal_next_lt P _ (grpBase P a) hc
        rw [← grpN_succ] at hlt
        rw [← grpN_succ, ← grpBase_succ]
        obtain ⟨st', ms', i', r1, r2⟩ := ih _ (by omega) (a + 1) next hnext
          (need P tgt (grpN P a) (grpBase P a) st) (i + 1) (by omega) (by omega) rfl
        refine ⟨st', ms', i', r1, ?_⟩
        rcases r2 with ⟨r3, ⟨d, r4, r4', r5⟩, r6⟩ | ⟨r3, d, r4, r5, r6, r7, r8⟩
        · refine .inl ⟨r3, ⟨d + 1, ?_, ?_, ?_⟩, fun _ => ?_⟩
          · rwa [show a + (d + 1) = a + 1 + d by omega]
          · intro e he
            cases e with
            | zero => exact hc
            | succ e =>
              have := r4' e (by omega)
              rwa [show a + (e + 1) = a + 1 + e by omega]
          · rwa [show a + (d + 1) = a + 1 + d by omega]
          · by_cases hc' : 1 < maxGlobal P (grpN P (a + 1))
            · exact r6 hc'
            · rw [crystalLoop, dif_neg hc'] at r1
              simp only [Except.ok.injEq, Prod.mk.injEq] at r1
              obtain ⟨q1, q2, -⟩ := r1
              rw [← q2, ← q1]; exact hneed
        · rw [show a + 1 + d = a + (d + 1) by omega] at r6 r7
          refine .inr ⟨r3, d + 1, by omega, ?_, r6, r7, fun _ => by omega⟩
          intro e he
          cases e with
          | zero => exact hc
          | succ e =>
            have := r5 e (by omega)
            rwa [show a + (e + 1) = a + 1 + e by omega]
    · rw [crystalLoop, dif_neg hc]
      exact ⟨st, ms, i, rfl, .inl ⟨hms, ⟨0, hc, fun e he => absurd he (by omega), hst⟩,
        fun hh => absurd hh (by omega)⟩⟩

/-- What holds of the result: the static length is the largest dynamic length, and the rows satisfy `I`
after the first stage at which all groups are single devices. -/
def GenPost (P : ℕ) (I : ℕ → (ℕ → List ρ) → Prop) (out : ℕ → CrystalData ρ) : Prop :=
  (∀ p < P, (out p).data.length = maxGlobal P (fun p => (out p).n)) ∧
  ∃ d, ¬ 1 < maxGlobal P (grpN P d) ∧ (∀ e < d, 1 < maxGlobal P (grpN P e)) ∧
    I d (fun p => (out p).valid)

theorem StGen.grow {B B' d : ℕ} {st : ℕ → CrystalData ρ} (hI : StageKeeps P tgt I) (z : ρ)
    (hst : StGen P I B d st) (hB : B ≤ B') :
    StGen P I B' d (fun p => (st p).resize z B') ∧
    need P tgt (grpN P d) (grpBase P d) (fun p => (st p).resize z B') =
      need P tgt (grpN P d) (grpBase P d) st := by
  obtain ⟨h, hb⟩ := grp_inv P d
  have hv : ∀ i < P, ((st i).resize z B').valid = (st i).valid := by
    intro i hi
    have := hst.n_le i hi
    exact resize_valid z _ _ (by omega) (by rw [hst.len]; exact this)
  refine ⟨⟨fun i => resize_len _ _ _, fun i hi => le_trans (hst.n_le i hi) hB, ?_⟩, ?_⟩
  · exact hI.congr _ _ _ (fun i hi => (hv i hi).symm) hst.rows
  · exact maxGlobal_congr (fun i hi => by rw [outL_congr h hb hv hi])

theorem gen_step (hI : StageKeeps P tgt I) (z f : ρ) (k B fuel : ℕ) (st : ℕ → CrystalData ρ)
    (hk : ∀ e ≤ k, 1 < maxGlobal P (grpN P e)) (hst : StGen P I B k st) :
    (∃ out, crystalWhile P tgt z f (fuel + 1) B st k = some (.ok out) ∧ GenPost P I out) ∨
    (∃ d B' st', crystalWhile P tgt z f (fuel + 1) B st k = crystalWhile P tgt z f fuel B' st' (k + d) ∧
      (need P tgt (grpN P k) (grpBase P k) st ≤ B → 0 < d) ∧
      (∀ e ≤ k + d, 1 < maxGlobal P (grpN P e)) ∧
      StGen P I B' (k + d) st' ∧
      need P tgt (grpN P (k + d)) (grpBase P (k + d)) st' ≤ B') := by
  have hg0 := GroupInv.init P
  have hb0 : Balanced P (fun _ => P) := fun i _ j _ => Nat.le_succ P
  have hskip := loop_skip (tgt := tgt) z f k B k _ _ hg0 hb0 st hst.len hst.n_le 0 0 (by omega) (by omega)
    (fun e he => hk e (by omega))
  obtain ⟨st', ms', i', r1, r2⟩ := gen_run hI z f k B k st hst 0 (0 + k) (by omega) (by omega)
  rw [← hskip] at r1
  have hun : crystalWhile P tgt z f (fuel + 1) B st k =
      if ms' > B then
        crystalWhile P tgt z f fuel (bitCeil ms') (fun p => (st' p).resize z (bitCeil ms')) i'
      else
        some (.ok (fun p => { data := (st' p).data.take ms', n := (st' p).n })) := by
    conv_lhs => rw [crystalWhile]
    rw [r1]
  rw [hun]
  rcases r2 with ⟨r3, ⟨d, r4, r4', r5⟩, r6⟩ | ⟨r3, d, r4, r5, r6, r7, r8⟩
  · left
    rw [if_neg (by omega)]
    have e := r6 (hk k le_rfl)
    have hle : ∀ p < P, (st' p).n ≤ ms' := fun p hp => by
      rw [e]; exact le_maxGlobal (fun p => (st' p).n) hp
    refine ⟨_, rfl, fun p hp => ?_, k + d, r4, ?_, ?_⟩
    · simp only [List.length_take, r5.len]
      rw [← e]; omega
    · intro e he
      by_cases hek : e ≤ k
      · exact hk e hek
      · have := r4' (e - k) (by omega)
        rwa [show k + (e - k) = e by omega] at this
    · refine hI.congr _ _ _ (fun p hp => ?_) r5.rows
      simp [CrystalData.valid, List.take_take, hle p hp]
  · right
    rw [if_pos r3]
    have hle := le_bitCeil ms'
    obtain ⟨g1, g2⟩ := r6.grow hI z (show B ≤ bitCeil ms' by omega)
    refine ⟨d, bitCeil ms', _, by rw [r4, Nat.zero_add], r8, ?_, g1, by rw [g2, r7]; exact hle⟩
    intro e he
    by_cases hek : e ≤ k
    · exact hk e hek
    · have := r5 (e - k) (by omega)
      rwa [show k + (e - k) = e by omega] at this

theorem gen_spec (hI : StageKeeps P tgt I) (z f : ρ) (rem : ℕ) : ∀ (k B : ℕ) (st : ℕ → CrystalData ρ),
    (∀ e ≤ k, 1 < maxGlobal P (grpN P e)) → StGen P I B k st →
    need P tgt (grpN P k) (grpBase P k) st ≤ B → maxGlobal P (grpN P k) ≤ 2 ^ rem →
    ∀ fuel ≥ rem, ∃ out, crystalWhile P tgt z f fuel B st k = some (.ok out) ∧ GenPost P I out := by
  induction rem using Nat.strong_induction_on with
  | _ rem ih =>
    intro k B st hk hst hneed hmax fuel hfuel
    have hk1 := hk k le_rfl
    have hrem : 0 < rem := by
      rcases Nat.eq_zero_or_pos rem with e | e
      · subst e; simp at hmax; omega
      · exact e
    obtain ⟨fuel, rfl⟩ : ∃ g, fuel = g + 1 := ⟨fuel - 1, by omega⟩
    rcases gen_step hI z f k B fuel st hk hst with r | ⟨d, B', st', r1, r2, r3, r4, r5⟩
    · exact r
    · have hd := r2 hneed
      have hdr : d < rem := by
        by_contra hc
        have h1 : maxGlobal P (grpN P (k + d)) ≤ 2 ^ 0 := by
          unfold grpN
          rw [← lev_add]
          apply maxGlobal_lev_le
          exact le_trans hmax (Nat.pow_le_pow_right (by omega) (by omega))
        have h2 := r3 (k + d) le_rfl
        rw [pow_zero] at h1
        omega
      rw [r1]
      refine ih (rem - d) (by omega) (k + d) B' st' r3 r4 r5 ?_ fuel (by omega)
      unfold grpN
      rw [← lev_add]
      apply maxGlobal_lev_le
      rwa [show rem - d + d = rem by omega]

theorem gen_total (hI : StageKeeps P tgt I) (hP : 2 ≤ P) (z f : ρ) (B : ℕ) (st : ℕ → CrystalData ρ)
    (hst : StGen P I B 0 st) :
    ∀ fuel ≥ Nat.clog 2 P + 1,
      ∃ out, crystalWhile P tgt z f fuel B st 0 = some (.ok out) ∧ GenPost P I out := by
  intro fuel hfuel
  obtain ⟨fuel, rfl⟩ : ∃ g, fuel = g + 1 := ⟨fuel - 1, by omega⟩
  have h0 : ∀ e ≤ 0, 1 < maxGlobal P (grpN P e) := by
    intro e he
    have : e = 0 := by omega
    subst this
    exact init_lev_pos P hP
  have hmax : maxGlobal P (grpN P 0) ≤ 2 ^ Nat.clog 2 P :=
    Finset.sup_le (fun i _ => Nat.le_pow_clog (by omega) P)
  rcases gen_step hI z f 0 B fuel st h0 hst with r | ⟨d, B', st', r1, r2, r3, r4, r5⟩
  · exact r
  · rw [r1]
    refine gen_spec hI z f (Nat.clog 2 P) (0 + d) B' st' r3 r4 r5 ?_ fuel (by omega)
    unfold grpN
    rw [← lev_add]
    apply maxGlobal_lev_le
    exact le_trans hmax (Nat.pow_le_pow_right (by omega) (by omega))

end general

/-! ### Where rows with foreign targets go -/

/-- The nearest device. -/
def nearest (P : ℕ) (t : ℤ) : ℤ := max 0 (min t ((P : ℤ) - 1))

section foreign
variable {P : ℕ} {n base : ℕ → ℕ} {tgt : ρ → ℤ}

theorem keepQ_nearest (h : GroupInv P n base) {i : ℕ} (hi : i < P) (hne : ¬ (i + 1 = P ∧ n i = 1)) (r : ρ) :
    keepQ tgt n base i r = keepQ (fun r => nearest P (tgt r)) n base i r := by
  have h1 := h.base_le i hi
  have h2 := h.lt_end i hi
  have h3 := h.end_le i hi
  have hlo : 1 ≤ baseHi n base i := by unfold baseHi nLo; omega
  have hhi : baseHi n base i < P := by
    unfold baseHi nLo
    by_contra hc
    exact hne (by omega)
  have hiff : tgt r < (baseHi n base i : ℤ) ↔ nearest P (tgt r) < (baseHi n base i : ℤ) := by
    unfold nearest; omega
  unfold keepQ
  simp only [hiff]

/-- The rows that survive the stage: a device that is on its own at the end of the range loses the rows
beyond the last device. -/
def survive (P : ℕ) (tgt : ρ → ℤ) (n : ℕ → ℕ) (V : ℕ → List ρ) (i : ℕ) : List ρ :=
  if i + 1 = P ∧ n i = 1 then (V i).filter (fun r => decide (tgt r < (P : ℤ))) else V i

theorem outL_survive (h : GroupInv P n base) (hb : Balanced P n) (V : ℕ → List ρ) {i : ℕ} (hi : i < P) :
    outL tgt n base V i = outL (fun r => nearest P (tgt r)) n base (survive P tgt n V) i := by
  have h1 := h.base_le i hi
  have h2 := h.lt_end i hi
  have h3 := h.end_le i hi
  by_cases hs : i + 1 = P ∧ n i = 1
  · have hb1 : base i = i := by omega
    have hbh : baseHi n base i = P := by unfold baseHi nLo; omega
    have hr : numRecv n base i = 0 := by
      have hst : isSelfTarget n base i = true := (isSelfTarget_iff h hi).2 ⟨by omega, by omega⟩
      rcases numRecv_cases h hi with c | c | c
      · exact c.2.2
      · rw [c.1] at hst; cases hst
      · rw [c.1] at hst; cases hst
    unfold outL
    rw [hr]
    rw [if_neg (by omega), if_neg (by omega), if_neg (by omega), if_neg (by omega)]
    simp only [List.append_nil]
    unfold keepL survive
    rw [if_pos hs, List.filter_filter]
    refine List.filter_congr (fun r _ => ?_)
    unfold keepQ
    rw [hbh, decide_eq_false (show ¬ P ≤ i by omega),
      decide_eq_true (show nearest P (tgt r) < (P : ℤ) by unfold nearest; omega)]
    simp
  · have hrow : ∀ j < P, base j = base i → n j = n i →
        ¬ (j + 1 = P ∧ n j = 1) := by
      intro j hj e1 e2 hc
      have a1 := h.base_le j hj
      have a2 := h.lt_end j hj
      exact hs (by omega)
    have hkeep : ∀ j < P, base j = base i → n j = n i →
        keepL tgt n base V j = keepL (fun r => nearest P (tgt r)) n base (survive P tgt n V) j := by
      intro j hj e1 e2
      unfold keepL survive
      rw [if_neg (hrow j hj e1 e2)]
      exact List.filter_congr (fun r _ => keepQ_nearest h hj (hrow j hj e1 e2) r)
    have hsend : ∀ j < P, base j = base i → n j = n i →
        sendL tgt n base V j = sendL (fun r => nearest P (tgt r)) n base (survive P tgt n V) j := by
      intro j hj e1 e2
      unfold sendL survive
      rw [if_neg (hrow j hj e1 e2)]
      exact List.filter_congr (fun r _ => by rw [keepQ_nearest h hj (hrow j hj e1 e2) r])
    obtain ⟨g1, g2⟩ := target1_group h hi
    obtain ⟨e1, e2⟩ := h.same i hi _ g1 g2
    unfold outL
    rw [hkeep i hi rfl rfl, hsend _ (target1_lt h i hi) e1 e2]
    congr 1
    by_cases hr : numRecv n base i = 2
    · rw [if_pos hr, if_pos hr]
      have hrt : isRecvTwo n base i = true := by
        rcases numRecv_cases h hi with c | c | c
        · omega
        · exact c.2.1
        · omega
      obtain ⟨a1, a2, a3, a4, a5, a6⟩ := recvTwo_pred h hi hrt
      have ht2 : target2 n base i = i - 1 := by unfold target2; rw [if_pos hrt]
      rw [ht2]
      have hi1 : i - 1 < P := by omega
      obtain ⟨g1, g2⟩ := target1_group h hi1
      obtain ⟨f1, f2⟩ := h.same _ hi1 _ g1 g2
      exact hsend _ (target1_lt h _ hi1) (f1.trans a3) (f2.trans a4)
    · rw [if_neg hr, if_neg hr]

theorem filter_sum_range {σ : Type*} (s : Finset ℕ) (g : ℕ → Multiset σ) (q : σ → Prop) [DecidablePred q] :
    (∑ p ∈ s, g p).filter q = ∑ p ∈ s, (g p).filter q := by
  classical
  induction s using Finset.induction_on with
  | empty => simp
  | insert a s ha ih => rw [Finset.sum_insert ha, Finset.sum_insert ha, Multiset.filter_add, ih]

theorem survive_sum (h : GroupInv P n base) (hP : 0 < P) {V : ℕ → List ρ}
    (hV : InGroup P (fun r => nearest P (tgt r)) n base V) :
    ∑ i ∈ Finset.range P, (survive P tgt n V i : Multiset ρ) =
      (∑ i ∈ Finset.range P, (V i : Multiset ρ)).filter (fun r => tgt r < (P : ℤ) ∨ 1 < n (P - 1)) := by
  rw [filter_sum_range]
  refine Finset.sum_congr rfl (fun i hi => ?_)
  have hi := Finset.mem_range.1 hi
  have h1 := h.base_le i hi
  have h2 := h.lt_end i hi
  have h3 := h.end_le i hi
  have hp := h.n_pos (show P - 1 < P by omega)
  unfold survive
  split
  · next hs =>
    have : n (P - 1) = 1 := by rw [← hs.1]; exact hs.2
    rw [Multiset.filter_coe]
    congr 1
    refine List.filter_congr (fun r _ => ?_)
    simp [this]
  · next hs =>
    symm
    rw [Multiset.filter_eq_self]
    intro r hr
    have hg := hV i hi r (by simpa using hr)
    by_contra hc
    push Not at hc
    obtain ⟨c1, c2⟩ := hc
    have hn : nearest P (tgt r) = (P : ℤ) - 1 := by unfold nearest; omega
    simp only [hn] at hg
    obtain ⟨e1, e2⟩ := h.same i hi (P - 1) (by omega) (by omega)
    exact hs (by omega)

theorem survive_inGroup {V : ℕ → List ρ} (hV : InGroup P (fun r => nearest P (tgt r)) n base V) :
    InGroup P (fun r => nearest P (tgt r)) n base (survive P tgt n V) := by
  intro i hi r hr
  unfold survive at hr
  split at hr
  · exact hV i hi r (List.mem_of_mem_filter hr)
  · exact hV i hi r hr

end foreign

/-- The rows before stage `d`: each within the group of its nearest device, and together the rows of `M`
that are within range or have never met a single device at the end of the range. -/
structure AnyInv (P : ℕ) (tgt : ρ → ℤ) (M : Multiset ρ) (d : ℕ) (V : ℕ → List ρ) : Prop where
  group : InGroup P (fun r => nearest P (tgt r)) (grpN P d) (grpBase P d) V
  sum : ∀ [DecidablePred fun r : ρ => tgt r < (P : ℤ) ∨ ∀ e < d, 1 < grpN P e (P - 1)],
    ∑ i ∈ Finset.range P, (V i : Multiset ρ) =
      M.filter (fun r => tgt r < (P : ℤ) ∨ ∀ e < d, 1 < grpN P e (P - 1))

theorem anyInv_keeps {P : ℕ} (hP : 0 < P) (tgt : ρ → ℤ) (M : Multiset ρ) :
    StageKeeps P tgt (AnyInv P tgt M) where
  congr := by
    intro d V V' hV hI
    refine ⟨fun i hi r hr => hI.group i hi r (by rw [hV i hi]; exact hr), ?_⟩
    intro _
    rw [← hI.sum]
    exact Finset.sum_congr rfl (fun i hi => by rw [hV i (Finset.mem_range.1 hi)])
  step := by
    intro d V hc hI
    obtain ⟨h, hb⟩ := grp_inv P d
    have hs := survive_inGroup (n := grpN P d) hI.group
    constructor
    · intro i hi r hr
      rw [outL_survive h hb V hi] at hr
      rw [grpN_succ, grpBase_succ]
      exact outL_inGroup h hs i hi r hr
    · classical
      intro _
      have e1 : ∑ i ∈ Finset.range P, (outL tgt (grpN P d) (grpBase P d) V i : Multiset ρ) =
          ∑ i ∈ Finset.range P, (outL (fun r => nearest P (tgt r)) (grpN P d) (grpBase P d)
            (survive P tgt (grpN P d) V) i : Multiset ρ) :=
        Finset.sum_congr rfl (fun i hi => by rw [outL_survive h hb V (Finset.mem_range.1 hi)])
      rw [e1, outL_sum h hs, survive_sum h hP hI.group, hI.sum, Multiset.filter_filter]
      refine Multiset.filter_congr (fun r _ => ?_)
      constructor
      · rintro ⟨a, b⟩
        by_cases ht : tgt r < (P : ℤ)
        · exact .inl ht
        · refine .inr (fun e he => ?_)
          by_cases hed : e = d
          · subst hed; exact a.resolve_left ht
          · exact b.resolve_left ht e (by omega)
      · rintro (ht | hall)
        · exact ⟨.inl ht, .inl ht⟩
        · exact ⟨.inr (hall d (by omega)), .inr (fun e he => hall e (by omega))⟩

/-! ### The sizes of the first and of the last group -/

theorem grpN_first (P : ℕ) (hP : 0 < P) (d : ℕ) :
    grpBase P d 0 = 0 ∧ (P ≤ 2 ^ d * grpN P d 0 ∧ 2 ^ d * (grpN P d 0 - 1) < P ∧ 0 < grpN P d 0) := by
  induction d with
  | zero => simp [grpN, grpBase, lev]; omega
  | succ d ih =>
    obtain ⟨h1, h2, h3, h4⟩ := ih
    have hb : baseHi (grpN P d) (grpBase P d) 0 = (grpN P d 0 + 1) / 2 := by
      unfold baseHi nLo; rw [h1]; omega
    have hlt : 0 < (grpN P d 0 + 1) / 2 := by omega
    rw [grpN_succ, grpBase_succ]
    unfold nextN nextBase
    rw [hb, if_pos hlt, if_pos hlt]
    refine ⟨h1, ?_, ?_, hlt⟩
    · unfold nLo
      rw [pow_succ, mul_assoc]
      exact le_trans h2 (Nat.mul_le_mul_left _ (by omega))
    · unfold nLo
      rw [pow_succ, mul_assoc]
      exact lt_of_le_of_lt (Nat.mul_le_mul_left _ (by omega)) h3

/-- A stage is run exactly while the groups have more than one member. -/
theorem active_iff (P : ℕ) (hP : 0 < P) (d : ℕ) : 1 < maxGlobal P (grpN P d) ↔ 2 ^ d < P := by
  constructor
  · intro h
    by_contra hc
    have : maxGlobal P (grpN P d) ≤ 2 ^ 0 := by
      apply maxGlobal_lev_le
      rw [Nat.zero_add]
      exact Finset.sup_le (fun i _ => by omega)
    simp at this
    omega
  · intro h
    have h0 := (grpN_first P hP d).2.1
    refine lt_of_lt_of_le ?_ (le_maxGlobal (grpN P d) hP)
    by_contra hc
    have : 2 ^ d * grpN P d 0 ≤ 2 ^ d * 1 := Nat.mul_le_mul_left _ (by omega)
    omega

theorem grpN_last (P d : ℕ) (h : 2 ^ d ≤ P) :
    grpBase P d (P - 1) + grpN P d (P - 1) = P ∧ grpN P d (P - 1) = P / 2 ^ d := by
  induction d with
  | zero => simp [grpN, grpBase, lev]
  | succ d ih =>
    rw [pow_succ] at h
    obtain ⟨h1, h2⟩ := ih (by omega)
    have hpos : 0 < 2 ^ d := Nat.two_pow_pos _
    have h3 : 2 ≤ grpN P d (P - 1) := by
      rw [h2, Nat.le_div_iff_mul_le hpos]; omega
    have hb : ¬ P - 1 < baseHi (grpN P d) (grpBase P d) (P - 1) := by
      unfold baseHi nLo; omega
    rw [grpN_succ, grpBase_succ]
    unfold nextN nextBase
    rw [if_neg hb, if_neg hb]
    unfold baseHi nLo
    refine ⟨by omega, ?_⟩
    rw [pow_succ, ← Nat.div_div_eq_div_mul, ← h2]
    omega

/-- The last device is never on its own at an active stage exactly when the number of devices is a power
of two. -/
theorem last_iff (P : ℕ) (hP : 0 < P) (d : ℕ) (hd : ¬ 1 < maxGlobal P (grpN P d))
    (hlt : ∀ e < d, 1 < maxGlobal P (grpN P e)) :
    (∀ e < d, 1 < grpN P e (P - 1)) ↔ ∃ k, P = 2 ^ k := by
  rw [active_iff P hP] at hd
  simp only [active_iff P hP] at hlt
  constructor
  · intro h
    refine ⟨Nat.log 2 P, ?_⟩
    have hle := Nat.pow_log_le_self 2 (show P ≠ 0 by omega)
    by_contra hne
    have hlt' : 2 ^ Nat.log 2 P < P := by omega
    have hld : Nat.log 2 P < d := by
      by_contra hc
      exact hd (lt_of_le_of_lt (Nat.pow_le_pow_right (by omega) (by omega)) hlt')
    have h1 := h _ hld
    rw [(grpN_last P _ hle).2] at h1
    have h2 := Nat.lt_pow_succ_log_self (b := 2) (by omega) P
    have h3 : P / 2 ^ Nat.log 2 P < 2 := by
      rw [Nat.div_lt_iff_lt_mul (Nat.two_pow_pos _)]
      rw [pow_succ] at h2; omega
    omega
  · rintro ⟨k, rfl⟩ e he
    have h1 := hlt e he
    have hek : e < k := (Nat.pow_lt_pow_iff_right (by omega)).1 h1
    rw [(grpN_last _ e (by omega)).2, Nat.pow_div (by omega) (by omega)]
    exact Nat.one_lt_two_pow (by omega)

/-- After the last stage the rows of device `p` are those whose nearest device is `p`, less the lost
ones. -/
theorem anyInv_post {P : ℕ} (hP : 0 < P) {tgt : ρ → ℤ} {M : Multiset ρ} {d : ℕ} {V : ℕ → List ρ}
    (hI : AnyInv P tgt M d V) (hd : ¬ 1 < maxGlobal P (grpN P d))
    (hlt : ∀ e < d, 1 < maxGlobal P (grpN P e)) [Decidable (∃ k, P = 2 ^ k)]
    {p : ℕ} (hp : p < P) :
    (V p : Multiset ρ) =
      M.filter (fun r => nearest P (tgt r) = (p : ℤ) ∧ (tgt r < (P : ℤ) ∨ ∃ k, P = 2 ^ k)) := by
  classical
  obtain ⟨h, hb⟩ := grp_inv P d
  have htgt : ∀ q < P, ∀ r ∈ V q, nearest P (tgt r) = (q : ℤ) := by
    intro q hq r hr
    have h1 : (grpBase P d q : ℤ) ≤ nearest P (tgt r) ∧
        nearest P (tgt r) < (grpBase P d q : ℤ) + (grpN P d q : ℤ) := hI.group q hq r hr
    have h2 := h.base_le q hq
    have h3 := h.lt_end q hq
    have h4 := le_maxGlobal (grpN P d) hq
    omega
  have e1 : (∑ q ∈ Finset.range P, (V q : Multiset ρ)).filter (fun r => nearest P (tgt r) = (p : ℤ)) =
      (V p : Multiset ρ) := by
    rw [filter_sum_range, Finset.sum_eq_single p]
    · rw [Multiset.filter_eq_self]
      intro r hr
      exact htgt p hp r (by simpa using hr)
    · intro q hq hqp
      rw [Multiset.filter_eq_nil]
      intro r hr
      rw [htgt q (Finset.mem_range.1 hq) r (by simpa using hr)]
      omega
    · intro hc
      exact absurd (Finset.mem_range.2 hp) hc
  rw [← e1, hI.sum, Multiset.filter_filter]
  refine Multiset.filter_congr (fun r _ => ?_)
  rw [last_iff P hP d hd hlt]

/-- The router with source labels and arbitrary targets. -/
theorem routerSource_any {P : ℕ} (hP : 2 ≤ P) (tgt : ρ → ℤ) (z f : ρ) (fs : ℤ) (size : ℕ)
    (st : ℕ → CrystalData ρ)
    (hlen : ∀ p < P, (st p).data.length = size) (hn : ∀ p < P, (st p).n ≤ size)
    [Decidable (∃ k, P = 2 ^ k)] :
    ∀ fuel ≥ Nat.clog 2 P + 1, ∃ out, crystalRouterSource P tgt z f fs size fuel st = some (.ok out) ∧
      ∀ p < P, (out p).data.length = maxGlobal P (fun p => (out p).n) ∧
        ((out p).valid : Multiset (ρ × ℤ)) =
        (∑ p ∈ Finset.range P, (((st p).valid.map (fun r => (r, (p : ℤ)))) : Multiset (ρ × ℤ))).filter
          (fun r => nearest P (tgt r.1) = (p : ℤ) ∧ (tgt r.1 < (P : ℤ) ∨ ∃ k, P = 2 ^ k)) := by
  intro fuel hfuel
  have hle := le_bitCeil size
  have hv : ∀ p < P, ((st p).resize z (bitCeil size)).valid = (st p).valid := by
    intro p hp
    have := hn p hp
    exact resize_valid _ _ _ (by omega) (by rw [hlen p hp]; exact this)
  have hv2 : ∀ p < P, (CrystalData.mk (((st p).resize z (bitCeil size)).data.map (fun r => (r, (p : ℤ))))
      ((st p).resize z (bitCeil size)).n).valid =
      (st p).valid.map (fun r => (r, (p : ℤ))) := by
    intro p hp
    rw [← hv p hp]
    simp [CrystalData.valid, List.map_take]
  obtain ⟨out, e1, e2, d, e3, e4, e5⟩ := gen_total
    (anyInv_keeps (show 0 < P by omega) (fun r : ρ × ℤ => tgt r.1)
      (∑ p ∈ Finset.range P, (((st p).valid.map (fun r => (r, (p : ℤ)))) : Multiset (ρ × ℤ))))
    hP (z, 0) (f, fs) (bitCeil size)
    (fun p => { data := ((st p).resize z (bitCeil size)).data.map (fun r => (r, (p : ℤ))),
                n := ((st p).resize z (bitCeil size)).n })
    ⟨fun i => by simp only [List.length_map]; exact resize_len _ _ _,
      fun i hi => le_trans (hn i hi) hle, by
        intro i hi r _
        simp only [grpN, grpBase, lev]
        unfold nearest; omega, by
        intro _
        rw [Multiset.filter_eq_self.2 (fun r _ => .inr (fun e he => absurd he (by omega)))]
        exact Finset.sum_congr rfl (fun i hi => by
          have := hv2 i (Finset.mem_range.1 hi)
          rw [this])⟩ fuel hfuel
  refine ⟨out, e1, fun p hp => ⟨e2 p hp, ?_⟩⟩
  exact anyInv_post (show 0 < P by omega) e5 e3 e4 hp

end Verif.Comm

import Verif.Prelude
import Verif.Model.Transformer

/-! Lemmas for the shapes of the multiscale transformer. -/

namespace Verif.Niles

theorem addShape_self (x : Shape) : addShape x x = .ok x := by simp [addShape, bcastDim]

theorem sameLen_one (n : ℕ) : sameLen n 1 = n := by simp [sameLen]

theorem mul_sameLen {s L : ℕ} (hs : 0 < s) : s * sameLen L s = L ↔ s ∣ L := by
  constructor
  · intro h; exact ⟨_, h.symm⟩
  · rintro ⟨k, rfl⟩
    have : sameLen (s * k) s = k := by
      unfold sameLen
      rw [Nat.div_eq_iff hs]
      constructor
      · rw [mul_comm k s]; omega
      · rw [mul_comm k s]
    rw [this]

theorem sameLen_dvd {s L : ℕ} (hs : 0 < s) (h : s ∣ L) : sameLen L s = L / s := by
  obtain ⟨k, rfl⟩ := h
  have := (mul_sameLen (L := s * k) hs).2 ⟨k, rfl⟩
  rw [Nat.mul_div_cancel_left _ hs]
  exact Nat.eq_of_mul_eq_mul_left hs this

theorem splitHeads_ok {x : Shape} {h : ℕ} (hh : 0 < h) (hd : h ∣ x.chan) :
    splitHeads x h = .ok ⟨x.batch, x.seq, h, x.chan / h⟩ := by
  unfold splitHeads
  rw [if_neg hh.ne', if_pos (Nat.mul_div_cancel' hd)]

theorem pooling_ok {x : Shape} {w : ℕ × ℕ} {t h : ℕ} (hh : 0 < h) (hd : h ∣ x.chan) (ht : 0 < t)
    (hw : w.1 * w.2 = 1 → t = 1) :
    attentionPooling x w (1, t) h = .ok ⟨x.batch, sameLen x.seq t, h, x.chan / h⟩ := by
  unfold attentionPooling
  rw [if_neg hh.ne']
  by_cases hw1 : w.1 * w.2 = 1
  · rw [if_pos hw1, splitHeads_ok hh hd, hw hw1, sameLen_one]
  · rw [if_neg hw1, if_neg (by simp; omega)]
    have := splitHeads_ok (x := ⟨sameLen x.batch 1, sameLen x.seq t, x.chan⟩) hh hd
    rw [sameLen_one] at this
    simpa [sameLen_one] using this

theorem encoderBlock_ok {x : Shape} {o h s k : ℕ} {pq pk : ℕ × ℕ} (hh : 0 < h) (hd : h ∣ x.chan) (hs : 0 < s)
    (hk : 0 < k) (hpk : pk.1 * pk.2 ≠ 1) (hpq : pq.1 * pq.2 = 1 → s = 1) :
    encoderBlock x o h pq pk (1, s) (1, k) = .ok ⟨x.batch, sameLen x.seq s, o⟩ := by
  have hdown : downSample x h pq pk (1, s) (1, k) = .ok ⟨x.batch, sameLen x.seq s, x.chan⟩ := by
    unfold downSample
    rw [pooling_ok hh hd hs hpq, pooling_ok hh hd hk (fun h => absurd h hpk)]
    simp [attention]
  unfold encoderBlock
  rw [hdown]
  have hres : (if (1, s).1 * (1, s).2 > 1 then
        match attentionPooling x (resWindow (1, s).1, resWindow (1, s).2) (1, s) h with
        | .error e => .error e
        | .ok r => .ok ⟨r.batch, r.seq, r.heads * r.dim⟩
      else .ok x : Except Err Shape) = .ok ⟨x.batch, sameLen x.seq s, x.chan⟩ := by
    by_cases h1 : s > 1
    · rw [if_pos (by simpa using h1), pooling_ok hh hd hs]
      · simp only [Nat.mul_div_cancel' hd]
      · intro hw
        simp [resWindow, h1] at hw
        omega
    · have : s = 1 := by omega
      subst this
      rw [if_neg (by simp), sameLen_one]
  change (match (if (1, s).1 * (1, s).2 > 1 then
        match attentionPooling x (resWindow (1, s).1, resWindow (1, s).2) (1, s) h with
        | .error e => .error e
        | .ok r => .ok ⟨r.batch, r.seq, r.heads * r.dim⟩
      else .ok x : Except Err Shape) with
    | .error e => _
    | .ok r => _) = _
  rw [hres]
  simp only [addShape_self]
  by_cases ho : o = x.chan
  · simp [ho, addShape_self]
  · simp [ho, addShape_self]

/-- What the shapes need: positive widths and heads, one stride for the sequence axis, the same number of repetitions in
the decoder, and a kernel that pools. -/
structure MSConfig.Consistent (c : MSConfig) (s : ℕ) : Prop where
  width_pos : 0 < c.width
  stride_pos : 0 < s
  kernel : c.poolingKernel.1 * c.poolingKernel.2 ≠ 1
  strides : c.poolingStridesQ = (1, s)
  reps : c.tileReps = (s, 1)

/-- Number of pooling layers among `n` layers from `l` on. -/
def poolCount (c : MSConfig) (l n : ℕ) : ℕ := ((List.range' l n).filter (· ∈ c.poolingLayers)).length

theorem poolCount_succ (c : MSConfig) (l n : ℕ) :
    poolCount c l (n + 1) = (if l ∈ c.poolingLayers then 1 else 0) + poolCount c (l + 1) n := by
  unfold poolCount
  rw [List.range'_succ, List.filter_cons]
  by_cases h : l ∈ c.poolingLayers
  · simp [h]; omega
  · simp [h]

/-- The length of the sequence after `n` layers. -/
def lenAfter (c : MSConfig) (s l : ℕ) : ℕ → ℕ → ℕ
  | 0, L => L
  | n + 1, L => lenAfter c s (l + 1) n (if l ∈ c.poolingLayers then sameLen L s else L)

theorem lenAfter_dvd (c : MSConfig) {s : ℕ} (hs : 0 < s) (l n L : ℕ) (h : s ^ poolCount c l n ∣ L) :
    lenAfter c s l n L = L / s ^ poolCount c l n := by
  induction n generalizing l L with
  | zero => simp [lenAfter, poolCount]
  | succ n ih =>
    rw [lenAfter]
    rw [poolCount_succ] at h ⊢
    by_cases hl : l ∈ c.poolingLayers
    · simp only [if_pos hl] at h ⊢
      rw [pow_add, pow_one] at h ⊢
      have h1 : s ∣ L := (Dvd.intro _ rfl).trans h
      rw [sameLen_dvd hs h1, ih, Nat.div_div_eq_div_mul]
      obtain ⟨k, rfl⟩ := h
      rw [mul_assoc, Nat.mul_div_cancel_left _ hs]
      exact Dvd.intro _ rfl
    · simp only [if_neg hl, zero_add] at h ⊢
      exact ih _ _ h

theorem halveStride_pos (k : ℕ) : 0 < halveStride k := by
  unfold halveStride; split <;> omega

theorem encodeLayer_ok {c : MSConfig} {s : ℕ} (hc : c.Consistent s) {l : ℕ} {st : EncState} {k : ℕ}
    (hkv : st.strideKv = (1, k)) (hk : 0 < k) (hh : 0 < st.heads)
    (hd : (if l ∈ c.poolingLayers then st.heads * 2 else st.heads) ∣ st.x.chan) :
    ∃ k', 0 < k' ∧ encodeLayer c l st = .ok
      ⟨⟨st.x.batch, if l ∈ c.poolingLayers then sameLen st.x.seq s else st.x.seq,
        if l + 1 ∈ c.poolingLayers then st.x.chan * 2 else st.x.chan⟩,
       if l ∈ c.poolingLayers then st.heads * 2 else st.heads, (1, k'),
       if l ∈ c.poolingLayers then st.skips ++ [(l, st.x)] else st.skips⟩ := by
  unfold encodeLayer
  by_cases hl : l ∈ c.poolingLayers
  · simp only [if_pos hl] at hd ⊢
    refine ⟨halveStride k, halveStride_pos _, ?_⟩
    have hs1 : halveStride 1 = 1 := rfl
    rw [hkv, hc.strides, if_pos (Or.inl hl)]
    simp only [hs1]
    rw [encoderBlock_ok (by omega) hd hc.stride_pos (halveStride_pos _) hc.kernel (fun h => absurd h hc.kernel)]
  · simp only [if_neg hl] at hd ⊢
    refine ⟨k, hk, ?_⟩
    rw [hkv]
    by_cases hq : c.poolQEveryLayer = true
    · rw [if_pos (Or.inr hq), encoderBlock_ok hh hd one_pos hk hc.kernel (fun _ => rfl), sameLen_one]
    · have h2 : ¬ (l ∈ c.poolingLayers ∨ c.poolQEveryLayer = true) := by tauto
      rw [if_neg h2, encoderBlock_ok hh hd one_pos hk hc.kernel (fun _ => rfl), sameLen_one]

theorem decoderBlock_ok {x : Shape} {o h r : ℕ} (hh : 0 < h) (hd : h ∣ x.chan) (hr : 0 < r) :
    decoderBlock x o h (r, 1) = .ok ⟨x.batch, x.seq * r, o⟩ := by
  have hup : upSample x h (r, 1) = .ok ⟨x.batch, x.seq * r, x.chan⟩ := by
    unfold upSample
    have : x.chan % h = 0 := Nat.mod_eq_zero_of_dvd hd
    simp [this, attention]; omega
  unfold decoderBlock
  rw [hup]
  have hres : (if (r, 1).1 * (r, 1).2 > 1 then (⟨x.batch, x.seq * (r, 1).1, x.chan * (r, 1).2⟩ : Shape) else x)
      = ⟨x.batch, x.seq * r, x.chan⟩ := by
    by_cases h1 : r > 1
    · rw [if_pos (by simpa using h1)]; simp
    · have : r = 1 := by omega
      subst this; simp
  simp only [hres, addShape_self]
  by_cases ho : o = x.chan
  · simp [ho, addShape_self]
  · simp [ho, addShape_self]

/-- One layer of the decoder on the output of the matching layer of the encoder. -/
theorem decodeLayer_eq {c : MSConfig} {s : ℕ} (hc : c.Consistent s) {S : List (ℕ × Shape)} {l : ℕ} {x : Shape}
    (hw : c.width ∣ x.chan) (hpos : 0 < x.chan) (hS : l ∈ c.poolingLayers → S.lookup l = some x) :
    decodeLayer c S l ⟨x.batch, if l ∈ c.poolingLayers then sameLen x.seq s else x.seq,
        if l + 1 ∈ c.poolingLayers then x.chan * 2 else x.chan⟩ =
      if l ∈ c.poolingLayers ∧ c.useResiduals = true then
        match addShape ⟨x.batch, sameLen x.seq s * s, x.chan⟩ x with
          | .error e => .error e
          | .ok z => if z = x then .ok z else .error .assertion
      else .ok ⟨x.batch, if l ∈ c.poolingLayers then sameLen x.seq s * s else x.seq, x.chan⟩ := by
  obtain ⟨m, hm⟩ := hw
  have hm0 : 0 < m := by
    rcases Nat.eq_zero_or_pos m with h | h
    · simp [h] at hm; omega
    · exact h
  have key : ∀ ch, (ch = x.chan ∨ ch = x.chan * 2) → 0 < ch / c.width ∧ ch / c.width ∣ ch := by
    rintro ch (h | h) <;> subst h
    · rw [hm, Nat.mul_div_cancel_left _ hc.width_pos]; exact ⟨hm0, Dvd.intro_left _ rfl⟩
    · rw [hm, mul_assoc, Nat.mul_div_cancel_left _ hc.width_pos]; exact ⟨by omega, Dvd.intro_left _ rfl⟩
  have hout : (if l + 1 ∈ c.poolingLayers then (if l + 1 ∈ c.poolingLayers then x.chan * 2 else x.chan) / 2
      else (if l + 1 ∈ c.poolingLayers then x.chan * 2 else x.chan)) = x.chan := by
    split <;> simp
  have hch : (if l + 1 ∈ c.poolingLayers then x.chan * 2 else x.chan) = x.chan ∨
      (if l + 1 ∈ c.poolingLayers then x.chan * 2 else x.chan) = x.chan * 2 := by split <;> simp
  obtain ⟨k1, k2⟩ := key _ hch
  unfold decodeLayer
  simp only [hout]
  rw [if_neg hc.width_pos.ne', hc.reps]
  by_cases hl : l ∈ c.poolingLayers
  · have h1 := decoderBlock_ok (x := ⟨x.batch, sameLen x.seq s, if l + 1 ∈ c.poolingLayers then x.chan * 2 else x.chan⟩)
      (o := x.chan) k1 k2 hc.stride_pos
    simp only [if_pos hl, h1, hS hl]
    rfl
  · have h1 := decoderBlock_ok (x := ⟨x.batch, x.seq, if l + 1 ∈ c.poolingLayers then x.chan * 2 else x.chan⟩)
      (o := x.chan) k1 k2 one_pos
    have h2 : ¬ (l ∈ c.poolingLayers ∧ c.useResiduals = true) := fun h => hl h.1
    simp only [if_neg hl, h1, if_neg h2, mul_one]

theorem decodeLayer_spec {c : MSConfig} {s : ℕ} (hc : c.Consistent s) {S : List (ℕ × Shape)} {l : ℕ} {x : Shape}
    (hw : c.width ∣ x.chan) (hpos : 0 < x.chan) (hS : l ∈ c.poolingLayers → S.lookup l = some x)
    (hdiv : l ∈ c.poolingLayers → s ∣ x.seq) :
    decodeLayer c S l ⟨x.batch, if l ∈ c.poolingLayers then sameLen x.seq s else x.seq,
        if l + 1 ∈ c.poolingLayers then x.chan * 2 else x.chan⟩ = .ok x := by
  rw [decodeLayer_eq hc hw hpos hS]
  by_cases hl : l ∈ c.poolingLayers
  · have hlen : sameLen x.seq s * s = x.seq := by
      rw [mul_comm]; exact (mul_sameLen hc.stride_pos).2 (hdiv hl)
    simp [hlen, hl, addShape_self]
  · simp [hl]

/-- With the residual connections the decoder checks the length. -/
theorem decodeLayer_needs {c : MSConfig} {s : ℕ} (hc : c.Consistent s) (hu : c.useResiduals = true)
    {S : List (ℕ × Shape)} {l : ℕ} {x y : Shape}
    (hw : c.width ∣ x.chan) (hpos : 0 < x.chan) (hS : l ∈ c.poolingLayers → S.lookup l = some x)
    (h : decodeLayer c S l ⟨x.batch, if l ∈ c.poolingLayers then sameLen x.seq s else x.seq,
        if l + 1 ∈ c.poolingLayers then x.chan * 2 else x.chan⟩ = .ok y) : l ∈ c.poolingLayers → s ∣ x.seq := by
  intro hl
  rw [decodeLayer_eq hc hw hpos hS, if_pos ⟨hl, hu⟩] at h
  rw [← mul_sameLen hc.stride_pos, mul_comm]
  revert h
  cases hz : addShape ⟨x.batch, sameLen x.seq s * s, x.chan⟩ x with
  | error e => intro h; cases h
  | ok z =>
    intro h
    have hzx : z = x := by
      by_contra hne
      simp only [if_neg hne] at h
      cases h
    subst hzx
    have hseq : bcastDim (sameLen z.seq s * s) z.seq = some z.seq := by
      unfold addShape at hz
      split at hz
      · rename_i b t ch h1 h2 h3
        simp only [Except.ok.injEq] at hz
        have : t = z.seq := by rw [← hz]
        rw [h2, this]
      · cases hz
    unfold bcastDim at hseq
    split at hseq
    · assumption
    · split at hseq
      · rename_i h6
        have h7 : s = 1 := Nat.eq_one_of_mul_eq_one_left h6
        subst h7
        simp [sameLen_one]
      · split at hseq
        · simpa using hseq
        · cases hseq

theorem decodeLayers_append (c : MSConfig) (S : List (ℕ × Shape)) (a b : List ℕ) (x : Shape) :
    decodeLayers c S (a ++ b) x = match decodeLayers c S a x with
      | .error e => .error e
      | .ok y => decodeLayers c S b y := by
  induction a generalizing x with
  | nil => rfl
  | cons l a ih =>
    rw [List.cons_append, decodeLayers, decodeLayers]
    cases decodeLayer c S l x with
    | error e => rfl
    | ok y => exact ih y

/-- The skip connections written by `n` layers. -/
def skipsOf (c : MSConfig) (s l : ℕ) : ℕ → Shape → List (ℕ × Shape)
  | 0, _ => []
  | n + 1, x => (if l ∈ c.poolingLayers then [(l, x)] else []) ++
      skipsOf c s (l + 1) n ⟨x.batch, if l ∈ c.poolingLayers then sameLen x.seq s else x.seq,
        if l + 1 ∈ c.poolingLayers then x.chan * 2 else x.chan⟩

theorem skipsOf_ge (c : MSConfig) (s l n : ℕ) (x : Shape) : ∀ e ∈ skipsOf c s l n x, l ≤ e.1 := by
  induction n generalizing l x with
  | zero => simp [skipsOf]
  | succ n ih =>
    intro e he
    rw [skipsOf, List.mem_append] at he
    rcases he with he | he
    · split at he
      · simp only [List.mem_singleton] at he; subst he; exact le_rfl
      · cases he
    · have := ih _ _ e he; omega

/-- Encoder and decoder over `n` layers from `l` on. -/
theorem layers_spec {c : MSConfig} {s : ℕ} (hc : c.Consistent s) (n l : ℕ) (st : EncState) (k : ℕ)
    (hkv : st.strideKv = (1, k)) (hk : 0 < k) (hh : 0 < st.heads) (hw : c.width ∣ st.x.chan) (hpos : 0 < st.x.chan)
    (hd : (if l ∈ c.poolingLayers then st.heads * 2 else st.heads) ∣ st.x.chan) :
    ∃ st', encodeLayers c (List.range' l n) st = .ok st' ∧
      st'.x = ⟨st.x.batch, lenAfter c s l n st.x.seq, st.x.chan * 2 ^ poolCount c (l + 1) n⟩ ∧
      st'.skips = st.skips ++ skipsOf c s l n st.x ∧
      (∀ S, (∀ e ∈ skipsOf c s l n st.x, S.lookup e.1 = some e.2) → s ^ poolCount c l n ∣ st.x.seq →
        decodeLayers c S (List.range' l n).reverse st'.x = .ok st.x) ∧
      (c.useResiduals = true → ∀ S y, (∀ e ∈ skipsOf c s l n st.x, S.lookup e.1 = some e.2) →
        decodeLayers c S (List.range' l n).reverse st'.x = .ok y → y = st.x ∧ s ^ poolCount c l n ∣ st.x.seq) := by
  induction n generalizing l st k with
  | zero =>
    refine ⟨st, rfl, ?_, by simp [skipsOf], ?_, ?_⟩
    · simp [lenAfter, poolCount]
    · intro S _ _; rfl
    · intro _ S y _ h
      simp only [List.range'_zero, List.reverse_nil, decodeLayers, Except.ok.injEq] at h
      exact ⟨h.symm, by simp [poolCount]⟩
  | succ n ih =>
    obtain ⟨k', hk', henc⟩ := encodeLayer_ok hc hkv hk hh hd
    set st1 : EncState := ⟨⟨st.x.batch, if l ∈ c.poolingLayers then sameLen st.x.seq s else st.x.seq,
        if l + 1 ∈ c.poolingLayers then st.x.chan * 2 else st.x.chan⟩,
       if l ∈ c.poolingLayers then st.heads * 2 else st.heads, (1, k'),
       if l ∈ c.poolingLayers then st.skips ++ [(l, st.x)] else st.skips⟩ with hst1
    have hw1 : c.width ∣ st1.x.chan := by
      show c.width ∣ (if l + 1 ∈ c.poolingLayers then st.x.chan * 2 else st.x.chan)
      split
      · exact hw.mul_right 2
      · exact hw
    have hpos1 : 0 < st1.x.chan := by
      show 0 < (if l + 1 ∈ c.poolingLayers then st.x.chan * 2 else st.x.chan)
      split <;> omega
    have hh1 : 0 < st1.heads := by
      show 0 < (if l ∈ c.poolingLayers then st.heads * 2 else st.heads)
      split <;> omega
    have hd1 : (if l + 1 ∈ c.poolingLayers then st1.heads * 2 else st1.heads) ∣ st1.x.chan := by
      show (if l + 1 ∈ c.poolingLayers then (if l ∈ c.poolingLayers then st.heads * 2 else st.heads) * 2
        else (if l ∈ c.poolingLayers then st.heads * 2 else st.heads)) ∣
        (if l + 1 ∈ c.poolingLayers then st.x.chan * 2 else st.x.chan)
      by_cases hl1 : l + 1 ∈ c.poolingLayers
      · simp only [if_pos hl1]; exact Nat.mul_dvd_mul_right hd 2
      · simp only [if_neg hl1]; exact hd
    obtain ⟨st', he, hx, hsk, hok, hneed⟩ := ih (l + 1) st1 k' rfl hk' hh1 hw1 hpos1 hd1
    have hskips : skipsOf c s l (n + 1) st.x =
        (if l ∈ c.poolingLayers then [(l, st.x)] else []) ++ skipsOf c s (l + 1) n st1.x := rfl
    have hpow : s ^ poolCount c l (n + 1) ∣ st.x.seq ↔
        (l ∈ c.poolingLayers → s ∣ st.x.seq) ∧ s ^ poolCount c (l + 1) n ∣ st1.x.seq := by
      rw [poolCount_succ]
      show _ ↔ _ ∧ s ^ poolCount c (l + 1) n ∣ (if l ∈ c.poolingLayers then sameLen st.x.seq s else st.x.seq)
      by_cases hl : l ∈ c.poolingLayers
      · simp only [if_pos hl, pow_add, pow_one]
        constructor
        · intro h
          have h1 : s ∣ st.x.seq := (Dvd.intro _ rfl).trans h
          refine ⟨fun _ => h1, ?_⟩
          rw [sameLen_dvd hc.stride_pos h1]
          obtain ⟨q, hq⟩ := h
          rw [hq, mul_assoc, Nat.mul_div_cancel_left _ hc.stride_pos]
          exact Dvd.intro _ rfl
        · rintro ⟨h1, h2⟩
          have h3 := (mul_sameLen hc.stride_pos).2 (h1 hl)
          rw [← h3]
          exact Nat.mul_dvd_mul_left s h2
      · simp [hl]
    refine ⟨st', ?_, ?_, ?_, ?_, ?_⟩
    · rw [List.range'_succ, encodeLayers, henc]; exact he
    · rw [hx]
      have e1 : st1.x.batch = st.x.batch := rfl
      have e2 : st1.x.chan * 2 ^ poolCount c (l + 1 + 1) n = st.x.chan * 2 ^ poolCount c (l + 1) (n + 1) := by
        rw [poolCount_succ]
        show (if l + 1 ∈ c.poolingLayers then st.x.chan * 2 else st.x.chan) * _ = _
        by_cases hl1 : l + 1 ∈ c.poolingLayers
        · simp only [if_pos hl1, pow_add, pow_one]; ring
        · simp [hl1]
      rw [e1, e2]
      rfl
    · rw [hsk, hskips]
      show (if l ∈ c.poolingLayers then st.skips ++ [(l, st.x)] else st.skips) ++ _ = _
      split <;> simp
    · intro S hS hdiv
      rw [List.range'_succ, List.reverse_cons, decodeLayers_append]
      obtain ⟨h1, h2⟩ := hpow.1 hdiv
      rw [hok S (fun e he => hS e (by rw [hskips]; exact List.mem_append_right _ he)) h2]
      simp only [decodeLayers]
      have hS0 : l ∈ c.poolingLayers → S.lookup l = some st.x := fun hl =>
        hS (l, st.x) (by rw [hskips, if_pos hl]; simp)
      have := decodeLayer_spec hc hw hpos hS0 h1
      rw [show st1.x = ⟨st.x.batch, if l ∈ c.poolingLayers then sameLen st.x.seq s else st.x.seq,
        if l + 1 ∈ c.poolingLayers then st.x.chan * 2 else st.x.chan⟩ from rfl, this]
    · intro hu S y hS hdec
      rw [List.range'_succ, List.reverse_cons, decodeLayers_append] at hdec
      have hS' : ∀ e ∈ skipsOf c s (l + 1) n st1.x, S.lookup e.1 = some e.2 := fun e he =>
        hS e (by rw [hskips]; exact List.mem_append_right _ he)
      have hS0 : l ∈ c.poolingLayers → S.lookup l = some st.x := fun hl =>
        hS (l, st.x) (by rw [hskips, if_pos hl]; simp)
      cases hin : decodeLayers c S (List.range' (l + 1) n).reverse st'.x with
      | error e => rw [hin] at hdec; cases hdec
      | ok y1 =>
        rw [hin] at hdec
        obtain ⟨hy1, hdv⟩ := hneed hu S y1 hS' hin
        subst hy1
        simp only [decodeLayers] at hdec
        cases hl0 : decodeLayer c S l st1.x with
        | error e => rw [hl0] at hdec; cases hdec
        | ok y2 =>
          rw [hl0] at hdec
          have hsdv := decodeLayer_needs hc hu hw hpos hS0 hl0
          have h4 := decodeLayer_spec hc hw hpos hS0 hsdv
          have h5 : decodeLayer c S l st1.x = .ok st.x := h4
          rw [h5] at hl0
          simp only [Except.ok.injEq] at hl0 hdec
          exact ⟨by rw [← hdec, ← hl0], hpow.2 ⟨hsdv, hdv⟩⟩

theorem skipsOf_lookup (c : MSConfig) (s l n : ℕ) (x : Shape) :
    ∀ e ∈ skipsOf c s l n x, (skipsOf c s l n x).lookup e.1 = some e.2 := by
  induction n generalizing l x with
  | zero => simp [skipsOf]
  | succ n ih =>
    intro e he
    rw [skipsOf] at he ⊢
    by_cases hl : l ∈ c.poolingLayers
    · simp only [if_pos hl, List.singleton_append, List.mem_cons] at he ⊢
      rcases he with he | he
      · subst he; simp
      · have := skipsOf_ge c s (l + 1) n _ e he
        rw [List.lookup_cons, beq_false_of_ne (by omega)]
        have h2 := ih _ _ e he
        simpa [hl] using h2
    · simp only [if_neg hl, List.nil_append] at he ⊢
      exact ih _ _ e he

end Verif.Niles

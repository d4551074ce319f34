import Verif.Model.SdeTree
import Verif.Props.C144
import Mathlib.Algebra.Module.Pi
import Mathlib.Algebra.Module.Prod
import Mathlib.Algebra.Module.Rat
import Mathlib.Algebra.Field.Rat
import Mathlib.Data.Rat.Floor
import Mathlib.Algebra.Order.Ring.Rat
import Mathlib.Algebra.BigOperators.Group.List.Basic
import Mathlib.Tactic.Ring

/-! C145: `sdeint` for pytree states. -/

namespace Verif.SDE

open Verif.Comm

section basics
variable {K : Type}

/-- Every leaf has as many entries as its shape says. -/
def WellShaped (t : PyTree (Arr K)) : Prop := ∀ a ∈ t.flatten, a.data.length = a.shape.prod

theorem splitArrs_ravel (l : List (Arr K)) (h : ∀ a ∈ l, a.data.length = a.shape.prod) :
    splitArrs (l.map Arr.shape) (l.map Arr.data).flatten = l := by
  induction l with
  | nil => rfl
  | cons a l ih =>
    have ha := h a (by simp)
    simp only [List.map_cons, List.flatten_cons, splitArrs]
    rw [List.take_left' ha, List.drop_left' ha, ih (fun b hb => h b (by simp [hb]))]

theorem ravel_length (t : PyTree (Arr K)) (h : WellShaped t) : (ravel t).length = ((leafShapes t).map List.prod).sum := by
  unfold ravel leafShapes
  rw [List.length_flatten, List.map_map, List.map_map]
  congr 1
  exact List.map_congr_left (fun a ha => h a ha)

/-- **C145.** Raveling loses nothing: unraveling with the structure and the shapes gives the pytree back. -/
theorem C145_unravel_ravel (t : PyTree (Arr K)) (h : WellShaped t) :
    unravel t.treeDef (leafShapes t) (ravel t) = .ok t := by
  unfold unravel
  rw [if_pos (ravel_length t h)]
  unfold ravel leafShapes
  rw [splitArrs_ravel _ h]
  exact (C144_unflatten _ _ t).1.2 ⟨rfl, rfl⟩

theorem splitArrs_spec : ∀ (ss : List (List ℕ)) (l : List K), l.length = (ss.map List.prod).sum →
    (splitArrs ss l).map Arr.shape = ss ∧ ((splitArrs ss l).map Arr.data).flatten = l ∧
      ∀ a ∈ splitArrs ss l, a.data.length = a.shape.prod
  | [], l, h => by
    have : l = [] := by simpa using h
    subst this
    simp [splitArrs]
  | s :: ss, l, h => by
    simp only [List.map_cons, List.sum_cons] at h
    obtain ⟨h1, h2, h3⟩ := splitArrs_spec ss (l.drop s.prod) (by rw [List.length_drop]; omega)
    refine ⟨by simp [splitArrs, h1], by simp [splitArrs, h2], ?_⟩
    intro a ha
    simp only [splitArrs, List.mem_cons] at ha
    rcases ha with rfl | ha
    · simp only [List.length_take]; omega
    · exact h3 a ha

theorem unravel_spec (d : PyTree Unit) (ss : List (List ℕ)) (l : List K) (hd : ss.length = d.flatten.length)
    (hl : l.length = (ss.map List.prod).sum) :
    ∃ t, unravel d ss l = .ok t ∧ t.treeDef = d ∧ leafShapes t = ss ∧ ravel t = l ∧ WellShaped t := by
  obtain ⟨h1, h2, h3⟩ := splitArrs_spec ss l hl
  obtain ⟨t, g1, g2, g3⟩ := unflatten_spec d (splitArrs ss l) (by
    rw [← hd, ← h1, List.length_map, h1])
  refine ⟨t, by rw [unravel, if_pos hl, g1], g2, by rw [leafShapes, g3, h1], by rw [ravel, g3, h2], ?_⟩
  intro a ha
  rw [g3] at ha
  exact h3 a ha

theorem vadd_eq [Add K] {a b : List K} (h : a.length = b.length) : vadd a b = .ok (List.zipWith (· + ·) a b) := by
  unfold vadd
  exact if_pos h

end basics

section refine
variable {K W V : Type} [Field K] [LinearOrder K] [AddCommGroup V] [Module K V]

/-- A vector space of states written as pytrees of one structure: the entries of the leaves are linear in the state. -/
structure Encoding (K V : Type) [Field K] [AddCommGroup V] [Module K V] (enc : V → PyTree (Arr K)) (d : PyTree Unit)
    (ss : List (List ℕ)) : Prop where
  treeDef : ∀ v, (enc v).treeDef = d
  shapes : ∀ v, leafShapes (enc v) = ss
  wellShaped : ∀ v, WellShaped (enc v)
  add : ∀ u v, ravel (enc (u + v)) = List.zipWith (· + ·) (ravel (enc u)) (ravel (enc v))
  smul : ∀ (c : K) v, ravel (enc (c • v)) = (ravel (enc v)).map (c * ·)

variable {enc : V → PyTree (Arr K)} {d : PyTree Unit} {ss : List (List ℕ)}

theorem Encoding.len (h : Encoding K V enc d ss) (v : V) : (ravel (enc v)).length = (ss.map List.prod).sum := by
  rw [ravel_length _ (h.wellShaped v), h.shapes]

theorem Encoding.vadd (h : Encoding K V enc d ss) (u v : V) :
    vadd (ravel (enc u)) (ravel (enc v)) = .ok (ravel (enc (u + v))) := by
  rw [vadd_eq (by rw [h.len, h.len]), h.add]

variable {f : PyTree (Arr K) → K → W → PyTree (Arr K) × PyTree (Arr K)} {g : V → K → W → V × V}

theorem ravelFirstArg_enc (h : Encoding K V enc d ss) (hf : ∀ v t w, f (enc v) t w = (enc (g v t w).1, enc (g v t w).2))
    (v : V) (t : K) (w : W) :
    ravelFirstArg f d ss (ravel (enc v)) t w = .ok (ravel (enc (g v t w).1), ravel (enc (g v t w).2)) := by
  have e := C145_unravel_ravel (enc v) (h.wellShaped v)
  rw [h.treeDef, h.shapes] at e
  simp only [ravelFirstArg, e, hf]

theorem heunFlat_enc (h : Encoding K V enc d ss) (hf : ∀ v t w, f (enc v) t w = (enc (g v t w).1, enc (g v t w).2))
    (dt t : K) (v : V) (w : W) :
    heunFlat (ravelFirstArg f d ss) dt t (ravel (enc v)) w = .ok (ravel (enc (heun g dt t v w))) := by
  have e1 : ∀ u : V, (ravel (enc u)).map (· * dt) = ravel (enc (dt • u)) := by
    intro u; rw [h.smul]; exact List.map_congr_left (fun a _ => mul_comm a dt)
  have e2 : ∀ u : V, (ravel (enc u)).map ((1 / 2 : K) * ·) = ravel (enc ((1 / 2 : K) • u)) := fun u => (h.smul _ u).symm
  simp only [heunFlat, ravelFirstArg_enc h hf, bind, Except.bind, h.vadd, e1, e2]
  rfl

theorem stepFlat_enc (h : Encoding K V enc d ss) (hf : ∀ v t w, f (enc v) t w = (enc (g v t w).1, enc (g v t w).2))
    (ts : K × K) (dt : K) (s : K × V) (w : W) :
    stepFlat (ravelFirstArg f d ss) ts dt (s.1, ravel (enc s.2)) w =
      .ok ((stepFn g ts dt s w).1, ravel (enc (stepFn g ts dt s w).2)) := by
  simp only [stepFlat, heunFlat_enc h hf, bind, Except.bind]
  rw [if_neg (by rw [h.len, h.len]; simp)]
  unfold stepFn
  split_ifs <;> rfl

theorem scanFlat_enc (h : Encoding K V enc d ss) (hf : ∀ v t w, f (enc v) t w = (enc (g v t w).1, enc (g v t w).2))
    (ts : K × K) (dt : K) (dw : List W) : ∀ s : K × V,
    scanFlat (ravelFirstArg f d ss) ts dt dw (s.1, ravel (enc s.2)) =
      .ok ((dw.foldl (stepFn g ts dt) s).1, ravel (enc (dw.foldl (stepFn g ts dt) s).2)) := by
  induction dw with
  | nil => intro s; rfl
  | cons w dw ih =>
    intro s
    simp only [scanFlat, stepFlat_enc h hf, bind, Except.bind, List.foldl_cons]
    exact ih _

theorem sdeintWrapper_enc (h : Encoding K V enc d ss)
    (hf : ∀ v t w, f (enc v) t w = (enc (g v t w).1, enc (g v t w).2)) (v : V) (ts : K × K) (dw : List W) :
    sdeintWrapper f (enc v) ts dw = .ok (enc (sdeintSeg g false v ts dw)) := by
  have e := scanFlat_enc h hf ts ((ts.2 - ts.1) / (dw.length : K)) dw (ts.1, v)
  have u := C145_unravel_ravel _ (h.wellShaped (sdeintSeg g false v ts dw))
  rw [h.treeDef, h.shapes] at u
  simp only [sdeintWrapper, sdeintFlat, h.treeDef, h.shapes, bind, Except.bind, e]
  exact u

theorem segScanTree_enc (h : Encoding K V enc d ss)
    (hf : ∀ v t w, f (enc v) t w = (enc (g v t w).1, enc (g v t w).2)) :
    ∀ (segs : List (List W)) (ts : List K) (t : K) (v : V),
      segScanTree f t (enc v) segs ts = .ok ((segScan g t v segs ts).map enc)
  | [], _, _, _ => by simp [segScanTree, segScan]
  | _ :: _, [], _, _ => by simp [segScanTree, segScan]
  | dw :: dws, t' :: ts, t, v => by
    simp only [segScanTree, sdeintWrapper_enc h hf, bind, Except.bind, segScan, List.map_cons]
    rw [segScanTree_enc h hf dws ts]

/-- **C145.** If the states are written as pytrees of one structure and `f` computes the drift `g.1` and the diffusion `g.2`
in this form, `sdeint` on pytrees returns the states of `sdeint` in the vector space, written in this form, and it raises an
error exactly if that does. So the statements about `sdeint` for vectors hold for pytrees. -/
theorem C145_refines (h : Encoding K V enc d ss) (hf : ∀ v t w, f (enc v) t w = (enc (g v t w).1, enc (g v t w).2))
    (y0 : V) (ts : List K) (dw : List W) :
    (∀ ys, sdeint g y0 ts dw = .ok ys → sdeintTree f (enc y0) ts dw = .ok (ys.map enc)) ∧
    (∀ e, sdeint g y0 ts dw = .error e → ∃ e', sdeintTree f (enc y0) ts dw = .error e') := by
  unfold sdeint sdeintTree
  cases hargs : sdeintArgs ts dw with
  | error e => exact ⟨fun ys hys => by simp at hys, fun _ _ => ⟨_, rfl⟩⟩
  | ok a =>
    obtain ⟨t0, touts, segs⟩ := a
    refine ⟨fun ys hys => ?_, fun e he => by simp at he⟩
    simp only [Except.ok.injEq] at hys
    simp only [segScanTree_enc h hf, hys]

end refine

section structure_preserved
variable {K W : Type} [Field K] [LinearOrder K]

/-- The pytrees with structure `d` and leaves of shapes `ss`, as vectors. -/
noncomputable def ofVec (d : PyTree Unit) (ss : List (List ℕ)) (hd : ss.length = d.flatten.length)
    (v : Fin (ss.map List.prod).sum → K) : PyTree (Arr K) :=
  (unravel_spec d ss (List.ofFn v) hd (by simp)).choose

theorem ofVec_spec (d : PyTree Unit) (ss : List (List ℕ)) (hd : ss.length = d.flatten.length)
    (v : Fin (ss.map List.prod).sum → K) :
    (ofVec d ss hd v).treeDef = d ∧ leafShapes (ofVec d ss hd v) = ss ∧ ravel (ofVec d ss hd v) = List.ofFn v ∧
      WellShaped (ofVec d ss hd v) :=
  (unravel_spec d ss (List.ofFn v) hd (by simp)).choose_spec.2

theorem ofVec_encoding (d : PyTree Unit) (ss : List (List ℕ)) (hd : ss.length = d.flatten.length) :
    Encoding K (Fin (ss.map List.prod).sum → K) (ofVec d ss hd) d ss where
  treeDef v := (ofVec_spec d ss hd v).1
  shapes v := (ofVec_spec d ss hd v).2.1
  wellShaped v := (ofVec_spec d ss hd v).2.2.2
  add u v := by
    rw [(ofVec_spec d ss hd _).2.2.1, (ofVec_spec d ss hd _).2.2.1, (ofVec_spec d ss hd _).2.2.1]
    apply List.ext_getElem
    · simp
    · intro i h1 h2; simp
  smul c v := by
    rw [(ofVec_spec d ss hd _).2.2.1, (ofVec_spec d ss hd _).2.2.1]
    apply List.ext_getElem
    · simp
    · intro i h1 h2; simp

/-- The pytree is determined by structure, shapes and entries. -/
theorem tree_ext {s t : PyTree (Arr K)} (hs : WellShaped s) (ht : WellShaped t) (h1 : s.treeDef = t.treeDef)
    (h2 : leafShapes s = leafShapes t) (h3 : ravel s = ravel t) : s = t := by
  have a := C145_unravel_ravel s hs
  rw [h1, h2, h3, C145_unravel_ravel t ht] at a
  simpa using a.symm

theorem exists_ofVec (d : PyTree Unit) (ss : List (List ℕ)) (hd : ss.length = d.flatten.length) (t : PyTree (Arr K))
    (h1 : t.treeDef = d) (h2 : leafShapes t = ss) (h3 : WellShaped t) : ∃ v, t = ofVec d ss hd v := by
  have hl : (ravel t).length = (ss.map List.prod).sum := by rw [ravel_length t h3, h2]
  refine ⟨fun i => (ravel t)[i.val]'(by rw [hl]; exact i.2), ?_⟩
  obtain ⟨e1, e2, e3, e4⟩ := ofVec_spec d ss hd (fun i => (ravel t)[i.val]'(by rw [hl]; exact i.2))
  refine tree_ext h3 e4 (h1.trans e1.symm) (h2.trans e2.symm) ?_
  rw [e3]
  apply List.ext_getElem
  · simp [hl]
  · intro i _ _; simp

/-- **C145.** If `f` keeps the structure and the shapes of the state, `sdeint` raises no error that does not come from the
lengths of `ts` and `dw`, and all states it returns have the structure and the shapes of `y0`. -/
theorem C145_structure_partial (f : PyTree (Arr K) → K → W → PyTree (Arr K) × PyTree (Arr K)) (y0 : PyTree (Arr K))
    (hy : WellShaped y0)
    (hf : ∀ y t w, y.treeDef = y0.treeDef → leafShapes y = leafShapes y0 → WellShaped y →
      ((f y t w).1.treeDef = y0.treeDef ∧ leafShapes (f y t w).1 = leafShapes y0 ∧ WellShaped (f y t w).1) ∧
      ((f y t w).2.treeDef = y0.treeDef ∧ leafShapes (f y t w).2 = leafShapes y0 ∧ WellShaped (f y t w).2))
    (ts : List K) (dw : List W) (hargs : ∃ a, sdeintArgs ts dw = .ok a) :
    ∃ ys, sdeintTree f y0 ts dw = .ok ys ∧ ys.length + 1 = ts.length ∧
      ∀ y ∈ ys, y.treeDef = y0.treeDef ∧ leafShapes y = leafShapes y0 ∧ WellShaped y := by
  classical
  obtain ⟨d, hd0⟩ : ∃ d, d = y0.treeDef := ⟨_, rfl⟩
  obtain ⟨ss, hs0⟩ : ∃ ss, ss = leafShapes y0 := ⟨_, rfl⟩
  rw [← hd0, ← hs0] at hf ⊢
  have hd : ss.length = d.flatten.length := by
    rw [hs0, hd0, flatten_treeDef_length, leafShapes, List.length_map]
  have H := ofVec_encoding (K := K) d ss hd
  have ex : ∀ v t w, ∃ p : (Fin (ss.map List.prod).sum → K) × (Fin (ss.map List.prod).sum → K),
      f (ofVec d ss hd v) t w = (ofVec d ss hd p.1, ofVec d ss hd p.2) := by
    intro v t w
    obtain ⟨⟨a1, a2, a3⟩, ⟨b1, b2, b3⟩⟩ := hf (ofVec d ss hd v) t w (H.treeDef v) (H.shapes v) (H.wellShaped v)
    obtain ⟨u1, e1⟩ := exists_ofVec d ss hd _ a1 a2 a3
    obtain ⟨u2, e2⟩ := exists_ofVec d ss hd _ b1 b2 b3
    exact ⟨(u1, u2), Prod.ext e1 e2⟩
  choose g hg using ex
  obtain ⟨v0, hv0⟩ := exists_ofVec d ss hd y0 hd0.symm hs0.symm hy
  obtain ⟨a, ha⟩ := hargs
  obtain ⟨t0, touts, segs⟩ := a
  have hsd : sdeint g v0 ts dw = .ok (segScan g t0 v0 segs touts) := by simp [sdeint, ha]
  refine ⟨_, by rw [hv0]; exact (C145_refines H hg v0 ts dw).1 _ hsd, ?_, ?_⟩
  · rw [List.length_map]
    have hlen : ∀ (segs : List (List W)) (ts : List K) (t : K) v, segs.length = ts.length →
        (segScan g t v segs ts).length = ts.length := by
      intro segs
      induction segs with
      | nil =>
        intro ts t v h
        cases ts with
        | nil => rfl
        | cons t' ts => simp at h
      | cons s segs ih =>
        intro ts t v h
        cases ts with
        | nil => simp at h
        | cons t' ts => simp only [segScan, List.length_cons]; rw [ih]; simpa using h
    have hseg : ∀ (n m : ℕ) (l : List W), (segments n m l).length = m := by
      intro n m
      induction m with
      | zero => intro l; rfl
      | succ m ih => intro l; simp [segments, ih]
    unfold sdeintArgs at ha
    split at ha
    · cases ha
    · split_ifs at ha
      simp only [Except.ok.injEq, Prod.mk.injEq] at ha
      obtain ⟨h1, h2, h3⟩ := ha
      rw [hlen _ _ _ _ (by rw [← h3, hseg, h2]), ← h2]
      rfl
  · intro y hy'
    obtain ⟨v, -, rfl⟩ := List.mem_map.1 hy'
    exact ⟨H.treeDef v, H.shapes v, H.wellShaped v⟩

end structure_preserved

section structure_of_f
variable {K W : Type} [Field K] [LinearOrder K]

/-- **C145.** Only the sequence of the entries of the drift and the diffusion matters, not their structure or shapes: two
functions that agree after raveling give the same result. -/
theorem C145_only_entries (f g : PyTree (Arr K) → K → W → PyTree (Arr K) × PyTree (Arr K))
    (h : ∀ y t w, ravel (f y t w).1 = ravel (g y t w).1 ∧ ravel (f y t w).2 = ravel (g y t w).2)
    (y0 : PyTree (Arr K)) (ts : List K) (dw : List W) : sdeintTree f y0 ts dw = sdeintTree g y0 ts dw := by
  have e1 : ∀ d ss, ravelFirstArg f d ss = ravelFirstArg g d ss := by
    intro d ss
    funext y t w
    unfold ravelFirstArg
    split
    · rfl
    · next yt _ => rw [(h yt t w).1, (h yt t w).2]
  have e2 : sdeintWrapper f = sdeintWrapper g := by
    funext y0 ts dw
    simp only [sdeintWrapper, e1]
  have e3 : ∀ (segs : List (List W)) (ts : List K) (t : K) (y : PyTree (Arr K)),
      segScanTree f t y segs ts = segScanTree g t y segs ts := by
    intro segs
    induction segs with
    | nil => intro ts t y; simp [segScanTree]
    | cons s segs ih =>
      intro ts t y
      cases ts with
      | nil => simp [segScanTree]
      | cons t' ts => simp only [segScanTree, e2, ih]
  unfold sdeintTree
  cases sdeintArgs ts dw with
  | error e => rfl
  | ok a => exact e3 _ _ _ _

/-- **C145.** The reverse rule needs this: `aug_f` returns the cotangents of the arguments as further entries of the tuple
(sdeint.py 166, 169), while the state of the augmented system has them in a tuple of their own (sdeint.py 173). The entries
are the same. -/
theorem C145_adjoint_structure (y yBar : PyTree (Arr K)) (args : List (PyTree (Arr K))) :
    ravel (.node "tuple" (y :: yBar :: args)) = ravel (.node "tuple" [y, yBar, .node "tuple" args]) ∧
    (args ≠ [] → (PyTree.node "tuple" (y :: yBar :: args)).treeDef ≠
      (PyTree.node "tuple" [y, yBar, .node "tuple" args]).treeDef) := by
  constructor
  · simp [ravel, PyTree.flatten, PyTree.flattenAll]
  · intro h0 h
    simp only [PyTree.treeDef, PyTree.treeDefs, PyTree.node.injEq, List.cons.injEq, true_and] at h
    cases args with
    | nil => exact h0 rfl
    | cons a l =>
      simp only [PyTree.treeDefs, List.cons.injEq] at h
      have := congrArg sizeOf h.1
      simp only [PyTree.node.sizeOf_spec, List.cons.sizeOf_spec] at this
      omega

end structure_of_f

/-- A state with one leaf of shape (2, 3) and a drift of shape (3, 2): the transposed array of the state, as in
`drift = y.T`. -/
def transposed (y : PyTree (Arr ℚ)) (_ : ℚ) (_ : ℚ) : PyTree (Arr ℚ) × PyTree (Arr ℚ) :=
  match ravel y with
  | [a, b, c, d, e, f] => (.leaf ⟨[3, 2], [a, d, b, e, c, f]⟩, .leaf ⟨[3, 2], [0, 0, 0, 0, 0, 0]⟩)
  | _ => (.leaf ⟨[3, 2], []⟩, .leaf ⟨[3, 2], []⟩)

/-- A scalar drift for a state with two leaves. -/
def scalarDrift (_ : PyTree (Arr ℚ)) (_ : ℚ) (_ : ℚ) : PyTree (Arr ℚ) × PyTree (Arr ℚ) :=
  (.leaf ⟨[], [1]⟩, .leaf ⟨[], [0]⟩)

/-- **C145, violated.** "each of which must have the same pytree structure as y0" is not checked: a drift with the transposed
shape is integrated entry by entry in the wrong order, and a scalar drift is added to all leaves. -/
theorem C145_violated :
    (match sdeintTree transposed (.leaf ⟨[2, 3], [1, 2, 3, 4, 5, 6]⟩) [0, 1] [0] with
      | .ok [y] => some y.flatten | _ => none) = some [⟨[2, 3], [2, 6, 5, 9, 8, 12]⟩] ∧
    (match sdeintTree scalarDrift (.node "tuple" [.leaf ⟨[], [5]⟩, .leaf ⟨[2], [7, 8]⟩]) [0, 1] [0] with
      | .ok [y] => some y.flatten | _ => none) = some [⟨[], [6]⟩, ⟨[2], [8, 9]⟩] := by
  constructor <;> decide +kernel

/-- A number and a vector of two numbers as a tuple. -/
def encPair (v : ℚ × (Fin 2 → ℚ)) : PyTree (Arr ℚ) := .node "tuple" [.leaf ⟨[], [v.1]⟩, .leaf ⟨[2], [v.2 0, v.2 1]⟩]

example : Encoding ℚ (ℚ × (Fin 2 → ℚ)) encPair (.node "tuple" [.leaf (), .leaf ()]) [[], [2]] where
  treeDef v := by simp [encPair, PyTree.treeDef, PyTree.treeDefs]
  shapes v := by simp [encPair, leafShapes, PyTree.flatten, PyTree.flattenAll]
  wellShaped v := by simp [WellShaped, encPair, PyTree.flatten, PyTree.flattenAll]
  add u v := by simp [encPair, ravel, PyTree.flatten, PyTree.flattenAll]
  smul c v := by simp [encPair, ravel, PyTree.flatten, PyTree.flattenAll]

/-- A drift that couples the leaves, in both forms. -/
example : ∃ f : PyTree (Arr ℚ) → ℚ → ℚ → PyTree (Arr ℚ) × PyTree (Arr ℚ), ∀ (v : ℚ × (Fin 2 → ℚ)) t w,
    f (encPair v) t w = (encPair (v.2 0, fun _ => v.1 * t), encPair (w, fun i => w * v.2 i)) := by
  refine ⟨fun y t w => match ravel y with
    | [a, b, c] => (encPair (b, fun _ => a * t), encPair (w, fun i => w * (![b, c] : Fin 2 → ℚ) i))
    | _ => (y, y), fun v t w => ?_⟩
  simp [encPair, ravel, PyTree.flatten, PyTree.flattenAll]

example : ∃ a, sdeintArgs ([0, 1 / 2, 1] : List ℚ) ([1, 2, 3, 4] : List ℚ) = .ok a := ⟨_, rfl⟩

end Verif.SDE

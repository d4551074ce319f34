import Verif.Model.JitDistributed
import Mathlib.Logic.IsEmpty.Basic
import Mathlib.Tactic.Set
import Mathlib.Data.List.TakeWhile

/-!
# C10: `jit_distributed` hands every parameter its own argument exactly once
-/

namespace Verif.Comm

variable {V W : Type*}

theorem bindCall_names (sig : List (Param V)) (args : List V) (kw b : List (String × V))
    (h : bindCall sig args kw = .ok b) : b.map Prod.fst = sig.map (·.name) := by
  fun_induction bindCall sig args kw generalizing b with
  | case1 => simp at h; subst h; rfl
  | case2 => simp at h
  | case3 => simp at h
  | case4 p ps kw v hl r hr ih => simp at h; subst h; simp [ih _ hr]
  | case5 => simp at h
  | case6 p ps kw hl v hd r hr ih => simp at h; subst h; simp [ih _ hr]
  | case7 => simp at h
  | case8 => simp at h
  | case9 => simp at h
  | case10 => simp at h
  | case11 p ps a args kw hk hc r hr ih => simp at h; subst h; simp [ih _ hr]
  | case12 => simp at h

theorem lookup_filter (b : List (String × V)) (c : String → Bool) (nm : String) :
    (b.filter (fun e => c e.1)).lookup nm = if c nm then b.lookup nm else none := by
  induction b with
  | nil => simp
  | cons e b ih =>
    obtain ⟨k, v⟩ := e
    by_cases hk : nm = k
    · subst hk
      cases hc : c nm <;> simp [hc, ih]
    · have hk' : (nm == k) = false := by simpa using hk
      cases hc : c k <;> simp [hc, ih, List.lookup_cons, hk']

theorem lookup_of_mem {b : List (String × V)} (hn : (b.map Prod.fst).Nodup) {nm : String} {v : V}
    (h : (nm, v) ∈ b) : b.lookup nm = some v := by
  induction b with
  | nil => cases h
  | cons e b ih =>
    obtain ⟨k, w⟩ := e
    simp only [List.map_cons, List.nodup_cons] at hn
    rcases List.mem_cons.1 h with h | hmem
    · cases h; simp
    · have : nm ≠ k := by
        rintro rfl
        exact hn.1 (List.mem_map.2 ⟨(nm, v), hmem, rfl⟩)
      have hk' : (nm == k) = false := by simpa using this
      rw [List.lookup_cons, hk']
      exact ih hn.2 hmem

theorem lookup_T {kw : List (String × W)} {T : String → W} (hT : ∀ e ∈ kw, e.2 = T e.1) {nm : String}
    (h : nm ∈ kw.map Prod.fst) : kw.lookup nm = some (T nm) := by
  induction kw with
  | nil => cases h
  | cons e kw ih =>
    obtain ⟨k, w⟩ := e
    by_cases hk : nm = k
    · subst hk
      have := hT (nm, w) (by simp)
      simp at this
      simp [this]
    · have hk' : (nm == k) = false := by simpa using hk
      rw [List.lookup_cons, hk']
      refine ih (fun e he => hT e (by simp [he])) ?_
      simpa [hk] using h

/-- Binding a call that passes the parameters `pre` by position and the others by keyword. -/
theorem bindCall_total (T : String → W) (pre post : List (Param W)) (kw : List (String × W))
    (hpre : ∀ p ∈ pre, p.kind = .posOrKw)
    (hnd : ((pre ++ post).map (·.name)).Nodup)
    (hT : ∀ e ∈ kw, e.2 = T e.1)
    (hkw : ∀ nm, nm ∈ kw.map Prod.fst ↔ nm ∈ post.map (·.name)) :
    bindCall (pre ++ post) (pre.map (fun p => T p.name)) kw =
      .ok ((pre ++ post).map (fun p => (p.name, T p.name))) := by
  induction pre with
  | nil =>
    simp only [List.nil_append, List.map_nil] at *
    induction post generalizing kw with
    | nil =>
      cases kw with
      | nil => rfl
      | cons e kw => exact absurd ((hkw e.1).1 (by simp)) (by simp)
    | cons p ps ih =>
      simp only [List.map_cons, List.nodup_cons] at hnd
      have hl := lookup_T hT ((hkw p.name).2 (by simp))
      rw [bindCall, hl]
      simp only
      rw [ih (kw.filter (fun e => e.1 ≠ p.name)) (fun e he => hT e (List.mem_filter.1 he).1) ?_ hnd.2]
      · rfl
      · intro nm
        have := hkw nm
        simp only [List.mem_map, List.mem_filter, decide_eq_true_eq, List.mem_cons] at this ⊢
        constructor
        · rintro ⟨e, ⟨he1, he2⟩, rfl⟩
          obtain ⟨q, hq, hqn⟩ := this.1 ⟨e, he1, rfl⟩
          rcases hq with rfl | hq
          · exact absurd hqn.symm he2
          · exact ⟨q, hq, hqn⟩
        · rintro ⟨q, hq, rfl⟩
          obtain ⟨e, he, hen⟩ := this.2 ⟨q, .inr hq, rfl⟩
          refine ⟨e, ⟨he, ?_⟩, hen⟩
          rw [hen]
          intro hh
          exact hnd.1 (List.mem_map.2 ⟨q, hq, hh⟩)
  | cons p ps ih =>
    simp only [List.cons_append, List.map_cons, List.nodup_cons] at *
    rw [bindCall, hpre p (by simp)]
    simp only
    have hni : p.name ∉ kw.map Prod.fst := by
      rw [hkw]
      intro hh
      exact hnd.1 (by rw [List.map_append]; exact List.mem_append_right _ hh)
    rw [if_neg (by simpa using hni), ih (fun q hq => hpre q (by simp [hq])) hnd.2]

variable {val : String → V} {c : String → Bool}

theorem argsOf_eq (ps : List (Param V)) (b : List (String × V))
    (hb : ∀ p ∈ ps, b.lookup p.name = if c p.name then some (val p.name) else none) :
    argsOf ps b = (ps.takeWhile (fun p => p.kind = .posOrKw ∧ c p.name)).map (fun p => val p.name) := by
  induction ps with
  | nil => rfl
  | cons p ps ih =>
    have h1 := hb p (by simp)
    have ih := ih (fun q hq => hb q (by simp [hq]))
    rw [argsOf]
    cases hk : p.kind <;> cases hc : c p.name <;> simp only [hc, if_true, Bool.false_eq_true, if_false] at h1 <;> simp [hk, hc, h1, ih]

theorem kwargsOf_true_eq (ps : List (Param V)) (b : List (String × V))
    (hb : ∀ p ∈ ps, b.lookup p.name = if c p.name then some (val p.name) else none) :
    kwargsOf true ps b = (ps.filter (fun p => c p.name)).map (fun p => (p.name, val p.name)) := by
  induction ps with
  | nil => rfl
  | cons p ps ih =>
    have h1 := hb p (by simp)
    have ih := ih (fun q hq => hb q (by simp [hq]))
    rw [kwargsOf]
    cases hc : c p.name <;> simp only [hc, if_true, Bool.false_eq_true, if_false] at h1 <;> simp [hc, h1, ih]

theorem kwargsOf_false_eq (ps : List (Param V)) (b : List (String × V))
    (hb : ∀ p ∈ ps, b.lookup p.name = if c p.name then some (val p.name) else none) :
    kwargsOf false ps b = ((ps.dropWhile (fun p => p.kind = .posOrKw ∧ c p.name)).filter
      (fun p => c p.name)).map (fun p => (p.name, val p.name)) := by
  induction ps with
  | nil => rfl
  | cons p ps ih =>
    have h1 := hb p (by simp)
    have h2 := kwargsOf_true_eq ps b (fun q hq => hb q (by simp [hq]))
    have ih := ih (fun q hq => hb q (by simp [hq]))
    rw [kwargsOf]
    cases hk : p.kind <;> cases hc : c p.name <;> simp only [hc, if_true, Bool.false_eq_true, if_false] at h1 <;>
      simp [hk, hc, h1, ih, h2]

/-- C10. For every signature (distinct parameter names), every set of static names and every call that
`f` accepts with parameter values `b`, the compiled function calls `f` with exactly those values; the
parameters named in `static` arrive as constants, all others along the sharded axis. -/
theorem C10_arguments_bound_once (sig : List (Param V)) (hnd : (sig.map (·.name)).Nodup)
    (static : List String) (args : List V) (kwargs b : List (String × V))
    (hcall : bindCall sig args kwargs = .ok b) :
    pmapped sig static args kwargs =
      .ok (b.map (fun e => (e.1, if e.1 ∈ static then .static e.2 else .sharded e.2))) := by
  have hnames := bindCall_names sig args kwargs b hcall
  have hbn : (b.map Prod.fst).Nodup := by rw [hnames]; exact hnd
  -- the values as a function of the name
  obtain ⟨val, hval⟩ : ∃ val : String → Option V, ∀ e ∈ b, val e.1 = some e.2 :=
    ⟨fun nm => b.lookup nm, fun e he => lookup_of_mem hbn he⟩
  rcases isEmpty_or_nonempty V with hV | ⟨⟨v0⟩⟩
  · have hb0 : b = [] := by
      cases b with
      | nil => rfl
      | cons e b => exact hV.elim e.2
    subst hb0
    have hs0 : sig = [] := by
      cases sig with
      | nil => rfl
      | cons p ps => simp at hnames
    subst hs0
    unfold pmapped bindSubset
    rw [hcall]
    rfl
  · set val : String → V := fun nm => (b.lookup nm).getD v0 with hvaldef
    have hbval : b = sig.map (fun p => (p.name, val p.name)) := by
      have h1 : b = b.map (fun e => (e.1, val e.1)) := by
        conv_lhs => rw [← List.map_id b]
        refine List.map_congr_left (fun e he => ?_)
        have := lookup_of_mem hbn (show (e.1, e.2) ∈ b from he)
        simp [hvaldef, this]
      rw [h1]
      have : b.map (fun e => (e.1, val e.1)) = (b.map Prod.fst).map (fun nm => (nm, val nm)) := by
        rw [List.map_map]; rfl
      rw [this, hnames, List.map_map]; rfl
    have hlook : ∀ p ∈ sig, b.lookup p.name = some (val p.name) := by
      intro p hp
      refine lookup_of_mem hbn ?_
      rw [hbval]
      exact List.mem_map.2 ⟨p, hp, rfl⟩
    set c1 : String → Bool := fun nm => static.contains nm with hc1
    set c2 : String → Bool :=
      fun nm => ((sig.map (·.name)).filter (fun x => ¬ static.contains x)).contains nm with hc2
    have hc12 : ∀ p ∈ sig, c2 p.name = !c1 p.name := by
      intro p hp
      have : p.name ∈ sig.map (·.name) := List.mem_map.2 ⟨p, hp, rfl⟩
      simp only [hc1, hc2, List.contains_eq_mem]
      by_cases hs : p.name ∈ static
      · simp [hs]
      · simp [hs]
        exact ⟨p, hp, rfl⟩
    have l1 : ∀ p ∈ sig, (b.filter (fun e => c1 e.1)).lookup p.name =
        if c1 p.name then some (val p.name) else none := fun p hp => by
      rw [lookup_filter, hlook p hp]
    have l2 : ∀ p ∈ sig, (b.filter (fun e => c2 e.1)).lookup p.name =
        if c2 p.name then some (val p.name) else none := fun p hp => by
      rw [lookup_filter, hlook p hp]
    have hun : pmapped sig static args kwargs =
        bindCall (sig.map (fun p => { name := p.name, kind := p.kind, default := p.default.map .default }))
          ((argsOf sig (b.filter (fun e => c1 e.1))).map .static ++
            (argsOf sig (b.filter (fun e => c2 e.1))).map .sharded)
          ((kwargsOf false sig (b.filter (fun e => c1 e.1))).map (fun e => (e.1, .static e.2)) ++
            (kwargsOf false sig (b.filter (fun e => c2 e.1))).map (fun e => (e.1, .sharded e.2))) := by
      unfold pmapped bindSubset
      rw [hcall]
      rfl
    rw [hun, argsOf_eq sig _ l1, argsOf_eq sig _ l2, kwargsOf_false_eq sig _ l1, kwargsOf_false_eq sig _ l2]
    set T : String → Passed V := fun nm => if nm ∈ static then .static (val nm) else .sharded (val nm) with hT
    set g : Param V → Param (Passed V) :=
      fun p => { name := p.name, kind := p.kind, default := p.default.map .default } with hg
    have hT1 : ∀ nm, c1 nm = true → T nm = .static (val nm) := by
      intro nm h; simp [hc1] at h; simp [hT, h]
    have hT2 : ∀ p ∈ sig, c2 p.name = true → T p.name = .sharded (val p.name) := by
      intro p hp h
      rw [hc12 p hp] at h
      simp [hc1] at h; simp [hT, h]
    -- split the signature at the end of the positional part
    obtain ⟨pre, post, hsplit, hpre, hargs, hkw⟩ : ∃ pre post, sig = pre ++ post ∧
        (∀ p ∈ pre, p.kind = .posOrKw) ∧
        ((sig.takeWhile (fun p => p.kind = .posOrKw ∧ c1 p.name)).map (fun p => val p.name)).map .static ++
          ((sig.takeWhile (fun p => p.kind = .posOrKw ∧ c2 p.name)).map (fun p => val p.name)).map .sharded =
          pre.map (fun p => T p.name) ∧
        (∀ p : Param V, (p ∈ (sig.dropWhile (fun p => p.kind = .posOrKw ∧ c1 p.name)).filter (fun p => c1 p.name) ∨
          p ∈ (sig.dropWhile (fun p => p.kind = .posOrKw ∧ c2 p.name)).filter (fun p => c2 p.name)) ↔
          p ∈ post) := by
      have main : ∀ (a d : String → Bool) (st : V → Passed V), (∀ p ∈ sig, d p.name = !a p.name) →
          (∀ p ∈ sig, a p.name = true → T p.name = st (val p.name)) →
          sig.takeWhile (fun p => p.kind = .posOrKw ∧ d p.name) = [] →
          (∀ p ∈ sig.takeWhile (fun p => p.kind = .posOrKw ∧ a p.name), p.kind = .posOrKw) ∧
          ((sig.takeWhile (fun p => p.kind = .posOrKw ∧ a p.name)).map (fun p => val p.name)).map st =
            (sig.takeWhile (fun p => p.kind = .posOrKw ∧ a p.name)).map (fun p => T p.name) ∧
          (∀ p : Param V, (p ∈ (sig.dropWhile (fun p => p.kind = .posOrKw ∧ a p.name)).filter (fun p => a p.name) ∨
            p ∈ (sig.dropWhile (fun p => p.kind = .posOrKw ∧ d p.name)).filter (fun p => d p.name)) ↔
            p ∈ sig.dropWhile (fun p => p.kind = .posOrKw ∧ a p.name)) := by
        intro a d st hda hst hempty
        have htw : ∀ p ∈ sig.takeWhile (fun p => p.kind = .posOrKw ∧ a p.name),
            p.kind = .posOrKw ∧ a p.name = true := by
          intro p hp
          have := List.mem_takeWhile_imp hp
          simpa using this
        have hmem : ∀ p, p ∈ sig ↔ p ∈ sig.takeWhile (fun p => p.kind = .posOrKw ∧ a p.name) ∨
            p ∈ sig.dropWhile (fun p => p.kind = .posOrKw ∧ a p.name) := by
          intro p
          rw [← List.mem_append, List.takeWhile_append_dropWhile]
        have hdrop : sig.dropWhile (fun p => p.kind = .posOrKw ∧ d p.name) = sig := by
          have := List.takeWhile_append_dropWhile (p := fun p : Param V => decide (p.kind = .posOrKw ∧ d p.name = true)) (l := sig)
          rw [hempty] at this
          simpa using this
        refine ⟨fun p hp => (htw p hp).1, ?_, ?_⟩
        · rw [List.map_map]
          refine List.map_congr_left (fun p hp => ?_)
          rw [hst p ((hmem p).2 (.inl hp)) (htw p hp).2]
          rfl
        · intro p
          rw [hdrop, List.mem_filter, List.mem_filter]
          constructor
          · rintro (h | h)
            · exact h.1
            · rcases (hmem p).1 h.1 with h' | h'
              · have h2 := (htw p h').2
                have h3 := hda p h.1
                have h4 := h.2
                rw [h3, h2] at h4
                simp at h4
              · exact h'
          · intro h
            have hp := (hmem p).2 (.inr h)
            cases ha : a p.name
            · right; exact ⟨hp, by rw [hda p hp, ha]; rfl⟩
            · left; exact ⟨h, rfl⟩
      by_cases hfirst : sig.takeWhile (fun p => p.kind = .posOrKw ∧ c2 p.name) = []
      · obtain ⟨m1, m2, m3⟩ := main c1 c2 .static hc12 (fun p _ h => hT1 p.name h) hfirst
        refine ⟨_, _, List.takeWhile_append_dropWhile.symm, m1, ?_, m3⟩
        rw [hfirst, m2]; simp
      · have hfirst' : sig.takeWhile (fun p => p.kind = .posOrKw ∧ c1 p.name) = [] := by
          cases hsig : sig with
          | nil => rfl
          | cons p ps =>
            rw [hsig] at hfirst
            have h12 := hc12 p (by rw [hsig]; simp)
            cases hk : p.kind <;> cases hc : c1 p.name <;>
              simp [hk, hc, h12] at hfirst ⊢
        obtain ⟨m1, m2, m3⟩ := main c2 c1 .sharded (fun p hp => by rw [hc12 p hp, Bool.not_not]) hT2 hfirst'
        refine ⟨_, _, List.takeWhile_append_dropWhile.symm, m1, ?_, fun p => ?_⟩
        · rw [hfirst', m2]; simp
        · rw [or_comm]; exact m3 p
    rw [hargs]
    have hargs' : pre.map (fun p => T p.name) = (pre.map g).map (fun p => T p.name) := by
      rw [List.map_map]; rfl
    have hsig' : sig.map g = pre.map g ++ post.map g := by
      conv_lhs => rw [hsplit]
      rw [List.map_append]
    have hres : b.map (fun e => (e.1, if e.1 ∈ static then Passed.static e.2 else .sharded e.2)) =
        (pre.map g ++ post.map g).map (fun p => (p.name, T p.name)) := by
      rw [← hsig']
      conv_lhs => rw [hbval]
      rw [List.map_map, List.map_map]
      rfl
    rw [hargs', hsig', hres]
    refine bindCall_total T _ _ _ ?_ ?_ ?_ ?_
    · intro p hp
      obtain ⟨q, hq, rfl⟩ := List.mem_map.1 hp
      exact hpre q hq
    · rw [← hsig', List.map_map]
      exact hnd
    · intro e he
      have hsub1 : ∀ p ∈ sig.dropWhile (fun p => p.kind = .posOrKw ∧ c1 p.name), p ∈ sig :=
        fun p hp => (List.dropWhile_sublist _).mem hp
      have hsub2 : ∀ p ∈ sig.dropWhile (fun p => p.kind = .posOrKw ∧ c2 p.name), p ∈ sig :=
        fun p hp => (List.dropWhile_sublist _).mem hp
      rw [List.map_map, List.map_map] at he
      rcases List.mem_append.1 he with h | h
      · obtain ⟨p, hp, rfl⟩ := List.mem_map.1 h
        have := (List.mem_filter.1 hp)
        exact (hT1 p.name this.2).symm
      · obtain ⟨p, hp, rfl⟩ := List.mem_map.1 h
        have := (List.mem_filter.1 hp)
        exact (hT2 p (hsub2 p this.1) this.2).symm
    · intro nm
      rw [List.map_map, List.map_map, List.map_append, List.map_map, List.map_map, List.map_map,
        List.mem_append]
      constructor
      · rintro (h | h)
        · obtain ⟨p, hp, rfl⟩ := List.mem_map.1 h
          exact List.mem_map.2 ⟨p, (hkw p).1 (.inl hp), rfl⟩
        · obtain ⟨p, hp, rfl⟩ := List.mem_map.1 h
          exact List.mem_map.2 ⟨p, (hkw p).1 (.inr hp), rfl⟩
      · intro h
        obtain ⟨p, hp, rfl⟩ := List.mem_map.1 h
        rcases (hkw p).2 hp with h | h
        · exact .inl (List.mem_map.2 ⟨p, h, rfl⟩)
        · exact .inr (List.mem_map.2 ⟨p, h, rfl⟩)

/-- Without `static_argnames` exactly the keyword-only parameters are constants. -/
theorem C10_default (sig : List (Param V)) (hnd : (sig.map (·.name)).Nodup) (args : List V)
    (kwargs b : List (String × V)) (hcall : bindCall sig args kwargs = .ok b) :
    ∃ r, jitDistributed sig none args kwargs = .ok r ∧ r.map Prod.fst = sig.map (·.name) ∧
      ∀ p ∈ sig, ∀ v, (p.name, v) ∈ b →
        (p.name, if p.kind = .kwOnly then Passed.static v else .sharded v) ∈ r := by
  refine ⟨_, C10_arguments_bound_once sig hnd _ args kwargs b hcall, ?_, ?_⟩
  · rw [List.map_map, ← bindCall_names sig args kwargs b hcall]
    rfl
  · intro p hp v hv
    have hiff : p.name ∈ defaultStatic sig ↔ p.kind = .kwOnly := by
      unfold defaultStatic
      simp only [List.mem_map, List.mem_filter, decide_eq_true_eq]
      constructor
      · rintro ⟨q, ⟨hq, hk⟩, hn⟩
        have : q = p := List.inj_on_of_nodup_map hnd hq hp hn
        exact this ▸ hk
      · intro hk
        exact ⟨p, ⟨hp, hk⟩, rfl⟩
    refine List.mem_map.2 ⟨(p.name, v), hv, ?_⟩
    simp only [hiff]

/-- The signature `f(x, y, z=3, *, k, m=5)` called as `f(1, z=7, y=2, k=4)` with `static = [y, m]`. -/
example :
    let sig : List (Param ℕ) := [⟨"x", .posOrKw, none⟩, ⟨"y", .posOrKw, none⟩, ⟨"z", .posOrKw, some 3⟩,
      ⟨"k", .kwOnly, none⟩, ⟨"m", .kwOnly, some 5⟩]
    (sig.map (·.name)).Nodup ∧
    bindCall sig [1] [("z", 7), ("y", 2), ("k", 4)] =
      .ok [("x", 1), ("y", 2), ("z", 7), ("k", 4), ("m", 5)] := by
  constructor
  · decide
  · rfl

end Verif.Comm

import Verif.PropsStatic
import Verif.PropsEvent

/-!
# Observing and setting the configuration; undefined behaviour

C03, C04, C05.
-/

namespace Hsm

section
variable {P W : Type} {M : Machine} {sem : Sem P W} {s : SM P W}

/-! ## C03: the machine is in exactly one place -/

/-- Slots below `n` are written. -/
def Written (n : Nat) (s : SM P W) : Prop := ∀ r < n, ∃ c, s.cur[r]? = some (some c)

theorem Written.set {n : Nat} (h : Written n s) (r c : Nat) :
    ∀ i < n, ∃ k, (s.cur.set r (some c))[i]? = some (some k) := by
  intro i hi
  obtain ⟨k, hk⟩ := h i hi
  rw [List.getElem?_set]
  split
  · rename_i hri
    subst hri
    rw [if_pos (List.getElem?_eq_some_iff.1 hk).1]
    exact ⟨c, rfl⟩
  · exact ⟨k, hk⟩

theorem Preserves.written (n : Nat) :
    Preserves M sem True (fun _ => True) (Written (P := P) (W := W) n) :=
  Preserves.easy _ (fun _ _ _ h => h)
    (fun s s' _ _ _ _ h _ _ hm => by
      obtain ⟨c, hc, _⟩ := hm.dest
      intro i hi
      rw [hc]
      exact h.set _ _ i hi)
    (fun _ _ _ _ _ _ h _ _ _ => h) (fun _ _ _ _ h _ => h)

/-- The slots of the root's regions are always written. -/
theorem Reach.written (hM : M.Regular) (h : Reach M sem s) :
    Written (M.declaredInitials M.root).length s :=
  Reach.inv (I := Written (M.declaredInitials M.root).length)
    (fun d w s h => by
      intro r hr
      obtain ⟨h1, _⟩ := C46_initial hM h
      exact ⟨_, (h1 r _ (List.getElem?_eq_getElem hr)).2.2⟩)
    (Preserves.written _)
    (fun ev s p _ hs => callHandler_easy _ (fun _ _ _ h => h) ev s p hs)
    (fun s r p st hs _ _ _ => hs.set _ _)
    (fun s d T hs _ => hs) (fun s w hs => hs) h

/-- Region 0 is always somewhere. -/
theorem Reach.at_zero (hM : M.Regular) (hS : M.Scoped) (h : Reach M sem s) :
    ∃ p st, At M s 0 p st := by
  obtain ⟨c, hc⟩ := h.written hM 0 (List.length_pos_iff.2 hS.rootInit)
  obtain ⟨p, st, ha, _⟩ := (h.slots hM hS).at hM hc
  exact ⟨p, st, ha⟩

/-- What `is` and `parent_is` answer when region 0 is at `(p, st)`. -/
theorem answers (hM : M.Regular) {p : Name} {st : StTy} (ha : At M s 0 p st) (q : Name)
    (tt : StTy) :
    parentIs M q s = .ok (decide (q = p)) s ∧ isState M tt s = .ok (decide (tt = st)) s ∧
    isParent M q tt s = .ok (decide (q = p ∧ tt = st)) s := by
  have hpar : (M.parentIdx p == M.parentIdx q) = decide (q = p) := by
    by_cases h : q = p
    · subst h; simp
    · simp only [h, decide_false, beq_eq_false_iff_ne]
      intro he
      by_cases hq : q ∈ M.composites
      · exact h (hM.parentIdx_inj hq ha.1 he.symm)
      · have h1 := hM.parentIdx_not_mem hq
        have h2 := hM.parentIdx_lt.2 ha.1
        omega
  have hst : (M.stateIdx st == M.stateIdx tt) = decide (tt = st) := by
    by_cases h : tt = st
    · subst h; simp
    · simp only [h, decide_false, beq_eq_false_iff_ne]
      intro he
      by_cases hq : tt ∈ M.states
      · exact h (hM.stateIdx_inj hq ha.2.1 he.symm)
      · have h1 := hM.stateIdx_not_mem hq
        have h2 := hM.stateIdx_lt.2 ha.2.1
        omega
  have h1 : parentIs M q s = .ok (decide (q = p)) s := by
    simp only [parentIs, currentParent, readCur, ha.2.2, Res.bind, hM.comb_div ha.1 ha.2.1, hpar]
  have h2 : isState M tt s = .ok (decide (tt = st)) s := by
    simp only [isState, currentState, atCur, ha.2.2, Res.bind, hM.comb_mod ha.1 ha.2.1, hst]
  refine ⟨h1, h2, ?_⟩
  unfold isParent isRegion
  rw [h1]
  by_cases hq : q = p
  · simp only [Res.bind, hq, decide_true, if_true, Nat.zero_mod, true_and]
    exact h2
  · simp [Res.bind, hq]

/-- C03: after any history there is a location such that `parent_is`, `is(state)` and
`is(parent, state)` answer true exactly for it. -/
theorem C03_one_place (hM : M.Regular) (hS : M.Scoped) (h : Reach M sem s) :
    ∃ p st, p ∈ M.composites ∧ st ∈ M.states ∧ ∀ q tt,
      parentIs M q s = .ok (decide (q = p)) s ∧ isState M tt s = .ok (decide (tt = st)) s ∧
      isParent M q tt s = .ok (decide (q = p ∧ tt = st)) s := by
  obtain ⟨p, st, ha⟩ := h.at_zero hM hS
  exact ⟨p, st, ha.1, ha.2.1, answers hM ha⟩

/-- The demo machine after event 0. -/
example : (Ex.run Ex.demo (Ex.sem fun _ => true) 5 7 [] [.process (Ex.ev 0) 1]).any (fun s =>
    match isParent Ex.demo Ex.Root (.st Ex.Busy) s with
    | .ok true _ => true
    | _ => false) = true := by
  decide +kernel

/-! ## C04: set -/

/-- C04: `set(r, p, st)` with `r` (modulo 256) below the number of region slots puts that
region at `(p, st)`; nothing but the location of that region changes. -/
theorem C04_set (hM : M.Regular) (h : Reach M sem s) {r : Nat} {p : Name} {st : StTy}
    (hp : p ∈ M.composites) (hst : st ∈ M.states) (hr : r % 256 < M.maxInit) :
    ∃ s', setOp M r p st s = .ok () s' ∧ At M s' (r % 256) p st ∧
      (∀ i, i ≠ r % 256 → s'.cur[i]? = s.cur[i]?) ∧ s' = { s with cur := s'.cur } := by
  have hlen : r % 256 < s.cur.length := by rw [(h.basic hM).curLen]; exact hr
  refine ⟨_, if_pos hlen, ⟨hp, hst, ?_⟩, ?_, rfl⟩
  · show (s.cur.set _ _)[_]? = _
    simp [hlen]
  · intro i hi
    show (s.cur.set _ _)[_]? = _
    rw [List.getElem?_set_ne (Ne.symm hi)]

/-- C04: `set(p, st)` (region 0) always succeeds, and then `is` answers true exactly for
`(p, st)`. -/
theorem C04_set_is (hM : M.Regular) (h : Reach M sem s) {p : Name} {st : StTy}
    (hp : p ∈ M.composites) (hst : st ∈ M.states) :
    ∃ s', setOp M 0 p st s = .ok () s' ∧ (∀ q tt, isParent M q tt s' =
      .ok (decide (q = p ∧ tt = st)) s') ∧ ∀ tt, isState M tt s' = .ok (decide (tt = st)) s' := by
  have hpos : 0 % 256 < M.maxInit := by
    have := hM.accepts
    unfold Machine.accepts at this
    simp only [Bool.and_eq_true, decide_eq_true_eq] at this
    omega
  obtain ⟨s', h1, h2, _⟩ := C04_set hM h hp hst hpos
  exact ⟨s', h1, fun q tt => (answers hM h2 q tt).2.2, fun tt => (answers hM h2 p tt).2.1⟩

/-- C04: beyond the number of region slots `set` throws `std::out_of_range` and changes
nothing. -/
theorem C04_out_of_range (hM : M.Regular) (h : Reach M sem s) {r : Nat} {p : Name} {st : StTy}
    (hr : M.maxInit ≤ r % 256) : setOp M r p st s = .throw .outOfRange s := by
  unfold setOp
  rw [if_neg (by rw [(h.basic hM).curLen]; omega)]

/-- The number of region slots is the largest number of initial states declared by a
composite in force. -/
theorem C04_slots : (∀ p ∈ M.composites, (M.declaredInitials p).length ≤ M.maxInit) ∧
    (M.maxInit = 0 ∨ ∃ p ∈ M.composites, M.maxInit = (M.declaredInitials p).length) := by
  refine ⟨fun p hp => by rw [Machine.declaredInitials_eq]; exact Machine.initials_le_maxInit hp, ?_⟩
  have key : ∀ (l : List Nat) (a : Nat), l.foldl max a = a ∨ l.foldl max a ∈ l := by
    intro l
    induction l with
    | nil => intro a; exact Or.inl rfl
    | cons b l ih =>
      intro a
      rw [List.foldl_cons]
      rcases ih (max a b) with h | h
      · rw [h]
        rcases Nat.le_total a b with hab | hab
        · right; simp [Nat.max_eq_right hab]
        · left; exact Nat.max_eq_left hab
      · exact Or.inr (List.mem_cons_of_mem _ h)
  unfold Machine.maxInit
  rw [← Machine.composites_eq]
  rcases key (M.composites.map fun p => (M.initials p).length) 0 with h | h
  · exact Or.inl h
  · obtain ⟨p, hp, he⟩ := List.mem_map.1 h
    exact Or.inr ⟨p, hp, by rw [Machine.declaredInitials_eq, he]⟩

/-- In the two-region machine region 257 is region 1; region 2 does not exist. -/
example : (Ex.run Ex.orth (Ex.sem fun _ => true) 5 7 [] [.set 257 0 (.st 4), .set 2 0 (.st 4)]).any
    (fun s => s.cur == [some (Ex.orth.comb 0 (.st 1)), some (Ex.orth.comb 0 (.st 4))]) = true := by
  decide +kernel

/-! ## C53: asking for a region -/

/-- What `is(r, q, tt)` answers: whether `q` is the parent of *region 0* and `tt` the state of
region `r` (modulo 256). -/
theorem C53_answer (hM : M.Regular) {r : Nat} {p0 p : Name} {st0 st : StTy} (h0 : At M s 0 p0 st0)
    (ha : At M s (r % 256) p st) (q : Name) (tt : StTy) :
    isRegion M r q tt s = .ok (decide (q = p0 ∧ tt = st)) s := by
  have hst : (M.stateIdx st == M.stateIdx tt) = decide (tt = st) := by
    by_cases h : tt = st
    · subst h; simp
    · simp only [h, decide_false, beq_eq_false_iff_ne]
      intro he
      by_cases hq : tt ∈ M.states
      · exact h (hM.stateIdx_inj hq ha.2.1 he.symm)
      · have h1 := hM.stateIdx_not_mem hq
        have h2 := hM.stateIdx_lt.2 ha.2.1
        omega
  unfold isRegion
  rw [(answers hM h0 q tt).1]
  by_cases hq : q = p0
  · simp only [Res.bind, hq, decide_true, if_true, true_and, currentState, atCur, ha.2.2,
      hM.comb_mod ha.1 ha.2.1, hst]
  · simp [Res.bind, hq]

/-- The full claim C53: `is(r, q, tt)` says whether region `r` is at `(q, tt)`. -/
def C53_claim : Prop :=
  ∀ (M : Machine), M.Regular → M.Scoped → ∀ (sem : Sem Nat (List Nat))
    (s : SM Nat (List Nat)), Reach M sem s → ∀ r p st, r < 256 → At M s r p st →
    ∀ q tt, isRegion M r q tt s = .ok (decide (q = p ∧ tt = st)) s

/-- C53 for regions that are in the same composite as region 0.  Missing: the others, for
which the claim is false. -/
theorem C53_partial (hM : M.Regular) {r : Nat} {p : Name} {st0 st : StTy}
    (hr : r < 256) (h0 : At M s 0 p st0) (ha : At M s r p st) (q : Name) (tt : StTy) :
    isRegion M r q tt s = .ok (decide (q = p ∧ tt = st)) s :=
  C53_answer hM h0 (by rw [Nat.mod_eq_of_lt hr]; exact ha) q tt

/-- A region that does not exist: `std::out_of_range`, but only if the parent is that of
region 0; else the answer is no. -/
theorem C53_out_of_range (hM : M.Regular) (h : Reach M sem s) {r : Nat} {p0 : Name} {st0 : StTy}
    (h0 : At M s 0 p0 st0) (hr : M.maxInit ≤ r % 256) (q : Name) (tt : StTy) :
    isRegion M r q tt s = if q = p0 then .throw .outOfRange s else .ok false s := by
  have hn : s.cur[r % 256]? = none :=
    List.getElem?_eq_none (by rw [(h.basic hM).curLen]; exact hr)
  unfold isRegion
  rw [(answers hM h0 q tt).1]
  by_cases hq : q = p0
  · simp only [Res.bind, hq, decide_true, if_true, currentState, atCur, hn]
  · simp [Res.bind, hq]

/-- C53 is false: when region 0 is in composite 5, region 1 still in state 3 of the root is
reported to be in state 3 of composite 5 and not in state 3 of the root. -/
theorem C53_refuted : ¬ C53_claim ∧
    ∃ s, RunTo Ex.orth (Ex.sem fun _ => true) 7 [.process (Ex.ev 2) 1] s ∧
      At Ex.orth s 1 0 (.st 3) ∧ isRegion Ex.orth 1 0 (.st 3) s = .ok false s ∧
      isRegion Ex.orth 1 5 (.st 3) s = .ok true s := by
  obtain ⟨s, hr, hcur⟩ := Ex.exists_run Ex.orth (Ex.sem fun _ => true) (fuel := 5) (d := 7)
    (w := []) (ops := [.process (Ex.ev 2) 1])
    (f := fun s => s.cur == [some (Ex.orth.comb 5 (.st 6)), some (Ex.orth.comb 0 (.st 3))])
    (by decide +kernel)
  rw [beq_iff_eq] at hcur
  have h0 : At Ex.orth s 0 5 (.st 6) := ⟨by decide +kernel, by decide +kernel, by rw [hcur]; rfl⟩
  have h1 : At Ex.orth s 1 0 (.st 3) := ⟨by decide +kernel, by decide +kernel, by rw [hcur]; rfl⟩
  have e1 : isRegion Ex.orth 1 0 (.st 3) s = .ok false s := C53_answer Ex.orth_regular h0 h1 0 _
  have e2 : isRegion Ex.orth 1 5 (.st 3) s = .ok true s := by
    rw [C53_answer (r := 1) Ex.orth_regular h0 h1 5 (.st 3)]; rfl
  refine ⟨fun hC => ?_, s, hr, h1, e1, e2⟩
  have := hC Ex.orth Ex.orth_regular Ex.orth_scoped _ s ⟨_, _, hr⟩ 1 0 (.st 3) (by omega) h1 0
    (.st 3)
  rw [e1] at this
  cases this

/-- Both regions of the freshly constructed machine are in the root; asking for region 1,
for region 257 (which is region 1) and for region 2. -/
example : (Ex.run Ex.orth (Ex.sem fun _ => true) 5 7 [] []).any (fun s =>
    (match isRegion Ex.orth 1 0 (.st 3) s, isRegion Ex.orth 257 0 (.st 3) s,
        isRegion Ex.orth 2 0 (.st 3) s with
      | .ok true _, .ok true _, .throw .outOfRange _ => true
      | _, _, _ => false)) = true := by
  decide +kernel

/-! ## C05: undefined behaviour -/

/-- Sufficient conditions for a machine and its user code to be safe: all scopes are real,
every composite has at most as many regions as the root (exactly as many if history states
are used), the none event is not deferred, all state objects exist, and callbacks
themselves are well-behaved. -/
structure Safe (M : Machine) (sem : Sem P W) : Prop where
  scopes : M.Scoped
  regions : ∀ p ∈ M.composites, (M.declaredInitials p).length ≤ (M.declaredInitials M.root).length
  history : M.historic = true → ∀ p ∈ M.composites,
    (M.declaredInitials p).length = (M.declaredInitials M.root).length
  noneNotDeferred : M.anonymous = true → ∀ p st, Cand.defer ∉ M.cands .none p st
  objects : ∀ st, M.selfMade st = true ∨ ∀ w, sem.alive st w = true
  guards : ∀ g a p w, sem.guard g a p w ≠ .ub
  actions : ∀ a args p w, sem.action a args p w ≠ .ub
  handlers : ∀ h e st d p w, sem.handler h e st d p w ≠ .ub

/-- The invariant behind safety. -/
structure Solid (M : Machine) (s : SM P W) : Prop where
  slots : Slots M s
  written : Written M.maxInit s
  regions : activeRegions M s ≤ M.maxInit

theorem maxInit_pos (hM : M.Regular) : 0 < M.maxInit := by
  have := hM.accepts
  unfold Machine.accepts at this
  simp only [Bool.and_eq_true, decide_eq_true_eq] at this
  omega

theorem Solid.moved (hM : M.Regular) {s' : SM P W} {r : Nat} {e : Entry} (h : Solid M s)
    (hs' : Slots M s') (hm : Moved M r e s s') : Solid M s' := by
  refine ⟨hs', ?_, ?_⟩
  · obtain ⟨c, hc, _⟩ := hm.dest
    intro i hi
    rw [hc]; exact h.written.set _ _ i hi
  · unfold activeRegions
    cases hp : M.orthogonal with
    | false => simp only [Bool.false_eq_true, if_false]; exact maxInit_pos hM
    | true =>
      simp only [if_true]
      rcases hm.regions with ⟨h1, _⟩ | ⟨_, k, l, hk, hl, hr⟩
      · rw [hp] at h1; cases h1
      · rw [hr]
        rw [h.slots.basic.initial] at hl
        obtain ⟨p, hp', rfl⟩ := List.mem_map.1 (List.mem_of_getElem? hl)
        rw [List.length_map]
        exact Machine.initials_le_maxInit (Machine.composites_eq ▸ hp')

theorem Preserves.solid (hM : M.Regular) (hS : M.Scoped) :
    Preserves M sem True (fun _ => True) (Solid (P := P) (W := W) M) :=
  Preserves.easy _
    (fun _ _ _ h => ⟨h.slots.of_eq rfl rfl rfl rfl rfl, h.written, h.regions⟩)
    (fun s s' ev r c e h hc he hm => h.moved hM (h.slots.moved hm (fun _ => by
      cases hd : e.defer with
      | false => exact h.slots.to_lt hM hS (h.slots.cur r c hc) he hd
      | true =>
        obtain ⟨p, st, d, cand, hp, hst, _, hcand, hen⟩ :=
          h.slots.basic.entry hM (h.slots.cur r c hc) he
        have hpos : 0 < M.size := by
          have := h.slots.cur r c hc; omega
        rcases Machine.entryOfCand_cases hen with ⟨rfl, _⟩ | ⟨t, l, x, _, _, _, _, h5, _⟩
        · simp only [Machine.entryOfCand, Option.some.injEq] at hen
          subst hen; exact hpos
        · rw [h5] at hd; cases hd)) hm)
    (fun _ _ _ _ _ _ h _ _ _ => ⟨h.slots.of_eq rfl rfl rfl rfl rfl, h.written, h.regions⟩)
    (fun _ _ _ _ h _ => ⟨h.slots.of_eq rfl rfl rfl rfl rfl, h.written, h.regions⟩)

/-- The outcome is not undefined. -/
def Res.Defined {σ α : Type} (r : Res σ α) : Prop := ∀ u, r ≠ .ub u

theorem Res.Defined.sat {σ α : Type} {r : Res σ α} {Q : α → σ → Prop} {X : Exn → σ → Prop}
    (h : r.Defined) (hs : r.Sat True Q X) : r.Sat False Q X := by
  cases r with
  | ok a s => exact hs
  | throw x s => exact hs
  | ub u => exact h u rfl
  | timeout => trivial

theorem Res.Sat.defined {σ α : Type} {r : Res σ α} {Q : α → σ → Prop} {X : Exn → σ → Prop}
    (h : r.Sat False Q X) : r.Defined := by
  intro u hu
  rw [hu] at h; exact h

theorem Res.Defined.bind {σ α β : Type} {r : Res σ α} {f : α → σ → Res σ β} (h : r.Defined)
    (hf : ∀ a s, r = .ok a s → (f a s).Defined) : (r.bind f).Defined := by
  cases r with
  | ok a s => exact hf a s rfl
  | throw x s => intro u hu; cases hu
  | ub u => exact absurd rfl (h u)
  | timeout => intro u hu; cases hu

theorem Res.defined_ok {σ α : Type} {a : α} {s : σ} : (Res.ok a s).Defined := by
  intro u hu; cases hu

theorem Res.defined_throw {σ α : Type} {x : Exn} {s : σ} : (Res.throw x s : Res σ α).Defined := by
  intro u hu; cases hu

theorem objOk_of_safe (h : Safe M sem) (st : StTy) (s : SM P W) : objOk M sem st s = true := by
  unfold objOk
  rw [Machine.defaultCtor_eq]
  rcases h.objects st with h | h
  · rw [h]; rfl
  · rw [h]; simp

theorem execGuard_defined (h : Safe M sem) (x : Exec) (ev : EventTy) (p : P) (s : SM P W) :
    (execGuard M sem x ev p s).Defined := by
  cases hg : x.guard with
  | none => rw [execGuard_none hg]; exact Res.defined_ok
  | some g =>
    rw [execGuard_some hg, objOk_of_safe h, objOk_of_safe h]
    simp only [Bool.and_self, if_true]
    split
    · exact Res.defined_ok
    · exact Res.defined_throw
    · rename_i hu; exact absurd hu (h.guards _ _ _ _)

theorem runCbs_defined (h : Safe M sem) (args : Args) : ∀ (cs : List (Phase × Cb)) (p : P)
    (s : SM P W), (runCbs sem args cs p s).Defined := by
  intro cs
  induction cs with
  | nil => intro p s; exact Res.defined_ok
  | cons c cs ih =>
    intro p s
    obtain ⟨ph, a⟩ := c
    unfold runCbs
    split
    · exact ih _ _
    · exact Res.defined_throw
    · rename_i hu; exact absurd hu (h.actions _ _ _ _)

theorem execAction_defined (h : Safe M sem) (x : Exec) (ev : EventTy) (p : P) (s : SM P W) :
    (execAction M sem x ev p s).Defined := by
  unfold execAction
  split
  · exact Res.defined_ok
  · rw [if_pos (objOk_of_safe h _ _)]
    exact runCbs_defined h _ _ _ _

/-- Everything region 0's slot is needed for is there. -/
theorem Solid.zero (hM : M.Regular) (h : Solid M s) :
    ∃ k p, s.cur[0]? = some (some k) ∧ p ∈ M.composites ∧ k / M.nStates = M.parentIdx p ∧
      s.initial[k / M.nStates]? = some ((M.initials p).map fun i => M.comb p (.st i)) ∧
      ∃ l, s.hist[k / M.nStates]? = some l ∧ l.length = (M.initials p).length := by
  obtain ⟨k, hk⟩ := h.written 0 (maxInit_pos hM)
  obtain ⟨p, st, ha, rfl⟩ := h.slots.at hM hk
  have hdiv := hM.comb_div ha.1 ha.2.1
  have hin := Machine.initialTable_get hM ha.1
  refine ⟨_, p, hk, ha.1, hdiv, by rw [h.slots.basic.initial, hdiv, hin], ?_⟩
  have hlen : (s.hist.map List.length)[M.parentIdx p]? = some (M.initials p).length := by
    rw [h.slots.basic.histLen, List.getElem?_map, hin]; simp
  rw [List.getElem?_map] at hlen
  rw [hdiv]
  cases hl : s.hist[M.parentIdx p]? with
  | none => rw [hl] at hlen; cases hlen
  | some l => rw [hl] at hlen; exact ⟨l, rfl, by simpa using hlen⟩

/-- The history row of a parent. -/
theorem Solid.hist (hM : M.Regular) (h : Solid M s) {p : Name} (hp : p ∈ M.composites) :
    ∃ l, s.hist[M.parentIdx p]? = some l ∧ l.length = (M.initials p).length := by
  have hin := Machine.initialTable_get hM hp
  have hlen : (s.hist.map List.length)[M.parentIdx p]? = some (M.initials p).length := by
    rw [h.slots.basic.histLen, List.getElem?_map, hin]; simp
  rw [List.getElem?_map] at hlen
  cases hl : s.hist[M.parentIdx p]? with
  | none => rw [hl] at hlen; cases hlen
  | some l => rw [hl] at hlen; exact ⟨l, rfl, by simpa using hlen⟩

theorem safe_maxInit (hS : Safe M sem) (hM : M.Regular) :
    M.maxInit = (M.initials M.root).length := by
  have h1 := Machine.initials_le_maxInit hM.root_mem
  rcases (C04_slots (M := M)).2 with h | ⟨p, hp, h⟩
  · have := maxInit_pos hM; omega
  · have := hS.regions p hp
    rw [Machine.declaredInitials_eq, Machine.declaredInitials_eq] at this
    rw [Machine.declaredInitials_eq] at h
    omega

theorem updateRegions_defined (hM : M.Regular) (h : Solid M s) :
    (updateRegions M s).Defined := by
  unfold updateRegions
  split
  · obtain ⟨k, p, hk, hp, hdiv, hin, _⟩ := h.zero hM
    simp only [currentParent, readCur, hk, Res.bind, hin]
    exact Res.defined_ok
  · exact Res.defined_ok

theorem updateState_defined (hM : M.Regular) (hS : Safe M sem) (h : Solid M s) {r : Nat}
    (hr : r < M.maxInit) {e : Entry} (hto : e.to < M.size) :
    (updateState M r e s).Defined := by
  have hsolid : ∀ (s1 : SM P W) c, Solid M s1 → c < M.size →
      Solid M { s1 with cur := s1.cur.set r (some c) } := by
    intro s1 c h1 hc
    refine ⟨⟨h1.slots.basic.of_eq (by simp) rfl rfl rfl rfl, ?_, h1.slots.hist⟩,
      h1.written.set _ _, h1.regions⟩
    intro i k hk
    rcases getElem?_set_cases hk with ⟨_, hcc⟩ | ⟨_, hk⟩
    · cases hcc; exact hc
    · exact h1.slots.cur i k hk
  have hwr : ∀ (s1 : SM P W) c, Solid M s1 → c < M.size →
      ((writeCur r c s1).bind fun _ s => updateRegions M s).Defined := by
    intro s1 c h1 hc
    unfold writeCur
    rw [if_pos (by rw [h1.slots.basic.curLen]; exact hr)]
    exact updateRegions_defined hM (hsolid s1 c h1 hc)
  unfold updateState
  split
  · exact Res.defined_ok
  · refine Res.Defined.bind ?_ (fun _ _ _ => Res.defined_ok)
    unfold moveState
    split
    · rename_i hh
      have hmax := safe_maxInit hS hM
      have heq : ∀ p ∈ M.composites, (M.initials p).length = M.maxInit := by
        intro p hp
        have := hS.history (Machine.hasHistory_eq ▸ hh) p hp
        rw [Machine.declaredInitials_eq, Machine.declaredInitials_eq] at this
        omega
      obtain ⟨k, p, hk, hp, hdiv, _, l, hl, hlen⟩ := h.zero hM
      obtain ⟨c, hc⟩ := h.written r hr
      have hcs := h.slots.cur r c hc
      have hsave : saveHistory M r s =
          .ok () { s with hist := s.hist.set (k / M.nStates) (l.set r c) } :=
        saveHistory_ok.2 ⟨k, c, l, hk, hc, hl, by rw [hlen, heq p hp]; exact hr, rfl⟩
      rw [hsave]
      show ((if e.history then _ else _ : Res (SM P W) Unit).bind _).Defined
      have h1 : Solid M { s with hist := s.hist.set (k / M.nStates) (l.set r c) } := by
        refine ⟨⟨h.slots.basic.of_eq rfl rfl (map_length_set hl (by simp)) rfl rfl, h.slots.cur, ?_⟩,
          h.written, h.regions⟩
        intro l' hl' c' hc'
        rcases mem_of_getElem?_set hl' with rfl | hl'
        · rcases mem_set_nat hc' with rfl | hc'
          · exact hcs
          · exact h.slots.hist l (List.mem_of_getElem? hl) c' hc'
        · exact h.slots.hist l' hl' c' hc'
      split
      · obtain ⟨q, st, hq, hst, heqto⟩ := hM.comb_surj hto
        obtain ⟨l', hl', hlen'⟩ := h1.hist hM hq
        have hdiv' : e.to / M.nStates = M.parentIdx q := by
          rw [← heqto]; exact hM.comb_div hq hst
        have hrl : r < l'.length := by rw [hlen', heq q hq]; exact hr
        have hread := (readHistory_ok (P := P) (W := W) (s' := { s with
          hist := s.hist.set (k / M.nStates) (l.set r c) })).2 ⟨rfl, l', hl',
            List.getElem?_eq_getElem hrl⟩
        rw [hdiv', hread]
        show ((writeCur _ _ _).bind _).Defined
        exact hwr _ _ h1 (h1.slots.hist l' (List.mem_of_getElem? hl') _ (List.getElem_mem _))
      · exact hwr _ _ h1 hto
    · exact hwr s e.to h hto

theorem Preserves.safe (hM : M.Regular) (hS : Safe M sem) :
    Preserves M sem False (fun r => r < M.maxInit) (Solid (P := P) (W := W) M) where
  regions := fun s hs r hr => Nat.lt_of_lt_of_le hr hs.regions
  look := by
    intro s ev r hs hr u hu
    obtain ⟨c, hc⟩ := hs.written r hr
    have hlt := hs.slots.cur r c hc
    simp [lookup, readCur, hc, Res.bind, hlt] at hu
  null := by
    intro s ev r c e hs hr hc he hcase hnull
    obtain ⟨p, st, d, cand, hp, hst, _, hcand, hen⟩ :=
      hs.slots.basic.entry hM (hs.slots.cur r c hc) he
    rcases Machine.entryOfCand_cases hen with ⟨rfl, h1, _⟩ | ⟨t, l, x, _, _, _, _, _, _, h5, _⟩
    · rcases hcase with h | ⟨rfl, ha⟩
      · rw [h1] at h; cases h
      · exact hS.noneNotDeferred ha p st hcand
    · rw [hnull] at h5; cases h5
  guard := fun s ev r c e x p hs _ hc he hx =>
    (execGuard_defined hS x ev p s).sat ((Preserves.solid hM hS.scopes).guard s ev r c e x p hs
      trivial hc he hx)
  fire := by
    intro s0 s ev r c e x p0 p hs0 hs hr hc he hx hg
    refine Res.Defined.sat ?_ ((Preserves.solid hM hS.scopes).fire s0 s ev r c e x p0 p hs0 hs
      trivial hc he hx hg)
    have hd : e.defer = false := by
      obtain ⟨q, st, d, cand, hp, hst, _, hcand, hen⟩ :=
        hs.slots.basic.entry hM (hs.slots.cur r c hc) he
      rcases Machine.entryOfCand_cases hen with ⟨rfl, _, h2, _⟩ | ⟨t, l, x, _, _, _, _, h5, _⟩
      · rw [h2] at hx; cases hx
      · exact h5
    exact Res.Defined.bind
      (updateState_defined hM hS hs hr (hs.slots.to_lt hM hS.scopes (hs.slots.cur r c hc) he hd))
      (fun _ _ _ => execAction_defined hS _ _ _ _)
  push := fun _ _ _ _ _ _ h _ _ _ _ =>
    ⟨h.slots.of_eq rfl rfl rfl rfl rfl, h.written, h.regions⟩
  pop := fun _ _ _ _ h _ => ⟨h.slots.of_eq rfl rfl rfl rfl rfl, h.written, h.regions⟩

theorem Reach.solid (hM : M.Regular) (hS : Safe M sem) (h : Reach M sem s) : Solid M s :=
  Reach.inv (I := Solid M)
    (fun d w s h => by
      have hsl := slots_construct hM h
      have hr : Reach M sem s := ⟨d, [], .init h⟩
      refine ⟨hsl, ?_, ?_⟩
      · have := hr.written hM
        rw [Machine.declaredInitials_eq] at this
        rw [safe_maxInit hS hM]; exact this
      · obtain ⟨_, _, _, _, _, _, h⟩ := C46_initial hM h
        first | rw [currentRegions_eq, h] | rw [h]
        split
        · rw [Machine.declaredInitials_eq]; exact Machine.initials_le_maxInit hM.root_mem
        · exact maxInit_pos hM)
    (Preserves.solid hM hS.scopes)
    (fun ev s p _ hs => callHandler_easy _ (fun _ _ _ h =>
      ⟨h.slots.of_eq rfl rfl rfl rfl rfl, h.written, h.regions⟩) ev s p hs)
    (fun s r p st hs hp hst _ => ⟨slots_set hM hs.slots hp hst, hs.written.set _ _, hs.regions⟩)
    (fun s d T hs hT => ⟨⟨basic_fill hM hs.slots.basic hT, hs.slots.cur, hs.slots.hist⟩,
      hs.written, hs.regions⟩)
    (fun s w hs => ⟨hs.slots.of_eq rfl rfl rfl rfl rfl, hs.written, hs.regions⟩)
    h

theorem callHandler_defined (hM : M.Regular) (hS : Safe M sem) {ev : EventTy}
    (hev : ev ∈ M.events) (p : P) (hs : Solid M s) : (callHandler M sem ev p s).Defined := by
  unfold callHandler
  split
  · exact Res.defined_ok
  · rename_i hd hh
    obtain ⟨c, hc⟩ := hs.written 0 (maxInit_pos hM)
    have hlt := hs.slots.cur 0 c hc
    simp only [readCur, hc, Res.bind, hlt, if_true]
    obtain ⟨q, st, hq, hst, rfl⟩ := hM.comb_surj hlt
    obtain ⟨d, hd'⟩ := hs.slots.basic.handlers (by rw [hh]; rfl)
    rw [hd' ev hev q hq st hst]
    simp only
    rw [if_pos (objOk_of_safe hS _ _)]
    split
    · exact Res.defined_ok
    · exact Res.defined_throw
    · rename_i hu; exact absurd hu (hS.handlers _ _ _ _ _ _)

/-- The observers are defined. -/
theorem observers_defined {n : Nat} (hlen : s.cur.length = n) (hpos : 0 < n) (hw : Written n s)
    (hreg : activeRegions M s ≤ n) : (∀ st, (isState M st s).Defined) ∧ (∀ p, (parentIs M p s).Defined) ∧
      (∀ r p st, (isRegion M r p st s).Defined) ∧ (status M s).Defined := by
  have hat : ∀ r, (atCur r s).Defined := by
    intro r
    unfold atCur
    rcases Nat.lt_or_ge r n with h | h
    · obtain ⟨c, hc⟩ := hw r h
      rw [hc]; exact Res.defined_ok
    · rw [List.getElem?_eq_none (by rw [hlen]; exact h)]
      exact Res.defined_throw
  have hread : ∀ r < n, ∃ c, readCur r s = .ok c s := by
    intro r h
    obtain ⟨c, hc⟩ := hw r h
    exact ⟨c, readCur_ok.2 ⟨rfl, hc⟩⟩
  have hpar : ∃ c, currentParent M s = .ok c s := by
    obtain ⟨c, hc⟩ := hread 0 hpos
    exact ⟨_, by unfold currentParent; rw [hc]; rfl⟩
  have hcs : ∀ r, (currentState M r s).Defined := fun r =>
    Res.Defined.bind (hat r) (fun _ _ _ => Res.defined_ok)
  have hcs' : ∀ r a s1, currentState M r s = .ok a s1 → s1 = s := by
    intro r a s1 h
    unfold currentState at h
    obtain ⟨c, s2, h1, h2⟩ := Res.bind_ok.1 h
    cases h2
    unfold atCur at h1
    split at h1 <;> cases h1
    rfl
  have hpi : ∀ p, (parentIs M p s).Defined := by
    intro p
    obtain ⟨c, hc⟩ := hpar
    unfold parentIs; rw [hc]; exact Res.defined_ok
  refine ⟨?_, hpi, ?_, ?_⟩
  · intro st
    exact Res.Defined.bind (hcs 0) (fun _ _ _ => Res.defined_ok)
  · intro r p st
    refine Res.Defined.bind (hpi p) ?_
    intro b s1 hb
    obtain ⟨c, hc⟩ := hpar
    have : s1 = s := by
      unfold parentIs at hb; rw [hc] at hb; cases hb; rfl
    subst this
    split
    · exact Res.Defined.bind (hcs _) (fun _ _ _ => Res.defined_ok)
    · exact Res.defined_ok
  · have hloop : ∀ rs : List Nat, (∀ r ∈ rs, r < n) → (statusLoop M rs s).Defined := by
      intro rs
      induction rs with
      | nil => intro _; exact Res.defined_ok
      | cons r rs ih =>
        intro h
        obtain ⟨c, hc⟩ := hread r (h r (by simp))
        obtain ⟨p, hp⟩ := hpar
        unfold statusLoop
        rw [hc]
        simp only [Res.bind]
        rw [hp]
        refine Res.Defined.bind (hcs r) ?_
        intro a s1 h1
        obtain rfl := hcs' r a s1 h1
        exact Res.Defined.bind (ih (fun r hr => h r (by simp [hr]))) (fun _ _ _ => Res.defined_ok)
    exact hloop _ (fun r hr => Nat.lt_of_lt_of_le (List.mem_range.1 hr)
      (by rw [currentRegions_eq]; exact hreg))

theorem Solid.observers (hM : M.Regular) (hs : Solid M s) :
    (∀ st, (isState M st s).Defined) ∧ (∀ p, (parentIs M p s).Defined) ∧
      (∀ r p st, (isRegion M r p st s).Defined) ∧ (status M s).Defined :=
  observers_defined hs.slots.basic.curLen (maxInit_pos hM) hs.written hs.regions

/-- C05 for safe machines (this is what is missing from the full claim): construction is
defined, and after any history so is every further call, including the observers. -/
theorem C05_partial (hM : M.Regular) (hS : Safe M sem) :
    (∀ d w, ∃ s : SM P W, construct M d w = .ok s) ∧
    ∀ s : SM P W, Reach M sem s →
      (∀ fuel op, OpOk M op → (step M sem fuel op s).Defined) ∧
      (∀ st, (isState M st s).Defined) ∧ (∀ p, (parentIs M p s).Defined) ∧
      (∀ r p st, (isRegion M r p st s).Defined) ∧ (status M s).Defined := by
  refine ⟨?_, ?_⟩
  · intro d w
    exact (C06_construct hM d w).1.2
      ⟨(Machine.scopesReal_iff hM).2 ⟨hS.scopes.src, hS.scopes.comp⟩, fun _ => hS.scopes.rootInit⟩
  intro s hr
  have hs := hr.solid hM hS
  refine ⟨?_, hs.observers hM⟩
  intro fuel op hop
  cases op with
  | process ev p =>
    exact ((Preserves.safe hM hS).processEvent fuel ev p s (fun s p hs =>
      (callHandler_defined hM hS hop.event p hs).sat (callHandler_easy _ (fun _ _ _ h =>
        ⟨h.slots.of_eq rfl rfl rfl rfl rfl, h.written, h.regions⟩) ev s p hs)) hs).defined
  | set r p st =>
    refine Res.Defined.bind ?_ (fun _ _ _ => Res.defined_ok)
    unfold setOp
    split
    · exact Res.defined_ok
    · exact Res.defined_throw
  | setDependency d =>
    refine Res.Defined.bind ?_ (fun _ _ _ => Res.defined_ok)
    unfold setDependency
    obtain ⟨T, hT⟩ := (Machine.C06_fill hM d s.table).1
      ((Machine.scopesReal_iff hM).2 ⟨hS.scopes.src, hS.scopes.comp⟩)
    rw [hT]; exact Res.defined_ok

end

/-! ### Safe machines exist, unsafe ones too -/

namespace Ex

/-- Evaluates the parts of `Safe` that concern the machine. -/
def safeB (M : Machine) (n : Nat) : Bool :=
  M.composites.all (fun p =>
    decide ((M.declaredInitials p).length ≤ (M.declaredInitials M.root).length)) &&
  (!M.historic || M.composites.all (fun p =>
    decide ((M.declaredInitials p).length = (M.declaredInitials M.root).length))) &&
  M.flat.all (fun t => ((M.deferOf (Machine.stripInitial t.source)).getD []).all (· != .none)) &&
  (List.range n).all (fun s => (M.decl s).defaultCtor)

theorem safe_of_check {ds : List Decl} {ranks : List Nat} {on : Nat → Bool} {bad bg : List Nat}
    (hS : (Machine.ofList ds ranks).Scoped)
    (h : safeB (Machine.ofList ds ranks) ds.length = true) :
    Safe (Machine.ofList ds ranks) (sem on bad bg) := by
  unfold safeB at h
  simp only [Bool.and_eq_true] at h
  obtain ⟨⟨⟨h1, h2⟩, h3⟩, h4⟩ := h
  refine ⟨hS, ?_, ?_, ?_, ?_, ?_, ?_, ?_⟩
  · intro p hp
    simpa using List.all_eq_true.1 h1 p hp
  · intro hh p hp
    rw [hh] at h2
    simp only [Bool.not_true, Bool.false_or] at h2
    simpa using List.all_eq_true.1 h2 p hp
  · intro _ p st hd
    rw [Machine.cands_def] at hd
    simp only [List.mem_append, List.mem_replicate, List.mem_flatMap] at hd
    rcases hd with (⟨hne, _⟩ | ⟨t, _, ht⟩) | ⟨t, _, ht⟩
    · apply hne
      refine List.sum_eq_zero_iff_forall_eq_nat.2 ?_
      intro k hk
      obtain ⟨t, ht, rfl⟩ := List.mem_map.1 hk
      rw [Machine.deferCount_def]
      split
      · rw [List.count_eq_zero]
        intro hn
        have := List.all_eq_true.1 (List.all_eq_true.1 h3 t ht) _ hn
        simp at this
      · rfl
    · unfold Machine.extCands at ht
      rcases List.mem_append.1 ht with h | h <;> split at h <;> simp at h
    · unfold Machine.intCands at ht
      split at ht <;> simp at ht
  · intro st
    left
    cases st with
    | ps o k => cases k <;> rfl
    | st s =>
      show (ds.getD s {}).defaultCtor = true
      by_cases hs : s < ds.length
      · exact List.all_eq_true.1 h4 s (List.mem_range.2 hs)
      · rw [List.getD_eq_getElem?_getD, List.getElem?_eq_none (Nat.le_of_not_lt hs)]; rfl
  · intro g a p w; simp only [sem]; split <;> simp
  · intro g a p w; simp only [sem]; split <;> simp
  · intro h e st d p w; simp [sem]

/-- The demo machine and the two-region machine are safe. -/
theorem demo_safe (on : Nat → Bool) (bad bg : List Nat) : Safe demo (sem on bad bg) :=
  safe_of_check demo_scoped (by decide +kernel)

theorem orth_safe (on : Nat → Bool) (bad bg : List Nat) : Safe orth (sem on bad bg) :=
  safe_of_check orth_scoped (by decide +kernel)

/-- A composite (2) with two regions in a machine with one. -/
def wide : Machine := Machine.ofList
  [ { table := some [ row (ini 1) (ev 0) none none (.st 2), row (.st 2) (ev 1) none none (.st 1) ] },
    { },
    { table := some [ row (ini 3) (ev 2) none none (.st 4), row (ini 5) (ev 2) none none (.st 6) ] }
  ] [1]

theorem wide_regular : wide.Regular := Machine.regular_ofList (by decide +kernel)
theorem wide_scoped : wide.Scoped := Machine.scoped_of_check (by decide +kernel)

/-- Two regions, a composite (3) with one region, and a history target. -/
def narrow : Machine := Machine.ofList
  [ { table := some
        [ row (ini 1) (ev 0) none none (.st 3),
          row (ini 2) (ev 0) none none (.st 5),
          row (.st 1) (ev 1) none none (.ps true (.history 3)) ] },
    { }, { },
    { table := some [ row (ini 4) (ev 2) none none (.st 4) ] } ] [1]

theorem narrow_regular : narrow.Regular := Machine.regular_ofList (by decide +kernel)
theorem narrow_scoped : narrow.Scoped := Machine.scoped_of_check (by decide +kernel)

/-- State 2 defers the none event. -/
def noneDeferred : Machine := Machine.ofList
  [ { table := some
        [ row (ini 1) (ev 0) none none (.st 2), row (.st 2) (ev 1) none none (.st 3),
          row (.st 3) .none none none (.st 1) ] },
    { }, { defer := some [.none] } ] [1]

theorem noneDeferred_regular : noneDeferred.Regular := Machine.regular_ofList (by decide +kernel)
theorem noneDeferred_scoped : noneDeferred.Scoped := Machine.scoped_of_check (by decide +kernel)

/-- A guarded row into a state without default constructor. -/
def custom : Machine := Machine.ofList
  [ { table := some [ row (ini 1) (ev 0) (some 100) (some 1) (.st 2),
        row (.st 2) (ev 1) none (some 2) (.st 1) ] },
    { }, { defaultCtor := false } ] [1]

theorem custom_regular : custom.Regular := Machine.regular_ofList (by decide +kernel)
theorem custom_scoped : custom.Scoped := Machine.scoped_of_check (by decide +kernel)

/-- Like `sem`, but the objects of states without default constructor exist once action 1
has run. -/
def semLate (on : Nat → Bool) : Sem Nat (List Nat) := { sem on with alive := fun _ w => decide (1 ∈ w) }

/-- Does the call run into the given undefined behaviour? -/
def hits (u : UB) (r : Res (SM Nat (List Nat)) Bool) : Bool :=
  match r with
  | .ub u' => u' == u
  | _ => false

theorem hits_iff {u : UB} {r : Res (SM Nat (List Nat)) Bool} (h : hits u r = true) : r = .ub u := by
  unfold hits at h
  split at h
  · rw [beq_iff_eq.1 h]
  · cases h

end Ex

/-- Callbacks that do nothing undefined themselves. -/
def Harmless {P W : Type} (sem : Sem P W) : Prop :=
  (∀ g a p w, sem.guard g a p w ≠ .ub) ∧ (∀ a args p w, sem.action a args p w ≠ .ub) ∧
    ∀ h e st d p w, sem.handler h e st d p w ≠ .ub

theorem Ex.harmless (on : Nat → Bool) : Harmless (Ex.sem on) := by
  refine ⟨?_, ?_, ?_⟩
  · intro g a p w; simp [Ex.sem]
  · intro g a p w; simp [Ex.sem]
  · intro h e st d p w; simp [Ex.sem]

/-- After some history of a machine with harmless callbacks, a call a client can make runs
into undefined behaviour `u`. -/
def Hits {P W : Type} (M : Machine) (sem : Sem P W) (u : UB) : Prop :=
  M.Regular ∧ M.Scoped ∧ Harmless sem ∧
    ∃ s, Reach M sem s ∧ ∃ op fuel, OpOk M op ∧ step M sem fuel op s = .ub u

theorem Ex.hits_of_run {M : Machine} {sm : Sem Nat (List Nat)} {u : UB} {ops : List (Op Nat)}
    {op : Op Nat} (hM : M.Regular) (hS : M.Scoped) (hh : Harmless sm) (hop : opOkB M op = true)
    (h : (Ex.run M sm 5 7 [] ops).any (fun s => Ex.hits u (step M sm 5 op s)) = true) :
    Hits M sm u := by
  obtain ⟨s, hr, hs⟩ := Ex.exists_run _ _ h
  exact ⟨hM, hS, hh, s, ⟨_, _, hr⟩, op, 5, opOkB_iff M hop, Ex.hits_iff hs⟩

/-- C05 does not hold: with harmless callbacks, machines the compiler accepts and that can
be constructed read an uninitialised slot (`wide`), index the history out of bounds
(`narrow`), dereference a null transition (`noneDeferred`) or a missing object (`custom`);
others cannot even be constructed (`unscoped`). -/
theorem C05_refuted :
    Hits Ex.wide (Ex.sem fun _ => true) .uninit ∧
    Hits Ex.narrow (Ex.sem fun _ => true) .bounds ∧
    Hits Ex.noneDeferred (Ex.sem fun _ => true) .nullTransition ∧
    Hits Ex.custom (Ex.semLate fun _ => true) .nullObject ∧
    (Ex.unscoped.Regular ∧
      (construct Ex.unscoped 7 [] : Except BuildErr (SM Nat (List Nat))) = .error .ub) := by
  refine ⟨?_, ?_, ?_, ?_, ?_⟩
  · exact Ex.hits_of_run (ops := [.process (Ex.ev 0) 1]) (op := .process (Ex.ev 1) 1)
      Ex.wide_regular Ex.wide_scoped (Ex.harmless _) (by decide +kernel) (by decide +kernel)
  · exact Ex.hits_of_run (ops := []) (op := .process (Ex.ev 0) 1)
      Ex.narrow_regular Ex.narrow_scoped (Ex.harmless _) (by decide +kernel) (by decide +kernel)
  · exact Ex.hits_of_run (ops := []) (op := .process (Ex.ev 0) 1)
      Ex.noneDeferred_regular Ex.noneDeferred_scoped (Ex.harmless _) (by decide +kernel)
      (by decide +kernel)
  · exact Ex.hits_of_run (ops := []) (op := .process (Ex.ev 0) 1)
      Ex.custom_regular Ex.custom_scoped (Ex.harmless fun _ => true) (by decide +kernel)
      (by decide +kernel)
  · have hreg : Ex.unscoped.Regular := Machine.regular_ofList (by decide +kernel)
    refine ⟨hreg, (C06_construct hreg 7 []).2 ?_⟩
    rw [(C06_construct hreg 7 []).1, Machine.scopesReal_iff hreg]
    rintro ⟨⟨h, _⟩, _⟩
    exact absurd (h ⟨0, .ps false (.exit 2 1), .user 1, none, none, .st 1, false⟩
      (by decide +kernel)) (by decide +kernel)

end Hsm

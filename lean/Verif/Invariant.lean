import Verif.RuntimeLemmas

/-! Invariants of running machines: what has to be checked once so that a property
survives every API call. -/

namespace Hsm
section
variable {P W : Type} {M : Machine} {sem : Sem P W}

/-- Obligations for `I` to survive event processing.  `U` says whether undefined
behaviour is tolerated, `R` holds of all regions that are looked at. -/
structure Preserves (M : Machine) (sem : Sem P W) (U : Prop) (R : Nat → Prop)
    (I : SM P W → Prop) : Prop where
  regions : ∀ s, I s → ∀ r, r < activeRegions M s → R r
  look : ∀ s ev r, I s → R r → ∀ u, lookup M ev r s = .ub u → U
  null : ∀ s ev r c e, I s → R r → s.cur[r]? = some (some c) → e ∈ s.table ev c →
    (e.defer = false ∨ (ev = .none ∧ M.anonymous = true)) → e.tr = none → U
  guard : ∀ s ev r c e x p, I s → R r → s.cur[r]? = some (some c) → e ∈ s.table ev c →
    e.tr = some x → (execGuard M sem x ev p s).Sat U (fun _ => I) (fun _ => I)
  fire : ∀ s0 s ev r c e x p0 p, I s0 → I s → R r → s.cur[r]? = some (some c) →
    e ∈ s.table ev c → e.tr = some x →
    execGuard M sem x ev p0 s0 = .ok (true, p) s →
    (fire M sem r ev e x p s).Sat U (fun _ => I) (fun _ => I)
  push : ∀ s ev r c e p, I s → R r → s.cur[r]? = some (some c) → e ∈ s.table ev c →
    e.defer = true → I { s with queue := s.queue ++ [(ev, p)] }
  pop : ∀ s ev p q, I s → s.queue = (ev, p) :: q → I { s with queue := q }

/-- Execution of a guard keeps everything but world and trace. -/
theorem execGuard_same {x : Exec} {ev : EventTy} {p : P} {s s' : SM P W} {bp : Bool × P}
    (h : execGuard M sem x ev p s = .ok bp s') : ∃ w tr, s' = s.ran w tr := by
  obtain ⟨b, p'⟩ := bp
  cases b with
  | true =>
    obtain ⟨tr, w, _, rfl⟩ := execGuard_ok_true h
    exact ⟨w, tr, rfl⟩
  | false =>
    obtain ⟨g, w, _, _, rfl⟩ := execGuard_ok_false h
    exact ⟨w, _, rfl⟩

variable {U : Prop} {R : Nat → Prop} {I : SM P W → Prop}

theorem Preserves.tryEntries (h : Preserves M sem U R I) {r : Nat} {ev : EventTy} {c : Nat}
    (hr : R r) : ∀ (es : List Entry) (p : P) (s : SM P W), I s → s.cur[r]? = some (some c) →
    (∀ e ∈ es, e ∈ s.table ev c) →
    (tryEntries M sem r ev es p s).Sat U (fun _ => I) (fun _ => I) := by
  intro es
  induction es with
  | nil => intro p s hs _ _; exact hs
  | cons e es ih =>
    intro p s hs hc he
    unfold Hsm.tryEntries
    have hmem := he e (by simp)
    split
    · rename_i hd
      exact h.push s ev r c e p hs hr hc hmem hd
    · rename_i hd
      have hd : e.defer = false := by simpa using hd
      split
      · rename_i hx
        exact h.null s ev r c e hs hr hc hmem (Or.inl hd) hx
      · rename_i x hx
        have hg := h.guard s ev r c e x p hs hr hc hmem hx
        apply Res.Sat.bind'
        · rintro ⟨b, p1⟩ s1 heq
          rw [heq] at hg
          obtain ⟨w, tr, rfl⟩ := execGuard_same heq
          cases b with
          | true =>
            simp only [if_true]
            have hf := h.fire s _ ev r c e x p p1 hs hg hr hc hmem hx heq
            exact Res.Sat.bind hf (fun _ s hs => hs)
          | false =>
            simp only [Bool.false_eq_true, if_false]
            exact ih p1 _ hg hc (fun e' he' => he e' (by simp [he']))
        · intro n s1 heq
          rw [heq] at hg; exact hg
        · intro u heq
          rw [heq] at hg; exact hg

theorem Preserves.regionStep (h : Preserves M sem U R I) {r : Nat} (ev : EventTy) (p : P)
    (s : SM P W) (hr : R r) (hs : I s) :
    (regionStep M sem r ev p s).Sat U (fun _ => I) (fun _ => I) := by
  unfold Hsm.regionStep
  apply Res.Sat.bind'
  · intro es s1 heq
    obtain ⟨rfl, c, h1, _, rfl⟩ := lookup_ok.1 heq
    cases hes : s1.table ev c with
    | nil => exact hs
    | cons e es => exact h.tryEntries hr _ p s1 hs h1 (fun e' he' => by rw [hes]; exact he')
  · intro x s1 heq; exact absurd heq lookup_throw
  · intro u heq; exact h.look s ev r hs hr u heq

theorem Preserves.regionLoop (h : Preserves M sem U R I) (ev : EventTy) :
    ∀ (rs : List Nat) (agf ati : Bool) (p : P) (s : SM P W), (∀ r ∈ rs, R r) → I s →
    (regionLoop M sem ev rs agf ati p s).Sat U (fun _ => I) (fun _ => I) := by
  intro rs
  induction rs with
  | nil => intro _ _ _ s _ hs; exact hs
  | cons r rs ih =>
    intro agf ati p s hrs hs
    unfold Hsm.regionLoop
    apply Res.Sat.bind (h.regionStep ev p s (hrs r (by simp)) hs)
    rintro ⟨o, p1⟩ s1 hs1
    have hrs' : ∀ r ∈ rs, R r := fun r' hr' => hrs r' (by simp [hr'])
    cases o with
    | none => exact ih _ _ _ _ hrs' hs1
    | rejected => exact ih _ _ _ _ hrs' hs1
    | fired => exact ih _ _ _ _ hrs' hs1
    | deferred => exact hs1

theorem Preserves.tryAnon (h : Preserves M sem U R I) (ha : M.anonymous = true) {r : Nat} {c : Nat}
    (hr : R r) : ∀ (es : List Entry) (p : P) (s : SM P W), I s → s.cur[r]? = some (some c) →
    (∀ e ∈ es, e ∈ s.table .none c) →
    (tryAnon M sem r es p s).Sat U (fun _ => I) (fun _ => I) := by
  intro es
  induction es with
  | nil => intro p s hs _ _; exact hs
  | cons e es ih =>
    intro p s hs hc he
    unfold Hsm.tryAnon
    have hmem := he e (by simp)
    split
    · rename_i hx
      exact h.null s .none r c e hs hr hc hmem (Or.inr ⟨rfl, ha⟩) hx
    · rename_i x hx
      have hg := h.guard s .none r c e x p hs hr hc hmem hx
      apply Res.Sat.bind'
      · rintro ⟨b, p1⟩ s1 heq
        rw [heq] at hg
        obtain ⟨w, tr, rfl⟩ := execGuard_same heq
        cases b with
        | true =>
          simp only [if_true]
          have hf := h.fire s _ .none r c e x p p1 hs hg hr hc hmem hx heq
          exact Res.Sat.bind hf (fun _ s hs => hs)
        | false =>
          simp only [Bool.false_eq_true, if_false]
          exact ih p1 _ hg hc (fun e' he' => he e' (by simp [he']))
      · intro n s1 heq
        rw [heq] at hg; exact hg
      · intro u heq
        rw [heq] at hg; exact hg

theorem Preserves.anonRound (h : Preserves M sem U R I) (ha : M.anonymous = true) :
    ∀ (rs : List Nat) (agf : Bool) (p : P) (s : SM P W), (∀ r ∈ rs, R r) → I s →
    (anonRound M sem rs agf p s).Sat U (fun _ => I) (fun _ => I) := by
  intro rs
  induction rs with
  | nil => intro _ _ s _ hs; exact hs
  | cons r rs ih =>
    intro agf p s hrs hs
    unfold Hsm.anonRound
    apply Res.Sat.bind'
    · intro es s1 heq
      obtain ⟨rfl, c, h1, _, rfl⟩ := lookup_ok.1 heq
      cases hes : s1.table .none c with
      | nil => exact hs
      | cons e es =>
        refine Res.Sat.bind (h.tryAnon ha (hrs r (by simp)) _ p s1 hs h1
          (fun e' he' => by rw [hes]; exact he')) ?_
        rintro ⟨b, p1⟩ s2 hs2
        exact ih _ _ _ (fun r' hr' => hrs r' (by simp [hr'])) hs2
    · intro x s1 heq; exact absurd heq lookup_throw
    · intro u heq; exact h.look s .none r hs (hrs r (by simp)) u heq

theorem Preserves.range (h : Preserves M sem U R I) {s : SM P W} (hs : I s) :
    ∀ r ∈ List.range (activeRegions M s), R r := by
  intro r hr
  exact h.regions s hs r (List.mem_range.1 hr)

theorem Preserves.anonLoop (h : Preserves M sem U R I) (ha : M.anonymous = true) :
    ∀ (fuel : Nat) (p : P) (s : SM P W), I s →
    (anonLoop M sem fuel p s).Sat U (fun _ => I) (fun _ => I) := by
  intro fuel
  induction fuel with
  | zero => intro _ _ _; trivial
  | succ n ih =>
    intro p s hs
    unfold Hsm.anonLoop
    rw [currentRegions_eq]
    apply Res.Sat.bind (h.anonRound ha _ _ p s (h.range hs) hs)
    rintro ⟨b, p1⟩ s1 hs1
    match b with
    | none => exact hs1
    | some true => exact hs1
    | some false => exact ih _ _ hs1

theorem Preserves.processAnon (h : Preserves M sem U R I) (fuel : Nat) (s : SM P W) (hs : I s) :
    (processAnon M sem fuel s).Sat U (fun _ => I) (fun _ => I) := by
  unfold Hsm.processAnon
  rw [Machine.hasAnon_eq]
  split
  · rename_i ha
    exact h.anonLoop ha fuel _ s hs
  · exact hs

theorem Preserves.processInternal (h : Preserves M sem U R I) (fuel : Nat) (ev : EventTy) (p : P)
    (s : SM P W) (hs : I s) :
    (processInternal M sem fuel ev p s).Sat U (fun _ => I) (fun _ => I) := by
  unfold Hsm.processInternal
  rw [currentRegions_eq]
  apply Res.Sat.bind (h.regionLoop ev _ _ _ p s (h.range hs) hs)
  rintro ⟨o, p1⟩ s1 hs1
  cases o with
  | deferred => exact hs1
  | done agf ati =>
    cases ati with
    | true => exact hs1
    | false =>
      cases agf with
      | true => exact hs1
      | false =>
        simp only [Bool.false_eq_true, if_false]
        exact Res.Sat.bind (h.processAnon fuel s1 hs1) (fun _ _ hs => hs)

theorem Preserves.processDeferred (h : Preserves M sem U R I) (fuel : Nat) (s : SM P W)
    (hs : I s) : (processDeferred M sem fuel s).Sat U (fun _ => I) (fun _ => I) := by
  unfold Hsm.processDeferred
  rw [Machine.hasDefer_eq]
  split
  · split
    · exact hs
    · rename_i e p q hq
      exact Res.Sat.bind (h.processInternal fuel e p _ (h.pop s e p q hs hq)) (fun _ _ hs => hs)
  · exact hs

theorem Preserves.processEvent (h : Preserves M sem U R I) (fuel : Nat) (ev : EventTy) (p : P)
    (s : SM P W)
    (hh : ∀ s p, I s → (callHandler M sem ev p s).Sat U (fun _ => I) (fun _ => I)) (hs : I s) :
    (processEvent M sem fuel ev p s).Sat U (fun _ => I) (fun _ => I) := by
  unfold Hsm.processEvent
  apply Res.Sat.bind (h.processInternal fuel ev p s hs)
  rintro ⟨o, p1⟩ s1 hs1
  cases o with
  | allTransitionsInvalid => exact Res.Sat.bind (hh s1 p1 hs1) (fun _ _ hs => hs)
  | allGuardsFailed => exact hs1
  | deferred => exact hs1
  | processed => exact Res.Sat.bind (h.processDeferred fuel s1 hs1) (fun _ _ hs => hs)

/-! ## Callbacks change only world and trace -/

theorem callHandler_ok {ev : EventTy} {p p' : P} {s s' : SM P W}
    (h : callHandler M sem ev p s = .ok p' s') :
    ((M.decl M.root).handler = none ∧ p' = p ∧ s' = s) ∨
    ∃ hd c st d w, (M.decl M.root).handler = some hd ∧ s.cur[0]? = some (some c) ∧ c < M.size ∧
      s.handlers ev c = some (st, d) ∧ sem.handler hd ev st d p s.world = .ok () p' w ∧
      s' = s.ran w [.handler hd ev st d p false s.cur] := by
  unfold callHandler at h
  split at h
  · rename_i hn
    cases h
    exact Or.inl ⟨hn, rfl, rfl⟩
  · rename_i hd hhd
    obtain ⟨c, s1, h1, h2⟩ := Res.bind_ok.1 h
    clear h
    obtain ⟨rfl, h1⟩ := readCur_ok.1 h1
    have h := h2; clear h2
    split at h
    · rename_i hc
      split at h
      · cases h
      · rename_i st d hst
        split at h
        · split at h
          · rename_i u p1 w1 hsem
            cases h
            exact Or.inr ⟨hd, c, st, d, w1, hhd, h1, hc, hst, hsem, rfl⟩
          · cases h
          · cases h
        · cases h
    · cases h

theorem callHandler_throw {ev : EventTy} {p : P} {s s' : SM P W} {x : Exn}
    (h : callHandler M sem ev p s = .throw x s') :
    (x = .outOfRange ∧ s' = s ∧ ∃ c, s.cur[0]? = some (some c) ∧ M.size ≤ c) ∨
    ∃ hd c st d w k p', x = .user k ∧ (M.decl M.root).handler = some hd ∧
      s.cur[0]? = some (some c) ∧ c < M.size ∧
      s.handlers ev c = some (st, d) ∧ sem.handler hd ev st d p s.world = .throw k p' w ∧
      s' = s.ran w [.handler hd ev st d p true s.cur] := by
  unfold callHandler at h
  split at h
  · cases h
  · rename_i hd hhd
    rcases Res.bind_throw.1 h with h | ⟨c, s1, h1, h2⟩
    · exact absurd h readCur_throw
    · clear h
      obtain ⟨rfl, h1⟩ := readCur_ok.1 h1
      have h := h2; clear h2
      split at h
      · rename_i hc
        split at h
        · cases h
        · rename_i st d hst
          split at h
          · split at h
            · cases h
            · rename_i k p1 w1 hsem
              cases h
              exact Or.inr ⟨hd, c, st, d, w1, k, p1, rfl, hhd, h1, hc, hst, hsem, rfl⟩
            · cases h
          · cases h
      · rename_i hc
        cases h
        exact Or.inl ⟨rfl, rfl, c, h1, by omega⟩

/-- Easier obligations when undefined behaviour is tolerated and `I` does not look at
world and trace. -/
theorem Preserves.easy (I : SM P W → Prop)
    (ran : ∀ s w tr, I s → I (s.ran w tr))
    (move : ∀ s s' ev (r c : Nat) e, I s → s.cur[r]? = some (some c) → e ∈ s.table ev c →
      Moved M r e s s' → I s')
    (push : ∀ s ev (r c : Nat) e p, I s → s.cur[r]? = some (some c) → e ∈ s.table ev c →
      e.defer = true → I { s with queue := s.queue ++ [(ev, p)] })
    (pop : ∀ s ev p q, I s → s.queue = (ev, p) :: q → I { s with queue := q }) :
    Preserves M sem True (fun _ => True) I where
  regions := fun _ _ _ _ => trivial
  look := fun _ _ _ _ _ _ _ => trivial
  null := fun _ _ _ _ _ _ _ _ _ _ _ => trivial
  guard := by
    intro s ev r c e x p hs _ _ _ _
    apply Res.sat_of_true
    · intro bp s1 h
      obtain ⟨w, tr, rfl⟩ := execGuard_same h
      exact ran _ _ _ hs
    · intro n s1 h
      obtain ⟨_, _, _, _, _, _, _, rfl⟩ := execGuard_throw h
      exact ran _ _ _ hs
  fire := by
    intro s0 s ev r c e x p0 p _ hs _ hc he _ _
    have key : ∀ s1, updateState M r e s = .ok () s1 → I s1 := by
      intro s1 h
      rcases updateState_ok h with ⟨_, rfl⟩ | hm
      · exact hs
      · exact move s s1 ev r c e hs hc he hm
    apply Res.sat_of_true
    · intro p1 s1 h
      obtain ⟨s2, tr, w, h1, _, rfl⟩ := fire_ok h
      exact ran _ _ _ (key _ h1)
    · intro n s1 h
      obtain ⟨s2, tr, k, w, _, h1, _, rfl⟩ := fire_throw h
      exact ran _ _ _ (key _ h1)
  push := fun s ev r c e p hs _ hc he hd => push s ev r c e p hs hc he hd
  pop := pop

theorem callHandler_easy (I : SM P W → Prop) (ran : ∀ s w tr, I s → I (s.ran w tr))
    (ev : EventTy) (s : SM P W) (p : P) (hs : I s) :
    (callHandler M sem ev p s).Sat True (fun _ => I) (fun _ => I) := by
  apply Res.sat_of_true
  · intro p1 s1 h
    rcases callHandler_ok h with ⟨_, _, rfl⟩ | ⟨_, _, _, _, _, _, _, _, _, _, rfl⟩
    · exact hs
    · exact ran _ _ _ hs
  · intro n s1 h
    rcases callHandler_throw h with ⟨_, rfl, _⟩ | ⟨_, _, _, _, _, _, _, _, _, _, _, _, _, rfl⟩
    · exact hs
    · exact ran _ _ _ hs

/-- Induction over histories, the outcome of a call taken apart by `Sat`. -/
theorem RunTo.induct {d : Dep} {I : List (Op P) → SM P W → Prop}
    (base : ∀ w s, construct M d w = .ok s → I [] s)
    (step : ∀ ops s op fuel, RunTo M sem d ops s → I ops s → OpOk M op →
      (Hsm.step M sem fuel op s).Sat True (fun _ => I (ops ++ [op])) (fun _ => I (ops ++ [op])))
    (world : ∀ ops s w, I ops s → I ops { s with world := w })
    {ops : List (Op P)} {s : SM P W} (h : RunTo M sem d ops s) : I ops s := by
  induction h with
  | init h => exact base _ _ h
  | @ok s s' ops op fuel b hr hop h ih =>
    have := step ops s op fuel hr ih hop
    rw [h] at this; exact this
  | @throw s s' ops op fuel x hr hop h ih =>
    have := step ops s op fuel hr ih hop
    rw [h] at this; exact this
  | world hr w ih => exact world _ _ _ ih

/-- `I` survives all calls: lifted to reachable machines. -/
theorem Reach.inv {I : SM P W → Prop}
    (base : ∀ d w s, construct M d w = .ok s → I s)
    (pres : Preserves M sem True (fun _ => True) I)
    (hand : ∀ ev s p, ev ∈ M.events → I s →
      (callHandler M sem ev p s).Sat True (fun _ => I) (fun _ => I))
    (set : ∀ s r p st, I s → p ∈ M.composites → st ∈ M.states → r % 256 < s.cur.length →
      I { s with cur := s.cur.set (r % 256) (some (M.comb p st)) })
    (dep : ∀ s d T, I s → M.fill d s.table = .ok T → I { s with table := T })
    (world : ∀ s w, I s → I { s with world := w })
    {s : SM P W} (h : Reach M sem s) : I s := by
  have step : ∀ (s : SM P W) (op : Op P) (fuel : Nat), I s → OpOk M op →
      (Hsm.step M sem fuel op s).Sat True (fun _ => I) (fun _ => I) := by
    intro s op fuel hs hop
    cases op with
    | process ev p =>
      exact pres.processEvent fuel ev p s (fun s p hs => hand ev s p hop.event hs) hs
    | set r p st =>
      show (Res.bind _ _).Sat _ _ _
      unfold setOp
      split
      · rename_i hr
        exact set s r p st hs hop.place.1 hop.place.2 hr
      · exact hs
    | setDependency d =>
      show (Res.bind _ _).Sat _ _ _
      unfold Hsm.setDependency
      split
      · rename_i T hT
        exact dep s d T hs hT
      · trivial
  obtain ⟨d, ops, h⟩ := h
  exact RunTo.induct (I := fun _ => I) (base d) (fun ops s op fuel _ hs hop => step s op fuel hs hop)
    (fun _ => world) h

end
end Hsm

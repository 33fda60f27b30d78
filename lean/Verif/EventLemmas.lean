import Verif.StepLemmas

/-! `process_event` refines `EventRun`/`EventThrow`. -/

namespace Hsm
section
variable {P W : Type} {M : Machine} {sem : Sem P W}

theorem Good.processInternal {deps : List Dep} {s s' : SM P W} (hg : Good M deps s)
    {fuel : Nat} {ev : EventTy} {pl : P} {op : ProcRes × P}
    (h : processInternal M sem fuel ev pl s = .ok op s') : Good M deps s' := by
  have := (Preserves.good (M := M) (sem := sem) deps).processInternal fuel ev pl s hg
  rw [h] at this
  exact this

theorem processAnon_ok (hM : M.Regular) {deps : List Dep} {fuel : Nat} {s s' : SM P W} {u : Unit}
    (hg : Good M deps s) (h : processAnon M sem fuel s = .ok u s') : Settles M sem deps s s' := by
  unfold processAnon at h
  rw [Machine.hasAnon_eq] at h
  unfold Settles
  split at h
  · rename_i ha
    rw [if_pos ha]
    exact (anonLoop_ok hM hg h).2
  · rename_i ha
    rw [if_neg ha]
    cases h
    rfl

theorem processInternal_ok (hM : M.Regular) {deps : List Dep} {fuel : Nat} {ev : EventTy}
    {pl pl' : P} {s s' : SM P W} {o : ProcRes} (hg : Good M deps s)
    (h : processInternal M sem fuel ev pl s = .ok (o, pl') s') :
    ∃ os s1, Turn M sem deps ev pl s os pl' s1 s' ∧
      (o = .allTransitionsInvalid ∧ s' = s1 ∧ (∀ o ∈ os, o = RegionOut.none) ∨
       (o = .allGuardsFailed ∨ o = .deferred) ∧ s' = s1 ∧ ¬ Reacted os ∧ (∃ o ∈ os, o ≠ RegionOut.none) ∨
       o = .processed ∧ Reacted os) := by
  unfold processInternal at h
  rw [currentRegions_eq] at h
  obtain ⟨⟨lo, p1⟩, s1, h1, h2⟩ := Res.bind_ok.1 h
  obtain ⟨os, hl, hres⟩ := regionLoop_ok hM hg h1
  have hg1 := hg.regionLoop h1
  rcases hres with ⟨rfl, hd⟩ | ⟨agf, ati, rfl, hd, hagf, hati⟩
  · cases h2
    have hn : ¬ Reacted os := fun hr => hr.1 hd
    exact ⟨os, _, .quiet hl hn, Or.inr (Or.inl ⟨Or.inr rfl, rfl, hn, _, hd, by simp⟩)⟩
  · simp only at h2
    cases hat : ati with
    | true =>
      rw [hat] at h2
      cases h2
      have ha := (hati.1 hat).2
      have hn : ¬ Reacted os := fun hr => by
        have := ha _ hr.2
        cases this
      exact ⟨os, _, .quiet hl hn, Or.inl ⟨rfl, rfl, ha⟩⟩
    | false =>
      rw [hat] at h2
      simp only [Bool.false_eq_true, if_false] at h2
      have hne : ∃ o ∈ os, o ≠ RegionOut.none := by
        apply Classical.byContradiction
        intro hc
        have : ati = true := hati.2 ⟨rfl, fun o ho => by
          apply Classical.byContradiction
          intro hno
          exact hc ⟨o, ho, hno⟩⟩
        rw [hat] at this; cases this
      cases hag : agf with
      | true =>
        rw [hag] at h2
        cases h2
        have hn : ¬ Reacted os := fun hr => (hagf.1 hag).2 hr.2
        exact ⟨os, _, .quiet hl hn, Or.inr (Or.inl ⟨Or.inl rfl, rfl, hn, hne⟩)⟩
      | false =>
        rw [hag] at h2
        simp only [Bool.false_eq_true, if_false] at h2
        have hr : Reacted os := by
          refine ⟨hd, ?_⟩
          apply Classical.byContradiction
          intro hc
          have : agf = true := hagf.2 ⟨rfl, hc⟩
          rw [hag] at this; cases this
        obtain ⟨u, s2, h3, h4⟩ := Res.bind_ok.1 h2
        cases h4
        exact ⟨os, _, .react hl hr (processAnon_ok hM hg1 h3), Or.inr (Or.inr ⟨rfl, hr⟩)⟩

theorem processInternal_throw (hM : M.Regular) {deps : List Dep} {fuel : Nat} {ev : EventTy}
    {pl : P} {s s' : SM P W} {x : Exn} (hg : Good M deps s)
    (h : processInternal M sem fuel ev pl s = .throw x s') :
    ∃ k, x = .user k ∧ TurnThrow M sem deps ev pl s k s' := by
  unfold processInternal at h
  rw [currentRegions_eq] at h
  rcases Res.bind_throw.1 h with h | ⟨⟨lo, p1⟩, s1, h1, h2⟩
  · obtain ⟨k, os, r, hk, ht⟩ := regionLoop_throw hM hg h
    exact ⟨k, hk, .region ht⟩
  · obtain ⟨os, hl, hres⟩ := regionLoop_ok hM hg h1
    have hg1 := hg.regionLoop h1
    rcases hres with ⟨rfl, hd⟩ | ⟨agf, ati, rfl, hd, hagf, hati⟩
    · cases h2
    · simp only at h2
      cases hat : ati with
      | true => rw [hat] at h2; cases h2
      | false =>
        rw [hat] at h2
        simp only [Bool.false_eq_true, if_false] at h2
        cases hag : agf with
        | true => rw [hag] at h2; cases h2
        | false =>
          rw [hag] at h2
          simp only [Bool.false_eq_true, if_false] at h2
          have hr : Reacted os := by
            refine ⟨hd, ?_⟩
            apply Classical.byContradiction
            intro hc
            have : agf = true := hagf.2 ⟨rfl, hc⟩
            rw [hag] at this; cases this
          rcases Res.bind_throw.1 h2 with h3 | ⟨_, _, _, h4⟩
          · unfold processAnon at h3
            rw [Machine.hasAnon_eq] at h3
            split at h3
            · rename_i ha
              obtain ⟨k, hk, ht⟩ := anonLoop_throw hM hg1 h3
              exact ⟨k, hk, .anon hl hr ha ht⟩
            · cases h3
          · cases h4

/-- What the handler table gives at a location. -/
theorem callHandler_spec (hM : M.Regular) {d0 : Dep} {ev : EventTy} (hev : ev ∈ M.events)
    {s : SM P W} (hh : HandlersAre M d0 s) {hd : Cb} (hhd : (M.decl M.root).handler = some hd)
    {c : Nat} (hc : s.cur[0]? = some (some c)) (hlt : c < M.size) {st : StTy} {d : Dep}
    (hs : s.handlers ev c = some (st, d)) : d = d0 ∧ ∃ p, At M s 0 p st := by
  obtain ⟨p, st', hp, hst, rfl⟩ := hM.comb_surj hlt
  rw [hh (by rw [hhd]; rfl) ev hev p hp st' hst] at hs
  cases hs
  exact ⟨rfl, p, hp, hst, hc⟩

theorem Preserves.handlersAre (d : Dep) :
    Preserves M sem True (fun _ => True) (HandlersAre (P := P) (W := W) M d) :=
  Preserves.tables fun _ H => (M.decl M.root).handler.isSome = true → ∀ e ∈ M.events,
    ∀ p ∈ M.composites, ∀ st ∈ M.states, H e (M.comb p st) = some (st, d)

/-- A machine in the middle of a history: `Good`, and the handler table has `d0`. -/
structure Ready (M : Machine) (deps : List Dep) (d0 : Dep) (s : SM P W) : Prop extends
    Good M deps s where
  handlers : HandlersAre M d0 s

theorem RunTo.ready (hM : M.Regular) {d : Dep} {ops : List (Op P)} {s : SM P W}
    (h : RunTo M sem d ops s) : Ready M (depsOf d ops) d s :=
  ⟨h.good hM, (h.tables hM).2⟩

theorem processEvent_ok (hM : M.Regular) {deps : List Dep} {d0 : Dep} {fuel : Nat} {ev : EventTy}
    (hev : ev ∈ M.events) {pl : P} {s s' : SM P W} {b : Bool} (hg : Ready M deps d0 s)
    (h : processEvent M sem fuel ev pl s = .ok b s') : EventRun M sem deps d0 ev pl s b s' := by
  unfold processEvent at h
  obtain ⟨⟨o, p1⟩, s1, h1, h2⟩ := Res.bind_ok.1 h
  obtain ⟨os, s0, ht, hres⟩ := processInternal_ok hM hg.toGood h1
  have hg1 := hg.toGood.processInternal h1
  have hh1 : HandlersAre M d0 s1 := by
    have := (Preserves.handlersAre (M := M) (sem := sem) d0).processInternal fuel ev pl s hg.handlers
    rw [h1] at this
    exact this
  rcases hres with ⟨rfl, rfl, hn⟩ | ⟨ho, rfl, hr, hn⟩ | ⟨rfl, hr⟩
  · obtain ⟨p2, s2, h3, h4⟩ := Res.bind_ok.1 h2
    cases h4
    rcases callHandler_ok h3 with ⟨hno, rfl, rfl⟩ | ⟨hd, c, st, d, w, hsome, hc, hlt, hhs, hcall, rfl⟩
    · exact .ignored ht hn hno
    · obtain ⟨rfl, p, ha⟩ := callHandler_spec hM hev hh1 hsome hc hlt hhs
      exact .unexpected ht hn hsome ha hcall
  · have h2' : b = false ∧ s' = s1 := by
      rcases ho with rfl | rfl <;> (cases h2; exact ⟨rfl, rfl⟩)
    obtain ⟨rfl, rfl⟩ := h2'
    exact .unhandled ht hr hn
  · obtain ⟨_, s2, h3, h4⟩ := Res.bind_ok.1 h2
    cases h4
    unfold processDeferred at h3
    rw [Machine.hasDefer_eq] at h3
    split at h3
    · rename_i hdef
      split at h3
      · rename_i hq
        cases h3
        exact .handled ht hr (Or.inr hq)
      · rename_i e p q hq
        obtain ⟨⟨o', p2⟩, s3, h5, h6⟩ := Res.bind_ok.1 h3
        cases h6
        obtain ⟨os', s4, ht', _⟩ := processInternal_ok hM (hg1.queue q) h5
        exact .replayed ht hr hdef hq ht'
    · rename_i hdef
      cases h3
      exact .handled ht hr (Or.inl (by simpa using hdef))

theorem processEvent_throw (hM : M.Regular) {deps : List Dep} {d0 : Dep} {fuel : Nat}
    {ev : EventTy} (hev : ev ∈ M.events) {pl : P} {s s' : SM P W} {x : Exn}
    (hg : Ready M deps d0 s) (h : processEvent M sem fuel ev pl s = .throw x s') :
    (∃ k, x = .user k ∧ EventThrow M sem deps d0 ev pl s k s') ∨
    (x = .outOfRange ∧ (∃ c, s'.cur[0]? = some (some c) ∧ M.size ≤ c) ∧
      ∃ os pl', Turn M sem deps ev pl s os pl' s' s' ∧ ∀ o ∈ os, o = RegionOut.none) := by
  unfold processEvent at h
  rcases Res.bind_throw.1 h with h | ⟨⟨o, p1⟩, s1, h1, h2⟩
  · obtain ⟨k, hk, ht⟩ := processInternal_throw hM hg.toGood h
    exact Or.inl ⟨k, hk, .main ht⟩
  obtain ⟨os, s0, ht, hres⟩ := processInternal_ok hM hg.toGood h1
  have hg1 := hg.toGood.processInternal h1
  have hh1 : HandlersAre M d0 s1 := by
    have := (Preserves.handlersAre (M := M) (sem := sem) d0).processInternal fuel ev pl s hg.handlers
    rw [h1] at this
    exact this
  rcases hres with ⟨rfl, rfl, hn⟩ | ⟨ho, rfl, hr, hn⟩ | ⟨rfl, hr⟩
  · rcases Res.bind_throw.1 h2 with h3 | ⟨_, _, _, h4⟩
    · rcases callHandler_throw h3 with ⟨rfl, rfl, c, hc, hle⟩ |
        ⟨hd, c, st, d, w, k, p', rfl, hsome, hc, hlt, hhs, hcall, rfl⟩
      · exact Or.inr ⟨rfl, ⟨c, hc, hle⟩, os, p1, ht, hn⟩
      · obtain ⟨rfl, p, ha⟩ := callHandler_spec hM hev hh1 hsome hc hlt hhs
        exact Or.inl ⟨k, rfl, .handler ht hn hsome ha hcall⟩
    · cases h4
  · rcases ho with rfl | rfl <;> cases h2
  · rcases Res.bind_throw.1 h2 with h3 | ⟨_, _, _, h4⟩
    · unfold processDeferred at h3
      rw [Machine.hasDefer_eq] at h3
      split at h3
      · rename_i hdef
        split at h3
        · cases h3
        · rename_i e p q hq
          rcases Res.bind_throw.1 h3 with h5 | ⟨_, _, _, h6⟩
          · obtain ⟨k, hk, ht'⟩ := processInternal_throw hM (hg1.queue q) h5
            exact Or.inl ⟨k, hk, .replay ht hr hdef hq ht'⟩
          · cases h6
      · cases h3
    · cases h4

end
end Hsm

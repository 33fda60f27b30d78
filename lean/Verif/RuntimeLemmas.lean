import Verif.SpecRun
import Verif.TableLemmas

/-! Helper lemmas about the running machine. -/

namespace Hsm

namespace Machine
variable {M : Machine}

theorem foldl_max_le (l : List Nat) (a : Nat) : a ≤ l.foldl max a ∧ ∀ x ∈ l, x ≤ l.foldl max a := by
  induction l generalizing a with
  | nil => simp
  | cons b l ih =>
    rw [List.foldl_cons]
    obtain ⟨h1, h2⟩ := ih (max a b)
    refine ⟨by omega, ?_⟩
    intro x hx
    rcases List.mem_cons.1 hx with rfl | hx
    · omega
    · exact h2 x hx

theorem initials_le_maxInit {p : Name} (hp : p ∈ M.composites) :
    (M.initials p).length ≤ M.maxInit := by
  unfold maxInit
  exact (foldl_max_le _ 0).2 _ (List.mem_map.2 ⟨p, composites_eq ▸ hp, rfl⟩)

theorem parallel_iff : M.parallel = true ↔ ∃ p ∈ M.composites, 1 < (M.declaredInitials p).length := by
  unfold parallel
  rw [decide_eq_true_eq]
  constructor
  · intro h
    apply Classical.byContradiction
    intro hn
    have : ∀ (l : List Name) (a : Nat), a ≤ 1 → (∀ p ∈ l, (M.initials p).length ≤ 1) →
        (l.map fun p => (M.initials p).length).foldl max a ≤ 1 := by
      intro l
      induction l with
      | nil => intro a ha _; exact ha
      | cons x xs ih =>
        intro a ha h
        rw [List.map_cons, List.foldl_cons]
        exact ih _ (Nat.max_le.2 ⟨ha, h x (by simp)⟩) fun p hp => h p (by simp [hp])
    have := this M.composites 0 (by omega) (by
      intro p hp
      rw [← declaredInitials_eq]
      exact Nat.le_of_not_lt fun h => hn ⟨p, hp, h⟩)
    unfold maxInit at h
    rw [← composites_eq] at h
    omega
  · rintro ⟨p, hp, h⟩
    rw [declaredInitials_eq] at h
    exact Nat.lt_of_lt_of_le h (initials_le_maxInit hp)

/-! The model's traits are those of the specification. -/

theorem parallel_eq : M.parallel = M.orthogonal := by
  rw [Bool.eq_iff_iff, parallel_iff]
  simp [orthogonal]

theorem orthogonal_iff : M.orthogonal = true ↔
    ∃ p ∈ M.composites, 1 < (M.declaredInitials p).length := by
  simp [orthogonal]

theorem hasAnon_eq : M.hasAnon = M.anonymous := by
  rw [Bool.eq_iff_iff]
  simp [hasAnon, anonymous_def]

theorem anonymous_iff : M.anonymous = true ↔ ∃ t ∈ M.flat, t.event = .none := by
  simp [anonymous_def]

theorem hasHistory_eq : M.hasHistory = M.historic := by
  unfold hasHistory historic; rw [extRows_eq]
  congr 1

theorem historic_iff : M.historic = true ↔
    ∃ t ∈ M.flat, ∃ o q, t.target = .ps o (.history q) := by
  unfold historic; rw [extRows_eq]
  rw [List.any_eq_true]
  constructor
  · rintro ⟨t, ht, h⟩
    refine ⟨t, ht, ?_⟩
    split at h
    · exact ⟨_, _, by assumption⟩
    · cases h
  · rintro ⟨t, ht, o, q, h⟩
    exact ⟨t, ht, by rw [h]⟩

theorem hasDefer_eq : M.hasDefer = M.deferring := by
  unfold hasDefer deferringRows deferring; rw [extRows_eq]
  rw [Bool.eq_iff_iff]
  simp only [Bool.not_eq_true', List.isEmpty_eq_false_iff, ne_eq, List.filter_eq_nil_iff,
    List.any_eq_true]
  constructor
  · intro h
    apply Classical.byContradiction
    intro hn
    apply h
    intro t ht hd
    apply hn
    refine ⟨t, ht, ?_⟩
    revert hd
    unfold deferOf stripInitial
    split <;> split <;> simp_all
  · rintro ⟨t, ht, h⟩ hn
    apply hn t ht
    revert h
    unfold deferOf stripInitial
    split <;> split <;> simp_all

end Machine

theorem OpOk.event {P : Type} {M : Machine} {ev : EventTy} {p : P}
    (h : OpOk M (.process ev p)) : ev ∈ M.events := Machine.events_eq ▸ h

theorem OpOk.place {P : Type} {M : Machine} {r : Nat} {p : Name} {st : StTy}
    (h : OpOk (P := P) M (.set r p st)) : p ∈ M.composites ∧ st ∈ M.states := by
  rw [Machine.composites_eq, Machine.states_eq]; exact h

theorem opOk_event {P : Type} {M : Machine} {ev : EventTy} {p : P}
    (h : ev ∈ M.events) : OpOk M (.process ev p) := by
  rw [Machine.events_eq] at h; exact h

theorem opOk_place {P : Type} {M : Machine} {r : Nat} {p : Name} {st : StTy}
    (h : p ∈ M.composites ∧ st ∈ M.states) : OpOk (P := P) M (.set r p st) := by
  rw [Machine.composites_eq, Machine.states_eq] at h; exact h

theorem currentRegions_eq {P W : Type} {M : Machine} (s : SM P W) :
    currentRegions M s = activeRegions M s := by
  unfold currentRegions activeRegions
  rw [Machine.parallel_eq]

namespace Res
variable {σ α β : Type} {U : Prop}

theorem Sat.mono {Q Q' : α → σ → Prop} {X X' : Exn → σ → Prop} {r : Res σ α}
    (h : r.Sat U Q X) (hQ : ∀ a s, Q a s → Q' a s) (hX : ∀ x s, X x s → X' x s) :
    r.Sat U Q' X' := by
  cases r with
  | ok a s => exact hQ a s h
  | throw x s => exact hX x s h
  | ub u => exact h
  | timeout => trivial

theorem Sat.bind {Q : α → σ → Prop} {Q' : β → σ → Prop} {X : Exn → σ → Prop} {r : Res σ α}
    {f : α → σ → Res σ β} (h : r.Sat U Q X) (hf : ∀ a s, Q a s → (f a s).Sat U Q' X) :
    (r.bind f).Sat U Q' X := by
  cases r with
  | ok a s => exact hf a s h
  | throw x s => exact h
  | ub u => exact h
  | timeout => trivial

/-- `bind` with access to the equation. -/
theorem Sat.bind' {Q' : β → σ → Prop} {X : Exn → σ → Prop} {r : Res σ α}
    {f : α → σ → Res σ β} (hok : ∀ a s, r = .ok a s → (f a s).Sat U Q' X)
    (hth : ∀ x s, r = .throw x s → X x s) (hub : ∀ u, r = .ub u → U) :
    (r.bind f).Sat U Q' X := by
  cases r with
  | ok a s => exact hok a s rfl
  | throw x s => exact hth x s rfl
  | ub u => exact hub u rfl
  | timeout => trivial

theorem sat_of_true {Q : α → σ → Prop} {X : Exn → σ → Prop} {r : Res σ α}
    (h1 : ∀ a s, r = .ok a s → Q a s) (h2 : ∀ x s, r = .throw x s → X x s) : r.Sat True Q X := by
  cases r with
  | ok a s => exact h1 a s rfl
  | throw x s => exact h2 x s rfl
  | ub u => trivial
  | timeout => trivial

theorem bind_ok {r : Res σ α} {f : α → σ → Res σ β} {b : β} {s' : σ} :
    r.bind f = .ok b s' ↔ ∃ a s, r = .ok a s ∧ f a s = .ok b s' := by
  cases r with
  | ok a s =>
    constructor
    · intro h; exact ⟨a, s, rfl, h⟩
    · rintro ⟨_, _, h1, h2⟩; cases h1; exact h2
  | throw x s => simp [Res.bind]
  | ub u => simp [Res.bind]
  | timeout => simp [Res.bind]

theorem bind_throw {r : Res σ α} {f : α → σ → Res σ β} {x : Exn} {s' : σ} :
    r.bind f = .throw x s' ↔ r = .throw x s' ∨ ∃ a s, r = .ok a s ∧ f a s = .throw x s' := by
  cases r with
  | ok a s =>
    constructor
    · intro h; exact Or.inr ⟨a, s, rfl, h⟩
    · rintro (h | ⟨_, _, h1, h2⟩)
      · cases h
      · cases h1; exact h2
  | throw x s => simp [Res.bind]
  | ub u => simp [Res.bind]
  | timeout => simp [Res.bind]

theorem bind_assoc {γ : Type} (r : Res σ α) (f : α → σ → Res σ β) (g : β → σ → Res σ γ) :
    (r.bind f).bind g = r.bind fun a s => (f a s).bind g := by
  cases r <;> rfl

end Res

section
variable {P W : Type} {M : Machine} {sem : Sem P W}

/-! ## Reading and writing locations -/

theorem readCur_ok {r c : Nat} {s s' : SM P W} :
    readCur r s = .ok c s' ↔ s' = s ∧ s.cur[r]? = some (some c) := by
  unfold readCur
  split <;> rename_i h <;> simp only [h]
  · simp
  · simp
  · constructor
    · intro e; cases e; exact ⟨rfl, rfl⟩
    · rintro ⟨rfl, e⟩; simp at e; rw [e]

theorem readCur_throw {r : Nat} {s s' : SM P W} {x : Exn} : readCur r s ≠ .throw x s' := by
  unfold readCur
  split <;> simp

theorem currentParent_ok {c : Nat} {s s' : SM P W} :
    currentParent M s = .ok c s' ↔
      s' = s ∧ ∃ k, s.cur[0]? = some (some k) ∧ c = k / M.nStates := by
  unfold currentParent
  rw [Res.bind_ok]
  constructor
  · rintro ⟨k, t, h1, h2⟩
    obtain ⟨rfl, h3⟩ := readCur_ok.1 h1
    cases h2
    exact ⟨rfl, k, h3, rfl⟩
  · rintro ⟨rfl, k, h1, rfl⟩
    exact ⟨k, s', readCur_ok.2 ⟨rfl, h1⟩, rfl⟩

theorem currentParent_throw {s s' : SM P W} {x : Exn} : currentParent M s ≠ .throw x s' := by
  unfold currentParent
  intro h
  rcases Res.bind_throw.1 h with h | ⟨_, _, _, h⟩
  · exact readCur_throw h
  · cases h

theorem updateRegions_ok {u : Unit} {s s' : SM P W} :
    updateRegions M s = .ok u s' ↔
      (M.orthogonal = false ∧ s' = s) ∨
      (M.orthogonal = true ∧ ∃ k l, s.cur[0]? = some (some k) ∧
        s.initial[k / M.nStates]? = some l ∧ s' = { s with regions := l.length }) := by
  unfold updateRegions
  rw [Machine.parallel_eq]
  cases hp : M.orthogonal with
  | false => simp [eq_comm]
  | true =>
    simp only [if_true, Res.bind_ok, currentParent_ok]
    constructor
    · rintro ⟨c, t, ⟨rfl, k, h1, rfl⟩, h2⟩
      cases hl : t.initial[k / M.nStates]? with
      | none => simp [hl] at h2
      | some l =>
        simp only [hl] at h2
        cases h2
        exact Or.inr ⟨trivial, k, l, h1, hl, rfl⟩
    · rintro (⟨h, _⟩ | ⟨_, k, l, h1, h2, rfl⟩)
      · cases h
      · exact ⟨_, s, ⟨rfl, k, h1, rfl⟩, by simp [h2]⟩

theorem updateRegions_throw {s s' : SM P W} {x : Exn} : updateRegions M s ≠ .throw x s' := by
  unfold updateRegions
  rw [Machine.parallel_eq]
  split
  · intro h
    rcases Res.bind_throw.1 h with h | ⟨a, t, _, h⟩
    · exact currentParent_throw h
    · split at h <;> cases h
  · intro h; cases h

theorem writeCur_ok {r c : Nat} {u : Unit} {s s' : SM P W} :
    writeCur r c s = .ok u s' ↔
      r < s.cur.length ∧ s' = { s with cur := s.cur.set r (some c) } := by
  unfold writeCur
  split
  · rename_i h; simp [h, eq_comm]
  · rename_i h; simp [h]

theorem writeCur_throw {r c : Nat} {s s' : SM P W} {x : Exn} : writeCur r c s ≠ .throw x s' := by
  unfold writeCur
  split <;> simp

theorem saveHistory_ok {r : Nat} {u : Unit} {s s' : SM P W} :
    saveHistory M r s = .ok u s' ↔
      ∃ k c l, s.cur[0]? = some (some k) ∧ s.cur[r]? = some (some c) ∧
        s.hist[k / M.nStates]? = some l ∧ r < l.length ∧
        s' = { s with hist := s.hist.set (k / M.nStates) (l.set r c) } := by
  unfold saveHistory
  simp only [Res.bind_ok, currentParent_ok, readCur_ok]
  constructor
  · rintro ⟨_, _, ⟨rfl, k, h1, rfl⟩, c, t, ⟨rfl, h2⟩, h3⟩
    cases hl : t.hist[k / M.nStates]? with
    | none => simp [hl] at h3
    | some l =>
      simp only [hl] at h3
      split at h3
      · rename_i hr
        cases h3
        exact ⟨k, c, l, h1, h2, hl, hr, rfl⟩
      · cases h3
  · rintro ⟨k, c, l, h1, h2, h3, h4, rfl⟩
    exact ⟨_, s, ⟨rfl, k, h1, rfl⟩, c, s, ⟨rfl, h2⟩, by simp [h3, h4]⟩

theorem saveHistory_throw {r : Nat} {s s' : SM P W} {x : Exn} :
    saveHistory M r s ≠ .throw x s' := by
  unfold saveHistory
  intro h
  rcases Res.bind_throw.1 h with h | ⟨_, _, _, h⟩
  · exact currentParent_throw h
  · rcases Res.bind_throw.1 h with h | ⟨_, _, _, h⟩
    · exact readCur_throw h
    · split at h
      · cases h
      · split at h <;> cases h

theorem readHistory_ok {p r c : Nat} {s s' : SM P W} :
    readHistory p r s = .ok c s' ↔ s' = s ∧ ∃ l, s.hist[p]? = some l ∧ l[r]? = some c := by
  unfold readHistory
  cases hl : s.hist[p]? with
  | none => simp
  | some l =>
    simp only []
    cases hc : l[r]? with
    | none => simp [hc]
    | some c' => simp [hc, eq_comm, and_comm]

theorem readHistory_throw {p r : Nat} {s s' : SM P W} {x : Exn} :
    readHistory p r s ≠ .throw x s' := by
  unfold readHistory
  split
  · simp
  · split <;> simp

/-- What firing an external entry does to locations and history, in terms of slots. -/
structure Moved (M : Machine) (r : Nat) (e : Entry) (s s' : SM P W) : Prop where
  ext : e.internal = false
  hr : r < s.cur.length
  /-- destination slot -/
  dest : ∃ c, s'.cur = s.cur.set r (some c) ∧
    ((M.historic && e.history) = false → c = e.to) ∧
    ((M.historic && e.history) = true →
      ∃ l, s'.hist[e.to / M.nStates]? = some l ∧ l[r]? = some c)
  /-- history -/
  hist : (M.historic = false ∧ s'.hist = s.hist) ∨
    (M.historic = true ∧ ∃ k c l, s.cur[0]? = some (some k) ∧ s.cur[r]? = some (some c) ∧
      s.hist[k / M.nStates]? = some l ∧ r < l.length ∧
      s'.hist = s.hist.set (k / M.nStates) (l.set r c))
  /-- number of regions -/
  regions : (M.orthogonal = false ∧ s'.regions = s.regions) ∨
    (M.orthogonal = true ∧ ∃ k l, s'.cur[0]? = some (some k) ∧
      s.initial[k / M.nStates]? = some l ∧ s'.regions = l.length)
  initial : s'.initial = s.initial
  queue : s'.queue = s.queue
  table : s'.table = s.table
  handlers : s'.handlers = s.handlers
  world : s'.world = s.world
  trace : s'.trace = s.trace
  log : s'.log = s.log ++ [⟨r, s.cur, s'.cur, s.trace.length⟩]

theorem updateState_ok {r : Nat} {e : Entry} {s s' : SM P W} (h : updateState M r e s = .ok () s') :
    (e.internal = true ∧ s' = s) ∨ Moved M r e s s' := by
  unfold updateState at h
  cases hi : e.internal with
  | true =>
    simp only [hi, if_true] at h
    cases h
    exact Or.inl ⟨rfl, rfl⟩
  | false =>
    right
    simp only [hi, Bool.false_eq_true, if_false] at h
    simp only [Res.bind_ok] at h
    obtain ⟨⟨⟩, s0, h, hlog⟩ := h
    cases hlog
    unfold moveState at h
    rw [Machine.hasHistory_eq] at h
    cases hh : M.historic with
    | false =>
      simp only [hh, Bool.false_eq_true, if_false, Res.bind_ok, writeCur_ok] at h
      obtain ⟨_, s1, ⟨hr, rfl⟩, h⟩ := h
      rcases updateRegions_ok.1 h with ⟨hp, rfl⟩ | ⟨hp, k, l, h1, h2, rfl⟩
      · exact ⟨hi, hr, ⟨e.to, rfl, fun _ => rfl, fun h => by simp [hh] at h⟩, Or.inl ⟨hh, rfl⟩,
          Or.inl ⟨hp, rfl⟩, rfl, rfl, rfl, rfl, rfl, rfl, rfl⟩
      · exact ⟨hi, hr, ⟨e.to, rfl, fun _ => rfl, fun h => by simp [hh] at h⟩, Or.inl ⟨hh, rfl⟩,
          Or.inr ⟨hp, k, l, h1, h2, rfl⟩, rfl, rfl, rfl, rfl, rfl, rfl, rfl⟩
    | true =>
      simp only [hh, if_true, Res.bind_ok, saveHistory_ok] at h
      obtain ⟨_, s1, ⟨k0, c0, l0, a1, a2, a3, a4, rfl⟩, _, s2, h2, h3⟩ := h
      have hw : ∃ c, r < s.cur.length ∧
          s2 = { s with hist := s.hist.set (k0 / M.nStates) (l0.set r c0),
                        cur := s.cur.set r (some c) } ∧
          (e.history = false → c = e.to) ∧
          (e.history = true → ∃ l, (s.hist.set (k0 / M.nStates) (l0.set r c0))[e.to / M.nStates]?
            = some l ∧ l[r]? = some c) := by
        cases hhist : e.history with
        | false =>
          simp only [hhist, Bool.false_eq_true, if_false, writeCur_ok] at h2
          obtain ⟨hr, rfl⟩ := h2
          exact ⟨e.to, hr, rfl, fun _ => rfl, fun h => by simp at h⟩
        | true =>
          simp only [hhist, if_true, Res.bind_ok, readHistory_ok, writeCur_ok] at h2
          obtain ⟨c, s3, ⟨rfl, l, b1, b2⟩, hr, rfl⟩ := h2
          exact ⟨c, hr, rfl, fun h => by simp at h, fun _ => ⟨l, b1, b2⟩⟩
      obtain ⟨c, hr, rfl, hc1, hc2⟩ := hw
      have hdest : ∀ s'' : SM P W, s''.cur = s.cur.set r (some c) →
          s''.hist = s.hist.set (k0 / M.nStates) (l0.set r c0) →
          ∃ c, s''.cur = s.cur.set r (some c) ∧
          ((M.historic && e.history) = false → c = e.to) ∧
          ((M.historic && e.history) = true →
            ∃ l, s''.hist[e.to / M.nStates]? = some l ∧ l[r]? = some c) := by
        intro s'' e1 e2
        refine ⟨c, e1, ?_, ?_⟩
        · intro h; rw [hh] at h; exact hc1 (by simpa using h)
        · intro h; rw [hh] at h; rw [e2]; exact hc2 (by simpa using h)
      rcases updateRegions_ok.1 h3 with ⟨hp, rfl⟩ | ⟨hp, k, l, h1, h2, rfl⟩
      · exact ⟨hi, hr, hdest _ rfl rfl, Or.inr ⟨hh, k0, c0, l0, a1, a2, a3, a4, rfl⟩,
          Or.inl ⟨hp, rfl⟩, rfl, rfl, rfl, rfl, rfl, rfl, rfl⟩
      · exact ⟨hi, hr, hdest _ rfl rfl, Or.inr ⟨hh, k0, c0, l0, a1, a2, a3, a4, rfl⟩,
          Or.inr ⟨hp, k, l, h1, h2, rfl⟩, rfl, rfl, rfl, rfl, rfl, rfl, rfl⟩

theorem moveState_throw {r : Nat} {e : Entry} {s s' : SM P W} {x : Exn} :
    moveState M r e s ≠ .throw x s' := by
  unfold moveState
  split
  · intro h
    rcases Res.bind_throw.1 h with h | ⟨_, t, _, h⟩
    · exact saveHistory_throw h
    · rcases Res.bind_throw.1 h with h | ⟨_, t, _, h⟩
      · split at h
        · rcases Res.bind_throw.1 h with h | ⟨_, t, _, h⟩
          · exact readHistory_throw h
          · exact writeCur_throw h
        · exact writeCur_throw h
      · exact updateRegions_throw h
  · intro h
    rcases Res.bind_throw.1 h with h | ⟨_, t, _, h⟩
    · exact writeCur_throw h
    · exact updateRegions_throw h

theorem updateState_throw {r : Nat} {e : Entry} {s s' : SM P W} {x : Exn} :
    updateState M r e s ≠ .throw x s' := by
  unfold updateState
  split
  · simp
  · intro h
    rcases Res.bind_throw.1 h with h | ⟨_, _, _, h⟩
    · exact moveState_throw h
    · cases h

/-! ## Callbacks -/

theorem ran_nil (s : SM P W) : s.ran s.world [] = s := by
  unfold SM.ran; simp

theorem ran_ran (s : SM P W) (w w' : W) (tr tr' : List (Call P)) :
    (s.ran w tr).ran w' tr' = s.ran w' (tr ++ tr') := by
  unfold SM.ran; simp

theorem execGuard_some {x : Exec} {g : Cb} (hg : x.guard = some g) (ev : EventTy) (p : P)
    (s : SM P W) : execGuard M sem x ev p s =
      if objOk M sem (guardArgs x ev).src s && objOk M sem (guardArgs x ev).dst s then
        match sem.guard g (guardArgs x ev) p s.world with
        | .ok b p' w' => .ok (b, p') (s.ran w' [.guard g (guardArgs x ev) p (some b) s.cur])
        | .throw n _ w' => .throw (.user n) (s.ran w' [.guard g (guardArgs x ev) p none s.cur])
        | .ub => .ub .callback
      else .ub .nullObject := by
  unfold execGuard
  rw [hg]
  rfl

theorem execGuard_none {x : Exec} (hg : x.guard = none) (ev : EventTy) (p : P)
    (s : SM P W) : execGuard M sem x ev p s = .ok (true, p) s := by
  unfold execGuard
  rw [hg]

theorem execGuard_ok_true {x : Exec} {ev : EventTy} {p p' : P} {s s' : SM P W}
    (h : execGuard M sem x ev p s = .ok (true, p') s') :
    ∃ tr w, TrueGuard sem s.cur ev x p s.world tr p' w ∧ s' = s.ran w tr := by
  cases hg : x.guard with
  | none =>
    rw [execGuard_none hg] at h
    cases h
    exact ⟨[], s.world, .absent hg, (ran_nil s).symm⟩
  | some g =>
    rw [execGuard_some hg] at h
    split at h
    · split at h
      · rename_i b p1 w1 hc
        cases h
        exact ⟨_, _, .called hg hc, rfl⟩
      · cases h
      · cases h
    · cases h

theorem execGuard_ok_false {x : Exec} {ev : EventTy} {p p' : P} {s s' : SM P W}
    (h : execGuard M sem x ev p s = .ok (false, p') s') :
    ∃ g w, x.guard = some g ∧ sem.guard g (guardArgs x ev) p s.world = .ok false p' w ∧
      s' = s.ran w [.guard g (guardArgs x ev) p (some false) s.cur] := by
  cases hg : x.guard with
  | none =>
    rw [execGuard_none hg] at h
    cases h
  | some g =>
    rw [execGuard_some hg] at h
    split at h
    · split at h
      · rename_i b p1 w1 hc
        cases h
        exact ⟨g, _, rfl, hc, rfl⟩
      · cases h
      · cases h
    · cases h

theorem execGuard_throw {x : Exec} {ev : EventTy} {p : P} {s s' : SM P W} {n : Exn}
    (h : execGuard M sem x ev p s = .throw n s') :
    ∃ g k p' w, n = .user k ∧ x.guard = some g ∧
      sem.guard g (guardArgs x ev) p s.world = .throw k p' w ∧
      s' = s.ran w [.guard g (guardArgs x ev) p none s.cur] := by
  cases hg : x.guard with
  | none =>
    rw [execGuard_none hg] at h
    cases h
  | some g =>
    rw [execGuard_some hg] at h
    split at h
    · split at h
      · cases h
      · rename_i k p1 w1 hc
        cases h
        exact ⟨g, k, p1, _, rfl, rfl, hc, rfl⟩
      · cases h
    · cases h

theorem runCbs_ok {args : Args} {cs : List (Phase × Cb)} {p p' : P} {s s' : SM P W}
    (h : runCbs sem args cs p s = .ok p' s') :
    ∃ tr w, ActRun sem s.cur args cs p s.world tr p' w ∧ s' = s.ran w tr := by
  induction cs generalizing p s with
  | nil =>
    unfold runCbs at h
    cases h
    exact ⟨[], s'.world, .nil _ _, (ran_nil s').symm⟩
  | cons c cs ih =>
    obtain ⟨ph, a⟩ := c
    unfold runCbs at h
    split at h
    · rename_i u p1 w1 hc
      obtain ⟨tr, w, h1, h2⟩ := ih h
      refine ⟨_, w, .cons hc h1, ?_⟩
      rw [h2]
      unfold SM.ran
      simp
    · cases h
    · cases h

theorem runCbs_throw {args : Args} {cs : List (Phase × Cb)} {p : P} {s s' : SM P W} {n : Exn}
    (h : runCbs sem args cs p s = .throw n s') :
    ∃ tr k w, n = .user k ∧ ActThrow sem s.cur args cs p s.world tr k w ∧ s' = s.ran w tr := by
  induction cs generalizing p s with
  | nil =>
    unfold runCbs at h
    cases h
  | cons c cs ih =>
    obtain ⟨ph, a⟩ := c
    unfold runCbs at h
    split at h
    · rename_i u p1 w1 hc
      obtain ⟨tr, k, w, h0, h1, h2⟩ := ih h
      refine ⟨_, k, w, h0, .later hc h1, ?_⟩
      rw [h2]
      unfold SM.ran
      simp
    · rename_i k p1 w1 hc
      cases h
      exact ⟨_, k, w1, rfl, .here hc, rfl⟩
    · cases h

theorem execAction_ok {x : Exec} {ev : EventTy} {p p' : P} {s s' : SM P W}
    (h : execAction M sem x ev p s = .ok p' s') :
    ∃ tr w, ActRun sem s.cur (actionArgs M x ev) x.cbs p s.world tr p' w ∧ s' = s.ran w tr := by
  unfold execAction at h
  unfold Exec.cbs
  cases ha : x.action with
  | none =>
    simp only [ha] at h
    cases h
    exact ⟨[], s.world, .nil _ _, (ran_nil s).symm⟩
  | some cs =>
    simp only [ha] at h
    split at h
    · exact runCbs_ok h
    · cases h

theorem execAction_throw {x : Exec} {ev : EventTy} {p : P} {s s' : SM P W} {n : Exn}
    (h : execAction M sem x ev p s = .throw n s') :
    ∃ tr k w, n = .user k ∧ ActThrow sem s.cur (actionArgs M x ev) x.cbs p s.world tr k w ∧
      s' = s.ran w tr := by
  unfold execAction at h
  unfold Exec.cbs
  cases ha : x.action with
  | none =>
    simp only [ha] at h
    cases h
  | some cs =>
    simp only [ha] at h
    split at h
    · exact runCbs_throw h
    · cases h

theorem fire_ok {r : Nat} {ev : EventTy} {e : Entry} {x : Exec} {p p' : P} {s s' : SM P W}
    (h : fire M sem r ev e x p s = .ok p' s') :
    ∃ s1 tr w, updateState M r e s = .ok () s1 ∧
      ActRun sem s1.cur (actionArgs M x ev) x.cbs p s.world tr p' w ∧ s' = s1.ran w tr := by
  unfold fire at h
  obtain ⟨_, s1, h1, h2⟩ := Res.bind_ok.1 h
  obtain ⟨tr, w, h3, h4⟩ := execAction_ok h2
  have hw : s1.world = s.world := by
    rcases updateState_ok h1 with ⟨_, rfl⟩ | hm
    · rfl
    · exact hm.world
  exact ⟨s1, tr, w, h1, hw ▸ h3, h4⟩

theorem fire_throw {r : Nat} {ev : EventTy} {e : Entry} {x : Exec} {p : P} {s s' : SM P W}
    {n : Exn} (h : fire M sem r ev e x p s = .throw n s') :
    ∃ s1 tr k w, n = .user k ∧ updateState M r e s = .ok () s1 ∧
      ActThrow sem s1.cur (actionArgs M x ev) x.cbs p s.world tr k w ∧ s' = s1.ran w tr := by
  unfold fire at h
  rcases Res.bind_throw.1 h with h | ⟨_, s1, h1, h2⟩
  · exact absurd h updateState_throw
  · obtain ⟨tr, k, w, h0, h3, h4⟩ := execAction_throw h2
    have hw : s1.world = s.world := by
      rcases updateState_ok h1 with ⟨_, rfl⟩ | hm
      · rfl
      · exact hm.world
    exact ⟨s1, tr, k, w, h0, h1, hw ▸ h3, h4⟩

/-! ## One region -/

theorem lookup_ok {ev : EventTy} {r : Nat} {s s' : SM P W} {es : List Entry} :
    lookup M ev r s = .ok es s' ↔
      s' = s ∧ ∃ c, s.cur[r]? = some (some c) ∧ c < M.size ∧ es = s.table ev c := by
  unfold lookup
  simp only [Res.bind_ok, readCur_ok]
  constructor
  · rintro ⟨c, t, ⟨rfl, h1⟩, h2⟩
    split at h2
    · rename_i hc
      cases h2
      exact ⟨rfl, c, h1, hc, rfl⟩
    · cases h2
  · rintro ⟨rfl, c, h1, hc, rfl⟩
    exact ⟨c, _, ⟨rfl, h1⟩, by simp [hc]⟩

theorem lookup_throw {ev : EventTy} {r : Nat} {s s' : SM P W} {x : Exn} :
    lookup M ev r s ≠ .throw x s' := by
  unfold lookup
  intro h
  rcases Res.bind_throw.1 h with h | ⟨_, _, _, h⟩
  · exact readCur_throw h
  · split at h <;> cases h

/-- How the candidates `es` were tried in region `r` when the call returned. -/
inductive Tried (M : Machine) (sem : Sem P W) (r : Nat) (ev : EventTy) (es : List Entry) (p : P)
    (s : SM P W) : RegionOut → P → SM P W → Prop
  | rejected {p' : P} {tr : List (Call P)} {w : W} (hf : FalseRun sem s.cur ev es p s.world tr p' w) :
      Tried M sem r ev es p s .rejected p' (s.ran w tr)
  | deferred {pre post : List Entry} {e : Entry} {p' : P} {tr : List (Call P)} {w : W}
      (hes : es = pre ++ e :: post) (hf : FalseRun sem s.cur ev pre p s.world tr p' w)
      (hd : e.defer = true) :
      Tried M sem r ev es p s .deferred p'
        { s.ran w tr with queue := s.queue ++ [(ev, p')] }
  | fired {pre post : List Entry} {e : Entry} {x : Exec} {p1 p2 p' : P}
      {tr1 tr2 tr3 : List (Call P)} {w1 w2 w3 : W} {s1 : SM P W}
      (hes : es = pre ++ e :: post) (hf : FalseRun sem s.cur ev pre p s.world tr1 p1 w1)
      (hd : e.defer = false) (hx : e.tr = some x)
      (hg : TrueGuard sem s.cur ev x p1 w1 tr2 p2 w2)
      (hu : updateState M r e (s.ran w2 (tr1 ++ tr2)) = .ok () s1)
      (ha : ActRun sem s1.cur (actionArgs M x ev) x.cbs p2 w2 tr3 p' w3) :
      Tried M sem r ev es p s .fired p' (s1.ran w3 tr3)

theorem tryEntries_ok {r : Nat} {ev : EventTy} {es : List Entry} {p p' : P} {s s' : SM P W}
    {o : RegionOut} (h : tryEntries M sem r ev es p s = .ok (o, p') s') :
    Tried M sem r ev es p s o p' s' := by
  induction es generalizing p s with
  | nil =>
    unfold tryEntries at h
    cases h
    have := Tried.rejected (M := M) (sem := sem) (r := r) (ev := ev) (s := s') (p := p')
      (FalseRun.nil p' s'.world)
    rwa [ran_nil] at this
  | cons e es ih =>
    unfold tryEntries at h
    split at h
    · rename_i hd
      cases h
      have := Tried.deferred (M := M) (sem := sem) (r := r) (ev := ev) (s := s) (p := p')
        (es := e :: es) (pre := []) rfl (FalseRun.nil p' s.world) hd
      rwa [ran_nil] at this
    · rename_i hd
      have hd : e.defer = false := by simpa using hd
      split at h
      · cases h
      · rename_i x hx
        obtain ⟨⟨b, p1⟩, s1, hg, h⟩ := Res.bind_ok.1 h
        cases b with
        | true =>
          simp only [if_true] at h
          obtain ⟨p2, s2, hf, h⟩ := Res.bind_ok.1 h
          cases h
          obtain ⟨tr, w, hg', rfl⟩ := execGuard_ok_true hg
          obtain ⟨s3, tr3, w3, hu, ha, rfl⟩ := fire_ok hf
          exact .fired (pre := []) (tr1 := []) rfl (FalseRun.nil p s.world) hd hx hg' hu ha
        | false =>
          simp only [Bool.false_eq_true, if_false] at h
          obtain ⟨g, w, hgd, hc, rfl⟩ := execGuard_ok_false hg
          have ih' := ih h
          cases ih' with
          | rejected hf =>
            rw [ran_ran]
            exact .rejected (.cons hd hx hgd hc hf)
          | deferred hes hf hd' =>
            subst hes
            rename_i pre post e' tr' w' _
            have := Tried.deferred (M := M) (sem := sem) (r := r) (ev := ev) (s := s) (p := p)
              (es := e :: (pre ++ e' :: post)) (post := post)
              (List.cons_append (a := e)).symm (FalseRun.cons hd hx hgd hc hf) hd'
            rw [ran_ran]
            exact this
          | fired hes hf hd' hx' hg' hu ha =>
            subst hes
            rw [ran_ran] at hu
            exact Tried.fired (M := M) (sem := sem) (r := r) (ev := ev) (s := s) (p := p)
              (List.cons_append (a := e)).symm (FalseRun.cons hd hx hgd hc hf) hd' hx' hg'
              (by simpa using hu) ha

/-- How trying the candidates `es` ended when an exception left the call. -/
inductive TriedThrow (M : Machine) (sem : Sem P W) (r : Nat) (ev : EventTy) (es : List Entry)
    (p : P) (s : SM P W) : Nat → SM P W → Prop
  | guard {pre post : List Entry} {e : Entry} {x : Exec} {g : Cb} {p1 p2 : P}
      {tr : List (Call P)} {w1 w2 : W} {k : Nat}
      (hes : es = pre ++ e :: post) (hf : FalseRun sem s.cur ev pre p s.world tr p1 w1)
      (hd : e.defer = false) (hx : e.tr = some x) (hg : x.guard = some g)
      (hc : sem.guard g (guardArgs x ev) p1 w1 = .throw k p2 w2) :
      TriedThrow M sem r ev es p s k (s.ran w2 (tr ++ [.guard g (guardArgs x ev) p1 none s.cur]))
  | action {pre post : List Entry} {e : Entry} {x : Exec} {p1 p2 : P}
      {tr1 tr2 tr3 : List (Call P)} {w1 w2 w3 : W} {s1 : SM P W} {k : Nat}
      (hes : es = pre ++ e :: post) (hf : FalseRun sem s.cur ev pre p s.world tr1 p1 w1)
      (hd : e.defer = false) (hx : e.tr = some x)
      (hg : TrueGuard sem s.cur ev x p1 w1 tr2 p2 w2)
      (hu : updateState M r e (s.ran w2 (tr1 ++ tr2)) = .ok () s1)
      (ha : ActThrow sem s1.cur (actionArgs M x ev) x.cbs p2 w2 tr3 k w3) :
      TriedThrow M sem r ev es p s k (s1.ran w3 tr3)

theorem tryEntries_throw {r : Nat} {ev : EventTy} {es : List Entry} {p : P} {s s' : SM P W}
    {n : Exn} (h : tryEntries M sem r ev es p s = .throw n s') :
    ∃ k, n = .user k ∧ TriedThrow M sem r ev es p s k s' := by
  induction es generalizing p s with
  | nil =>
    unfold tryEntries at h
    cases h
  | cons e es ih =>
    unfold tryEntries at h
    split at h
    · cases h
    · rename_i hd
      have hd : e.defer = false := by simpa using hd
      split at h
      · cases h
      · rename_i x hx
        rcases Res.bind_throw.1 h with h | ⟨⟨b, p1⟩, s1, hg, h⟩
        · obtain ⟨g, k, p', w, rfl, hg, hc, rfl⟩ := execGuard_throw h
          exact ⟨k, rfl, .guard (pre := []) (tr := []) rfl (FalseRun.nil p s.world) hd hx hg hc⟩
        · cases b with
          | true =>
            simp only [if_true] at h
            obtain ⟨tr, w, hg', rfl⟩ := execGuard_ok_true hg
            rcases Res.bind_throw.1 h with h | ⟨_, _, _, h⟩
            · obtain ⟨s3, tr3, k, w3, rfl, hu, ha, rfl⟩ := fire_throw h
              exact ⟨k, rfl,
                .action (pre := []) (tr1 := []) rfl (FalseRun.nil p s.world) hd hx hg' hu ha⟩
            · cases h
          | false =>
            simp only [Bool.false_eq_true, if_false] at h
            obtain ⟨g, w, hgd, hc, rfl⟩ := execGuard_ok_false hg
            obtain ⟨k, rfl, ih'⟩ := ih h
            refine ⟨k, rfl, ?_⟩
            cases ih' with
            | guard hes hf hd' hx' hg' hc' =>
              subst hes
              rw [ran_ran]
              rename_i pre post e' x' g' p1' p2' tr' w1' w2' _
              have := TriedThrow.guard (M := M) (sem := sem) (r := r) (ev := ev) (s := s) (p := p)
                (es := e :: (pre ++ e' :: post)) (post := post)
                (List.cons_append (a := e)).symm (FalseRun.cons hd hx hgd hc hf) hd' hx' hg' hc'
              simpa [SM.ran] using this
            | action hes hf hd' hx' hg' hu ha =>
              subst hes
              rw [ran_ran] at hu
              exact TriedThrow.action (M := M) (sem := sem) (r := r) (ev := ev) (s := s) (p := p)
                (List.cons_append (a := e)).symm (FalseRun.cons hd hx hgd hc hf) hd' hx' hg'
                (by simpa using hu) ha

end
end Hsm

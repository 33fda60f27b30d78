import Verif.Ledger
import Verif.PropsGenAll

/-!
# Every callback and every move under the amalgamated header is accounted for (C93)
-/

namespace Hsm

section
variable {P W : Type} {M : Machine} {sem : Sem P W}

/-! ## Memory -/

theorem Recalled.snoc_same {xs : List (Nat × Places)} {x : Nat × Places} {q : Name} {r : Nat}
    {l : Name × StTy} (h : LeftIn q r x l) : Recalled M (xs ++ [x]) q r l :=
  Or.inl ⟨xs, x, [], rfl, h, by simp⟩

theorem Recalled.snoc_other {xs : List (Nat × Places)} {x : Nat × Places} {q : Name} {r : Nat}
    {l : Name × StTy} (h : Recalled M xs q r l) (hx : ∀ l', ¬ LeftIn q r x l') :
    Recalled M (xs ++ [x]) q r l := by
  rcases h with ⟨a, y, b, rfl, hy, hb⟩ | ⟨hn, hi⟩
  · refine Or.inl ⟨a, y, b ++ [x], by simp, hy, fun z hz => ?_⟩
    rcases List.mem_append.1 hz with hz | hz
    · exact hb z hz
    · rw [List.mem_singleton.1 hz]; exact hx
  · refine Or.inr ⟨fun z hz => ?_, hi⟩
    rcases List.mem_append.1 hz with hz | hz
    · exact hn z hz
    · rw [List.mem_singleton.1 hz]; exact hx

theorem departures_snoc (ds : List (Deed P)) (x : Deed P) :
    departures (ds ++ [x]) = departures ds ++ (if x.leaving then [(x.region, x.before)] else []) := by
  unfold departures
  rw [List.filter_append, List.map_append]
  congr 1
  cases h : x.leaving <;> simp [h]

/-! ## More dependencies and more events do no harm -/

theorem RowHere.mono {D D' : List Dep} {E E' : List EventTy} {slots : Places} {r : Nat} {ev : EventTy}
    {cd : Cand} {t : XRow} {d : Dep} {l : Name × StTy} (h : RowHere M D E slots r ev cd t d l)
    (hD : ∀ x ∈ D, x ∈ D') (hE : ∀ x ∈ E, x ∈ E') : RowHere M D' E' slots r ev cd t d l :=
  { h with dep := hD _ h.dep, event := h.event.imp id (hE _) }

theorem Deed.Fair.mono {D D' : List Dep} {d0 : Dep} {E E' : List EventTy} {past : List (Deed P)}
    {x : Deed P} (h : Deed.Fair M D d0 E past x) (hD : ∀ x ∈ D, x ∈ D') (hE : ∀ x ∈ E, x ∈ E') :
    Deed.Fair M D' d0 E' past x := by
  cases h with
  | asked hr hg hb => exact .asked (hr.mono hD hE) hg hb
  | stayed hr ht hg ha => exact .stayed (hr.mono hD hE) ht hg ha
  | moved hr ht hl hh hg ha => exact .moved (hr.mono hD hE) ht hl hh hg ha
  | handled hh h0 hp he hn => exact .handled hh h0 hp (hE _ he) hn

theorem Ledger.mono {D D' : List Dep} {d0 : Dep} {E E' : List EventTy} {start slots : Places}
    {ds : List (Deed P)} (h : Ledger M D d0 E start ds slots) (hD : ∀ x ∈ D, x ∈ D')
    (hE : ∀ x ∈ E, x ∈ E') : Ledger M D' d0 E' start ds slots := by
  induction h with
  | nil => exact .nil
  | snoc _ hx ih => exact .snoc ih (hx.mono hD hE)

/-! ## The configuration and the ledger -/

/-- The ledger `ds` tells everything about configuration `c`. -/
structure Account (M : Machine) (d0 : Dep) (D : List Dep) (E : List EventTy) (ds : List (Deed P)) (c : Conf P W) :
    Prop where
  ledger : Ledger M D d0 E (startPlaces M) ds c.slots
  deps : c.deps = D
  first : c.first = d0
  calls : c.calls = ds.flatMap (·.calls)
  memory : M.historic = true → ∀ q ∈ M.composites, ∀ r l, (c.memory q)[r]? = some l →
    Recalled M (departures ds) q r l
  active : M.orthogonal = true → ∀ l, c.slots[0]? = some (some l) →
    c.active = (M.declaredInitials l.1).length
  waiting : ∀ x ∈ c.waiting, x.1 ∈ E

/-- There is a ledger for `c`. -/
def HasLedger (M : Machine) (d0 : Dep) (D : List Dep) (E : List EventTy) (c : Conf P W) : Prop :=
  ∃ ds : List (Deed P), Account M d0 D E ds c

/-- Whatever the outcome, there is a ledger. -/
abbrev KeepsLedger {α : Type} (M : Machine) (d0 : Dep) (D : List Dep) (E : List EventTy)
    (r : Res (Conf P W) α) : Prop :=
  r.Sat True (fun _ c => HasLedger M d0 D E c) (fun _ c => HasLedger M d0 D E c)

variable {d0 : Dep} {D : List Dep} {E : List EventTy} {ds : List (Deed P)} {c : Conf P W}

namespace Machine

/-- External candidates are rows in force. -/
theorem mem_candsG_ext {ev : EventTy} {p : Name} {st : StTy} {cd : Cand} {t : XRow}
    (h : cd ∈ M.candsG ev p st) (hr : cd.row? = some t) (ht : t.internal = false) : t ∈ M.extRows := by
  unfold candsG at h
  rcases List.mem_append.1 h with h | h
  · rcases List.mem_append.1 h with h | h
    · rw [List.eq_of_mem_replicate h] at hr
      cases hr
    · obtain ⟨u, hu, hc⟩ := List.mem_flatMap.1 h
      have hu := List.mem_reverse.1 (List.mem_filter.1 hu).1
      unfold extCands at hc
      rcases List.mem_append.1 hc with hc | hc <;> split at hc <;>
        first
          | (rw [List.mem_singleton.1 hc] at hr; cases hr; exact hu)
          | cases hc
  · obtain ⟨u, hu, hc⟩ := List.mem_flatMap.1 h
    have hu := List.mem_reverse.1 (List.mem_filter.1 hu).1
    unfold intCands at hc
    split at hc
    · rw [List.mem_singleton.1 hc] at hr
      cases hr
      exfalso
      unfold intRowsG at hu
      obtain ⟨s, _, hu⟩ := List.mem_flatMap.1 hu
      cases s with
      | st s =>
        dsimp only at hu
        split at hu
        · obtain ⟨i, _, hu⟩ := List.mem_flatMap.1 hu
          obtain ⟨x, _, rfl⟩ := List.mem_map.1 hu
          cases ht
        · cases hu
      | ps o k => cases hu
    · cases hc

theorem historic_of_mem {t : XRow} (h : t ∈ M.extRows) (ht : Machine.toHistory t.target = true) :
    M.historic = true := by
  unfold historic
  rw [List.any_eq_true]
  refine ⟨t, h, ?_⟩
  unfold Machine.toHistory at ht
  split at ht <;> simp_all

theorem targetLoc_history {t : XRow} {o : Bool} {q : Name} {l : Name × StTy}
    (h : M.targetLoc t = some l) (ht : t.target = .ps o (.history q)) : l.1 = q := by
  unfold targetLoc at h
  rw [ht] at h
  dsimp only at h
  cases hi : (M.declaredInitials q).head? with
  | none => rw [hi] at h; cases h
  | some i => rw [hi] at h; cases h; rfl

end Machine

/-- What moving region `r` along row `t` to `l` does to a configuration. -/
structure Travelled (M : Machine) (r : Nat) (t : XRow) (l : Name × StTy) (xs : List (Nat × Places))
    (c c' : Conf P W) : Prop where
  calls : c'.calls = c.calls
  deps : c'.deps = c.deps
  first : c'.first = c.first
  waiting : c'.waiting = c.waiting
  stay : t.internal = true → c' = c
  move : t.internal = false → ∃ l', c'.slots = c.slots.set r (some l') ∧
    (Machine.toHistory t.target = false → l' = l) ∧
    (Machine.toHistory t.target = true → Recalled M (xs ++ [(r, c.slots)]) l.1 r l')
  memory : t.internal = false → M.historic = true → ∀ q ∈ M.composites, ∀ r' l',
    (c'.memory q)[r']? = some l' → Recalled M (xs ++ [(r, c.slots)]) q r' l'
  active : t.internal = false → M.orthogonal = true → ∀ l, c'.slots[0]? = some (some l) →
    c'.active = (M.declaredInitials l.1).length

theorem seek_eq {r : Nat} {c c' : Conf P W} {l : Name × StTy} (h : Machine.seek r c = .ok l c') :
    c' = c ∧ c.slots[r]? = some (some l) := by
  unfold Machine.seek at h
  split at h
  · cases h
  · cases h
  · rename_i l' hl
    cases h
    exact ⟨rfl, hl⟩

theorem recount_eq {c c' : Conf P W} (h : M.recount c = .ok () c') :
    c'.slots = c.slots ∧ c'.memory = c.memory ∧ c'.calls = c.calls ∧ c'.deps = c.deps ∧
      c'.first = c.first ∧ c'.waiting = c.waiting ∧
      (M.orthogonal = true → ∀ l, c'.slots[0]? = some (some l) →
        c'.active = (M.declaredInitials l.1).length) := by
  unfold Machine.recount at h
  split at h
  · obtain ⟨l, c1, h1, h2⟩ := Res.bind_ok.1 h
    obtain ⟨rfl, hl⟩ := seek_eq h1
    split at h2
    · cases h2
      refine ⟨rfl, rfl, rfl, rfl, rfl, rfl, fun _ l' hl' => ?_⟩
      have : some (some l) = some (some l') := hl.symm.trans hl'
      cases this
      rfl
    · cases h2
  · rename_i ho
    cases h
    exact ⟨rfl, rfl, rfl, rfl, rfl, rfl, fun h => absurd h ho⟩

theorem travel_spec {r : Nat} {t : XRow} {l : Name × StTy} {xs : List (Nat × Places)} {c c' : Conf P W}
    (hm : M.historic = true → ∀ q ∈ M.composites, ∀ r l, (c.memory q)[r]? = some l → Recalled M xs q r l)
    (hx : t.internal = false → Machine.toHistory t.target = true → M.historic = true)
    (h : M.travel r t l c = .ok () c') : Travelled M r t l xs c c' := by
  unfold Machine.travel at h
  split at h
  · rename_i hi
    cases h
    exact ⟨rfl, rfl, rfl, rfl, fun _ => rfl, fun h => absurd hi (by simp [h]),
      fun h => absurd hi (by simp [h]), fun h => absurd hi (by simp [h])⟩
  · rename_i hi
    rw [Bool.not_eq_true] at hi
    split at h
    · rename_i hH
      obtain ⟨_, c1, h1, h2⟩ := Res.bind_ok.1 h
      obtain ⟨_, c2, h3, h4⟩ := Res.bind_ok.1 h2
      obtain ⟨e1, e2, e3, e4, e5, e6, e7⟩ := recount_eq h4
      -- what is remembered
      have key : c1.slots = c.slots ∧ c1.calls = c.calls ∧ c1.deps = c.deps ∧ c1.first = c.first ∧
          c1.waiting = c.waiting ∧ ∀ q ∈ M.composites, ∀ r' l', (c1.memory q)[r']? = some l' →
            Recalled M (xs ++ [(r, c.slots)]) q r' l' := by
        unfold Machine.remember at h1
        obtain ⟨l0, c3, h5, h6⟩ := Res.bind_ok.1 h1
        obtain ⟨rfl, hl0⟩ := seek_eq h5
        obtain ⟨lr, c4, h7, h8⟩ := Res.bind_ok.1 h6
        obtain ⟨rfl, hlr⟩ := seek_eq h7
        split at h8
        · cases h8
          refine ⟨rfl, rfl, rfl, rfl, rfl, fun q hq r' l' hl' => ?_⟩
          dsimp only at hl'
          split at hl'
          · rename_i hql
            subst hql
            rw [List.getElem?_set] at hl'
            split at hl'
            · rename_i hrr
              subst hrr
              split at hl'
              · cases hl'
                exact Recalled.snoc_same ⟨rfl, hlr, l0.2, hl0⟩
              · cases hl'
            · rename_i hrr
              exact (hm hH _ hq _ _ hl').snoc_other fun _ hL => hrr hL.1
          · rename_i hql
            refine (hm hH _ hq _ _ hl').snoc_other fun _ hL => hql ?_
            obtain ⟨-, -, st, hst⟩ := hL
            have := hst.symm.trans hl0
            cases this
            rfl
        · cases h8
      obtain ⟨k1, k2, k3, k4, k5, k6⟩ := key
      have hput : ∀ {l' : Name × StTy} {c1 c2 : Conf P W}, Machine.put r l' c1 = .ok () c2 →
          c2 = { c1 with slots := c1.slots.set r (some l') } := by
        intro l' c1 c2 hp
        unfold Machine.put at hp
        split at hp
        · cases hp; rfl
        · cases hp
      have hmv : ∃ l', c2 = { c1 with slots := c1.slots.set r (some l') } ∧
          (Machine.toHistory t.target = false → l' = l) ∧
          (Machine.toHistory t.target = true → Recalled M (xs ++ [(r, c.slots)]) l.1 r l') := by
        split at h3
        · rename_i hto
          obtain ⟨l', c5, h9, h10⟩ := Res.bind_ok.1 h3
          unfold Machine.recall at h9
          split at h9
          · rename_i hp
            split at h9
            · cases h9
            · rename_i l'' hl''
              cases h9
              exact ⟨l', hput h10, fun hf => absurd hto (by simp [hf]), fun _ => k6 _ hp _ _ hl''⟩
          · cases h9
        · rename_i hto
          exact ⟨l, hput h3, fun _ => rfl, fun h => absurd h hto⟩
      obtain ⟨l', rfl, hl1, hl2⟩ := hmv
      dsimp only at e1 e2 e3 e4 e5 e6
      refine ⟨e3.trans k2, e4.trans k3, e5.trans k4, e6.trans k5, fun h => absurd h (by simp [hi]),
        fun _ => ⟨l', by rw [e1, k1], hl1, hl2⟩, fun _ _ q hq r' l'' hl'' => ?_, fun _ => e7⟩
      rw [e2] at hl''
      exact k6 q hq r' l'' hl''
    · rename_i hH
      obtain ⟨_, c2, h3, h4⟩ := Res.bind_ok.1 h
      obtain ⟨e1, e2, e3, e4, e5, e6, e7⟩ := recount_eq h4
      unfold Machine.put at h3
      split at h3
      · cases h3
        refine ⟨e3, e4, e5, e6, fun h => absurd h (by simp [hi]),
          fun _ => ⟨l, e1, fun _ => rfl, fun h => absurd (hx hi h) hH⟩,
          fun _ h => absurd h hH, fun _ => e7⟩
      · cases h3

theorem travel_quiet {r : Nat} {t : XRow} {l : Name × StTy} {x : Exn} {c c' : Conf P W} :
    M.travel r t l c ≠ .throw x c' := by
  have hs : ∀ (r : Nat) (c : Conf P W), (Machine.seek r c).Sat True (fun _ _ => True) fun _ _ => False := by
    intro r c; unfold Machine.seek; split <;> trivial
  have hp : ∀ (l : Name × StTy) (c : Conf P W),
      (Machine.put r l c).Sat True (fun _ _ => True) fun _ _ => False := by
    intro l c; unfold Machine.put; split <;> trivial
  have hc : ∀ c : Conf P W, (M.recount c).Sat True (fun _ _ => True) fun _ _ => False := by
    intro c; unfold Machine.recount; split
    · refine (hs 0 c).bind fun _ _ _ => ?_
      split <;> trivial
    · trivial
  have hall : (M.travel r t l c).Sat True (fun _ _ => True) fun _ _ => False := by
    unfold Machine.travel
    split
    · trivial
    · split
      · refine Res.Sat.bind (Q := fun _ _ => True) ?_ fun _ c _ => Res.Sat.bind (Q := fun _ _ => True) ?_ fun _ c _ => hc c
        · unfold Machine.remember
          refine (hs 0 c).bind fun _ c _ => (hs r c).bind fun _ c _ => ?_
          split <;> trivial
        · split
          · refine Res.Sat.bind (Q := fun _ _ => True) ?_ fun l c _ => hp l c
            unfold Machine.recall
            split
            · split <;> trivial
            · trivial
          · exact hp l c
      · exact (hp l c).bind fun _ c _ => hc c
  intro h
  rw [h] at hall
  exact hall

theorem perform_spec (args : Args) : ∀ (cs : List (Phase × Cb)) (p : P) (c : Conf P W),
    (Machine.perform sem args cs p c).Sat True
      (fun _ c' => ∃ as w, CalledAll args [] cs as ∧ c' = { c with world := w, calls := c.calls ++ as })
      (fun _ c' => ∃ as w, CalledSome args [] cs as ∧ c' = { c with world := w, calls := c.calls ++ as })
  | [], p, c => ⟨[], c.world, ⟨[], rfl, rfl⟩, by simp⟩
  | (ph, a) :: cs, p, c => by
    unfold Machine.perform
    split
    · rename_i b p' w _
      refine (perform_spec args cs p' _).mono ?_ ?_
      · rintro _ c' ⟨as, w', ⟨ps, hps, rfl⟩, rfl⟩
        exact ⟨_, w', ⟨p :: ps, by simp [hps], rfl⟩, by simp⟩
      · rintro _ c' ⟨as, w', ⟨pre, ph', a', post, tr', q, rfl, ⟨ps, hps, rfl⟩, rfl⟩, rfl⟩
        exact ⟨_, w', ⟨(ph, a) :: pre, ph', a', post, _, q, rfl, ⟨p :: ps, by simp [hps], rfl⟩, rfl⟩,
          by simp⟩
    · rename_i k p' w _
      exact ⟨_, w, ⟨[], ph, a, cs, [], p, rfl, ⟨[], rfl, rfl⟩, rfl⟩, by simp⟩
    · trivial

namespace Account

theorem world (h : Account M d0 D E ds c) (w : W) : Account M d0 D E ds { c with world := w } := { h with }

/-- A row found, with a guard that said yes, is taken. -/
theorem take (h : Account M d0 D E ds c) {r : Nat} {ev : EventTy} {d : Dep} {cd : Cand} {t : XRow}
    {l : Name × StTy} (hr : RowHere M D E c.slots r ev cd t d l) {gs : List (Call P)}
    (hg : SaidYes t (rowGuardArgs cd t l ev d) [] gs) (w : W) (p : P) :
    KeepsLedger M d0 D E
      (M.take sem r ev d cd t l p { c with world := w, calls := c.calls ++ gs }) := by
  unfold Machine.take
  have hx : t.internal = false → Machine.toHistory t.target = true → M.historic = true := by
    intro hi hto
    obtain ⟨q, st, _, _, hc⟩ := hr.place
    exact Machine.historic_of_mem (Machine.mem_candsG_ext hc hr.row hi) hto
  refine Res.Sat.bind' (fun _ c1 h1 => ?_) (fun x s hxs => absurd hxs travel_quiet) (fun _ _ => trivial)
  have ht := travel_spec (xs := departures ds)
    (c := { c with world := w, calls := c.calls ++ gs }) h.memory hx h1
  -- entering the deed
  have key : ∀ (as : List (Call P)) (w : W), Ran (cbArgs M cd t l ev d) (M.callbacks t) as →
      HasLedger M d0 D E { c1 with world := w, calls := c1.calls ++ as } := by
    intro as w ha
    cases hi : t.internal with
    | true =>
      have := ht.stay hi
      subst this
      refine ⟨ds ++ [⟨r, c.slots, c.slots, false, gs ++ as⟩], ?_, h.deps, h.first, ?_, ?_, h.active, h.waiting⟩
      · exact Ledger.snoc (x := ⟨r, c.slots, c.slots, false, gs ++ as⟩) h.ledger (.stayed hr hi hg ha)
      · simp [h.calls]
      · rw [departures_snoc]
        simpa using h.memory
    | false =>
      obtain ⟨l', hs, hl1, hl2⟩ := ht.move hi
      refine ⟨ds ++ [⟨r, c.slots, c.slots.set r (some l'), true, gs ++ as⟩], ?_, ?_, ?_, ?_, ?_,
        ht.active hi, ?_⟩
      · show Ledger M D d0 E (startPlaces M) _ c1.slots
        rw [hs]
        refine Ledger.snoc (x := ⟨r, c.slots, c.slots.set r (some l'), true, gs ++ as⟩) h.ledger
          (.moved hr hi (fun hn => hl1 ?_) (fun o q hq => ?_) hg ha)
        · unfold Machine.toHistory
          split
          · rename_i o q hq
            exact absurd hq (hn o q)
          · rfl
        · rw [← Machine.targetLoc_history hr.loc hq]
          exact hl2 (by rw [hq]; rfl)
      · exact ht.deps.trans h.deps
      · exact ht.first.trans h.first
      · show c1.calls ++ as = _
        rw [ht.calls]
        simp [h.calls]
      · intro hH q hq r' l'' hl''
        rw [departures_snoc]
        exact ht.memory hi hH q hq r' l'' hl''
      · intro x hx
        refine h.waiting x ?_
        have : x ∈ c1.waiting := hx
        rw [ht.waiting] at this
        exact this
  have hcb := M.toRun_cbs t
  split
  · rename_i hn
    have := key [] c1.world (Or.inl ⟨[], by rw [hn] at hcb; rw [← hcb]; rfl, by simp⟩)
    rw [List.append_nil] at this
    exact this
  · rename_i cs hcs
    rw [hcs] at hcb
    split
    · refine (perform_spec (sem := sem) _ cs p c1).mono ?_ ?_
      · rintro _ c' ⟨as, w, ha, rfl⟩
        exact key as w (Or.inl (hcb ▸ ha))
      · rintro _ c' ⟨as, w, ha, rfl⟩
        exact key as w (Or.inr (hcb ▸ ha))
    · trivial

/-- A guard asked in vain. -/
theorem vain (h : Account M d0 D E ds c) {r : Nat} {ev : EventTy} {d : Dep} {cd : Cand} {t : XRow}
    {l : Name × StTy} (hr : RowHere M D E c.slots r ev cd t d l) {g : Cb} (hg : t.guard = some g)
    {b : Option Bool} (hb : b ≠ some true) (q : P) (w : W) :
    Account M d0 D E (ds ++ [⟨r, c.slots, c.slots, false, [.guard g (rowGuardArgs cd t l ev d) q b []]⟩])
      { c with world := w, calls := c.calls ++ [.guard g (rowGuardArgs cd t l ev d) q b []] } := by
  refine ⟨?_, h.deps, h.first, by simp [h.calls], ?_, h.active, h.waiting⟩
  · exact Ledger.snoc (x := ⟨r, c.slots, c.slots, false, _⟩) h.ledger (.asked hr hg hb)
  · rw [departures_snoc]
    simpa using h.memory

theorem ask_spec (h : Account M d0 D E ds c) {r : Nat} {ev : EventTy} {d : Dep} {cd : Cand} {t : XRow}
    {l : Name × StTy} (hr : RowHere M D E c.slots r ev cd t d l) (p : P) :
    (M.ask sem ev d cd t l p c).Sat True
      (fun a c' => (a.1 = true → ∃ gs w, SaidYes t (rowGuardArgs cd t l ev d) [] gs ∧
          c' = { c with world := w, calls := c.calls ++ gs }) ∧
        (a.1 = false → ∃ ds', Account M d0 D E ds' c' ∧ c'.slots = c.slots))
      (fun _ c' => HasLedger M d0 D E c') := by
  unfold Machine.ask
  split
  · rename_i hg
    exact ⟨fun _ => ⟨[], c.world, Or.inl ⟨hg, rfl⟩, by simp⟩, fun h => by cases h⟩
  · rename_i g hg
    have hv := fun (b : Option Bool) (hb : b ≠ some true) (w : W) => h.vain hr hg hb p w
    rw [show (⟨ev, cd.src, if t.internal then cd.src else l.2, false, d⟩ : Args) =
      rowGuardArgs cd t l ev d from rfl]
    generalize rowGuardArgs cd t l ev d = args at hv ⊢
    dsimp only
    split
    · split
      · rename_i b p' w _
        refine ⟨fun hb => ?_, fun hb => ?_⟩
        · cases hb
          exact ⟨_, w, Or.inr ⟨g, p, hg, rfl⟩, rfl⟩
        · cases hb
          exact ⟨_, hv (some false) (by simp) w, rfl⟩
      · rename_i k p' w _
        exact ⟨_, hv none (by simp) w⟩
      · trivial
    · trivial

/-- The candidates of one region. -/
theorem attempt {anon : Bool} {r : Nat} {ev : EventTy} (he : anon = false → ev ∈ E)
    (hn : ev = .none ∨ ev ∈ E) {pl : Name} {st : StTy} :
    ∀ (cs : List (Dep × Cand)) (p : P) (ds : List (Deed P)) (c : Conf P W), Account M d0 D E ds c →
      c.slots[r]? = some (some (pl, st)) → pl ∈ M.composites →
      (∀ x ∈ cs, x.1 ∈ D ∧ x.2 ∈ M.candsG ev pl st) →
      (M.attempt sem anon r ev cs p c).Sat True (fun a c => a.1 ≠ .none ∧ HasLedger M d0 D E c)
        (fun _ c => HasLedger M d0 D E c)
  | [], p, ds, c, h, _, _, _ => ⟨by simp, ds, h⟩
  | (d, cd) :: cs, p, ds, c, h, hs, hp, hcs => by
    unfold Machine.attempt
    split
    · split
      · trivial
      · rename_i ha
        refine ⟨by simp, ds, h.ledger, h.deps, h.first, h.calls, h.memory, h.active, fun x hx => ?_⟩
        rcases List.mem_append.1 hx with hx | hx
        · exact h.waiting x hx
        · rw [List.mem_singleton.1 hx]
          exact he (by simpa using ha)
    · rename_i t ht
      split
      · trivial
      · rename_i l hl
        have hr : RowHere M D E c.slots r ev cd t d l :=
          ⟨⟨pl, st, hs, hp, (hcs _ List.mem_cons_self).2⟩, ht, hl,
            (hcs _ List.mem_cons_self).1, hn⟩
        have htake : ∀ (gs : List (Call P)) (w : W) (p : P),
            SaidYes t (rowGuardArgs cd t l ev d) [] gs →
            ((M.take sem r ev d cd t l p { c with world := w, calls := c.calls ++ gs }).bind
              fun p c => Res.ok (RegionOut.fired, p) c).Sat True
              (fun a c => a.1 ≠ .none ∧ HasLedger M d0 D E c) (fun _ c => HasLedger M d0 D E c) :=
          fun gs w p hg => (h.take (sem := sem) hr hg w p).bind fun _ _ hc => ⟨by simp, hc⟩
        refine Res.Sat.bind (ask_spec (sem := sem) h hr p) ?_
        rintro ⟨b, p'⟩ c1 ⟨hy, hno⟩
        dsimp only at hy hno ⊢
        cases b with
        | true =>
          rw [if_pos rfl]
          obtain ⟨gs, w, hg, rfl⟩ := hy rfl
          exact htake gs w p' hg
        | false =>
          rw [if_neg (by simp)]
          obtain ⟨ds1, h1, hs1⟩ := hno rfl
          exact attempt he hn cs p' ds1 c1 h1 (by rw [hs1]; exact hs) hp
            fun x hx => hcs x (List.mem_cons_of_mem _ hx)

/-- One region. -/
theorem visitG (h : Account M d0 D E ds c) {anon : Bool} {r : Nat} {ev : EventTy}
    (he : anon = false → ev ∈ E) (hn : ev = .none ∨ ev ∈ E) (p : P) :
    (M.visitG sem anon r ev p c).Sat True
      (fun a c' => HasLedger M d0 D E c' ∧ (a.1 = .none → c' = c ∧
        ∃ l, c.slots[r]? = some (some l) ∧ M.candsG ev l.1 l.2 = []))
      (fun _ c => HasLedger M d0 D E c) := by
  unfold Machine.visitG
  refine Res.Sat.bind' (fun l c1 h1 => ?_) (fun x s hx => ?_) (fun _ _ => trivial)
  · obtain ⟨rfl, hl⟩ := seek_eq h1
    split
    · rename_i hp
      split
      · rename_i hc
        exact ⟨⟨ds, h⟩, fun _ => ⟨rfl, l, hl, hc⟩⟩
      · refine (attempt (sem := sem) he hn _ p ds c1 h hl hp ?_).mono
          (fun a c ha => ⟨ha.2, fun h => absurd h ha.1⟩) (fun _ _ => id)
        intro x hx
        obtain ⟨d, hd, hx⟩ := List.mem_flatMap.1 hx
        obtain ⟨cd, hcd, rfl⟩ := List.mem_map.1 hx
        exact ⟨h.deps ▸ hd, hcd⟩
    · trivial
  · unfold Machine.seek at hx
    split at hx <;> cases hx

/-- All regions. -/
theorem sweepG {ev : EventTy} (he : ev ∈ E) : ∀ (rs : List Nat) (os : List RegionOut) (p : P)
    (ds : List (Deed P)) (c : Conf P W), Account M d0 D E ds c →
    (M.sweepG sem ev rs os p c).Sat True
      (fun a c' => HasLedger M d0 D E c' ∧ ((∀ o ∈ a.1, o = RegionOut.none) → c' = c ∧
        ∀ r ∈ rs, ∃ l, c.slots[r]? = some (some l) ∧ M.candsG ev l.1 l.2 = []))
      (fun _ c => HasLedger M d0 D E c)
  | [], os, p, ds, c, h => ⟨⟨ds, h⟩, fun _ => ⟨rfl, by simp⟩⟩
  | r :: rs, os, p, ds, c, h => by
    unfold Machine.sweepG
    refine (h.visitG (sem := sem) (fun _ => he) (Or.inr he) p).bind ?_
    rintro ⟨o, p'⟩ c1 ⟨⟨ds1, h1⟩, hn⟩
    dsimp only
    split
    · exact ⟨⟨ds1, h1⟩, fun hall => absurd (hall .deferred (by simp)) (by simp)⟩
    · have hin : ∀ (rs : List Nat) (os : List RegionOut) (p : P) (c : Conf P W),
          (M.sweepG sem ev rs os p c).Sat True (fun a _ => ∀ o ∈ os, o ∈ a.1) (fun _ _ => True) := by
        intro rs
        induction rs with
        | nil => exact fun os p c o ho => ho
        | cons r rs ih =>
          intro os p c
          unfold Machine.sweepG
          refine Res.Sat.bind (Q := fun _ _ => True) ?_ fun o c _ => ?_
          · cases M.visitG sem false r ev p c <;> trivial
          · split
            · exact fun o ho => List.mem_append_left _ ho
            · exact (ih _ _ _).mono (fun a _ ha o ho => ha o (List.mem_append_left _ ho)) (fun _ _ _ => trivial)
      have h2 := sweepG he rs (os ++ [o]) p' ds1 c1 h1
      have h3 := hin rs (os ++ [o]) p' c1
      revert h2 h3
      cases M.sweepG sem ev rs (os ++ [o]) p' c1 with
      | ok a c2 =>
        intro h2 h3
        refine ⟨h2.1, fun hall => ?_⟩
        obtain ⟨rfl, hrs⟩ := h2.2 hall
        obtain ⟨rfl, hr⟩ := hn (hall o (h3 o (by simp)))
        exact ⟨rfl, List.forall_mem_cons.2 ⟨hr, hrs⟩⟩
      | throw x c2 => exact fun h2 _ => h2
      | ub u => exact fun _ _ => trivial
      | timeout => exact fun _ _ => trivial

theorem roundG : ∀ (rs : List Nat) (os : List RegionOut) (ds : List (Deed P)) (c : Conf P W),
    Account M d0 D E ds c → KeepsLedger M d0 D E (M.roundG sem rs os c)
  | [], os, ds, c, h => ⟨ds, h⟩
  | r :: rs, os, ds, c, h => by
    unfold Machine.roundG
    refine (h.visitG (sem := sem) (fun h => by cases h) (Or.inl rfl) _).bind ?_
    rintro o c1 ⟨⟨ds1, h1⟩, _⟩
    split
    · exact ⟨ds1, h1⟩
    · exact roundG rs _ ds1 c1 h1

theorem settleG : ∀ (fuel : Nat) (ds : List (Deed P)) (c : Conf P W),
    Account M d0 D E ds c → KeepsLedger M d0 D E (M.settleG sem fuel c)
  | 0, _, _, _ => trivial
  | fuel + 1, ds, c, h => by
    unfold Machine.settleG
    refine (roundG (sem := sem) _ _ ds c h).bind ?_
    rintro a c1 ⟨ds1, h1⟩
    split
    · exact settleG fuel ds1 c1 h1
    · exact ⟨ds1, h1⟩

theorem handleG (h : Account M d0 D E ds c) (fuel : Nat) {ev : EventTy} (he : ev ∈ E) (p : P) :
    (M.handleG sem fuel ev p c).Sat True
      (fun a c' => HasLedger M d0 D E c' ∧ ((∀ o ∈ a.1, o = RegionOut.none) → c' = c ∧
        ∀ r ∈ M.taking c, ∃ l, c.slots[r]? = some (some l) ∧ M.candsG ev l.1 l.2 = []))
      (fun _ c => HasLedger M d0 D E c) := by
  unfold Machine.handleG
  refine (sweepG (sem := sem) he _ _ p ds c h).bind ?_
  rintro a c1 ⟨⟨ds1, h1⟩, hn⟩
  split
  · rename_i hf
    refine (settleG (sem := sem) fuel ds1 c1 h1).bind fun _ c2 h2 => ⟨h2, fun hall => ?_⟩
    exact absurd (hall _ hf.2.1) (by simp)
  · exact ⟨⟨ds1, h1⟩, hn⟩

theorem complain (h : Account M d0 D E ds c) {ev : EventTy} (he : ev ∈ E) (p : P)
    (hn : ∀ r ∈ M.taking c, ∃ l, c.slots[r]? = some (some l) ∧ M.candsG ev l.1 l.2 = []) :
    KeepsLedger M d0 D E (M.complain sem ev p c) := by
  unfold Machine.complain
  split
  · exact ⟨ds, h⟩
  · rename_i k hk
    refine Res.Sat.bind' (fun l c1 h1 => ?_) (fun x s hx => ?_) (fun _ _ => trivial)
    · obtain ⟨rfl, hl⟩ := seek_eq h1
      split
      · rename_i hp
        have hw : ∀ r < width M l.1, ∃ l, c1.slots[r]? = some (some l) ∧ M.candsG ev l.1 l.2 = [] := by
          intro r hr
          refine hn r ?_
          unfold Machine.taking
          rw [List.mem_range]
          unfold width at hr
          split
          · rename_i ho
            rw [if_pos ho] at hr
            rw [h.active ho l hl]
            exact hr
          · rename_i ho
            rw [if_neg ho] at hr
            exact hr
        have key : ∀ (b : Bool) (w : W), HasLedger M d0 D E
            { c1 with world := w, calls := c1.calls ++ [.handler k ev l.2 c1.first p b []] } := by
          intro b w
          refine ⟨ds ++ [⟨0, c1.slots, c1.slots, false, [.handler k ev l.2 c1.first p b []]⟩], ?_, h.deps, h.first,
            by simp [h.calls], ?_, h.active, h.waiting⟩
          · rw [h.first]
            exact Ledger.snoc (x := ⟨0, c1.slots, c1.slots, false, _⟩) h.ledger
              (.handled hk (p := l.1) hl hp he hw)
          · rw [departures_snoc]
            simpa using h.memory
        split
        · split
          · exact key _ _
          · exact key _ _
          · trivial
        · trivial
      · exact ⟨ds, h⟩
    · unfold Machine.seek at hx
      split at hx <;> cases hx

theorem replayG (h : Account M d0 D E ds c) (fuel : Nat) : KeepsLedger M d0 D E (M.replayG sem fuel c) := by
  unfold Machine.replayG
  split
  · exact ⟨ds, h⟩
  · rename_i ev p q hq
    split
    · have h' : Account M d0 D E ds { c with waiting := q } :=
        { h with waiting := fun x hx => h.waiting x (by rw [hq]; exact List.mem_cons_of_mem _ hx) }
      exact (h'.handleG (sem := sem) fuel (h.waiting (ev, p) (by rw [hq]; simp)) p).bind fun _ _ hc => hc.1
    · exact ⟨ds, h⟩

theorem mono {E' : List EventTy} (h : Account M d0 D E ds c) (hE : ∀ e ∈ E, e ∈ E') : Account M d0 D E' ds c :=
  { h with ledger := h.ledger.mono (fun _ => id) hE, waiting := fun x hx => hE _ (h.waiting x hx) }

/-- The dependencies after a call. -/
def bound (D : List Dep) : OpG P → List Dep
  | .process _ _ => D
  | .setDependency d => d :: D

/-- One call of the user. -/
theorem execG (h : Account M d0 D E ds c) (fuel : Nat) (op : OpG P) :
    KeepsLedger M d0 (bound D op) (E ++ given [op]) (M.execG sem fuel op c) := by
  have h := h.mono (E' := E ++ given [op]) fun e he => List.mem_append_left _ he
  cases op with
  | process ev p =>
    show KeepsLedger M d0 D _ (M.receiveG sem fuel ev p c)
    have he : ev ∈ E ++ given [OpG.process ev p] := by simp [given]
    unfold Machine.receiveG
    refine (h.handleG (sem := sem) fuel he p).bind ?_
    rintro a c1 ⟨⟨ds1, h1⟩, hn⟩
    split
    · rename_i hall
      obtain ⟨rfl, hn⟩ := hn hall
      exact h.complain (sem := sem) he _ hn
    · exact h1.replayG (sem := sem) fuel
  | setDependency d =>
    exact ⟨ds, { h with
      ledger := h.ledger.mono (fun x hx => List.mem_cons_of_mem _ hx) fun _ => id
      deps := by show d :: c.deps = d :: D; rw [h.deps] }⟩

theorem fresh (M : Machine) (d : Dep) (w : W) : Account M d [d] [] ([] : List (Deed P)) (M.fresh d w) := by
  refine ⟨Ledger.nil, rfl, rfl, rfl, ?_, ?_, ?_⟩
  · intro _ q _ r l hl
    refine Or.inr ⟨by simp [departures], ?_⟩
    have hl : ((M.declaredInitials q).map fun i => (q, StTy.st i))[r]? = some l := hl
    rw [List.getElem?_map] at hl
    cases hi : (M.declaredInitials q)[r]? with
    | none => rw [hi] at hl; cases hl
    | some i => rw [hi] at hl; cases hl; exact ⟨i, rfl, rfl⟩
  · intro _ l hl
    have hl : (startPlaces M)[0]? = some (some l) := hl
    show (M.declaredInitials M.root).length = _
    unfold startPlaces at hl
    cases hi : M.declaredInitials M.root with
    | nil =>
      rw [hi] at hl
      simp only [List.map_nil, List.nil_append, List.length_nil, Nat.sub_zero] at hl
      rw [List.getElem?_replicate] at hl
      split at hl <;> cases hl
    | cons i is =>
      rw [hi] at hl
      simp only [List.map_cons, List.cons_append, List.getElem?_cons_zero] at hl
      cases hl
      rw [hi]
  · intro x hx
    cases hx

end Account

theorem given_append (a b : List (OpG P)) : given (a ++ b) = given a ++ given b := by
  induction a with
  | nil => rfl
  | cons op ops ih => cases op <;> simp [given, ih]

theorem RunToG.account (hM : M.RegularG) {d : Dep} {ops : List (OpG P)} {s : SM P W}
    (h : RunToG M sem d ops s) :
    M.ScopesRealG ∧ ∃ c : Conf P W, DepictsG M c s ∧ HasLedger M d (depsG d ops) (given ops) c := by
  have hb : ∀ (ops : List (OpG P)) (op : OpG P), Account.bound (depsG d ops) op = depsG d (ops ++ [op]) := by
    intro ops op
    cases op with
    | process ev p => exact (depsG_process d ops ev p).symm
    | setDependency d' => exact (depsG_dep d d' ops).symm
  have hstep : ∀ {s s' : SM P W} {ops : List (OpG P)} {op : OpG P} {fuel : Nat} {c : Conf P W},
      M.ScopesRealG → DepictsG M c s → HasLedger M d (depsG d ops) (given ops) c → OpOkG M op →
      (stepG M sem fuel op s = .ok () s' ∨ ∃ x, stepG M sem fuel op s = .throw x s') →
      ∃ c : Conf P W, DepictsG M c s' ∧ HasLedger M d (depsG d (ops ++ [op])) (given (ops ++ [op])) c := by
    rintro s s' ops op fuel c hS hc ⟨ds, ha⟩ hop hr
    have h1 := C82_step (sem := sem) hc hM hS fuel hop
    have h2 := ha.execG (sem := sem) fuel op
    rw [given_append, ← hb]
    revert h1 h2
    rcases hr with hr | ⟨x, hr⟩ <;> rw [hr] <;> cases M.execG sem fuel op c <;> intro h1 h2 <;>
      first | exact h1.elim | exact ⟨_, h1.2, h2⟩
  induction h with
  | @init w s h =>
    obtain ⟨h1, _, h2⟩ := C82_construct (P := P) hM d w
    exact ⟨(h1.1 ⟨s, h⟩).1, _, h2 s h, [], Account.fresh M d w⟩
  | @ok s t ops op fuel hr hop h ih =>
    obtain ⟨hS, c, hc, hl⟩ := ih
    exact ⟨hS, hstep hS hc hl hop (Or.inl h)⟩
  | @throw s t ops op fuel x hr hop h ih =>
    obtain ⟨hS, c, hc, hl⟩ := ih
    exact ⟨hS, hstep hS hc hl hop (Or.inr ⟨x, h⟩)⟩
  | @world s ops hr w ih =>
    obtain ⟨hS, c, hc, ds, hl⟩ := ih
    exact ⟨hS, { c with world := w }, { hc with world := rfl }, ds, hl.world w⟩

/-- **C93**: every machine built with the amalgamated header keeps a ledger: its callbacks, in order,
are those of the entries; its regions are where the ledger ends; and its composites remember what the
departures in the ledger say. -/
theorem C93_ledger (hM : M.RegularG) {d : Dep} {ops : List (OpG P)} {s : SM P W}
    (h : RunToG M sem d ops s) :
    ∃ (ds : List (Deed P)) (slots : Places),
      Ledger M (depsG d ops) d (given ops) (startPlaces M) ds slots ∧
      s.trace.map Call.bare = ds.flatMap (·.calls) ∧
      s.cur = slots.map (Option.map fun l => M.comb l.1 l.2) ∧
      (∀ l, some l ∈ slots → l.2 ∈ M.states) ∧
      (M.historic = true → ∀ q ∈ M.composites, ∀ r n, Remembers M s q r n →
        ∃ l, n = M.comb l.1 l.2 ∧ l.2 ∈ M.states ∧ Recalled M (departures ds) q r l) := by
  obtain ⟨_, c, hc, ds, hl⟩ := RunToG.account hM h
  refine ⟨ds, c.slots, hl.ledger, by rw [hc.trace, hl.calls], hc.cur, hc.slots, ?_⟩
  rintro hH q hq r n ⟨a, ha, hn⟩
  rw [hc.hist q hq] at ha
  cases ha
  rw [List.getElem?_map] at hn
  cases hm : (c.memory q)[r]? with
  | none => rw [hm] at hn; cases hn
  | some l =>
    rw [hm] at hn
    cases hn
    exact ⟨l, rfl, hc.memory q hq l (List.mem_of_getElem? hm), hl.memory hH q hq r l hm⟩

/-! ## What a ledger tells -/

/-- Candidates are rows in force for the event. -/
theorem Machine.mem_candsG_row {ev : EventTy} {p : Name} {st : StTy} {cd : Cand} {t : XRow}
    (h : cd ∈ M.candsG ev p st) (hr : cd.row? = some t) : t ∈ M.extRows ++ M.intRowsG ∧ t.event = ev := by
  unfold Machine.candsG at h
  rcases List.mem_append.1 h with h | h
  · rcases List.mem_append.1 h with h | h
    · rw [List.eq_of_mem_replicate h] at hr
      cases hr
    · obtain ⟨u, hu, hc⟩ := List.mem_flatMap.1 h
      obtain ⟨hu, he⟩ := List.mem_filter.1 hu
      unfold Machine.extCands at hc
      rcases List.mem_append.1 hc with hc | hc <;> split at hc <;>
        first
          | (rw [List.mem_singleton.1 hc] at hr; cases hr
             exact ⟨List.mem_append_left _ (List.mem_reverse.1 hu), by simpa using he⟩)
          | cases hc
  · obtain ⟨u, hu, hc⟩ := List.mem_flatMap.1 h
    obtain ⟨hu, he⟩ := List.mem_filter.1 hu
    unfold Machine.intCands at hc
    split at hc
    · rw [List.mem_singleton.1 hc] at hr
      cases hr
      exact ⟨List.mem_append_right _ (List.mem_reverse.1 hu), by simpa using he⟩
    · cases hc

/-- A call made after the calls `pre` is one the declarations ask for: guards are those of rows for this
event, actions are callbacks of such rows and the guard of that row has said yes before, handlers are
that of the root. -/
def Warranted (M : Machine) (D : List Dep) (d0 : Dep) (E : List EventTy) (pre : List (Call P)) :
    Call P → Prop
  | .guard g args _ _ _ => args.dep ∈ D ∧ (args.event = .none ∨ args.event ∈ E) ∧
      ∃ t ∈ M.extRows ++ M.intRowsG, t.event = args.event ∧ t.guard = some g
  | .action ph a args _ _ _ => args.dep ∈ D ∧ (args.event = .none ∨ args.event ∈ E) ∧
      ∃ t ∈ M.extRows ++ M.intRowsG, t.event = args.event ∧ (ph, a) ∈ M.callbacks t ∧
        ∀ g, t.guard = some g → ∃ gargs q, Call.guard g gargs q (some true) [] ∈ pre ∧
          gargs.event = args.event ∧ gargs.src = args.src ∧ gargs.dep = args.dep
  | .handler h e _ d _ _ _ => (M.decl M.root).handler = some h ∧ d = d0 ∧ e ∈ E

theorem Ran.mem {args : Args} {cs : List (Phase × Cb)} {as : List (Call P)} (h : Ran args cs as) :
    ∀ x ∈ as, ∃ ph a q b, x = .action ph a args q b [] ∧ (ph, a) ∈ cs := by
  have hall : ∀ {cs : List (Phase × Cb)} {as : List (Call P)}, CalledAll args [] cs as →
      ∀ x ∈ as, ∃ ph a q b, x = .action ph a args q b [] ∧ (ph, a) ∈ cs := by
    rintro cs as ⟨ps, _, rfl⟩ x hx
    obtain ⟨⟨⟨ph, a⟩, q⟩, hy, rfl⟩ := List.mem_map.1 hx
    exact ⟨ph, a, q, false, rfl, (List.of_mem_zip hy).1⟩
  rcases h with h | ⟨pre, ph, a, post, tr, q, rfl, h, rfl⟩
  · exact hall h
  · intro x hx
    rcases List.mem_append.1 hx with hx | hx
    · obtain ⟨ph', a', q', b', rfl, hm⟩ := hall h x hx
      exact ⟨ph', a', q', b', rfl, List.mem_append_left _ hm⟩
    · rw [List.mem_singleton.1 hx]
      exact ⟨ph, a, q, true, rfl, by simp⟩

theorem Warranted.more {E : List EventTy} {D : List Dep} {pre pre' : List (Call P)} {x : Call P}
    (h : Warranted M D d0 E pre x) (hp : ∀ y ∈ pre, y ∈ pre') : Warranted M D d0 E pre' x := by
  cases x with
  | guard g args q b cur => exact h
  | action ph a args q b cur =>
    obtain ⟨h1, h2, t, h3, h4, h5, h6⟩ := h
    refine ⟨h1, h2, t, h3, h4, h5, fun g hg => ?_⟩
    obtain ⟨gargs, q, h7, h8⟩ := h6 g hg
    exact ⟨gargs, q, hp _ h7, h8⟩
  | handler h e st d q b cur => exact h

theorem one_eq {α : Type} {a y : α} {pre post : List α} (h : [a] = pre ++ y :: post) : y = a := by
  have : y ∈ [a] := by rw [h]; simp
  exact List.mem_singleton.1 this

/-- The calls of one entry are warranted. -/
theorem Deed.Fair.warranted {past : List (Deed P)} {x : Deed P} (h : Deed.Fair M D d0 E past x)
    {pre post : List (Call P)} {y : Call P} (hy : x.calls = pre ++ y :: post) :
    Warranted M D d0 E pre y := by
  have hrow : ∀ {slots : Places} {r : Nat} {ev : EventTy} {cd : Cand} {t : XRow} {d : Dep}
      {l : Name × StTy} {gs as : List (Call P)}, RowHere M D E slots r ev cd t d l →
      SaidYes t (rowGuardArgs cd t l ev d) [] gs → Ran (cbArgs M cd t l ev d) (M.callbacks t) as →
      gs ++ as = pre ++ y :: post → Warranted M D d0 E pre y := by
    intro slots r ev cd t d l gs as hr hg ha he
    obtain ⟨p, st, _, _, hc⟩ := hr.place
    obtain ⟨hm, hev⟩ := Machine.mem_candsG_row hc hr.row
    rcases List.append_eq_append_iff.1 he with ⟨a, rfl, hb⟩ | ⟨a, rfl, hb⟩
    · obtain ⟨ph, k, q, b, rfl, hk⟩ := ha.mem y (by rw [hb]; simp)
      refine ⟨hr.dep, hr.event, t, hm, hev, hk, fun g hgg => ?_⟩
      rcases hg with ⟨hn, _⟩ | ⟨g', q', hg', rfl⟩
      · rw [hn] at hgg; cases hgg
      · rw [hg'] at hgg
        cases hgg
        exact ⟨rowGuardArgs cd t l ev d, q', by simp, rfl, rfl, rfl⟩
    · cases a with
      | nil =>
        obtain ⟨ph, k, q, b, rfl, hk⟩ := ha.mem y (by rw [List.nil_append] at hb; rw [← hb]; simp)
        refine ⟨hr.dep, hr.event, t, hm, hev, hk, fun g hgg => ?_⟩
        rw [List.append_nil] at hg
        rcases hg with ⟨hn, _⟩ | ⟨g', q', hg', rfl⟩
        · rw [hn] at hgg; cases hgg
        · rw [hg'] at hgg
          cases hgg
          exact ⟨rowGuardArgs cd t l ev d, q', by simp, rfl, rfl, rfl⟩
      | cons z zs =>
        have : z = y := by
          have := congrArg List.head? hb
          simpa using this.symm
        subst this
        rcases hg with ⟨_, hn⟩ | ⟨g, q, hg, hgs⟩
        · simp at hn
        · have : z ∈ [Call.guard g (rowGuardArgs cd t l ev d) q (some true) []] := by
            rw [← hgs]; simp
          rw [List.mem_singleton.1 this]
          exact ⟨hr.dep, hr.event, t, hm, hev, hg⟩
  cases h with
  | asked hr hg hb =>
    obtain ⟨p, st, _, _, hc⟩ := hr.place
    obtain ⟨hm, hev⟩ := Machine.mem_candsG_row hc hr.row
    rw [one_eq hy]
    exact ⟨hr.dep, hr.event, _, hm, hev, hg⟩
  | stayed hr ht hg ha => exact hrow hr hg ha hy
  | moved hr ht hl hh hg ha => exact hrow hr hg ha hy
  | handled hh h0 hp he hn =>
    rw [one_eq hy]
    exact ⟨hh, rfl, he⟩

theorem Ledger.warranted {start slots : Places} {ds : List (Deed P)}
    (h : Ledger M D d0 E start ds slots) {pre post : List (Call P)} {y : Call P}
    (hy : ds.flatMap (·.calls) = pre ++ y :: post) : Warranted M D d0 E pre y := by
  induction h generalizing post with
  | nil => simp at hy
  | @snoc ds x hl hx ih =>
    rw [List.flatMap_append] at hy
    simp only [List.flatMap_cons, List.flatMap_nil, List.append_nil] at hy
    rcases List.append_eq_append_iff.1 hy with ⟨a, rfl, hb⟩ | ⟨a, ha, hb⟩
    · exact (hx.warranted hb).more fun z hz => List.mem_append_right _ hz
    · cases a with
      | nil =>
        rw [List.append_nil] at ha
        subst ha
        exact (hx.warranted (pre := []) (by rw [List.nil_append] at hb; rw [← hb]; rfl)).more (by simp)
      | cons z zs =>
        have : z = y := by
          have := congrArg List.head? hb
          simpa using this.symm
        subst this
        exact ih ha

/-- C93: nothing is called that the declarations do not ask for, and no action runs before the guard of its
row has said yes. -/
theorem C93_calls (hM : M.RegularG) {d : Dep} {ops : List (OpG P)} {s : SM P W}
    (h : RunToG M sem d ops s) {pre post : List (Call P)} {x : Call P}
    (hx : s.trace.map Call.bare = pre ++ x :: post) :
    Warranted M (depsG d ops) d (given ops) pre x := by
  obtain ⟨ds, slots, hl, ht, _⟩ := C93_ledger hM h
  exact hl.warranted (by rw [← ht]; exact hx)

/-- A region nothing departed from is where it was. -/
theorem Ledger.still {start slots : Places} {ds : List (Deed P)} (h : Ledger M D d0 E start ds slots)
    {r : Nat} (hr : ∀ x ∈ departures ds, x.1 ≠ r) : slots[r]? = start[r]? := by
  induction h with
  | nil => rfl
  | @snoc ds x hl hx ih =>
    rw [departures_snoc] at hr
    have h1 := ih fun y hy => hr y (List.mem_append_left _ hy)
    rw [← h1]
    cases hx with
    | asked => rfl
    | stayed => rfl
    | @moved slots' r' =>
      have hne : r' ≠ r := hr (r', slots') (List.mem_append_right _ (by simp))
      exact List.getElem?_set_ne hne
    | handled => rfl

/-- C93: a machine without anonymous rows that was given only events no external row is for has not moved. -/
theorem C93_still (hM : M.RegularG) {d : Dep} {ops : List (OpG P)} {s : SM P W}
    (h : RunToG M sem d ops s) (hn : ∀ t ∈ M.extRows, t.event ≠ .none ∧ t.event ∉ given ops) :
    s.cur = (startPlaces M).map (Option.map fun l => M.comb l.1 l.2) := by
  obtain ⟨ds, slots, hl, -, hc, -⟩ := C93_ledger hM h
  have hno : departures ds = [] := by
    clear hc
    induction hl with
    | nil => rfl
    | @snoc ds y hl hy ih =>
      rw [departures_snoc, ih]
      cases hy with
      | asked => rfl
      | stayed => rfl
      | moved hr ht =>
        obtain ⟨p, st, _, _, hc⟩ := hr.place
        have he := hr.event
        rw [← (Machine.mem_candsG_row hc hr.row).2] at he
        have := hn _ (Machine.mem_candsG_ext hc hr.row ht)
        exact absurd he (not_or.2 this)
      | handled => rfl
  rw [hc]
  congr 1
  exact List.ext_getElem? fun r => hl.still (by rw [hno]; simp)

end

namespace Ex

theorem forgetful_regularG : forgetful.RegularG := Machine.regularG_ofList (by decide +kernel)

/-- `C93_ledger` and `C93_calls` apply to `bare` (guards asked twice, deferral, anonymous rows): seven
callbacks in the life of this machine. -/
example : bare.RegularG ∧ ∃ s, RunToG bare (scribble fun g p => g == 101 && p == 1) 7
      [.process (ev 0) 0, .process (ev 1) 0, .process (ev 5) 0, .process (ev 2) 0, .process (ev 3) 0] s ∧
    s.trace.length = 7 := by
  obtain ⟨s, h1, h2⟩ := exists_runG (M := bare) (sm := scribble fun g p => g == 101 && p == 1) (fuel := 5)
    (d := 7) (w := []) (ops := [.process (ev 0) 0, .process (ev 1) 0, .process (ev 5) 0,
      .process (ev 2) 0, .process (ev 3) 0]) (f := fun s => s.trace.length == 7) (by decide +kernel)
  exact ⟨bare_regularG, s, h1, beq_iff_eq.1 h2⟩

/-- One external row, and an internal row of the root. -/
def idle : Machine := Machine.ofList
  [ { table := some [ row (ini 1) (ev 0) none (some 1) (.st 2) ], itable := some [⟨ev 1, none, some 2⟩] } ] []

/-- `C93_still` applies: the internal row has run twice. -/
example : idle.RegularG ∧ ∃ s, RunToG idle (sem fun _ => true) 7 [.process (ev 1) 1, .process (ev 1) 1] s ∧
    s.trace.length = 2 ∧ ∀ t ∈ idle.extRows, t.event ≠ .none ∧
      t.event ∉ given ([.process (ev 1) 1, .process (ev 1) 1] : List (OpG Nat)) := by
  obtain ⟨s, h1, h2⟩ := exists_runG (M := idle) (sm := sem fun _ => true) (fuel := 5)
    (d := 7) (w := []) (ops := [.process (ev 1) 1, .process (ev 1) 1]) (f := fun s => s.trace.length == 2)
    (by decide +kernel)
  exact ⟨Machine.regularG_ofList (by decide +kernel), s, h1, beq_iff_eq.1 h2, by decide +kernel⟩

/-- In `forgetful`, by the amalgamated header too, the ledger tells that region 1 comes back by the history
of composite 3 to state 5: it was left there only while region 0 was in the root. -/
example : forgetful.RegularG ∧ forgetful.historic = true ∧ ∃ s, RunToG forgetful (sem fun _ => true) 7
      [.process (ev 1) 1, .process (ev 2) 1, .process (ev 3) 1, .process (ev 4) 1] s ∧
    s.cur[1]? = some (some (forgetful.comb 3 (.st 5))) ∧
    Recalled forgetful [(1, [some (0, .st 1), some (0, .st 2)]), (1, [some (0, .st 1), some (3, .st 4)]),
      (1, [some (0, .st 1), some (3, .st 6)]), (1, [some (0, .st 1), some (0, .st 2)])] 3 1 (3, .st 5) := by
  obtain ⟨s, h1, h2⟩ := exists_runG (M := forgetful) (sm := sem fun _ => true) (fuel := 5)
    (d := 7) (w := []) (ops := [.process (ev 1) 1, .process (ev 2) 1, .process (ev 3) 1, .process (ev 4) 1])
    (f := fun s => s.cur[1]? == some (some (forgetful.comb 3 (.st 5)))) (by decide +kernel)
  refine ⟨forgetful_regularG, by decide +kernel, s, h1, beq_iff_eq.1 h2, Or.inr ⟨?_, 5, by decide +kernel, rfl⟩⟩
  intro y hy l' hl
  obtain ⟨-, -, st, h0⟩ := hl
  simp only [List.mem_cons, List.not_mem_nil, or_false] at hy
  rcases hy with rfl | rfl | rfl | rfl <;> simp at h0

end Ex

end Hsm

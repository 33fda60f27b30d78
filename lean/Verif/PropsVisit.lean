import Verif.PropsInterp
import Verif.PropsReach

/-!
# Where C65 fails

C65 (PropsReach.lean) is proved for machines with one region, without history and anonymous rows.
Each of the three conditions is needed.
-/

namespace Hsm

/-- C65 for machines that satisfy `Cond`. -/
def C65_claim (Cond : Machine → Prop) : Prop :=
  ∀ (M : Machine), M.Regular → M.Scoped → Cond M → ∀ (d : Dep) (p : Name) (st : StTy), Takes M p st →
    ∃ (P W : Type) (sem : Sem P W) (ops : List (Op P)) (s : SM P W), RunTo M sem d ops s ∧
      (∀ r p st, Op.set r p st ∉ ops) ∧ At M s 0 p st

/-- The claim as proved in PropsReach.lean; each of the three conditions is needed, see below. -/
theorem C65_conditions_partial :
    C65_claim fun M => M.orthogonal = false ∧ M.historic = false ∧ M.anonymous = false := by
  rintro M hM hS ⟨ho, hh, ha⟩ d p st h
  obtain ⟨ops, s, hr⟩ := C65_partial hM hS ho hh ha d h
  exact ⟨_, _, oracle, ops, s, hr⟩

section
variable {P W : Type} {M : Machine} {sem : Sem P W} {c : Conf P W}

/-- `I` is kept by the calls. -/
structure Machine.Stays (M : Machine) (sem : Sem P W) (I : Conf P W → Prop) : Prop where
  fresh : ∀ d w, I (M.fresh d w)
  world : ∀ c w, I c → I { c with world := w }
  deps : ∀ c d, I c → I { c with deps := d :: c.deps }
  event : ∀ c ev p fuel, I c → c.deps ≠ [] → ev ∈ M.events →
    match M.receive sem fuel ev p c with
    | .ok _ c' => I c'
    | .throw _ c' => I c'
    | _ => True

theorem Machine.Stays.reach {I : Conf P W → Prop} (hI : M.Stays sem I) (hM : M.Regular) {d : Dep}
    {ops : List (Op P)} {s : SM P W} (h : RunTo M sem d ops s) (hns : ∀ r p st, Op.set r p st ∉ ops) :
    ∃ c, Depicts M c s ∧ I c := by
  have step : ∀ {s s' : SM P W} {ops : List (Op P)} {op : Op P} {fuel : Nat},
      RunTo M sem d ops s → OpOk M op → (∀ r p st, Op.set r p st ∉ ops ++ [op]) →
      (∃ c, Depicts M c s ∧ I c) →
      ((∃ b, step M sem fuel op s = .ok b s') ∨ ∃ x, step M sem fuel op s = .throw x s') →
      ∃ c, Depicts M c s' ∧ I c := by
    intro s s' ops op fuel hr hop hns ⟨c, hc, hi⟩ h
    have hs := C77_step (sem := sem) hc hM (hr.scopes hM) fuel hop
    have hk : match M.exec sem fuel op c with
        | .ok _ c' => I c'
        | .throw _ c' => I c'
        | _ => True := by
      cases op with
      | process ev p => exact hI.event c ev p fuel hi hc.bound (M.events_eq ▸ hop)
      | set r p st => exact absurd (List.mem_append_right _ List.mem_cons_self) (hns r p st)
      | setDependency d' => exact hI.deps c d' hi
    revert hs hk
    rcases h with ⟨b, h⟩ | ⟨x, h⟩ <;> rw [h] <;> cases M.exec sem fuel op c <;> intro hs hk <;>
      first | exact hs.elim | exact ⟨_, hs.2, hk⟩
  induction h with
  | @init w s h => exact ⟨_, C77_construct hM h, hI.fresh d w⟩
  | ok hr hop h ih =>
    exact step hr hop hns (ih fun r p st hm => hns r p st (List.mem_append_left _ hm)) (Or.inl ⟨_, h⟩)
  | throw hr hop h ih =>
    exact step hr hop hns (ih fun r p st hm => hns r p st (List.mem_append_left _ hm)) (Or.inr ⟨_, h⟩)
  | world _ w ih =>
    obtain ⟨c, hc, hi⟩ := ih hns
    exact ⟨{ c with world := w }, { hc with world := rfl }, hI.world c w hi⟩

/-- A region at a location where the first candidate is a row without guard and callbacks. -/
theorem Machine.visit_silent {anon : Bool} {r : Nat} {ev : EventTy} {p : P} {l : Name × StTy}
    (hs : c.slots[r]? = some (some l)) (hl : l.1 ∈ M.composites) (hd : c.deps ≠ []) {cd : Cand}
    {cs : List Cand} {t : XRow} (hc : M.cands ev l.1 l.2 = cd :: cs) (hr : cd.row? = some t)
    {l' : Name × StTy} (ht : M.targetLoc t = some l') (hg : t.guard = none) (ha : M.toRun t = none) :
    M.visit sem anon r ev p c = (M.travel r t l' c).bind fun _ c => .ok (.fired, p) c := by
  obtain ⟨d, ds, hds⟩ : ∃ d ds, c.deps = d :: ds := by
    cases h : c.deps with
    | nil => exact absurd h hd
    | cons d ds => exact ⟨d, ds, rfl⟩
  unfold Machine.visit Machine.seek
  rw [hs]
  simp only [Res.bind, if_pos hl, hc, hds, List.flatMap_cons, List.map_cons, List.cons_append,
    reduceCtorEq, if_false, Machine.attempt, hr, ht, Machine.ask, hg, if_true, Machine.take, ha]
  cases M.travel r t l' c <;> rfl

/-- A region at a location without candidates. -/
theorem Machine.visit_none {anon : Bool} {r : Nat} {ev : EventTy} {p : P} {l : Name × StTy}
    (hs : c.slots[r]? = some (some l)) (hl : l.1 ∈ M.composites)
    (hc : M.cands ev l.1 l.2 = []) : M.visit sem anon r ev p c = .ok (.none, p) c := by
  unfold Machine.visit Machine.seek
  rw [hs]
  simp only [Res.bind, if_pos hl, hc, if_true]

/-- At `l` the first row for `ev` moves to `l'` without asking or calling anyone; `h` says whether it
leads to a history state. -/
def Machine.hopB (M : Machine) (ev : EventTy) (l l' : Name × StTy) (h : Bool) : Bool :=
  match M.cands ev l.1 l.2 with
  | [] => false
  | cd :: _ =>
    match cd.row? with
    | none => false
    | some t => decide (t.internal = false ∧ t.guard = none ∧ M.toRun t = none ∧
        M.targetLoc t = some l' ∧ toHistory t.target = h ∧ l.1 ∈ M.composites)

theorem Machine.visit_hop {anon : Bool} {r : Nat} {ev : EventTy} {p : P} {l l' : Name × StTy} {h : Bool}
    (hb : M.hopB ev l l' h = true) (hs : c.slots[r]? = some (some l)) (hd : c.deps ≠ []) :
    M.visit sem anon r ev p c =
      (if M.historic then
        (M.remember r c).bind fun _ c =>
          (if h then (M.recall r l'.1 c).bind fun l c => put r l c
           else put r l' c).bind fun _ c => M.recount c
       else (put r l' c).bind fun _ c => M.recount c).bind fun _ c => .ok (.fired, p) c := by
  unfold Machine.hopB at hb
  split at hb
  · cases hb
  · rename_i cd cs hc
    split at hb
    · cases hb
    · rename_i t hr
      obtain ⟨hi, hg, ha, ht, hh, hl⟩ := of_decide_eq_true hb
      rw [Machine.visit_silent hs hl hd hc hr ht hg ha]
      unfold Machine.travel
      rw [hi, hh]
      rfl

end

namespace Ex

/-! ## Anonymous rows -/

/-- `A` (1) goes to `B` (2) on event 0; `B` goes on to `C` (3) by itself, and to `D` (4) on event 1. -/
def passing : Machine := Machine.ofList
  [ { table := some
        [ row (ini 1) (ev 0) none none (.st 2),
          row (.st 2) .none none none (.st 3),
          row (.st 2) (ev 1) none none (.st 4) ] },
    { }, { }, { }, { } ] []

theorem passing_regular : passing.Regular := Machine.regular_ofList (by decide +kernel)

theorem passing_scoped : passing.Scoped := Machine.scoped_of_check (by decide +kernel)

theorem passing_takes : Takes passing 0 (.st 4) := by
  have h1 : Takes passing 0 (.st 1) := .initial (by decide +kernel)
  have h2 : Takes passing 0 (.st 2) := .step (ev := ev 0) (cs1 := []) (cs2 := [])
    (c := .row ⟨0, ini 1, ev 0, none, none, .st 2, false⟩) (l := (0, .st 2)) h1 (by decide +kernel) rfl rfl
    (fun _ h => nomatch h) (by decide +kernel)
  exact .step (ev := ev 1) (cs1 := []) (cs2 := [])
    (c := .row ⟨0, .st 2, ev 1, none, none, .st 4, false⟩) (l := (0, .st 4)) h2 (by decide +kernel) rfl rfl
    (fun _ h => nomatch h) (by decide +kernel)

theorem passing_stays {P W : Type} (sem : Sem P W) : passing.Stays sem fun c =>
    c.waiting = [] ∧ (c.slots = [some (0, .st 1)] ∨ c.slots = [some (0, .st 3)]) where
  fresh d w := by
    refine ⟨rfl, Or.inl ?_⟩
    show ((passing.declaredInitials passing.root).map fun i => some (passing.root, StTy.st i)) ++
      List.replicate (passing.slotCount - (passing.declaredInitials passing.root).length) none =
        [some (0, StTy.st 1)]
    decide +kernel
  world c w h := h
  deps c d h := h
  event c ev p fuel := by
    rintro ⟨hw, hs⟩ hd hev
    have hev' : ev ∈ [Ex.ev 0, .none, Ex.ev 1] := by
      have : passing.events = [Ex.ev 0, .none, Ex.ev 1] := by decide +kernel
      rwa [this] at hev
    have ho : passing.orthogonal = false := by decide +kernel
    have hh : passing.historic = false := by decide +kernel
    have hdf : passing.deferring = false := by decide +kernel
    have ha : passing.anonymous = true := by decide +kernel
    have hn : (passing.decl passing.root).handler = none := by decide +kernel
    have hc0 : (0 : Name) ∈ passing.composites := by decide +kernel
    -- nothing happens
    have quiet : ∀ {st : StTy}, c.slots = [some (0, st)] → passing.cands ev 0 st = [] →
        passing.receive sem fuel ev p c = .ok false c := by
      intro st hs hc
      have hv : passing.visit sem false 0 ev p c = .ok (.none, p) c :=
        Machine.visit_none (l := (0, st)) (by rw [hs]; rfl) hc0 hc
      simp [Machine.receive, Machine.handle, Machine.taking, ho, Machine.sweep, hv, Res.bind,
        Machine.complain, hn, List.range_succ]
    rcases hs with hs | hs
    · simp only [List.mem_cons, List.not_mem_nil, or_false] at hev'
      rcases hev' with rfl | rfl | rfl
      · -- `A` to `B` and on to `C`
        have hv : passing.visit sem false 0 (Ex.ev 0) p c =
            .ok (.fired, p) { c with slots := [some (0, .st 2)] } := by
          rw [Machine.visit_hop (l := (0, .st 1)) (l' := (0, .st 2)) (h := false) (by decide +kernel)
            (by rw [hs]; rfl) hd]
          simp [hh, Machine.put, Machine.recount, ho, Res.bind, hs]
        have hv2 : ∀ p : P, passing.visit sem true 0 .none p { c with slots := [some (0, .st 2)] } =
            .ok (.fired, p) { c with slots := [some (0, .st 3)] } := by
          intro p
          rw [Machine.visit_hop (c := { c with slots := [some (0, .st 2)] }) (l := (0, .st 2))
            (l' := (0, .st 3)) (h := false) (by decide +kernel) rfl hd]
          simp [hh, Machine.put, Machine.recount, ho, Res.bind]
        have hv3 : ∀ p : P, passing.visit sem true 0 .none p { c with slots := [some (0, .st 3)] } =
            .ok (.none, p) { c with slots := [some (0, .st 3)] } := fun p =>
          Machine.visit_none (l := (0, .st 3)) rfl hc0 (by decide +kernel)
        simp only [hw] at hv hv2 hv3
        rcases fuel with _ | _ | fuel <;>
          simp [Machine.receive, Machine.handle, Machine.taking, ho, Machine.sweep, hv, Res.bind, ha,
            Machine.settle, Machine.round, hv2, hv3, Machine.replay, hw, List.range_succ]
      · rw [quiet hs (by decide +kernel)]; exact ⟨hw, Or.inl hs⟩
      · rw [quiet hs (by decide +kernel)]; exact ⟨hw, Or.inl hs⟩
    · have hq : ∀ e ∈ [Ex.ev 0, .none, Ex.ev 1], passing.cands e 0 (.st 3) = [] := by decide +kernel
      rw [quiet hs (hq ev hev')]; exact ⟨hw, Or.inr hs⟩

end Ex

/-- C65 is false with anonymous rows: a state that is left at once cannot be used. -/
theorem C65_refuted_anonymous :
    ¬ C65_claim fun M => M.orthogonal = false ∧ M.historic = false := by
  intro h
  obtain ⟨P, W, sem, ops, s, hr, hns, hat⟩ := h Ex.passing Ex.passing_regular Ex.passing_scoped
    (by decide +kernel) 0 0 (.st 4) Ex.passing_takes
  obtain ⟨c, hc, _, hs⟩ := (Ex.passing_stays sem).reach Ex.passing_regular hr hns
  unfold At at hat
  rw [hc.cur] at hat
  rcases hs with hs | hs <;> rw [hs] at hat <;> revert hat <;> decide +kernel

namespace Ex

/-! ## History -/

/-- `A` (1) goes to `Y` (5) of the composite `P` (3) on event 0; `P` is left by `Y` only, to `B` (2), and
`B` goes back by the history of `P`.  `P` starts in `X` (4). -/
def returning : Machine := Machine.ofList
  [ { table := some
        [ row (ini 1) (ev 0) none none (.ps true (.entry 3 5)),
          row (.ps false (.exit 3 5)) (ev 1) none none (.st 2),
          row (.st 2) (ev 2) none none (.ps true (.history 3)) ] },
    { }, { },
    { table := some [ row (ini 4) (ev 3) none none (.st 5) ] } ] [1]

theorem returning_regular : returning.Regular := Machine.regular_ofList (by decide +kernel)

theorem returning_scoped : returning.Scoped := Machine.scoped_of_check (by decide +kernel)

theorem returning_takes : Takes returning 3 (.st 4) := by
  have h1 : Takes returning 0 (.st 1) := .initial (by decide +kernel)
  have h2 : Takes returning 3 (.st 5) := .step (ev := ev 0) (cs1 := []) (cs2 := [])
    (c := .row ⟨0, ini 1, ev 0, none, none, .ps true (.entry 3 5), false⟩) (l := (3, .st 5)) h1
    (by decide +kernel) rfl rfl (fun _ h => nomatch h) (by decide +kernel)
  have h3 : Takes returning 0 (.st 2) := .step (ev := ev 1) (cs1 := []) (cs2 := [])
    (c := .row ⟨0, .ps false (.exit 3 5), ev 1, none, none, .st 2, false⟩) (l := (0, .st 2)) h2
    (by decide +kernel) rfl rfl (fun _ h => nomatch h) (by decide +kernel)
  exact .step (ev := ev 2) (cs1 := []) (cs2 := [])
    (c := .row ⟨0, .st 2, ev 2, none, none, .ps true (.history 3), false⟩) (l := (3, .st 4)) h3
    (by decide +kernel) rfl rfl (fun _ h => nomatch h) (by decide +kernel)

theorem returning_stays {P W : Type} (sem : Sem P W) : returning.Stays sem fun c =>
    c.waiting = [] ∧ (c.memory 0).length = 1 ∧ (c.memory 3).length = 1 ∧
      (c.slots = [some (0, .st 1)] ∨ c.slots = [some (3, .st 5)] ∨
        c.slots = [some (0, .st 2)] ∧ c.memory 3 = [(3, .st 5)]) where
  fresh d w := by
    refine ⟨rfl, ?_, ?_, Or.inl ?_⟩
    · show ((returning.declaredInitials 0).map _).length = 1
      rw [List.length_map]
      decide +kernel
    · show ((returning.declaredInitials 3).map _).length = 1
      rw [List.length_map]
      decide +kernel
    · show ((returning.declaredInitials returning.root).map fun i => some (returning.root, StTy.st i)) ++
        List.replicate (returning.slotCount - (returning.declaredInitials returning.root).length) none =
          [some (0, StTy.st 1)]
      decide +kernel
  world c w h := h
  deps c d h := h
  event c ev p fuel := by
    rintro ⟨hw, hm0, hm3, hs⟩ hd hev
    have hev' : ev ∈ [Ex.ev 0, Ex.ev 1, Ex.ev 2, Ex.ev 3] := by
      have : ∀ e ∈ returning.events, e ∈ [Ex.ev 0, Ex.ev 1, Ex.ev 2, Ex.ev 3] := by decide +kernel
      exact this ev hev
    have ho : returning.orthogonal = false := by decide +kernel
    have hh : returning.historic = true := by decide +kernel
    have ha : returning.anonymous = false := by decide +kernel
    have hn : (returning.decl returning.root).handler = none := by decide +kernel
    have hc0 : (0 : Name) ∈ returning.composites := by decide +kernel
    have hc3 : (3 : Name) ∈ returning.composites := by decide +kernel
    have quiet : ∀ {l : Name × StTy}, c.slots = [some l] → l.1 ∈ returning.composites →
        returning.cands ev l.1 l.2 = [] → returning.receive sem fuel ev p c = .ok false c := by
      intro l hs hl hc
      have hv : returning.visit sem false 0 ev p c = .ok (.none, p) c :=
        Machine.visit_none (l := l) (by rw [hs]; rfl) hl hc
      simp [Machine.receive, Machine.handle, Machine.taking, ho, Machine.sweep, hv, Res.bind,
        Machine.complain, hn, List.range_succ]
    have moves : ∀ {c' : Conf P W}, c'.waiting = [] →
        returning.visit sem false 0 ev p c = .ok (.fired, p) c' →
        returning.receive sem fuel ev p c = .ok true c' := by
      intro c' hw hv
      simp [Machine.receive, Machine.handle, Machine.taking, ho, Machine.sweep, hv, Res.bind, ha,
        Machine.replay, hw, List.range_succ]
    simp only [List.mem_cons, List.not_mem_nil, or_false] at hev'
    rcases hs with hs | hs | ⟨hs, hm⟩
    · rcases hev' with rfl | rfl | rfl | rfl
      · rw [moves (c' := { c with
            slots := [some (3, .st 5)]
            memory := fun q => if q = 0 then (c.memory q).set 0 (0, .st 1) else c.memory q }) hw]
        · exact ⟨hw, by simp [hm0], by simp [hm3], Or.inr (Or.inl rfl)⟩
        · rw [Machine.visit_hop (l := (0, .st 1)) (l' := (3, .st 5)) (h := false) (by decide +kernel)
            (by rw [hs]; rfl) hd]
          simp [hh, Machine.put, Machine.recount, Machine.remember, Machine.seek, ho, Res.bind, hs, hc0,
            hm0]
      all_goals rw [quiet hs hc0 (by decide +kernel)]; exact ⟨hw, hm0, hm3, Or.inl hs⟩
    · rcases hev' with rfl | rfl | rfl | rfl
      · rw [quiet hs hc3 (by decide +kernel)]; exact ⟨hw, hm0, hm3, Or.inr (Or.inl hs)⟩
      · rw [moves (c' := { c with
            slots := [some (0, .st 2)]
            memory := fun q => if q = 3 then (c.memory q).set 0 (3, .st 5) else c.memory q }) hw]
        · refine ⟨hw, by simp [hm0], by simp [hm3], Or.inr (Or.inr ⟨rfl, ?_⟩)⟩
          obtain ⟨l, hl⟩ := List.length_eq_one_iff.1 hm3
          simp [hl]
        · rw [Machine.visit_hop (l := (3, .st 5)) (l' := (0, .st 2)) (h := false) (by decide +kernel)
            (by rw [hs]; rfl) hd]
          simp [hh, Machine.put, Machine.recount, Machine.remember, Machine.seek, ho, Res.bind, hs, hc3,
            hm3]
      all_goals rw [quiet hs hc3 (by decide +kernel)]; exact ⟨hw, hm0, hm3, Or.inr (Or.inl hs)⟩
    · rcases hev' with rfl | rfl | rfl | rfl
      · rw [quiet hs hc0 (by decide +kernel)]; exact ⟨hw, hm0, hm3, Or.inr (Or.inr ⟨hs, hm⟩)⟩
      · rw [quiet hs hc0 (by decide +kernel)]; exact ⟨hw, hm0, hm3, Or.inr (Or.inr ⟨hs, hm⟩)⟩
      · rw [moves (c' := { c with
            slots := [some (3, .st 5)]
            memory := fun q => if q = 0 then (c.memory q).set 0 (0, .st 2) else c.memory q }) hw]
        · exact ⟨hw, by simp [hm0], by simp [hm3], Or.inr (Or.inl rfl)⟩
        · rw [Machine.visit_hop (l := (0, .st 2)) (l' := (3, .st 4)) (h := true) (by decide +kernel)
            (by rw [hs]; rfl) hd]
          simp [hh, Machine.put, Machine.recount, Machine.remember, Machine.recall, Machine.seek, ho,
            Res.bind, hs, hc0, hc3, hm0, hm]
      · rw [quiet hs hc0 (by decide +kernel)]; exact ⟨hw, hm0, hm3, Or.inr (Or.inr ⟨hs, hm⟩)⟩

/-! ## Regions -/

/-- Two regions; region 0 goes from `A` (1) to `Y` (4) in the composite `P` (3), which has no initial
state, on event 0; from `Y` event 1 leads to `Z` (5). -/
def sinking : Machine := Machine.ofList
  [ { table := some
        [ row (ini 1) (ev 0) none none (.ps true (.entry 3 4)),
          row (ini 2) (ev 2) none none (.st 2) ] },
    { }, { },
    { table := some [ row (.st 4) (ev 1) none none (.st 5) ] } ] [1]

theorem sinking_regular : sinking.Regular := Machine.regular_ofList (by decide +kernel)

theorem sinking_scoped : sinking.Scoped := Machine.scoped_of_check (by decide +kernel)

theorem sinking_takes : Takes sinking 3 (.st 5) := by
  have h1 : Takes sinking 0 (.st 1) := .initial (by decide +kernel)
  have h2 : Takes sinking 3 (.st 4) := .step (ev := ev 0) (cs1 := []) (cs2 := [])
    (c := .row ⟨0, ini 1, ev 0, none, none, .ps true (.entry 3 4), false⟩) (l := (3, .st 4)) h1
    (by decide +kernel) rfl rfl (fun _ h => nomatch h) (by decide +kernel)
  exact .step (ev := ev 1) (cs1 := []) (cs2 := [])
    (c := .row ⟨3, .st 4, ev 1, none, none, .st 5, false⟩) (l := (3, .st 5)) h2
    (by decide +kernel) rfl rfl (fun _ h => nomatch h) (by decide +kernel)

theorem sinking_stays {P W : Type} (sem : Sem P W) : sinking.Stays sem fun c =>
    c.waiting = [] ∧ (c.slots = [some (0, .st 1), some (0, .st 2)] ∧ c.active = 2 ∨
      c.slots = [some (3, .st 4), some (0, .st 2)] ∧ c.active = 0) where
  fresh d w := by
    refine ⟨rfl, Or.inl ⟨?_, ?_⟩⟩
    · show ((sinking.declaredInitials sinking.root).map fun i => some (sinking.root, StTy.st i)) ++
        List.replicate (sinking.slotCount - (sinking.declaredInitials sinking.root).length) none =
          [some (0, StTy.st 1), some (0, .st 2)]
      decide +kernel
    · show (sinking.declaredInitials sinking.root).length = 2
      decide +kernel
  world c w h := h
  deps c d h := h
  event c ev p fuel := by
    rintro ⟨hw, hs⟩ hd hev
    have hev' : ev ∈ [Ex.ev 0, Ex.ev 1, Ex.ev 2] := by
      have : ∀ e ∈ sinking.events, e ∈ [Ex.ev 0, Ex.ev 1, Ex.ev 2] := by decide +kernel
      exact this ev hev
    have ho : sinking.orthogonal = true := by decide +kernel
    have hh : sinking.historic = false := by decide +kernel
    have ha : sinking.anonymous = false := by decide +kernel
    have hn : (sinking.decl sinking.root).handler = none := by decide +kernel
    have hc0 : (0 : Name) ∈ sinking.composites := by decide +kernel
    have hc3 : (3 : Name) ∈ sinking.composites := by decide +kernel
    have hi0 : (sinking.declaredInitials 0).length = 2 := by decide +kernel
    have hi3 : (sinking.declaredInitials 3).length = 0 := by decide +kernel
    simp only [List.mem_cons, List.not_mem_nil, or_false] at hev'
    rcases hs with ⟨hs, hact⟩ | ⟨hs, hact⟩
    · rcases hev' with rfl | rfl | rfl
      · have hv0 : sinking.visit sem false 0 (Ex.ev 0) p c =
            .ok (.fired, p) { c with slots := [some (3, .st 4), some (0, .st 2)], active := 0 } := by
          rw [Machine.visit_hop (l := (0, .st 1)) (l' := (3, .st 4)) (h := false) (by decide +kernel)
            (by rw [hs]; rfl) hd]
          simp [hh, Machine.put, Machine.recount, Machine.seek, ho, Res.bind, hs, hc3, hi3]
        have hv1 : sinking.visit sem false 1 (Ex.ev 0) p
            { c with slots := [some (3, .st 4), some (0, .st 2)], active := 0 } =
            .ok (.none, p) { c with slots := [some (3, .st 4), some (0, .st 2)], active := 0 } :=
          Machine.visit_none (l := (0, .st 2)) rfl hc0 (by decide +kernel)
        simp only [hw] at hv0 hv1
        simp [Machine.receive, Machine.handle, Machine.taking, ho, hact, Machine.sweep, hv0, hv1,
          Res.bind, ha, Machine.replay, List.range_succ]
      · have hv0 : sinking.visit sem false 0 (Ex.ev 1) p c = .ok (.none, p) c :=
          Machine.visit_none (l := (0, .st 1)) (by rw [hs]; rfl) hc0 (by decide +kernel)
        have hv1 : sinking.visit sem false 1 (Ex.ev 1) p c = .ok (.none, p) c :=
          Machine.visit_none (l := (0, .st 2)) (by rw [hs]; rfl) hc0 (by decide +kernel)
        simp [Machine.receive, Machine.handle, Machine.taking, ho, hact, Machine.sweep, hv0, hv1,
          Res.bind, hn, Machine.complain, List.range_succ, hw, hs]
      · have hv0 : sinking.visit sem false 0 (Ex.ev 2) p c = .ok (.none, p) c :=
          Machine.visit_none (l := (0, .st 1)) (by rw [hs]; rfl) hc0 (by decide +kernel)
        have hv1 : sinking.visit sem false 1 (Ex.ev 2) p c = .ok (.fired, p) c := by
          rw [Machine.visit_hop (l := (0, .st 2)) (l' := (0, .st 2)) (h := false) (by decide +kernel)
            (by rw [hs]; rfl) hd]
          obtain ⟨slots, memory, waiting, active, deps, first, world, calls⟩ := c
          simp only at hs hact
          subst hs hact
          simp [hh, Machine.put, Machine.recount, Machine.seek, ho, Res.bind, hc0, hi0]
        simp [Machine.receive, Machine.handle, Machine.taking, ho, hact, Machine.sweep, hv0, hv1,
          Res.bind, ha, Machine.replay, List.range_succ, hw, hs]
    · have : sinking.receive sem fuel ev p c = .ok false c := by
        simp [Machine.receive, Machine.handle, Machine.taking, ho, hact, Machine.sweep, Res.bind,
          hn, Machine.complain]
      rw [this]
      exact ⟨hw, Or.inr ⟨hs, hact⟩⟩

end Ex

/-- C65 is false with history: a composite that is never left from its initial state and never entered
by it does not get there by its history either. -/
theorem C65_refuted_history :
    ¬ C65_claim fun M => M.orthogonal = false ∧ M.anonymous = false := by
  intro h
  obtain ⟨P, W, sem, ops, s, hr, hns, hat⟩ := h Ex.returning Ex.returning_regular Ex.returning_scoped
    (by decide +kernel) 0 3 (.st 4) Ex.returning_takes
  obtain ⟨c, hc, _, _, _, hs⟩ := (Ex.returning_stays sem).reach Ex.returning_regular hr hns
  unfold At at hat
  rw [hc.cur] at hat
  rcases hs with hs | hs | ⟨hs, _⟩ <;> rw [hs] at hat <;> revert hat <;> decide +kernel

/-- C65 is false with regions: when region 0 enters a composite without initial states, no region takes
part any more, and the machine never does anything again. -/
theorem C65_refuted_regions :
    ¬ C65_claim fun M => M.historic = false ∧ M.anonymous = false := by
  intro h
  obtain ⟨P, W, sem, ops, s, hr, hns, hat⟩ := h Ex.sinking Ex.sinking_regular Ex.sinking_scoped
    (by decide +kernel) 0 3 (.st 5) Ex.sinking_takes
  obtain ⟨c, hc, _, hs⟩ := (Ex.sinking_stays sem).reach Ex.sinking_regular hr hns
  unfold At at hat
  rw [hc.cur] at hat
  rcases hs with ⟨hs, _⟩ | ⟨hs, _⟩ <;> rw [hs] at hat <;> revert hat <;> decide +kernel

end Hsm

import Verif.PropsChecker
import Verif.PropsCheckerGen

/-!
# Where the checker of C103 is not exact

C103 (PropsCheckerGen.lean) says that the checker for machines of gen/hsm.h is exact if nothing is deferred
or there is one region only.  The condition is needed.
-/

namespace Hsm

section
variable {P W : Type} {M : Machine} {sem : Sem P W} {c : Conf P W}

/-- `I` is kept by the calls. -/
structure Machine.StaysG (M : Machine) (sem : Sem P W) (I : Conf P W → Prop) : Prop where
  fresh : ∀ d w, I (M.fresh d w)
  world : ∀ c w, I c → I { c with world := w }
  deps : ∀ c d, I c → I { c with deps := d :: c.deps }
  event : ∀ c ev p fuel, I c → c.deps ≠ [] → ev ∈ M.eventsG →
    match M.receiveG sem fuel ev p c with
    | .ok _ c' => I c'
    | .throw _ c' => I c'
    | _ => True

theorem Machine.StaysG.reach {I : Conf P W → Prop} (hI : M.StaysG sem I) (hM : M.RegularG) {d : Dep}
    {ops : List (OpG P)} {s : SM P W} (h : RunToG M sem d ops s) : ∃ c, DepictsG M c s ∧ I c := by
  have step : ∀ {s s' : SM P W} {ops : List (OpG P)} {op : OpG P} {fuel : Nat},
      RunToG M sem d ops s → OpOkG M op → (∃ c, DepictsG M c s ∧ I c) →
      ((∃ b, stepG M sem fuel op s = .ok b s') ∨ ∃ x, stepG M sem fuel op s = .throw x s') →
      ∃ c, DepictsG M c s' ∧ I c := by
    intro s s' ops op fuel hr hop ⟨c, hc, hi⟩ h
    have hs := C82_step (sem := sem) hc hM (C82_reach hM hr).1 fuel hop
    have hk : match M.execG sem fuel op c with
        | .ok _ c' => I c'
        | .throw _ c' => I c'
        | _ => True := by
      cases op with
      | process ev p =>
        exact hI.event c ev p fuel hi hc.bound (by rw [Machine.eventsG_eq hM.laid]; exact hop)
      | setDependency d' => exact hI.deps c d' hi
    revert hs hk
    rcases h with ⟨b, h⟩ | ⟨x, h⟩ <;> rw [h] <;> cases M.execG sem fuel op c <;> intro hs hk <;>
      first | exact hs.elim | exact ⟨_, hs.2, hk⟩
  induction h with
  | @init w s h => exact ⟨_, (C82_construct (P := P) hM d w).2.2 s h, hI.fresh d w⟩
  | ok hr hop h ih => exact step hr hop ih (Or.inl ⟨_, h⟩)
  | throw hr hop h ih => exact step hr hop ih (Or.inr ⟨_, h⟩)
  | world _ w ih =>
    obtain ⟨c, hc, hi⟩ := ih
    exact ⟨{ c with world := w }, { hc with world := rfl }, hI.world c w hi⟩

/-- Where both headers have the same candidates, regions do the same. -/
theorem Machine.visitG_visit {anon : Bool} {r : Nat} {ev : EventTy} {p : P} {l : Name × StTy}
    (hs : c.slots[r]? = some (some l)) (hc : M.candsG ev l.1 l.2 = M.cands ev l.1 l.2) :
    M.visitG sem anon r ev p c = M.visit sem anon r ev p c := by
  unfold Machine.visitG Machine.visit Machine.seek
  rw [hs]
  simp only [Res.bind, hc]

end

namespace Ex

theorem overtaken_regularG : overtaken.RegularG := Machine.regularG_ofList (by decide +kernel)

section
variable {P W : Type} (sem : Sem P W) {c : Conf P W}

/-- Region 0 moves from `i` to `j`, or there is no row and it stays. -/
def Shifts (e : EventTy) (i j : Name) : Prop :=
  overtaken.candsG e 0 (.st i) = overtaken.cands e 0 (.st i) ∧
    (overtaken.hopB e (0, .st i) (0, .st j) false = true ∨ overtaken.cands e 0 (.st i) = [] ∧ j = i)

instance (e : EventTy) (i j : Name) : Decidable (Shifts e i j) := by unfold Shifts; infer_instance

theorem overtaken_shifts {e : EventTy} (p : P) {i j : Name} (hs : c.slots = atX i) (hd : c.deps ≠ [])
    (ha : c.active = 2) (h : Shifts e i j) :
    ∃ o, o ≠ .deferred ∧ overtaken.visitG sem false 0 e p c = .ok (o, p) { c with slots := atX j } := by
  have ho : overtaken.orthogonal = true := by decide +kernel
  have hh : overtaken.historic = false := by decide +kernel
  have hc0 : (0 : Name) ∈ overtaken.composites := by decide +kernel
  have hi0 : (overtaken.declaredInitials 0).length = 2 := by decide +kernel
  obtain ⟨slots, memory, waiting, active, deps, first, world, calls⟩ := c
  dsimp only at hs ha hd
  subst hs ha
  rw [Machine.visitG_visit (l := (0, .st i)) rfl h.1]
  rcases h.2 with h | ⟨h, rfl⟩
  · refine ⟨.fired, nofun, ?_⟩
    rw [Machine.visit_hop h rfl hd]
    simp [hh, Machine.put, Machine.recount, Machine.seek, ho, Res.bind, hc0, hi0, atX]
  · exact ⟨.none, nofun, Machine.visit_none (l := (0, .st j)) rfl hc0 h⟩

/-- Event 0 is always deferred by region 1. -/
theorem overtaken_zeroG (p : P) (fuel : Nat) {i j : Name} (hs : c.slots = atX i) (hd : c.deps ≠ [])
    (ha : c.active = 2) (h : Shifts (ev 0) i j) :
    ∃ os, .deferred ∈ os ∧ overtaken.handleG sem fuel (ev 0) p c =
      .ok (os, p) { c with slots := atX j, waiting := c.waiting ++ [(ev 0, p)] } := by
  have ho : overtaken.orthogonal = true := by decide +kernel
  obtain ⟨o, ho', hv0⟩ := overtaken_shifts sem p hs hd ha h
  have hv1 : overtaken.visitG sem false 1 (ev 0) p { c with slots := atX j } =
      .ok (.deferred, p) { c with slots := atX j, waiting := c.waiting ++ [(ev 0, p)] } := by
    rw [Machine.visitG_visit (l := (0, .st 2)) rfl (by decide +kernel)]
    exact overtaken_defers sem p (c := { c with slots := atX j }) rfl hd
  refine ⟨[o, .deferred], by simp, ?_⟩
  unfold Machine.handleG
  have ht : overtaken.taking c = [0, 1] := by unfold Machine.taking; rw [ho, ha]; rfl
  simp [ht, Machine.sweepG, hv0, hv1, Res.bind, ho']

/-- Event 1 is always taken by region 1. -/
theorem overtaken_oneG (p : P) (fuel : Nat) {i j : Name} (hs : c.slots = atX i) (hd : c.deps ≠ [])
    (ha : c.active = 2) (h : Shifts (ev 1) i j) :
    overtaken.receiveG sem fuel (ev 1) p c = overtaken.replayG sem fuel { c with slots := atX j } := by
  have ho : overtaken.orthogonal = true := by decide +kernel
  have hh : overtaken.historic = false := by decide +kernel
  have hn : overtaken.anonymous = false := by decide +kernel
  have hc0 : (0 : Name) ∈ overtaken.composites := by decide +kernel
  have hi0 : (overtaken.declaredInitials 0).length = 2 := by decide +kernel
  obtain ⟨o, ho', hv0⟩ := overtaken_shifts sem p hs hd ha h
  have hv1 : overtaken.visitG sem false 1 (ev 1) p { c with slots := atX j } =
      .ok (.fired, p) { c with slots := atX j } := by
    rw [Machine.visitG_visit (l := (0, .st 2)) rfl (by decide +kernel)]
    obtain ⟨slots, memory, waiting, active, deps, first, world, calls⟩ := c
    dsimp only at hs ha hd
    subst hs ha
    rw [Machine.visit_hop (l := (0, .st 2)) (l' := (0, .st 2)) (h := false) (by decide +kernel) rfl hd]
    simp [hh, Machine.put, Machine.recount, Machine.seek, ho, Res.bind, hc0, hi0, atX]
  have ht : overtaken.taking c = [0, 1] := by unfold Machine.taking; rw [ho, ha]; rfl
  unfold Machine.receiveG Machine.handleG
  simp [ht, Machine.sweepG, hv0, hv1, Res.bind, ho', hn]

/-- The oldest deferred event is deferred again. -/
theorem overtaken_replayG (fuel : Nat) {i j : Name} (hs : c.slots = atX i) (hd : c.deps ≠ [])
    (ha : c.active = 2) (hw : ∀ x ∈ c.waiting, x.1 = ev 0) (hq : c.waiting ≠ []) (h : Shifts (ev 0) i j) :
    ∃ c', overtaken.replayG sem fuel c = .ok () c' ∧ c'.active = 2 ∧ (∀ x ∈ c'.waiting, x.1 = ev 0) ∧
      c'.slots = atX j ∧ c'.waiting ≠ [] := by
  have hdf : overtaken.deferring = true := by decide +kernel
  cases hcw : c.waiting with
  | nil => exact absurd hcw hq
  | cons x q =>
    obtain ⟨e', p'⟩ := x
    have : e' = ev 0 := hw (e', p') (by rw [hcw]; exact List.mem_cons_self)
    subst this
    obtain ⟨os, _, e⟩ := overtaken_zeroG sem p' fuel (c := { c with waiting := q }) hs hd ha h
    refine ⟨{ c with slots := atX j, waiting := q ++ [(ev 0, p')] }, ?_, ha, ?_, rfl, by simp⟩
    · unfold Machine.replayG
      simp only [hcw, hdf, if_true]
      rw [e]
      rfl
    · intro x hx
      rcases List.mem_append.1 hx with hx | hx
      · exact hw x (by rw [hcw]; exact List.mem_cons_of_mem _ hx)
      · cases List.mem_singleton.1 hx; rfl

theorem overtaken_passesG (hc : Passes c) (hd : c.deps ≠ []) {e : EventTy} (he : e ∈ overtaken.eventsG)
    (p : P) (fuel : Nat) : ∃ b c', overtaken.receiveG sem fuel e p c = .ok b c' ∧ Passes c' := by
  have hev : e ∈ [ev 0, ev 1] := by
    have : ∀ e ∈ overtaken.eventsG, e ∈ [ev 0, ev 1] := by decide +kernel
    exact this e he
  obtain ⟨ha, hw, hs⟩ := hc
  have hw' : ∀ x ∈ c.waiting ++ [(ev 0, p)], x.1 = ev 0 := by
    intro x hx
    rcases List.mem_append.1 hx with hx | hx
    · exact hw x hx
    · cases List.mem_singleton.1 hx; rfl
  have zero : ∀ {i j k : Name}, c.slots = atX i → Shifts (ev 0) i j → Shifts (ev 0) j k →
      (k = 3 ∨ k = 5) → ∃ b c', overtaken.receiveG sem fuel (ev 0) p c = .ok b c' ∧ Passes c' := by
    intro i j k hs h h' hk
    obtain ⟨os, ho, e⟩ := overtaken_zeroG sem p fuel hs hd ha h
    obtain ⟨c', e', ha', hq, hs', hn⟩ := overtaken_replayG sem fuel
      (c := { c with slots := atX j, waiting := c.waiting ++ [(ev 0, p)] }) rfl hd ha hw' (by simp) h'
    refine ⟨(), c', ?_, ha', hq, ?_⟩
    · unfold Machine.receiveG
      rw [e]
      show (if _ then _ else _) = _
      rw [if_neg fun hall => by cases hall _ ho]
      exact e'
    · rcases hk with rfl | rfl
      · exact Or.inr (Or.inl ⟨hs', hn⟩)
      · exact Or.inr (Or.inr hs')
  simp only [List.mem_cons, List.not_mem_nil, or_false] at hev
  rcases hev with rfl | rfl
  · rcases hs with ⟨hs, hq⟩ | ⟨hs, hq⟩ | hs
    · exact zero (j := 3) (k := 3) hs (by decide +kernel) (by decide +kernel) (Or.inl rfl)
    · exact zero (j := 3) (k := 3) hs (by decide +kernel) (by decide +kernel) (Or.inl rfl)
    · exact zero (j := 5) (k := 5) hs (by decide +kernel) (by decide +kernel) (Or.inr rfl)
  · rcases hs with ⟨hs, hq⟩ | ⟨hs, hq⟩ | hs
    · refine ⟨(), { c with slots := atX 1 }, ?_, ha, hw, Or.inl ⟨rfl, hq⟩⟩
      rw [overtaken_oneG sem p fuel (j := 1) hs hd ha (by decide +kernel)]
      unfold Machine.replayG
      simp only [hq]
    · obtain ⟨c', e', ha', hq', hs', _⟩ := overtaken_replayG sem fuel (c := { c with slots := atX 4 }) (j := 5)
        rfl hd ha hw hq (by decide +kernel)
      refine ⟨(), c', ?_, ha', hq', Or.inr (Or.inr hs')⟩
      rw [overtaken_oneG sem p fuel (j := 4) hs hd ha (by decide +kernel)]
      exact e'
    · rw [overtaken_oneG sem p fuel (j := 5) hs hd ha (by decide +kernel)]
      by_cases hq : c.waiting = []
      · refine ⟨(), { c with slots := atX 5 }, ?_, ha, hw, Or.inr (Or.inr rfl)⟩
        unfold Machine.replayG
        simp only [hq]
      · obtain ⟨c', e', ha', hq', hs', _⟩ := overtaken_replayG sem fuel (c := { c with slots := atX 5 }) (j := 5)
          rfl hd ha hw hq (by decide +kernel)
        exact ⟨(), c', e', ha', hq', Or.inr (Or.inr hs')⟩

theorem overtaken_staysG : overtaken.StaysG sem Passes where
  fresh := (overtaken_stays sem).fresh
  world c w h := h
  deps c d h := h
  event c ev p fuel hc hd hev := by
    obtain ⟨b, c', e, h⟩ := overtaken_passesG sem hc hd hev p fuel
    rw [e]; exact h

end

end Ex

/-- With deferral and several regions the checker is not exact: it rejects a machine that no client can
make do anything undefined, because a deferred event always comes first. -/
theorem C103_defer_needed : Ex.overtaken.RegularG ∧ Ex.overtaken.ScopesRealG ∧
    (∀ k, Ex.overtaken.closedG (Ex.overtaken.exploreG k) = true →
      Ex.overtaken.safeG (Ex.overtaken.exploreG k) = false) ∧
    ∀ (P W : Type) (sem : Sem P W) (d : Dep) (ops : List (OpG P)) (s : SM P W),
      RunToG Ex.overtaken sem d ops s → ∀ (op : OpG P) (fuel : Nat) (u : UB),
      OpOkG Ex.overtaken op → stepG Ex.overtaken sem fuel op s ≠ .ub u := by
  refine ⟨Ex.overtaken_regularG, (Ex.builtG Ex.overtaken_regularG (by decide +kernel)).1, fun k hk => ?_, ?_⟩
  · by_contra hs
    have hs : Ex.overtaken.safeG (Ex.overtaken.exploreG k) = true := by
      cases h : Ex.overtaken.safeG (Ex.overtaken.exploreG k) with
      | true => rfl
      | false => exact absurd h hs
    obtain ⟨x, hx, hu⟩ : ∃ x ∈ Ex.overtaken.exploreG 5, ∃ u, .ub u ∈ Ex.overtaken.nextG x.1 x.2 := by
      have : ¬ Ex.overtaken.safeG (Ex.overtaken.exploreG 5) = true := by decide +kernel
      unfold Machine.safeG at this
      simp only [List.all_eq_true, not_forall] at this
      obtain ⟨x, hx, y, hy, h⟩ := this
      refine ⟨x, hx, ?_⟩
      cases y with
      | ok b n => exact absurd rfl h
      | throw e n => exact absurd rfl h
      | timeout => exact absurd rfl h
      | ub u => exact ⟨u, hy⟩
    exact Machine.not_undefinedG hk hs (Machine.explore_walkG 5 hx) hu.choose_spec
  · intro P W sem d ops s h op fuel u hop hu
    obtain ⟨c, hc, hp⟩ := (Ex.overtaken_staysG sem).reach Ex.overtaken_regularG h
    have he := ((C82_undefined (sem := sem) hc Ex.overtaken_regularG (C82_reach Ex.overtaken_regularG h).1 fuel
      hop).1 u).1 hu
    cases op with
    | process ev p =>
      obtain ⟨b, c', e, _⟩ := Ex.overtaken_passesG sem hp hc.bound (e := ev)
        (by rw [Machine.eventsG_eq Ex.overtaken_regularG.laid]; exact hop) p fuel
      have he : Ex.overtaken.receiveG sem fuel ev p c = .ub u := he
      rw [e] at he
      cases he
    | setDependency d' => cases he

end Hsm

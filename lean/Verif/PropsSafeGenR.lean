import Verif.UpholdsG
import Verif.PropsHeadersR

/-!
# Undefined behaviour in machines of the amalgamated header used by their callbacks (C99)

As C59 for the modular headers: callbacks of a safe machine that send events to it or hand over
dependencies add no undefined behaviour, unless a guard has a dependency handed over and says no.
-/

namespace Hsm

section
variable {P W : Type}

/-! ## Specification -/

/-- As `SafeG`, for callbacks that use the machine. -/
structure SafeGR (M : Machine) (sem : SemR P W) : Prop where
  scopes : M.ScopesRealG
  targets : ∀ t ∈ M.extRows ++ M.intRowsG, ∀ l, M.targetLoc t = some l → l.1 ∈ M.composites
  rootInit : M.declaredInitials M.root ≠ []
  regions : ∀ p ∈ M.composites, (M.declaredInitials p).length ≤ (M.declaredInitials M.root).length
  history : M.historic = true → ∀ p ∈ M.composites,
    (M.declaredInitials p).length = (M.declaredInitials M.root).length
  noneNotDeferred : M.anonymous = true → ∀ p st, Cand.defer ∉ M.candsG .none p st
  objects : ∀ st, M.selfMade st = true ∨ ∀ w, sem.alive st w = true
  callbacks : sem.Good False (OpOkGR M)

/-! ## Proofs -/

variable {M : Machine} {sem : SemR P W}

theorem SafeGR.safe (h : SafeGR M sem) : SafeG M sem.still :=
  ⟨h.scopes, h.targets, h.rootInit, h.regions, h.history, h.noneNotDeferred, h.objects,
    by simp [SemR.still], by simp [SemR.still], by simp [SemR.still]⟩

/-- A candidate of a regular machine is to be deferred or a row that leads somewhere. -/
def Sturdy (M : Machine) (ev : EventTy) (_ : Nat) (cd : Cand) : Prop :=
  (cd.row? = none ∧ ∃ p st, cd ∈ M.candsG ev p st) ∨
    ∃ t l, cd.row? = some t ∧ M.targetLoc t = some l ∧ l.1 ∈ M.composites

/-- Safe machines stay as they are, if something is said about invalid iterators. -/
theorem Upholds.firm (hM : M.RegularG) (hS : SafeGR M sem) {U : UB → Prop} {Q : Op P → Prop}
    {J : List Dep → Prop} (hQ : ∀ op, Q op → OpOkGR M op) (hg : sem.Good False Q)
    (hJ : ∀ d ds, Q (.setDependency d) → J ds → J (d :: ds))
    (hi : ∀ call (c c' : Conf P W) ev d cd t l p p', Firm M c ∧ J c.deps →
      M.askR sem call ev d cd t l p c = .ok (false, p') c' → Firm M c' ∧ J c'.deps →
      U .iterator ∨ c'.deps.length = c.deps.length) :
    Upholds M sem U Q (· < (M.declaredInitials M.root).length) (fun _ => True)
      (fun c => Firm M c ∧ J c.deps) (Sturdy M) (fun _ => True) where
  good := hg.no
  world := fun _ _ h => ⟨h.1.other rfl rfl rfl, h.2⟩
  noted := fun _ _ h _ => ⟨h.1.other rfl rfl rfl, h.2⟩
  obj := by
    intro c st _ h
    unfold Machine.presentR at h
    rcases hS.objects st with h1 | h1 <;> simp [h1] at h
  anon := trivial
  sent := fun _ _ _ => trivial
  noSet := fun r p st h => (hQ _ h).elim
  queued := fun _ _ _ _ _ _ => trivial
  regions := fun _ h => h.1.taking hS.safe
  zero := List.length_pos_iff.2 hS.rootInit
  look := fun _ _ h hr => Or.inr (h.1.seek hr)
  cand := by
    intro c r l ev cd _ _ _ _ hcd
    rcases Machine.RegularG.cand_loc hM hcd with rfl | ⟨t, ht, hmem, k, hk, _⟩
    · exact Or.inl ⟨rfl, _, _, hcd⟩
    · exact Or.inr ⟨t, k, ht, hk, hS.targets t hmem k hk⟩
  null := by
    intro ev r cd t h ht hl
    rcases h with ⟨h, _⟩ | ⟨t', l, h1, h2, _⟩
    · rw [h] at ht; cases ht
    · rw [h1] at ht; cases ht; rw [h2] at hl; cases hl
  nullAnon := by
    intro r cd h hA hn
    rcases h with ⟨_, p, st, hcd⟩ | ⟨t', l, h1, h2, _⟩
    · cases cd with
      | defer => exact absurd hcd (hS.noneNotDeferred hA p st)
      | _ => cases hn
    · rw [h1] at hn; cases hn
  iter := hi
  move := by
    intro c ev r cd t l h hr hC ht hl _
    have hl' : l.1 ∈ M.composites := by
      rcases hC with ⟨hn, _⟩ | ⟨t', l', h1, h2, h3⟩
      · rw [hn] at ht; cases ht
      · rw [h1] at ht; cases ht; rw [h2] at hl; cases hl; exact h3
    have h1 := h.1.travel hS.safe hr t hl'
    have h2 := Machine.travel_deps (M := M) r t l c
    revert h1 h2
    cases M.travel r t l c with
    | ok u c' => intro h1 h2; exact ⟨h1, by rw [h2.1]; exact h.2⟩
    | throw x c' => intro h1 h2; exact ⟨h1, by rw [h2.1]; exact h.2⟩
    | ub u => intro h1 _; exact h1.elim
    | timeout => intro _ _; trivial
  push := fun _ _ _ _ _ h _ _ => ⟨h.1.other rfl rfl rfl, h.2⟩
  pop := fun _ _ _ h _ => ⟨h.1.other rfl rfl rfl, h.2⟩
  dep := fun _ d hq h => ⟨h.1.other rfl rfl rfl, hJ d _ hq h.2⟩
  guard := fun _ _ _ _ _ _ _ _ _ _ _ => trivial
  action := fun _ _ _ _ _ _ _ _ _ _ _ _ _ _ _ => trivial
  handler := fun _ _ _ _ _ _ _ _ _ _ _ => trivial

theorem enact_quiet {call : Op P → Conf P W → Res (Conf P W) Bool} {α : Type} {pr : Prog P W α}
    (h : pr.Good True (fun _ => False)) {c c' : Conf P W} {a : α × P}
    (he : Machine.enact call pr c = .ok a c') : c'.deps = c.deps := by
  cases pr with
  | ret b p w => cases he; rfl
  | throw x w => cases he
  | ub => cases he
  | call op w k => exact h.1.elim

theorem ask_quiet {call : Op P → Conf P W → Res (Conf P W) Bool} (hq : sem.QuietGuards) {c c' : Conf P W}
    {ev : EventTy} {d : Dep} {cd : Cand} {t : XRow} {l : Name × StTy} {p : P} {a : Bool × P}
    (h : M.askR sem call ev d cd t l p c = .ok a c') : c'.deps = c.deps := by
  unfold Machine.askR at h
  cases hg : t.guard with
  | none => rw [hg] at h; cases h; rfl
  | some g =>
    rw [hg] at h
    dsimp only at h
    generalize (if t.internal = true then cd.src else l.2) = dst at h
    split at h
    · unfold Machine.enactNoted at h
      cases he : Machine.enact call (sem.guard g ⟨ev, cd.src, dst, false, d⟩ p c.world) c with
      | ok a c1 =>
        rw [he] at h
        cases h
        exact (enact_quiet (hq _ _ _ _) he : c1.deps = c.deps)
      | throw x c1 => rw [he] at h; cases h
      | ub u => rw [he] at h; cases h
      | timeout => rw [he] at h; cases h
    · cases h

theorem SafeGR.exec (hM : M.RegularG) (hS : SafeGR M sem) (hq : sem.QuietGuards ∨ sem.KeepsDeps)
    (fuel n : Nat) (op : Op P) (c : Conf P W) (hop : OpOkGR M op) (hc : Firm M c) :
    (M.execGR sem fuel n op c).SatU (fun _ => False) (fun _ => Firm M) (fun _ => Firm M) := by
  rcases hq with hq | hk
  · have := (Upholds.firm (U := fun _ => False) (J := fun _ => True) hM hS (fun _ h => h) hS.callbacks
      (fun _ _ _ _ => trivial) (fun _ _ _ _ _ _ _ _ _ _ _ h _ => Or.inr (by rw [ask_quiet hq h]))).exec
      fuel n op c hop ⟨hc, trivial⟩
    cases hr : M.execGR sem fuel n op c <;> rw [hr] at this
    · exact this.1
    · exact this.1
    · exact this
    · trivial
  · have key : (∀ d, op ≠ .setDependency d) →
        (M.execGR sem fuel n op c).SatU (fun _ => False) (fun _ => Firm M) (fun _ => Firm M) := by
      intro hne
      have := (Upholds.firm (U := fun _ => False) (J := fun ds => ds.length = c.deps.length)
        (Q := fun op => OpOkGR M op ∧ ∀ d, op ≠ .setDependency d) hM hS (fun _ h => h.1)
        ⟨fun g a p w => (hS.callbacks.guard g a p w).and (hk.guard g a p w),
          fun g a p w => (hS.callbacks.action g a p w).and (hk.action g a p w),
          fun g e st d p w => (hS.callbacks.handler g e st d p w).and (hk.handler g e st d p w)⟩
        (fun d _ h _ => absurd rfl (h.2 d))
        (fun _ _ _ _ _ _ _ _ _ _ h1 _ h2 => Or.inr (h2.2.trans h1.2.symm))).exec
        fuel n op c ⟨hop, hne⟩ ⟨hc, rfl⟩
      cases hr : M.execGR sem fuel n op c <;> rw [hr] at this
      · exact this.1
      · exact this.1
      · exact this
      · trivial
    cases op with
    | process ev p => exact key (fun _ => by simp)
    | set r p st => exact hop.elim
    | setDependency d =>
      cases n with
      | zero => trivial
      | succ n => exact hc.other rfl rfl rfl

theorem SafeGR.iter (hM : M.RegularG) (hS : SafeGR M sem) :
    Upholds M sem (· = .iterator) (OpOkGR M) (· < (M.declaredInitials M.root).length) (fun _ => True)
      (fun c => Firm M c ∧ True) (Sturdy M) (fun _ => True) :=
  Upholds.firm (U := (· = .iterator)) (J := fun _ => True) hM hS (fun _ h => h) hS.callbacks (fun _ _ _ h => h)
    (fun _ _ _ _ _ _ _ _ _ _ _ _ _ => Or.inl rfl)

/-- What can be asked of a machine without a call is defined. -/
theorem Firm.observers (hS : SafeGR M sem) {c : Conf P W} {s : SM P W} (hc : DepictsG M c s)
    (hf : Firm M c) : (∀ st, (isState M st s).Defined) ∧ (∀ p, (parentIs M p s).Defined) ∧
      (∀ r p st, (isRegion M r p st s).Defined) ∧ (status M s).Defined := by
  have hpos := List.length_pos_iff.2 hS.rootInit
  refine observers_defined (n := (M.declaredInitials M.root).length) ?_ hpos ?_ ?_
  · rw [hc.cur, List.length_map]; exact hf.length
  · intro r hr
    have hr' : r < c.slots.length := by rw [hf.length]; exact hr
    obtain ⟨l, h1, _⟩ := hf.slots _ (List.getElem_mem hr')
    exact ⟨M.comb l.1 l.2, by rw [hc.cur, List.getElem?_map, List.getElem?_eq_getElem hr', h1]; rfl⟩
  · unfold activeRegions
    split
    · rename_i ho
      rw [hc.regions ho]; exact hf.active ho
    · exact hpos

/-- Safe machines are sturdy after every history. -/
theorem RunToGR.firm (hM : M.RegularG) (hS : SafeGR M sem) {d : Dep} {ops : List (Op P)} {s : SM P W}
    (h : RunToGR M sem d ops s) : ∃ c, DepictsG M c s ∧ Firm M c := by
  obtain ⟨c, h1, h2⟩ := (hS.iter hM).runs hM hS.callbacks.no
    (fun w => ⟨Firm.fresh hM hS.safe d w, trivial⟩) h h.ops_ok
  exact ⟨c, h1, h2.1⟩

/-! ## C99 -/

/-- C99: safe machines can be constructed. -/
theorem C99_construct (hM : M.RegularG) (hS : SafeGR M sem) (d : Dep) (w : W) :
    ∃ s : SM P W, constructG M d w = .ok s :=
  (C82_construct (P := P) hM d w).1.2 ⟨hS.scopes, fun _ => hS.rootInit⟩

/-- C99 if guards make no calls or no callback calls `set_dependency` (this is what is missing from the full
claim): in any history, however deep the calls nest, nothing is undefined. -/
theorem C99_partial (hM : M.RegularG) (hS : SafeGR M sem) (hq : sem.QuietGuards ∨ sem.KeepsDeps)
    {d : Dep} {ops : List (Op P)} {s : SM P W} (h : RunToGR M sem d ops s) :
    (∀ fuel n op, OpOkGR M op → (stepGR M sem fuel n op s).Defined) ∧
    (∀ st, (isState M st s).Defined) ∧ (∀ p, (parentIs M p s).Defined) ∧
    (∀ r p st, (isRegion M r p st s).Defined) ∧ (status M s).Defined := by
  obtain ⟨c, hc, hf⟩ := h.firm hM hS
  refine ⟨?_, Firm.observers hS hc hf⟩
  intro fuel n op hop u hu
  have hu := ((C97_undefined (sem := sem) hc hM hS.scopes hS.callbacks.no fuel n hop).1 u).1 hu
  have := hS.exec hM hq fuel n op c hop hf
  rw [hu] at this
  exact this

/-- C99 without restrictions on the callbacks: the only thing that can go wrong in a safe machine is a loop
that goes on after its table cell was pushed to. -/
theorem C99_only_iterators (hM : M.RegularG) (hS : SafeGR M sem) {d : Dep} {ops : List (Op P)}
    {s : SM P W} (h : RunToGR M sem d ops s) :
    (∀ fuel n op u, OpOkGR M op → stepGR M sem fuel n op s = .ub u → u = .iterator) ∧
    (∀ st, (isState M st s).Defined) ∧ (∀ p, (parentIs M p s).Defined) ∧
    (∀ r p st, (isRegion M r p st s).Defined) ∧ (status M s).Defined := by
  obtain ⟨c, hc, hf⟩ := h.firm hM hS
  refine ⟨?_, Firm.observers hS hc hf⟩
  intro fuel n op u hop hu
  have hu := ((C97_undefined (sem := sem) hc hM hS.scopes hS.callbacks.no fuel n hop).1 u).1 hu
  have := (hS.iter hM).exec fuel n op c hop ⟨hf, trivial⟩
  rw [hu] at this
  exact this

end

/-! ## Examples -/

section
open Ex

theorem Ex.hop_regularG : hop.RegularG := Machine.regularG_ofList (by decide +kernel)

theorem Ex.hop_safeGR {on : Nat → Bool} {asks calls : Nat → List (Op Nat)}
    (h1 : ∀ c, ∀ op ∈ asks c, OpOkGR hop op) (h2 : ∀ c, ∀ op ∈ calls c, OpOkGR hop op) :
    SafeGR hop (semR on asks calls) :=
  have s0 : SafeG hop (sem fun _ => true) := safeG_of_check (by decide +kernel)
    (by intros; simp [sem]) (by intros; simp [sem]) (by intros; simp [sem])
  ⟨s0.scopes, s0.targets, s0.rootInit, s0.regions, s0.history, s0.noneNotDeferred,
    fun st => Or.inl (hop_objects st), semR_good h1 h2⟩

theorem Ex.waiting_safeGR {on : Nat → Bool} {asks calls : Nat → List (Op Nat)}
    (h1 : ∀ c, ∀ op ∈ asks c, OpOkGR waiting op) (h2 : ∀ c, ∀ op ∈ calls c, OpOkGR waiting op) :
    SafeGR waiting (semR on asks calls) :=
  have s0 : SafeG waiting (sem fun _ => true) := safeG_of_check (by decide +kernel)
    (by intros; simp [sem]) (by intros; simp [sem]) (by intros; simp [sem])
  ⟨s0.scopes, s0.targets, s0.rootInit, s0.regions, s0.history, s0.noneNotDeferred,
    fun st => by rcases s0.objects st with h | h
                 · exact Or.inl h
                 · exact Or.inr fun w => h w, semR_good h1 h2⟩

/-- C99 is false in general: a guard that calls `set_dependency` and says no. -/
theorem C99_refuted : ∃ (M : Machine) (sem : SemR Nat (List Nat)) (d : Dep) (s : SM Nat (List Nat))
    (fuel n : Nat) (op : Op Nat), M.RegularG ∧ SafeGR M sem ∧ RunToGR M sem d [] s ∧ OpOkGR M op ∧
    stepGR M sem fuel n op s = .ub .iterator := by
  have hS : SafeGR hop (rewire false) :=
    hop_safeGR (only_all fun op h => by rw [List.mem_singleton.1 h]; trivial) never_all
  obtain ⟨s, hs⟩ := C99_construct hop_regularG hS 7 []
  have hr : RunToGR hop (rewire false) 7 [] s := .init hs
  refine ⟨hop, rewire false, 7, s, 5, 5, .process (ev 0) 1, hop_regularG, hS, hr, hop_okG 0 (by decide) 1, ?_⟩
  have hc := (C82_construct (P := Nat) hop_regularG 7 ([] : List Nat)).2.2 s hs
  refine ((C97_undefined hc hop_regularG hS.scopes hS.callbacks.no 5 5 (hop_okG 0 (by decide) 1)).1 _).2 ?_
  have : (match hop.execGR (rewire false) 5 5 (.process (ev 0) 1) (hop.fresh 7 []) with
    | .ub u => u == .iterator
    | _ => false) = true := by decide +kernel
  revert this
  cases hop.execGR (rewire false) 5 5 (.process (ev 0) 1) (hop.fresh 7 []) with
  | ub u => intro h; rw [eq_of_beq h]
  | _ => intro h; cases h

/-- The action in `hasty` sends two events, and one that waits is handled on the way: nothing is undefined. -/
example {s : SM Nat (List Nat)} {ops : List (Op Nat)} (h : RunToGR waiting hasty 7 ops s) (fuel n : Nat) :
    (stepGR waiting hasty fuel n (.process (ev 0) 1) s).Defined := by
  refine (C99_partial waiting_regularG (waiting_safeGR never_all (only_all ?_)) (Or.inl semR_quiet) h).1 fuel n
    _ (waiting_okG 0 (by decide) 1)
  intro op hop
  simp only [List.mem_cons, List.not_mem_nil, or_false] at hop
  rcases hop with rfl | rfl
  · exact waiting_okG 3 (by decide) _
  · exact waiting_okG 2 (by decide) _

end
end Hsm

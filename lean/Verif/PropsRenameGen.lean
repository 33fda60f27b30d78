import Verif.PropsRenameR
import Verif.PropsSystemsGen

/-!
# C135: names do not matter under gen/hsm.h

C76 and C134 for `include/hsm/gen/hsm.h`.
-/

namespace Hsm

/-! ## What the compiler computes -/

namespace Renamed
section
variable {φ : Ren} (hφ : φ.Faithful) {M M' : Machine} (hM : Renamed φ M M')
include hφ hM

omit hφ in
theorem allSubStates : M'.allSubStates = M.allSubStates.map (StTy.ren φ) := by
  unfold Machine.allSubStates
  rw [hM.flat, List.flatMap_map, List.map_flatMap]
  congr 1
  funext t
  show [Machine.stripInitial (t.source.ren φ), t.target.ren φ] = _
  rw [stripInitial]; rfl

theorem allStates : M'.allStates = M.allStates.map (StTy.ren φ) := by
  unfold Machine.allStates
  rw [hM.allSubStates, hM.root, ← uniq_map_inj hφ.ty, List.map_append]; rfl

theorem internalRowsOfG (x : StTy) :
    M'.internalRowsOfG (x.ren φ) = (M.internalRowsOfG x).map (XRow.ren φ) := by
  obtain s | ⟨o, k⟩ := x
  · simp only [StTy.ren, Machine.internalRowsOfG, hM.decl, hM.isComposite]
    cases h : (M.decl s).itable with
    | none => simp [Decl.ren, h]
    | some is =>
      simp only [Decl.ren, h, Option.map_some]
      split
      · rw [List.flatMap_map, List.map_flatMap]
        congr 1
        funext i
        rw [hM.childStates hφ, List.map_map, List.map_map]; rfl
      · rfl
  · rfl

theorem iflatG : M'.iflatG = M.iflatG.map (XRow.ren φ) := by
  unfold Machine.iflatG
  rw [hM.allStates hφ, List.flatMap_map, List.map_flatMap]
  congr 1
  funext x
  exact hM.internalRowsOfG hφ x

theorem eventIdsG : M'.eventIdsG = M.eventIdsG.map φ.ev := by
  unfold Machine.eventIdsG
  rw [hM.flat, hM.iflatG hφ, ← List.map_append, List.map_map, ← uniq_map_inj hφ.ev, List.map_map]; rfl

theorem acceptsG : M'.acceptsG = M.acceptsG := by
  unfold Machine.acceptsG
  have h1 : M'.flat.all M'.rowCompiles = M.flat.all M.rowCompiles := by
    rw [hM.flat, List.all_map]
    congr 1
    funext t
    exact hM.rowCompiles hφ t
  have h2 : M'.iflatG.all M'.rowCompiles = M.iflatG.all M.rowCompiles := by
    rw [hM.iflatG hφ, List.all_map]
    congr 1
    funext t
    exact hM.rowCompiles hφ t
  have h5 : M'.deferringRows.all (fun t => ((M'.deferOf (Machine.stripInitial t.source)).getD []).all
      fun e => decide (e ∈ M'.eventIdsG)) = M.deferringRows.all (fun t =>
        ((M.deferOf (Machine.stripInitial t.source)).getD []).all fun e => decide (e ∈ M.eventIdsG)) := by
    rw [hM.deferringRows, List.all_map]
    congr 1
    funext t
    show ((M'.deferOf (Machine.stripInitial (t.source.ren φ))).getD []).all _ = _
    rw [stripInitial, hM.deferOf, hM.eventIdsG hφ]
    cases M.deferOf (Machine.stripInitial t.source) with
    | none => rfl
    | some l =>
      simp only [Option.map_some, Option.getD_some, List.all_map]
      congr 1
      funext e
      simp only [Function.comp, mem_map_inj hφ.ev]
  rw [h1, h2, h5, hM.maxInit hφ, hM.root, hM.isComposite, hM.flat, List.isEmpty_map]

theorem fillG (dep : Dep) {T T' : Table} (h : TableRen φ T T') :
    ExRel (TableRen φ) (M.fillG dep T) (M'.fillG dep T') := by
  unfold Machine.fillG
  rw [hM.iflatG hφ, hM.flat]
  exact (hM.fillWith hφ dep _ h).bind fun _ _ h => (hM.fillWith hφ dep _ h).bind fun _ _ h =>
    hM.fillDeferred hφ h

theorem fillHandlersFor (evs : List EventTy) (dep : Dep) {H H' : HTable} (h : HTableRen φ H H') :
    ExRel (HTableRen φ) (M.fillHandlersFor evs dep H) (M'.fillHandlersFor (evs.map φ.ev) dep H') := by
  unfold Machine.fillHandlersFor
  rw [hM.parents hφ, hM.stateIds hφ, hM.size hφ]
  refine ExRel.foldlM _ _ (fun H H' e _ h => ?_) _ _ h
  refine ExRel.foldlM _ _ (fun H H' p _ h => ?_) _ _ h
  refine ExRel.foldlM _ _ (fun H H' s _ h => ?_) _ _ h
  rw [hM.comb hφ]
  split
  · intro e' c'
    dsimp only
    by_cases hc : e' = e ∧ c' = M.comb p s
    · rw [if_pos hc, if_pos ⟨by rw [hc.1], hc.2⟩]; rfl
    · rw [if_neg hc, if_neg (fun h' => hc ⟨hφ.ev _ _ h'.1, h'.2⟩), h]
  · rfl

/-- C135: the compiler accepts both or neither, and the objects constructed are the same under new names. -/
theorem C135_construct {P W : Type} (d : Dep) (w : W) :
    ExRel (SMRen (P := P) φ) (constructG M d w) (constructG M' d w) := by
  unfold constructG
  rw [hM.acceptsG hφ]
  split
  · refine ExRel.bind (R := HTableRen φ) ?_ fun H H' hH => ?_
    · rw [hM.root, hM.decl,
        show ((M.decl M.root).ren φ).handler = (M.decl M.root).handler.map φ.cb from rfl,
        Option.isSome_map, hM.eventIdsG hφ]
      split
      · exact hM.fillHandlersFor hφ _ d fun _ _ => rfl
      · exact fun _ _ => rfl
    · refine ExRel.bind (hM.fillG hφ d fun _ _ => rfl) fun T T' hT => ?_
      unfold initState
      rw [hM.root, hM.parentIdx hφ, hM.initialTable hφ, hM.maxInit hφ]
      cases M.initialTable[M.parentIdx M.root]? with
      | none => rfl
      | some init =>
        dsimp only
        have h := hM.updateRegions (P := P) (W := W) hφ
          (s := ⟨initCur init M.maxInit, M.initialTable, M.initialTable, [], 0, T, H, w, [], []⟩)
          (s' := ⟨initCur init M.maxInit, M.initialTable, M.initialTable, [], 0, T', H', w, [], []⟩)
          ⟨rfl, rfl, rfl, rfl, rfl, hT, hH, rfl, rfl, rfl⟩
        revert h
        generalize Hsm.updateRegions M _ = r
        generalize Hsm.updateRegions M' _ = r'
        intro h
        cases r <;> cases r' <;> first | exact h.elim | exact h.2 | rfl
  · rfl

theorem opOkGR {P : Type} (op : Op P) : OpOkGR M' (op.ren φ) ↔ OpOkGR M op := by
  cases op with
  | process e p =>
    show φ.ev e ∈ M'.eventIdsG ↔ _
    rw [hM.eventIdsG hφ]
    exact mem_map_inj hφ.ev
  | set r p st => exact Iff.rfl
  | setDependency d => exact Iff.rfl

/-! ## The running machine -/

variable {P W W' : Type} {ρ : W → W' → Prop} {θ : Op P → W → Op P → W' → Prop} {sem : SemR P W}
  {sem' : SemR P W'} {s : SM P W} {s' : SM P W'} (hsem : SemAlias φ ρ θ sem sem')
  {call : Op P → SM P W → Res (SM P W) Bool} {call' : Op P → SM P W' → Res (SM P W') Bool}
  (hcall : CallAlias φ ρ θ call call')

theorem setDependencyGA (hs : Alias φ ρ s s') (d : Dep) :
    AliasRes φ ρ (Hsm.setDependencyG M d s) (Hsm.setDependencyG M' d s') := by
  unfold Hsm.setDependencyG
  have h := hM.fillG hφ d hs.table
  revert h
  cases M.fillG d s.table with
  | error e =>
    cases M'.fillG d s'.table with
    | error e' => intro _; rfl
    | ok T' => intro h; exact h.elim
  | ok T =>
    cases M'.fillG d s'.table with
    | error e' => intro h; exact h.elim
    | ok T' => intro h; exact ⟨rfl, { hs with table := h }⟩

include hsem hcall

theorem anonRoundGA (rs : List Nat) : ∀ {s : SM P W} {s' : SM P W'} (_ : Alias φ ρ s s') (a : Bool),
    AliasRes φ ρ (anonRoundGR M sem call rs a s) (anonRoundGR M' sem' call' rs a s') := by
  induction rs with
  | nil => intro s s' hs a; exact ⟨rfl, hs⟩
  | cons r rs ih =>
    intro s s' hs a
    rw [anonRoundGR, anonRoundGR]
    refine abind (readCurA hs r) fun c s s' hs => ?_
    have ht := hs.table .none c
    rw [hφ.none] at ht
    rw [hM.size hφ, ht, hsem.nonePayload]
    split
    · cases s.table .none c with
      | nil => exact ⟨rfl, hs⟩
      | cons e es =>
        have := hM.tryAnonA hφ hsem hcall r c (e :: es).length (e :: es) hs sem.nonePayload
        rw [List.map_cons] at this ⊢
        refine abind ?_ fun fp s s' hs => ih hs _
        simpa using this
    · rfl

theorem anonLoopGA (fuel : Nat) : ∀ {s : SM P W} {s' : SM P W'} (_ : Alias φ ρ s s'),
    AliasRes φ ρ (anonLoopGR M sem call fuel s) (anonLoopGR M' sem' call' fuel s') := by
  induction fuel with
  | zero => intro s s' hs; trivial
  | succ n ih =>
    intro s s' hs
    rw [anonLoopGR, anonLoopGR, hM.currentRegionsA hφ hs]
    refine abind (hM.anonRoundGA hφ hsem hcall _ hs true) fun o s s' hs => ?_
    cases o with
    | none => exact ⟨rfl, hs⟩
    | some b =>
      cases b with
      | true => exact ⟨rfl, hs⟩
      | false => exact ih hs

theorem processAnonGA (hs : Alias φ ρ s s') (fuel : Nat) :
    AliasRes φ ρ (processAnonGR M sem call fuel s) (processAnonGR M' sem' call' fuel s') := by
  unfold processAnonGR
  rw [hM.hasAnon hφ]
  split
  · exact hM.anonLoopGA hφ hsem hcall fuel hs
  · exact ⟨rfl, hs⟩

theorem processInternalGA (hs : Alias φ ρ s s') (fuel : Nat) (ev : EventTy) (p : P) :
    AliasRes φ ρ (processInternalGR M sem call fuel ev p s)
      (processInternalGR M' sem' call' fuel (φ.ev ev) p s') := by
  unfold processInternalGR
  rw [hM.currentRegionsA hφ hs]
  refine abind (hM.regionLoopA hφ hsem hcall ev _ hs true true p) fun op s s' hs => ?_
  obtain ⟨o, p⟩ := op
  cases o with
  | deferred => exact ⟨rfl, hs⟩
  | done a b =>
    dsimp only
    split
    · exact ⟨rfl, hs⟩
    · split
      · exact ⟨rfl, hs⟩
      · exact abind (hM.processAnonGA hφ hsem hcall hs fuel) fun _ s s' hs => ⟨rfl, hs⟩

theorem processDeferredGA (hs : Alias φ ρ s s') (fuel : Nat) :
    AliasRes φ ρ (processDeferredGR M sem call fuel s) (processDeferredGR M' sem' call' fuel s') := by
  unfold processDeferredGR
  rw [hM.hasDefer, hs.queue]
  split
  · cases hq : s.queue with
    | nil => exact ⟨rfl, hs⟩
    | cons x q =>
      obtain ⟨e, p⟩ := x
      rw [List.map_cons]
      have ht : Alias φ ρ { s with queue := q }
          { s' with queue := q.map fun x => (φ.ev x.1, x.2) } := { hs with queue := rfl }
      exact abind (hM.processInternalGA hφ hsem hcall ht fuel e p) fun _ s s' hs => ⟨rfl, hs⟩
  · exact ⟨rfl, hs⟩

theorem processEventGA (hs : Alias φ ρ s s') (fuel : Nat) (ev : EventTy) (p : P) :
    AliasRes φ ρ (processEventGR M sem call fuel ev p s)
      (processEventGR M' sem' call' fuel (φ.ev ev) p s') := by
  unfold processEventGR
  refine abind (hM.processInternalGA hφ hsem hcall hs fuel ev p) fun bp s s' hs => ?_
  split
  · exact hM.processDeferredGA hφ hsem hcall hs fuel
  · exact abind (hM.callHandlerA hφ hsem hcall hs ev bp.2) fun _ s s' hs => ⟨rfl, hs⟩

end
end Renamed

/-! ## Programs of several machines -/

section
variable {ι P W : Type} {φ : ι → Ren} [DecidableEq ι] {Ms Ms' : ι → Machine} {sem sem' : SemS ι P W}

/-- C135: under new names every call of every machine does the same, whatever its callbacks call. -/
theorem C135_step (hφ : ∀ i, (φ i).Faithful) (hM : ∀ i, Renamed (φ i) (Ms i) (Ms' i))
    (hsem : SemSRenamed φ sem sem') (fuel : Nat) : ∀ (n : Nat) (i : ι) (op : Op P) {h h' : Hub ι P W},
    HubRen φ h h' →
      (stepGS Ms sem fuel n i op h).Rel Eq (HubRen φ) (stepGS Ms' sem' fuel n i (op.ren (φ i)) h') := by
  intro n
  induction n with
  | zero => intro i op h h' hh; trivial
  | succ n ih =>
    intro i op h h' hh
    have hcall : CallAlias (φ i) (HubRen φ) (Asks φ) (nested (stepGS Ms sem fuel n) i)
        (nested (stepGS Ms' sem' fuel n) i) := by
      intro o o' s s' w w' hs ⟨hw, j, op, h1, h2⟩
      unfold nested
      show AliasRes _ _ (match w.request with | none => _ | some (j, op) => _)
        (match w'.request with | none => _ | some (j, op) => _)
      rw [h1, h2]
      have hst : HubRen φ (w.store i { s with world := w }) (w'.store i { s' with world := w' }) :=
        hw.store (ρ := HubRen φ) { hs with world := hw }
      have hc := ih j op hst
      revert hc
      dsimp only
      cases stepGS Ms sem fuel n j op (w.store i { s with world := w }) <;>
        cases stepGS Ms' sem' fuel n j (op.ren (φ j)) (w'.store i { s' with world := w' }) <;> intro hc <;>
        first | exact hc.elim | exact hc | exact ⟨hc.1, hc.2.fetch i⟩
    unfold stepGS
    refine AliasRes.home ?_
    cases op with
    | process ev p =>
      exact Renamed.abind ((hM i).processEventGA (hφ i) (hsem.at i _ _) hcall (hh.fetch i) fuel ev p)
        fun _ s s' hs => ⟨rfl, hs⟩
    | set r p st => exact ⟨rfl, hh.fetch i⟩
    | setDependency d =>
      exact Renamed.abind ((hM i).setDependencyGA (hφ i) (hh.fetch i) d) fun _ s s' hs => ⟨rfl, hs⟩

/-- C135: whatever a program can do, it can do under new names. -/
theorem C135_runs (hφ : ∀ i, (φ i).Faithful) (hM : ∀ i, Renamed (φ i) (Ms i) (Ms' i))
    (hsem : SemSRenamed φ sem sem') {d : ι → Dep} {ops : List (ι × Op P)} {h : Hub ι P W}
    (hr : RunToGS Ms sem d ops h) :
    ∃ h', RunToGS Ms' sem' d (ops.map fun x => (x.1, x.2.ren (φ x.1))) h' ∧ HubRen φ h h' := by
  induction hr with
  | @init h hi =>
    have hc : ∀ i, ∃ s', constructG (Ms' i) (d i) () = .ok s' ∧ SMRen (φ i) (h.parts i) s' := by
      intro i
      have hc := (hM i).C135_construct (P := P) (hφ i) (d i) ()
      rw [hi i] at hc
      cases h' : constructG (P := P) (Ms' i) (d i) () with
      | error e => rw [h'] at hc; exact hc.elim
      | ok s' => rw [h'] at hc; exact ⟨s', rfl, hc⟩
    choose m hm using hc
    exact ⟨⟨h.user, m, none⟩, .init fun i => (hm i).1, rfl, fun i => (hm i).2⟩
  | @ok h t ops i op fuel n b _ hop hs ih =>
    obtain ⟨h', hr', hh⟩ := ih
    have hc := C135_step hφ hM hsem fuel n i op hh
    rw [hs] at hc
    cases hs' : stepGS Ms' sem' fuel n i (op.ren (φ i)) h' with
    | ok b' t' =>
      rw [hs'] at hc
      rw [List.map_append]
      exact ⟨t', .ok hr' (((hM i).opOkGR (hφ i) op).2 hop) hs', hc.2⟩
    | throw x t' => rw [hs'] at hc; exact hc.elim
    | ub u => rw [hs'] at hc; exact hc.elim
    | timeout => rw [hs'] at hc; exact hc.elim
  | @throw h t ops i op fuel n x _ hop hs ih =>
    obtain ⟨h', hr', hh⟩ := ih
    have hc := C135_step hφ hM hsem fuel n i op hh
    rw [hs] at hc
    cases hs' : stepGS Ms' sem' fuel n i (op.ren (φ i)) h' with
    | throw b' t' =>
      rw [hs'] at hc
      rw [List.map_append]
      exact ⟨t', .throw hr' (((hM i).opOkGR (hφ i) op).2 hop) hs', hc.2⟩
    | ok x t' => rw [hs'] at hc; exact hc.elim
    | ub u => rw [hs'] at hc; exact hc.elim
    | timeout => rw [hs'] at hc; exact hc.elim
  | @world h ops _ w ih =>
    obtain ⟨h', hr', hh⟩ := ih
    exact ⟨_, .world hr' w, rfl, hh.parts⟩

end

namespace Ex

/-- The callback of the first machine now sends event 6 to the second. -/
example : ∃ h, RunToGS twinsNew ((semS true quietS pingPong).rename halfNew halfOld) (fun _ => 7)
    [(false, .process (ev 0) 1)] h ∧ (h.parts false).log.length = 2 ∧ (h.parts true).log.length = 1 ∧
    h.user = [100, 1, 2, 3, 20] := by
  obtain ⟨h, hr, hs⟩ := exists_runGS twins (semS true quietS pingPong) (fuel := 5) (n := 5) (d := fun _ => 7) (w := [])
    (ops := [(false, .process (ev 0) 1)])
    (f := fun h => (h.parts false).log.length == 2 && ((h.parts true).log.length == 1 &&
      h.user == [100, 1, 2, 3, 20])) (by decide +kernel)
  simp only [Bool.and_eq_true, beq_iff_eq] at hs
  obtain ⟨h', hr', hh⟩ := C135_runs halfNew_faithful twinsNew_renamed (SemS.rename_renamed halfOld_undoes _) hr
  exact ⟨h', hr', by rw [(hh.parts _).log]; exact hs.1, by rw [(hh.parts _).log]; exact hs.2.1,
    by rw [hh.user]; exact hs.2.2⟩

theorem pingPong_swappedG : (semS true quietS pingPong).Good False (fun i => OpOkGR (twinsSwapped i)) := by
  have h : ∀ (i : Bool) (n : Nat) (p : Nat), n < 3 → OpOkGR (twinsSwapped i) (.process (ev n) p) := by
    intro i n p hn
    have : ∀ (i : Bool), ∀ n < 3, ev n ∈ (twinsSwapped i).eventIdsG := by decide +kernel
    exact this i n hn
  exact semS_good (quietS_all (Q := fun i => OpOkGR (twinsSwapped i)))
    (pingPong_all (Q := fun i => OpOkGR (twinsSwapped i)) (h true 1 5 (by decide)) (h false 2 6 (by decide)))

end Ex

/-- As C134_refuted_old_names. -/
theorem C135_refuted_old_names : ∃ (φ : Bool → Ren) (Ms Ms' : Bool → Machine) (sem : SemS Bool Nat (List Nat))
    (h h' : Hub Bool Nat (List Nat)), (∀ i, (φ i).Faithful) ∧ (∀ i, Renamed (φ i) (Ms i) (Ms' i)) ∧
    sem.Good False (fun i => OpOkGR (Ms i)) ∧ sem.Good False (fun i => OpOkGR (Ms' i)) ∧
    (Op.process (Ex.ev 0) 1 : Op Nat).ren (φ false) = .process (Ex.ev 0) 1 ∧
    RunToGS Ms sem (fun _ => 7) [(false, .process (Ex.ev 0) 1)] h ∧ (h.parts true).log.length = 1 ∧
    RunToGS Ms' sem (fun _ => 7) [(false, .process (Ex.ev 0) 1)] h' ∧ (h'.parts true).log.length = 0 := by
  obtain ⟨h, hr, hs⟩ := Ex.exists_runGS Ex.twins (Ex.semS true Ex.quietS Ex.pingPong) (fuel := 5) (n := 5)
    (d := fun _ => 7) (w := []) (ops := [(false, .process (Ex.ev 0) 1)])
    (f := fun h => (h.parts true).log.length == 1) (by decide +kernel)
  obtain ⟨h', hr', hs'⟩ := Ex.exists_runGS Ex.twinsSwapped (Ex.semS true Ex.quietS Ex.pingPong) (fuel := 5) (n := 5)
    (d := fun _ => 7) (w := []) (ops := [(false, .process (Ex.ev 0) 1)])
    (f := fun h => (h.parts true).log.length == 0) (by decide +kernel)
  exact ⟨_, _, _, _, h, h', Ex.halfSwapped_faithful, Ex.twinsSwapped_renamed, Ex.pingPong_goodG, Ex.pingPong_swappedG,
    rfl, hr, eq_of_beq hs, hr', eq_of_beq hs'⟩

end Hsm

import Verif.PropsApi
import Mathlib.Data.List.Nodup
import Mathlib.Data.List.Perm.Subperm

/-!
# The region counter (C56)

`Region` is `std::uint8_t` (sm.h:32), the number of regions a `std::size_t`.  `Runtime.lean` runs
the loops `for (Region region = 0; region < n; region++)` over the list `0, …, n-1`; here they
are modelled with the 8 bit counter.
-/

namespace Hsm

/-! ## Model -/

section
variable {P W : Type} (M : Machine) (sem : Sem P W)

/-- The region loop of `process_event_internal` (sm.h:189-217) with its counter `r`; `k` bounds
the number of tests of the loop condition. -/
def regionLoop8 (ev : EventTy) (n : Nat) : Nat → BitVec 8 → Bool → Bool → P → SM P W →
    Res (SM P W) (LoopOut × P)
  | 0, _, _, _, _, _ => .timeout
  | k + 1, r, agf, ati, p, s =>
    if r.toNat < n then
      (regionStep M sem r.toNat ev p s).bind fun op s =>
        match op.1 with
        | .none => regionLoop8 ev n k (r + 1) agf ati op.2 s
        | .rejected => regionLoop8 ev n k (r + 1) agf false op.2 s
        | .fired => regionLoop8 ev n k (r + 1) false false op.2 s
        | .deferred => .ok (.deferred, op.2) s
    else .ok (.done agf ati, p) s

/-- One pass of the region loop of `process_anonymous_transitions` (sm.h:247-265). -/
def anonRound8 (n : Nat) : Nat → BitVec 8 → Bool → P → SM P W → Res (SM P W) (Option Bool × P)
  | 0, _, _, _, _ => .timeout
  | k + 1, r, agf, p, s =>
    if r.toNat < n then
      (lookup M .none r.toNat s).bind fun es s =>
        match es with
        | [] => .ok (none, p) s
        | es =>
          (tryAnon M sem r.toNat es p s).bind fun fp s =>
            anonRound8 n k (r + 1) (agf && !fp.1) fp.2 s
    else .ok (some agf, p) s

/-- The `while (true)` loop of `process_anonymous_transitions` (sm.h:243-270). -/
def anonLoop8 (k : Nat) : Nat → P → SM P W → Res (SM P W) Unit
  | 0, _, _ => .timeout
  | fuel + 1, p, s =>
    (anonRound8 M sem (currentRegions M s) k 0 true p s).bind fun op s =>
      match op.1 with
      | none => .ok () s
      | some true => .ok () s
      | some false => anonLoop8 k fuel op.2 s

/-- `process_anonymous_transitions` (sm.h:240-272). -/
def processAnon8 (k fuel : Nat) (s : SM P W) : Res (SM P W) Unit :=
  if M.hasAnon then anonLoop8 M sem k fuel sem.nonePayload s else .ok () s

/-- `process_event_internal` (sm.h:183-229). -/
def processInternal8 (k fuel : Nat) (ev : EventTy) (p : P) (s : SM P W) :
    Res (SM P W) (ProcRes × P) :=
  (regionLoop8 M sem ev (currentRegions M s) k 0 true true p s).bind fun op s =>
    match op.1 with
    | .deferred => .ok (.deferred, op.2) s
    | .done agf ati =>
      if ati then .ok (.allTransitionsInvalid, op.2) s
      else if agf then .ok (.allGuardsFailed, op.2) s
      else (processAnon8 M sem k fuel s).bind fun _ s => .ok (.processed, op.2) s

/-- `process_deferred_events` (sm.h:231-238). -/
def processDeferred8 (k fuel : Nat) (s : SM P W) : Res (SM P W) Unit :=
  if M.hasDefer then
    match s.queue with
    | [] => .ok () s
    | (e, p) :: q =>
      (processInternal8 M sem k fuel e p { s with queue := q }).bind fun _ s => .ok () s
  else .ok () s

/-- `process_event` (sm.h:88-107). -/
def processEvent8 (k fuel : Nat) (ev : EventTy) (p : P) (s : SM P W) : Res (SM P W) Bool :=
  (processInternal8 M sem k fuel ev p s).bind fun rp s =>
    match rp.1 with
    | .allTransitionsInvalid => (callHandler M sem ev rp.2 s).bind fun _ s => .ok false s
    | .deferred => .ok false s
    | .allGuardsFailed => .ok false s
    | .processed => (processDeferred8 M sem k fuel s).bind fun _ s => .ok true s

/-- The loop of `status()` (sm.h:160-165). -/
def statusLoop8 (n : Nat) : Nat → BitVec 8 → SM P W → Res (SM P W) (List StatusRec)
  | 0, _, _ => .timeout
  | k + 1, r, s =>
    if r.toNat < n then
      (readCur r.toNat s).bind fun c s =>
        (currentParent M s).bind fun p s =>
          (currentState M r.toNat s).bind fun t s =>
            (statusLoop8 n k (r + 1) s).bind fun l s => .ok (⟨r.toNat, c, p, t⟩ :: l) s
    else .ok [] s

/-- `status()` (sm.h:156-167). -/
def status8 (k : Nat) (s : SM P W) : Res (SM P W) (List StatusRec) :=
  statusLoop8 M (currentRegions M s) k 0 s

/-- The loop of `init_current_state` (sm.h:351-354).  The writes are in bounds: the array has a
slot for each initial state of any composite (`C04_slots`). -/
def initLoop8 (init : List Nat) : Nat → BitVec 8 → List (Option Nat) → Option (List (Option Nat))
  | 0, _, _ => none
  | k + 1, r, cur =>
    if h : r.toNat < init.length then
      initLoop8 init k (r + 1) (cur.set r.toNat (some init[r.toNat]))
    else some cur

/-- The end of the constructor (sm.h:82-85).  Outer `none`: still running. -/
def initState8 (k : Nat) (w : W) (H : HTable) (T : Table) : Option (Except BuildErr (SM P W)) :=
  match M.initialTable[M.parentIdx M.root]? with
  | none => some (.error .ub)
  | some init =>
    match initLoop8 init k 0 (List.replicate M.maxInit none) with
    | none => none
    | some cur =>
      match updateRegions M
          ({ cur := cur, initial := M.initialTable, hist := M.initialTable,
             queue := [], regions := 0, table := T, handlers := H, world := w, trace := [],
             log := [] }
            : SM P W) with
      | .ok _ s => some (.ok s)
      | _ => some (.error .ub)

/-- The constructor (sm.h:47-86). -/
def construct8 (k : Nat) (dep : Dep) (w : W) : Option (Except BuildErr (SM P W)) :=
  if M.accepts then
    match initHandlers M dep, M.fill dep (fun _ _ => []) with
    | .ok H, .ok T => initState8 M k w H T
    | .error e, _ => some (.error e)
    | _, .error e => some (.error e)
  else some (.error .reject)

end

/-! ## Proofs -/

section
variable {P W : Type} {M : Machine} {sem : Sem P W}

theorem Res.bind_congr {σ α β : Type} {r : Res σ α} {f g : α → σ → Res σ β}
    (h : ∀ a s, r = .ok a s → f a s = g a s) : r.bind f = r.bind g := by
  cases r with
  | ok a s => exact h a s rfl
  | throw x s => rfl
  | ub u => rfl
  | timeout => rfl

theorem toNat_succ8 {r : BitVec 8} (h : r.toNat < 255) : (r + 1).toNat = r.toNat + 1 := by
  rw [BitVec.toNat_add]
  show (r.toNat + 1) % 256 = _
  omega

/-- The regions from `r` on. (the loops over `Region` in sm.h:160, 189, 247, 351) -/
def from8 (n : Nat) (r : BitVec 8) : List Nat := List.range' r.toNat (n - r.toNat)

theorem from8_cons {n : Nat} (hn : n ≤ 255) {r : BitVec 8} (h : r.toNat < n) :
    from8 n r = r.toNat :: from8 n (r + 1) := by
  unfold from8
  rw [toNat_succ8 (by omega)]
  rw [show n - r.toNat = (n - (r.toNat + 1)) + 1 by omega, List.range'_succ]

theorem from8_nil {n : Nat} {r : BitVec 8} (h : ¬ r.toNat < n) : from8 n r = [] := by
  unfold from8
  rw [show n - r.toNat = 0 by omega]
  rfl

theorem from8_zero (n : Nat) : from8 n 0 = List.range n := by
  unfold from8
  show List.range' 0 (n - 0) = _
  rw [List.range_eq_range']
  rfl

theorem regionLoop8_eq {ev : EventTy} {n : Nat} (hn : n ≤ 255) :
    ∀ (k : Nat) (r : BitVec 8) (agf ati : Bool) (p : P) (s : SM P W), n - r.toNat < k →
    regionLoop8 M sem ev n k r agf ati p s = regionLoop M sem ev (from8 n r) agf ati p s := by
  intro k
  induction k with
  | zero => intro r _ _ _ _ h; omega
  | succ k ih =>
    intro r agf ati p s hk
    unfold regionLoop8
    by_cases h : r.toNat < n
    · rw [if_pos h, from8_cons hn h]
      show _ = (regionStep M sem r.toNat ev p s).bind _
      apply Res.bind_congr
      rintro ⟨o, p1⟩ s1 _
      have hk' : n - (r + 1).toNat < k := by rw [toNat_succ8 (by omega)]; omega
      cases o with
      | none => exact ih _ _ _ _ _ hk'
      | rejected => exact ih _ _ _ _ _ hk'
      | fired => exact ih _ _ _ _ _ hk'
      | deferred => rfl
    · rw [if_neg h, from8_nil h]
      rfl

theorem anonRound8_eq {n : Nat} (hn : n ≤ 255) :
    ∀ (k : Nat) (r : BitVec 8) (agf : Bool) (p : P) (s : SM P W), n - r.toNat < k →
    anonRound8 M sem n k r agf p s = anonRound M sem (from8 n r) agf p s := by
  intro k
  induction k with
  | zero => intro r _ _ _ h; omega
  | succ k ih =>
    intro r agf p s hk
    unfold anonRound8
    by_cases h : r.toNat < n
    · rw [if_pos h, from8_cons hn h]
      show _ = (lookup M .none r.toNat s).bind _
      apply Res.bind_congr
      intro es s1 _
      have hk' : n - (r + 1).toNat < k := by rw [toNat_succ8 (by omega)]; omega
      cases es with
      | nil => rfl
      | cons e es =>
        apply Res.bind_congr
        rintro ⟨b, p1⟩ s2 _
        exact ih _ _ _ _ hk'
    · rw [if_neg h, from8_nil h]
      rfl

theorem statusLoop8_eq {n : Nat} (hn : n ≤ 255) :
    ∀ (k : Nat) (r : BitVec 8) (s : SM P W), n - r.toNat < k →
    statusLoop8 M n k r s = statusLoop M (from8 n r) s := by
  intro k
  induction k with
  | zero => intro r _ h; omega
  | succ k ih =>
    intro r s hk
    unfold statusLoop8
    by_cases h : r.toNat < n
    · rw [if_pos h, from8_cons hn h]
      have hk' : n - (r + 1).toNat < k := by rw [toNat_succ8 (by omega)]; omega
      show _ = (readCur r.toNat s).bind _
      refine Res.bind_congr fun c s1 _ => Res.bind_congr fun p s2 _ => Res.bind_congr fun t s3 _ => ?_
      rw [ih _ _ hk']
    · rw [if_neg h, from8_nil h]
      rfl

theorem initLoop8_eq {init : List Nat} (hn : init.length ≤ 255) :
    ∀ (k : Nat) (r : BitVec 8) (cur : List (Option Nat)), r.toNat ≤ init.length →
    init.length - r.toNat < k → init.length ≤ cur.length →
    initLoop8 init k r cur = some (cur.take r.toNat ++ (init.drop r.toNat).map some ++
      cur.drop init.length) := by
  intro k
  induction k with
  | zero => intro r _ _ h; omega
  | succ k ih =>
    intro r cur hr hk hc
    unfold initLoop8
    by_cases h : r.toNat < init.length
    · rw [dif_pos h]
      have hs := toNat_succ8 (r := r) (by omega)
      rw [ih (r + 1) _ (by omega) (by omega) (by rw [List.length_set]; exact hc), hs]
      congr 1
      rw [List.drop_set, if_pos (by omega), List.take_set, List.drop_eq_getElem_cons h]
      rw [List.take_succ_eq_append_getElem (by omega)]
      rw [List.set_append, if_neg (by rw [List.length_take]; omega), List.map_cons]
      simp [Nat.min_eq_left (show r.toNat ≤ cur.length by omega)]
    · rw [dif_neg h]
      have : r.toNat = init.length := by omega
      rw [this]
      simp

theorem initLoop8_done {init : List Nat} (hn : 256 ≤ init.length) :
    ∀ (k : Nat) (r : BitVec 8) (cur : List (Option Nat)), initLoop8 init k r cur = none := by
  intro k
  induction k with
  | zero => intro r _; rfl
  | succ k ih =>
    intro r cur
    unfold initLoop8
    rw [dif_pos (by have := r.isLt; omega)]
    exact ih _ _

/-- No composite has more than 255 regions. -/
def Narrow (M : Machine) : Prop := ∀ p ∈ M.composites, (M.declaredInitials p).length ≤ 255

/-- Neither has the running machine. -/
structure Narrow8 (M : Machine) (s : SM P W) : Prop where
  initial : ∀ l ∈ s.initial, l.length ≤ 255
  regions : activeRegions M s ≤ 255

theorem Narrow.table (h : Narrow M) : ∀ l ∈ M.initialTable, l.length ≤ 255 := by
  intro l hl
  unfold Machine.initialTable at hl
  obtain ⟨p, hp, rfl⟩ := List.mem_map.1 hl
  rw [← Machine.composites_eq] at hp
  rw [List.length_map, ← Machine.declaredInitials_eq]
  exact h p hp

theorem Narrow8.preserved : Preserves M sem True (fun _ => True) (Narrow8 M) := by
  apply Preserves.easy
  · intro s w tr h; exact ⟨h.initial, h.regions⟩
  · intro s s' ev r c e h _ _ hm
    refine ⟨by rw [hm.initial]; exact h.initial, ?_⟩
    have hr := h.regions
    unfold activeRegions at hr ⊢
    rcases hm.regions with ⟨ho, h2⟩ | ⟨ho, k, l, _, h2, h3⟩
    · rw [h2]; exact hr
    · rw [h3, ho]; exact h.initial l (List.mem_of_getElem? h2)
  · intro s ev r c e p h _ _ _; exact ⟨h.initial, h.regions⟩
  · intro s ev p q h _; exact ⟨h.initial, h.regions⟩

theorem Reach.narrow (hw : Narrow M) {s : SM P W} (h : Reach M sem s) : Narrow8 M s := by
  refine Reach.inv (I := Narrow8 M) ?_ Narrow8.preserved ?_ ?_ ?_ ?_ h
  · intro d w s h
    obtain ⟨_, _, _, ⟨init, _, _, ho⟩, hi, _⟩ := construct_ok h
    refine ⟨by rw [hi]; exact hw.table, ?_⟩
    unfold activeRegions
    cases hp : M.orthogonal with
    | false => simp
    | true =>
      obtain ⟨k, l, _, h2, h3⟩ := ho hp
      rw [h3]; exact hw.table l (List.mem_of_getElem? h2)
  · intro ev s p _ hs
    exact callHandler_easy _ (fun s w tr h => ⟨h.initial, h.regions⟩) ev s p hs
  · intro s r p st h _ _ _; exact ⟨h.initial, h.regions⟩
  · intro s d T h _; exact ⟨h.initial, h.regions⟩
  · intro s w h; exact ⟨h.initial, h.regions⟩

variable {k : Nat}

theorem anonLoop8_eq (hk : 256 ≤ k) (ha : M.anonymous = true) : ∀ (fuel : Nat) (p : P) (s : SM P W),
    Narrow8 M s → anonLoop8 M sem k fuel p s = anonLoop M sem fuel p s := by
  intro fuel
  induction fuel with
  | zero => intro _ _ _; rfl
  | succ fuel ih =>
    intro p s hs
    unfold anonLoop8 anonLoop
    have hr := hs.regions
    rw [← currentRegions_eq] at hr
    rw [anonRound8_eq hr k 0 true p s (by show _ - 0 < k; omega), from8_zero]
    apply Res.bind_congr
    rintro ⟨b, p1⟩ s1 heq
    have hs1 := Narrow8.preserved.anonRound (sem := sem) ha (List.range (currentRegions M s)) true p s
      (fun _ _ => trivial) hs
    rw [heq] at hs1
    match b with
    | none => rfl
    | some true => rfl
    | some false => exact ih _ _ hs1

theorem processInternal8_eq (hk : 256 ≤ k) (fuel : Nat) (ev : EventTy) (p : P) (s : SM P W)
    (hs : Narrow8 M s) :
    processInternal8 M sem k fuel ev p s = processInternal M sem fuel ev p s := by
  unfold processInternal8 processInternal
  have hr := hs.regions
  rw [← currentRegions_eq] at hr
  rw [regionLoop8_eq hr k 0 true true p s (by show _ - 0 < k; omega), from8_zero]
  apply Res.bind_congr
  rintro ⟨o, p1⟩ s1 heq
  have hs1 := Narrow8.preserved.regionLoop (sem := sem) ev (List.range (currentRegions M s)) true
    true p s (fun _ _ => trivial) hs
  rw [heq] at hs1
  cases o with
  | deferred => rfl
  | done agf ati =>
    have : processAnon8 M sem k fuel s1 = processAnon M sem fuel s1 := by
      unfold processAnon8 processAnon
      by_cases ha : M.hasAnon = true
      · rw [if_pos ha, if_pos ha]
        exact anonLoop8_eq hk (Machine.hasAnon_eq ▸ ha) _ _ _ hs1
      · rw [if_neg ha, if_neg ha]
    show (if ati = true then _ else _) = (if ati = true then _ else _)
    rw [this]

theorem processEvent8_eq (hk : 256 ≤ k) (fuel : Nat) (ev : EventTy) (p : P) (s : SM P W)
    (hs : Narrow8 M s) :
    processEvent8 M sem k fuel ev p s = processEvent M sem fuel ev p s := by
  unfold processEvent8 processEvent
  rw [processInternal8_eq hk fuel ev p s hs]
  apply Res.bind_congr
  rintro ⟨o, p1⟩ s1 heq
  have hs1 := Narrow8.preserved.processInternal (sem := sem) fuel ev p s hs
  rw [heq] at hs1
  have hs1 : Narrow8 M s1 := hs1
  have : processDeferred8 M sem k fuel s1 = processDeferred M sem fuel s1 := by
    unfold processDeferred8 processDeferred
    by_cases hd : M.hasDefer = true
    · rw [if_pos hd, if_pos hd]
      cases s1.queue with
      | nil => rfl
      | cons x q =>
        show (processInternal8 M sem k fuel x.1 x.2 _).bind _ = _
        rw [processInternal8_eq hk fuel x.1 x.2 { s1 with queue := q } ⟨hs1.initial, hs1.regions⟩]
    · rw [if_neg hd, if_neg hd]
  cases o with
  | processed => show (processDeferred8 M sem k fuel s1).bind _ = _; rw [this]
  | _ => rfl

theorem construct8_eq (hM : M.Regular) (hw : Narrow M) (hk : 256 ≤ k) (d : Dep) (w : W) :
    construct8 M k d w = some (construct M d w : Except BuildErr (SM P W)) := by
  unfold construct8 construct
  by_cases ha : M.accepts = true
  · rw [if_pos ha, if_pos ha]
    cases initHandlers M d with
    | error e => rfl
    | ok H =>
      cases M.fill d (fun _ _ => []) with
      | error e => rfl
      | ok T =>
        show initState8 M k w H T = some (initState M w H T)
        unfold initState8 initState
        cases hi : M.initialTable[M.parentIdx M.root]? with
        | none => rfl
        | some init =>
          have h1 := hw.table init (List.mem_of_getElem? hi)
          have h2 : init.length ≤ M.maxInit := by
            rw [Machine.initialTable_get hM hM.root_mem] at hi
            cases hi
            rw [List.length_map]
            exact Machine.initials_le_maxInit hM.root_mem
          have h3 : initLoop8 init k 0 (List.replicate M.maxInit none) =
              some (initCur init M.maxInit) := by
            rw [initLoop8_eq h1 k 0 _ (by show 0 ≤ _; omega) (by show _ - 0 < _; omega)
              (by rw [List.length_replicate]; exact h2)]
            unfold initCur
            show some ([] ++ (init.drop 0).map some ++ _) = _
            rw [List.drop_replicate]
            rfl
          simp only [h3]
          generalize updateRegions M _ = u
          cases u <;> rfl
  · rw [if_neg ha, if_neg ha]

theorem regionStep_queue {r : Nat} {ev : EventTy} {p p' : P} {s s' : SM P W} {o : RegionOut}
    (h : regionStep M sem r ev p s = .ok (o, p') s') :
    (o ≠ .deferred ∧ s'.queue = s.queue) ∨
      (o = .deferred ∧ s'.queue = s.queue ++ [(ev, p')]) := by
  unfold regionStep at h
  obtain ⟨es, s1, h1, h2⟩ := Res.bind_ok.1 h
  obtain ⟨rfl, c, _, _, rfl⟩ := lookup_ok.1 h1
  cases hes : s1.table ev c with
  | nil =>
    rw [hes] at h2
    cases h2
    exact Or.inl ⟨by simp, rfl⟩
  | cons e es =>
    rw [hes] at h2
    cases tryEntries_ok h2 with
    | rejected hf => exact Or.inl ⟨by simp, rfl⟩
    | deferred _ _ _ => exact Or.inr ⟨rfl, rfl⟩
    | fired _ _ _ _ _ hu _ =>
      refine Or.inl ⟨by simp, ?_⟩
      show SM.queue _ = _
      rcases updateState_ok hu with ⟨_, h⟩ | hm
      · rw [h]; rfl
      · exact hm.queue

theorem regionLoop8_done {ev : EventTy} {n : Nat} (hn : 256 ≤ n) :
    ∀ (k : Nat) (r : BitVec 8) (agf ati : Bool) (p p' : P) (s s' : SM P W) (o : LoopOut),
    regionLoop8 M sem ev n k r agf ati p s = .ok (o, p') s' →
    o = .deferred ∧ s'.queue = s.queue ++ [(ev, p')] := by
  intro k
  induction k with
  | zero => intro r _ _ _ _ _ _ _ h; cases h
  | succ k ih =>
    intro r agf ati p p' s s' o h
    unfold regionLoop8 at h
    rw [if_pos (by have := r.isLt; omega)] at h
    obtain ⟨⟨o1, p1⟩, s1, h1, h2⟩ := Res.bind_ok.1 h
    rcases regionStep_queue h1 with ⟨hne, hq⟩ | ⟨rfl, hq⟩
    · cases o1 with
      | none => have := ih _ _ _ _ _ _ _ _ h2; rwa [hq] at this
      | rejected => have := ih _ _ _ _ _ _ _ _ h2; rwa [hq] at this
      | fired => have := ih _ _ _ _ _ _ _ _ h2; rwa [hq] at this
      | deferred => exact absurd rfl hne
    · cases h2
      exact ⟨rfl, hq⟩

/-- C56, too many regions: with 256 or more initial states the constructor never returns a
machine, and with 256 or more active regions `process_event` never returns normally unless
the event is deferred. -/
theorem C56_hangs :
    (M.Regular → 256 ≤ (M.declaredInitials M.root).length →
      ∀ (k : Nat) (d : Dep) (w : W) (s : SM P W), construct8 M k d w ≠ some (.ok s)) ∧
    ∀ s : SM P W, 256 ≤ activeRegions M s →
      ∀ k fuel ev p b s', processEvent8 M sem k fuel ev p s = .ok b s' →
        b = false ∧ ∃ p', s'.queue = s.queue ++ [(ev, p')] := by
  constructor
  · intro hM hw k d w s h
    unfold construct8 at h
    split at h
    · split at h
      · rename_i H T _ _
        unfold initState8 at h
        rw [Machine.initialTable_get hM hM.root_mem] at h
        simp only at h
        rw [initLoop8_done (by rw [List.length_map, ← Machine.declaredInitials_eq]; exact hw)] at h
        cases h
      · cases h
      · cases h
    · cases h
  · intro s hs k fuel ev p b s' h
    unfold processEvent8 at h
    obtain ⟨⟨o, p1⟩, s1, h1, h2⟩ := Res.bind_ok.1 h
    unfold processInternal8 at h1
    obtain ⟨⟨o1, p2⟩, s2, h3, h4⟩ := Res.bind_ok.1 h1
    rw [currentRegions_eq] at h3
    obtain ⟨rfl, hq⟩ := regionLoop8_done hs _ _ _ _ _ _ _ _ _ h3
    cases h4
    cases h2
    exact ⟨rfl, _, hq⟩

/-- C56, at most 255 regions: construction returns, and every call on a reachable machine visits
the regions `0, …, n-1` once each, in this order, as `Runtime.lean` has it. -/
theorem C56_partial (hM : M.Regular) (hw : ∀ p ∈ M.composites, (M.declaredInitials p).length ≤ 255)
    (hk : 256 ≤ k) :
    (∀ (d : Dep) (w : W), construct8 M k d w = some (construct M d w : Except BuildErr (SM P W))) ∧
    ∀ s : SM P W, Reach M sem s →
      (∀ fuel ev p, processEvent8 M sem k fuel ev p s = processEvent M sem fuel ev p s) ∧
      status8 M k s = status M s := by
  refine ⟨fun d w => construct8_eq hM hw hk d w, fun s hs => ?_⟩
  have hn := hs.narrow hw
  refine ⟨fun fuel ev p => processEvent8_eq hk fuel ev p s hn, ?_⟩
  unfold status8 status
  have hr := hn.regions
  rw [← currentRegions_eq] at hr
  rw [statusLoop8_eq hr k 0 s (by show _ - 0 < k; omega), from8_zero]

end

/-! ## Concrete machines -/

namespace Ex

/-- 256 states, each the initial one of a region, each with one row. -/
def crowd : Machine where
  decl s := if s = 0 then
      { table := some ((List.range 256).map fun i =>
          row (ini (i + 1)) (ev 0) none none (.st (i + 1))) }
    else {}
  root := 0
  rank s := if s = 0 then 1 else 0

theorem crowd_rows : crowd.rows 0 = (List.range 256).map fun i =>
    row (ini (i + 1)) (ev 0) none none (.st (i + 1)) := rfl

theorem crowd_rows_pos {s : Name} (h : s ≠ 0) : crowd.rows s = [] := by
  unfold Machine.rows crowd
  simp [h]

theorem crowd_composite {s : Name} : crowd.isComposite s = true ↔ s = 0 := by
  unfold Machine.isComposite crowd
  by_cases h : s = 0 <;> simp [h]

/-- The row of state `i + 1`. -/
def crowdRow (i : Nat) : XRow :=
  { parent := 0, source := ini (i + 1), event := ev 0, guard := none, action := none,
    target := .st (i + 1), internal := false }

theorem crowd_ext : crowd.extRows = (List.range 256).map crowdRow := by
  unfold Machine.extRows
  show crowd.reading 2 0 = _
  unfold Machine.reading
  rw [crowd_rows, List.map_map]
  have : ∀ i, crowd.leadsInto (.st (i + 1)) = none := by
    intro i
    have : crowd.isComposite (i + 1) = false := by
      have := (crowd_composite (s := i + 1)).1
      cases h : crowd.isComposite (i + 1) with
      | false => rfl
      | true => exact absurd (this h) (by simp)
    unfold Machine.leadsInto
    simp [this]
  generalize List.range 256 = l
  induction l with
  | nil => rfl
  | cons i l ih =>
    rw [List.map_cons, List.flatten_cons, ih]
    show (_ :: (crowd.leadsInto (.st (i + 1))).elim [] _) ++ _ = _
    rw [this]
    rfl

theorem crowd_int : crowd.intRows = [] := by
  have h : ∀ x, crowd.innerRows x = [] := by
    rintro ⟨p, st⟩
    have : ∀ s, (crowd.decl s).itable = none := by
      intro s
      unfold crowd
      by_cases h : s = 0 <;> simp [h]
    cases st <;> simp [Machine.innerRows, this]
  unfold Machine.intRows
  rw [show crowd.places.flatMap crowd.innerRows = [] from List.flatMap_eq_nil_iff.2 fun x _ => h x]
  rfl

theorem mem_crowd {t : XRow} (h : t ∈ crowd.extRows) : ∃ i, t = crowdRow i := by
  rw [crowd_ext] at h
  obtain ⟨i, _, rfl⟩ := List.mem_map.1 h
  exact ⟨i, rfl⟩

theorem crowd_mem {i : Nat} (h : i < 256) :
    crowdRow i ∈ crowd.extRows := by
  rw [crowd_ext]
  exact List.mem_map.2 ⟨i, List.mem_range.2 h, rfl⟩

theorem crowd_initial {i : Nat} : i ∈ crowd.declaredInitials 0 ↔ ∃ k < 256, i = k + 1 := by
  unfold Machine.declaredInitials
  rw [crowd_rows]
  simp only [List.mem_filterMap, List.mem_eraseDups, List.mem_flatMap, List.mem_map,
    List.mem_range]
  constructor
  · rintro ⟨st, ⟨r, ⟨k, hk, rfl⟩, hr⟩, h⟩
    refine ⟨k, hk, ?_⟩
    simp only [row, ini, List.mem_cons, List.not_mem_nil, or_false] at hr
    rcases hr with rfl | rfl
    · simpa using h.symm
    · simp at h
  · rintro ⟨k, hk, rfl⟩
    exact ⟨ini (k + 1), ⟨_, ⟨k, hk, rfl⟩, by simp [row]⟩, rfl⟩

theorem crowd_comp : 0 ∈ crowd.composites := by
  unfold Machine.composites
  rw [List.mem_eraseDups]
  exact List.mem_map.2 ⟨_, crowd_mem (i := 0) (by decide), rfl⟩

theorem length_eraseDups_le {α : Type} [DecidableEq α] [BEq α] [LawfulBEq α] (l : List α) :
    l.eraseDups.length ≤ l.length := by
  have hn : l.eraseDups.Nodup := by rw [← uniq_eq_eraseDups]; exact nodup_uniq l
  exact (List.subperm_of_subset hn fun x hx => List.mem_eraseDups.1 hx).length_le

theorem crowd_state {i : Nat} (h : crowdRow i ∈ crowd.extRows) : StTy.st (i + 1) ∈ crowd.states := by
  unfold Machine.states
  rw [List.mem_append, List.mem_eraseDups, List.mem_flatMap]
  exact Or.inl ⟨_, h, by simp [crowdRow]⟩

theorem crowd_target (i : Nat) : crowd.targetLoc (crowdRow i) =
    some (0, .st (i + 1)) := by
  have : crowd.isComposite (i + 1) = false := by
    have := (crowd_composite (s := i + 1)).1
    cases h : crowd.isComposite (i + 1) with
    | false => rfl
    | true => exact absurd (this h) (by simp)
  simp [Machine.targetLoc, crowdRow, this]

theorem crowd_regular : crowd.Regular := by
  refine ⟨⟨crowd_composite.2 rfl, ?_, ⟨0, crowd_comp, ?_⟩, ?_, ?_, ?_⟩, ?_, ?_, ?_⟩
  · intro h
    have := crowd_mem (i := 0) (by decide)
    rw [h] at this
    cases this
  · intro h
    have := crowd_initial.2 ⟨0, by decide, rfl⟩
    rw [h] at this
    cases this
  · intro i hi
    obtain ⟨k, _, rfl⟩ := crowd_initial.1 hi
    constructor <;> simp [Machine.isComposite, crowd]
  · intro t ht
    rw [crowd_int, List.append_nil] at ht
    obtain ⟨i, rfl⟩ := mem_crowd ht
    exact ⟨crowd_state ht, _, crowd_target i, crowd_state ht⟩
  · intro t ht e he
    obtain ⟨i, rfl⟩ := mem_crowd ht
    simp [Machine.defers, crowdRow, ini, crowd] at he
  · intro p r q hr he
    by_cases hp : p = 0
    · subst hp
      rw [crowd_rows] at hr
      obtain ⟨i, _, rfl⟩ := List.mem_map.1 hr
      have hq := crowd_composite.1 he.1
      subst hq
      rcases he.2 with h | ⟨o, ⟨s, h⟩ | ⟨s, h⟩ | h⟩ <;> simp [row] at h
    · rw [crowd_rows_pos hp] at hr
      cases hr
  · intro t ht
    obtain ⟨i, rfl⟩ := mem_crowd ht
    constructor <;> simp [Machine.plain, crowdRow, ini, crowd]
  · have h1 : crowd.composites.length ≤ 256 := by
      unfold Machine.composites
      refine Nat.le_trans (length_eraseDups_le _) ?_
      rw [List.length_map, crowd_ext, List.length_map, List.length_range]
      exact Nat.le_refl _
    have h2 : crowd.states.length ≤ 513 := by
      unfold Machine.states
      rw [List.length_append]
      have : (crowd.extRows.flatMap fun t => [Machine.plain t.source, t.target]).length = 512 := by
        rw [crowd_ext, List.length_flatMap, List.map_map]
        have : ∀ l : List Nat, (l.map fun _ => 2).sum = 2 * l.length := by
          intro l
          induction l with
          | nil => rfl
          | cons x l ih => rw [List.map_cons, List.sum_cons, ih, List.length_cons]; omega
        exact (this (List.range 256)).trans (by rw [List.length_range])
      have := length_eraseDups_le (crowd.extRows.flatMap fun t => [Machine.plain t.source, t.target])
      simp only [List.length_singleton]
      omega
    exact Nat.lt_of_le_of_lt (Nat.mul_le_mul h2 h1) (by decide)

theorem crowd_wide : 256 ≤ (crowd.declaredInitials crowd.root).length := by
  have hn : ((List.range 256).map (· + 1)).Nodup := by
    rw [List.nodup_map_iff (fun a b h => by simpa using h)]
    exact List.nodup_range
  have := (List.subperm_of_subset hn (l₂ := crowd.declaredInitials 0) (by
    intro i hi
    obtain ⟨k, hk, rfl⟩ := List.mem_map.1 hi
    exact crowd_initial.2 ⟨k, List.mem_range.1 hk, rfl⟩)).length_le
  rwa [List.length_map, List.length_range] at this

theorem crowd_scopes : crowd.ScopesReal := by
  have h0 : ∀ t ∈ crowd.extRows, (Machine.sourceLoc t.parent t.source).1 = 0 := by
    intro t ht
    obtain ⟨i, rfl⟩ := mem_crowd ht
    rfl
  refine ⟨?_, ?_⟩
  · intro t ht
    rw [crowd_int, List.append_nil] at ht
    rw [h0 t ht]
    exact ⟨.refl, by rw [crowd_rows]; simp⟩
  · intro t ht p hp
    obtain ⟨i, rfl⟩ := mem_crowd ht
    cases hp

end Ex

/-- C56 fails for more than 255 regions: a machine that compiles, fills its tables without an
error, and whose constructor never returns. -/
theorem C56_refuted : ¬ ∀ M : Machine, M.Regular → ∀ (d : Dep) (w : Unit) (s : SM Unit Unit),
    construct M d w = .ok s → ∃ k, construct8 M k d w = some (.ok s) := by
  intro h
  obtain ⟨s, hc⟩ := (C06_construct (P := Unit) Ex.crowd_regular 0 ()).1.2
    ⟨Ex.crowd_scopes, fun _ h => by have := Ex.crowd_wide; rw [h] at this; simp at this⟩
  obtain ⟨k, hk⟩ := h Ex.crowd Ex.crowd_regular 0 () s hc
  exact (C56_hangs (sem := ⟨fun _ _ _ _ => .ub, fun _ _ _ _ => .ub, fun _ _ _ _ _ _ => .ub,
    fun _ _ => true, ()⟩)).1 Ex.crowd_regular Ex.crowd_wide k 0 () s hk

/-- The hypotheses of `C56_partial` are met, with two regions. -/
example : (∀ p ∈ Ex.orth.composites, (Ex.orth.declaredInitials p).length ≤ 255) ∧
    Ex.orth.declaredInitials Ex.orth.root = [1, 3] ∧
    (Ex.run Ex.orth (Ex.sem fun _ => true) 5 7 [] [.process (Ex.ev 0) 1]).any (fun s =>
      match processEvent8 Ex.orth (Ex.sem fun _ => true) 256 5 (Ex.ev 1) 2 s with
      | .ok b s' => b && decide (activeRegions Ex.orth s = 2) && decide (s'.log.length = 4)
      | _ => false) = true := by
  decide +kernel

end Hsm

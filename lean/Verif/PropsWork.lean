import Verif.PropsGenAll
import Verif.PropsInterpGenR
import Verif.PropsAnon
import Verif.PropsGrowth
import Verif.PropsCalls
import Verif.PropsLedger
import Verif.PropsApi

/-!
# How much one call can do

Property C101: how many callbacks a call can invoke, and by how much it can lengthen the queue of
deferred events.
-/

namespace Hsm

section
variable {P W : Type} {M : Machine} {sem : Sem P W}

/-- The tables are not longer than `L`, no composite has more than `R` initial states, and no more
than `R` regions are active. -/
structure Stocked (M : Machine) (L R : Nat) (s : SM P W) : Prop where
  length : ∀ ev c, c < M.size → (s.table ev c).length ≤ L
  acts : ∀ ev c, c < M.size → ∀ e ∈ s.table ev c, ∀ x, e.tr = some x → (x.action.getD []).length ≤ 4
  initial : ∀ l ∈ s.initial, l.length ≤ R
  regions : M.orthogonal = true → s.regions ≤ R

variable {L R : Nat}

theorem Stocked.of_eq {s s' : SM P W} (h : Stocked M L R s) (h1 : s'.table = s.table)
    (h2 : s'.initial = s.initial) (h3 : s'.regions = s.regions) : Stocked M L R s' :=
  ⟨by rw [h1]; exact h.length, by rw [h1]; exact h.acts, by rw [h2]; exact h.initial,
    by rw [h3]; exact h.regions⟩

/-- From `s` to `s'` at most `g` guards and at most `a` other callbacks were invoked, and the queue
grew by at most `q`. -/
structure Spent (M : Machine) (L R g a q : Nat) (s s' : SM P W) : Prop where
  stocked : Stocked M L R s'
  calls : ∃ tr, s'.trace = s.trace ++ tr ∧ tr.countP Call.isGuard ≤ g ∧
    tr.countP (fun c => !c.isGuard) ≤ a
  queue : s'.queue.length ≤ s.queue.length + q

/-- However it ends, a run costs at most so much. -/
abbrev Costs {α : Type} (M : Machine) (L R g a q : Nat) (s : SM P W) (r : Res (SM P W) α) : Prop :=
  r.Sat True (fun _ => Spent M L R g a q s) (fun _ => Spent M L R g a q s)

theorem Spent.mono {g a q g' a' q' : Nat} {s s' : SM P W} (h : Spent M L R g a q s s') (hg : g ≤ g')
    (ha : a ≤ a') (hq : q ≤ q') : Spent M L R g' a' q' s s' := by
  obtain ⟨h1, ⟨tr, h2, h3, h4⟩, h5⟩ := h
  exact ⟨h1, ⟨tr, h2, Nat.le_trans h3 hg, Nat.le_trans h4 ha⟩, by omega⟩

theorem Spent.trans {g a q g' a' q' : Nat} {s s1 s' : SM P W} (h : Spent M L R g a q s s1)
    (h' : Spent M L R g' a' q' s1 s') : Spent M L R (g + g') (a + a') (q + q') s s' := by
  obtain ⟨_, ⟨tr, h2, h3, h4⟩, h5⟩ := h
  obtain ⟨k1, ⟨tr', k2, k3, k4⟩, k5⟩ := h'
  refine ⟨k1, ⟨tr ++ tr', by rw [k2, h2, List.append_assoc], ?_, ?_⟩, by omega⟩
  · rw [List.countP_append]; omega
  · rw [List.countP_append]; omega

theorem Spent.refl {s : SM P W} (h : Stocked M L R s) : Spent M L R 0 0 0 s s :=
  ⟨h, ⟨[], by simp⟩, by simp⟩

theorem Costs.mono {α : Type} {g a q g' a' q' : Nat} {s : SM P W} {r : Res (SM P W) α}
    (h : Costs M L R g a q s r) (hg : g ≤ g') (ha : a ≤ a') (hq : q ≤ q') :
    Costs M L R g' a' q' s r :=
  Res.Sat.mono h (fun _ _ h => h.mono hg ha hq) fun _ _ h => h.mono hg ha hq

theorem Costs.ok {α : Type} {g a q : Nat} {s : SM P W} (h : Stocked M L R s) (x : α) :
    Costs M L R g a q s (.ok x s) :=
  (Spent.refl h).mono (Nat.zero_le _) (Nat.zero_le _) (Nat.zero_le _)

theorem Costs.bind {α β : Type} {g a q g' a' q' : Nat} {s : SM P W} {r : Res (SM P W) α}
    {f : α → SM P W → Res (SM P W) β} (h : Costs M L R g a q s r)
    (hf : ∀ x s1, r = .ok x s1 → Stocked M L R s1 → Costs M L R g' a' q' s1 (f x s1)) :
    Costs M L R (g + g') (a + a') (q + q') s (r.bind f) := by
  cases r with
  | ok x s1 =>
    have h : Spent M L R g a q s s1 := h
    exact Res.Sat.mono (hf x s1 rfl h.stocked) (fun _ _ k => h.trans k) fun _ _ k => h.trans k
  | throw x s1 =>
    exact Spent.mono h (Nat.le_add_right _ _) (Nat.le_add_right _ _) (Nat.le_add_right _ _)
  | ub u => trivial
  | timeout => trivial

/-! ## One region -/

theorem execGuard_costs (x : Exec) (ev : EventTy) (p : P) {s : SM P W} (h : Stocked M L R s) :
    Costs M L R 1 0 0 s (execGuard M sem x ev p s) := by
  unfold execGuard
  split
  · exact Costs.ok h _
  · dsimp only
    generalize (if x.internal = true then x.src else x.dst) = dst
    split
    · split
      · exact ⟨h.of_eq rfl rfl rfl, ⟨_, rfl, by simp [Call.isGuard], by simp [Call.isGuard]⟩, by simp⟩
      · exact ⟨h.of_eq rfl rfl rfl, ⟨_, rfl, by simp [Call.isGuard], by simp [Call.isGuard]⟩, by simp⟩
      · trivial
    · trivial

theorem runCbs_costs (args : Args) : ∀ (cs : List (Phase × Cb)) (p : P) {s : SM P W},
    Stocked M L R s → Costs M L R 0 cs.length 0 s (runCbs sem args cs p s) := by
  intro cs
  induction cs with
  | nil => intro p s h; exact Costs.ok h _
  | cons c cs ih =>
    obtain ⟨ph, a⟩ := c
    intro p s h
    unfold runCbs
    cases sem.action a args p s.world with
    | ok b p' w' =>
      dsimp only
      have h0 : Stocked M L R
          { s with world := w', trace := s.trace ++ [.action ph a args p false s.cur] } :=
        h.of_eq rfl rfl rfl
      have h1 : Spent M L R 0 1 0 s
          { s with world := w', trace := s.trace ++ [.action ph a args p false s.cur] } :=
        ⟨h0, ⟨_, rfl, by simp [Call.isGuard], by simp [Call.isGuard]⟩, by simp⟩
      have h2 := ih p' h0
      refine Res.Sat.mono h2 (fun _ _ k => ?_) fun _ _ k => ?_
      · exact (h1.trans k).mono (by simp) (by simp; omega) (by simp)
      · exact (h1.trans k).mono (by simp) (by simp; omega) (by simp)
    | throw n p' w' =>
      dsimp only
      exact ⟨h.of_eq rfl rfl rfl, ⟨_, rfl, by simp [Call.isGuard], by simp [Call.isGuard]⟩, by simp⟩
    | ub => trivial

theorem updateState_costs (r : Nat) (e : Entry) {s : SM P W} (h : Stocked M L R s) :
    Costs M L R 0 0 0 s (updateState M r e s) := by
  cases hu : updateState M r e s with
  | ok u s' =>
    rcases updateState_ok hu with ⟨_, rfl⟩ | hm
    · exact Spent.refl h
    · refine ⟨⟨by rw [hm.table]; exact h.length, by rw [hm.table]; exact h.acts,
        by rw [hm.initial]; exact h.initial, ?_⟩, ⟨[], by simp [hm.trace]⟩, by simp [hm.queue]⟩
      rcases hm.regions with ⟨_, hr⟩ | ⟨_, k, l, _, hl, hr⟩
      · rw [hr]; exact h.regions
      · rw [hr]; exact fun _ => h.initial l (List.mem_of_getElem? hl)
  | throw x s' => exact absurd hu updateState_throw
  | ub u => trivial
  | timeout => trivial

theorem fire_costs (r : Nat) (ev : EventTy) (e : Entry) (x : Exec) (p : P) {s : SM P W}
    (h : Stocked M L R s) (hx : (x.action.getD []).length ≤ 4) :
    Costs M L R 0 4 0 s (fire M sem r ev e x p s) := by
  unfold fire
  refine (Costs.bind (g' := 0) (a' := 4) (q' := 0) (updateState_costs r e h)
    fun _ s1 _ h1 => ?_).mono (by simp) (by simp) (by simp)
  unfold execAction
  cases hc : x.action with
  | none => exact Costs.ok h1 _
  | some cs =>
    rw [hc] at hx
    dsimp only
    split
    · exact (runCbs_costs _ cs p h1).mono (Nat.le_refl _) hx (Nat.le_refl _)
    · trivial

/-- What a deferred event adds to the queue. -/
def deferral : RegionOut → Nat
  | .deferred => 1
  | _ => 0

theorem tryEntries_costs (r : Nat) (ev : EventTy) : ∀ (es : List Entry) (p : P) {s : SM P W},
    Stocked M L R s → (∀ e ∈ es, ∀ x, e.tr = some x → (x.action.getD []).length ≤ 4) →
    (tryEntries M sem r ev es p s).Sat True
      (fun op s' => op.1 ≠ .none ∧ Spent M L R es.length 4 (deferral op.1) s s')
      (fun _ => Spent M L R es.length 4 0 s) := by
  intro es
  induction es with
  | nil =>
    intro p s h _
    exact ⟨by simp, (Spent.refl h).mono (Nat.zero_le _) (Nat.zero_le _) (Nat.zero_le _)⟩
  | cons e es ih =>
    intro p s h hx
    unfold tryEntries
    split
    · exact ⟨by simp, h.of_eq rfl rfl rfl, ⟨[], by simp⟩, by simp [deferral]⟩
    · cases ht : e.tr with
      | none => trivial
      | some x =>
        dsimp only
        have hg := execGuard_costs (sem := sem) x ev p h
        revert hg
        cases execGuard M sem x ev p s with
        | ub u => intro _; trivial
        | timeout => intro _; trivial
        | throw y s1 =>
          intro hg
          exact Spent.mono hg (by simp) (by simp) (by simp)
        | ok gp s1 =>
          intro hg
          have hg : Spent M L R 1 0 0 s s1 := hg
          show Res.Sat _ _ _ (if gp.1 = true then _ else _)
          split
          · have hf := fire_costs (sem := sem) r ev e x gp.2 hg.stocked (hx e (by simp) x ht)
            revert hf
            cases fire M sem r ev e x gp.2 s1 with
            | ub u => intro _; trivial
            | timeout => intro _; trivial
            | throw y s2 =>
              intro hf
              exact (hg.trans hf).mono (by simp) (by simp) (by simp)
            | ok y s2 =>
              intro hf
              exact ⟨by simp, (hg.trans hf).mono (by simp) (by simp) (by simp [deferral])⟩
          · refine Res.Sat.mono (ih gp.2 hg.stocked fun e' he' => hx e' (by simp [he']))
              (fun _ _ k => ⟨k.1, (hg.trans k.2).mono ?_ ?_ ?_⟩) fun _ _ k => (hg.trans k).mono ?_ ?_ ?_
            all_goals simp
            all_goals omega

theorem tryAnon_costs (r : Nat) : ∀ (es : List Entry) (p : P) {s : SM P W},
    Stocked M L R s → (∀ e ∈ es, ∀ x, e.tr = some x → (x.action.getD []).length ≤ 4) →
    Costs M L R es.length 4 0 s (tryAnon M sem r es p s) := by
  intro es
  induction es with
  | nil => intro p s h _; exact Costs.ok h _
  | cons e es ih =>
    intro p s h hx
    unfold tryAnon
    cases ht : e.tr with
    | none => trivial
    | some x =>
      dsimp only
      refine (Costs.bind (g' := es.length) (a' := 4) (q' := 0) (execGuard_costs x .none p h)
        fun gp s1 _ h1 => ?_).mono (by simp; omega) (by simp) (by simp)
      split
      · refine (Costs.bind (g' := 0) (a' := 0) (q' := 0)
          (fire_costs r .none e x gp.2 h1 (hx e (by simp) x ht)) fun _ _ _ h2 => Costs.ok h2 _).mono
          (by simp) (by simp) (by simp)
      · exact ih gp.2 h1 fun e' he' => hx e' (by simp [he'])

theorem lookup_costs (ev : EventTy) (r : Nat) {s : SM P W} (h : Stocked M L R s) {α : Type}
    {g a q : Nat} {f : List Entry → SM P W → Res (SM P W) α}
    (hf : ∀ es, es.length ≤ L → (∀ e ∈ es, ∀ x, e.tr = some x → (x.action.getD []).length ≤ 4) →
      Costs M L R g a q s (f es s)) :
    Costs M L R g a q s ((lookup M ev r s).bind f) := by
  unfold lookup readCur
  split
  · trivial
  · trivial
  · rename_i c _
    simp only [Res.bind]
    by_cases hc : c < M.size
    · rw [if_pos hc]; exact hf _ (h.length ev c hc) (h.acts ev c hc)
    · rw [if_neg hc]; trivial

/-- A region without candidates costs nothing; only one that defers lengthens the queue. -/
theorem regionStep_costs (r : Nat) (ev : EventTy) (p : P) {s : SM P W} (h : Stocked M L R s) :
    (regionStep M sem r ev p s).Sat True
      (fun op s' => (op.1 = .none → s' = s) ∧ Spent M L R L 4 (deferral op.1) s s')
      (fun _ => Spent M L R L 4 0 s) := by
  unfold regionStep lookup readCur
  split
  · trivial
  · trivial
  · rename_i c _
    simp only [Res.bind]
    by_cases hc : c < M.size
    · rw [if_pos hc]
      dsimp only
      split
      · exact ⟨fun _ => rfl, (Spent.refl h).mono (Nat.zero_le _) (Nat.zero_le _) (Nat.zero_le _)⟩
      · refine Res.Sat.mono (tryEntries_costs r ev _ p h (h.acts ev c hc)) (fun _ _ k => ?_)
          fun _ _ k => ?_
        · exact ⟨fun h0 => absurd h0 k.1, k.2.mono (h.length ev c hc) (Nat.le_refl _) (Nat.le_refl _)⟩
        · exact k.mono (h.length ev c hc) (Nat.le_refl _) (Nat.le_refl _)
    · rw [if_neg hc]; trivial

/-! ## All regions -/

/-- What the region loop adds to the queue. -/
def loopDeferral : LoopOut → Nat
  | .deferred => 1
  | .done _ _ => 0

theorem regionLoop_costs (ev : EventTy) : ∀ (rs : List Nat) (agf ati : Bool) (p : P) {s : SM P W},
    Stocked M L R s → (regionLoop M sem ev rs agf ati p s).Sat True
      (fun op s' => ((∃ b, op.1 = .done b true) → ati = true ∧ s' = s) ∧
        Spent M L R (rs.length * L) (rs.length * 4) (loopDeferral op.1) s s')
      (fun _ => Spent M L R (rs.length * L) (rs.length * 4) 0 s) := by
  intro rs
  induction rs with
  | nil =>
    intro agf ati p s h
    refine ⟨?_, (Spent.refl h).mono (Nat.zero_le _) (Nat.zero_le _) (Nat.zero_le _)⟩
    rintro ⟨b, hb⟩
    cases hb
    exact ⟨rfl, rfl⟩
  | cons r rs ih =>
    intro agf ati p s h
    unfold regionLoop
    have hs := regionStep_costs (sem := sem) r ev p h
    revert hs
    have e1 : L + rs.length * L = (r :: rs).length * L := by
      rw [List.length_cons, Nat.succ_mul]; omega
    have e2 : 4 + rs.length * 4 = (r :: rs).length * 4 := by
      rw [List.length_cons, Nat.succ_mul]; omega
    have l1 : L ≤ (r :: rs).length * L := by rw [← e1]; omega
    have l2 : 4 ≤ (r :: rs).length * 4 := by rw [← e2]; omega
    cases regionStep M sem r ev p s with
    | ub u => intro _; trivial
    | timeout => intro _; trivial
    | throw y s1 =>
      intro hs
      exact Spent.mono hs l1 l2 (Nat.le_refl _)
    | ok op s1 =>
      obtain ⟨o, p1⟩ := op
      rintro ⟨hn, hs⟩
      dsimp only at hn hs
      have go : ∀ (a b : Bool), deferral o = 0 → (b = true → ati = true ∧ o = .none) →
          (regionLoop M sem ev rs a b p1 s1).Sat True
            (fun op s' => ((∃ b, op.1 = .done b true) → ati = true ∧ s' = s) ∧
              Spent M L R ((r :: rs).length * L) ((r :: rs).length * 4) (loopDeferral op.1) s s')
            (fun _ => Spent M L R ((r :: rs).length * L) ((r :: rs).length * 4) 0 s) := by
        intro a b hd hb
        refine Res.Sat.mono (ih a b p1 hs.stocked) (fun op s' k => ⟨fun h0 => ?_, ?_⟩) fun _ _ k => ?_
        · obtain ⟨hbt, rfl⟩ := k.1 h0
          obtain ⟨ha, ho⟩ := hb hbt
          exact ⟨ha, hn ho⟩
        · exact (hs.trans k.2).mono (Nat.le_of_eq e1) (Nat.le_of_eq e2) (by omega)
        · exact (hs.trans k).mono (Nat.le_of_eq e1) (Nat.le_of_eq e2) (by omega)
      cases o with
      | none => exact go agf ati rfl fun h => ⟨h, rfl⟩
      | rejected => exact go agf false rfl fun h => by cases h
      | fired => exact go false false rfl fun h => by cases h
      | deferred =>
        refine ⟨?_, hs.mono l1 l2 (Nat.le_refl _)⟩
        rintro ⟨b, hb⟩
        cases hb

theorem anonRound_costs : ∀ (rs : List Nat) (agf : Bool) (p : P) {s : SM P W}, Stocked M L R s →
    Costs M L R (rs.length * L) (rs.length * 4) 0 s (anonRound M sem rs agf p s) := by
  intro rs
  induction rs with
  | nil => intro agf p s h; exact Costs.ok h _
  | cons r rs ih =>
    intro agf p s h
    unfold anonRound
    refine lookup_costs .none r h fun es hl hx => ?_
    split
    · exact Costs.ok h _
    · refine (Costs.bind (tryAnon_costs r es p h hx) fun fp s1 _ h1 => ih _ _ h1).mono ?_ ?_ ?_
      · rw [List.length_cons, Nat.succ_mul]; omega
      · rw [List.length_cons, Nat.succ_mul]; omega
      · simp

theorem anonRoundG_costs : ∀ (rs : List Nat) (agf : Bool) {s : SM P W}, Stocked M L R s →
    Costs M L R (rs.length * L) (rs.length * 4) 0 s (anonRoundG M sem rs agf s) := by
  intro rs
  induction rs with
  | nil => intro agf s h; exact Costs.ok h _
  | cons r rs ih =>
    intro agf s h
    unfold anonRoundG
    refine lookup_costs .none r h fun es hl hx => ?_
    split
    · exact Costs.ok h _
    · refine (Costs.bind (tryAnon_costs r es _ h hx) fun fp s1 _ h1 => ih _ h1).mono ?_ ?_ ?_
      · rw [List.length_cons, Nat.succ_mul]; omega
      · rw [List.length_cons, Nat.succ_mul]; omega
      · simp

theorem currentRegions_le {s : SM P W} (h : Stocked M L R s) (hR : 1 ≤ R) :
    (List.range (currentRegions M s)).length ≤ R := by
  rw [List.length_range]
  unfold currentRegions
  rw [Machine.parallel_eq]
  split
  · rename_i ho; exact h.regions ho
  · exact hR

theorem anonLoop_costs (hR : 1 ≤ R) : ∀ (fuel : Nat) (p : P) {s : SM P W}, Stocked M L R s →
    Costs M L R (fuel * (R * L)) (fuel * (R * 4)) 0 s (anonLoop M sem fuel p s) := by
  intro fuel
  induction fuel with
  | zero => intro p s _; trivial
  | succ fuel ih =>
    intro p s h
    unfold anonLoop
    have hr := currentRegions_le h hR
    refine (Costs.bind (g' := fuel * (R * L)) (a' := fuel * (R * 4)) (q' := 0)
      ((anonRound_costs _ true p h).mono (Nat.mul_le_mul_right L hr) (Nat.mul_le_mul_right 4 hr)
        (Nat.le_refl _)) fun op s1 _ h1 => ?_).mono ?_ ?_ ?_
    · split
      · exact Costs.ok h1 _
      · exact Costs.ok h1 _
      · exact ih _ h1
    · rw [Nat.succ_mul]; omega
    · rw [Nat.succ_mul]; omega
    · simp

theorem anonLoopG_costs (hR : 1 ≤ R) : ∀ (fuel : Nat) {s : SM P W}, Stocked M L R s →
    Costs M L R (fuel * (R * L)) (fuel * (R * 4)) 0 s (anonLoopG M sem fuel s) := by
  intro fuel
  induction fuel with
  | zero => intro s _; trivial
  | succ fuel ih =>
    intro s h
    unfold anonLoopG
    have hr := currentRegions_le h hR
    refine (Costs.bind (g' := fuel * (R * L)) (a' := fuel * (R * 4)) (q' := 0)
      ((anonRoundG_costs _ true h).mono (Nat.mul_le_mul_right L hr) (Nat.mul_le_mul_right 4 hr)
        (Nat.le_refl _)) fun op s1 _ h1 => ?_).mono ?_ ?_ ?_
    · split
      · exact Costs.ok h1 _
      · exact Costs.ok h1 _
      · exact ih h1
    · rw [Nat.succ_mul]; omega
    · rw [Nat.succ_mul]; omega
    · simp

/-! ## Whole calls -/

namespace Machine

/-- How many passes through the regions an event can cause if the anonymous rows take `f` rounds. -/
def passes (M : Machine) (f : Nat) : Nat := 1 + if M.anonymous then f else 0

/-- How many events one call can handle: its own and, if anything can be deferred, one deferred event. -/
def turns (M : Machine) : Nat := if M.deferring then 2 else 1

end Machine

theorem processAnon_costs (hR : 1 ≤ R) (fuel : Nat) {s : SM P W} (h : Stocked M L R s) :
    Costs M L R ((M.passes fuel - 1) * (R * L)) ((M.passes fuel - 1) * (R * 4)) 0 s
      (processAnon M sem fuel s) := by
  unfold processAnon Machine.passes
  rw [Machine.hasAnon_eq]
  cases M.anonymous with
  | true => exact (anonLoop_costs hR fuel _ h).mono (by simp) (by simp) (by simp)
  | false => exact Costs.ok h _

theorem processAnonG_costs (hR : 1 ≤ R) (fuel : Nat) {s : SM P W} (h : Stocked M L R s) :
    Costs M L R ((M.passes fuel - 1) * (R * L)) ((M.passes fuel - 1) * (R * 4)) 0 s
      (processAnonG M sem fuel s) := by
  unfold processAnonG Machine.passes
  rw [Machine.hasAnon_eq]
  cases M.anonymous with
  | true => exact (anonLoopG_costs hR fuel h).mono (by simp) (by simp) (by simp)
  | false => exact Costs.ok h _

theorem passes_pos (fuel : Nat) : 1 ≤ M.passes fuel := by unfold Machine.passes; omega

/-- What an event adds to the queue. -/
def procDeferral : ProcRes → Nat
  | .deferred => 1
  | _ => 0

theorem processInternal_costs (hR : 1 ≤ R) (fuel : Nat) (ev : EventTy) (p : P) {s : SM P W}
    (h : Stocked M L R s) : (processInternal M sem fuel ev p s).Sat True
      (fun op s' => (op.1 = .allTransitionsInvalid → s' = s) ∧
        Spent M L R (M.passes fuel * (R * L)) (M.passes fuel * (R * 4)) (procDeferral op.1) s s')
      (fun _ => Spent M L R (M.passes fuel * (R * L)) (M.passes fuel * (R * 4)) 0 s) := by
  unfold processInternal
  have hl := regionLoop_costs (sem := sem) ev (List.range (currentRegions M s)) true true p h
  have hr := currentRegions_le h hR
  have e : ∀ k, R * k + (M.passes fuel - 1) * (R * k) = M.passes fuel * (R * k) := by
    intro k
    have hp := passes_pos (M := M) fuel
    obtain ⟨n, hn⟩ : ∃ n, M.passes fuel = n + 1 := ⟨M.passes fuel - 1, by omega⟩
    rw [hn, Nat.succ_mul, Nat.add_sub_cancel]; omega
  have l1 : ∀ k, (List.range (currentRegions M s)).length * k ≤ R * k :=
    fun k => Nat.mul_le_mul_right k hr
  have l2 : ∀ k, (List.range (currentRegions M s)).length * k ≤ M.passes fuel * (R * k) := by
    intro k; have h1 := l1 k; have h2 := e k; omega
  revert hl
  cases regionLoop M sem ev (List.range (currentRegions M s)) true true p s with
  | ub u => intro _; trivial
  | timeout => intro _; trivial
  | throw y s1 => intro hl; exact Spent.mono hl (l2 L) (l2 4) (Nat.le_refl _)
  | ok op s1 =>
    obtain ⟨o, p1⟩ := op
    rintro ⟨hn, hs⟩
    dsimp only at hn hs
    cases o with
    | deferred => exact ⟨(fun h => by cases h), hs.mono (l2 L) (l2 4) (Nat.le_refl _)⟩
    | done agf ati =>
      cases ati with
      | true =>
        exact ⟨fun _ => (hn ⟨_, rfl⟩).2, hs.mono (l2 L) (l2 4) (Nat.le_refl _)⟩
      | false =>
        cases agf with
        | true => exact ⟨(fun h => by cases h), hs.mono (l2 L) (l2 4) (Nat.le_refl _)⟩
        | false =>
          have ha := processAnon_costs (sem := sem) hR fuel hs.stocked
          show Res.Sat _ _ _ ((processAnon M sem fuel s1).bind fun _ s => .ok (ProcRes.processed, p1) s)
          revert ha
          cases processAnon M sem fuel s1 with
          | ub u => intro _; trivial
          | timeout => intro _; trivial
          | throw y s2 =>
            intro ha
            refine ((hs.mono (l1 L) (l1 4) (Nat.le_refl _)).trans ha).mono ?_ ?_ ?_
            · exact Nat.le_of_eq (e L)
            · exact Nat.le_of_eq (e 4)
            · simp [loopDeferral]
          | ok u s2 =>
            intro ha
            refine ⟨(fun h => by cases h),
              ((hs.mono (l1 L) (l1 4) (Nat.le_refl _)).trans ha).mono ?_ ?_ ?_⟩
            · exact Nat.le_of_eq (e L)
            · exact Nat.le_of_eq (e 4)
            · simp [loopDeferral]

/-- What the amalgamated header does with one event.  The queue can only grow if the result is `true`. -/
theorem processInternalG_costs (hR : 1 ≤ R) (fuel : Nat) (ev : EventTy) (p : P) {s : SM P W}
    (h : Stocked M L R s) : (processInternalG M sem fuel ev p s).Sat True
      (fun op s' => (op.1 = false → s' = s) ∧
        Spent M L R (M.passes fuel * (R * L)) (M.passes fuel * (R * 4)) 1 s s')
      (fun _ => Spent M L R (M.passes fuel * (R * L)) (M.passes fuel * (R * 4)) 0 s) := by
  unfold processInternalG
  have hl := regionLoop_costs (sem := sem) ev (List.range (currentRegions M s)) true true p h
  have hr := currentRegions_le h hR
  have e : ∀ k, R * k + (M.passes fuel - 1) * (R * k) = M.passes fuel * (R * k) := by
    intro k
    have hp := passes_pos (M := M) fuel
    obtain ⟨n, hn⟩ : ∃ n, M.passes fuel = n + 1 := ⟨M.passes fuel - 1, by omega⟩
    rw [hn, Nat.succ_mul, Nat.add_sub_cancel]; omega
  have l1 : ∀ k, (List.range (currentRegions M s)).length * k ≤ R * k :=
    fun k => Nat.mul_le_mul_right k hr
  have l2 : ∀ k, (List.range (currentRegions M s)).length * k ≤ M.passes fuel * (R * k) := by
    intro k; have h1 := l1 k; have h2 := e k; omega
  have l3 : ∀ o, loopDeferral o ≤ 1 := by intro o; cases o <;> simp [loopDeferral]
  revert hl
  cases regionLoop M sem ev (List.range (currentRegions M s)) true true p s with
  | ub u => intro _; trivial
  | timeout => intro _; trivial
  | throw y s1 => intro hl; exact Spent.mono hl (l2 L) (l2 4) (Nat.le_refl _)
  | ok op s1 =>
    obtain ⟨o, p1⟩ := op
    rintro ⟨hn, hs⟩
    dsimp only at hn hs
    cases o with
    | deferred => exact ⟨(fun h => by cases h), hs.mono (l2 L) (l2 4) (l3 _)⟩
    | done agf ati =>
      cases ati with
      | true =>
        exact ⟨fun _ => (hn ⟨_, rfl⟩).2, hs.mono (l2 L) (l2 4) (l3 _)⟩
      | false =>
        cases agf with
        | true => exact ⟨(fun h => by cases h), hs.mono (l2 L) (l2 4) (l3 _)⟩
        | false =>
          have ha := processAnonG_costs (sem := sem) hR fuel hs.stocked
          show Res.Sat _ _ _ ((processAnonG M sem fuel s1).bind fun _ s => .ok (true, p1) s)
          revert ha
          cases processAnonG M sem fuel s1 with
          | ub u => intro _; trivial
          | timeout => intro _; trivial
          | throw y s2 =>
            intro ha
            refine ((hs.mono (l1 L) (l1 4) (Nat.le_refl _)).trans ha).mono ?_ ?_ ?_
            · exact Nat.le_of_eq (e L)
            · exact Nat.le_of_eq (e 4)
            · simp [loopDeferral]
          | ok u s2 =>
            intro ha
            refine ⟨(fun h => by cases h),
              ((hs.mono (l1 L) (l1 4) (Nat.le_refl _)).trans ha).mono ?_ ?_ ?_⟩
            · exact Nat.le_of_eq (e L)
            · exact Nat.le_of_eq (e 4)
            · simp [loopDeferral]

theorem procDeferral_le (o : ProcRes) : procDeferral o ≤ 1 := by cases o <;> simp [procDeferral]

/-- Replaying takes an event off the queue before it can put it back. -/
theorem processDeferred_costs (hR : 1 ≤ R) (fuel : Nat) {s : SM P W} (h : Stocked M L R s) :
    Costs M L R ((M.turns - 1) * (M.passes fuel * (R * L))) ((M.turns - 1) * (M.passes fuel * (R * 4))) 0 s
      (processDeferred M sem fuel s) := by
  unfold processDeferred Machine.turns
  rw [Machine.hasDefer_eq]
  cases M.deferring with
  | false => exact Costs.ok h _
  | true =>
    simp only [if_true]
    cases hq : s.queue with
    | nil => exact Costs.ok h _
    | cons x q =>
      obtain ⟨e, p⟩ := x
      dsimp only
      have h0 : Stocked M L R { s with queue := q } := h.of_eq rfl rfl rfl
      have hi := processInternal_costs (sem := sem) hR fuel e p h0
      revert hi
      have back : ∀ {k : Nat} {s1 : SM P W}, k ≤ 1 →
          Spent M L R (M.passes fuel * (R * L)) (M.passes fuel * (R * 4)) k { s with queue := q } s1 →
          Spent M L R ((2 - 1) * (M.passes fuel * (R * L))) ((2 - 1) * (M.passes fuel * (R * 4))) 0 s s1 := by
        rintro k s1 hk ⟨a1, ⟨tr, a2, a3, a4⟩, a5⟩
        refine ⟨a1, ⟨tr, a2, by simpa using a3, by simpa using a4⟩, ?_⟩
        rw [hq]
        simp only [List.length_cons] at a5 ⊢
        omega
      cases processInternal M sem fuel e p { s with queue := q } with
      | ub u => intro _; trivial
      | timeout => intro _; trivial
      | throw y s1 => intro hi; exact back (Nat.zero_le _) hi
      | ok op s1 => intro hi; exact back (procDeferral_le _) hi.2

theorem processDeferredG_costs (hR : 1 ≤ R) (fuel : Nat) {s : SM P W} (h : Stocked M L R s) :
    Costs M L R ((M.turns - 1) * (M.passes fuel * (R * L))) ((M.turns - 1) * (M.passes fuel * (R * 4))) 0 s
      (processDeferredG M sem fuel s) := by
  unfold processDeferredG Machine.turns
  rw [Machine.hasDefer_eq]
  cases M.deferring with
  | false => exact Costs.ok h _
  | true =>
    simp only [if_true]
    cases hq : s.queue with
    | nil => exact Costs.ok h _
    | cons x q =>
      obtain ⟨e, p⟩ := x
      dsimp only
      have h0 : Stocked M L R { s with queue := q } := h.of_eq rfl rfl rfl
      have hi := processInternalG_costs (sem := sem) hR fuel e p h0
      revert hi
      have back : ∀ {k : Nat} {s1 : SM P W}, k ≤ 1 →
          Spent M L R (M.passes fuel * (R * L)) (M.passes fuel * (R * 4)) k { s with queue := q } s1 →
          Spent M L R ((2 - 1) * (M.passes fuel * (R * L))) ((2 - 1) * (M.passes fuel * (R * 4))) 0 s s1 := by
        rintro k s1 hk ⟨a1, ⟨tr, a2, a3, a4⟩, a5⟩
        refine ⟨a1, ⟨tr, a2, by simpa using a3, by simpa using a4⟩, ?_⟩
        rw [hq]
        simp only [List.length_cons] at a5 ⊢
        omega
      cases processInternalG M sem fuel e p { s with queue := q } with
      | ub u => intro _; trivial
      | timeout => intro _; trivial
      | throw y s1 => intro hi; exact back (Nat.zero_le _) hi
      | ok op s1 => intro hi; exact back (Nat.le_refl _) hi.2

theorem callHandler_costs (ev : EventTy) (p : P) {s : SM P W} (h : Stocked M L R s) :
    Costs M L R 0 1 0 s (callHandler M sem ev p s) := by
  unfold callHandler
  split
  · exact Costs.ok h _
  · unfold readCur
    split
    · trivial
    · trivial
    · simp only [Res.bind]
      split
      · split
        · trivial
        · split
          · split
            · exact ⟨h.of_eq rfl rfl rfl, ⟨_, rfl, by simp [Call.isGuard], by simp [Call.isGuard]⟩, by simp⟩
            · exact ⟨h.of_eq rfl rfl rfl, ⟨_, rfl, by simp [Call.isGuard], by simp [Call.isGuard]⟩, by simp⟩
            · trivial
          · trivial
      · exact (Spent.refl h).mono (Nat.le_refl _) (Nat.zero_le _) (Nat.le_refl _)

theorem turns_split (n : Nat) : n + (M.turns - 1) * n = M.turns * n := by
  unfold Machine.turns
  split <;> omega

theorem turns_le (n : Nat) : n ≤ M.turns * n := by
  rw [← turns_split]; omega

theorem one_le_work (hR : 1 ≤ R) (fuel : Nat) : 1 ≤ M.turns * (M.passes fuel * (R * 4)) := by
  have h1 := passes_pos (M := M) fuel
  have h2 : 1 ≤ R * 4 := by omega
  exact Nat.le_trans (Nat.mul_le_mul h1 h2) (turns_le _)

theorem processEvent_costs (hR : 1 ≤ R) (fuel : Nat) (ev : EventTy) (p : P) {s : SM P W}
    (h : Stocked M L R s) : (processEvent M sem fuel ev p s).Sat True
      (fun b => Spent M L R (M.turns * (M.passes fuel * (R * L))) (M.turns * (M.passes fuel * (R * 4)))
        (if b then 0 else 1) s)
      (fun _ => Spent M L R (M.turns * (M.passes fuel * (R * L)))
        (M.turns * (M.passes fuel * (R * 4))) 0 s) := by
  unfold processEvent
  have hi := processInternal_costs (sem := sem) hR fuel ev p h
  revert hi
  cases processInternal M sem fuel ev p s with
  | ub u => intro _; trivial
  | timeout => intro _; trivial
  | throw y s1 => intro hi; exact Spent.mono hi (turns_le _) (turns_le _) (Nat.le_refl _)
  | ok op s1 =>
    obtain ⟨o, p1⟩ := op
    rintro ⟨hn, hs⟩
    dsimp only at hn hs
    cases o with
    | allTransitionsInvalid =>
      cases hn rfl
      have hc := callHandler_costs (sem := sem) ev p1 h
      show Res.Sat _ _ _ ((callHandler M sem ev p1 s).bind fun _ s => .ok false s)
      revert hc
      cases callHandler M sem ev p1 s with
      | ub u => intro _; trivial
      | timeout => intro _; trivial
      | throw y s2 => intro hc; exact Spent.mono hc (Nat.zero_le _) (one_le_work hR fuel) (Nat.le_refl _)
      | ok y s2 => intro hc; exact Spent.mono hc (Nat.zero_le _) (one_le_work hR fuel) (Nat.zero_le _)
    | deferred => exact hs.mono (turns_le _) (turns_le _) (Nat.le_refl _)
    | allGuardsFailed => exact hs.mono (turns_le _) (turns_le _) (Nat.zero_le _)
    | processed =>
      have hd := processDeferred_costs (sem := sem) hR fuel hs.stocked
      show Res.Sat _ _ _ ((processDeferred M sem fuel s1).bind fun _ s => .ok true s)
      revert hd
      cases processDeferred M sem fuel s1 with
      | ub u => intro _; trivial
      | timeout => intro _; trivial
      | throw y s2 =>
        intro hd
        exact (hs.trans hd).mono (Nat.le_of_eq (turns_split _)) (Nat.le_of_eq (turns_split _)) (Nat.le_refl _)
      | ok y s2 =>
        intro hd
        exact (hs.trans hd).mono (Nat.le_of_eq (turns_split _)) (Nat.le_of_eq (turns_split _)) (Nat.le_refl _)

theorem processEventG_costs (hR : 1 ≤ R) (fuel : Nat) (ev : EventTy) (p : P) {s : SM P W}
    (h : Stocked M L R s) :
    Costs M L R (M.turns * (M.passes fuel * (R * L))) (M.turns * (M.passes fuel * (R * 4))) 1 s
      (processEventG M sem fuel ev p s) := by
  unfold processEventG
  have hi := processInternalG_costs (sem := sem) hR fuel ev p h
  revert hi
  cases processInternalG M sem fuel ev p s with
  | ub u => intro _; trivial
  | timeout => intro _; trivial
  | throw y s1 => intro hi; exact Spent.mono hi (turns_le _) (turns_le _) (Nat.zero_le _)
  | ok op s1 =>
    obtain ⟨b, p1⟩ := op
    rintro ⟨hn, hs⟩
    dsimp only at hn hs
    cases b with
    | true =>
      have hd := processDeferredG_costs (sem := sem) hR fuel hs.stocked
      show Res.Sat _ _ _ (processDeferredG M sem fuel s1)
      refine Res.Sat.mono hd (fun _ _ k => ?_) fun _ _ k => ?_
      · exact (hs.trans k).mono (Nat.le_of_eq (turns_split _)) (Nat.le_of_eq (turns_split _)) (Nat.le_refl _)
      · exact (hs.trans k).mono (Nat.le_of_eq (turns_split _)) (Nat.le_of_eq (turns_split _)) (Nat.le_refl _)
    | false =>
      cases hn rfl
      have hc := callHandler_costs (sem := sem) ev p1 h
      show Res.Sat _ _ _ ((callHandler M sem ev p1 s).bind fun _ s => .ok () s)
      revert hc
      cases callHandler M sem ev p1 s with
      | ub u => intro _; trivial
      | timeout => intro _; trivial
      | throw y s2 => intro hc; exact Spent.mono hc (Nat.zero_le _) (one_le_work hR fuel) (Nat.zero_le _)
      | ok y s2 => intro hc; exact Spent.mono hc (Nat.zero_le _) (one_le_work hR fuel) (Nat.zero_le _)

/-! ## Machine objects -/

theorem callbacks_length (t : XRow) : (M.callbacks t).length ≤ 4 := by
  unfold Machine.callbacks
  simp only [List.length_append, List.length_map]
  have h : ∀ o : Option Cb, o.toList.length ≤ 1 := by intro o; cases o <;> simp
  have h1 := h (if t.internal = true then none else M.exitCb t)
  have h2 := h t.action
  have h3 := h (if t.internal = true then none else M.entryCb t)
  have h4 := h (M.initEntryCb t)
  omega

theorem entry_acts {d : Dep} {cd : Cand} {e : Entry} (he : M.entryOfCand d cd = some e) {x : Exec}
    (hx : e.tr = some x) : (x.action.getD []).length ≤ 4 := by
  obtain ⟨t, _, _, _, _, ha, _⟩ := entryOfCand_exec he hx
  rw [ha]
  unfold Machine.toRun
  split
  · simp
  · exact callbacks_length t

theorem slotCount_eq : M.slotCount = M.maxInit := by
  unfold Machine.slotCount Machine.maxInit
  simp only [Machine.composites_eq, Machine.declaredInitials_eq]

theorem initialTable_le : ∀ l ∈ M.initialTable, l.length ≤ M.slotCount := by
  intro l hl
  unfold Machine.initialTable at hl
  obtain ⟨p, hp, rfl⟩ := List.mem_map.1 hl
  rw [List.length_map]
  unfold Machine.slotCount
  rw [Machine.composites_eq] 
  have key : ∀ (l : List Nat) (a x : Nat), (x ≤ a ∨ x ∈ l) → x ≤ l.foldl max a := by
    intro l
    induction l with
    | nil =>
      intro a x h
      rcases h with h | h
      · exact h
      · cases h
    | cons y l ih =>
      intro a x h
      refine ih _ _ ?_
      rcases h with h | h
      · exact Or.inl (Nat.le_trans h (Nat.le_max_left _ _))
      · rcases List.mem_cons.1 h with rfl | h
        · exact Or.inl (Nat.le_max_right _ _)
        · exact Or.inr h
  refine key _ 0 _ (Or.inr ?_)
  refine List.mem_map.2 ⟨p, hp, ?_⟩
  rw [Machine.declaredInitials_eq]

/-- No state has more than `N` candidates for an event. -/
def Choices (M : Machine) (N : Nat) : Prop :=
  ∀ ev, ∀ p ∈ M.composites, ∀ st ∈ M.states, (M.cands ev p st).length ≤ N

/-- The same for the amalgamated header. -/
def ChoicesG (M : Machine) (N : Nat) : Prop :=
  ∀ ev, ∀ p ∈ M.composites, ∀ st ∈ M.states, (M.candsG ev p st).length ≤ N

theorem stocked_of_table (hM : M.Regular) {N : Nat} (hN : Choices M N) {deps : List Dep} {s : SM P W}
    (ht : TableIs M deps s) (hi : s.initial = M.initialTable)
    (hr : M.orthogonal = true → s.regions ≤ M.slotCount) :
    Stocked M (deps.length * N) M.slotCount s := by
  refine ⟨?_, ?_, by rw [hi]; exact initialTable_le, hr⟩
  · intro ev c hc
    obtain ⟨p, st, hp, hst, rfl⟩ := hM.comb_surj hc
    rw [ht ev p st hp hst, entries_length hM deps ev (p, st)]
    exact Nat.mul_le_mul_left _ (hN ev p hp st hst)
  · intro ev c hc e he x hx
    obtain ⟨p, st, hp, hst, rfl⟩ := hM.comb_surj hc
    rw [ht ev p st hp hst] at he
    obtain ⟨d, _, he⟩ := List.mem_flatMap.1 he
    obtain ⟨cd, _, he⟩ := List.mem_filterMap.1 he
    exact entry_acts he hx

theorem slotCount_pos (hM : M.Regular) : 1 ≤ M.slotCount := by
  rw [slotCount_eq]; exact maxInit_pos hM

theorem RunTo.stocked (hM : M.Regular) {N : Nat} (hN : Choices M N) {d : Dep} {ops : List (Op P)}
    {s : SM P W} (h : RunTo M sem d ops s) : Stocked M ((setDeps ops + 1) * N) M.slotCount s := by
  have hr : M.orthogonal = true → s.regions ≤ M.slotCount := by
    refine RunTo.induct (I := fun _ s => M.orthogonal = true → s.regions ≤ M.slotCount)
      ?_ ?_ (fun _ _ _ h => h) h
    · intro w s h ho
      obtain ⟨_, _, _, ⟨init, _, _, hr⟩, _⟩ := construct_ok h
      obtain ⟨k, l, _, hl, hr⟩ := hr ho
      rw [hr]
      exact initialTable_le l (List.mem_of_getElem? hl)
    · intro ops s op fuel hs ih hop
      have hg := hs.good hM
      have hst := stocked_of_table hM hN hg.table hg.basic.initial ih
      cases op with
      | process ev p =>
        exact Res.Sat.mono (processEvent_costs (sem := sem) (slotCount_pos hM) fuel ev p hst)
          (fun _ _ k => k.stocked.regions) fun _ _ k => k.stocked.regions
      | set r p st =>
        show Res.Sat _ _ _ ((setOp M r p st s).bind fun _ s => .ok true s)
        unfold setOp
        split
        · exact ih
        · exact ih
      | setDependency d' =>
        show Res.Sat _ _ _ ((setDependency M d' s).bind fun _ s => .ok true s)
        unfold setDependency
        split
        · exact ih
        · trivial
  have hg := h.good hM
  have := stocked_of_table hM hN hg.table hg.basic.initial hr
  rwa [depsOf_length] at this

/-- From `s` to `s'` at most `g` guards and at most `a` other callbacks were invoked. -/
def Invokes (g a : Nat) (s s' : SM P W) : Prop :=
  ∃ tr, s'.trace = s.trace ++ tr ∧ tr.countP Call.isGuard ≤ g ∧ tr.countP (fun c => !c.isGuard) ≤ a

/-- C101: a call that needs at most `fuel` rounds of anonymous rows per event invokes at most so many
callbacks, however it ends.  A call that returns `true`, or throws, does not lengthen the queue; any other
adds at most one event. -/
theorem C101_calls (hM : M.Regular) {N : Nat} (hN : Choices M N) {d : Dep} {ops : List (Op P)}
    {s : SM P W} (h : RunTo M sem d ops s) (fuel : Nat) (op : Op P) :
    (step M sem fuel op s).Sat True
      (fun b s' => Invokes (M.turns * (M.passes fuel * (M.slotCount * ((setDeps ops + 1) * N))))
          (M.turns * (M.passes fuel * (M.slotCount * 4))) s s' ∧
        s'.queue.length ≤ s.queue.length + if b then 0 else 1)
      (fun _ s' => Invokes (M.turns * (M.passes fuel * (M.slotCount * ((setDeps ops + 1) * N))))
          (M.turns * (M.passes fuel * (M.slotCount * 4))) s s' ∧ s'.queue.length ≤ s.queue.length) := by
  have hs := h.stocked hM hN
  cases op with
  | process ev p =>
    exact Res.Sat.mono (processEvent_costs (sem := sem) (slotCount_pos hM) fuel ev p hs)
      (fun _ _ k => ⟨k.calls, k.queue⟩) fun _ _ k => ⟨k.calls, k.queue⟩
  | set r p st =>
    show Res.Sat _ _ _ ((setOp M r p st s).bind fun _ s => .ok true s)
    unfold setOp
    split
    · exact ⟨⟨[], by simp⟩, Nat.le_refl _⟩
    · exact ⟨⟨[], by simp⟩, Nat.le_refl _⟩
  | setDependency d' =>
    show Res.Sat _ _ _ ((setDependency M d' s).bind fun _ s => .ok true s)
    unfold setDependency
    split
    · exact ⟨⟨[], by simp⟩, Nat.le_refl _⟩
    · trivial

theorem passes_quiet (hA : M.anonymous = false) (fuel : Nat) : M.passes fuel = 1 := by
  unfold Machine.passes; rw [hA]; rfl

/-- C101: without anonymous rows a call passes through the regions at most twice. -/
theorem C101_quiet (hM : M.Regular) (hA : M.anonymous = false) {N : Nat} (hN : Choices M N) {d : Dep}
    {ops : List (Op P)} {s : SM P W} (h : RunTo M sem d ops s) (fuel : Nat) (op : Op P) :
    let bound := Invokes (M.turns * (M.slotCount * ((setDeps ops + 1) * N)))
      (M.turns * (M.slotCount * 4)) s
    (step M sem fuel op s).Sat True (fun _ => bound) (fun _ => bound) := by
  have hc := C101_calls (sem := sem) hM hN h fuel op
  rw [passes_quiet hA] at hc
  simp only [Nat.one_mul] at hc
  exact Res.Sat.mono hc (fun _ _ k => k.1) fun _ _ k => k.1

/-- C101: if anonymous rows go downwards, every call comes to an end and does a bounded amount of work,
whatever the callbacks do. -/
theorem C101_acyclic (hM : M.Regular) {ρ : Name × StTy → Nat} (hρ : Acyclic M ρ) {B : Nat}
    (hB : ∀ p ∈ M.composites, ∀ st ∈ M.states, ρ (p, st) ≤ B) {N : Nat} (hN : Choices M N) {d : Dep}
    {ops : List (Op P)} {s : SM P W} (h : RunTo M sem d ops s) {fuel : Nat}
    (hf : M.slotCount * B < fuel) (op : Op P) :
    step M sem fuel op s ≠ .timeout ∧
    let bound := Invokes (M.turns * ((M.slotCount * B + 2) * (M.slotCount * ((setDeps ops + 1) * N))))
      (M.turns * ((M.slotCount * B + 2) * (M.slotCount * 4))) s
    (step M sem fuel op s).Sat True (fun _ => bound) (fun _ => bound) := by
  have hend : ∀ f, M.slotCount * B < f → step M sem f op s ≠ .timeout := by
    intro f hf
    cases op with
    | process ev p =>
      rw [slotCount_eq] at hf
      exact C24_terminates hM hρ hB h ev p hf
    | set r p st =>
      show (setOp M r p st s).bind (fun _ s => .ok true s) ≠ .timeout
      unfold setOp
      split <;> exact fun h => nomatch h
    | setDependency d' =>
      show (setDependency M d' s).bind (fun _ s => .ok true s) ≠ .timeout
      unfold setDependency
      split <;> exact fun h => nomatch h
  refine ⟨hend fuel hf, ?_⟩
  have hc := C101_calls (sem := sem) hM hN h (M.slotCount * B + 1) op
  have he := C77_fuel (M := M) (sem := sem) (Nat.succ_le_of_lt hf) op s (hend _ (Nat.lt_succ_self _))
  rw [he]
  have hp : M.passes (M.slotCount * B + 1) ≤ M.slotCount * B + 2 := by
    unfold Machine.passes
    split <;> omega
  have hle : ∀ k, M.turns * (M.passes (M.slotCount * B + 1) * k) ≤ M.turns * ((M.slotCount * B + 2) * k) :=
    fun k => Nat.mul_le_mul_left _ (Nat.mul_le_mul_right _ hp)
  have hi : ∀ {s' : SM P W},
      Invokes (M.turns * (M.passes (M.slotCount * B + 1) * (M.slotCount * ((setDeps ops + 1) * N))))
        (M.turns * (M.passes (M.slotCount * B + 1) * (M.slotCount * 4))) s s' →
      Invokes (M.turns * ((M.slotCount * B + 2) * (M.slotCount * ((setDeps ops + 1) * N))))
        (M.turns * ((M.slotCount * B + 2) * (M.slotCount * 4))) s s' := by
    rintro s' ⟨tr, h1, h2, h3⟩
    exact ⟨tr, h1, Nat.le_trans h2 (hle _), Nat.le_trans h3 (hle _)⟩
  exact Res.Sat.mono hc (fun _ _ k => hi k.1) fun _ _ k => hi k.1

/-! ## The amalgamated header -/

theorem slotCount_posG (hM : M.RegularG) : 1 ≤ M.slotCount := by
  rw [slotCount_eq]
  have := hM.accepts
  unfold Machine.acceptsG at this
  simp only [Bool.and_eq_true, decide_eq_true_eq] at this
  omega

theorem stocked_of_depictsG (hM : M.RegularG) {N : Nat} (hN : ChoicesG M N) {c : Conf P W} {s : SM P W}
    (hc : DepictsG M c s) (hr : M.orthogonal = true → s.regions ≤ M.slotCount) :
    Stocked M (c.deps.length * N) M.slotCount s := by
  refine ⟨?_, ?_, by rw [hc.initial]; exact initialTable_le, hr⟩
  · intro ev k hk
    obtain ⟨p, st, hp, hst, rfl⟩ := hM.laid.comb_surj hk
    rw [hc.table ev p st hp hst, entriesG_length hM c.deps ev (p, st)]
    exact Nat.mul_le_mul_left _ (hN ev p hp st hst)
  · intro ev k hk e he x hx
    obtain ⟨p, st, hp, hst, rfl⟩ := hM.laid.comb_surj hk
    rw [hc.table ev p st hp hst] at he
    obtain ⟨d, _, he⟩ := List.mem_flatMap.1 he
    obtain ⟨cd, _, he⟩ := List.mem_filterMap.1 he
    exact entry_acts he hx

theorem constructG_regions {d : Dep} {w : W} {s : SM P W} (h : constructG M d w = .ok s) :
    M.orthogonal = true → s.regions ≤ M.slotCount := by
  intro ho
  unfold constructG at h
  split at h
  · revert h
    generalize (if (M.decl M.root).handler.isSome = true then
      M.fillHandlersFor M.eventIdsG d (fun _ _ => none) else .ok (fun _ _ => none)) = H
    cases H with
    | error e => intro h; cases h
    | ok H =>
      cases hT : M.fillG d (fun _ _ => []) with
      | error e => intro h; cases h
      | ok T =>
        intro h
        have h' : initState M w H T = .ok s := h
        obtain ⟨_, _, ⟨_, _, _, hr⟩, _⟩ := initState_ok h'
        obtain ⟨k, l, _, hl, hr⟩ := hr ho
        rw [hr]
        exact initialTable_le l (List.mem_of_getElem? hl)
  · cases h

theorem stepG_stocked (hM : M.RegularG) {N : Nat} {s : SM P W} (fuel : Nat) (op : OpG P)
    (h : Stocked M N M.slotCount s) :
    (stepG M sem fuel op s).Sat True
      (fun _ s' => (M.orthogonal = true → s'.regions ≤ M.slotCount) ∧
        Invokes (M.turns * (M.passes fuel * (M.slotCount * N)))
          (M.turns * (M.passes fuel * (M.slotCount * 4))) s s' ∧ s'.queue.length ≤ s.queue.length + 1)
      (fun _ s' => (M.orthogonal = true → s'.regions ≤ M.slotCount) ∧
        Invokes (M.turns * (M.passes fuel * (M.slotCount * N)))
          (M.turns * (M.passes fuel * (M.slotCount * 4))) s s' ∧ s'.queue.length ≤ s.queue.length + 1) := by
  cases op with
  | process ev p =>
    exact Res.Sat.mono (processEventG_costs (sem := sem) (slotCount_posG hM) fuel ev p h)
      (fun _ _ k => ⟨k.stocked.regions, k.calls, k.queue⟩)
      fun _ _ k => ⟨k.stocked.regions, k.calls, k.queue⟩
  | setDependency d =>
    show Res.Sat _ _ _ (setDependencyG M d s)
    unfold setDependencyG
    split
    · exact ⟨h.regions, ⟨[], by simp⟩, Nat.le_succ _⟩
    · trivial

theorem RunToG.stocked (hM : M.RegularG) {N : Nat} (hN : ChoicesG M N) {d : Dep} {ops : List (OpG P)}
    {s : SM P W} (h : RunToG M sem d ops s) :
    Stocked M ((depsG d ops).length * N) M.slotCount s := by
  have key : ∀ {ops : List (OpG P)} {s : SM P W}, RunToG M sem d ops s →
      (M.orthogonal = true → s.regions ≤ M.slotCount) →
      Stocked M ((depsG d ops).length * N) M.slotCount s := by
    intro ops s h hr
    obtain ⟨_, c, hc, ds, ha⟩ := h.account hM
    have := stocked_of_depictsG hM hN hc hr
    rwa [ha.deps] at this
  refine key h ?_
  induction h with
  | init h => exact constructG_regions h
  | @ok s t ops op fuel hr hop h ih =>
    have := stepG_stocked (sem := sem) hM fuel op (key hr ih)
    rw [h] at this
    exact this.1
  | @throw s t ops op fuel x hr hop h ih =>
    have := stepG_stocked (sem := sem) hM fuel op (key hr ih)
    rw [h] at this
    exact this.1
  | world hr w ih => exact ih

/-- C101, the amalgamated header: the same bound for every call that needs at most `fuel` rounds of
anonymous rows per event; a call adds at most one event to the queue. -/
theorem C101_amalgamated (hM : M.RegularG) {N : Nat} (hN : ChoicesG M N) {d : Dep} {ops : List (OpG P)}
    {s : SM P W} (h : RunToG M sem d ops s) (fuel : Nat) (op : OpG P) :
    let bound := fun s' => Invokes
        (M.turns * (M.passes fuel * (M.slotCount * ((setDeps (ops.map OpG.op) + 1) * N))))
        (M.turns * (M.passes fuel * (M.slotCount * 4))) s s' ∧ s'.queue.length ≤ s.queue.length + 1
    (stepG M sem fuel op s).Sat True (fun _ => bound) (fun _ => bound) := by
  have hs := h.stocked hM hN
  rw [depsOf_length] at hs
  exact Res.Sat.mono (stepG_stocked (sem := sem) hM fuel op hs) (fun _ _ k => k.2) fun _ _ k => k.2

/-- It is enough to look at the events of the machine. -/
theorem Choices.of_events (hM : M.Regular) {N : Nat}
    (h : ∀ ev ∈ M.events, ∀ p ∈ M.composites, ∀ st ∈ M.states, (M.cands ev p st).length ≤ N) :
    Choices M N := by
  intro ev p hp st hst
  by_cases hev : ev ∈ M.events
  · exact h ev hev p hp st hst
  · have hrow : ∀ t ∈ M.extRows ++ M.intRows, t.event ≠ ev := by
      rintro t ht rfl
      apply hev
      unfold Machine.events
      exact List.mem_eraseDups.2 (List.mem_map.2 ⟨t, ht, rfl⟩)
    have hd : ∀ t ∈ M.extRows, M.deferCount ev p st t = 0 := by
      intro t ht
      unfold Machine.deferCount
      split
      · exact List.count_eq_zero.2 fun he => hev (hM.compiles.deferred t ht ev he)
      · rfl
    have : M.cands ev p st = [] := by
      unfold Machine.cands
      rw [List.filter_eq_nil_iff.2, List.filter_eq_nil_iff.2, List.map_congr_left hd]
      · simp
      · intro t ht
        have := hrow t (List.mem_append_right _ (List.mem_reverse.1 ht))
        simpa using this
      · intro t ht
        have := hrow t (List.mem_append_left _ (List.mem_reverse.1 ht))
        simpa using this
    rw [this]; exact Nat.zero_le _

/-- It is enough to look at the events of the machine, in the amalgamated header, too. -/
theorem ChoicesG.of_events (hM : M.RegularG) {N : Nat}
    (h : ∀ ev ∈ M.eventsG, ∀ p ∈ M.composites, ∀ st ∈ M.states, (M.candsG ev p st).length ≤ N) :
    ChoicesG M N := by
  intro ev p hp st hst
  by_cases hev : ev ∈ M.eventsG
  · exact h ev hev p hp st hst
  · have hrow : ∀ t ∈ M.extRows ++ M.intRowsG, t.event ≠ ev := by
      rintro t ht rfl
      apply hev
      unfold Machine.eventsG
      exact List.mem_eraseDups.2 (List.mem_map.2 ⟨t, ht, rfl⟩)
    have hd : ∀ t ∈ M.extRows, M.deferCount ev p st t = 0 := by
      intro t ht
      unfold Machine.deferCount
      split
      · exact List.count_eq_zero.2 fun he => hev (hM.compiles.deferred t ht ev he)
      · rfl
    have : M.candsG ev p st = [] := by
      unfold Machine.candsG
      rw [List.filter_eq_nil_iff.2, List.filter_eq_nil_iff.2, List.map_congr_left hd]
      · simp
      · intro t ht
        have := hrow t (List.mem_append_right _ (List.mem_reverse.1 ht))
        simpa using this
      · intro t ht
        have := hrow t (List.mem_append_left _ (List.mem_reverse.1 ht))
        simpa using this
    rw [this]; exact Nat.zero_le _

end

/-! ## Examples -/

/-- Going from one composite to another runs `on_exit` and `on_entry` of the composites and `on_entry` of the
state entered.  The first state waits for event 9; the second defers event 1. -/
def Ex.laden : Machine := .ofList
  [ { table := some
        [ Ex.row (Ex.ini 1) (Ex.ev 9) none none (.st 4),
          Ex.row (.st 4) (Ex.ev 0) (some 100) (some 10) (.st 2),
          Ex.row (.st 2) (Ex.ev 1) (some 101) (some 11) (.st 5) ] },
    {},
    { table := some [ Ex.row (Ex.ini 3) (Ex.ev 5) none none (.st 3) ]
      onEntry := some 20, onExit := some 21 },
    { onEntry := some 22 },
    { onExit := some 23, defer := some [Ex.ev 1] },
    { table := some [ Ex.row (Ex.ini 6) (Ex.ev 5) none none (.st 6) ]
      onEntry := some 24, onExit := some 25 },
    { onEntry := some 26 } ] [1, 0, 0, 0, 0, 0, 0]

theorem Ex.laden_regular : Ex.laden.Regular := Machine.regular_ofList (by decide +kernel)

theorem Ex.laden_regularG : Ex.laden.RegularG := Machine.regularG_ofList (by decide +kernel)

/-- No more than one candidate anywhere, one region, no anonymous rows, one filling of the tables: a call can
invoke two guards and eight other callbacks.  After event 1 was deferred, event 0 does exactly that, in both
headers. -/
example : Choices Ex.laden 1 ∧ ChoicesG Ex.laden 1 ∧ Ex.laden.anonymous = false ∧ Ex.laden.turns = 2 ∧
    Ex.laden.slotCount = 1 ∧
    (∃ s s', RunTo Ex.laden (Ex.sem fun _ => true) 7 [.process (Ex.ev 9) 1, .process (Ex.ev 1) 2] s ∧
      step Ex.laden (Ex.sem fun _ => true) 1 (.process (Ex.ev 0) 3) s = .ok true s' ∧
      (s'.trace.drop s.trace.length).countP Call.isGuard = 2 ∧
      (s'.trace.drop s.trace.length).countP (fun c => !c.isGuard) = 8) ∧
    ∃ s s', RunToG Ex.laden (Ex.sem fun _ => true) 7 [.process (Ex.ev 9) 1, .process (Ex.ev 1) 2] s ∧
      stepG Ex.laden (Ex.sem fun _ => true) 1 (.process (Ex.ev 0) 3) s = .ok () s' ∧
      (s'.trace.drop s.trace.length).countP Call.isGuard = 2 ∧
      (s'.trace.drop s.trace.length).countP (fun c => !c.isGuard) = 8 := by
  refine ⟨Choices.of_events Ex.laden_regular (by decide +kernel),
    ChoicesG.of_events Ex.laden_regularG (by decide +kernel), by decide +kernel, by decide +kernel,
    by decide +kernel, ?_, ?_⟩
  · obtain ⟨s, h1, h2⟩ := Ex.exists_run (M := Ex.laden) (sm := Ex.sem fun _ => true) (fuel := 1)
      (d := 7) (w := []) (ops := [.process (Ex.ev 9) 1, .process (Ex.ev 1) 2])
      (f := fun s => match step Ex.laden (Ex.sem fun _ => true) 1 (.process (Ex.ev 0) 3) s with
        | .ok true s' => (s'.trace.drop s.trace.length).countP Call.isGuard == 2 &&
          (s'.trace.drop s.trace.length).countP (fun c => !c.isGuard) == 8
        | _ => false) (by decide +kernel)
    split at h2
    · rename_i s' hs
      simp only [Bool.and_eq_true, beq_iff_eq] at h2
      exact ⟨s, s', h1, hs, h2.1, h2.2⟩
    · cases h2
  · obtain ⟨s, h1, h2⟩ := Ex.exists_runG (M := Ex.laden) (sm := Ex.sem fun _ => true) (fuel := 1)
      (d := 7) (w := []) (ops := [.process (Ex.ev 9) 1, .process (Ex.ev 1) 2])
      (f := fun s => match stepG Ex.laden (Ex.sem fun _ => true) 1 (.process (Ex.ev 0) 3) s with
        | .ok () s' => (s'.trace.drop s.trace.length).countP Call.isGuard == 2 &&
          (s'.trace.drop s.trace.length).countP (fun c => !c.isGuard) == 8
        | _ => false) (by decide +kernel)
    split at h2
    · rename_i s' hs
      simp only [Bool.and_eq_true, beq_iff_eq] at h2
      exact ⟨s, s', h1, hs, h2.1, h2.2⟩
    · cases h2

/-- With anonymous rows: three states in a row, a single candidate each.  Whatever the callbacks do, a call
invokes at most four guards and sixteen other callbacks. -/
example (sem : Sem Nat (List Nat)) {d : Dep} {ops : List (Op Nat)} {s s' : SM Nat (List Nat)}
    (h : RunTo Ex.chain sem d ops s) (hops : setDeps ops = 0) (op : Op Nat) {b : Bool}
    (hs : step Ex.chain sem 3 op s = .ok b s') : Invokes 4 16 s s' := by
  have hc := (C101_acyclic (sem := sem) Ex.chain_regular Ex.chain_acyclic (B := 2) (by decide +kernel)
    (Choices.of_events (N := 1) Ex.chain_regular (by decide +kernel)) h (fuel := 3) (by decide +kernel) op).2
  rw [hs, hops, show Ex.chain.turns = 1 from by decide +kernel,
    show Ex.chain.slotCount = 1 from by decide +kernel] at hc
  exact hc

end Hsm

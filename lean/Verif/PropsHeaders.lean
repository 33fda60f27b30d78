import Verif.Headers
import Verif.PropsChecker
import Verif.PropsInterpGen
import Verif.PropsGenAll

/-!
# C91: a check that both headers do the same
-/

namespace Hsm

section
variable {P W : Type} {M : Machine} {sem : Sem P W}

namespace Machine

/-! ## Candidates after a row without guard do not matter -/

theorem attempt_final (anon : Bool) (r : Nat) (ev : EventTy) {d : Dep} {cd : Cand} (hf : final cd = true)
    (rest : List (Dep × Cand)) (p : P) (c : Conf P W) :
    M.attempt sem anon r ev ((d, cd) :: rest) p c = M.attempt sem anon r ev [(d, cd)] p c := by
  unfold attempt
  unfold final at hf
  split at hf
  · next h => rw [h]
  · next t h =>
    rw [h]
    dsimp only
    split
    · rfl
    · next l _ =>
      have hg : t.guard = none := by simpa using hf
      have : M.ask sem ev d cd t l p c = .ok (true, p) c := by unfold ask; rw [hg]
      rw [this]
      rfl

theorem attempt_block (anon : Bool) (r : Nat) (ev : EventTy) (d : Dep) {rest rest' : List (Dep × Cand)}
    (h : ∀ p (c : Conf P W), M.attempt sem anon r ev rest p c = M.attempt sem anon r ev rest' p c) :
    ∀ (cs : List Cand) (p : P) (c : Conf P W),
      M.attempt sem anon r ev (cs.map (fun cd => (d, cd)) ++ rest) p c =
        M.attempt sem anon r ev ((triable cs).map (fun cd => (d, cd)) ++ rest') p c := by
  intro cs
  induction cs with
  | nil => intro p c; exact h p c
  | cons cd cs ih =>
    intro p c
    unfold triable
    rw [List.map_cons, List.cons_append, List.map_cons, List.cons_append]
    by_cases hf : final cd = true
    · rw [attempt_final anon r ev hf, attempt_final anon r ev hf (_ ++ rest')]
    · rw [if_neg hf, attempt, attempt]
      split
      · rfl
      · split
        · rfl
        · simp only [ih]

theorem attempt_triable (anon : Bool) (r : Nat) (ev : EventTy) (cs : List Cand) : ∀ (ds : List Dep) (p : P)
    (c : Conf P W), M.attempt sem anon r ev (ds.flatMap fun d => cs.map fun cd => (d, cd)) p c =
      M.attempt sem anon r ev (ds.flatMap fun d => (triable cs).map fun cd => (d, cd)) p c := by
  intro ds
  induction ds with
  | nil => intro p c; rfl
  | cons d ds ih =>
    intro p c
    rw [List.flatMap_cons, List.flatMap_cons]
    exact attempt_block anon r ev d ih cs p c

theorem triable_nil {cs : List Cand} : triable cs = [] ↔ cs = [] := by
  cases cs <;> simp [triable]

/-! ## Only the region that is visited moves -/

/-- Where regions other than `r` are is unchanged. -/
def Others {α : Type} (r : Nat) (c : Conf P W) : Res (Conf P W) α → Prop
  | .ok _ c' => ∀ i, i ≠ r → c'.slots[i]? = c.slots[i]?
  | _ => True

theorem Others.bind {α β : Type} {r : Nat} {c : Conf P W} {x : Res (Conf P W) α}
    {f : α → Conf P W → Res (Conf P W) β} (h : Others r c x) (hf : ∀ a c', Others r c' (f a c')) :
    Others r c (x.bind f) := by
  cases x with
  | ok a c' =>
    have := hf a c'
    show Others r c (f a c')
    revert this
    cases f a c' with
    | ok b c2 => intro h' i hi; rw [h' i hi]; exact h i hi
    | throw b c2 => intro _; trivial
    | ub u => intro _; trivial
    | timeout => intro _; trivial
  | throw x c' => trivial
  | ub u => trivial
  | timeout => trivial

theorem seek_others (r i : Nat) (c : Conf P W) : Others r c (seek i c) := by
  unfold seek
  split
  · trivial
  · trivial
  · intro i _; rfl

theorem put_others (r : Nat) (l : Name × StTy) (c : Conf P W) : Others r c (put r l c) := by
  unfold put
  split
  · intro i hi
    show (c.slots.set r (some l))[i]? = _
    rw [List.getElem?_set_ne (fun h => hi h.symm)]
  · trivial

theorem recount_others (r : Nat) (c : Conf P W) : Others r c (M.recount c) := by
  unfold recount
  split
  · refine (seek_others r 0 c).bind fun l c => ?_
    split
    · intro i _; rfl
    · trivial
  · intro i _; rfl

theorem travel_others (r : Nat) (t : XRow) (l : Name × StTy) (c : Conf P W) : Others r c (M.travel r t l c) := by
  unfold travel
  split
  · intro i _; rfl
  · split
    · refine Others.bind ?_ fun _ c => Others.bind ?_ fun _ c => recount_others r c
      · unfold remember
        refine (seek_others r 0 c).bind fun l0 c => (seek_others r r c).bind fun l c => ?_
        split
        · intro i _; rfl
        · trivial
      · split
        · refine Others.bind ?_ fun l c => put_others r l c
          unfold recall
          split
          · split
            · trivial
            · intro i _; rfl
          · trivial
        · exact put_others r l c
    · exact (put_others r l c).bind fun _ c => recount_others r c

theorem perform_others (r : Nat) (args : Args) : ∀ (cs : List (Phase × Cb)) (p : P) (c : Conf P W),
    Others r c (perform sem args cs p c) := by
  intro cs
  induction cs with
  | nil => intro p c i _; rfl
  | cons x cs ih =>
    intro p c
    obtain ⟨ph, a⟩ := x
    unfold perform
    cases sem.action a args p c.world with
    | ok u p' w => exact ih p' { c with world := w, calls := c.calls ++ [.action ph a args p false []] }
    | throw k p' w => trivial
    | ub => trivial

theorem take_others (r : Nat) (ev : EventTy) (d : Dep) (cd : Cand) (t : XRow) (l : Name × StTy)
    (p : P) (c : Conf P W) : Others r c (M.take sem r ev d cd t l p c) := by
  unfold take
  refine (travel_others _ _ _ c).bind fun _ c => ?_
  split
  · intro i _; rfl
  · split
    · exact perform_others _ _ _ _ c
    · trivial

theorem ask_others (r : Nat) (ev : EventTy) (d : Dep) (cd : Cand) (t : XRow) (l : Name × StTy) (p : P)
    (c : Conf P W) : Others r c (M.ask sem ev d cd t l p c) := by
  unfold ask
  split
  · intro i _; rfl
  · dsimp only
    split_ifs
    all_goals first
      | trivial
      | (split
         · intro i _; rfl
         · trivial
         · trivial)

theorem attempt_others (anon : Bool) (r : Nat) (ev : EventTy) : ∀ (cs : List (Dep × Cand)) (p : P)
    (c : Conf P W), Others r c (M.attempt sem anon r ev cs p c) := by
  intro cs
  induction cs with
  | nil => intro p c i _; rfl
  | cons x cs ih =>
    intro p c
    obtain ⟨d, cd⟩ := x
    unfold attempt
    split
    · split
      · trivial
      · intro i _; rfl
    · split
      · trivial
      · refine (ask_others r ev d cd _ _ p c).bind fun a c => ?_
        split
        · exact (take_others r ev d cd _ _ a.2 c).bind fun p c i _ => rfl
        · exact ih a.2 c

theorem visit_others (anon : Bool) (r : Nat) (ev : EventTy) (p : P) (c : Conf P W) :
    Others r c (M.visit sem anon r ev p c) := by
  unfold visit
  refine (seek_others r r c).bind fun l c => ?_
  split
  · split
    · intro i _; rfl
    · exact attempt_others anon r ev _ p c
  · trivial

/-! ## The none event stays as it is -/

theorem perform_keeps (hk : sem.KeepsNone) {args : Args} (ha : args.event = .none) :
    ∀ (cs : List (Phase × Cb)) (p : P) (c : Conf P W) {p' : P} {c' : Conf P W},
      perform sem args cs p c = .ok p' c' → p' = p := by
  intro cs
  induction cs with
  | nil => intro p c p' c' h; cases h; rfl
  | cons x cs ih =>
    intro p c p' c' h
    obtain ⟨ph, a⟩ := x
    unfold perform at h
    cases hx : sem.action a args p c.world with
    | ok u p2 w =>
      rw [hx] at h
      rw [ih _ _ h]
      exact hk.action a args p c.world p2 w ha hx
    | throw k p2 w => rw [hx] at h; cases h
    | ub => rw [hx] at h; cases h

theorem attempt_keeps (hk : sem.KeepsNone) (anon : Bool) (r : Nat) : ∀ (cs : List (Dep × Cand)) (p : P)
    (c : Conf P W) {o : RegionOut × P} {c' : Conf P W},
      M.attempt sem anon r .none cs p c = .ok o c' → o.2 = p := by
  intro cs
  induction cs with
  | nil => intro p c o c' h; cases h; rfl
  | cons x cs ih =>
    intro p c o c' h
    obtain ⟨d, cd⟩ := x
    unfold attempt at h
    split at h
    · split at h
      · cases h
      · cases h; rfl
    · next t _ =>
      split at h
      · cases h
      · next l _ =>
        cases hx : M.ask sem .none d cd t l p c with
        | ok a c1 =>
          have ha : a.2 = p := by
            unfold ask at hx
            split at hx
            · cases hx; rfl
            · next g _ =>
              dsimp only at hx
              split_ifs at hx
              all_goals
                cases hy : sem.guard g _ p c.world with
                | ok b p2 w =>
                  rw [hy] at hx
                  cases hx
                  exact hk.guard _ _ _ _ _ _ _ rfl hy
                | throw k p2 w => rw [hy] at hx; cases hx
                | ub => rw [hy] at hx; cases hx
          rw [hx] at h
          replace h : (if a.1 = true then _ else _) = _ := h
          split at h
          · cases ht : M.take sem r .none d cd t l a.2 c1 with
            | ok p2 c2 =>
              rw [ht] at h
              cases h
              unfold take at ht
              cases hv : M.travel r t l c1 with
              | ok u c3 =>
                rw [hv] at ht
                dsimp only [Res.bind] at ht
                split at ht
                · cases ht; exact ha
                · split at ht
                  · rw [perform_keeps hk rfl _ _ _ ht]; exact ha
                  · cases ht
              | throw x c3 => rw [hv] at ht; cases ht
              | ub u => rw [hv] at ht; cases ht
              | timeout => rw [hv] at ht; cases ht
            | throw x c2 => rw [ht] at h; cases h
            | ub u => rw [ht] at h; cases h
            | timeout => rw [ht] at h; cases h
          · rw [ih _ _ h]; exact ha
        | throw x c1 => rw [hx] at h; cases h
        | ub u => rw [hx] at h; cases h
        | timeout => rw [hx] at h; cases h

theorem visit_keeps (hk : sem.KeepsNone) (anon : Bool) (r : Nat) (p : P) (c : Conf P W)
    {o : RegionOut × P} {c' : Conf P W} (h : M.visit sem anon r .none p c = .ok o c') : o.2 = p := by
  unfold visit at h
  cases hx : seek r c with
  | ok l c1 =>
    rw [hx] at h
    dsimp only [Res.bind] at h
    split at h
    · split at h
      · cases h; rfl
      · exact attempt_keeps hk anon r _ _ _ h
    · cases h
  | throw x c1 => rw [hx] at h; cases h
  | ub u => rw [hx] at h; cases h
  | timeout => rw [hx] at h; cases h

/-! ## The same in both headers -/

/-- The same rows can be tried where region `r` is. -/
def AlikeIn (M : Machine) (ev : EventTy) (r : Nat) (c : Conf P W) : Prop :=
  ∀ l, c.slots[r]? = some (some l) → l.1 ∈ M.composites →
    triable (M.cands ev l.1 l.2) = triable (M.candsG ev l.1 l.2)

theorem visit_alike (anon : Bool) {r : Nat} {ev : EventTy} (p : P) {c : Conf P W} (h : M.AlikeIn ev r c) :
    M.visitG sem anon r ev p c = M.visit sem anon r ev p c := by
  unfold visitG visit seek
  cases hs : c.slots[r]? with
  | none => rfl
  | some o =>
    cases o with
    | none => rfl
    | some l =>
      dsimp only [Res.bind]
      split
      · next hl =>
        have ht := h l hs hl
        have hn : M.candsG ev l.1 l.2 = [] ↔ M.cands ev l.1 l.2 = [] := by
          rw [← triable_nil, ← ht, triable_nil]
        split
        · next h0 => rw [if_pos (hn.1 h0)]
        · next h0 =>
          rw [if_neg (fun h => h0 (hn.2 h)), attempt_triable, attempt_triable (cs := M.cands ev l.1 l.2), ht]
      · rfl

theorem sweep_alike (ev : EventTy) : ∀ (rs : List Nat), rs.Nodup → ∀ (os : List RegionOut) (p : P)
    (c : Conf P W), (∀ r ∈ rs, M.AlikeIn ev r c) → M.sweepG sem ev rs os p c = M.sweep sem ev rs os p c := by
  intro rs
  induction rs with
  | nil => intro _ os p c _; rfl
  | cons r rs ih =>
    intro hnd os p c h
    obtain ⟨hr, hnd⟩ := List.nodup_cons.1 hnd
    unfold sweepG sweep
    rw [visit_alike false p (h r List.mem_cons_self)]
    have ho := visit_others (M := M) (sem := sem) false r ev p c
    revert ho
    cases M.visit sem false r ev p c with
    | ok o c' =>
      intro ho
      dsimp only [Res.bind]
      split
      · rfl
      · refine ih hnd _ _ _ fun i hi l hl => h i (List.mem_cons_of_mem _ hi) l ?_
        rw [← ho i (fun e => hr (e ▸ hi))]
        exact hl
    | throw x c' => intro _; rfl
    | ub u => intro _; rfl
    | timeout => intro _; rfl

theorem round_alike (hk : sem.KeepsNone) : ∀ (rs : List Nat), rs.Nodup → ∀ (os : List RegionOut)
    (c : Conf P W), (∀ r ∈ rs, M.AlikeIn .none r c) →
    M.roundG sem rs os c = (M.round sem rs os sem.nonePayload c).bind fun a c => .ok a.1 c := by
  intro rs
  induction rs with
  | nil => intro _ os c _; rfl
  | cons r rs ih =>
    intro hnd os c h
    obtain ⟨hr, hnd⟩ := List.nodup_cons.1 hnd
    unfold roundG round
    rw [visit_alike true _ (h r List.mem_cons_self)]
    have ho := visit_others (M := M) (sem := sem) true r .none sem.nonePayload c
    have hp := @visit_keeps P W M sem hk true r sem.nonePayload c
    revert ho hp
    cases M.visit sem true r .none sem.nonePayload c with
    | ok o c' =>
      intro ho hp
      dsimp only [Res.bind]
      rw [hp rfl]
      split
      · rfl
      · refine ih hnd _ _ fun i hi l hl => h i (List.mem_cons_of_mem _ hi) l ?_
        rw [← ho i (fun e => hr (e ▸ hi))]
        exact hl
    | throw x c' => intro _ _; rfl
    | ub u => intro _ _; rfl
    | timeout => intro _ _; rfl

theorem round_keeps (hk : sem.KeepsNone) : ∀ (rs : List Nat) (os : List RegionOut)
    (p : P) (c : Conf P W) {a : Bool × P} {c' : Conf P W}, M.round sem rs os p c = .ok a c' → a.2 = p := by
  intro rs
  induction rs with
  | nil => intro os p c a c' h; cases h; rfl
  | cons r rs ih =>
    intro os p c a c' h
    unfold round at h
    cases hx : M.visit sem true r .none p c with
    | ok o c1 =>
      rw [hx] at h
      have hp := visit_keeps hk true r p c hx
      dsimp only [Res.bind] at h
      split at h
      · cases h; exact hp
      · rw [ih _ _ _ h]; exact hp
    | throw x c1 => rw [hx] at h; cases h
    | ub u => rw [hx] at h; cases h
    | timeout => rw [hx] at h; cases h

/-- The check as used in the proofs. -/
def AlikeOn (M : Machine) : Prop := ∀ b n, M.Walk [] b n → M.alikeAt n = true

theorem AlikeOn.alikeIn (h : M.AlikeOn) {b : Bool} {c : Conf P W} (hw : M.Walk [] b (M.sight c)) {ev : EventTy}
    (hev : ev ∈ M.events) (r : Nat) : M.AlikeIn ev r c := by
  intro l hl hc
  have h1 := h b _ hw
  unfold alikeAt at h1
  have h2 := List.all_eq_true.1 h1 (some l) (List.mem_of_getElem? (i := r) hl)
  simp only [hc, not_true_eq_false, decide_false, Bool.false_or, List.all_eq_true, decide_eq_true_eq] at h2
  exact h2 ev hev

theorem settle_alike (hk : sem.KeepsNone) (hA : M.AlikeOn) (hev : EventTy.none ∈ M.events) :
    ∀ (fuel : Nat) (c : Conf P W), M.Walk [] true (M.sight c) → Sane M c →
      M.settleG sem fuel c = M.settle sem fuel sem.nonePayload c := by
  intro fuel
  induction fuel with
  | zero => intro c _ _; rfl
  | succ fuel ih =>
    intro c hw hs
    unfold settleG settle
    rw [round_alike hk _ (by unfold taking; exact List.nodup_range) [] c fun r _ => hA.alikeIn hw hev r]
    have h := round_among (Blames.all M sem) hev (M.taking c) [] sem.nonePayload c hs
    have e : M.mayRound (M.taking c) [] (M.sight c) = M.next true (M.sight c) := rfl
    rw [e] at h
    have hp := @round_keeps P W M sem hk (M.taking c) [] sem.nonePayload c
    revert h hp
    cases M.round sem (M.taking c) [] sem.nonePayload c with
    | ok a c' =>
      intro h hp
      dsimp only [Res.bind]
      rw [hp rfl]
      obtain ⟨h1, h2⟩ := h
      dsimp only at h1
      cases ha : a.1 with
      | true => rw [ha] at h1; exact ih c' (hw.run h1) h2
      | false => rfl
    | throw x c' => intro _ _; rfl
    | ub u => intro _ _; rfl
    | timeout => intro _ _; rfl

theorem handle_alike (hk : sem.KeepsNone) (hA : M.AlikeOn) (fuel : Nat) {ev : EventTy} (hev : ev ∈ M.events)
    (p : P) {c : Conf P W} (hw : M.Walk [] false (M.sight c)) (hs : Sane M c) :
    M.handleG sem fuel ev p c = M.handle sem fuel ev p c := by
  unfold handleG handle
  rw [sweep_alike ev _ (by unfold taking; exact List.nodup_range) [] p c fun r _ => hA.alikeIn hw hev r]
  have h := sweep_among (Blames.all M sem) hev (M.taking c) [] p c hs
  have e : M.taking c = M.involved (M.sight c) := rfl
  rw [e] at h ⊢
  revert h
  cases M.sweep sem ev (M.involved (M.sight c)) [] p c with
  | ok a c' =>
    intro h
    obtain ⟨h1, h2⟩ := h
    dsimp only at h1
    dsimp only [Res.bind]
    split
    · next hc =>
      obtain ⟨hd, hf, ha⟩ := hc
      have hk' := hw.run (next_event hev (mem_branch.2 (Or.inl ⟨_, _, h1, (by
        rw [if_neg hd, if_pos hf]; exact List.mem_cons_self :
          Res.ok M.anonymous (M.sight c') ∈ (if .deferred ∈ a.1 then [.ok false (M.sight c')]
            else if .fired ∈ a.1 then [.ok M.anonymous (M.sight c')]
            else if .rejected ∈ a.1 then [.ok false (M.sight c')]
            else branch (M.mayComplain (M.sight c')) fun _ n => [.ok false n]))⟩)))
      rw [ha] at hk'
      rw [settle_alike hk hA (none_event ha) fuel c' hk' h2]
    · rfl
  | throw x c' => intro _; rfl
  | ub u => intro _; rfl
  | timeout => intro _; rfl

theorem receive_alike (hk : sem.KeepsNone) (hA : M.AlikeOn) (hd : M.deferring = false) (fuel : Nat)
    {ev : EventTy} (hev : ev ∈ M.events) (p : P) {c : Conf P W} (hw : M.Walk [] false (M.sight c)) (hs : Sane M c) :
    M.receiveG sem fuel ev p c = (M.receive sem fuel ev p c).bind fun _ c => .ok () c := by
  have hr : ∀ c : Conf P W, M.replay sem fuel c = .ok () c := by
    intro c; unfold replay; split
    · rfl
    · rw [hd]; rfl
  have hrG : ∀ c : Conf P W, M.replayG sem fuel c = .ok () c := by
    intro c; unfold replayG; split
    · rfl
    · rw [hd]; rfl
  unfold receiveG receive
  rw [handle_alike hk hA fuel hev p hw hs]
  cases M.handle sem fuel ev p c with
  | ok a c' =>
    dsimp only [Res.bind]
    rw [hr, hrG]
    by_cases h1 : RegionOut.deferred ∈ a.1
    · rw [if_neg (fun h => by cases h _ h1), if_pos h1]
    by_cases h2 : RegionOut.fired ∈ a.1
    · rw [if_neg (fun h => by cases h _ h2), if_neg h1, if_pos h2]
    by_cases h3 : RegionOut.rejected ∈ a.1
    · rw [if_neg (fun h => by cases h _ h3), if_neg h1, if_neg h2, if_pos h3]
    rw [if_pos (fun o ho => by
      cases o with
      | none => rfl
      | rejected => exact absurd ho h3
      | fired => exact absurd ho h2
      | deferred => exact absurd ho h1), if_neg h1, if_neg h2, if_neg h3]
    cases M.complain sem ev a.2 c' <;> rfl
  | throw x c' => rfl
  | ub u => rfl
  | timeout => rfl

end Machine

/-! ## C91 -/

/-- The objects `s` of the modular headers and `s'` of the amalgamated one look the same: where the regions are,
what is remembered, what waits, how many regions take part, the world of the callbacks, and which callbacks
were called with which arguments. -/
structure SameLook (M : Machine) (s s' : SM P W) : Prop where
  cur : s'.cur = s.cur
  hist : s'.hist = s.hist
  queue : s'.queue = s.queue
  regions : M.orthogonal = true → s'.regions = s.regions
  world : s'.world = s.world
  trace : s'.trace.map Call.bare = s.trace.map Call.bare

/-- `s` and `s'` depict the same configuration, which is on a walk. -/
def Beside (M : Machine) (s s' : SM P W) : Prop :=
  ∃ c : Conf P W, Depicts M c s ∧ DepictsG M c s' ∧ M.Walk [] false (M.sight c) ∧ Sane M c

theorem Beside.same (hM : M.Regular) {s s' : SM P W} (h : Beside M s s') : SameLook M s s' := by
  obtain ⟨c, h1, h2, _, _⟩ := h
  refine ⟨h2.cur.trans h1.cur.symm, ?_, h2.queue.trans h1.queue.symm,
    fun h => (h2.regions h).trans (h1.regions h).symm, h2.world.trans h1.world.symm, h2.trace.trans h1.trace.symm⟩
  have hl := h1.histLen
  have hl' := h2.histLen
  apply List.ext_getElem?
  intro i
  by_cases hi : i < M.nParents
  · have he : M.parents[i]? = some M.parents[i] := List.getElem?_eq_getElem hi
    have hx := indexOf_of_getElem he (Machine.composites_eq ▸ Machine.nodup_parents) hM.nParents_small
    have hp : M.parents[i] ∈ M.composites := by rw [Machine.composites_eq]; exact List.getElem_mem hi
    have e : M.parentIdx M.parents[i] = i := hx
    have a := h1.hist _ hp
    have b := h2.hist _ hp
    rw [e] at a b
    rw [a, b]
  · rw [List.getElem?_eq_none (by omega), List.getElem?_eq_none (by omega)]

theorem Beside.step (hM : M.Regular) (hG : M.RegularG) (hS : M.ScopesReal) (hSG : M.ScopesRealG)
    (hk : sem.KeepsNone) (hA : M.AlikeOn) (hd : M.deferring = false) {s s' : SM P W} (h : Beside M s s')
    (fuel : Nat) {op : OpG P} (hop : OpOk M op.op) (hopG : OpOkG M op) :
    (step M sem fuel op.op s).Rel (fun _ _ => True) (Beside M) (stepG M sem fuel op s') := by
  obtain ⟨c, h1, h2, hw, hs⟩ := h
  have a := C77_step (sem := sem) h1 hM hS fuel hop
  have b := C82_step (sem := sem) h2 hG hSG fuel hopG
  have e : M.execG sem fuel op c = (M.exec sem fuel op.op c).bind fun _ c => .ok () c := by
    cases op with
    | process ev p => exact Machine.receive_alike hk hA hd fuel (Machine.events_eq ▸ hop) p hw hs
    | setDependency d => rfl
  have hon : OnWalk [] True True M (fun _ _ => True) (M.exec sem fuel op.op c) := by
    cases op with
    | process ev p =>
      exact Machine.receive_onWalk (V := True) (U := True) (Blames.all M sem) fuel (Or.inl trivial)
        (by rw [Machine.events_eq]; exact hop) p c hw hs
    | setDependency d => exact ⟨hw, ⟨by simp, hs.2⟩, trivial⟩
  rw [e] at b
  revert a b hon
  cases M.exec sem fuel op.op c <;> cases Hsm.step M sem fuel op.op s <;> cases stepG M sem fuel op s' <;>
    intro a b hon <;> first | exact a.elim | exact b.elim | skip
  · exact ⟨trivial, _, a.2, b.2, hon.1, hon.2.1⟩
  · exact ⟨a.1.trans b.1.symm, _, a.2, b.2, hon.1, hon.2⟩
  · exact a.trans b.symm
  · trivial

/-- The objects the two headers construct. -/
theorem Beside.fresh (hM : M.Regular) (hG : M.RegularG) {d : Dep} {w : W} {s s' : SM P W}
    (h : construct M d w = .ok s) (h' : constructG M d w = .ok s') : Beside M s s' :=
  ⟨M.fresh d w, C77_construct hM h, (C82_construct hG d w).2.2 s' h', .start,
    ⟨(C77_construct hM h).bound, fun _ he => nomatch he⟩⟩

theorem Machine.alikeOn_of_check {S : List (Bool × Spot)} (hS : M.closed [] S = true)
    (ha : M.headersAlike S = true) : M.AlikeOn ∧ M.deferring = false := by
  unfold headersAlike at ha
  rw [Bool.and_eq_true, List.all_eq_true, Bool.not_eq_true'] at ha
  exact ⟨fun b n hw => ha.2 _ (walk_of_closed hS hw), ha.1⟩

/-- C91: if the check accepts the machine, both headers do the same: after the same calls both clients can still
call or neither can, the objects look the same, and the next call has the same outcome. -/
theorem C91_same (hM : M.Regular) (hG : M.RegularG) (hk : sem.KeepsNone) {S : List (Bool × Spot)}
    (hS : M.closed [] S = true) (ha : M.headersAlike S = true) {d : Dep} {w : W} {s s' : SM P W}
    (h : construct M d w = .ok s) (h' : constructG M d w = .ok s') (fuel : Nat) (ops : List (OpG P))
    (hops : ∀ op ∈ ops, OpOk M op.op ∧ OpOkG M op) :
    match runAll (step M sem fuel) (ops.map OpG.op) s, runAllG (stepG M sem fuel) ops s' with
    | some t, some t' => SameLook M t t' ∧ ∀ (fuel : Nat) (op : OpG P), OpOk M op.op → OpOkG M op →
        (step M sem fuel op.op t).Rel (fun _ _ => True) (SameLook M) (stepG M sem fuel op t')
    | none, none => True
    | _, _ => False := by
  obtain ⟨hA, hd⟩ := Machine.alikeOn_of_check hS ha
  have hR : M.ScopesReal := ((C06_construct hM d w).1.1 ⟨s, h⟩).1
  have hRG : M.ScopesRealG := ((C82_construct (P := P) hG d w).1.1 ⟨s', h'⟩).1
  have hb := Beside.fresh hM hG h h'
  clear h h'
  induction ops generalizing s s' with
  | nil =>
    refine ⟨hb.same hM, fun fuel op hop hopG => ?_⟩
    have hx := hb.step hM hG hR hRG hk hA hd fuel hop hopG
    revert hx
    cases step M sem fuel op.op s <;> cases stepG M sem fuel op s' <;> intro hx <;>
      first | exact hx.elim | exact ⟨hx.1, hx.2.same hM⟩ | exact hx
  | cons op ops ih =>
    obtain ⟨hop, hopG⟩ := hops op List.mem_cons_self
    have hx := hb.step hM hG hR hRG hk hA hd fuel hop hopG
    rw [List.map_cons, runAll, runAllG]
    revert hx
    cases step M sem fuel op.op s <;> cases stepG M sem fuel op s' <;> intro hx <;> first | exact hx.elim | skip
    · exact ih (fun op h => hops op (List.mem_cons_of_mem _ h)) hx.2
    · exact ih (fun op h => hops op (List.mem_cons_of_mem _ h)) hx.2
    · trivial
    · trivial

/-- C91: the check accepts all the machines of C61_partial. -/
theorem C91_covers (hM : M.Regular) (hP : M.PlainInternals) (hd : M.deferring = false) (S : List (Bool × Spot)) :
    M.headersAlike S = true := by
  have key : ∀ e p s, M.candsG e p s = M.cands e p s := by
    intro e p s
    have hr : ∀ rows : List XRow, (∀ t ∈ rows, t ∈ M.iflatG) →
        (rows.reverse.filter (fun t => t.event = e)).flatMap (Machine.intCands p s) =
          ((rows.filter (fun t => t.parent = p)).reverse.filter (fun t => t.event = e)).flatMap
            (Machine.intCands p s) := by
      intro rows hrows
      rw [Machine.flatMap_filter_of _ (fun t => decide (t.parent = p)), List.filter_filter, ← List.filter_reverse,
        List.filter_filter]
      · simp only [Bool.and_comm]
      · intro t ht hq
        have hl := Machine.iflatG_loc hP (hrows t (List.mem_reverse.1 (List.mem_filter.1 ht).1))
        unfold Machine.intCands
        rw [if_neg]
        intro hc
        rw [hc] at hl
        simp only [decide_eq_false_iff_not] at hq
        exact hq hl.1.symm
    unfold Machine.candsG Machine.cands
    rw [Machine.intRowsG_eq hM.laid, Machine.intRows_eq, hr _ fun t h => h,
      hr _ fun t h => (Machine.mem_iflatG hP).2 h, Machine.iflat_filter hP]
  unfold Machine.headersAlike
  rw [hd, Bool.not_false, Bool.true_and, List.all_eq_true]
  intro x _
  unfold Machine.alikeAt
  rw [List.all_eq_true]
  intro o _
  cases o with
  | none => rfl
  | some l => simp [key]

end

namespace Ex

/-- State 2 has an internal row for event 1, but its row without guard for that event is tried first.  The root
has internal rows and mentions the exit point of composite 3, so its internal rows are declared at a state of
composite 3 too. -/
def masked : Machine := Machine.ofList
  [ { table := some
        [ row (ini 1) (ev 0) none (some 1) (.st 2), row (.st 2) (ev 1) none (some 2) (.st 3),
          row (.ps false (.exit 3 4)) (ev 1) (some 9) (some 3) (.st 1) ]
      itable := some [⟨ev 5, some 8, some 4⟩] },
    { }, { itable := some [⟨ev 1, some 7, some 5⟩] },
    { table := some [ row (ini 4) (ev 2) none (some 6) (.st 4) ] } ] [2, 0, 0, 1]

theorem masked_regular : masked.Regular := Machine.regular_ofList (by decide +kernel)
theorem masked_regularG : masked.RegularG := Machine.regularG_ofList (by decide +kernel)

/-- C61_partial does not speak about `masked`, as state 2 has internal rows and is no composite. -/
theorem masked_not_plain : ¬ masked.PlainInternals := fun h => by
  have := h.simple 2 (by decide +kernel) (by decide +kernel)
  cases this

/-- The check accepts `masked`, both headers construct it, and there are calls that go through its states. -/
example : masked.closed [] (masked.explore [] 4) = true ∧ masked.headersAlike (masked.explore [] 4) = true ∧
    (run masked (sem fun g => g != 7) 5 7 [] [.process (ev 0) 1, .process (ev 5) 1, .process (ev 1) 2,
        .process (ev 2) 3, .process (ev 5) 3, .process (ev 1) 4]).any
      (fun s => (runG masked (sem fun g => g != 7) 5 7 [] [.process (ev 0) 1, .process (ev 5) 1,
        .process (ev 1) 2, .process (ev 2) 3, .process (ev 5) 3, .process (ev 1) 4]).any fun s' =>
          s.world == [1, 8, 4, 2, 6, 8, 4, 9, 3] && s'.world == s.world && s'.cur == s.cur) = true := by decide +kernel

/-- The check refuses the machines of C61_refuted_internal and C61_refuted_order, where a client sees the
difference. -/
example : innerG.closed [] (innerG.explore [] 4) = true ∧ innerG.headersAlike (innerG.explore [] 4) = false ∧
    shared.closed [] (shared.explore [] 4) = true ∧ shared.headersAlike (shared.explore [] 4) = false := by
  decide +kernel

end Ex
end Hsm

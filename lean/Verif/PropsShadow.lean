import Verif.Shadow
import Verif.PropsMonitor
import Verif.PropsMatch
import Verif.PropsHang
import Mathlib.Logic.Relation

/-!
# C87: whether a client can tell two machines apart can be decided
-/

namespace Hsm

variable {P W Q Q' : Type} {M M' : Machine} {sem : Sem P W}

/-! ## Monitors that hear the same -/

/-- The same place, heard by another monitor. -/
def Eye.tell (f : Option Q → Option Q') (x : Eye Q) : Eye Q' := ⟨x.spot, x.waiting, f x.heard⟩

theorem branch_view {α β σ τ : Type} {φ : σ → τ} (rs : List (Res σ α)) {k : α → σ → List (Res σ β)}
    {k' : α → τ → List (Res τ β)} (h : ∀ a s, k' a (φ s) = (k a s).map (Res.view φ)) :
    branch (rs.map (Res.view φ)) k' = (branch rs k).map (Res.view φ) := by
  unfold branch
  rw [List.flatMap_map, List.map_flatMap]
  congr 1
  funext y
  cases y with
  | ok a s => exact h a s
  | _ => rfl

namespace Machine

section
variable {mon : Monitor Q} {mon' : Monitor Q'} {f : Option Q → Option Q'}
  (hf : ∀ q s, mon'.hear (f q) s = f (mon.hear q s))

include hf

theorem seeSign_tell (s : Sign) (x : Eye Q) : seeSign mon' s (x.tell f) = (seeSign mon s x).tell f := by
  unfold seeSign Eye.tell
  rw [hf]

omit hf in
theorem seeTravel_tell (r : Nat) (t : XRow) (l : Name × StTy) (x : Eye Q) :
    M.seeTravel r t l (x.tell f) = (M.seeTravel r t l x).view (Eye.tell f) := by
  unfold seeTravel
  show (M.mayTravel r t l x.spot).view _ = _
  cases M.mayTravel r t l x.spot <;> rfl

theorem seeAsk_tell (ev : EventTy) (cd : Cand) (t : XRow) (l : Name × StTy) (x : Eye Q) :
    seeAsk mon' ev cd t l (x.tell f) = (seeAsk mon ev cd t l x).map (Res.view (Eye.tell f)) := by
  unfold seeAsk
  cases t.guard with
  | none => rfl
  | some g => simp only [seeSign_tell hf]; rfl

theorem seePerform_tell (args : Args) : ∀ (cs : List (Phase × Cb)) (x : Eye Q),
    seePerform mon' args cs (x.tell f) = (seePerform mon args cs x).map (Res.view (Eye.tell f))
  | [], x => rfl
  | (ph, a) :: cs, x => by
    unfold seePerform
    rw [seeSign_tell hf, seeSign_tell hf, seePerform_tell args cs]
    rfl

theorem seeTake_tell (r : Nat) (ev : EventTy) (cd : Cand) (t : XRow) (l : Name × StTy) (x : Eye Q) :
    M.seeTake mon' r ev cd t l (x.tell f) = (M.seeTake mon r ev cd t l x).map (Res.view (Eye.tell f)) := by
  unfold seeTake
  rw [seeTravel_tell]
  refine branch_view [M.seeTravel r t l x] fun _ x => ?_
  cases M.toRun t with
  | none => rfl
  | some cs => exact seePerform_tell hf _ cs x

theorem seeAttempt_tell (anon : Bool) (r : Nat) (ev : EventTy) : ∀ (cs : List Cand) (x : Eye Q),
    M.seeAttempt mon' anon r ev cs (x.tell f) = (M.seeAttempt mon anon r ev cs x).map (Res.view (Eye.tell f))
  | [], x => rfl
  | cd :: cs, x => by
    unfold seeAttempt
    cases cd.row? with
    | none => dsimp only; split <;> rfl
    | some t =>
      dsimp only
      cases M.targetLoc t with
      | none => rfl
      | some l =>
        dsimp only
        rw [seeAsk_tell hf]
        refine branch_view _ fun b x => ?_
        cases b with
        | true =>
          rw [if_pos rfl, if_pos rfl, seeTake_tell hf]
          exact branch_view _ fun _ _ => rfl
        | false => rw [if_neg (by decide), if_neg (by decide)]; exact seeAttempt_tell anon r ev cs x

theorem seeVisit_tell (anon : Bool) (r : Nat) (ev : EventTy) (x : Eye Q) :
    M.seeVisit mon' anon r ev (x.tell f) = (M.seeVisit mon anon r ev x).map (Res.view (Eye.tell f)) := by
  unfold seeVisit
  show (match x.spot.slots[r]? with
    | none => _ | some none => _ | some (some l) => _) = _
  cases x.spot.slots[r]? with
  | none => rfl
  | some o =>
    cases o with
    | none => rfl
    | some l =>
      dsimp only
      split
      · split
        · rfl
        · exact seeAttempt_tell hf ..
      · rfl

theorem seeSweep_tell (ev : EventTy) : ∀ (rs : List Nat) (os : List RegionOut) (x : Eye Q),
    M.seeSweep mon' ev rs os (x.tell f) = (M.seeSweep mon ev rs os x).map (Res.view (Eye.tell f))
  | [], os, x => rfl
  | r :: rs, os, x => by
    unfold seeSweep
    rw [seeVisit_tell hf]
    refine branch_view _ fun o x => ?_
    split
    · rfl
    · exact seeSweep_tell ev rs _ x

theorem seeRound_tell : ∀ (rs : List Nat) (os : List RegionOut) (x : Eye Q),
    M.seeRound mon' rs os (x.tell f) = (M.seeRound mon rs os x).map (Res.view (Eye.tell f))
  | [], os, x => rfl
  | r :: rs, os, x => by
    unfold seeRound
    rw [seeVisit_tell hf]
    refine branch_view _ fun o x => ?_
    split
    · rfl
    · exact seeRound_tell rs _ x

theorem seeComplain_tell (ev : EventTy) (x : Eye Q) :
    M.seeComplain mon' ev (x.tell f) = (M.seeComplain mon ev x).map (Res.view (Eye.tell f)) := by
  unfold seeComplain
  cases (M.decl M.root).handler with
  | none => rfl
  | some h =>
    dsimp only
    show (match x.spot.slots[0]? with
      | none => _ | some none => _ | some (some l) => _) = _
    cases x.spot.slots[0]? with
    | none => rfl
    | some o =>
      cases o with
      | none => rfl
      | some l =>
        dsimp only
        split
        · rw [seeSign_tell hf, seeSign_tell hf]; rfl
        · rfl

theorem seeAnswer_tell (b : Bool) (x : Eye Q) :
    seeAnswer mon' b (x.tell f) = (seeAnswer mon b x).map (Res.view (Eye.tell f)) := by
  unfold seeAnswer
  rw [seeSign_tell hf]
  rfl

theorem seeReplay_tell (x : Eye Q) :
    M.seeReplay mon' (x.tell f) = (M.seeReplay mon x).map (Res.view (Eye.tell f)) := by
  unfold seeReplay
  show (match x.waiting with | [] => _ | ev :: q => _) = _
  cases x.waiting with
  | nil => exact seeAnswer_tell hf ..
  | cons ev q =>
    dsimp only
    split
    · have := M.seeSweep_tell hf ev (M.involved x.spot) [] { x with waiting := q }
      show branch (M.seeSweep mon' ev (M.involved x.spot) [] (Eye.tell f { x with waiting := q })) _ = _
      rw [this]
      refine branch_view _ fun os x => ?_
      split
      · rfl
      · exact seeAnswer_tell hf ..
    · exact seeAnswer_tell hf ..

theorem seeReceive_tell (ev : EventTy) (x : Eye Q) :
    M.seeReceive mon' ev (x.tell f) = (M.seeReceive mon ev x).map (Res.view (Eye.tell f)) := by
  unfold seeReceive
  rw [show (x.tell f).spot = x.spot from rfl, seeSweep_tell hf]
  refine branch_view _ fun os x => ?_
  split
  · exact seeAnswer_tell hf ..
  split
  · split
    · rfl
    · exact seeReplay_tell hf x
  split
  · exact seeAnswer_tell hf ..
  · rw [seeComplain_tell hf]
    exact branch_view _ fun _ x => seeAnswer_tell hf ..

/-- What may happen does not depend on who listens. -/
theorem seeNext_tell (g : Stage) (x : Eye Q) :
    M.seeNext mon' g (x.tell f) = (M.seeNext mon g x).map (Res.view (Eye.tell f)) := by
  cases g with
  | idle =>
    unfold seeNext
    dsimp only
    rw [List.map_flatMap]
    congr 1
    funext ev
    rw [seeSign_tell hf, seeReceive_tell hf]
  | rounds first =>
    unfold seeNext
    dsimp only
    rw [show (x.tell f).spot = x.spot from rfl, seeRound_tell hf]
    refine branch_view _ fun b x => ?_
    split
    · rfl
    split
    · exact seeReplay_tell hf x
    · exact seeAnswer_tell hf ..

end

end Machine

/-! ## The recorder -/

theorem recorder_hearAll (a : List Sign) : ∀ ss : List Sign, recorder.hearAll (some a) ss = some (a ++ ss) := by
  intro ss
  induction ss generalizing a with
  | nil => rw [List.append_nil]; rfl
  | cons s ss ih =>
    show recorder.hearAll (some (a ++ [s])) ss = _
    rw [ih, List.append_assoc]
    rfl

theorem recorder_tell (a : List Sign) (q : Option (List Sign)) (s : Sign) :
    recorder.hear (q.map (a ++ ·)) s = (recorder.hear q s).map (a ++ ·) := by
  cases q with
  | none => rfl
  | some l => show some (a ++ l ++ [s]) = some (a ++ (l ++ [s])); rw [List.append_assoc]

/-- The sign ends a call. -/
def Sign.final : Sign → Bool
  | .answer _ => true
  | .exception => true
  | _ => false

theorem Sign.final_seen (v : StTy → StTy) (s : Sign) : (s.seen v).final = s.final := by cases s <;> rfl

/-- No call is under way after `l`. -/
def Whole (l : List Sign) : Prop := l = [] ∨ ∃ t s, l = t ++ [s] ∧ s.final = true

theorem Whole.of_seen {v v' : StTy → StTy} {a b : List Sign} (h : Whole b)
    (e : a.map (Sign.seen v') = b.map (Sign.seen v)) : Whole a := by
  rcases h with rfl | ⟨t, s, rfl, hs⟩
  · exact Or.inl (List.map_eq_nil_iff.1 e)
  · rcases List.eq_nil_or_concat a with rfl | ⟨t', s', rfl⟩
    · exact Or.inl rfl
    · refine Or.inr ⟨t', s', List.concat_eq_append, ?_⟩
      rw [List.concat_eq_append, List.map_append, List.map_append] at e
      have := (List.append_inj' e rfl).2
      simp only [List.map_cons, List.map_nil, List.cons.injEq, and_true] at this
      rw [← Sign.final_seen v', this, Sign.final_seen, hs]

theorem Observed.whole {d : Dep} {ss : List Sign} {s : SM P W} (h : Observed M sem d ss s) : Whole ss := by
  induction h with
  | init _ => exact Or.inl rfl
  | ok _ _ _ => exact Or.inr ⟨_, _, rfl, rfl⟩
  | throw _ _ _ => exact Or.inr ⟨_, _, rfl, rfl⟩
  | world _ _ ih => exact ih

/-- A call has one sign that ends it. -/
theorem cut_call {ss a b : List Sign} {ev : EventTy} {cs : List Sign} (hcs : ∀ c ∈ cs, c.final = false)
    (he : ss ++ .event ev :: cs = a ++ b) (ha : Whole a) : ∃ c, ss = a ++ c := by
  rcases List.append_eq_append_iff.1 he with ⟨c, rfl, h2⟩ | ⟨c, rfl, h2⟩
  · rcases List.eq_nil_or_concat c with rfl | ⟨t, z, rfl⟩
    · exact ⟨[], by simp⟩
    · exfalso
      rw [List.concat_eq_append] at h2 ha
      have hz : z.final = false := by
        have : z ∈ .event ev :: cs := by rw [h2]; simp
        rcases List.mem_cons.1 this with rfl | h
        · rfl
        · exact hcs z h
      rcases ha with ha | ⟨t', z', ha, hf⟩
      · simp at ha
      · rw [← List.append_assoc] at ha
        have := (List.append_inj' ha rfl).2
        simp only [List.cons.injEq, and_true] at this
        rw [← this, hz] at hf
        cases hf
  · exact ⟨c, rfl⟩

theorem signs_final (l : List (Call P)) : ∀ c ∈ signs l, c.final = false := by
  intro c hc
  obtain ⟨k, _, rfl⟩ := List.mem_map.1 hc
  rfl

theorem callsSince_final (s s' : SM P W) : ∀ c ∈ callsSince s s', c.final = false := by
  intro c hc
  obtain ⟨k, _, rfl⟩ := List.mem_map.1 hc
  rfl

/-- What was observed up to the end of a call was observed. -/
theorem Observed.cut {d : Dep} {l : List Sign} {s : SM P W} (h : Observed M sem d l s) :
    ∀ {a b : List Sign}, l = a ++ b → Whole a → ∃ s', Observed M sem d a s' := by
  have call : ∀ {ss a b : List Sign} {s s' : SM P W} {ev : EventTy} {last : Sign},
      (∀ {a b : List Sign}, ss = a ++ b → Whole a → ∃ s', Observed M sem d a s') →
      Observed M sem d (ss ++ .event ev :: callsSince s s' ++ [last]) s' →
      ss ++ .event ev :: callsSince s s' ++ [last] = a ++ b → Whole a → ∃ s', Observed M sem d a s' := by
    intro ss a b s s' ev last ih ho he ha
    rcases List.eq_nil_or_concat b with rfl | ⟨t, z, rfl⟩
    · rw [List.append_nil] at he
      exact ⟨_, he ▸ ho⟩
    · rw [List.concat_eq_append, ← List.append_assoc] at he
      obtain ⟨c, hc⟩ := cut_call (callsSince_final s s') (List.append_inj' he rfl).1 ha
      exact ih hc ha
  induction h with
  | init h =>
    intro a b he _
    have : a = [] := (List.append_eq_nil_iff.1 he.symm).1
    rw [this]
    exact ⟨_, .init h⟩
  | ok hr hop h ih => intro a b he ha; exact call (fun he ha => ih he ha) (.ok hr hop h) he ha
  | throw hr hop h ih => intro a b he ha; exact call (fun he ha => ih he ha) (.throw hr hop h) he ha
  | world _ _ ih => intro a b he ha; exact ih he ha

/-- What may be the case was heard. -/
theorem Machine.Sees.heard (hM : M.Regular)
    (hC : M.ScopesReal ∧ (M.orthogonal = true → M.declaredInitials M.root ≠ [])) {g : Stage}
    {x : Eye (List Sign)} (h : M.Sees recorder g x) (d : Dep) : ∃ l, x.heard = some l ∧
      ∀ a b, l = a ++ b → Whole a → ∃ s, Observed M script d a s := by
  have hg := h.getsTo (T := listed) (δ := d) hM [] hC
  cases g with
  | idle =>
    obtain ⟨ss, s, c, hs⟩ := hg
    refine ⟨ss, by rw [hs.heard]; exact recorder_hearAll [] ss, fun a b he ha => hs.observed.cut he ha⟩
  | rounds first =>
    obtain ⟨ss, s, c, x0, ev, v, k, j, hs, hev, hx⟩ := hg
    obtain ⟨c', hv, _⟩ := hx [] 0
    obtain ⟨l, _, hl⟩ := hv.heard
    refine ⟨ss ++ .event ev :: signs l, ?_, fun a b he ha => ?_⟩
    · rw [hl, hs.heard]
      have : recorder.hearAll (some recorder.init) ss = some ss := recorder_hearAll [] ss
      rw [this]
      show recorder.hearAll (some (ss ++ [.event ev])) (signs l) = _
      rw [recorder_hearAll, List.append_assoc]
      rfl
    · obtain ⟨c, hc⟩ := cut_call (signs_final l) he ha
      exact hs.observed.cut hc ha

/-! ## What the shadow does is possible -/

namespace Machine

theorem seeNext_record (g : Stage) (n : Spot) (w : List EventTy) (a : List Sign) :
    M.seeNext recorder g ⟨n, w, some a⟩ =
      (M.seeNext recorder g ⟨n, w, some []⟩).map (Res.view (Eye.tell (Option.map (a ++ ·)))) := by
  have := M.seeNext_tell (recorder_tell a) g ⟨n, w, some []⟩
  unfold Eye.tell at this
  dsimp only [Option.map_some] at this
  rw [List.append_nil] at this
  exact this

/-- The machine may have observed `a` and do what the prospect says. -/
def May (M : Machine) (a : List Sign) (p : Prospect) : Prop :=
  M.Sees recorder p.stage ⟨p.spot, p.waiting, some (a ++ p.signs)⟩

theorem May.foresee {a : List Sign} {p q : Prospect} (h : M.May a p) (hp : p.signs = []) (hq : q ∈ M.foresee p) :
    M.May a q := by
  unfold May at h ⊢
  rw [hp, List.append_nil] at h
  unfold Machine.foresee at hq
  obtain ⟨y, hy, he⟩ := List.mem_filterMap.1 hq
  have hm := List.mem_map_of_mem (f := Res.view (Eye.tell (Option.map (a ++ ·)))) hy
  rw [← seeNext_record] at hm
  split at he
  · cases he; exact h.ok hm
  · cases he
    have := h.throw hm
    unfold seeSign Eye.tell at this
    show M.Sees recorder .idle ⟨_, _, some (a ++ (_ ++ [.exception]))⟩
    rw [← List.append_assoc]
    exact this
  · cases he

theorem May.lookAhead {a : List Sign} : ∀ (k : Nat) {p q : Prospect}, M.May a p → q ∈ M.lookAhead k p → M.May a q
  | 0, p, q, h, hq => List.mem_singleton.1 hq ▸ h
  | k + 1, p, q, h, hq => by
    rw [Machine.lookAhead] at hq
    split at hq
    · next hp =>
      obtain ⟨p', h1, h2⟩ := List.mem_flatMap.1 hq
      exact (h.foresee hp h1).lookAhead k h2
    · exact List.mem_singleton.1 hq ▸ h

variable {v v' : StTy → StTy} {k : Nat}

/-- All that `M` may be doing after signs that look like `L`. -/
def Mays (M : Machine) (v : StTy → StTy) (L : List Sign) (ps : List Prospect) : Prop :=
  ps ≠ [] ∧ ∀ p ∈ ps, ∃ a, a.map (Sign.seen v) = L ∧ M.May a p

theorem Mays.hear {L : List Sign} {ps ps' : List Prospect} (h : M.Mays v' L ps) {s : Sign}
    (hs : (M.shadow v' v k).hear (some (some ps)) s = some (some ps')) : M.Mays v' (L ++ [s.seen v]) ps' := by
  have hs : (M.shadow v' v k).step (some ps) s = some (some ps') := hs
  unfold shadow at hs
  dsimp only at hs
  split at hs
  · cases hs
  · cases hs
  · next p ps1 hp =>
    cases hs
    refine ⟨List.cons_ne_nil _ _, fun q hq => ?_⟩
    unfold pursue at hp
    dsimp only at hp
    split at hp
    · injection hp with hp
      rw [← hp, List.mem_eraseDups, List.mem_filterMap] at hq
      obtain ⟨q0, h1, h2⟩ := hq
      obtain ⟨p0, h3, h4⟩ := List.mem_flatMap.1 h1
      obtain ⟨a, ha, hm⟩ := h.2 p0 h3
      have hm := hm.lookAhead k h4
      unfold Prospect.after at h2
      split at h2
      · cases h2
      · next t ts ht =>
        split at h2
        · next hts =>
          cases h2
          refine ⟨a ++ [t], by rw [List.map_append, ha]; simp [hts], ?_⟩
          unfold May at hm ⊢
          rw [ht] at hm
          dsimp only
          rw [List.append_assoc]
          exact hm
        · cases h2
    · cases hp

theorem shadow_lost (ss : List Sign) : (M.shadow v' v k).hearAll (some none) ss = some none := by
  induction ss with
  | nil => rfl
  | cons s ss ih => exact ih

theorem Mays.hearAll : ∀ {ss L : List Sign} {ps ps' : List Prospect}, M.Mays v' L ps →
    (M.shadow v' v k).hearAll (some (some ps)) ss = some (some ps') →
    M.Mays v' (L ++ ss.map (Sign.seen v)) ps'
  | [], L, ps, ps', h, hs => by cases hs; simpa using h
  | s :: ss, L, ps, ps', h, hs => by
    have hs : (M.shadow v' v k).hearAll ((M.shadow v' v k).hear (some (some ps)) s) ss = some (some ps') := hs
    cases hq : (M.shadow v' v k).hear (some (some ps)) s with
    | none => rw [hq, Monitor.hearAll_none] at hs; cases hs
    | some q =>
      rw [hq] at hs
      cases q with
      | none => rw [shadow_lost] at hs; cases hs
      | some ps1 =>
        have := (h.hear hq).hearAll hs
        simpa using this

theorem Mays.start : M.Mays v' [] [⟨[], .idle, M.start, []⟩] :=
  ⟨List.cons_ne_nil _ _, fun p hp => ⟨[], rfl, List.mem_singleton.1 hp ▸ .start⟩⟩

/-! ## The shadow leaves out nothing -/

/-- A step without a sign, as far as the shadow has to know. -/
def Drift (M : Machine) (p q : Prospect) : Prop := p.signs = [] ∧ q ∈ M.foresee p

theorem lookAhead_busy : ∀ (k : Nat) {p : Prospect}, p.signs ≠ [] → M.lookAhead k p = [p]
  | 0, _, _ => rfl
  | _ + 1, _, h => if_neg h

theorem lookAhead_drift {p q : Prospect} (h : Relation.ReflTransGen M.Drift p q) (hq : q.signs ≠ []) :
    ∀ k, (∀ p' ∈ M.lookAhead k p, p'.signs ≠ []) → q ∈ M.lookAhead k p := by
  induction h using Relation.ReflTransGen.head_induction_on with
  | refl => intro k _; rw [lookAhead_busy k hq]; exact List.mem_cons_self
  | @head p p1 h1 _ ih =>
    intro k hk
    cases k with
    | zero => exact absurd h1.1 (hk p List.mem_cons_self)
    | succ k =>
      rw [lookAhead, if_pos h1.1] at hk ⊢
      exact List.mem_flatMap.2 ⟨p1, h1.2, ih k fun p' hp' => hk p' (List.mem_flatMap.2 ⟨p1, h1.2, hp'⟩)⟩

/-- The shadow lost track or takes into account that `M` may be doing `q`. -/
def Kept (M : Machine) (v : StTy → StTy) (k : Nat) (l : List Sign) (q : Prospect) : Prop :=
  (M.shadow v id k).hearAll (some (M.shadow v id k).init) (l.map (Sign.seen v)) = some none ∨
  ∃ ps, (M.shadow v id k).hearAll (some (M.shadow v id k).init) (l.map (Sign.seen v)) = some (some ps) ∧
    ∃ p ∈ ps, Relation.ReflTransGen M.Drift p q

end Machine

theorem Sign.seen_id (s : Sign) : s.seen id = s := by
  cases s with
  | call k => cases k <;> rfl
  | _ => rfl

namespace Machine
variable {v v' : StTy → StTy} {k : Nat}

theorem Kept.hear {l : List Sign} {s : Sign} {r : List Sign} {g : Stage} {n : Spot} {w : List EventTy}
    (h : M.Kept v k l ⟨s :: r, g, n, w⟩) : M.Kept v k (l ++ [s]) ⟨r, g, n, w⟩ := by
  unfold Kept at h ⊢
  rw [List.map_append, Monitor.hearAll_append]
  rcases h with h | ⟨ps, h, p, hp, hd⟩
  · rw [h]; exact Or.inl (shadow_lost _)
  rw [h]
  show (M.shadow v id k).step (some ps) (s.seen v) = some none ∨
    ∃ ps', (M.shadow v id k).step (some ps) (s.seen v) = some (some ps') ∧ _
  unfold shadow pursue
  dsimp only
  rw [Sign.seen_id]
  by_cases hc : ((ps.flatMap (M.lookAhead k)).all fun p => decide (p.signs ≠ [])) = true
  · right
    rw [if_pos hc]
    have hmem : (⟨r, g, n, w⟩ : Prospect) ∈
        ((ps.flatMap (M.lookAhead k)).filterMap (Prospect.after v (s.seen v))).eraseDups := by
      rw [List.mem_eraseDups, List.mem_filterMap]
      refine ⟨⟨s :: r, g, n, w⟩, List.mem_flatMap.2 ⟨p, hp, lookAhead_drift hd (List.cons_ne_nil _ _) k ?_⟩, ?_⟩
      · intro p' hp'
        exact of_decide_eq_true (List.all_eq_true.1 hc p' (List.mem_flatMap.2 ⟨p, hp, hp'⟩))
      · show (if s.seen v = s.seen v then _ else _) = _
        rw [if_pos rfl]
    revert hmem
    generalize ((ps.flatMap (M.lookAhead k)).filterMap (Prospect.after v (s.seen v))).eraseDups = qs
    intro hmem
    cases qs with
    | nil => cases hmem
    | cons q qs => exact ⟨_, rfl, _, hmem, .refl⟩
  · left
    rw [if_neg hc]

theorem Kept.hearAll {g : Stage} {n : Spot} {w : List EventTy} : ∀ {r l : List Sign},
    M.Kept v k l ⟨r, g, n, w⟩ → M.Kept v k (l ++ r) ⟨[], g, n, w⟩
  | [], l, h => by rw [List.append_nil]; exact h
  | s :: r, l, h => by
    have := h.hear.hearAll (r := r)
    rwa [List.append_assoc] at this

theorem Kept.drift {l : List Sign} {q q' : Prospect} (h : M.Kept v k l q) (hq : q.signs = [])
    (hn : q' ∈ M.foresee q) : M.Kept v k l q' := by
  rcases h with h | ⟨ps, h, p, hp, hd⟩
  · exact Or.inl h
  · exact Or.inr ⟨ps, h, p, hp, hd.tail ⟨hq, hn⟩⟩

theorem Sees.kept (hM : M.Regular)
    (hC : M.ScopesReal ∧ (M.orthogonal = true → M.declaredInitials M.root ≠ [])) {g : Stage}
    {x : Eye (List Sign)} (h : M.Sees recorder g x) :
    ∃ l, x.heard = some l ∧ M.Kept v k l ⟨[], g, x.spot, x.waiting⟩ := by
  induction h with
  | start => exact ⟨[], rfl, Or.inr ⟨_, rfl, _, List.mem_cons_self, .refl⟩⟩
  | @ok g g' x x' h hn ih =>
    obtain ⟨l, hl, hk⟩ := ih
    obtain ⟨l', hl', -⟩ := (h.ok hn).heard hM hC 0
    obtain ⟨n, w, q⟩ := x
    dsimp only at hl hk
    subst hl
    rw [seeNext_record] at hn
    obtain ⟨y, hy, he⟩ := List.mem_map.1 hn
    cases y with
    | ok g1 x1 =>
      obtain ⟨n1, w1, q1⟩ := x1
      injection he with e1 e2
      subst e1 e2
      cases q1 with
      | none => cases hl'
      | some r => exact ⟨_, rfl, (hk.drift (q' := ⟨r, g1, n1, w1⟩) rfl
          (List.mem_filterMap.2 ⟨_, hy, rfl⟩)).hearAll⟩
    | _ => cases he
  | @throw g x x' e h hn ih =>
    obtain ⟨l, hl, hk⟩ := ih
    obtain ⟨l', hl', -⟩ := (h.throw hn).heard hM hC 0
    obtain ⟨n, w, q⟩ := x
    dsimp only at hl hk
    subst hl
    rw [seeNext_record] at hn
    obtain ⟨y, hy, he⟩ := List.mem_map.1 hn
    cases y with
    | throw e1 x1 =>
      obtain ⟨n1, w1, q1⟩ := x1
      injection he with e1 e2
      subst e2
      cases q1 with
      | none => cases hl'
      | some r =>
        have := (hk.drift (q' := ⟨r ++ [.exception], .idle, n1, w1⟩) rfl
          (List.mem_filterMap.2 ⟨_, hy, rfl⟩)).hearAll
        refine ⟨l ++ (r ++ [.exception]), ?_, this⟩
        show some (l ++ r ++ [Sign.exception]) = _
        rw [List.append_assoc]
    | _ => cases he

theorem shadow_seen (q : Option (Option (List Prospect))) (s : Sign) :
    (M.shadow v' v k).hear q s = (M.shadow v' id k).hear q (s.seen v) := by
  cases q with
  | none => rfl
  | some q =>
    cases q with
    | none => rfl
    | some ps =>
      show (M.shadow v' v k).step _ _ = (M.shadow v' id k).step _ _
      unfold shadow
      dsimp only
      rw [Sign.seen_id]

theorem shadow_seenAll (ss : List Sign) : ∀ q, (M.shadow v' v k).hearAll q ss =
    (M.shadow v' id k).hearAll q (ss.map (Sign.seen v)) := by
  induction ss with
  | nil => intro q; rfl
  | cons s ss ih =>
    intro q
    show (M.shadow v' v k).hearAll ((M.shadow v' v k).hear q s) ss =
      (M.shadow v' id k).hearAll ((M.shadow v' id k).hear q (s.seen v)) _
    rw [ih, shadow_seen]

end Machine

/-! ## Looking ahead long enough -/

namespace Machine

/-- Whoever listens, the same may be the case. -/
theorem Sees.told {mon : Monitor Q} {mon' : Monitor Q'} {f : Option Q → Option Q'}
    (hf : ∀ q s, mon'.hear (f q) s = f (mon.hear q s)) (h0 : f (some mon.init) = some mon'.init)
    {g : Stage} {y : Eye Q'} (h : M.Sees mon' g y) : ∃ x, M.Sees mon g x ∧ x.tell f = y := by
  induction h with
  | start => exact ⟨_, .start, by unfold Eye.tell seeStart; rw [h0]⟩
  | ok _ hn ih =>
    obtain ⟨x, hx, rfl⟩ := ih
    rw [seeNext_tell hf] at hn
    obtain ⟨z, hz, he⟩ := List.mem_map.1 hn
    cases z with
    | ok g1 x1 =>
      injection he with e1 e2
      subst e1
      exact ⟨x1, hx.ok hz, e2⟩
    | _ => cases he
  | throw _ hn ih =>
    obtain ⟨x, hx, rfl⟩ := ih
    rw [seeNext_tell hf] at hn
    obtain ⟨z, hz, he⟩ := List.mem_map.1 hn
    cases z with
    | throw e1 x1 =>
      injection he with e1 e2
      refine ⟨_, hx.throw hz, ?_⟩
      rw [← seeSign_tell hf, e2]
    | _ => cases he

/-- What every sign preserves holds of what was heard. -/
theorem Sees.keeps {mon : Monitor Q} {I : Option Q → Prop} (h0 : I (some mon.init)) (hn : I none)
    (hs : ∀ q s, I q → I (mon.hear q s)) {g : Stage} {x : Eye Q} (h : M.Sees mon g x) : I x.heard := by
  let mon0 : Monitor {q : Option Q // I q} :=
    ⟨⟨_, h0⟩, fun q s => some ⟨mon.hear q.1 s, hs q.1 s q.2⟩⟩
  let f : Option {q : Option Q // I q} → Option Q := fun q => q.elim none (·.1)
  obtain ⟨y, _, rfl⟩ := h.told (mon := mon0) (f := f) (fun q s => by cases q <;> rfl) rfl
  show I (f y.heard)
  cases y.heard with
  | none => exact hn
  | some q => exact q.2

/-- The outcomes without what was heard are among those of the checker. -/
def Shown {α : Type} (rs : List (Res (Eye Q) α)) (rs' : List (Res Spot α)) : Prop :=
  ∀ y ∈ rs, y.view Eye.spot ∈ rs'

theorem Shown.branch {α β : Type} {rs : List (Res (Eye Q) α)} {rs' : List (Res Spot α)}
    {k : α → Eye Q → List (Res (Eye Q) β)} {k' : α → Spot → List (Res Spot β)} (h : Shown rs rs')
    (hk : ∀ a x, Shown (k a x) (k' a x.spot)) : Shown (Hsm.branch rs k) (Hsm.branch rs' k') := by
  intro y hy
  rcases mem_branch.1 hy with ⟨a, x, h1, h2⟩ | ⟨e, x, h1, rfl⟩ | ⟨u, h1, rfl⟩ | ⟨h1, rfl⟩
  · exact mem_branch.2 (Or.inl ⟨a, _, h _ h1, hk a x y h2⟩)
  · exact mem_branch.2 (Or.inr (Or.inl ⟨e, _, h _ h1, rfl⟩))
  · exact mem_branch.2 (Or.inr (Or.inr (Or.inl ⟨u, h _ h1, rfl⟩)))
  · exact mem_branch.2 (Or.inr (Or.inr (Or.inr ⟨h _ h1, rfl⟩)))

theorem Shown.one {α : Type} {y : Res (Eye Q) α} {rs : List (Res Spot α)} (h : y.view Eye.spot ∈ rs) :
    Shown [y] rs := fun z hz => by rw [List.mem_singleton.1 hz]; exact h

variable {mon : Monitor Q}

theorem seePerform_shown (args : Args) : ∀ (cs : List (Phase × Cb)) (x : Eye Q),
    Shown (seePerform mon args cs x) (match cs with
      | [] => [.ok () x.spot]
      | _ :: _ => [.ok () x.spot, .throw (.user 0) x.spot])
  | [], x => .one List.mem_cons_self
  | (ph, a) :: cs, x => by
    intro y hy
    rcases List.mem_cons.1 hy with rfl | hy
    · exact List.mem_cons_of_mem _ List.mem_cons_self
    · have := seePerform_shown args cs _ y hy
      cases cs with
      | nil => exact List.mem_cons.2 (Or.inl (List.mem_singleton.1 this))
      | cons _ _ => exact this

theorem seeTake_shown (r : Nat) (ev : EventTy) (cd : Cand) (t : XRow) (l : Name × StTy) (x : Eye Q) :
    Shown (M.seeTake mon r ev cd t l x) (M.mayTake r t l x.spot) := by
  refine Shown.branch (.one ?_) fun _ x => ?_
  · refine List.mem_singleton.2 ?_
    unfold seeTravel
    cases M.mayTravel r t l x.spot <;> rfl
  · cases M.toRun t with
    | none => exact .one List.mem_cons_self
    | some cs =>
      have := seePerform_shown (mon := mon) (cbArgs M cd t l ev 0) cs x
      cases cs with
      | nil => exact this
      | cons _ _ => exact this

theorem seeAttempt_shown (anon : Bool) (r : Nat) (ev : EventTy) : ∀ (cs : List Cand) (x : Eye Q),
    Shown (M.seeAttempt mon anon r ev cs x) (M.mayAttempt anon r cs x.spot)
  | [], x => .one List.mem_cons_self
  | cd :: cs, x => by
    unfold seeAttempt mayAttempt
    cases cd.row? with
    | none => dsimp only; split <;> exact .one List.mem_cons_self
    | some t =>
      dsimp only
      cases M.targetLoc t with
      | none => exact .one List.mem_cons_self
      | some l =>
        dsimp only
        have fire : ∀ x : Eye Q, Shown (branch (M.seeTake mon r ev cd t l x) fun _ x => [.ok RegionOut.fired x])
            (branch (M.mayTake r t l x.spot) fun _ n => [.ok RegionOut.fired n]) := fun x =>
          (seeTake_shown r ev cd t l x).branch fun _ _ => .one List.mem_cons_self
        intro y hy
        unfold seeAsk at hy
        cases hg : t.guard with
        | none =>
          rw [hg] at hy
          rw [if_pos rfl]
          rcases mem_branch.1 hy with ⟨a, z, h1, h2⟩ | ⟨_, _, h1, _⟩ | ⟨_, h1, _⟩ | ⟨h1, _⟩ <;>
            cases List.mem_singleton.1 h1
          rw [if_pos rfl] at h2
          exact fire _ y h2
        | some g =>
          rw [hg] at hy
          rw [if_neg nofun]
          rcases mem_branch.1 hy with ⟨a, z, h1, h2⟩ | ⟨_, _, h1, rfl⟩ | ⟨_, h1, _⟩ | ⟨h1, _⟩
          · simp only [List.mem_cons, reduceCtorEq, false_or, List.not_mem_nil, or_false] at h1
            rcases h1 with h1 | h1
            · cases h1
              rw [if_pos rfl] at h2
              exact List.mem_cons_of_mem _ (List.mem_append_left _ (fire (seeSign mon _ x) y h2))
            · cases h1
              rw [if_neg (by decide)] at h2
              exact List.mem_cons_of_mem _ (List.mem_append_right _ (seeAttempt_shown anon r ev cs (seeSign mon _ x) y h2))
          · simp only [List.mem_cons, reduceCtorEq, List.not_mem_nil, or_false] at h1
            cases h1
            exact List.mem_cons_self
          · simp at h1
          · simp at h1

theorem seeVisit_shown (anon : Bool) (r : Nat) (ev : EventTy) (x : Eye Q) :
    Shown (M.seeVisit mon anon r ev x) (M.mayVisit anon r ev x.spot) := by
  unfold seeVisit mayVisit
  cases x.spot.slots[r]? with
  | none => exact .one List.mem_cons_self
  | some o =>
    cases o with
    | none => exact .one List.mem_cons_self
    | some l =>
      dsimp only
      split
      · split
        · exact .one List.mem_cons_self
        · exact seeAttempt_shown anon r ev _ x
      · exact .one List.mem_cons_self

theorem seeSweep_shown (ev : EventTy) : ∀ (rs : List Nat) (os : List RegionOut) (x : Eye Q),
    Shown (M.seeSweep mon ev rs os x) (M.maySweep ev rs os x.spot)
  | [], os, x => .one List.mem_cons_self
  | r :: rs, os, x => by
    refine (seeVisit_shown false r ev x).branch fun o x => ?_
    split
    · exact .one List.mem_cons_self
    · exact seeSweep_shown ev rs _ x

theorem seeRound_shown : ∀ (rs : List Nat) (os : List RegionOut) (x : Eye Q),
    Shown (M.seeRound mon rs os x) (M.mayRound rs os x.spot)
  | [], os, x => .one List.mem_cons_self
  | r :: rs, os, x => by
    refine (seeVisit_shown true r .none x).branch fun o x => ?_
    split
    · exact .one List.mem_cons_self
    · exact seeRound_shown rs _ x

theorem seeComplain_shown (ev : EventTy) (x : Eye Q) :
    Shown (M.seeComplain mon ev x) (M.mayComplain x.spot) := by
  unfold seeComplain mayComplain
  cases (M.decl M.root).handler with
  | none => exact .one List.mem_cons_self
  | some h =>
    dsimp only
    cases x.spot.slots[0]? with
    | none => exact .one List.mem_cons_self
    | some o =>
      cases o with
      | none => exact .one List.mem_cons_self
      | some l =>
        dsimp only
        split
        · intro y hy
          rcases List.mem_cons.1 hy with rfl | hy
          · exact List.mem_cons_self
          · rw [List.mem_singleton.1 hy]
            exact List.mem_cons_of_mem _ List.mem_cons_self
        · exact .one List.mem_cons_self

/-- In the middle of a call? -/
def _root_.Hsm.Stage.busy : Stage → Bool
  | .idle => false
  | .rounds _ => true

/-- The outcome as the checker sees it. -/
def _root_.Hsm.Res.spotted : Res (Eye Q) Stage → Res Spot Bool
  | .ok g x => .ok g.busy x.spot
  | .throw e x => .throw e x.spot
  | .ub u => .ub u
  | .timeout => .timeout

theorem spotted_branch {α : Type} {rs : List (Res (Eye Q) α)} {rs' : List (Res Spot α)} {I : Eye Q → Prop}
    {k : α → Eye Q → List (Res (Eye Q) Stage)} {k' : α → Spot → List (Res Spot Bool)} (h : Shown rs rs')
    (hI : ∀ y ∈ rs, y.Holds I) (hk : ∀ a x, I x → ∀ y ∈ k a x, y.spotted ∈ k' a x.spot) :
    ∀ y ∈ branch rs k, y.spotted ∈ branch rs' k' := by
  intro y hy
  rcases mem_branch.1 hy with ⟨a, x, h1, h2⟩ | ⟨e, x, h1, rfl⟩ | ⟨u, h1, rfl⟩ | ⟨h1, rfl⟩
  · exact mem_branch.2 (Or.inl ⟨a, _, h _ h1, hk a x (hI _ h1) y h2⟩)
  · exact mem_branch.2 (Or.inr (Or.inl ⟨e, _, h _ h1, rfl⟩))
  · exact mem_branch.2 (Or.inr (Or.inr (Or.inl ⟨u, h _ h1, rfl⟩)))
  · exact mem_branch.2 (Or.inr (Or.inr (Or.inr ⟨h _ h1, rfl⟩)))

theorem seeReplay_trimmed {x : Eye Q} (h : M.Trim x) : M.seeReplay mon x = seeAnswer mon true x := by
  unfold seeReplay
  rw [h.2]

theorem answer_spotted {b : Bool} {x : Eye Q} : ∀ y ∈ seeAnswer mon b x, y.spotted = .ok false x.spot := by
  intro y hy
  rw [List.mem_singleton.1 hy]
  rfl

theorem seeReceive_spotted (hd : M.deferring = false) (ev : EventTy) {x : Eye Q} (h : M.Trim x) :
    ∀ y ∈ M.seeReceive mon ev x, y.spotted ∈ M.mayReceive ev x.spot := by
  refine spotted_branch (seeSweep_shown ev _ _ x) (seeSweep_trim hd ev _ _ h) fun os x h => ?_
  split
  · intro y hy; rw [answer_spotted y hy]; exact List.mem_cons_self
  split
  · split
    · next ha => intro y hy; rw [List.mem_singleton.1 hy, ha]; exact List.mem_cons_self
    · next ha =>
      rw [seeReplay_trimmed h, Bool.eq_false_iff.2 ha]
      intro y hy; rw [answer_spotted y hy]; exact List.mem_cons_self
  split
  · intro y hy; rw [answer_spotted y hy]; exact List.mem_cons_self
  · refine spotted_branch (I := fun _ => True) (seeComplain_shown ev x) (fun y hy => ?_) fun _ x _ => ?_
    · have := seeComplain_shown ev x y hy
      revert this
      cases y with
      | ub u =>
        intro h
        unfold mayComplain at h
        split at h
        · simp [Res.view] at h
        · split at h
          · cases List.mem_singleton.1 h; exact ⟨nofun, nofun⟩
          · cases List.mem_singleton.1 h; exact ⟨nofun, nofun⟩
          · split at h <;> simp [Res.view] at h
      | _ => intro _; trivial
    · intro y hy; rw [answer_spotted y hy]; exact List.mem_cons_self

/-- If nothing is deferred, the monitor hears the walks of the checker. -/
theorem seeNext_spotted (hd : M.deferring = false) (g : Stage) {x : Eye Q} (h : M.Trim x) :
    ∀ y ∈ M.seeNext mon g x, y.spotted ∈ M.next g.busy x.spot := by
  cases g with
  | idle =>
    intro y hy
    obtain ⟨ev, hev, hy⟩ := List.mem_flatMap.1 hy
    exact List.mem_flatMap.2 ⟨ev, hev, seeReceive_spotted hd ev (x := seeSign mon (.event ev) x) h y hy⟩
  | rounds first =>
    intro y hy
    rcases mem_branch.1 hy with ⟨b, z, h1, h2⟩ | ⟨e, z, h1, rfl⟩ | ⟨u, h1, rfl⟩ | ⟨h1, rfl⟩
    · have hz : M.Trim z := seeRound_trim hd _ _ h _ h1
      have h1 := seeRound_shown _ _ _ _ h1
      cases b with
      | true =>
        rw [if_pos rfl] at h2
        rw [List.mem_singleton.1 h2]
        exact h1
      | false =>
        rw [if_neg (by decide), seeReplay_trimmed hz, ite_self] at h2
        rw [answer_spotted y h2]
        exact h1
    · exact seeRound_shown _ _ _ _ h1
    · exact seeRound_shown _ _ _ _ h1
    · exact seeRound_shown _ _ _ _ h1

theorem Sees.walk (hd : M.deferring = false) {g : Stage} {x : Eye Q} (h : M.Sees mon g x) :
    M.Walk [] g.busy x.spot := by
  induction h with
  | start => exact .start
  | ok h hn ih => exact ih.run (seeNext_spotted hd _ (h.trim hd) _ hn)
  | throw h hn ih => exact ih.fail (seeNext_spotted hd _ (h.trim hd) _ hn)

end Machine

namespace Machine

/-- Where the machine can be, with nothing deferred. -/
structure OnCourse (M : Machine) (p : Prospect) : Prop where
  neat : M.Neat [] p.spot
  waiting : p.waiting = []
  walk : M.Walk [] p.stage.busy p.spot

theorem OnCourse.trim {p : Prospect} (h : M.OnCourse p) (q : Option Q) :
    M.Trim (⟨p.spot, p.waiting, q⟩ : Eye Q) := ⟨h.neat, h.waiting⟩

theorem OnCourse.foresee (hd : M.deferring = false) {p q : Prospect} (h : M.OnCourse p) (hq : q ∈ M.foresee p) :
    M.OnCourse q := by
  obtain ⟨y, hy, he⟩ := List.mem_filterMap.1 hq
  have h1 := seeNext_trim hd p.stage (h.trim _) y hy
  have h2 := seeNext_spotted hd p.stage (h.trim _) y hy
  split at he
  · cases he; exact ⟨h1.1, h1.2, h.walk.run h2⟩
  · cases he; exact ⟨h1.1, h1.2, h.walk.fail h2⟩
  · cases he

/-- Between two calls the next step is observed. -/
theorem foresee_idle {p q : Prospect} (hp : p.stage = .idle) (hq : q ∈ M.foresee p) : q.signs ≠ [] := by
  obtain ⟨y, hy, he⟩ := List.mem_filterMap.1 hq
  rw [hp] at hy
  obtain ⟨ev, _, hy⟩ := List.mem_flatMap.1 hy
  have e : seeSign recorder (.event ev) ⟨p.spot, p.waiting, some []⟩ =
      Eye.tell (Option.map ([Sign.event ev] ++ ·)) ⟨p.spot, p.waiting, some []⟩ := rfl
  rw [e, seeReceive_tell (recorder_tell _)] at hy
  obtain ⟨z, _, rfl⟩ := List.mem_map.1 hy
  rcases z with ⟨g, n, w, _ | l⟩ | ⟨x, n, w, _ | l⟩ | _ | _ <;> cases he <;> exact nofun

/-- In the middle of a call the next step is observed or one more round of anonymous rows. -/
theorem foresee_rounds (hd : M.deferring = false) {p q : Prospect} (h : M.OnCourse p) {f : Bool}
    (hp : p.stage = .rounds f) (hq : q ∈ M.foresee p) :
    q.signs ≠ [] ∨ q.stage = .rounds f ∧ .ok true q.spot ∈ M.next true p.spot := by
  obtain ⟨y, hy, he⟩ := List.mem_filterMap.1 hq
  have h2 := seeNext_spotted hd p.stage (h.trim _) y hy
  rw [hp] at hy h2
  rcases mem_branch.1 hy with ⟨b, z, h1, h3⟩ | ⟨e, z, h1, rfl⟩ | ⟨u, h1, rfl⟩ | ⟨h1, rfl⟩
  · have hz : M.Trim z := seeRound_trim hd _ _ (h.trim _) _ h1
    cases b with
    | true =>
      rw [if_pos rfl] at h3
      cases List.mem_singleton.1 h3
      obtain ⟨n, w, _ | l⟩ := z
      · cases he
      · cases he; exact Or.inr ⟨rfl, h2⟩
    | false =>
      rw [if_neg (by decide), seeReplay_trimmed hz, ite_self] at h3
      cases List.mem_singleton.1 h3
      obtain ⟨n, w, _ | l⟩ := z
      · cases he
      · cases he; exact Or.inl (by simp)
  · obtain ⟨n, w, _ | l⟩ := z
    · cases he
    · cases he; exact Or.inl (by simp)
  · cases he
  · cases he

theorem lookAhead_rounds (hd : M.deferring = false) : ∀ {k : Nat} {p : Prospect}, M.OnCourse p → ∀ {f : Bool},
    p.stage = .rounds f → M.within k p.spot = true → ∀ q ∈ M.lookAhead k p, q.signs ≠ []
  | 0, _, _, _, _, hw => by cases hw
  | k + 1, p, h, f, hp, hw => by
    intro q hq
    rw [lookAhead] at hq
    split at hq
    · obtain ⟨p', h1, h2⟩ := List.mem_flatMap.1 hq
      rcases foresee_rounds hd h hp h1 with h3 | ⟨h3, h4⟩
      · rw [lookAhead_busy k h3] at h2
        rw [List.mem_singleton.1 h2]; exact h3
      · exact lookAhead_rounds hd (h.foresee hd h1) h3 (List.all_eq_true.1 hw _ h4) q h2
    · next hp' => rw [List.mem_singleton.1 hq]; exact hp'

theorem lookAhead_signs (hd : M.deferring = false) {k : Nat} (hw : ∀ n, M.Walk [] true n → M.within k n = true)
    {p : Prospect} (h : M.OnCourse p) : ∀ q ∈ M.lookAhead (k + 1) p, q.signs ≠ [] := by
  cases hp : p.stage with
  | rounds f =>
    have := h.walk
    rw [hp] at this
    exact lookAhead_rounds hd h hp (within_mono (Nat.le_succ k) (hw _ this))
  | idle =>
    intro q hq
    rw [lookAhead] at hq
    split at hq
    · obtain ⟨p', h1, h2⟩ := List.mem_flatMap.1 hq
      have h3 := foresee_idle hp h1
      rw [lookAhead_busy k h3] at h2
      rw [List.mem_singleton.1 h2]; exact h3
    · next hp' => rw [List.mem_singleton.1 hq]; exact hp'

/-- One of finitely many prospects: the first one, or what is left of a step. -/
def Charted (M : Machine) (p : Prospect) : Prop :=
  p = ⟨[], .idle, M.start, []⟩ ∨
    ∃ (g : Stage) (n : Spot), M.Neat [] n ∧ ∃ q ∈ M.foresee ⟨[], g, n, []⟩, ∃ l ∈ q.signs.tails, p = { q with signs := l }

theorem charted_finite : {p | M.Charted p}.Finite := by
  have hG : (Set.univ : Set Stage).Finite :=
    (Set.toFinite {Stage.idle, .rounds true, .rounds false}).subset fun g _ => by
      rcases g with _ | _ | _ <;> simp
  refine ((Set.finite_singleton (⟨[], .idle, M.start, []⟩ : Prospect)).union
    (hG.biUnion fun g _ => (neat_finite (M := M) (A := [])).biUnion fun n _ =>
      (M.foresee ⟨[], g, n, []⟩).finite_toSet.biUnion fun q _ =>
        q.signs.tails.finite_toSet.image fun l => { q with signs := l })).subset ?_
  rintro p (rfl | ⟨g, n, hn, q, hq, l, hl, rfl⟩)
  · exact Or.inl rfl
  · refine Or.inr (Set.mem_biUnion (x := g) trivial (Set.mem_biUnion (x := n) hn
      (Set.mem_biUnion (x := q) hq ⟨l, hl, rfl⟩)))

theorem Charted.lookAhead (hd : M.deferring = false) : ∀ (k : Nat) {p q : Prospect}, M.OnCourse p → M.Charted p →
    q ∈ M.lookAhead k p → M.OnCourse q ∧ M.Charted q
  | 0, p, q, h, hc, hq => List.mem_singleton.1 hq ▸ ⟨h, hc⟩
  | k + 1, p, q, h, hc, hq => by
    rw [Machine.lookAhead] at hq
    split at hq
    · obtain ⟨p', h1, h2⟩ := List.mem_flatMap.1 hq
      refine Charted.lookAhead hd k (h.foresee hd h1) (Or.inr ⟨p.stage, p.spot, h.neat, p', ?_, p'.signs, ?_, rfl⟩) h2
      · have : M.foresee ⟨[], p.stage, p.spot, []⟩ = M.foresee p := by
          unfold Machine.foresee
          rw [h.waiting]
        rw [this]; exact h1
      · exact (List.mem_tails _ _).2 (List.suffix_refl _)
    · exact List.mem_singleton.1 hq ▸ ⟨h, hc⟩

theorem Charted.tail {p : Prospect} (h : M.Charted p) {s : Sign} {l : List Sign} (hp : p.signs = s :: l) :
    M.Charted { p with signs := l } := by
  rcases h with rfl | ⟨g, n, hn, q, hq, l', hl, rfl⟩
  · cases hp
  · refine Or.inr ⟨g, n, hn, q, hq, l, ?_, rfl⟩
    rw [List.mem_tails] at hl ⊢
    exact (List.suffix_cons s l).trans (hp ▸ hl)

/-- The shadow has not lost track. -/
def OnTrack (M : Machine) (q : Option (Option (List Prospect))) : Prop :=
  q = none ∨ ∃ ps, q = some (some ps) ∧ ps.Nodup ∧ ∀ p ∈ ps, M.OnCourse p ∧ M.Charted p

theorem onTrack_finite : {q | M.OnTrack q}.Finite := by
  have hl : {ps : List Prospect | ps.Nodup ∧ ∀ p ∈ ps, M.Charted p}.Finite := by
    refine ((Set.finite_le_nat (charted_finite (M := M)).toFinset.card).biUnion fun j _ =>
      finite_lists (charted_finite (M := M)) j).subset ?_
    rintro ps ⟨hn, hp⟩
    refine Set.mem_biUnion (x := ps.length) ?_ ⟨rfl, hp⟩
    show ps.length ≤ _
    rw [← List.toFinset_card_of_nodup hn]
    refine Finset.card_le_card fun p h => ?_
    rw [Set.Finite.mem_toFinset]
    exact hp p (List.mem_toFinset.1 h)
  refine ((Set.finite_singleton none).union (hl.image fun ps => some (some ps))).subset ?_
  rintro q (rfl | ⟨ps, rfl, hn, hp⟩)
  · exact Or.inl rfl
  · exact Or.inr ⟨ps, ⟨hn, fun p h => (hp p h).2⟩, rfl⟩

theorem OnTrack.start {v v' : StTy → StTy} {k : Nat} : M.OnTrack (some (M.shadow v' v k).init) := by
  refine Or.inr ⟨_, rfl, List.nodup_singleton _, fun p hp => ?_⟩
  rw [List.mem_singleton.1 hp]
  exact ⟨⟨start_neat, rfl, .start⟩, Or.inl rfl⟩

theorem OnTrack.hear (hd : M.deferring = false) {v v' : StTy → StTy} {k : Nat}
    (hw : ∀ n, M.Walk [] true n → M.within k n = true) {q : Option (Option (List Prospect))} (s : Sign)
    (h : M.OnTrack q) : M.OnTrack ((M.shadow v' v (k + 1)).hear q s) := by
  rcases h with rfl | ⟨ps, rfl, -, hp⟩
  · exact Or.inl rfl
  have ha : ((ps.flatMap (M.lookAhead (k + 1))).all fun p => decide (p.signs ≠ [])) = true := by
    refine List.all_eq_true.2 fun q hq => decide_eq_true ?_
    obtain ⟨p, h1, h2⟩ := List.mem_flatMap.1 hq
    exact lookAhead_signs hd hw (hp p h1).1 q h2
  have e : M.pursue v' (k + 1) ps (s.seen v) = some
      ((ps.flatMap (M.lookAhead (k + 1))).filterMap (Prospect.after v' (s.seen v))).eraseDups := if_pos ha
  have key : ∀ qs, M.pursue v' (k + 1) ps (s.seen v) = some qs →
      qs.Nodup ∧ ∀ p ∈ qs, M.OnCourse p ∧ M.Charted p := by
    intro qs hqs
    rw [e] at hqs
    injection hqs with hqs
    subst hqs
    refine ⟨by rw [← uniq_eq_eraseDups]; exact nodup_uniq _, fun p h => ?_⟩
    obtain ⟨q, h1, h2⟩ := List.mem_filterMap.1 (List.mem_eraseDups.1 h)
    obtain ⟨p0, h3, h4⟩ := List.mem_flatMap.1 h1
    obtain ⟨h5, h6⟩ := Charted.lookAhead hd _ (hp p0 h3).1 (hp p0 h3).2 h4
    unfold Prospect.after at h2
    split at h2
    · cases h2
    · next hs =>
      split at h2
      · cases h2; exact ⟨⟨h5.neat, h5.waiting, h5.walk⟩, h6.tail hs⟩
      · cases h2
  show M.OnTrack ((M.shadow v' v (k + 1)).step (some ps) s)
  unfold shadow
  dsimp only
  cases hq : M.pursue v' (k + 1) ps (s.seen v) with
  | none => rw [e] at hq; cases hq
  | some qs =>
    cases qs with
    | nil => exact Or.inl rfl
    | cons p qs => exact Or.inr ⟨_, rfl, key _ hq⟩

theorem Sees.onTrack (hd' : M'.deferring = false) {v v' : StTy → StTy} {k : Nat}
    (hw : ∀ n, M'.Walk [] true n → M'.within k n = true) {g : Stage} {x : Eye (Option (List Prospect))}
    (h : M.Sees (M'.shadow v' v (k + 1)) g x) : M'.OnTrack x.heard :=
  h.keeps (I := M'.OnTrack) .start (Or.inl rfl) fun _ s hq => hq.hear hd' hw s

end Machine

/-! ## The claims -/

variable {v v' : StTy → StTy} {k : Nat}

/-- Where the shadow is after what a client observed, the other machine may be. -/
theorem C87_shadow (hM' : M'.Regular)
    (hC' : M'.ScopesReal ∧ (M'.orthogonal = true → M'.declaredInitials M'.root ≠ [])) {d : Dep}
    {ss : List Sign} {s : SM P W} (h : Observed M sem d ss s) {ps : List Prospect}
    (hp : (M'.shadow v' v k).hearAll (some (M'.shadow v' v k).init) ss = some (some ps)) :
    ∃ ss' s', Observed M' script d ss' s' ∧ ss'.map (Sign.seen v') = ss.map (Sign.seen v) := by
  obtain ⟨hne, hps⟩ := Machine.Mays.start.hearAll hp
  obtain ⟨p, hp⟩ := List.exists_mem_of_ne_nil _ hne
  obtain ⟨a, ha, hm⟩ := hps p hp
  rw [List.nil_append] at ha
  obtain ⟨l, hl, hcut⟩ := Machine.Sees.heard hM' hC' hm d
  injection hl with hl
  obtain ⟨s', hs'⟩ := hcut a p.signs hl.symm (h.whole.of_seen ha)
  exact ⟨a, s', hs', ha⟩

/-- C87: if a list leaves out nothing and the shadow is somewhere at each entry, then whatever some client
of the first machine observes, some client of the second observes. -/
theorem C87_refines (hM : M.Regular) (hM' : M'.Regular)
    (hC' : M'.ScopesReal ∧ (M'.orthogonal = true → M'.declaredInitials M'.root ≠ []))
    {S : List (Stage × Eye (Option (List Prospect)))} (hS : M.seesAll (M'.shadow v' v k) S = true)
    (hk : shadowed S = true) : Refines M M' v v' := by
  intro P W sem d ss s h
  obtain ⟨c, x, _, _, _, hs, _, _, hh⟩ := h.sees (mon := M'.shadow v' v k) hM
  have := List.all_eq_true.1 hk _ (Machine.seesAll_sees hS hs)
  dsimp only at this
  rw [hh] at this
  split at this
  · next hq =>
    obtain ⟨ss', s', h1, h2⟩ := C87_shadow hM' hC' h hq
    exact ⟨_, _, _, ss', s', h1, h2⟩
  · cases this
  · next hq => cases hq

/-- C87: if the shadow breaks off, no client of the other machine observes anything that looks the same. -/
theorem C87_nowhere (hM' : M'.Regular) {ss : List Sign}
    (hn : (M'.shadow v' v k).hearAll (some (M'.shadow v' v k).init) ss = none) {d : Dep} {ss' : List Sign}
    {s' : SM P W} (h : Observed M' sem d ss' s') : ss'.map (Sign.seen v') ≠ ss.map (Sign.seen v) := by
  intro he
  obtain ⟨ops, hr⟩ := h.runs
  have hC' : M'.ScopesReal ∧ (M'.orthogonal = true → M'.declaredInitials M'.root ≠ []) := by
    clear he hr
    induction h with
    | @init w s h => exact (C06_construct hM' d w).1.1 ⟨s, h⟩
    | ok _ _ _ ih => exact ih
    | throw _ _ _ ih => exact ih
    | world _ _ ih => exact ih
  obtain ⟨c, x, _, _, _, hs, _, _, hh⟩ := h.sees (mon := recorder) hM'
  obtain ⟨l, hl, hk⟩ := hs.kept (v := v') (k := k) hM' hC'
  have : recorder.hearAll (some recorder.init) ss' = some ss' := recorder_hearAll [] ss'
  rw [this] at hh
  rw [hh] at hl
  injection hl with hl
  subst hl
  rw [Machine.shadow_seenAll] at hn
  unfold Machine.Kept at hk
  rw [he] at hk
  have e : (some (M'.shadow v' v k).init) = some (M'.shadow v' id k).init := rfl
  rw [e] at hn
  rw [hn] at hk
  rcases hk with hk | ⟨_, hk, _⟩ <;> cases hk

/-- C87: if a list that `watch` computes has an entry where the shadow is nowhere, then some client of the
first machine observes what no client of the second does. -/
theorem C87_apart (hM : M.Regular) (hM' : M'.Regular)
    (hC : M.ScopesReal ∧ (M.orthogonal = true → M.declaredInitials M.root ≠ []))
    {n : Nat} (hk : keepsRules (M.watch (M'.shadow v' v k) n) = false) (d : Dep) :
    ∃ ss s, Observed M script d ss s ∧ ∀ (P' W' : Type) (sem' : Sem P' W') (d' : Dep) (ss' : List Sign)
      (s' : SM P' W'), Observed M' sem' d' ss' s' → ss'.map (Sign.seen v') ≠ ss.map (Sign.seen v) := by
  obtain ⟨ss, s, h, hn⟩ := C86_broken hM hC hk d
  refine ⟨ss, s, h, fun P' W' sem' d' ss' s' h' => C87_nowhere (k := k) hM' ?_ h'⟩
  unfold Monitor.Keeps at hn
  exact not_not.1 hn

/-- C87: a list that `watch` computes, that leaves out nothing and at which the shadow never lost track
decides whether all that clients of the first machine observe is observed by clients of the second. -/
theorem C87_decides (hM : M.Regular) (hM' : M'.Regular)
    (hC : M.ScopesReal ∧ (M.orthogonal = true → M.declaredInitials M.root ≠ []))
    (hC' : M'.ScopesReal ∧ (M'.orthogonal = true → M'.declaredInitials M'.root ≠ []))
    {n : Nat} (hS : M.seesAll (M'.shadow v' v k) (M.watch (M'.shadow v' v k) n) = true)
    (hf : followed (M.watch (M'.shadow v' v k) n) = true) :
    shadowed (M.watch (M'.shadow v' v k) n) = true ↔ Refines M M' v v' := by
  refine ⟨C87_refines hM hM' hC' hS, fun h => ?_⟩
  cases hk : keepsRules (M.watch (M'.shadow v' v k) n) with
  | false =>
    obtain ⟨ss, s, h1, h2⟩ := C87_apart hM hM' hC hk 0
    obtain ⟨P', W', sem', ss', s', h3, h4⟩ := h _ _ _ _ _ _ h1
    exact (h2 _ _ _ _ _ _ h3 h4).elim
  | true =>
    refine List.all_eq_true.2 fun y hy => ?_
    have h1 := List.all_eq_true.1 hk y hy
    have h2 := List.all_eq_true.1 hf y hy
    obtain ⟨g, x⟩ := y
    dsimp only at h1 h2 ⊢
    cases g with
    | rounds _ => rfl
    | idle =>
      rcases hx : x.heard with _ | _ | ps
      · rw [hx] at h1; cases h1
      · rw [hx] at h2; cases h2
      · rfl

/-- C87: if nothing is deferred and the second machine cannot go on with anonymous rows for ever, then
computing long enough gives such a list. -/
theorem C87_found (hd : M.deferring = false) (hd' : M'.deferring = false)
    (hw : ∀ n, M'.Walk [] true n → M'.within k n = true) (v v' : StTy → StTy) :
    ∃ n, M.seesAll (M'.shadow v' v (k + 1)) (M.watch (M'.shadow v' v (k + 1)) n) = true ∧
      followed (M.watch (M'.shadow v' v (k + 1)) n) = true := by
  obtain ⟨n, hn⟩ := Machine.watch_ends_of (mon := M'.shadow v' v (k + 1)) (Machine.onTrack_finite (M := M'))
    (fun g x h => Machine.Sees.onTrack hd' hw h) hd
  refine ⟨n, hn, List.all_eq_true.2 fun s hs => ?_⟩
  have := Machine.Sees.onTrack hd' hw (Machine.watch_sees n (g := s.1) (x := s.2) hs)
  split
  · next h =>
    rw [h] at this
    rcases this with this | ⟨_, this, _⟩ <;> cases this
  · rfl

/-- C87: for such machines the procedure finds out, one way or the other. -/
theorem C87_either (hM : M.Regular) (hM' : M'.Regular)
    (hC : M.ScopesReal ∧ (M.orthogonal = true → M.declaredInitials M.root ≠ []))
    (hC' : M'.ScopesReal ∧ (M'.orthogonal = true → M'.declaredInitials M'.root ≠ []))
    (hd : M.deferring = false) (hd' : M'.deferring = false)
    (hw : ∀ n, M'.Walk [] true n → M'.within k n = true) (v v' : StTy → StTy) :
    ∃ n, M.seesAll (M'.shadow v' v (k + 1)) (M.watch (M'.shadow v' v (k + 1)) n) = true ∧
      (shadowed (M.watch (M'.shadow v' v (k + 1)) n) = true ↔ Refines M M' v v') := by
  obtain ⟨n, h1, h2⟩ := C87_found hd hd' hw v v'
  exact ⟨n, h1, C87_decides hM hM' hC hC' h1 h2⟩

/-! ## Examples -/

namespace Ex

theorem lamp_scoped : lamp.Scoped := Machine.scoped_of_check (by decide +kernel)

theorem lamp_builds : lamp.ScopesReal ∧ (lamp.orthogonal = true → lamp.declaredInitials lamp.root ≠ []) :=
  ⟨(Machine.scopesReal_iff lamp_regular).2 ⟨lamp_scoped.src, lamp_scoped.comp⟩,
    fun h => absurd h (by decide +kernel)⟩

theorem lampFlat_builds :
    lampFlat.ScopesReal ∧ (lampFlat.orthogonal = true → lampFlat.declaredInitials lampFlat.root ≠ []) :=
  ⟨(Machine.scopesReal_iff lampFlat_regular).2 ⟨lampFlat_scoped.src, lampFlat_scoped.comp⟩,
    fun h => absurd h (by decide +kernel)⟩

/-- To whoever does not look at the states, the nested lamp is like the flat one. -/
example : Refines lamp lampFlat blind blind :=
  C87_refines lamp_regular lampFlat_regular lampFlat_builds (k := 1)
    (S := lamp.watch (lampFlat.shadow blind blind 1) 4) (by decide +kernel) (by decide +kernel)

example : Refines lampFlat lamp blind blind :=
  C87_refines lampFlat_regular lamp_regular lamp_builds (k := 1)
    (S := lampFlat.watch (lamp.shadow blind blind 1) 4) (by decide +kernel) (by decide +kernel)

/-- Whoever looks at the states can tell. -/
example : ¬ Refines lamp lampFlat id id := fun h => by
  obtain ⟨ss, s, h1, h2⟩ := C87_apart (v := id) (v' := id) (k := 1) (n := 2) lamp_regular lampFlat_regular
    lamp_builds (by decide +kernel) 0
  obtain ⟨P', W', sem', ss', s', h3, h4⟩ := h _ _ _ _ _ _ h1
  exact h2 _ _ _ _ _ _ h3 h4

/-- Two states in turn, a third is never reached. -/
def shuttle : Machine := .ofList
  [ { table := some [ row (ini 1) (ev 0) none none (.st 2), row (.st 3) .none none none (.st 2),
        row (.st 2) (ev 0) none (some 2) (.st 1) ] },
    {}, {}, {} ] [1]

/-- The same with the third as a stop on the way that an anonymous row leaves at once. -/
def shuttleVia : Machine := .ofList
  [ { table := some [ row (ini 1) (ev 0) none none (.st 3), row (.st 3) .none none none (.st 2),
        row (.st 2) (ev 0) none (some 2) (.st 1) ] },
    {}, {}, {} ] [1]

theorem shuttle_regular : shuttle.Regular := Machine.regular_ofList (by decide +kernel)
theorem shuttleVia_regular : shuttleVia.Regular := Machine.regular_ofList (by decide +kernel)
theorem shuttle_scoped : shuttle.Scoped := Machine.scoped_of_check (by decide +kernel)
theorem shuttleVia_scoped : shuttleVia.Scoped := Machine.scoped_of_check (by decide +kernel)

theorem shuttle_builds : shuttle.ScopesReal ∧ (shuttle.orthogonal = true → shuttle.declaredInitials shuttle.root ≠ []) :=
  ⟨(Machine.scopesReal_iff shuttle_regular).2 ⟨shuttle_scoped.src, shuttle_scoped.comp⟩,
    fun h => absurd h (by decide +kernel)⟩

theorem shuttleVia_builds :
    shuttleVia.ScopesReal ∧ (shuttleVia.orthogonal = true → shuttleVia.declaredInitials shuttleVia.root ≠ []) :=
  ⟨(Machine.scopesReal_iff shuttleVia_regular).2 ⟨shuttleVia_scoped.src, shuttleVia_scoped.comp⟩,
    fun h => absurd h (by decide +kernel)⟩

/-- Comparing step by step does not work: the stop takes a step more. -/
example : shuttle.same shuttleVia blind blind (shuttle.pairUp shuttleVia 4) = false := by decide +kernel

/-- Comparing what is observed does. -/
example : Refines shuttle shuttleVia blind blind ∧ Refines shuttleVia shuttle blind blind :=
  ⟨C87_refines shuttle_regular shuttleVia_regular shuttleVia_builds (k := 3)
      (S := shuttle.watch (shuttleVia.shadow blind blind 3) 4) (by decide +kernel) (by decide +kernel),
    C87_refines shuttleVia_regular shuttle_regular shuttle_builds (k := 3)
      (S := shuttleVia.watch (shuttle.shadow blind blind 3) 6) (by decide +kernel) (by decide +kernel)⟩

/-- The stop shows if the action of the first row can throw: the state is then entered already, and the
machine stays at the stop. -/
def shuttleLoud : Machine := .ofList
  [ { table := some [ row (ini 1) (ev 0) none (some 1) (.st 2), row (.st 2) (ev 0) none (some 2) (.st 1) ] },
    {}, {} ] [1]

def shuttleLoudVia : Machine := .ofList
  [ { table := some [ row (ini 1) (ev 0) none (some 1) (.st 3), row (.st 3) .none none none (.st 2),
        row (.st 2) (ev 0) none (some 2) (.st 1) ] },
    {}, {}, {} ] [1]

theorem shuttleLoud_regular : shuttleLoud.Regular := Machine.regular_ofList (by decide +kernel)
theorem shuttleLoudVia_regular : shuttleLoudVia.Regular := Machine.regular_ofList (by decide +kernel)
theorem shuttleLoud_scoped : shuttleLoud.Scoped := Machine.scoped_of_check (by decide +kernel)

example : ¬ Refines shuttleLoud shuttleLoudVia blind blind := fun h => by
  obtain ⟨ss, s, h1, h2⟩ := C87_apart (v := blind) (v' := blind) (k := 3) (n := 3) shuttleLoud_regular
    shuttleLoudVia_regular ⟨(Machine.scopesReal_iff shuttleLoud_regular).2
      ⟨shuttleLoud_scoped.src, shuttleLoud_scoped.comp⟩, fun h => absurd h (by decide +kernel)⟩ (by decide +kernel) 0
  obtain ⟨P', W', sem', ss', s', h3, h4⟩ := h _ _ _ _ _ _ h1
  exact h2 _ _ _ _ _ _ h3 h4

/-- Nothing is deferred, and no two anonymous rows follow each other. -/
example : ∃ n, shuttle.seesAll (shuttleVia.shadow blind blind 3) (shuttle.watch (shuttleVia.shadow blind blind 3) n) = true ∧
    (shadowed (shuttle.watch (shuttleVia.shadow blind blind 3) n) = true ↔ Refines shuttle shuttleVia blind blind) :=
  C87_either shuttle_regular shuttleVia_regular shuttle_builds shuttleVia_builds (by decide +kernel) (by decide +kernel)
    (Machine.within_of_calm (S := shuttleVia.explore [] 6) (k := 2) (by decide +kernel) (by decide +kernel) (Nat.le_refl 2))
    blind blind

end Ex

end Hsm

import Verif.ShadowGen
import Verif.PropsShadow
import Verif.PropsMonitorGen
import Verif.Headers

/-!
# C105: whether a client can tell which header it includes can be decided
-/

namespace Hsm

variable {P W Q Q' : Type} {M M' : Machine} {sem : Sem P W}

/-! ## Monitors that hear the same -/

namespace Machine

section
variable {mon : Monitor Q} {mon' : Monitor Q'} {f : Option Q → Option Q'}
  (hf : ∀ q s, mon'.hear (f q) s = f (mon.hear q s))

include hf

theorem seeVisitG_tell (anon : Bool) (r : Nat) (ev : EventTy) (x : Eye Q) :
    M.seeVisitG mon' anon r ev (x.tell f) = (M.seeVisitG mon anon r ev x).map (Res.view (Eye.tell f)) := by
  unfold seeVisitG
  show (match x.spot.slots[r]? with
    | none => _ | some none => _ | some (some l) => _) = _
  cases x.spot.slots[r]? with
  | none => rfl
  | some o =>
    cases o with
    | none => rfl
    | some l =>
      dsimp only
      split
      · split
        · rfl
        · exact seeAttempt_tell hf ..
      · rfl

theorem seeSweepG_tell (ev : EventTy) : ∀ (rs : List Nat) (os : List RegionOut) (x : Eye Q),
    M.seeSweepG mon' ev rs os (x.tell f) = (M.seeSweepG mon ev rs os x).map (Res.view (Eye.tell f))
  | [], os, x => rfl
  | r :: rs, os, x => by
    unfold seeSweepG
    rw [seeVisitG_tell hf]
    refine branch_view _ fun o x => ?_
    split
    · rfl
    · exact seeSweepG_tell ev rs _ x

theorem seeRoundG_tell : ∀ (rs : List Nat) (os : List RegionOut) (x : Eye Q),
    M.seeRoundG mon' rs os (x.tell f) = (M.seeRoundG mon rs os x).map (Res.view (Eye.tell f))
  | [], os, x => rfl
  | r :: rs, os, x => by
    unfold seeRoundG
    rw [seeVisitG_tell hf]
    refine branch_view _ fun o x => ?_
    split
    · rfl
    · exact seeRoundG_tell rs _ x

theorem seeReplayG_tell (x : Eye Q) :
    M.seeReplayG mon' (x.tell f) = (M.seeReplayG mon x).map (Res.view (Eye.tell f)) := by
  unfold seeReplayG
  show (match x.waiting with | [] => _ | ev :: q => _) = _
  cases x.waiting with
  | nil => exact seeAnswer_tell hf ..
  | cons ev q =>
    dsimp only
    split
    · have := M.seeSweepG_tell hf ev (M.involved x.spot) [] { x with waiting := q }
      show branch (M.seeSweepG mon' ev (M.involved x.spot) [] (Eye.tell f { x with waiting := q })) _ = _
      rw [this]
      refine branch_view _ fun os x => ?_
      split
      · rfl
      · exact seeAnswer_tell hf ..
    · exact seeAnswer_tell hf ..

theorem seeReceiveG_tell (ev : EventTy) (x : Eye Q) :
    M.seeReceiveG mon' ev (x.tell f) = (M.seeReceiveG mon ev x).map (Res.view (Eye.tell f)) := by
  unfold seeReceiveG
  rw [show (x.tell f).spot = x.spot from rfl, seeSweepG_tell hf]
  refine branch_view _ fun os x => ?_
  split
  · rfl
  split
  · rw [seeComplain_tell hf]
    exact branch_view _ fun _ x => seeAnswer_tell hf ..
  · exact seeReplayG_tell hf x

theorem seeNextG_tell (g : Stage) (x : Eye Q) :
    M.seeNextG mon' g (x.tell f) = (M.seeNextG mon g x).map (Res.view (Eye.tell f)) := by
  cases g with
  | idle =>
    unfold seeNextG
    dsimp only
    rw [List.map_flatMap]
    congr 1
    funext ev
    rw [seeSign_tell hf, seeReceiveG_tell hf]
  | rounds first =>
    unfold seeNextG
    dsimp only
    rw [show (x.tell f).spot = x.spot from rfl, seeRoundG_tell hf]
    refine branch_view _ fun b x => ?_
    split
    · rfl
    split
    · exact seeReplayG_tell hf x
    · exact seeAnswer_tell hf ..

/-- What may happen does not depend on who listens. -/
theorem seeNextIn_tell (h : Header) (g : Stage) (x : Eye Q) :
    M.seeNextIn h mon' g (x.tell f) = (M.seeNextIn h mon g x).map (Res.view (Eye.tell f)) := by
  cases h with
  | modular => exact seeNext_tell hf g x
  | amalgamated => exact seeNextG_tell hf g x

end

/-- What may be the case while some client uses the machine. -/
def SeesIn (h : Header) (M : Machine) (mon : Monitor Q) (g : Stage) (x : Eye Q) : Prop :=
  match h with
  | .modular => M.Sees mon g x
  | .amalgamated => M.SeesG mon g x

theorem SeesIn.induct {h : Header} {mon : Monitor Q} {C : Stage → Eye Q → Prop} (h0 : C .idle (M.seeStart mon))
    (hok : ∀ {g g' : Stage} {x x' : Eye Q}, M.SeesIn h mon g x → C g x → .ok g' x' ∈ M.seeNextIn h mon g x →
      M.SeesIn h mon g' x' → C g' x')
    (hthrow : ∀ {g : Stage} {x x' : Eye Q} {e : Exn}, M.SeesIn h mon g x → C g x →
      .throw e x' ∈ M.seeNextIn h mon g x → M.SeesIn h mon .idle (seeSign mon .exception x') →
      C .idle (seeSign mon .exception x'))
    {g : Stage} {x : Eye Q} (hs : M.SeesIn h mon g x) : C g x := by
  cases h with
  | modular =>
    replace hs : M.Sees mon g x := hs
    induction hs with
    | start => exact h0
    | ok h hn ih => exact hok h ih hn (h.ok hn)
    | throw h hn ih => exact hthrow h ih hn (h.throw hn)
  | amalgamated =>
    replace hs : M.SeesG mon g x := hs
    induction hs with
    | start => exact h0
    | ok h hn ih => exact hok h ih hn (h.ok hn)
    | throw h hn ih => exact hthrow h ih hn (h.throw hn)

theorem SeesIn.start {h : Header} {mon : Monitor Q} : M.SeesIn h mon .idle (M.seeStart mon) := by
  cases h
  · exact Sees.start
  · exact SeesG.start

theorem SeesIn.ok {h : Header} {mon : Monitor Q} {g g' : Stage} {x x' : Eye Q} (hs : M.SeesIn h mon g x)
    (hn : .ok g' x' ∈ M.seeNextIn h mon g x) : M.SeesIn h mon g' x' := by
  cases h
  · exact Sees.ok hs hn
  · exact SeesG.ok hs hn

theorem SeesIn.throw {h : Header} {mon : Monitor Q} {g : Stage} {x x' : Eye Q} {e : Exn} (hs : M.SeesIn h mon g x)
    (hn : .throw e x' ∈ M.seeNextIn h mon g x) : M.SeesIn h mon .idle (seeSign mon .exception x') := by
  cases h
  · exact Sees.throw hs hn
  · exact SeesG.throw hs hn

/-- What the headers ask of a program. -/
def RegularIn (h : Header) (M : Machine) : Prop :=
  match h with
  | .modular => M.Regular
  | .amalgamated => M.RegularG

/-- The constructor succeeds. -/
def BuildsIn (h : Header) (M : Machine) : Prop :=
  (match h with
    | .modular => M.ScopesReal
    | .amalgamated => M.ScopesRealG) ∧ (M.orthogonal = true → M.declaredInitials M.root ≠ [])

/-- In the middle of a call at most `k` rounds of anonymous rows follow. -/
def CalmIn (h : Header) (M : Machine) (k : Nat) : Prop :=
  match h with
  | .modular => ∀ n, M.Walk [] true n → M.within k n = true
  | .amalgamated => ∀ n, M.WalkG true n → M.withinG k n = true

end Machine

/-! ## Observations -/

theorem ObservedG.cut {d : Dep} {l : List Sign} {s : SM P W} (h : ObservedG M sem d l s) :
    ∀ {a b : List Sign}, l = a ++ b → Whole a → ∃ s', ObservedG M sem d a s' := by
  have call : ∀ {ss a b : List Sign} {s s' : SM P W} {ev : EventTy} {last : Sign},
      (∀ {a b : List Sign}, ss = a ++ b → Whole a → ∃ s', ObservedG M sem d a s') →
      ObservedG M sem d (ss ++ .event ev :: callsSince s s' ++ [last]) s' →
      ss ++ .event ev :: callsSince s s' ++ [last] = a ++ b → Whole a → ∃ s', ObservedG M sem d a s' := by
    intro ss a b s s' ev last ih ho he ha
    rcases List.eq_nil_or_concat b with rfl | ⟨t, z, rfl⟩
    · rw [List.append_nil] at he
      exact ⟨_, he ▸ ho⟩
    · rw [List.concat_eq_append, ← List.append_assoc] at he
      obtain ⟨c, hc⟩ := cut_call (callsSince_final s s') (List.append_inj' he rfl).1 ha
      exact ih hc ha
  induction h with
  | init h =>
    intro a b he _
    have : a = [] := (List.append_eq_nil_iff.1 he.symm).1
    rw [this]
    exact ⟨_, .init h⟩
  | ok hr hop h ih => intro a b he ha; exact call (fun he ha => ih he ha) (.ok hr hop h) he ha
  | throw hr hop h ih => intro a b he ha; exact call (fun he ha => ih he ha) (.throw hr hop h) he ha
  | world _ _ ih => intro a b he ha; exact ih he ha

theorem ObservedG.whole {d : Dep} {ss : List Sign} {s : SM P W} (h : ObservedG M sem d ss s) : Whole ss := by
  induction h with
  | init _ => exact Or.inl rfl
  | ok _ _ _ => exact Or.inr ⟨_, _, rfl, rfl⟩
  | throw _ _ _ => exact Or.inr ⟨_, _, rfl, rfl⟩
  | world _ _ ih => exact ih

theorem ObservedIn.whole {h : Header} {d : Dep} {ss : List Sign} {s : SM P W}
    (ho : ObservedIn h M sem d ss s) : Whole ss := by
  cases h
  · exact Observed.whole ho
  · exact ObservedG.whole ho

theorem ObservedIn.builds {h : Header} (hM : M.RegularIn h) {d : Dep} {ss : List Sign} {s : SM P W}
    (ho : ObservedIn h M sem d ss s) : M.BuildsIn h := by
  cases h with
  | modular =>
    replace ho : Observed M sem d ss s := ho
    induction ho with
    | @init w s h => exact (C06_construct hM d w).1.1 ⟨s, h⟩
    | ok _ _ _ ih => exact ih
    | throw _ _ _ ih => exact ih
    | world _ _ ih => exact ih
  | amalgamated =>
    replace ho : ObservedG M sem d ss s := ho
    induction ho with
    | @init w s h => exact (C82_construct hM d w).1.1 ⟨s, h⟩
    | ok _ _ _ ih => exact ih
    | throw _ _ _ ih => exact ih
    | world _ _ ih => exact ih

theorem ObservedIn.sees {h : Header} (hM : M.RegularIn h) {mon : Monitor Q} {d : Dep} {ss : List Sign}
    {s : SM P W} (ho : ObservedIn h M sem d ss s) :
    ∃ x, M.SeesIn h mon .idle x ∧ x.heard = mon.hearAll (some mon.init) ss := by
  cases h with
  | modular =>
    obtain ⟨c, x, _, _, _, hs, _, _, hh⟩ := Observed.sees (mon := mon) hM ho
    exact ⟨x, hs, hh⟩
  | amalgamated =>
    obtain ⟨c, x, _, _, _, hs, _, _, hh⟩ := ObservedG.sees (mon := mon) hM ho
    exact ⟨x, hs, hh⟩

theorem Sign.final_look (v : StTy → StTy) (s : Sign) : (s.look v).final = s.final := by cases s <;> rfl

theorem Whole.of_look {v v' : StTy → StTy} {a b : List Sign} (h : Whole b)
    (e : a.map (Sign.look v') = b.map (Sign.look v)) : Whole a := by
  rcases h with rfl | ⟨t, s, rfl, hs⟩
  · exact Or.inl (List.map_eq_nil_iff.1 e)
  · rcases List.eq_nil_or_concat a with rfl | ⟨t', s', rfl⟩
    · exact Or.inl rfl
    · refine Or.inr ⟨t', s', List.concat_eq_append, ?_⟩
      rw [List.concat_eq_append, List.map_append, List.map_append] at e
      have := (List.append_inj' e rfl).2
      simp only [List.map_cons, List.map_nil, List.cons.injEq, and_true] at this
      rw [← Sign.final_look v', this, Sign.final_look, hs]

/-- What may be the case was heard. -/
theorem Machine.SeesG.heard (hM : M.RegularG)
    (hC : M.ScopesRealG ∧ (M.orthogonal = true → M.declaredInitials M.root ≠ [])) {g : Stage}
    {x : Eye (List Sign)} (h : M.SeesG recorder g x) (d : Dep) : ∃ l, x.heard = some l ∧
      ∀ a b, l = a ++ b → Whole a → ∃ s, ObservedG M script d a s := by
  have hg := h.getsTo (T := listed) (δ := d) hM [] hC
  cases g with
  | idle =>
    obtain ⟨ss, s, c, hs⟩ := hg
    refine ⟨ss, by rw [hs.heard]; exact recorder_hearAll [] ss, fun a b he ha => hs.observed.cut he ha⟩
  | rounds first =>
    obtain ⟨ss, s, c, x0, ev, v, k, j, hs, hev, hx⟩ := hg
    obtain ⟨c', hv, _⟩ := hx [] 0
    obtain ⟨l, _, hl⟩ := hv.heard
    refine ⟨ss ++ .event ev :: signs l, ?_, fun a b he ha => ?_⟩
    · rw [hl, hs.heard]
      have : recorder.hearAll (some recorder.init) ss = some ss := recorder_hearAll [] ss
      rw [this]
      show recorder.hearAll (some (ss ++ [.event ev])) (signs l) = _
      rw [recorder_hearAll, List.append_assoc]
      rfl
    · obtain ⟨c, hc⟩ := cut_call (signs_final l) he ha
      exact hs.observed.cut hc ha

theorem Machine.SeesIn.heard {h : Header} (hM : M.RegularIn h) (hC : M.BuildsIn h) {g : Stage}
    {x : Eye (List Sign)} (hs : M.SeesIn h recorder g x) (d : Dep) : ∃ l, x.heard = some l ∧
      ∀ a b, l = a ++ b → Whole a → ∃ s, ObservedIn h M script d a s := by
  cases h with
  | modular => exact Sees.heard hM hC hs d
  | amalgamated => exact SeesG.heard hM hC hs d

/-! ## Trails -/

section
variable {F : Prospect → List Prospect} {n0 : Spot} {v v' : StTy → StTy} {k : Nat}

/-- What is observed on the way to a prospect. -/
inductive Trail (F : Prospect → List Prospect) (n0 : Spot) : List Sign → Prospect → Prop
  | start : Trail F n0 [] ⟨[], .idle, n0, []⟩
  | step {l : List Sign} {p q : Prospect} (h : Trail F n0 l p) (hq : q ∈ F p) :
      Trail F n0 (l ++ q.signs) { q with signs := [] }

theorem Trail.signs {l : List Sign} {p : Prospect} (h : Trail F n0 l p) : p.signs = [] := by
  cases h <;> rfl

/-- It may be that `a` was observed and what the prospect says is going on. -/
def MayBe (F : Prospect → List Prospect) (n0 : Spot) (a : List Sign) (p : Prospect) : Prop :=
  Trail F n0 (a ++ p.signs) { p with signs := [] }

theorem MayBe.foresee {a : List Sign} {p q : Prospect} (h : MayBe F n0 a p) (hp : p.signs = []) (hq : q ∈ F p) :
    MayBe F n0 a q := by
  obtain ⟨ss, g, n, w⟩ := p
  dsimp only at hp
  subst hp
  unfold MayBe at h ⊢
  dsimp only at h
  rw [List.append_nil] at h
  exact h.step hq

theorem MayBe.foretell {a : List Sign} : ∀ (k : Nat) {p q : Prospect}, MayBe F n0 a p → q ∈ foretell F k p →
    MayBe F n0 a q
  | 0, p, q, h, hq => List.mem_singleton.1 hq ▸ h
  | k + 1, p, q, h, hq => by
    rw [Hsm.foretell] at hq
    split at hq
    · next hp =>
      obtain ⟨p', h1, h2⟩ := List.mem_flatMap.1 hq
      exact (h.foresee hp h1).foretell k h2
    · exact List.mem_singleton.1 hq ▸ h

/-- All that may be going on after signs that look like `L`. -/
def MayBes (F : Prospect → List Prospect) (n0 : Spot) (v : StTy → StTy) (L : List Sign) (ps : List Prospect) : Prop :=
  ps ≠ [] ∧ ∀ p ∈ ps, ∃ a, a.map (Sign.look v) = L ∧ MayBe F n0 a p

theorem MayBes.hear {L : List Sign} {ps ps' : List Prospect} (h : MayBes F n0 v' L ps) {s : Sign}
    (hs : (tailing F n0 v' v k).hear (some (some ps)) s = some (some ps')) :
    MayBes F n0 v' (L ++ [s.look v]) ps' := by
  have hs : (tailing F n0 v' v k).step (some ps) s = some (some ps') := hs
  unfold tailing at hs
  dsimp only at hs
  split at hs
  · cases hs
  · cases hs
  · next p ps1 hp =>
    cases hs
    refine ⟨List.cons_ne_nil _ _, fun q hq => ?_⟩
    unfold chase at hp
    dsimp only at hp
    split at hp
    · injection hp with hp
      rw [← hp, List.mem_eraseDups, List.mem_filterMap] at hq
      obtain ⟨q0, h1, h2⟩ := hq
      obtain ⟨p0, h3, h4⟩ := List.mem_flatMap.1 h1
      obtain ⟨a, ha, hm⟩ := h.2 p0 h3
      have hm := hm.foretell k h4
      unfold Prospect.past at h2
      split at h2
      · cases h2
      · next t ts ht =>
        split at h2
        · next hts =>
          cases h2
          refine ⟨a ++ [t], by rw [List.map_append, ha]; simp [hts], ?_⟩
          unfold MayBe at hm ⊢
          rw [ht] at hm
          dsimp only
          rw [List.append_assoc]
          exact hm
        · cases h2
    · cases hp

theorem tailing_lost (ss : List Sign) : (tailing F n0 v' v k).hearAll (some none) ss = some none := by
  induction ss with
  | nil => rfl
  | cons s ss ih => exact ih

theorem MayBes.hearAll : ∀ {ss L : List Sign} {ps ps' : List Prospect}, MayBes F n0 v' L ps →
    (tailing F n0 v' v k).hearAll (some (some ps)) ss = some (some ps') →
    MayBes F n0 v' (L ++ ss.map (Sign.look v)) ps'
  | [], L, ps, ps', h, hs => by cases hs; simpa using h
  | s :: ss, L, ps, ps', h, hs => by
    have hs : (tailing F n0 v' v k).hearAll ((tailing F n0 v' v k).hear (some (some ps)) s) ss = some (some ps') := hs
    cases hq : (tailing F n0 v' v k).hear (some (some ps)) s with
    | none => rw [hq, Monitor.hearAll_none] at hs; cases hs
    | some q =>
      rw [hq] at hs
      cases q with
      | none => rw [tailing_lost] at hs; cases hs
      | some ps1 =>
        have := (h.hear hq).hearAll hs
        simpa using this

theorem MayBes.start : MayBes F n0 v' [] [⟨[], .idle, n0, []⟩] :=
  ⟨List.cons_ne_nil _ _, fun p hp => ⟨[], rfl, List.mem_singleton.1 hp ▸ .start⟩⟩

/-- A step without a sign, as far as the shadow has to know. -/
def Drifts (F : Prospect → List Prospect) (p q : Prospect) : Prop := p.signs = [] ∧ q ∈ F p

theorem foretell_busy : ∀ (k : Nat) {p : Prospect}, p.signs ≠ [] → foretell F k p = [p]
  | 0, _, _ => rfl
  | _ + 1, _, h => if_neg h

theorem foretell_drift {p q : Prospect} (h : Relation.ReflTransGen (Drifts F) p q) (hq : q.signs ≠ []) :
    ∀ k, (∀ p' ∈ foretell F k p, p'.signs ≠ []) → q ∈ foretell F k p := by
  induction h using Relation.ReflTransGen.head_induction_on with
  | refl => intro k _; rw [foretell_busy k hq]; exact List.mem_cons_self
  | @head p p1 h1 _ ih =>
    intro k hk
    cases k with
    | zero => exact absurd h1.1 (hk p List.mem_cons_self)
    | succ k =>
      rw [foretell, if_pos h1.1] at hk ⊢
      exact List.mem_flatMap.2 ⟨p1, h1.2, ih k fun p' hp' => hk p' (List.mem_flatMap.2 ⟨p1, h1.2, hp'⟩)⟩

theorem Sign.look_idem (v : StTy → StTy) (s : Sign) : (s.look v).look id = s.look v := by
  cases s with
  | call k => cases k <;> rfl
  | _ => rfl

/-- The shadow lost track or takes into account that `q` may be going on. -/
def Reckons (F : Prospect → List Prospect) (n0 : Spot) (v : StTy → StTy) (k : Nat) (l : List Sign) (q : Prospect) : Prop :=
  (tailing F n0 v id k).hearAll (some (tailing F n0 v id k).init) (l.map (Sign.look v)) = some none ∨
  ∃ ps, (tailing F n0 v id k).hearAll (some (tailing F n0 v id k).init) (l.map (Sign.look v)) = some (some ps) ∧
    ∃ p ∈ ps, Relation.ReflTransGen (Drifts F) p q

theorem Reckons.hear {l : List Sign} {s : Sign} {r : List Sign} {g : Stage} {n : Spot} {w : List EventTy}
    (h : Reckons F n0 v k l ⟨s :: r, g, n, w⟩) : Reckons F n0 v k (l ++ [s]) ⟨r, g, n, w⟩ := by
  unfold Reckons at h ⊢
  rw [List.map_append, Monitor.hearAll_append]
  rcases h with h | ⟨ps, h, p, hp, hd⟩
  · rw [h]; exact Or.inl (tailing_lost _)
  rw [h]
  show (tailing F n0 v id k).step (some ps) (s.look v) = some none ∨
    ∃ ps', (tailing F n0 v id k).step (some ps) (s.look v) = some (some ps') ∧ _
  unfold tailing chase
  dsimp only
  rw [Sign.look_idem]
  by_cases hc : ((ps.flatMap (foretell F k)).all fun p => decide (p.signs ≠ [])) = true
  · right
    rw [if_pos hc]
    have hmem : (⟨r, g, n, w⟩ : Prospect) ∈
        ((ps.flatMap (foretell F k)).filterMap (Prospect.past v (s.look v))).eraseDups := by
      rw [List.mem_eraseDups, List.mem_filterMap]
      refine ⟨⟨s :: r, g, n, w⟩, List.mem_flatMap.2 ⟨p, hp, foretell_drift hd (List.cons_ne_nil _ _) k ?_⟩, ?_⟩
      · intro p' hp'
        exact of_decide_eq_true (List.all_eq_true.1 hc p' (List.mem_flatMap.2 ⟨p, hp, hp'⟩))
      · show (if s.look v = s.look v then _ else _) = _
        rw [if_pos rfl]
    revert hmem
    generalize ((ps.flatMap (foretell F k)).filterMap (Prospect.past v (s.look v))).eraseDups = qs
    intro hmem
    cases qs with
    | nil => cases hmem
    | cons q qs => exact ⟨_, rfl, _, hmem, .refl⟩
  · left
    rw [if_neg hc]

theorem Reckons.hearAll {g : Stage} {n : Spot} {w : List EventTy} : ∀ {r l : List Sign},
    Reckons F n0 v k l ⟨r, g, n, w⟩ → Reckons F n0 v k (l ++ r) ⟨[], g, n, w⟩
  | [], l, h => by rw [List.append_nil]; exact h
  | s :: r, l, h => by
    have := h.hear.hearAll (r := r)
    rwa [List.append_assoc] at this

theorem Trail.reckons {l : List Sign} {p : Prospect} (h : Trail F n0 l p) : Reckons F n0 v k l p := by
  induction h with
  | start => exact Or.inr ⟨_, rfl, _, List.mem_cons_self, .refl⟩
  | @step l p q h hq ih =>
    refine Reckons.hearAll (r := q.signs) ?_
    rcases ih with ih | ⟨ps, h1, p0, hp, hd⟩
    · exact Or.inl ih
    · exact Or.inr ⟨ps, h1, p0, hp, hd.tail ⟨h.signs, hq⟩⟩

theorem tailing_look (q : Option (Option (List Prospect))) (s : Sign) :
    (tailing F n0 v' v k).hear q s = (tailing F n0 v' id k).hear q (s.look v) := by
  cases q with
  | none => rfl
  | some q =>
    cases q with
    | none => rfl
    | some ps =>
      show (tailing F n0 v' v k).step _ _ = (tailing F n0 v' id k).step _ _
      unfold tailing
      dsimp only
      rw [Sign.look_idem]

theorem tailing_lookAll (ss : List Sign) : ∀ q, (tailing F n0 v' v k).hearAll q ss =
    (tailing F n0 v' id k).hearAll q (ss.map (Sign.look v)) := by
  induction ss with
  | nil => intro q; rfl
  | cons s ss ih =>
    intro q
    show (tailing F n0 v' v k).hearAll ((tailing F n0 v' v k).hear q s) ss =
      (tailing F n0 v' id k).hearAll ((tailing F n0 v' id k).hear q (s.look v)) _
    rw [ih, tailing_look]

end

namespace Machine

theorem seeNextIn_record (h : Header) (g : Stage) (n : Spot) (w : List EventTy) (a : List Sign) :
    M.seeNextIn h recorder g ⟨n, w, some a⟩ =
      (M.seeNextIn h recorder g ⟨n, w, some []⟩).map (Res.view (Eye.tell (Option.map (a ++ ·)))) := by
  have := M.seeNextIn_tell (recorder_tell a) h g ⟨n, w, some []⟩
  unfold Eye.tell at this
  dsimp only [Option.map_some] at this
  rw [List.append_nil] at this
  exact this

/-- What may be the case is on a trail. -/
theorem SeesIn.trail {h : Header} (hM : M.RegularIn h) (hC : M.BuildsIn h) {g : Stage}
    {x : Eye (List Sign)} (hs : M.SeesIn h recorder g x) :
    ∃ l, x.heard = some l ∧ Trail (M.foreseeIn h) M.start l ⟨[], g, x.spot, x.waiting⟩ := by
  refine SeesIn.induct (C := fun g x => ∃ l, x.heard = some l ∧
    Trail (M.foreseeIn h) M.start l ⟨[], g, x.spot, x.waiting⟩) ⟨[], rfl, .start⟩ ?_ ?_ hs
  · intro g g' x x' _ ih hn hs'
    obtain ⟨l, hl, hk⟩ := ih
    obtain ⟨l', hl', -⟩ := hs'.heard hM hC 0
    obtain ⟨n, w, q⟩ := x
    dsimp only at hl hk
    subst hl
    rw [seeNextIn_record] at hn
    obtain ⟨y, hy, he⟩ := List.mem_map.1 hn
    cases y with
    | ok g1 x1 =>
      obtain ⟨n1, w1, q1⟩ := x1
      injection he with e1 e2
      subst e1 e2
      cases q1 with
      | none => cases hl'
      | some r => exact ⟨_, rfl, hk.step (q := ⟨r, g1, n1, w1⟩) (List.mem_filterMap.2 ⟨_, hy, rfl⟩)⟩
    | _ => cases he
  · intro g x x' e _ ih hn hs'
    obtain ⟨l, hl, hk⟩ := ih
    obtain ⟨l', hl', -⟩ := hs'.heard hM hC 0
    obtain ⟨n, w, q⟩ := x
    dsimp only at hl hk
    subst hl
    rw [seeNextIn_record] at hn
    obtain ⟨y, hy, he⟩ := List.mem_map.1 hn
    cases y with
    | throw e1 x1 =>
      obtain ⟨n1, w1, q1⟩ := x1
      injection he with e1 e2
      subst e2
      cases q1 with
      | none => cases hl'
      | some r =>
        have := hk.step (q := ⟨r ++ [.exception], .idle, n1, w1⟩) (List.mem_filterMap.2 ⟨_, hy, rfl⟩)
        refine ⟨l ++ (r ++ [.exception]), ?_, this⟩
        show some (l ++ r ++ [Sign.exception]) = _
        rw [List.append_assoc]
    | _ => cases he

/-- What is on a trail may be the case. -/
theorem trail_sees {h : Header} {l : List Sign} {p : Prospect} (ht : Trail (M.foreseeIn h) M.start l p) :
    M.SeesIn h recorder p.stage ⟨p.spot, p.waiting, some l⟩ := by
  induction ht with
  | start => exact SeesIn.start
  | @step l p q _ hq ih =>
    unfold foreseeIn at hq
    obtain ⟨y, hy, he⟩ := List.mem_filterMap.1 hq
    have hm := List.mem_map_of_mem (f := Res.view (Eye.tell (Option.map (l ++ ·)))) hy
    rw [← seeNextIn_record] at hm
    split at he
    · cases he; exact ih.ok hm
    · cases he
      have := ih.throw hm
      unfold seeSign Eye.tell at this
      show M.SeesIn h recorder .idle ⟨_, _, some (l ++ (_ ++ [.exception]))⟩
      rw [← List.append_assoc]
      exact this
    · cases he

end Machine

/-! ## Looking ahead long enough -/

section
variable {F : Prospect → List Prospect} {n0 : Spot} {v v' : StTy → StTy} {k : Nat} {I : Prospect → Prop}

theorem foretell_keeps (hF : ∀ p q, I p → q ∈ F p → I q) : ∀ (k : Nat) {p q : Prospect}, I p → q ∈ foretell F k p → I q
  | 0, p, q, h, hq => List.mem_singleton.1 hq ▸ h
  | k + 1, p, q, h, hq => by
    rw [foretell] at hq
    split at hq
    · obtain ⟨p', h1, h2⟩ := List.mem_flatMap.1 hq
      exact foretell_keeps hF k (hF p p' h h1) h2
    · exact List.mem_singleton.1 hq ▸ h

/-- Something is observed soon: `B k p` says within `k` steps. -/
theorem foretell_signs {B : Nat → Prospect → Prop} (h0 : ∀ p, ¬ B 0 p) (hF : ∀ p q, I p → q ∈ F p → I q)
    (hB : ∀ k p q, I p → B (k + 1) p → q ∈ F p → q.signs ≠ [] ∨ B k q) :
    ∀ (k : Nat) {p : Prospect}, I p → B k p → ∀ q ∈ foretell F k p, q.signs ≠ []
  | 0, p, _, hb => (h0 p hb).elim
  | k + 1, p, h, hb => by
    intro q hq
    rw [foretell] at hq
    split at hq
    · obtain ⟨p', h1, h2⟩ := List.mem_flatMap.1 hq
      rcases hB k p p' h hb h1 with h3 | h3
      · rw [foretell_busy k h3] at h2
        rw [List.mem_singleton.1 h2]; exact h3
      · exact foretell_signs h0 hF hB k (hF p p' h h1) h3 q h2
    · next hp => rw [List.mem_singleton.1 hq]; exact hp

/-- One of finitely many prospects: the first one, or what is left of a step. -/
def OnChart (F : Prospect → List Prospect) (n0 : Spot) (J : Prospect → Prop) (p : Prospect) : Prop :=
  p = ⟨[], .idle, n0, []⟩ ∨ ∃ p0, J p0 ∧ ∃ q ∈ F p0, ∃ l ∈ q.signs.tails, p = { q with signs := l }

theorem onChart_finite {J : Prospect → Prop} (hJ : {p | J p}.Finite) : {p | OnChart F n0 J p}.Finite := by
  refine ((Set.finite_singleton (⟨[], .idle, n0, []⟩ : Prospect)).union
    (hJ.biUnion fun p0 _ => (F p0).finite_toSet.biUnion fun q _ =>
        q.signs.tails.finite_toSet.image fun l => { q with signs := l })).subset ?_
  rintro p (rfl | ⟨p0, hp, q, hq, l, hl, rfl⟩)
  · exact Or.inl rfl
  · exact Or.inr (Set.mem_biUnion (x := p0) hp (Set.mem_biUnion (x := q) hq ⟨l, hl, rfl⟩))

theorem OnChart.tail {J : Prospect → Prop} {p : Prospect} (h : OnChart F n0 J p) {s : Sign} {l : List Sign}
    (hp : p.signs = s :: l) : OnChart F n0 J { p with signs := l } := by
  rcases h with rfl | ⟨p0, h0, q, hq, l', hl, rfl⟩
  · cases hp
  · refine Or.inr ⟨p0, h0, q, hq, l, ?_, rfl⟩
    rw [List.mem_tails] at hl ⊢
    exact (List.suffix_cons s l).trans (hp ▸ hl)

theorem OnChart.foretell (hF : ∀ p q, I p → q ∈ F p → I q) : ∀ (k : Nat) {p q : Prospect}, I p →
    OnChart F n0 (fun p => I p ∧ p.signs = []) p → q ∈ foretell F k p →
    OnChart F n0 (fun p => I p ∧ p.signs = []) q
  | 0, p, q, h, hc, hq => List.mem_singleton.1 hq ▸ hc
  | k + 1, p, q, h, hc, hq => by
    rw [Hsm.foretell] at hq
    split at hq
    · next hp =>
      obtain ⟨p', h1, h2⟩ := List.mem_flatMap.1 hq
      exact OnChart.foretell hF k (hF p p' h h1)
        (Or.inr ⟨p, ⟨h, hp⟩, p', h1, p'.signs, (List.mem_tails _ _).2 (List.suffix_refl _), rfl⟩) h2
    · exact List.mem_singleton.1 hq ▸ hc

/-- The shadow has not lost track. -/
def Keeping (F : Prospect → List Prospect) (n0 : Spot) (I : Prospect → Prop) (q : Option (Option (List Prospect))) : Prop :=
  q = none ∨ ∃ ps, q = some (some ps) ∧ ps.Nodup ∧
    ∀ p ∈ ps, I p ∧ OnChart F n0 (fun p => I p ∧ p.signs = []) p

theorem keeping_finite (hI : {p | I p ∧ p.signs = []}.Finite) : {q | Keeping F n0 I q}.Finite := by
  have hc := onChart_finite (F := F) (n0 := n0) hI
  have hl : {ps : List Prospect | ps.Nodup ∧ ∀ p ∈ ps, OnChart F n0 (fun p => I p ∧ p.signs = []) p}.Finite := by
    refine ((Set.finite_le_nat hc.toFinset.card).biUnion fun j _ => finite_lists hc j).subset ?_
    rintro ps ⟨hn, hp⟩
    refine Set.mem_biUnion (x := ps.length) ?_ ⟨rfl, hp⟩
    show ps.length ≤ _
    rw [← List.toFinset_card_of_nodup hn]
    refine Finset.card_le_card fun p h => ?_
    rw [Set.Finite.mem_toFinset]
    exact hp p (List.mem_toFinset.1 h)
  refine ((Set.finite_singleton none).union (hl.image fun ps => some (some ps))).subset ?_
  rintro q (rfl | ⟨ps, rfl, hn, hp⟩)
  · exact Or.inl rfl
  · exact Or.inr ⟨ps, ⟨hn, fun p h => (hp p h).2⟩, rfl⟩

theorem Keeping.start (h0 : I ⟨[], .idle, n0, []⟩) : Keeping F n0 I (some (tailing F n0 v' v k).init) := by
  refine Or.inr ⟨_, rfl, List.nodup_singleton _, fun p hp => ?_⟩
  rw [List.mem_singleton.1 hp]
  exact ⟨h0, Or.inl rfl⟩

theorem Keeping.hear (hF : ∀ p q, I p → q ∈ F p → I q) (hI : ∀ p l, I p → I { p with signs := l })
    (hw : ∀ p, I p → ∀ q ∈ foretell F k p, q.signs ≠ []) {q : Option (Option (List Prospect))} (s : Sign)
    (h : Keeping F n0 I q) : Keeping F n0 I ((tailing F n0 v' v k).hear q s) := by
  rcases h with rfl | ⟨ps, rfl, -, hp⟩
  · exact Or.inl rfl
  have ha : ((ps.flatMap (foretell F k)).all fun p => decide (p.signs ≠ [])) = true := by
    refine List.all_eq_true.2 fun q hq => decide_eq_true ?_
    obtain ⟨p, h1, h2⟩ := List.mem_flatMap.1 hq
    exact hw p (hp p h1).1 q h2
  have e : chase F v' k ps (s.look v) = some
      ((ps.flatMap (foretell F k)).filterMap (Prospect.past v' (s.look v))).eraseDups := if_pos ha
  have key : ∀ qs, chase F v' k ps (s.look v) = some qs →
      qs.Nodup ∧ ∀ p ∈ qs, I p ∧ OnChart F n0 (fun p => I p ∧ p.signs = []) p := by
    intro qs hqs
    rw [e] at hqs
    injection hqs with hqs
    subst hqs
    refine ⟨by rw [← uniq_eq_eraseDups]; exact nodup_uniq _, fun p h => ?_⟩
    obtain ⟨q, h1, h2⟩ := List.mem_filterMap.1 (List.mem_eraseDups.1 h)
    obtain ⟨p0, h3, h4⟩ := List.mem_flatMap.1 h1
    have h5 := foretell_keeps hF _ (hp p0 h3).1 h4
    have h6 := OnChart.foretell hF _ (hp p0 h3).1 (hp p0 h3).2 h4
    unfold Prospect.past at h2
    split at h2
    · cases h2
    · next hs =>
      split at h2
      · cases h2; exact ⟨hI _ _ h5, h6.tail hs⟩
      · cases h2
  show Keeping F n0 I ((tailing F n0 v' v k).step (some ps) s)
  unfold tailing
  dsimp only
  cases hq : chase F v' k ps (s.look v) with
  | none => rw [e] at hq; cases hq
  | some qs =>
    cases qs with
    | nil => exact Or.inl rfl
    | cons p qs => exact Or.inr ⟨_, rfl, key _ hq⟩

end

namespace Machine

section
variable {mon : Monitor Q}

theorem seeVisitG_shown (anon : Bool) (r : Nat) (ev : EventTy) (x : Eye Q) :
    Shown (M.seeVisitG mon anon r ev x) (M.mayVisitG anon r ev x.spot) := by
  unfold seeVisitG mayVisitG
  cases x.spot.slots[r]? with
  | none => exact .one List.mem_cons_self
  | some o =>
    cases o with
    | none => exact .one List.mem_cons_self
    | some l =>
      dsimp only
      split
      · split
        · exact .one List.mem_cons_self
        · exact seeAttempt_shown anon r ev _ x
      · exact .one List.mem_cons_self

theorem seeSweepG_shown (ev : EventTy) : ∀ (rs : List Nat) (os : List RegionOut) (x : Eye Q),
    Shown (M.seeSweepG mon ev rs os x) (M.maySweepG ev rs os x.spot)
  | [], os, x => .one List.mem_cons_self
  | r :: rs, os, x => by
    refine (seeVisitG_shown false r ev x).branch fun o x => ?_
    split
    · exact .one List.mem_cons_self
    · exact seeSweepG_shown ev rs _ x

theorem seeRoundG_shown : ∀ (rs : List Nat) (os : List RegionOut) (x : Eye Q),
    Shown (M.seeRoundG mon rs os x) (M.mayRoundG rs os x.spot)
  | [], os, x => .one List.mem_cons_self
  | r :: rs, os, x => by
    refine (seeVisitG_shown true r .none x).branch fun o x => ?_
    split
    · exact .one List.mem_cons_self
    · exact seeRoundG_shown rs _ x

theorem seeReplayG_trimmed {x : Eye Q} (h : M.TrimG x) : M.seeReplayG mon x = seeAnswer mon true x := by
  unfold seeReplayG
  rw [h.2]

theorem seeReceiveG_spotted (hd : M.deferring = false) (ev : EventTy) {x : Eye Q} (h : M.TrimG x) :
    ∀ y ∈ M.seeReceiveG mon ev x, y.spotted ∈ M.mayReceiveG ev x.spot := by
  refine spotted_branch (seeSweepG_shown ev _ _ x) (seeSweep_trimG hd ev _ _ h) fun os x h => ?_
  split
  · next hc =>
    intro y hy
    rw [List.mem_singleton.1 hy, if_neg hc.1, if_pos hc.2.1, hc.2.2]
    exact List.mem_cons_self
  split
  · next hall =>
    have hno : ∀ o : RegionOut, o ≠ .none → o ∉ os := fun o ho hm => ho (hall o hm)
    rw [if_neg (hno _ (by decide)), if_neg (hno _ (by decide)), if_neg (hno _ (by decide))]
    refine spotted_branch (I := fun _ => True) (seeComplain_shown ev x) (fun y hy => ?_) fun _ x _ => ?_
    · have := seeComplain_shown ev x y hy
      revert this
      cases y with
      | ub u =>
        intro h
        unfold mayComplain at h
        split at h
        · simp [Res.view] at h
        · split at h
          · cases List.mem_singleton.1 h; exact ⟨nofun, nofun⟩
          · cases List.mem_singleton.1 h; exact ⟨nofun, nofun⟩
          · split at h <;> simp [Res.view] at h
      | _ => intro _; trivial
    · intro y hy; rw [answer_spotted y hy]; exact List.mem_cons_self
  · next hc hall =>
    rw [seeReplayG_trimmed h]
    intro y hy
    rw [answer_spotted y hy]
    split
    · exact List.mem_cons_self
    split
    · next hnd hf =>
      have : M.anonymous = false := by
        cases ha : M.anonymous with
        | false => rfl
        | true => exact (hc ⟨hnd, hf, ha⟩).elim
      rw [this]; exact List.mem_cons_self
    split
    · exact List.mem_cons_self
    · next h1 h2 h3 =>
      exfalso
      refine hall fun o ho => ?_
      cases o with
      | none => rfl
      | deferred => exact (h1 ho).elim
      | fired => exact (h2 ho).elim
      | rejected => exact (h3 ho).elim

theorem seeNextG_spotted (hd : M.deferring = false) (g : Stage) {x : Eye Q} (h : M.TrimG x) :
    ∀ y ∈ M.seeNextG mon g x, y.spotted ∈ M.nextG g.busy x.spot := by
  cases g with
  | idle =>
    intro y hy
    obtain ⟨ev, hev, hy⟩ := List.mem_flatMap.1 hy
    exact List.mem_flatMap.2 ⟨ev, hev, seeReceiveG_spotted hd ev (x := seeSign mon (.event ev) x) h y hy⟩
  | rounds first =>
    intro y hy
    rcases mem_branch.1 hy with ⟨b, z, h1, h2⟩ | ⟨e, z, h1, rfl⟩ | ⟨u, h1, rfl⟩ | ⟨h1, rfl⟩
    · have hz : M.TrimG z := seeRound_trimG hd _ _ h _ h1
      have h1 := seeRoundG_shown _ _ _ _ h1
      cases b with
      | true =>
        rw [if_pos rfl] at h2
        rw [List.mem_singleton.1 h2]
        exact h1
      | false =>
        rw [if_neg (by decide), seeReplayG_trimmed hz, ite_self] at h2
        rw [answer_spotted y h2]
        exact h1
    · exact seeRoundG_shown _ _ _ _ h1
    · exact seeRoundG_shown _ _ _ _ h1
    · exact seeRoundG_shown _ _ _ _ h1

end

/-- Where the machine can be, with nothing deferred. -/
structure OnCourseG (M : Machine) (p : Prospect) : Prop where
  neat : M.NeatG p.spot
  waiting : p.waiting = []
  walk : M.WalkG p.stage.busy p.spot

theorem OnCourseG.trim {p : Prospect} (h : M.OnCourseG p) (q : Option Q) :
    M.TrimG (⟨p.spot, p.waiting, q⟩ : Eye Q) := ⟨h.neat, h.waiting⟩

theorem OnCourseG.foresee (hd : M.deferring = false) {p q : Prospect} (h : M.OnCourseG p)
    (hq : q ∈ M.foreseeIn .amalgamated p) : M.OnCourseG q := by
  obtain ⟨y, hy, he⟩ := List.mem_filterMap.1 hq
  have h1 := seeNext_trimG hd p.stage (h.trim _) y hy
  have h2 := seeNextG_spotted hd p.stage (h.trim _) y hy
  split at he
  · cases he; exact ⟨h1.1, h1.2, h.walk.ok h2⟩
  · cases he; exact ⟨h1.1, h1.2, h.walk.throw h2⟩
  · cases he

theorem foreseeG_idle {p q : Prospect} (hp : p.stage = .idle) (hq : q ∈ M.foreseeIn .amalgamated p) : q.signs ≠ [] := by
  obtain ⟨y, hy, he⟩ := List.mem_filterMap.1 hq
  rw [hp] at hy
  obtain ⟨ev, _, hy⟩ := List.mem_flatMap.1 hy
  have e : seeSign recorder (.event ev) ⟨p.spot, p.waiting, some []⟩ =
      Eye.tell (Option.map ([Sign.event ev] ++ ·)) ⟨p.spot, p.waiting, some []⟩ := rfl
  rw [e, seeReceiveG_tell (recorder_tell _)] at hy
  obtain ⟨z, _, rfl⟩ := List.mem_map.1 hy
  rcases z with ⟨g, n, w, _ | l⟩ | ⟨x, n, w, _ | l⟩ | _ | _ <;> cases he <;> exact nofun

theorem foreseeG_rounds (hd : M.deferring = false) {p q : Prospect} (h : M.OnCourseG p) {f : Bool}
    (hp : p.stage = .rounds f) (hq : q ∈ M.foreseeIn .amalgamated p) :
    q.signs ≠ [] ∨ q.stage = .rounds f ∧ .ok true q.spot ∈ M.nextG true p.spot := by
  obtain ⟨y, hy, he⟩ := List.mem_filterMap.1 hq
  have h2 := seeNextG_spotted hd p.stage (h.trim _) y hy
  rw [hp] at hy h2
  rcases mem_branch.1 hy with ⟨b, z, h1, h3⟩ | ⟨e, z, h1, rfl⟩ | ⟨u, h1, rfl⟩ | ⟨h1, rfl⟩
  · have hz : M.TrimG z := seeRound_trimG hd _ _ (h.trim _) _ h1
    cases b with
    | true =>
      rw [if_pos rfl] at h3
      cases List.mem_singleton.1 h3
      obtain ⟨n, w, _ | l⟩ := z
      · cases he
      · cases he; exact Or.inr ⟨rfl, h2⟩
    | false =>
      rw [if_neg (by decide), seeReplayG_trimmed hz, ite_self] at h3
      cases List.mem_singleton.1 h3
      obtain ⟨n, w, _ | l⟩ := z
      · cases he
      · cases he; exact Or.inl (by simp)
  · obtain ⟨n, w, _ | l⟩ := z
    · cases he
    · cases he; exact Or.inl (by simp)
  · cases he
  · cases he

/-- Where the machine can be, with nothing deferred. -/
def OnCourseIn (h : Header) (M : Machine) (p : Prospect) : Prop :=
  match h with
  | .modular => M.OnCourse p
  | .amalgamated => M.OnCourseG p

theorem onCourseIn_start (h : Header) : M.OnCourseIn h ⟨[], .idle, M.start, []⟩ := by
  cases h
  · exact ⟨start_neat, rfl, .start⟩
  · exact ⟨start_neatG, rfl, .start⟩

theorem OnCourseIn.foresee {h : Header} (hd : M.deferring = false) (p q : Prospect) (hp : M.OnCourseIn h p)
    (hq : q ∈ M.foreseeIn h p) : M.OnCourseIn h q := by
  cases h
  · exact OnCourse.foresee hd hp hq
  · exact OnCourseG.foresee hd hp hq

theorem OnCourseIn.left {h : Header} (p : Prospect) (l : List Sign) (hp : M.OnCourseIn h p) :
    M.OnCourseIn h { p with signs := l } := by
  cases h
  · exact ⟨hp.1, hp.2, hp.3⟩
  · exact ⟨hp.1, hp.2, hp.3⟩

theorem onCourseIn_finite (h : Header) : {p | M.OnCourseIn h p ∧ p.signs = []}.Finite := by
  have hG : (Set.univ : Set Stage).Finite :=
    (Set.toFinite {Stage.idle, .rounds true, .rounds false}).subset fun g _ => by
      rcases g with _ | _ | _ <;> simp
  cases h with
  | modular =>
    refine ((hG.prod (neat_finite (M := M) (A := []))).image fun x => (⟨[], x.1, x.2, []⟩ : Prospect)).subset ?_
    rintro ⟨l, g, n, w⟩ ⟨h, hl⟩
    refine ⟨(g, n), ⟨trivial, OnCourse.neat h⟩, ?_⟩
    have : w = [] := OnCourse.waiting h
    dsimp only at hl
    rw [this, hl]
  | amalgamated =>
    refine ((hG.prod (neat_finiteG (M := M))).image fun x => (⟨[], x.1, x.2, []⟩ : Prospect)).subset ?_
    rintro ⟨l, g, n, w⟩ ⟨h, hl⟩
    refine ⟨(g, n), ⟨trivial, OnCourseG.neat h⟩, ?_⟩
    have : w = [] := OnCourseG.waiting h
    dsimp only at hl
    rw [this, hl]

/-- Something is observed within `k + 1` steps. -/
theorem foretell_signsIn {h : Header} (hd : M.deferring = false) {k : Nat} (hw : M.CalmIn h k) (p : Prospect)
    (hp : M.OnCourseIn h p) : ∀ q ∈ foretell (M.foreseeIn h) (k + 1) p, q.signs ≠ [] := by
  cases h with
  | modular =>
    refine foretell_signs (I := M.OnCourseIn .modular)
      (B := fun j p => 0 < j ∧ ∀ f, p.stage = .rounds f → M.within j p.spot = true)
      (fun p h => absurd h.1 (by decide)) (OnCourseIn.foresee hd) ?_ (k + 1) hp ⟨Nat.succ_pos k, fun f hf => ?_⟩
    · intro j p q hp hb hq
      cases hg : p.stage with
      | idle => exact Or.inl (foresee_idle hg hq)
      | rounds f =>
        refine (foresee_rounds hd hp hg hq).imp_right fun h => ?_
        have := List.all_eq_true.1 (hb.2 f hg) _ h.2
        refine ⟨?_, fun _ _ => this⟩
        cases j with
        | zero => cases this
        | succ j => exact Nat.succ_pos j
    · have := OnCourse.walk hp
      rw [hf] at this
      exact within_mono (Nat.le_succ k) (hw _ this)
  | amalgamated =>
    refine foretell_signs (I := M.OnCourseIn .amalgamated)
      (B := fun j p => 0 < j ∧ ∀ f, p.stage = .rounds f → M.withinG j p.spot = true)
      (fun p h => absurd h.1 (by decide)) (OnCourseIn.foresee hd) ?_ (k + 1) hp ⟨Nat.succ_pos k, fun f hf => ?_⟩
    · intro j p q hp hb hq
      cases hg : p.stage with
      | idle => exact Or.inl (foreseeG_idle hg hq)
      | rounds f =>
        refine (foreseeG_rounds hd hp hg hq).imp_right fun h => ?_
        have := List.all_eq_true.1 (hb.2 f hg) _ h.2
        refine ⟨?_, fun _ _ => this⟩
        cases j with
        | zero => cases this
        | succ j => exact Nat.succ_pos j
    · have := OnCourseG.walk hp
      rw [hf] at this
      exact within_monoG (Nat.le_succ k) (hw _ this)

/-- Whoever listens, the same may be the case. -/
theorem SeesIn.told {h : Header} {mon : Monitor Q} {mon' : Monitor Q'} {f : Option Q → Option Q'}
    (hf : ∀ q s, mon'.hear (f q) s = f (mon.hear q s)) (h0 : f (some mon.init) = some mon'.init)
    {g : Stage} {y : Eye Q'} (hs : M.SeesIn h mon' g y) : ∃ x, M.SeesIn h mon g x ∧ x.tell f = y := by
  refine SeesIn.induct (C := fun g y => ∃ x, M.SeesIn h mon g x ∧ x.tell f = y)
    ⟨_, SeesIn.start, by unfold Eye.tell seeStart; rw [h0]⟩ ?_ ?_ hs
  · intro g g' y y' _ ih hn _
    obtain ⟨x, hx, rfl⟩ := ih
    rw [seeNextIn_tell hf] at hn
    obtain ⟨z, hz, he⟩ := List.mem_map.1 hn
    cases z with
    | ok g1 x1 =>
      injection he with e1 e2
      subst e1
      exact ⟨x1, hx.ok hz, e2⟩
    | _ => cases he
  · intro g y y' e _ ih hn _
    obtain ⟨x, hx, rfl⟩ := ih
    rw [seeNextIn_tell hf] at hn
    obtain ⟨z, hz, he⟩ := List.mem_map.1 hn
    cases z with
    | throw e1 x1 =>
      injection he with e1 e2
      refine ⟨_, hx.throw hz, ?_⟩
      rw [← seeSign_tell hf, e2]
    | _ => cases he

/-- What every sign preserves holds of what was heard. -/
theorem SeesIn.keeps {h : Header} {mon : Monitor Q} {I : Option Q → Prop} (h0 : I (some mon.init)) (hn : I none)
    (hs : ∀ q s, I q → I (mon.hear q s)) {g : Stage} {x : Eye Q} (hx : M.SeesIn h mon g x) : I x.heard := by
  let mon0 : Monitor {q : Option Q // I q} :=
    ⟨⟨_, h0⟩, fun q s => some ⟨mon.hear q.1 s, hs q.1 s q.2⟩⟩
  let f : Option {q : Option Q // I q} → Option Q := fun q => q.elim none (·.1)
  obtain ⟨y, _, rfl⟩ := hx.told (mon := mon0) (f := f) (fun q s => by cases q <;> rfl) rfl
  show I (f y.heard)
  cases y.heard with
  | none => exact hn
  | some q => exact q.2

theorem SeesIn.keeping {h h' : Header} (hd' : M'.deferring = false) {v v' : StTy → StTy} {k : Nat}
    (hw : M'.CalmIn h' k) {g : Stage} {x : Eye (Option (List Prospect))}
    (hs : M.SeesIn h (M'.shadowIn h' v' v (k + 1)) g x) :
    Keeping (M'.foreseeIn h') M'.start (M'.OnCourseIn h') x.heard :=
  hs.keeps (I := Keeping (M'.foreseeIn h') M'.start (M'.OnCourseIn h')) (.start (onCourseIn_start h'))
    (Or.inl rfl) fun _ s hq => hq.hear (OnCourseIn.foresee hd') OnCourseIn.left (foretell_signsIn hd' hw) s

theorem seesAllIn_sees {h : Header} [DecidableEq Q] {mon : Monitor Q} {S : List (Stage × Eye Q)}
    (hS : M.seesAllIn h mon S = true) {g : Stage} {x : Eye Q} (hs : M.SeesIn h mon g x) : (g, x) ∈ S := by
  cases h
  · exact seesAll_sees hS hs
  · exact seesAll_seesG hS hs

theorem watchIn_sees {h : Header} [DecidableEq Q] {mon : Monitor Q} (k : Nat) {g : Stage} {x : Eye Q}
    (hx : (g, x) ∈ M.watchIn h mon k) : M.SeesIn h mon g x := by
  cases h
  · exact watch_sees k hx
  · exact watch_seesG k hx

theorem watchIn_ends {h : Header} [DecidableEq Q] {mon : Monitor Q} {F : Set (Option Q)} (hQ : F.Finite)
    (hsees : ∀ g x, M.SeesIn h mon g x → x.heard ∈ F) (hd : M.deferring = false) :
    ∃ k, M.seesAllIn h mon (M.watchIn h mon k) = true := by
  cases h
  · exact watch_ends_of hQ hsees hd
  · exact watch_ends_ofG hQ hsees hd

end Machine

/-! ## The claims -/

variable {h h' : Header} {v v' : StTy → StTy} {k : Nat}

/-- Where the shadow is after what a client observed, the other machine may be. -/
theorem C105_shadow (hM' : M'.RegularIn h') (hC' : M'.BuildsIn h') {d : Dep} {ss : List Sign} {s : SM P W}
    (ho : ObservedIn h M sem d ss s) {ps : List Prospect}
    (hp : (M'.shadowIn h' v' v k).hearAll (some (M'.shadowIn h' v' v k).init) ss = some (some ps)) :
    ∃ ss' s', ObservedIn h' M' script d ss' s' ∧ ss'.map (Sign.look v') = ss.map (Sign.look v) := by
  obtain ⟨hne, hps⟩ := MayBes.start.hearAll hp
  obtain ⟨p, hp⟩ := List.exists_mem_of_ne_nil _ hne
  obtain ⟨a, ha, hm⟩ := hps p hp
  rw [List.nil_append] at ha
  obtain ⟨l, hl, hcut⟩ := (Machine.trail_sees hm).heard hM' hC' d
  injection hl with hl
  obtain ⟨s', hs'⟩ := hcut a p.signs hl.symm (ho.whole.of_look ha)
  exact ⟨a, s', hs', ha⟩

/-- C105: if a list leaves out nothing and the shadow is somewhere at each entry, then whatever some client
of the first machine observes, some client of the second observes.  Each of them is built with either
header. -/
theorem C105_refines (hM : M.RegularIn h) (hM' : M'.RegularIn h') (hC' : M'.BuildsIn h')
    {S : List (Stage × Eye (Option (List Prospect)))} (hS : M.seesAllIn h (M'.shadowIn h' v' v k) S = true)
    (hk : shadowed S = true) : RefinesIn h h' M M' v v' := by
  intro P W sem d ss s ho
  obtain ⟨x, hs, hh⟩ := ho.sees (mon := M'.shadowIn h' v' v k) hM
  have := List.all_eq_true.1 hk _ (Machine.seesAllIn_sees hS hs)
  dsimp only at this
  rw [hh] at this
  split at this
  · next hq =>
    obtain ⟨ss', s', h1, h2⟩ := C105_shadow hM' hC' ho hq
    exact ⟨_, _, _, ss', s', h1, h2⟩
  · cases this
  · next hq => cases hq

/-- C105: if the shadow breaks off, no client of the other machine observes anything that looks the same. -/
theorem C105_nowhere (hM' : M'.RegularIn h') {ss : List Sign}
    (hn : (M'.shadowIn h' v' v k).hearAll (some (M'.shadowIn h' v' v k).init) ss = none) {d : Dep} {ss' : List Sign}
    {s' : SM P W} (ho : ObservedIn h' M' sem d ss' s') : ss'.map (Sign.look v') ≠ ss.map (Sign.look v) := by
  intro he
  obtain ⟨x, hs, hh⟩ := ho.sees (mon := recorder) hM'
  obtain ⟨l, hl, ht⟩ := hs.trail hM' (ho.builds hM')
  have hk := ht.reckons (v := v') (k := k)
  have : recorder.hearAll (some recorder.init) ss' = some ss' := recorder_hearAll [] ss'
  rw [this] at hh
  rw [hh] at hl
  injection hl with hl
  subst hl
  unfold Machine.shadowIn at hn
  rw [tailing_lookAll] at hn
  unfold Reckons at hk
  rw [he] at hk
  have e : (some (tailing (M'.foreseeIn h') M'.start v' v k).init) =
      some (tailing (M'.foreseeIn h') M'.start v' id k).init := rfl
  rw [e] at hn
  rw [hn] at hk
  rcases hk with hk | ⟨_, hk, _⟩ <;> cases hk

/-- C105: if a list that `watchIn` computes has an entry where the shadow is nowhere, then some client of the
first machine observes what no client of the second does. -/
theorem C105_apart (hM : M.RegularIn h) (hM' : M'.RegularIn h') (hC : M.BuildsIn h)
    {n : Nat} (hk : keepsRules (M.watchIn h (M'.shadowIn h' v' v k) n) = false) (d : Dep) :
    ∃ ss s, ObservedIn h M script d ss s ∧ ∀ (P' W' : Type) (sem' : Sem P' W') (d' : Dep) (ss' : List Sign)
      (s' : SM P' W'), ObservedIn h' M' sem' d' ss' s' → ss'.map (Sign.look v') ≠ ss.map (Sign.look v) := by
  obtain ⟨ss, s, h1, hn⟩ : ∃ ss s, ObservedIn h M script d ss s ∧ ¬ (M'.shadowIn h' v' v k).Keeps ss := by
    cases h
    · exact C86_broken hM hC hk d
    · exact C104_broken hM hC hk d
  refine ⟨ss, s, h1, fun P' W' sem' d' ss' s' ho => C105_nowhere (k := k) hM' ?_ ho⟩
  unfold Monitor.Keeps at hn
  exact not_not.1 hn

/-- C105: a list that `watchIn` computes, that leaves out nothing and at which the shadow never lost track
decides whether all that clients of the first machine observe is observed by clients of the second. -/
theorem C105_decides (hM : M.RegularIn h) (hM' : M'.RegularIn h') (hC : M.BuildsIn h) (hC' : M'.BuildsIn h')
    {n : Nat} (hS : M.seesAllIn h (M'.shadowIn h' v' v k) (M.watchIn h (M'.shadowIn h' v' v k) n) = true)
    (hf : followed (M.watchIn h (M'.shadowIn h' v' v k) n) = true) :
    shadowed (M.watchIn h (M'.shadowIn h' v' v k) n) = true ↔ RefinesIn h h' M M' v v' := by
  refine ⟨C105_refines hM hM' hC' hS, fun hr => ?_⟩
  cases hk : keepsRules (M.watchIn h (M'.shadowIn h' v' v k) n) with
  | false =>
    obtain ⟨ss, s, h1, h2⟩ := C105_apart hM hM' hC hk 0
    obtain ⟨P', W', sem', ss', s', h3, h4⟩ := hr _ _ _ _ _ _ h1
    exact (h2 _ _ _ _ _ _ h3 h4).elim
  | true =>
    refine List.all_eq_true.2 fun y hy => ?_
    have h1 := List.all_eq_true.1 hk y hy
    have h2 := List.all_eq_true.1 hf y hy
    obtain ⟨g, x⟩ := y
    dsimp only at h1 h2 ⊢
    cases g with
    | rounds _ => rfl
    | idle =>
      rcases hx : x.heard with _ | _ | ps
      · rw [hx] at h1; cases h1
      · rw [hx] at h2; cases h2
      · rfl

/-- C105: if nothing is deferred and the second machine cannot go on with anonymous rows for ever, then
computing long enough gives such a list. -/
theorem C105_found (hd : M.deferring = false) (hd' : M'.deferring = false) (hw : M'.CalmIn h' k)
    (h : Header) (v v' : StTy → StTy) :
    ∃ n, M.seesAllIn h (M'.shadowIn h' v' v (k + 1)) (M.watchIn h (M'.shadowIn h' v' v (k + 1)) n) = true ∧
      followed (M.watchIn h (M'.shadowIn h' v' v (k + 1)) n) = true := by
  obtain ⟨n, hn⟩ := Machine.watchIn_ends (h := h) (mon := M'.shadowIn h' v' v (k + 1))
    (keeping_finite (F := M'.foreseeIn h') (n0 := M'.start) (Machine.onCourseIn_finite h'))
    (fun g x hs => Machine.SeesIn.keeping hd' hw hs) hd
  refine ⟨n, hn, List.all_eq_true.2 fun s hs => ?_⟩
  have := Machine.SeesIn.keeping hd' hw (Machine.watchIn_sees n (g := s.1) (x := s.2) hs)
  split
  · next h =>
    rw [h] at this
    rcases this with this | ⟨_, this, _⟩ <;> cases this
  · rfl

/-- C105: for such machines the procedure finds out, one way or the other. -/
theorem C105_either (hM : M.RegularIn h) (hM' : M'.RegularIn h') (hC : M.BuildsIn h) (hC' : M'.BuildsIn h')
    (hd : M.deferring = false) (hd' : M'.deferring = false) (hw : M'.CalmIn h' k) (v v' : StTy → StTy) :
    ∃ n, M.seesAllIn h (M'.shadowIn h' v' v (k + 1)) (M.watchIn h (M'.shadowIn h' v' v (k + 1)) n) = true ∧
      (shadowed (M.watchIn h (M'.shadowIn h' v' v (k + 1)) n) = true ↔ RefinesIn h h' M M' v v') := by
  obtain ⟨n, h1, h2⟩ := C105_found (h' := h') hd hd' hw h v v'
  exact ⟨n, h1, C105_decides hM hM' hC hC' h1 h2⟩

/-! ## Examples -/

namespace Ex

theorem wicket_buildsG : wicket.ScopesRealG ∧
    (wicket.orthogonal = true → wicket.declaredInitials wicket.root ≠ []) :=
  builtG wicket_regularG (by decide +kernel)

/-- No client can tell with which header the wicket was built. -/
theorem wicket_either : RefinesIn .modular .amalgamated wicket wicket id id ∧
    RefinesIn .amalgamated .modular wicket wicket id id :=
  ⟨C105_refines (h := .modular) (h' := .amalgamated) wicket_regular wicket_regularG wicket_buildsG (k := 1)
      (S := wicket.watchIn .modular (wicket.shadowIn .amalgamated id id 1) 3) (by decide +kernel) (by decide +kernel),
    C105_refines (h := .amalgamated) (h' := .modular) wicket_regularG wicket_regular wicket_builds (k := 1)
      (S := wicket.watchIn .amalgamated (wicket.shadowIn .modular id id 1) 3) (by decide +kernel) (by decide +kernel)⟩

theorem innerG_builds : innerG.ScopesReal ∧
    (innerG.orthogonal = true → innerG.declaredInitials innerG.root ≠ []) :=
  ⟨(Machine.scopesReal_iff innerG_regular).2 ⟨innerG_scoped.src, innerG_scoped.comp⟩,
    fun h => absurd h (by decide +kernel)⟩

/-- Some client of `innerG` with the modular headers observes what no client with the amalgamated one does,
whichever states it looks at. -/
theorem innerG_apart : ¬ RefinesIn .modular .amalgamated innerG innerG blind blind := fun h => by
  obtain ⟨ss, s, h1, h2⟩ := C105_apart (h := .modular) (h' := .amalgamated) (v := blind) (v' := blind) (k := 1)
    (n := 3) innerG_regular innerG_regularG innerG_builds (by decide +kernel) 0
  obtain ⟨P', W', sem', ss', s', h3, h4⟩ := h _ _ _ _ _ _ h1
  exact h2 _ _ _ _ _ _ h3 h4

/-- The internal row of `innerG` as a row from the state to itself. -/
def innerLoop : Machine := Machine.ofList
  [ { table := some
        [ row (ini 1) (ev 0) none (some 1) (.st 2), row (.st 2) (ev 1) none (some 2) (.st 1),
          row (.st 2) (ev 0) none (some 5) (.st 2) ] },
    { }, { } ] [1]

theorem innerLoop_regularG : innerLoop.RegularG := Machine.regularG_ofList (by decide +kernel)

theorem innerLoop_buildsG : innerLoop.ScopesRealG ∧
    (innerLoop.orthogonal = true → innerLoop.declaredInitials innerLoop.root ≠ []) :=
  builtG innerLoop_regularG (by decide +kernel)

/-- With this change the program can move to the amalgamated header: no client can tell. -/
theorem innerG_moves : RefinesIn .modular .amalgamated innerG innerLoop id id ∧
    RefinesIn .amalgamated .modular innerLoop innerG id id :=
  ⟨C105_refines (h := .modular) (h' := .amalgamated) innerG_regular innerLoop_regularG innerLoop_buildsG (k := 1)
      (S := innerG.watchIn .modular (innerLoop.shadowIn .amalgamated id id 1) 3) (by decide +kernel) (by decide +kernel),
    C105_refines (h := .amalgamated) (h' := .modular) innerLoop_regularG innerG_regular innerG_builds (k := 1)
      (S := innerLoop.watchIn .amalgamated (innerG.shadowIn .modular id id 1) 3) (by decide +kernel) (by decide +kernel)⟩

/-- State 2 has an internal row for event 0 that does nothing. -/
def innerIdle : Machine := Machine.ofList
  [ { table := some
        [ row (ini 1) (ev 0) none (some 1) (.st 2), row (.st 2) (ev 1) none (some 2) (.st 1) ] },
    { }, { itable := some [⟨ev 0, none, none⟩] } ] [1]

theorem innerIdle_regular : innerIdle.Regular := Machine.regular_ofList (by decide +kernel)
theorem innerIdle_regularG : innerIdle.RegularG := Machine.regularG_ofList (by decide +kernel)
theorem innerIdle_scoped : innerIdle.Scoped := Machine.scoped_of_check (by decide +kernel)

/-- The check of C91 refuses this machine, as the amalgamated header ignores the row; but no client can tell. -/
example : innerIdle.headersAlike (innerIdle.explore [] 4) = false ∧
    RefinesIn .modular .amalgamated innerIdle innerIdle id id ∧
    RefinesIn .amalgamated .modular innerIdle innerIdle id id :=
  ⟨by decide +kernel,
    C105_refines (h := .modular) (h' := .amalgamated) innerIdle_regular innerIdle_regularG
      (builtG innerIdle_regularG (by decide +kernel)) (k := 1)
      (S := innerIdle.watchIn .modular (innerIdle.shadowIn .amalgamated id id 1) 3) (by decide +kernel) (by decide +kernel),
    C105_refines (h := .amalgamated) (h' := .modular) innerIdle_regularG innerIdle_regular
      ⟨(Machine.scopesReal_iff innerIdle_regular).2 ⟨innerIdle_scoped.src, innerIdle_scoped.comp⟩,
        fun h => absurd h (by decide +kernel)⟩ (k := 1)
      (S := innerIdle.watchIn .amalgamated (innerIdle.shadowIn .modular id id 1) 3) (by decide +kernel) (by decide +kernel)⟩

/-- Some client of the amalgamated header observes what no client of the modular ones does: a deferred event is
handled after an event that every row refused. -/
theorem waiting_apart : ¬ RefinesIn .amalgamated .modular waiting waiting blind blind := fun h => by
  obtain ⟨ss, s, h1, h2⟩ := C105_apart (h := .amalgamated) (h' := .modular) (v := blind) (v' := blind) (k := 1)
    (n := 3) waiting_regularG waiting_regular (builtG waiting_regularG (by decide +kernel)) (by decide +kernel) 0
  obtain ⟨P', W', sem', ss', s', h3, h4⟩ := h _ _ _ _ _ _ h1
  exact h2 _ _ _ _ _ _ h3 h4

/-- The hypotheses of C105_either are met. -/
example : ∃ n, wicket.seesAllIn .modular (wicket.shadowIn .amalgamated id id 2)
      (wicket.watchIn .modular (wicket.shadowIn .amalgamated id id 2) n) = true ∧
    (shadowed (wicket.watchIn .modular (wicket.shadowIn .amalgamated id id 2) n) = true ↔
      RefinesIn .modular .amalgamated wicket wicket id id) :=
  C105_either (h := .modular) (h' := .amalgamated) wicket_regular wicket_regularG wicket_builds wicket_buildsG
    (by decide +kernel) (by decide +kernel) (k := 1)
    (Machine.within_of_calmG (S := wicket.exploreG 3) (k := 1) (by decide +kernel) (by decide +kernel) (Nat.le_refl 1))
    id id

end Ex

end Hsm

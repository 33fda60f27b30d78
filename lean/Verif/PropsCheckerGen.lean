import Verif.CheckerGen
import Verif.PropsChecker
import Verif.PropsHang
import Verif.PropsEndingGen

/-!
# C103: a checker for machines of the amalgamated header
-/

namespace Hsm

variable {P W : Type} {M : Machine} {sem : Sem P W} {U V : Prop}

/-- What `r` did is among the possibilities `rs`.  What callbacks themselves do wrong and missing
objects are not considered, these are to blame if `U`. -/
def AmongG {α β : Type} (U : Prop) (M : Machine) (φ : α → β) (r : Res (Conf P W) α) (rs : List (Res Spot β)) : Prop :=
  match r with
  | .ok a c => .ok (φ a) (M.sight c) ∈ rs ∧ c.deps ≠ [] ∧ ∀ e ∈ c.waiting, e.1 ∈ M.eventsG
  | .throw _ c => (∃ y, .throw y (M.sight c) ∈ rs) ∧ c.deps ≠ [] ∧ ∀ e ∈ c.waiting, e.1 ∈ M.eventsG
  | .ub u => .ub u ∈ rs ∨ (u = .callback ∨ u = .nullObject) ∧ U
  | .timeout => False

/-- The configuration is not broken. -/
def SaneG (M : Machine) (c : Conf P W) : Prop := c.deps ≠ [] ∧ ∀ e ∈ c.waiting, e.1 ∈ M.eventsG

theorem AmongG.bind {α β α' β' : Type} {φ : α → β} {φ' : α' → β'} {r : Res (Conf P W) α}
    {rs : List (Res Spot β)} {f : α → Conf P W → Res (Conf P W) α'} {f' : β → Spot → List (Res Spot β')}
    (h : AmongG U M φ r rs) (hf : ∀ a c, SaneG M c → AmongG U M φ' (f a c) (f' (φ a) (M.sight c))) :
    AmongG U M φ' (r.bind f) (branch rs f') := by
  cases r with
  | ok a c =>
    have h2 := hf a c h.2
    have key : ∀ x, x ∈ f' (φ a) (M.sight c) → x ∈ branch rs f' := fun x hx =>
      mem_branch.2 (Or.inl ⟨_, _, h.1, hx⟩)
    show AmongG U M φ' (f a c) _
    cases hr : f a c with
    | ok b c2 => rw [hr] at h2; exact ⟨key _ h2.1, h2.2⟩
    | throw x c2 => rw [hr] at h2; exact ⟨h2.1.imp fun y hy => key _ hy, h2.2⟩
    | ub u => rw [hr] at h2; exact h2.imp_left (key _)
    | timeout => rw [hr] at h2; exact h2.elim
  | throw x c =>
    obtain ⟨⟨y, hy⟩, h2⟩ := h
    exact ⟨⟨y, mem_branch.2 (Or.inr (Or.inl ⟨_, _, hy, rfl⟩))⟩, h2⟩
  | ub u => exact h.imp_left fun h => mem_branch.2 (Or.inr (Or.inr (Or.inl ⟨_, h, rfl⟩)))
  | timeout => exact h.elim

theorem AmongG.mono {α β : Type} {φ : α → β} {r : Res (Conf P W) α} {rs rs' : List (Res Spot β)}
    (h : AmongG U M φ r rs) (hs : ∀ x ∈ rs, x ∈ rs') : AmongG U M φ r rs' := by
  cases r with
  | ok a c => exact ⟨hs _ h.1, h.2⟩
  | throw x c => exact ⟨h.1.imp fun y hy => hs _ hy, h.2⟩
  | ub u => exact h.imp_left (hs _)
  | timeout => exact h.elim

namespace Machine

theorem perform_amongG (hU : Blames M sem U) (args : Args) : ∀ (cs : List (Phase × Cb)) (p : P) (c : Conf P W), SaneG M c →
    AmongG U M (fun _ => ()) (perform sem args cs p c)
      (match cs with
        | [] => [.ok () (M.sight c)]
        | _ :: _ => [.ok () (M.sight c), .throw (.user 0) (M.sight c)]) := by
  intro cs
  induction cs with
  | nil => intro p c h; exact ⟨List.mem_cons_self, h⟩
  | cons x cs ih =>
    intro p c h
    obtain ⟨ph, a⟩ := x
    rw [perform]
    cases ha : sem.action a args p c.world with
    | ok b p' w =>
      refine (ih p' { c with world := w, calls := _ } h).mono fun x hx => ?_
      cases cs with
      | nil => rw [List.mem_singleton.1 hx]; exact List.mem_cons_self
      | cons y ys => exact hx
    | throw k p' w => exact ⟨⟨_, List.mem_cons_of_mem _ List.mem_cons_self⟩, h⟩
    | ub => exact Or.inr ⟨Or.inl rfl, hU.actions _ _ _ _ ha⟩

theorem take_amongG (hU : Blames M sem U) (r : Nat) (ev : EventTy) (d : Dep) (cd : Cand) (t : XRow) (l : Name × StTy) (p : P)
    (c : Conf P W) (h : SaneG M c) :
    AmongG U M (fun _ => ()) (M.take sem r ev d cd t l p c) (M.mayTake r t l (M.sight c)) := by
  unfold take mayTake
  refine AmongG.bind (φ := fun _ => ()) ?_ fun _ c h => ?_
  · have ht := travel_sight (M := M) r t l c
    revert ht
    cases M.travel r t l c <;> intro ht
    · refine ⟨by rw [ht.1]; exact List.mem_cons_self, ?_, ?_⟩
      · rw [ht.2.2.1]; exact h.1
      · rw [ht.2.1]; exact h.2
    · exact ht.elim
    · exact Or.inl (by rw [ht]; exact List.mem_cons_self)
    · exact ht.elim
  · cases M.toRun t with
    | none => exact ⟨List.mem_cons_self, h⟩
    | some cs =>
      dsimp only
      split
      · refine (perform_amongG hU _ cs p c h).mono fun x hx => ?_
        cases cs <;> exact hx
      · next ha => exact Or.inr ⟨Or.inr rfl, hU.absent ha⟩

theorem attempt_amongG (hU : Blames M sem U) (anon : Bool) (r : Nat) {ev : EventTy} (hev : ev ∈ M.eventsG) :
    ∀ (cs : List (Dep × Cand)) (p : P) (c : Conf P W), SaneG M c →
    AmongG U M (·.1) (M.attempt sem anon r ev cs p c) (M.mayAttempt anon r (cs.map (·.2)) (M.sight c)) := by
  intro cs
  induction cs with
  | nil => intro p c h; exact ⟨List.mem_cons_self, h⟩
  | cons x cs ih =>
    intro p c h
    obtain ⟨d, cd⟩ := x
    rw [List.map_cons, attempt, mayAttempt]
    cases cd.row? with
    | none =>
      cases anon with
      | true => exact Or.inl List.mem_cons_self
      | false =>
        refine ⟨List.mem_cons_self, h.1, fun e he => ?_⟩
        rcases List.mem_append.1 he with he | he
        · exact h.2 e he
        · rw [List.mem_singleton.1 he]; exact hev
    | some t =>
      dsimp only
      cases M.targetLoc t with
      | none => exact Or.inl List.mem_cons_self
      | some l =>
        dsimp only
        have fire : ∀ p c, SaneG M c →
            AmongG U M (fun a : RegionOut × P => a.1)
              ((M.take sem r ev d cd t l p c).bind fun p c => .ok (RegionOut.fired, p) c)
              (branch (M.mayTake r t l (M.sight c)) fun _ n => [.ok RegionOut.fired n]) := fun p c h =>
          (take_amongG hU r ev d cd t l p c h).bind fun _ c h => ⟨List.mem_cons_self, h⟩
        unfold ask
        cases t.guard with
        | none => exact fire p c h
        | some g =>
          rw [if_neg (show ¬ some g = none from nofun)]
          dsimp only
          generalize (if t.internal then cd.src else l.2) = dst
          split
          · cases hg : sem.guard g ⟨ev, cd.src, dst, false, d⟩ p c.world with
            | ok b p' w =>
              cases b with
              | true =>
                refine (fire p' { c with world := w, calls := _ } h).mono fun x hx => ?_
                exact List.mem_cons_of_mem _ (List.mem_append_left _ hx)
              | false =>
                refine (ih p' { c with world := w, calls := _ } h).mono fun x hx => ?_
                exact List.mem_cons_of_mem _ (List.mem_append_right _ hx)
            | throw k p' w => exact ⟨⟨_, List.mem_cons_self⟩, h⟩
            | ub => exact Or.inr ⟨Or.inl rfl, hU.guards _ _ _ _ hg⟩
          · next ha =>
            refine Or.inr ⟨Or.inr rfl, ?_⟩
            by_cases h1 : M.present sem cd.src c = true
            · by_cases h2 : M.present sem dst c = true
              · exact absurd (by rw [h1, h2]; rfl) ha
              · exact hU.absent h2
            · exact hU.absent h1

theorem visit_amongG (hU : Blames M sem U) (anon : Bool) (r : Nat) {ev : EventTy} (hev : ev ∈ M.eventsG) (p : P) (c : Conf P W)
    (h : SaneG M c) :
    AmongG U M (·.1) (M.visitG sem anon r ev p c) (M.mayVisitG anon r ev (M.sight c)) := by
  unfold visitG mayVisitG seek
  show AmongG U M _ _ (match c.slots[r]? with | none => _ | some none => _ | some (some l) => _)
  cases c.slots[r]? with
  | none => exact Or.inl List.mem_cons_self
  | some o =>
    cases o with
    | none => exact Or.inl List.mem_cons_self
    | some l =>
      show AmongG U M _ (if _ then _ else _) (if _ then _ else _)
      split
      · split
        · exact ⟨List.mem_cons_self, h⟩
        · exact (attempt_amongG hU anon r hev _ p c h).mono fun x hx => mayAttempt_repeat anon r _ _ x h.1 hx
      · exact Or.inl List.mem_cons_self

theorem sweep_amongG (hU : Blames M sem U) {ev : EventTy} (hev : ev ∈ M.eventsG) : ∀ (rs : List Nat) (os : List RegionOut) (p : P)
    (c : Conf P W), SaneG M c →
    AmongG U M (·.1) (M.sweepG sem ev rs os p c) (M.maySweepG ev rs os (M.sight c)) := by
  intro rs
  induction rs with
  | nil => intro os p c h; exact ⟨List.mem_cons_self, h⟩
  | cons r rs ih =>
    intro os p c h
    unfold sweepG maySweepG
    refine (visit_amongG hU false r hev p c h).bind fun o c h => ?_
    split
    · exact ⟨List.mem_cons_self, h⟩
    · exact ih _ o.2 c h

theorem round_amongG (hU : Blames M sem U) (hev : EventTy.none ∈ M.eventsG) : ∀ (rs : List Nat) (os : List RegionOut)
    (c : Conf P W), SaneG M c →
    AmongG U M id (M.roundG sem rs os c) (M.mayRoundG rs os (M.sight c)) := by
  intro rs
  induction rs with
  | nil => intro os c h; exact ⟨List.mem_cons_self, h⟩
  | cons r rs ih =>
    intro os c h
    unfold roundG mayRoundG
    refine (visit_amongG hU true r hev _ c h).bind fun o c h => ?_
    split
    · exact ⟨List.mem_cons_self, h⟩
    · exact ih _ c h

theorem complain_amongG (hU : Blames M sem U) (ev : EventTy) (p : P) (c : Conf P W) (h : SaneG M c) :
    AmongG U M id (M.complain sem ev p c) (M.mayComplain (M.sight c)) := by
  unfold complain mayComplain
  cases (M.decl M.root).handler with
  | none => exact ⟨List.mem_cons_self, h⟩
  | some hd =>
    unfold seek
    show AmongG U M _ _ (match c.slots[0]? with | none => _ | some none => _ | some (some l) => _)
    cases c.slots[0]? with
    | none => exact Or.inl List.mem_cons_self
    | some o =>
      cases o with
      | none => exact Or.inl List.mem_cons_self
      | some l =>
        show AmongG U M _ (if _ then _ else _) (if _ then _ else _)
        split
        · split
          · cases hh : sem.handler hd ev l.2 c.first p c.world with
            | ok b p' w => exact ⟨List.mem_cons_self, h⟩
            | throw k p' w => exact ⟨⟨_, List.mem_cons_of_mem _ List.mem_cons_self⟩, h⟩
            | ub => exact Or.inr ⟨Or.inl rfl, hU.handlers _ _ _ _ _ _ hh⟩
          · next ha => exact Or.inr ⟨Or.inr rfl, hU.absent ha⟩
        · exact ⟨⟨_, List.mem_cons_self⟩, h⟩

theorem mayVisit_stayG (anon : Bool) (r : Nat) (ev : EventTy) (n : Spot) {o : RegionOut} {n' : Spot}
    (ho : o ≠ .fired) (h : .ok o n' ∈ M.mayVisitG anon r ev n) : n' = n := by
  unfold mayVisitG at h
  split at h
  · cases List.mem_singleton.1 h
  · cases List.mem_singleton.1 h
  · split at h
    · split at h
      · injection List.mem_singleton.1 h
      · exact mayAttempt_stay anon r n ho _ h
    · cases List.mem_singleton.1 h

theorem maySweep_monoG (ev : EventTy) {os' : List RegionOut} {n' : Spot} : ∀ (rs : List Nat)
    (os : List RegionOut) (n : Spot), .ok os' n' ∈ M.maySweepG ev rs os n → ∀ o ∈ os, o ∈ os' := by
  intro rs
  induction rs with
  | nil => intro os n h o ho; injection List.mem_singleton.1 h with h1; rw [h1]; exact ho
  | cons r rs ih =>
    intro os n h o ho
    rw [maySweepG] at h
    rcases mem_branch.1 h with ⟨o', n1, _, h⟩ | ⟨_, _, _, h⟩ | ⟨_, _, h⟩ | ⟨_, h⟩
    · split at h
      · injection List.mem_singleton.1 h with h1; rw [h1]; exact List.mem_append_left _ ho
      · exact ih _ n1 h o (List.mem_append_left _ ho)
    · cases h
    · cases h
    · cases h

theorem maySweep_stayG (ev : EventTy) {os' : List RegionOut} {n' : Spot} (ho : .fired ∉ os') :
    ∀ (rs : List Nat) (os : List RegionOut) (n : Spot), .ok os' n' ∈ M.maySweepG ev rs os n → n' = n := by
  intro rs
  induction rs with
  | nil => intro os n h; injection List.mem_singleton.1 h
  | cons r rs ih =>
    intro os n h
    rw [maySweepG] at h
    rcases mem_branch.1 h with ⟨o', n1, h1, h2⟩ | ⟨_, _, _, h⟩ | ⟨_, _, h⟩ | ⟨_, h⟩
    · have hne : o' ≠ .fired := by
        rintro rfl
        rw [if_neg (by decide)] at h2
        exact ho (maySweep_monoG ev rs _ n1 h2 _ (List.mem_append_right _ List.mem_cons_self))
      have := mayVisit_stayG false r ev n hne h1
      subst this
      split at h2
      · injection List.mem_singleton.1 h2
      · exact ih _ n1 h2
    · cases h
    · cases h
    · cases h

end Machine

/-- The machine comes to a spot of its walks; what is undefined happens there. -/
def OnWalkG {α : Type} (U V : Prop) (M : Machine) (Q : α → Conf P W → Prop) : Res (Conf P W) α → Prop
  | .ok a c => M.WalkG false (M.sight c) ∧ SaneG M c ∧ Q a c
  | .throw _ c => M.WalkG false (M.sight c) ∧ SaneG M c
  | .ub u => (∃ b n, M.WalkG b n ∧ .ub u ∈ M.nextG b n) ∨ (u = .callback ∨ u = .nullObject) ∧ U
  | .timeout => V

theorem OnWalkG.bind {α β : Type} {Q : α → Conf P W → Prop} {Q' : β → Conf P W → Prop}
    {r : Res (Conf P W) α} {f : α → Conf P W → Res (Conf P W) β} (h : OnWalkG U V M Q r)
    (hf : ∀ a c, M.WalkG false (M.sight c) → SaneG M c → Q a c → OnWalkG U V M Q' (f a c)) :
    OnWalkG U V M Q' (r.bind f) := by
  cases r with
  | ok a c => exact hf a c h.1 h.2.1 h.2.2
  | throw x c => exact h
  | ub u => exact h
  | timeout => exact h

namespace Machine

theorem settle_onWalkG (hU : Blames M sem U) (hev : EventTy.none ∈ M.eventsG) : ∀ (fuel : Nat) (c : Conf P W),
    (V ∨ M.withinG fuel (M.sight c) = true) → M.WalkG true (M.sight c) → SaneG M c →
    OnWalkG U V M (fun _ _ => True) (M.settleG sem fuel c) := by
  intro fuel
  induction fuel with
  | zero => intro c hV _ _; exact hV.resolve_right nofun
  | succ fuel ih =>
    intro c hV hw hs
    unfold settleG
    have h := round_amongG hU hev (M.taking c) [] c hs
    have e : M.mayRoundG (M.taking c) [] (M.sight c) = M.nextG true (M.sight c) := rfl
    rw [e] at h
    cases hr : M.roundG sem (M.taking c) [] c with
    | ok a c' =>
      rw [hr] at h
      show OnWalkG U V M _ (if a then _ else _)
      obtain ⟨h1, h2⟩ := h
      cases a with
      | true =>
        refine ih c' (hV.imp_right fun h => ?_) (hw.ok h1) h2
        rw [withinG] at h
        exact List.all_eq_true.1 h _ h1
      | false => exact ⟨hw.ok h1, h2, trivial⟩
    | throw x c' =>
      rw [hr] at h
      obtain ⟨⟨y, hy⟩, h2⟩ := h
      exact ⟨hw.throw hy, h2⟩
    | ub u =>
      rw [hr] at h
      exact h.imp_left fun h => ⟨true, _, hw, h⟩
    | timeout => rw [hr] at h; exact h.elim

theorem none_eventG (h : M.anonymous = true) : EventTy.none ∈ M.eventsG := by
  unfold anonymous at h
  obtain ⟨t, ht, he⟩ := of_decide_eq_true h
  unfold eventsG
  rw [List.mem_eraseDups, List.mem_map]
  exact ⟨t, List.mem_append_left _ ht, he⟩

theorem next_eventG {ev : EventTy} (hev : ev ∈ M.eventsG) {n : Spot} {x : Res Spot Bool}
    (h : x ∈ M.mayReceiveG ev n) : x ∈ M.nextG false n := List.mem_flatMap.2 ⟨ev, hev, h⟩

theorem handle_onWalkG (hU : Blames M sem U) (fuel : Nat)
    (hV : V ∨ ∀ n, M.WalkG true n → M.withinG fuel n = true) {ev : EventTy} (hev : ev ∈ M.eventsG) (p : P) (c : Conf P W)
    (hw : M.WalkG false (M.sight c)) (hs : SaneG M c) :
    OnWalkG U V M (fun a c' => .deferred ∉ a.1 → .fired ∉ a.1 → .rejected ∉ a.1 →
        ∀ x ∈ branch (M.mayComplain (M.sight c')) fun _ n => [.ok false n],
          ∃ n, M.WalkG false n ∧ x ∈ M.nextG false n)
      (M.handleG sem fuel ev p c) := by
  unfold handleG
  have h := sweep_amongG hU hev (M.taking c) [] p c hs
  have e : M.taking c = M.involved (M.sight c) := rfl
  rw [e] at h ⊢
  cases hr : M.sweepG sem ev (M.involved (M.sight c)) [] p c with
  | ok a c' =>
    rw [hr] at h
    obtain ⟨h1, h2⟩ := h
    dsimp only at h1
    have key : ∀ {x : Res Spot Bool}, x ∈ (if .deferred ∈ a.1 then [.ok false (M.sight c')]
          else if .fired ∈ a.1 then [.ok M.anonymous (M.sight c')]
          else if .rejected ∈ a.1 then [.ok false (M.sight c')]
          else branch (M.mayComplain (M.sight c')) fun _ n => [.ok false n]) →
        x ∈ M.nextG false (M.sight c) := fun hx =>
      next_eventG hev (mem_branch.2 (Or.inl ⟨_, _, h1, hx⟩))
    show OnWalkG U V M _ (if _ then _ else _)
    by_cases hd : .deferred ∈ a.1
    · rw [if_neg fun h => h.1 hd]
      refine ⟨hw.ok (key (by rw [if_pos hd]; exact List.mem_cons_self)), h2, fun h => absurd hd h⟩
    by_cases hf : .fired ∈ a.1
    · have hk := hw.ok (key (x := .ok M.anonymous (M.sight c'))
        (by rw [if_neg hd, if_pos hf]; exact List.mem_cons_self))
      cases ha : M.anonymous with
      | true =>
        rw [ha] at hk
        rw [if_pos ⟨hd, hf, rfl⟩]
        refine (settle_onWalkG hU (none_eventG ha) fuel c' (hV.imp_right fun h => h _ hk) hk h2).bind fun _ c hw hs _ => ?_
        exact ⟨hw, hs, fun _ h => absurd hf h⟩
      | false =>
        rw [ha] at hk
        rw [if_neg (by simp)]
        exact ⟨hk, h2, fun _ h => absurd hf h⟩
    rw [if_neg fun h => hf h.2.1]
    have hst := maySweep_stayG ev hf _ _ _ h1
    refine ⟨by rw [hst]; exact hw, h2, fun _ _ hj x hx => ⟨_, hw, key ?_⟩⟩
    rw [if_neg hd, if_neg hf, if_neg hj]
    exact hx
  | throw x c' =>
    rw [hr] at h
    obtain ⟨⟨y, hy⟩, h2⟩ := h
    exact ⟨hw.throw (next_eventG hev (mem_branch.2 (Or.inr (Or.inl ⟨_, _, hy, rfl⟩)))), h2⟩
  | ub u =>
    rw [hr] at h
    exact h.imp_left fun h => ⟨false, _, hw, next_eventG hev (mem_branch.2 (Or.inr (Or.inr (Or.inl ⟨_, h, rfl⟩))))⟩
  | timeout => rw [hr] at h; exact h.elim

theorem receive_onWalkG (hU : Blames M sem U) (fuel : Nat)
    (hV : V ∨ ∀ n, M.WalkG true n → M.withinG fuel n = true) {ev : EventTy} (hev : ev ∈ M.eventsG) (p : P) (c : Conf P W)
    (hw : M.WalkG false (M.sight c)) (hs : SaneG M c) :
    OnWalkG U V M (fun _ _ => True) (M.receiveG sem fuel ev p c) := by
  unfold receiveG
  refine (handle_onWalkG hU fuel hV hev p c hw hs).bind fun a c hw hs hq => ?_
  split
  · next hn =>
    have h := (complain_amongG hU ev a.2 c hs).bind (f := fun _ c => .ok () c)
      (φ' := fun _ => false) (f' := fun _ n => [.ok false n]) fun _ c h => ⟨List.mem_cons_self, h⟩
    have hq := hq (fun h => nomatch hn _ h) (fun h => nomatch hn _ h) (fun h => nomatch hn _ h)
    have e : (M.complain sem ev a.2 c).bind (fun _ c => Res.ok () c) = M.complain sem ev a.2 c := by
      cases M.complain sem ev a.2 c <;> rfl
    rw [e] at h
    revert h
    cases M.complain sem ev a.2 c with
    | ok b c' =>
      intro h
      obtain ⟨n, hn, hx⟩ := hq _ h.1
      exact ⟨hn.ok hx, h.2, trivial⟩
    | throw x c' =>
      intro h
      obtain ⟨⟨y, hy⟩, h⟩ := h
      obtain ⟨n, hn, hx⟩ := hq _ hy
      exact ⟨hn.throw hx, h⟩
    | ub u =>
      intro h
      refine h.imp_left fun h => ?_
      obtain ⟨n, hn, hx⟩ := hq _ h
      exact ⟨_, n, hn, hx⟩
    | timeout => intro h; exact h.elim
  · unfold replayG
    split
    · exact ⟨hw, hs, trivial⟩
    · next ev' p' q hq =>
      split
      · refine (handle_onWalkG hU fuel hV (hs.2 (ev', p') (by rw [hq]; exact List.mem_cons_self)) p'
          { c with waiting := q } hw
          ⟨hs.1, fun e he => hs.2 e (by rw [hq]; exact List.mem_cons_of_mem _ he)⟩).bind
          fun _ c hw hs _ => ?_
        exact ⟨hw, hs, trivial⟩
      · exact ⟨hw, hs, trivial⟩

/-- Every client's machine is at a spot of the walks. -/
theorem reachG_walk (hM : M.RegularG) {d : Dep} {ops : List (OpG P)} {s : SM P W} (h : RunToG M sem d ops s) :
    M.ScopesRealG ∧ ∃ c, DepictsG M c s ∧ M.WalkG false (M.sight c) ∧ ∀ e ∈ c.waiting, e.1 ∈ M.eventsG := by
  have key : ∀ {fuel : Nat} {op : OpG P} {c : Conf P W} {s : SM P W}, M.ScopesRealG → OpOkG M op → DepictsG M c s →
      M.WalkG false (M.sight c) → (∀ e ∈ c.waiting, e.1 ∈ M.eventsG) →
      match stepG M sem fuel op s with
      | .ok _ s' => ∃ c, DepictsG M c s' ∧ M.WalkG false (M.sight c) ∧ ∀ e ∈ c.waiting, e.1 ∈ M.eventsG
      | .throw _ s' => ∃ c, DepictsG M c s' ∧ M.WalkG false (M.sight c) ∧ ∀ e ∈ c.waiting, e.1 ∈ M.eventsG
      | _ => True := by
    intro fuel op c s hS hop hc hw hq
    have hs := C82_step (sem := sem) hc hM hS fuel hop
    have hk : match M.execG sem fuel op c with
        | .ok _ c' => M.WalkG false (M.sight c') ∧ ∀ e ∈ c'.waiting, e.1 ∈ M.eventsG
        | .throw _ c' => M.WalkG false (M.sight c') ∧ ∀ e ∈ c'.waiting, e.1 ∈ M.eventsG
        | _ => True := by
      cases op with
      | process ev p =>
        have := receive_onWalkG (V := True) (Blames.all M sem) fuel (Or.inl trivial)
          (by rw [Machine.eventsG_eq hM.laid]; exact hop) p c hw ⟨hc.bound, hq⟩
        show match M.receiveG sem fuel ev p c with | .ok _ c' => _ | .throw _ c' => _ | _ => True
        revert this
        cases M.receiveG sem fuel ev p c with
        | ok b c' => intro h; exact ⟨h.1, h.2.1.2⟩
        | throw x c' => intro h; exact ⟨h.1, h.2.2⟩
        | ub u => intro _; trivial
        | timeout => intro _; trivial
      | setDependency d' => exact ⟨hw, hq⟩
    revert hs hk
    cases stepG M sem fuel op s <;> cases M.execG sem fuel op c <;> intro hs hk <;>
      first | exact hs.elim | exact ⟨_, hs.2, hk⟩ | trivial
  induction h with
  | @init w s h =>
    obtain ⟨h1, _, h2⟩ := C82_construct (P := P) hM d w
    exact ⟨(h1.1 ⟨s, h⟩).1, _, h2 s h, .start, fun e he => nomatch he⟩
  | @ok s t ops op fuel hr hop h ih =>
    obtain ⟨hS, c, hc, hw, hq⟩ := ih
    have := key (fuel := fuel) hS hop hc hw hq
    rw [h] at this
    exact ⟨hS, this⟩
  | @throw s t ops op fuel x hr hop h ih =>
    obtain ⟨hS, c, hc, hw, hq⟩ := ih
    have := key (fuel := fuel) hS hop hc hw hq
    rw [h] at this
    exact ⟨hS, this⟩
  | @world s ops hr w ih =>
    obtain ⟨hS, c, hc, hw, hq⟩ := ih
    exact ⟨hS, { c with world := w }, { hc with world := rfl }, hw, hq⟩


end Machine

variable {tape : Sem Unit W} {T : Dictates tape}

namespace Machine

/-- Nothing is deferred. -/
theorem no_deferG (hd : M.deferring = false) {ev : EventTy} {p : Name} {st : StTy} {cd : Cand}
    (h : cd ∈ M.candsG ev p st) : cd.row? ≠ none := by
  intro h0
  have h1 : cd = .defer := by cases cd <;> first | rfl | cases h0
  rw [h1] at h
  have h2 : Cand.defer ∈ M.cands ev p st := by
    unfold candsG at h
    unfold cands
    rcases List.mem_append.1 h with h | h
    · rcases List.mem_append.1 h with h | h
      · exact List.mem_append_left _ (List.mem_append_left _ h)
      · exact List.mem_append_left _ (List.mem_append_right _ h)
    · exfalso
      obtain ⟨t, _, ht⟩ := List.mem_flatMap.1 h
      unfold intCands at ht
      split at ht
      · cases List.mem_singleton.1 ht
      · cases ht
  rw [deferring_of_cands h2] at hd
  cases hd

theorem visit_realisesG (anon : Bool) (r : Nat) (ev : EventTy) (n : Spot)
    (x : Res Spot RegionOut) (hd : ∀ n', x ≠ .ok .deferred n') (hx : x ∈ M.mayVisitG anon r ev n) :
    Realises T M (fun o => (o, ())) (M.visitG tape anon r ev ()) n x := by
  have key : ∀ c, Lone M n c → M.visitG tape anon r ev () c =
      match n.slots[r]? with
      | none => .ub .bounds
      | some none => .ub .uninit
      | some (some l) =>
        if l.1 ∈ M.composites then
          if M.candsG ev l.1 l.2 = [] then .ok (.none, ()) c
          else M.attempt tape anon r ev ((M.candsG ev l.1 l.2).map fun cd => (0, cd)) () c
        else .ub .bounds := by
    intro c hc
    unfold visitG seek
    rw [show n.slots = c.slots from by rw [← hc.1]; rfl]
    cases c.slots[r]? with
    | none => rfl
    | some o =>
      cases o with
      | none => rfl
      | some l =>
        show (if _ then _ else _) = _
        rw [hc.2.1]
        simp only [List.flatMap_cons, List.flatMap_nil, List.append_nil]
  unfold mayVisitG at hx
  suffices h : Realises T M (fun o => (o, ())) (fun c => match n.slots[r]? with
      | none => .ub .bounds
      | some none => .ub .uninit
      | some (some l) =>
        if l.1 ∈ M.composites then
          if M.candsG ev l.1 l.2 = [] then .ok (.none, ()) c
          else M.attempt tape anon r ev ((M.candsG ev l.1 l.2).map fun cd => (0, cd)) () c
        else .ub .bounds) n x by
    obtain ⟨v, hv⟩ := h
    refine ⟨v, fun c rest hc hw => ?_⟩
    rw [key c hc]
    exact hv c rest hc hw
  cases hs : n.slots[r]? with
  | none =>
    rw [hs] at hx
    rw [List.mem_singleton.1 hx]
    exact ⟨[], fun c rest hc hw => rfl⟩
  | some o =>
    rw [hs] at hx
    cases o with
    | none =>
      rw [List.mem_singleton.1 hx]
      exact ⟨[], fun c rest hc hw => rfl⟩
    | some l =>
      dsimp only at hx ⊢
      by_cases hl : l.1 ∈ M.composites
      · simp only [if_pos hl] at hx ⊢
        by_cases hc : M.candsG ev l.1 l.2 = []
        · simp only [if_pos hc] at hx ⊢
          rw [List.mem_singleton.1 hx]
          exact .done
        · simp only [if_neg hc] at hx ⊢
          exact attempt_realises anon r ev n x 0 _ hd hx
      · simp only [if_neg hl] at hx ⊢
        rw [List.mem_singleton.1 hx]
        exact ⟨[], fun c rest hc hw => rfl⟩

theorem sweep_realisesG (ev : EventTy) (x : Res Spot (List RegionOut))
    (hd : ∀ os n', x = .ok os n' → .deferred ∉ os) :
    ∀ (rs : List Nat) (os : List RegionOut) (n : Spot), x ∈ M.maySweepG ev rs os n →
    Realises T M (fun o => (o, ())) (M.sweepG tape ev rs os ()) n x := by
  intro rs
  induction rs with
  | nil => intro os n hx; rw [List.mem_singleton.1 hx]; exact .done
  | cons r rs ih =>
    intro os n hx
    rw [maySweepG] at hx
    have e : M.sweepG tape ev (r :: rs) os () = fun c =>
        (M.visitG tape false r ev () c).bind fun o c =>
          if o.1 = .deferred then .ok (os ++ [.deferred], o.2) c
          else M.sweepG tape ev rs (os ++ [o.1]) o.2 c := funext fun c => by rw [sweepG]
    rw [e]
    refine Realises.bind (ψ := fun o => (o, ())) hx (fun y hy h => visit_realisesG false r ev n y ?_ hy)
      fun o n' _ hx => ?_
    · rintro n' rfl
      have := h _ _ rfl
      rw [if_pos rfl] at this
      exact hd _ _ (List.mem_singleton.1 this) (List.mem_append_right _ List.mem_cons_self)
    dsimp only
    by_cases ho : o = .deferred
    · simp only [if_pos ho] at hx ⊢
      rw [List.mem_singleton.1 hx]; exact .done
    · simp only [if_neg ho] at hx ⊢
      exact ih _ n' hx

theorem mayVisit_anonG (r : Nat) (n n' : Spot) : .ok .deferred n' ∉ M.mayVisitG true r .none n := by
  unfold mayVisitG
  split
  · intro h; cases List.mem_singleton.1 h
  · intro h; cases List.mem_singleton.1 h
  · split
    · split
      · intro h; cases List.mem_singleton.1 h
      · exact mayAttempt_anon r n n' _
    · intro h; cases List.mem_singleton.1 h

theorem round_realisesG (x : Res Spot Bool) :
    ∀ (rs : List Nat) (os : List RegionOut) (n : Spot), x ∈ M.mayRoundG rs os n →
    Realises T M id (M.roundG tape rs os) n x := by
  intro rs
  induction rs with
  | nil => intro os n hx; rw [List.mem_singleton.1 hx]; exact .done (ψ := id)
  | cons r rs ih =>
    intro os n hx
    rw [mayRoundG] at hx
    have e : M.roundG tape (r :: rs) os = fun c =>
        (M.visitG tape true r .none () c).bind fun o c =>
          if o.1 = .none then .ok false c
          else M.roundG tape rs (os ++ [o.1]) c := funext fun c => by rw [roundG]
    rw [e]
    refine Realises.bind (ψ := fun o => (o, ())) hx (fun y hy _ => visit_realisesG true r .none n y
      (by rintro n' rfl; exact mayVisit_anonG r n n' hy) hy)
      fun o n' _ hx => ?_
    dsimp only
    by_cases ho : o = .none
    · simp only [if_pos ho] at hx ⊢
      rw [List.mem_singleton.1 hx]; exact .done (ψ := id)
    · simp only [if_neg ho] at hx ⊢
      exact ih _ n' hx

theorem replay_idleG (fuel : Nat) {c : Conf P W} (hc : c.waiting = []) :
    M.replayG sem fuel c = .ok () c := by
  unfold replayG
  rw [hc]

theorem mayVisit_nodeferG (hd : M.deferring = false) (anon : Bool) (r : Nat) (ev : EventTy) (n n' : Spot) :
    .ok .deferred n' ∉ M.mayVisitG anon r ev n := by
  have key : ∀ cs : List Cand, (∀ cd ∈ cs, cd.row? ≠ none) → .ok .deferred n' ∉ M.mayAttempt anon r cs n := by
    intro cs
    induction cs with
    | nil => intro _ h; cases List.mem_singleton.1 h
    | cons cd cs ih =>
      intro hcs
      have ih := ih fun cd h => hcs cd (List.mem_cons_of_mem _ h)
      rw [mayAttempt]
      cases hr : cd.row? with
      | none => exact absurd hr (hcs cd List.mem_cons_self)
      | some t =>
        dsimp only
        cases M.targetLoc t with
        | none => intro h; cases List.mem_singleton.1 h
        | some l =>
          have fire : .ok .deferred n' ∉
              branch (M.mayTake r t l n) fun _ n => [.ok RegionOut.fired n] := by
            intro h
            rcases mem_branch.1 h with ⟨_, _, _, h⟩ | ⟨_, _, _, h⟩ | ⟨_, _, h⟩ | ⟨_, h⟩
            · cases List.mem_singleton.1 h
            · cases h
            · cases h
            · cases h
          dsimp only
          split
          · exact fire
          · intro h
            rcases List.mem_cons.1 h with h | h
            · cases h
            rcases List.mem_append.1 h with h | h
            · exact fire h
            · exact ih h
  unfold mayVisitG
  split
  · intro h; cases List.mem_singleton.1 h
  · intro h; cases List.mem_singleton.1 h
  · split
    · split
      · intro h; cases List.mem_singleton.1 h
      · exact key _ fun cd h => no_deferG hd h
    · intro h; cases List.mem_singleton.1 h

/-- Before an event is deferred, nothing moved. -/
theorem maySweep_deferredG (hd : M.deferring = false ∨ M.orthogonal = false) (ev : EventTy) {n n' : Spot}
    {os : List RegionOut} (h : .ok os n' ∈ M.maySweepG ev (M.involved n) [] n) (ho : .deferred ∈ os) :
    n' = n := by
  rcases hd with hd | hd
  · exfalso
    have key : ∀ (rs : List Nat) (os' : List RegionOut) (n : Spot), .deferred ∉ os' →
        .ok os n' ∉ M.maySweepG ev rs os' n := by
      intro rs
      induction rs with
      | nil => intro os' n h0 h; cases List.mem_singleton.1 h; exact h0 ho
      | cons r rs ih =>
        intro os' n h0 h
        rw [maySweepG] at h
        rcases mem_branch.1 h with ⟨o', n1, h1, h2⟩ | ⟨_, _, _, h⟩ | ⟨_, _, h⟩ | ⟨_, h⟩
        · have hne : o' ≠ .deferred := by
            rintro rfl
            exact mayVisit_nodeferG hd _ _ _ _ _ h1
          rw [if_neg hne] at h2
          refine ih _ _ (fun hm => ?_) h2
          rcases List.mem_append.1 hm with hm | hm
          · exact h0 hm
          · exact hne (List.mem_singleton.1 hm).symm
        · cases h
        · cases h
        · cases h
    exact key _ _ _ List.not_mem_nil h
  · have e : M.involved n = [0] := by unfold involved; rw [hd]; rfl
    rw [e, maySweepG] at h
    rcases mem_branch.1 h with ⟨o', n1, h1, h2⟩ | ⟨_, _, _, h⟩ | ⟨_, _, h⟩ | ⟨_, h⟩
    · by_cases hne : o' = .deferred
      · rw [if_pos hne] at h2
        cases List.mem_singleton.1 h2
        exact mayVisit_stayG _ _ _ _ (by rw [hne]; nofun) h1
      · rw [if_neg hne] at h2
        cases List.mem_singleton.1 h2
        exact absurd (List.mem_singleton.1 ho).symm hne
    · cases h
    · cases h
    · cases h

/-- What one event may do is done for some script. -/
theorem receive_realisesG (hd : M.deferring = false ∨ M.orthogonal = false) (ev : EventTy) (n : Spot)
    (x : Res Spot Bool) (hx : x ∈ M.mayReceiveG ev n) : x = .ok false n ∨
    ∃ v, ∀ c rest, Lone M n c → c.world = T.feed v rest → ∀ fuel,
      match x with
      | .ok false n' => ∃ c', M.receiveG tape fuel ev () c = .ok () c' ∧ Lone M n' c'
      | .ok true n' => ∃ c', Lone M n' c' ∧ c'.world = rest ∧
          M.receiveG tape fuel ev () c = (M.settleG tape fuel c').bind fun _ c =>
            M.replayG tape fuel c
      | .throw _ n' => ∃ y c', M.receiveG tape fuel ev () c = .throw y c' ∧ Lone M n' c'
      | .ub u => M.receiveG tape fuel ev () c = .ub u
      | .timeout => False := by
  unfold mayReceiveG at hx
  rcases mem_branch.1 hx with ⟨os, n1, h1, h2⟩ | ⟨y, n1, h1, rfl⟩ | ⟨u, h1, rfl⟩ | ⟨h1, rfl⟩
  · by_cases hdf : .deferred ∈ os
    · rw [if_pos hdf] at h2
      rw [List.mem_singleton.1 h2, maySweep_deferredG hd ev h1 hdf]
      exact Or.inl rfl
    rw [if_neg hdf] at h2
    refine Or.inr ?_
    obtain ⟨v1, hv1⟩ := sweep_realisesG (T := T) ev _ (by rintro _ _ e; cases e; exact hdf) _ _ n h1
    -- up to the unexpected-event handler
    have key : ∀ c rest, Lone M n c → c.world = T.feed v1 rest → ∃ c1, Lone M n1 c1 ∧ c1.world = rest ∧
        ∀ fuel, M.receiveG tape fuel ev () c =
          if .fired ∈ os then
            if M.anonymous then (M.settleG tape fuel c1).bind fun _ c => M.replayG tape fuel c
            else .ok () c1
          else if .rejected ∈ os then .ok () c1
          else M.complain tape ev () c1 := by
      intro c rest hc hw
      obtain ⟨c1, e1, hc1, hw1⟩ := hv1 c rest hc hw
      refine ⟨c1, hc1, hw1, fun fuel => ?_⟩
      have e : M.taking c = M.involved n := by rw [← hc.1]; rfl
      unfold receiveG handleG
      rw [e, e1]
      by_cases hf : .fired ∈ os
      · have hn : ¬ ∀ o ∈ os, o = RegionOut.none := fun h => nomatch h _ hf
        rw [if_pos hf]
        show Res.bind (if _ then _ else _) _ = _
        cases ha : M.anonymous with
        | false =>
          rw [if_neg (by simp)]
          show (if _ then _ else _) = _
          rw [if_neg hn, replay_idleG _ hc1.2.2]
          rfl
        | true =>
          rw [if_pos ⟨hdf, hf, rfl⟩, if_pos rfl]
          show Res.bind (Res.bind _ _) _ = Res.bind (M.settleG tape fuel c1) _
          cases M.settleG tape fuel c1 with
          | ok a c2 =>
            show (if _ then _ else _) = _
            rw [if_neg hn]
            rfl
          | throw x c2 => rfl
          | ub u => rfl
          | timeout => rfl
      · rw [if_neg hf]
        show Res.bind (if _ then _ else _) _ = _
        rw [if_neg fun h => hf h.2.1]
        show (if _ then _ else _) = _
        by_cases hj : .rejected ∈ os
        · rw [if_neg (fun h => nomatch h _ hj), if_pos hj, replay_idleG _ hc1.2.2]
        · rw [if_neg hj, if_pos]
          intro o ho
          cases o with
          | none => rfl
          | rejected => exact absurd ho hj
          | fired => exact absurd ho hf
          | deferred => exact absurd ho hdf
    by_cases hf : .fired ∈ os
    · rw [if_pos hf] at h2
      rw [List.mem_singleton.1 h2]
      refine ⟨v1, fun c rest hc hw fuel => ?_⟩
      obtain ⟨c1, hc1, hw1, hk⟩ := key c rest hc hw
      have hk := hk fuel
      rw [if_pos hf] at hk
      cases ha : M.anonymous with
      | true => rw [ha, if_pos rfl] at hk; exact ⟨c1, hc1, hw1, hk⟩
      | false => rw [ha, if_neg (by simp)] at hk; exact ⟨c1, hk, hc1⟩
    rw [if_neg hf] at h2
    by_cases hj : .rejected ∈ os
    · rw [if_pos hj] at h2
      rw [List.mem_singleton.1 h2]
      refine ⟨v1, fun c rest hc hw fuel => ?_⟩
      obtain ⟨c1, hc1, hw1, hk⟩ := key c rest hc hw
      exact ⟨c1, by rw [hk, if_neg hf, if_pos hj], hc1⟩
    rw [if_neg hj] at h2
    obtain ⟨v2, hv2⟩ := Realises.bind (T := T) (M := M) (g := M.complain tape ev ()) (ψ := id) (ψ' := fun _ => ())
      (f := fun _ c => .ok () c) h2 (fun y hy _ => complain_realises ev n1 y hy)
      fun _ n' _ hx => by
        rw [List.mem_singleton.1 hx]
        exact .done (ψ := fun _ : Bool => ()) (b := false)
    have eb : ∀ c, (M.complain tape ev () c).bind (fun _ c => Res.ok () c) = M.complain tape ev () c := by
      intro c
      cases M.complain tape ev () c <;> rfl
    refine ⟨v1 ++ v2, fun c rest hc hw fuel => ?_⟩
    obtain ⟨c1, hc1, hw1, hk⟩ := key c (T.feed v2 rest) hc (by rw [hw, T.feed_append])
    have hk := hk fuel
    rw [if_neg hf, if_neg hj] at hk
    have h3 := hv2 c1 rest hc1 hw1
    simp only [eb] at h3
    rw [hk]
    rcases mem_branch.1 h2 with ⟨_, n2, _, h2⟩ | ⟨y, n2, _, rfl⟩ | ⟨u, _, rfl⟩ | ⟨_, rfl⟩
    · rw [List.mem_singleton.1 h2] at h3 ⊢
      obtain ⟨c', e, hc', _⟩ := h3
      exact ⟨c', e, hc'⟩
    · obtain ⟨y, c', e, hc', _⟩ := h3
      exact ⟨y, c', e, hc'⟩
    · exact h3
    · exact h3.elim
  · obtain ⟨v1, hv1⟩ := sweep_realisesG (T := T) ev _ (by rintro _ _ ⟨⟩) _ _ n h1
    refine Or.inr ⟨v1, fun c rest hc hw fuel => ?_⟩
    obtain ⟨y, c1, e1, hc1, _⟩ := hv1 c rest hc hw
    have e : M.taking c = M.involved n := by rw [← hc.1]; rfl
    refine ⟨y, c1, ?_, hc1⟩
    unfold receiveG handleG
    rw [e, e1]
    rfl
  · obtain ⟨v1, hv1⟩ := sweep_realisesG (T := T) ev _ (by rintro _ _ ⟨⟩) _ _ n h1
    refine Or.inr ⟨v1, fun c rest hc hw fuel => ?_⟩
    have e1 : M.sweepG tape ev (M.involved n) [] () c = .ub u := hv1 c rest hc hw
    have e : M.taking c = M.involved n := by rw [← hc.1]; rfl
    show M.receiveG tape fuel ev () c = .ub u
    unfold receiveG handleG
    rw [e, e1]
    rfl
  · obtain ⟨v1, hv1⟩ := sweep_realisesG (T := T) ev _ (by rintro _ _ ⟨⟩) _ _ n h1
    exact Or.inr ⟨v1, fun c rest hc hw fuel => (hv1 c rest hc hw).elim⟩

end Machine

/-- A scripted machine a client can hold is at spot `n`, in the middle of a call if `b`. -/
def ArrivesG (T : Dictates tape) (M : Machine) (n : Spot) : Bool → Prop
  | false => ∃ ops s c, RunToG M tape 0 ops s ∧ DepictsG M c s ∧
      Lone M n c
  | true => ∃ ops s c ev v k, RunToG M tape 0 ops s ∧
      DepictsG M c s ∧ ev ∈ M.eventsG ∧ ∀ rest fuel, ∃ c', Lone M n c' ∧ c'.world = rest ∧
        M.receiveG tape (fuel + k) ev () { c with world := T.feed v rest } =
          (M.settleG tape fuel c').bind fun _ c =>
            M.replayG tape (fuel + k) c

theorem reworldG {c : Conf P W} {s : SM P W} (h : DepictsG M c s) (w : W) :
    DepictsG M { c with world := w } { s with world := w } := { h with world := rfl }

/-- After a history, one more event. -/
theorem RunToG.event (hM : M.RegularG) {ops : List (OpG Unit)} {s : SM Unit W}
    {c c' : Conf Unit W} {ev : EventTy} {fuel : Nat} {w : W}
    (hr : RunToG M tape 0 ops s) (hc : DepictsG M c s)
    (hev : ev ∈ M.eventsG) {n : Spot}
    (h : (∃ b, M.receiveG tape fuel ev () { c with world := w } = .ok b c') ∨
      ∃ x, M.receiveG tape fuel ev () { c with world := w } = .throw x c') (hl : Lone M n c') :
    ArrivesG T M n false := by
  have hop : OpOkG M (.process ev ()) := by
    show ev ∈ M.eventIdsG
    rw [← Machine.eventsG_eq hM.laid]; exact hev
  have hs := C82_step (sem := tape) (reworldG hc w) hM (C82_reach hM hr).1 fuel hop
  have e : M.execG tape fuel (.process ev ()) { c with world := w } =
    M.receiveG tape fuel ev () { c with world := w } := rfl
  rw [e] at hs
  revert hs
  rcases h with ⟨b, h⟩ | ⟨x, h⟩ <;> rw [h] <;>
    cases hst : stepG M tape fuel (.process ev ()) { s with world := w } <;> intro hs <;>
    first
    | exact hs.elim
    | exact ⟨_, _, c', (hr.world w).ok hop hst, hs.2, hl⟩
    | exact ⟨_, _, c', (hr.world w).throw hop hst, hs.2, hl⟩

theorem Machine.WalkG.arrives (hM : M.RegularG) (hd : M.deferring = false ∨ M.orthogonal = false)
    (w0 : W) (hC : M.ScopesRealG ∧ (M.orthogonal = true → M.declaredInitials M.root ≠ []))
    {b : Bool} {n : Spot} (h : M.WalkG b n) : ArrivesG T M n b := by
  have step : ∀ {b : Bool} {n n' : Spot}, ArrivesG T M n b →
      (∀ b', .ok b' n' ∈ M.nextG b n → ArrivesG T M n' b') ∧
      (∀ x, .throw x n' ∈ M.nextG b n → ArrivesG T M n' false) := by
    intro b n n' ih
    cases b with
    | false =>
      obtain ⟨ops, s, c, hr, hc, hl⟩ := ih
      have key : ∀ x ∈ M.nextG false n, ∃ ev ∈ M.eventsG, x ∈ M.mayReceiveG ev n := fun x hx =>
        List.mem_flatMap.1 hx
      constructor
      · intro b' hx
        obtain ⟨ev, hev, hx⟩ := key _ hx
        rcases Machine.receive_realisesG (T := T) hd ev n _ hx with e | ⟨v, hv⟩
        · cases e; exact ⟨ops, s, c, hr, hc, hl⟩
        cases b' with
        | false =>
          obtain ⟨c', e, hc'⟩ := hv { c with world := T.feed v w0 } w0 hl rfl 0
          exact hr.event hM hc hev (Or.inl ⟨(), e⟩) hc'
        | true =>
          refine ⟨ops, s, c, ev, v, 0, hr, hc, hev, fun rest fuel => ?_⟩
          obtain ⟨c', h1, h2, h3⟩ := hv { c with world := T.feed v rest } rest hl rfl fuel
          exact ⟨c', h1, h2, h3⟩
      · intro x hx
        obtain ⟨ev, hev, hx⟩ := key _ hx
        obtain ⟨v, hv⟩ := (Machine.receive_realisesG (T := T) hd ev n _ hx).resolve_left nofun
        obtain ⟨y, c', e, hc'⟩ := hv { c with world := T.feed v w0 } w0 hl rfl 0
        exact hr.event hM hc hev (Or.inr ⟨y, e⟩) hc'
    | true =>
      obtain ⟨ops, s, c, ev, v, k, hr, hc, hev, hk⟩ := ih
      have tk : ∀ c' : Conf Unit W, Lone M n c' → M.taking c' = M.involved n := fun c' h => by rw [← h.1]; rfl
      constructor
      · intro b' hx
        obtain ⟨v2, hv2⟩ := Machine.round_realisesG (T := T) _ _ _ n hx
        cases b' with
        | true =>
          refine ⟨ops, s, c, ev, v ++ v2, k + 1, hr, hc, hev, fun rest fuel => ?_⟩
          obtain ⟨c1, hl1, hw1, e1⟩ := hk (T.feed v2 rest) (fuel + 1)
          obtain ⟨c2, e2, hl2, hw2⟩ := hv2 c1 rest hl1 hw1
          refine ⟨c2, hl2, hw2, ?_⟩
          rw [show fuel + (k + 1) = fuel + 1 + k from by omega, T.feed_append, e1, Machine.settleG,
            tk c1 hl1, e2]
          rfl
        | false =>
          obtain ⟨c1, hl1, hw1, e1⟩ := hk (T.feed v2 w0) (0 + 1)
          obtain ⟨c2, e2, hl2, hw2⟩ := hv2 c1 w0 hl1 hw1
          refine hr.event hM hc hev (Or.inl ⟨(), ?_⟩) hl2 (w := T.feed v (T.feed v2 w0)) (fuel := 0 + 1 + k)
          rw [e1, Machine.settleG, tk c1 hl1, e2]
          show M.replayG tape _ c2 = _
          rw [Machine.replay_idleG _ hl2.2.2]
      · intro x hx
        obtain ⟨v2, hv2⟩ := Machine.round_realisesG (T := T) _ _ _ n hx
        obtain ⟨c1, hl1, hw1, e1⟩ := hk (T.feed v2 w0) (0 + 1)
        obtain ⟨y, c2, e2, hl2, hw2⟩ := hv2 c1 w0 hl1 hw1
        refine hr.event hM hc hev (Or.inr ⟨y, ?_⟩) hl2 (w := T.feed v (T.feed v2 w0)) (fuel := 0 + 1 + k)
        rw [e1, Machine.settleG, tk c1 hl1, e2]
        rfl
  induction h with
  | start =>
    obtain ⟨h1, _, h2⟩ := C82_construct (P := Unit) hM 0 w0
    obtain ⟨s, hs⟩ := h1.2 hC
    exact ⟨[], s, _, .init hs, h2 s hs, rfl, rfl, rfl⟩
  | ok _ hn ih => exact (step ih).1 _ hn
  | throw _ hn ih => exact (step ih).2 _ hn

include T in
/-- What may be undefined is undefined for some scripted machine. -/
theorem Machine.WalkG.undefined (hM : M.RegularG) (hd : M.deferring = false ∨ M.orthogonal = false)
    (w0 : W) (hC : M.ScopesRealG ∧ (M.orthogonal = true → M.declaredInitials M.root ≠ []))
    {b : Bool} {n : Spot} (h : M.WalkG b n) {u : UB} (hu : .ub u ∈ M.nextG b n) :
    ∃ ops s ev fuel, RunToG M tape 0 ops s ∧ ev ∈ M.eventsG ∧
      stepG M tape fuel (.process ev ()) s = .ub u := by
  have fin : ∀ {ops s} {c : Conf Unit W} {ev : EventTy} {fuel : Nat}
      {w : W}, RunToG M tape 0 ops s →
      DepictsG M c s → ev ∈ M.eventsG → M.receiveG tape fuel ev () { c with world := w } = .ub u →
      ∃ ops s ev fuel, RunToG M tape 0 ops s ∧ ev ∈ M.eventsG ∧
        stepG M tape fuel (.process ev ()) s = .ub u := by
    intro ops s c ev fuel w hr hc hev h
    have hop : OpOkG M (.process ev ()) := by
      show ev ∈ M.eventIdsG
      rw [← Machine.eventsG_eq hM.laid]; exact hev
    exact ⟨ops, _, ev, fuel, hr.world w, hev,
      ((C82_undefined (reworldG hc w) hM (C82_reach hM hr).1 fuel hop).1 u).2 h⟩
  have ih := h.arrives (T := T) hM hd w0 hC
  cases b with
  | false =>
    obtain ⟨ops, s, c, hr, hc, hl⟩ := ih
    obtain ⟨ev, hev, hx⟩ := List.mem_flatMap.1 hu
    obtain ⟨v, hv⟩ := (Machine.receive_realisesG (T := T) hd ev n _ hx).resolve_left nofun
    exact fin hr hc hev (hv { c with world := T.feed v w0 } w0 hl rfl 0)
  | true =>
    obtain ⟨ops, s, c, ev, v, k, hr, hc, hev, hk⟩ := ih
    obtain ⟨v2, hv2⟩ := Machine.round_realisesG (T := T) _ _ _ n hu
    obtain ⟨c1, hl1, hw1, e1⟩ := hk (T.feed v2 w0) (0 + 1)
    have e2 : M.roundG tape (M.involved n) [] c1 = .ub u := hv2 c1 w0 hl1 hw1
    refine fin hr hc hev (w := T.feed v (T.feed v2 w0)) (fuel := 0 + 1 + k) ?_
    have tk : M.taking c1 = M.involved n := by rw [← hl1.1]; rfl
    rw [e1, Machine.settleG, tk, e2]
    rfl

namespace Machine

/-- All the places rows lead to and machines start from. -/
def stationsG (M : Machine) : List (Name × StTy) :=
  (M.extRows ++ M.intRowsG).filterMap M.targetLoc ++
    (M.root :: M.composites).flatMap fun p => (M.declaredInitials p).map fun i => (p, .st i)

/-- The configuration uses only places there are. -/
structure TidyG (M : Machine) (c : Conf Unit Unit) : Prop where
  length : c.slots.length = M.start.slots.length
  slots : ∀ l, some l ∈ c.slots → l ∈ M.stationsG
  room : ∀ q ∈ M.composites, (c.memory q).length = (M.declaredInitials q).length
  memory : ∀ q ∈ M.composites, ∀ l ∈ c.memory q, l ∈ M.stationsG
  active : c.active ∈ (M.root :: M.composites).map fun p => (M.declaredInitials p).length

/-- Some tidy configuration is at `n`. -/
def NeatG (M : Machine) (n : Spot) : Prop := ∃ c : Conf Unit Unit, M.sight c = n ∧ TidyG M c

theorem seek_tidyG (r : Nat) {c : Conf Unit Unit} (h : TidyG M c) : (seek r c).Holds (TidyG M) := by
  unfold seek
  split
  · exact ⟨nofun, nofun⟩
  · exact ⟨nofun, nofun⟩
  · exact h

theorem put_tidyG (r : Nat) {l : Name × StTy} (hl : l ∈ M.stationsG) {c : Conf Unit Unit} (h : TidyG M c) :
    (put r l c).Holds (TidyG M) := by
  unfold put
  split
  · exact { h with
      length := by rw [List.length_set]; exact h.length
      slots := fun l' hl' => by
        rcases List.mem_or_eq_of_mem_set hl' with h' | h'
        · exact h.slots l' h'
        · cases h'; exact hl }
  · exact ⟨nofun, nofun⟩

theorem recount_tidyG {c : Conf Unit Unit} (h : TidyG M c) : (M.recount c).Holds (TidyG M) := by
  unfold recount
  split
  · refine Holds.bind (seek_tidyG 0 h) fun l c h => ?_
    split
    · next hl =>
      exact { h with active := List.mem_map.2 ⟨l.1, List.mem_cons_of_mem _ hl, rfl⟩ }
    · exact ⟨nofun, nofun⟩
  · exact h

theorem travel_tidyG (r : Nat) (t : XRow) {l : Name × StTy} (hl : l ∈ M.stationsG) {c : Conf Unit Unit}
    (h : TidyG M c) : (M.travel r t l c).Holds (TidyG M) := by
  unfold travel
  split
  · exact h
  split
  · refine Holds.bind ?_ fun _ c h => Holds.bind ?_ fun _ c h => recount_tidyG h
    · unfold remember
      refine Holds.bind (seek_tidyG 0 h) fun l0 c h => ?_
      unfold seek
      split
      · exact ⟨nofun, nofun⟩
      · exact ⟨nofun, nofun⟩
      · next l1 hl1 =>
        show (if _ then _ else _ : Res _ _).Holds _
        split
        · refine { h with room := fun q hq => ?_, memory := fun q hq l' hl' => ?_ }
          · show (if q = l0.1 then (c.memory q).set r l1 else c.memory q).length = _
            split
            · rw [List.length_set]; exact h.room q hq
            · exact h.room q hq
          · have hl' : l' ∈ if q = l0.1 then (c.memory q).set r l1 else c.memory q := hl'
            split at hl'
            · rcases List.mem_or_eq_of_mem_set hl' with h' | h'
              · exact h.memory q hq l' h'
              · rw [h']; exact h.slots l1 (List.mem_of_getElem? hl1)
            · exact h.memory q hq l' hl'
        · exact ⟨nofun, nofun⟩
    · split
      · unfold recall
        split
        · next hq =>
          split
          · exact ⟨nofun, nofun⟩
          · next l1 hl1 => exact put_tidyG r (h.memory _ hq l1 (List.mem_of_getElem? hl1)) h
        · exact ⟨nofun, nofun⟩
      · exact put_tidyG r hl h
  · exact Holds.bind (put_tidyG r hl h) fun _ c h => recount_tidyG h

theorem mayTravel_neatG (r : Nat) (t : XRow) {l : Name × StTy} (hl : l ∈ M.stationsG) {n : Spot}
    (h : M.NeatG n) : (M.mayTravel r t l n).Holds M.NeatG := by
  obtain ⟨c, rfl, h⟩ := h
  have h1 := travel_alike (M := M) r t l (sight_place (M := M) c).symm
  have h2 := travel_tidyG r t hl h
  unfold mayTravel
  revert h1 h2
  cases M.travel r t l c <;> cases M.travel r t l (M.place (M.sight c)) <;> intro h1 h2 <;>
    first | exact h1.elim | skip
  · exact ⟨_, h1.2, h2⟩
  · exact ⟨_, h1.2, h2⟩
  · rw [show _ = _ from h1] at h2; exact h2
  · trivial

theorem mayTake_neatG (r : Nat) (t : XRow) {l : Name × StTy} (hl : l ∈ M.stationsG) {n : Spot}
    (h : M.NeatG n) : ∀ x ∈ M.mayTake r t l n, x.Holds M.NeatG := by
  unfold mayTake
  refine Holds.branch (Holds.one (mayTravel_neatG r t hl h)) fun _ n h => ?_
  split
  · exact Holds.one h
  · exact Holds.one h
  · intro x hx
    rcases List.mem_cons.1 hx with rfl | hx
    · exact h
    · rw [List.mem_singleton.1 hx]; exact h

theorem mayAttempt_neatG (anon : Bool) (r : Nat) {n : Spot} (h : M.NeatG n) : ∀ cs : List Cand,
    (∀ cd ∈ cs, ∀ t, cd.row? = some t → ∀ l, M.targetLoc t = some l → l ∈ M.stationsG) →
    ∀ x ∈ M.mayAttempt anon r cs n, x.Holds M.NeatG := by
  intro cs
  induction cs with
  | nil => intro _; exact Holds.one h
  | cons cd cs ih =>
    intro hcs
    have ih := ih fun cd h => hcs cd (List.mem_cons_of_mem _ h)
    rw [mayAttempt]
    cases hr : cd.row? with
    | none =>
      dsimp only
      split
      · exact Holds.one ⟨nofun, nofun⟩
      · exact Holds.one h
    | some t =>
      dsimp only
      cases hl : M.targetLoc t with
      | none => exact Holds.one ⟨nofun, nofun⟩
      | some l =>
        have hp := hcs cd List.mem_cons_self t hr l hl
        have fire := Holds.branch (f := fun _ n => [.ok RegionOut.fired n]) (mayTake_neatG r t hp h)
          fun _ n h => Holds.one h
        dsimp only
        split
        · exact fire
        · intro x hx
          rcases List.mem_cons.1 hx with rfl | hx
          · exact h
          rcases List.mem_append.1 hx with hx | hx
          · exact fire x hx
          · exact ih x hx

theorem cands_placesG {ev : EventTy} {p : Name} {st : StTy} {cd : Cand} (h : cd ∈ M.candsG ev p st)
    {t : XRow} (ht : cd.row? = some t) {l : Name × StTy} (hl : M.targetLoc t = some l) :
    l ∈ M.stationsG :=
  List.mem_append_left _ (List.mem_filterMap.2 ⟨t, List.mem_append.2 (row_of_candsG h ht).2, hl⟩)

theorem mayVisit_neatG (anon : Bool) (r : Nat) (ev : EventTy) {n : Spot} (h : M.NeatG n) :
    ∀ x ∈ M.mayVisitG anon r ev n, x.Holds M.NeatG := by
  unfold mayVisitG
  split
  · exact Holds.one ⟨nofun, nofun⟩
  · exact Holds.one ⟨nofun, nofun⟩
  · split
    · split
      · exact Holds.one h
      · exact mayAttempt_neatG anon r h _ fun cd hcd t ht l hl => cands_placesG hcd ht hl
    · exact Holds.one ⟨nofun, nofun⟩

theorem maySweep_neatG (ev : EventTy) : ∀ (rs : List Nat) (os : List RegionOut) (n : Spot), M.NeatG n →
    ∀ x ∈ M.maySweepG ev rs os n, x.Holds M.NeatG := by
  intro rs
  induction rs with
  | nil => intro os n h; exact Holds.one h
  | cons r rs ih =>
    intro os n h
    refine Holds.branch (mayVisit_neatG false r ev h) fun o n h => ?_
    split
    · exact Holds.one h
    · exact ih _ n h

theorem mayRound_neatG : ∀ (rs : List Nat) (os : List RegionOut) (n : Spot), M.NeatG n →
    ∀ x ∈ M.mayRoundG rs os n, x.Holds M.NeatG := by
  intro rs
  induction rs with
  | nil => intro os n h; exact Holds.one h
  | cons r rs ih =>
    intro os n h
    refine Holds.branch (mayVisit_neatG true r .none h) fun o n h => ?_
    split
    · exact Holds.one h
    · exact ih _ n h

theorem next_neatG (b : Bool) {n : Spot} (h : M.NeatG n) : ∀ x ∈ M.nextG b n, x.Holds M.NeatG := by
  cases b with
  | true => exact mayRound_neatG _ _ n h
  | false =>
    intro x hx
    obtain ⟨ev, _, hx⟩ := List.mem_flatMap.1 hx
    refine Holds.branch (maySweep_neatG ev _ _ n h) (fun os n h => ?_) x hx
    split
    · exact Holds.one h
    split
    · exact Holds.one h
    split
    · exact Holds.one h
    refine Holds.branch ?_ fun _ n h => Holds.one h
    unfold mayComplain
    split
    · exact Holds.one h
    split
    · exact Holds.one ⟨nofun, nofun⟩
    · exact Holds.one ⟨nofun, nofun⟩
    split
    · intro x hx
      rcases List.mem_cons.1 hx with rfl | hx
      · exact h
      · rw [List.mem_singleton.1 hx]; exact h
    · exact Holds.one h

theorem start_neatG : M.NeatG M.start := by
  refine ⟨_, rfl, rfl, fun l hl => ?_, fun q _ => List.length_map _, fun q hq l hl => ?_, ?_⟩
  · rcases List.mem_append.1 (show some l ∈ ((M.declaredInitials M.root).map fun i =>
      some (M.root, StTy.st i)) ++ List.replicate _ none from hl) with h | h
    · obtain ⟨i, hi, e⟩ := List.mem_map.1 h
      cases e
      exact List.mem_append_right _ (List.mem_flatMap.2 ⟨_, List.mem_cons_self, List.mem_map.2 ⟨i, hi, rfl⟩⟩)
    · cases (List.mem_replicate.1 h).2
  · obtain ⟨i, hi, rfl⟩ := List.mem_map.1 (show l ∈ (M.declaredInitials q).map fun i => (q, StTy.st i) from hl)
    exact List.mem_append_right _
      (List.mem_flatMap.2 ⟨q, List.mem_cons_of_mem _ hq, List.mem_map.2 ⟨i, hi, rfl⟩⟩)
  · exact List.mem_map.2 ⟨_, List.mem_cons_self, rfl⟩

theorem WalkG.neat {b : Bool} {n : Spot} (h : M.WalkG b n) : M.NeatG n := by
  induction h with
  | start => exact start_neatG
  | ok _ hn ih => exact next_neatG _ ih _ hn
  | throw _ hn ih => exact next_neatG _ ih _ hn

end Machine

namespace Machine

theorem neat_finiteG : {n | M.NeatG n}.Finite := by
  have hp : {l | l ∈ M.stationsG}.Finite := M.stationsG.finite_toSet
  have hA := finite_lists (T := {o | o = none ∨ ∃ l ∈ M.stationsG, o = some l})
    (((Set.finite_singleton none).union (hp.image some)).subset fun o ho => by
      rcases ho with rfl | ⟨l, hl, rfl⟩
      · exact Or.inl rfl
      · exact Or.inr ⟨l, hl, rfl⟩) M.start.slots.length
  have hB := finite_lists (T := ⋃ q ∈ {q | q ∈ M.composites},
      {m : List (Name × StTy) | m.length = (M.declaredInitials q).length ∧ ∀ l ∈ m, l ∈ {l | l ∈ M.stationsG}})
    (M.composites.finite_toSet.biUnion fun q _ => finite_lists hp _) M.composites.length
  have hC : {a | a ∈ (M.root :: M.composites).map fun p => (M.declaredInitials p).length}.Finite :=
    List.finite_toSet _
  refine ((hA.prod (hB.prod hC)).image fun x => Spot.mk x.1 x.2.1 x.2.2).subset ?_
  rintro n ⟨c, rfl, h⟩
  refine ⟨(c.slots, M.composites.map c.memory, c.active), ⟨⟨h.length, fun o ho => ?_⟩,
    ⟨List.length_map _, fun m hm => ?_⟩, h.active⟩, rfl⟩
  · cases o with
    | none => exact Or.inl rfl
    | some l => exact Or.inr ⟨l, h.slots l ho, rfl⟩
  · obtain ⟨q, hq, rfl⟩ := List.mem_map.1 hm
    exact Set.mem_biUnion (show q ∈ {q | q ∈ M.composites} from hq) ⟨h.room q hq, h.memory q hq⟩

/-! ## Exploring -/

theorem walk_of_closedG {S : List (Bool × Spot)} (hS : M.closedG S = true) {b : Bool} {n : Spot}
    (h : M.WalkG b n) : (b, n) ∈ S := by
  unfold closedG at hS
  rw [Bool.and_eq_true, List.all_eq_true] at hS
  obtain ⟨h0, hS⟩ := hS
  induction h with
  | start => exact of_decide_eq_true h0
  | ok _ hn ih => exact of_decide_eq_true (List.all_eq_true.1 (hS _ ih) _ hn)
  | throw _ hn ih => exact of_decide_eq_true (List.all_eq_true.1 (hS _ ih) _ hn)

theorem explore_walkG : ∀ (k : Nat) {x : Bool × Spot}, x ∈ M.exploreG k → M.WalkG x.1 x.2
  | 0, x, h => by rw [List.mem_singleton.1 h]; exact .start
  | k + 1, x, h => by
    have h : x ∈ M.growG (M.exploreG k) := h
    unfold growG at h
    rw [List.mem_eraseDups, List.mem_append, List.mem_flatMap] at h
    rcases h with h | ⟨s, hs, h⟩
    · exact explore_walkG k h
    · have ih := explore_walkG k hs
      obtain ⟨y, hy, he⟩ := List.mem_filterMap.1 h
      cases y with
      | ok b n => cases he; exact ih.ok hy
      | throw x n => cases he; exact ih.throw hy
      | ub u => cases he
      | timeout => cases he

theorem explore_growsG (k : Nat) {x : Bool × Spot} (h : x ∈ M.exploreG k) : x ∈ M.exploreG (k + 1) := by
  show x ∈ M.growG (M.exploreG k)
  unfold growG
  rw [List.mem_eraseDups]
  exact List.mem_append_left _ h

theorem explore_startG : ∀ k, (false, M.start) ∈ M.exploreG k
  | 0 => List.mem_cons_self
  | k + 1 => explore_growsG k (explore_startG k)

theorem explore_closedG {k : Nat} (h : ∀ x ∈ M.exploreG (k + 1), x ∈ M.exploreG k) :
    M.closedG (M.exploreG k) = true := by
  unfold closedG
  rw [Bool.and_eq_true, List.all_eq_true]
  refine ⟨decide_eq_true (explore_startG k), fun s hs => List.all_eq_true.2 fun y hy => ?_⟩
  have key : ∀ x, (match y with
      | .ok b n => some (b, n)
      | .throw _ n => some (false, n)
      | .ub _ => none
      | .timeout => none) = some x → x ∈ M.exploreG k := by
    intro x hx
    refine h x ?_
    show x ∈ M.growG (M.exploreG k)
    unfold growG
    rw [List.mem_eraseDups]
    exact List.mem_append_right _ (List.mem_flatMap.2 ⟨s, hs, List.mem_filterMap.2 ⟨y, hy, hx⟩⟩)
  cases y with
  | ok b n => exact decide_eq_true (key _ rfl)
  | throw x n => exact decide_eq_true (key _ rfl)
  | ub u => rfl
  | timeout => rfl

/-- Exploring comes to an end. -/
theorem explore_endsG (M : Machine) : ∃ k, M.closedG (M.exploreG k) = true := by
  by_contra hne
  have hF : ({b | b = true ∨ b = false} ×ˢ {n | M.NeatG n} : Set (Bool × Spot)).Finite :=
    (Set.toFinite _).prod neat_finiteG
  have hsub : ∀ k, (M.exploreG k).toFinset ⊆ hF.toFinset := by
    intro k x hx
    rw [Set.Finite.mem_toFinset]
    refine ⟨by cases x.1 <;> simp, (explore_walkG k (List.mem_toFinset.1 hx)).neat⟩
  have hcard : ∀ k, k < (M.exploreG k).toFinset.card := by
    intro k
    induction k with
    | zero => exact Finset.card_pos.2 ⟨_, List.mem_toFinset.2 (explore_startG 0)⟩
    | succ k ih =>
      have : (M.exploreG k).toFinset ⊂ (M.exploreG (k + 1)).toFinset := by
        refine ⟨fun x hx => List.mem_toFinset.2 (explore_growsG k (List.mem_toFinset.1 hx)), fun hle => ?_⟩
        exact hne ⟨k, explore_closedG fun x hx => List.mem_toFinset.1 (hle (List.mem_toFinset.2 hx))⟩
      have := Finset.card_lt_card this
      omega
  have h1 := hcard hF.toFinset.card
  have h2 := Finset.card_le_card (hsub hF.toFinset.card)
  omega

end Machine

theorem isAtG {c : Conf P W} {s : SM P W} (h : DepictsG M c s) : IsAt M s (M.sight c) where
  slots := h.cur
  active := h.regions
  memory i p hp := ⟨c.memory p, by
    show (M.composites.map c.memory)[i]? = _
    rw [List.getElem?_map, hp]; rfl, h.hist p (List.mem_of_getElem? hp)⟩

/-- C103: whatever the client does, the machine is at a spot of its walks. -/
theorem C103_places (hM : M.RegularG) {d : Dep} {ops : List (OpG P)} {s : SM P W}
    (h : RunToG M sem d ops s) : ∃ n, M.WalkG false n ∧ IsAt M s n := by
  obtain ⟨_, c, hc, hw, _⟩ := Machine.reachG_walk hM h
  exact ⟨_, hw, isAtG hc⟩

theorem RunToG.blames (hU : Blames M sem U) (hM : M.RegularG) {d : Dep} {ops : List (OpG P)} {s : SM P W}
    (h : RunToG M sem d ops s) {op : OpG P} (hop : OpOkG M op)
    {fuel : Nat} {u : UB} (hu : stepG M sem fuel op s = .ub u) :
    (∃ b n, M.WalkG b n ∧ .ub u ∈ M.nextG b n) ∨ (u = .callback ∨ u = .nullObject) ∧ U := by
  obtain ⟨_, c, hc, hw, hq⟩ := Machine.reachG_walk hM h
  have he := ((C82_undefined (sem := sem) hc hM (C82_reach hM h).1 fuel hop).1 u).1 hu
  cases op with
  | process ev p =>
    have := Machine.receive_onWalkG (V := True) hU fuel (Or.inl trivial) (ev := ev) (by rw [Machine.eventsG_eq hM.laid]; exact hop) p c hw ⟨hc.bound, hq⟩
    have he : M.receiveG sem fuel ev p c = .ub u := he
    rw [he] at this
    exact this
  | setDependency d' => cases he

/-- C103: what is undefined happens at a spot of the walks, unless the client's callbacks or objects
are to blame. -/
theorem C103_undefined (hM : M.RegularG) {d : Dep} {ops : List (OpG P)} {s : SM P W}
    (h : RunToG M sem d ops s) {op : OpG P} (hop : OpOkG M op)
    {fuel : Nat} {u : UB} (hu : stepG M sem fuel op s = .ub u) :
    (∃ b n, M.WalkG b n ∧ .ub u ∈ M.nextG b n) ∨ u = .callback ∨ u = .nullObject :=
  (h.blames (Blames.all M sem) hM hop hu).imp_right And.left

/-- C103: a list of spots that is closed holds all the places any client's machine can be at. -/
theorem C103_closed (hM : M.RegularG) {S : List (Bool × Spot)} (hS : M.closedG S = true) {d : Dep}
    {ops : List (OpG P)} {s : SM P W} (h : RunToG M sem d ops s) :
    ∃ n, (false, n) ∈ S ∧ IsAt M s n := by
  obtain ⟨n, hn, ha⟩ := C103_places hM h
  exact ⟨n, Machine.walk_of_closedG hS hn, ha⟩

theorem Machine.not_undefinedG {S : List (Bool × Spot)} (hS : M.closedG S = true) (hs : M.safeG S = true)
    {b : Bool} {n : Spot} (h : M.WalkG b n) {u : UB} : .ub u ∉ M.nextG b n := by
  intro hu
  unfold safeG at hs
  have := List.all_eq_true.1 (List.all_eq_true.1 hs _ (walk_of_closedG hS h)) _ hu
  cases this

/-- C103: if it is also safe, nothing undefined happens, whatever the client does, unless the client's
callbacks or objects are to blame. -/
theorem C103_safe (hM : M.RegularG) {S : List (Bool × Spot)} (hS : M.closedG S = true)
    (hs : M.safeG S = true) {d : Dep} {ops : List (OpG P)} {s : SM P W} (h : RunToG M sem d ops s)
    {op : OpG P} (hop : OpOkG M op) {fuel : Nat} {u : UB}
    (hu : stepG M sem fuel op s = .ub u) : u = .callback ∨ u = .nullObject := by
  rcases C103_undefined hM h hop hu with ⟨b, n, hn, hx⟩ | h
  · exact absurd hx (Machine.not_undefinedG hS hs hn)
  · exact h

/-- C103: with objects for all states and callbacks that are defined, nothing undefined happens. -/
theorem C103_defined (hM : M.RegularG) {S : List (Bool × Spot)} (hS : M.closedG S = true)
    (hs : M.safeG S = true) (objects : ∀ st w, M.selfMade st = true ∨ sem.alive st w = true)
    (guards : ∀ g a p w, sem.guard g a p w ≠ .ub) (actions : ∀ a args p w, sem.action a args p w ≠ .ub)
    (handlers : ∀ h e st d p w, sem.handler h e st d p w ≠ .ub) {d : Dep} {ops : List (OpG P)}
    {s : SM P W} (h : RunToG M sem d ops s) {op : OpG P} (hop : OpOkG M op)
    (fuel : Nat) : (stepG M sem fuel op s).Defined := by
  intro u hu
  have hU : Blames M sem False := ⟨fun st w => (objects st w).imp_right Or.inl,
    fun g a p w h => guards g a p w h, fun a x p w h => actions a x p w h,
    fun h e st d p w hh => handlers h e st d p w hh⟩
  rcases h.blames hU hM hop hu with ⟨b, n, hn, hx⟩ | h
  · exact absurd hx (Machine.not_undefinedG hS hs hn)
  · exact h.2

/-- C103: if nothing is deferred or there is one region only, every spot of the walks is really visited. -/
theorem C103_visited (hM : M.RegularG) (hd : M.deferring = false ∨ M.orthogonal = false)
    (hC : M.ScopesRealG ∧ (M.orthogonal = true → M.declaredInitials M.root ≠ [])) {n : Spot}
    (h : M.WalkG false n) : ∃ ops s, RunToG M script 0 ops s ∧ IsAt M s n := by
  obtain ⟨ops, s, c, hr, hc, hl⟩ := h.arrives (T := listed) hM hd [] hC
  exact ⟨ops, s, hr, hl.1 ▸ isAtG hc⟩

/-- C103: the spots are found after finitely many steps. -/
theorem C103_found (M : Machine) : ∃ k, M.closedG (M.exploreG k) = true ∧
    ∀ x ∈ M.exploreG k, M.WalkG x.1 x.2 := by
  obtain ⟨k, hk⟩ := M.explore_endsG
  exact ⟨k, hk, fun x hx => Machine.explore_walkG k hx⟩

/-- C103: if nothing is deferred or there is one region only, the exploration lists the places clients'
machines can be at, and no others. -/
theorem C103_listed (hM : M.RegularG) (hd : M.deferring = false ∨ M.orthogonal = false)
    (hC : M.ScopesRealG ∧ (M.orthogonal = true → M.declaredInitials M.root ≠ [])) {k : Nat}
    (hk : M.closedG (M.exploreG k) = true) :
    (∀ n, (false, n) ∈ M.exploreG k → ∃ ops s, RunToG M script 0 ops s ∧ IsAt M s n) ∧
    ∀ (P W : Type) (sem : Sem P W) (d : Dep) (ops : List (OpG P)) (s : SM P W), RunToG M sem d ops s →
      ∃ n, (false, n) ∈ M.exploreG k ∧ IsAt M s n :=
  ⟨fun _ hn => C103_visited hM hd hC (Machine.explore_walkG k hn),
    fun _ _ _ _ _ _ h => C103_closed hM hk h⟩

/-- C103: if nothing is deferred or there is one region only, the checker is exact.  It accepts a machine just if no client can
make the library do something undefined. -/
theorem C103_exact (hM : M.RegularG) (hd : M.deferring = false ∨ M.orthogonal = false)
    (hC : M.ScopesRealG ∧ (M.orthogonal = true → M.declaredInitials M.root ≠ [])) :
    (∃ k, M.closedG (M.exploreG k) = true ∧ M.safeG (M.exploreG k) = true) ↔
    ∀ (P W : Type) (sem : Sem P W) (d : Dep) (ops : List (OpG P)) (s : SM P W), RunToG M sem d ops s →
      ∀ (op : OpG P) (fuel : Nat) (u : UB), OpOkG M op →
      stepG M sem fuel op s = .ub u → u = .callback ∨ u = .nullObject := by
  constructor
  · rintro ⟨k, hk, hs⟩ P W sem d ops s h op fuel u hop hu
    exact C103_safe hM hk hs h hop hu
  · intro h
    obtain ⟨k, hk⟩ := M.explore_endsG
    refine ⟨k, hk, ?_⟩
    unfold Machine.safeG
    refine List.all_eq_true.2 fun x hx => List.all_eq_true.2 fun y hy => ?_
    have hw := Machine.explore_walkG k hx
    cases y with
    | ok b n => rfl
    | throw e n => rfl
    | timeout => rfl
    | ub u =>
      obtain ⟨ops, s, ev, fuel, hr, hev, hst⟩ := hw.undefined (T := listed) hM hd [] hC hy
      have := h Unit _ script 0 ops s hr (.process ev ()) fuel u
        (show ev ∈ M.eventIdsG from by rw [← Machine.eventsG_eq hM.laid]; exact hev) hst
      have hu := Machine.next_neatG x.1 hw.neat _ hy
      exact absurd this (by rintro (rfl | rfl); exacts [hu.1 rfl, hu.2 rfl])

/-! ## Rounds without end -/

namespace Machine

theorem within_monoG : ∀ {k k' : Nat} {n : Spot}, k ≤ k' → M.withinG k n = true → M.withinG k' n = true
  | 0, _, _, _, h => nomatch h
  | k + 1, 0, _, hk, _ => nomatch hk
  | k + 1, k' + 1, n, hk, h => by
    rw [withinG] at h ⊢
    refine List.all_eq_true.2 fun x hx => ?_
    have := List.all_eq_true.1 h x hx
    revert this
    cases x with
    | ok b n' =>
      cases b with
      | true => exact within_monoG (Nat.le_of_succ_le_succ hk)
      | false => intro _; rfl
    | _ => intro _; rfl

theorem within_of_calmG {S : List (Bool × Spot)} (hS : M.closedG S = true) {k k' : Nat} (hc : M.calmG k S = true)
    (hk : k ≤ k') (n : Spot) (h : M.WalkG true n) : M.withinG k' n = true := by
  unfold calmG at hc
  have := List.all_eq_true.1 hc _ (walk_of_closedG hS h)
  exact within_monoG hk this

/-! ## Rounds without end -/

/-- Where no number of rounds is enough, some step leads to another such spot. -/
theorem endless_stepG {n : Spot} (h : ∀ k, M.withinG k n = false) :
    ∃ n', .ok true n' ∈ M.nextG true n ∧ ∀ k, M.withinG k n' = false := by
  by_contra hne
  have key : ∀ l : List (Res Spot Bool), (∀ x ∈ l, x ∈ M.nextG true n) → ∃ k, ∀ n', .ok true n' ∈ l →
      M.withinG k n' = true := by
    intro l
    induction l with
    | nil => intro _; exact ⟨0, fun _ h => nomatch h⟩
    | cons x l ih =>
      intro hl
      obtain ⟨k, hk⟩ := ih fun y hy => hl y (List.mem_cons_of_mem _ hy)
      by_cases hx : ∃ n', x = .ok true n'
      · obtain ⟨n', rfl⟩ := hx
        have : ∃ k', M.withinG k' n' = true := by
          by_contra hn
          exact hne ⟨n', hl _ List.mem_cons_self, fun k' => by
            cases h : M.withinG k' n' with
            | true => exact absurd ⟨k', h⟩ hn
            | false => rfl⟩
        obtain ⟨k', hk'⟩ := this
        refine ⟨max k k', fun m hm => ?_⟩
        rcases List.mem_cons.1 hm with e | hm
        · injection e with _ e; subst e; exact within_monoG (Nat.le_max_right _ _) hk'
        · exact within_monoG (Nat.le_max_left _ _) (hk m hm)
      · refine ⟨k, fun m hm => ?_⟩
        rcases List.mem_cons.1 hm with e | hm
        · exact absurd ⟨m, e.symm⟩ hx
        · exact hk m hm
  obtain ⟨k, hk⟩ := key (M.nextG true n) fun _ h => h
  have := h (k + 1)
  rw [withinG] at this
  refine absurd this ?_
  rw [Bool.not_eq_false]
  refine List.all_eq_true.2 fun x hx => ?_
  cases x with
  | ok b n' =>
    cases b with
    | true => exact hk n' hx
    | false => rfl
  | _ => rfl

theorem spins_of_endlessG {n : Spot} (h : ∀ k, M.withinG k n = false) : M.SpinsG n := by
  let f : Nat → { n : Spot // ∀ k, M.withinG k n = false } := fun i =>
    Nat.rec ⟨n, h⟩ (fun _ x => ⟨(endless_stepG x.2).choose, (endless_stepG x.2).choose_spec.2⟩) i
  exact ⟨fun i => (f i).1, rfl, fun i => (endless_stepG (f i).2).choose_spec.1⟩

theorem endless_of_spinsG {n : Spot} (h : M.SpinsG n) (k : Nat) : M.withinG k n = false := by
  obtain ⟨f, h0, hf⟩ := h
  subst h0
  have : ∀ k i, M.withinG k (f i) = false := by
    intro k
    induction k with
    | zero => intro i; rfl
    | succ k ih =>
      intro i
      rw [withinG]
      cases hh : (M.nextG true (f i)).all _ with
      | false => rfl
      | true =>
        have := List.all_eq_true.1 hh _ (hf i)
        rw [← this]
        exact ih (i + 1)
  exact this k 0

theorem WalkG.along {f : Nat → Spot} (h : M.WalkG true (f 0))
    (hf : ∀ i, .ok true (f (i + 1)) ∈ M.nextG true (f i)) : ∀ i, M.WalkG true (f i)
  | 0 => h
  | i + 1 => (along h hf i).ok (hf i)

/-- A spot comes back. -/
theorem SpinsG.repeats {n : Spot} (hw : M.WalkG true n) (h : M.SpinsG n) :
    ∃ (f : Nat → Spot) (k : Nat), (∀ i, .ok true (f (i + 1)) ∈ M.nextG true (f i)) ∧ M.WalkG true (f 0) ∧
      0 < k ∧ f k = f 0 := by
  obtain ⟨f, h0, hf⟩ := h
  subst h0
  have hall := hw.along hf
  have hfin : Finite { n // M.NeatG n } := neat_finiteG.to_subtype
  obtain ⟨i, j, hij, he⟩ := Finite.exists_ne_map_eq_of_infinite
    (fun i : Nat => (⟨f i, (hall i).neat⟩ : { n // M.NeatG n }))
  have he : f i = f j := congrArg Subtype.val he
  have key : ∀ {i j : Nat}, i < j → f i = f j → _ := fun {i j} hlt he =>
    (⟨fun m => f (i + m), j - i, fun m => hf (i + m), hall i, by omega, by
      show f (i + (j - i)) = f (i + 0)
      rw [show i + (j - i) = j from by omega, ← he]; rfl⟩ :
      ∃ (f : Nat → Spot) (k : Nat), (∀ i, .ok true (f (i + 1)) ∈ M.nextG true (f i)) ∧ M.WalkG true (f 0) ∧
        0 < k ∧ f k = f 0)
  rcases Nat.lt_or_gt_of_ne hij with h | h
  · exact key h he
  · exact key h he.symm

end Machine

section
variable {tape : Sem Unit W} {T : Dictates tape}

/-- Along `k` rounds. -/
theorem Machine.rounds_realiseG {f : Nat → Spot} (hf : ∀ i, .ok true (f (i + 1)) ∈ M.nextG true (f i)) :
    ∀ k, ∃ v, ∀ (c : Conf Unit W) rest, Lone M (f 0) c → c.world = T.feed v rest →
      ∃ c', Lone M (f k) c' ∧ c'.world = rest ∧
        ∀ fuel, M.settleG tape (fuel + k) c = M.settleG tape fuel c' := by
  intro k
  induction k with
  | zero => exact ⟨[], fun c rest hc hw => ⟨c, hc, hw, fun _ => rfl⟩⟩
  | succ k ih =>
    obtain ⟨v, hv⟩ := ih
    obtain ⟨v2, hv2⟩ := Machine.round_realisesG (T := T) _ _ _ (f k) (hf k)
    refine ⟨v ++ v2, fun c rest hc hw => ?_⟩
    rw [T.feed_append] at hw
    obtain ⟨c1, hl1, hw1, e1⟩ := hv c _ hc hw
    obtain ⟨c2, e2, hl2, hw2⟩ := hv2 c1 rest hl1 hw1
    refine ⟨c2, hl2, hw2, fun fuel => ?_⟩
    have tk : M.taking c1 = M.involved (f k) := by rw [← hl1.1]; rfl
    rw [show fuel + (k + 1) = fuel + 1 + k from by omega, e1, Machine.settleG, tk, e2]
    rfl

end

/-- A call that ends with some fuel ends with more. -/
theorem settle_timeoutG {tape : Sem Unit W} : ∀ {fuel fuel' : Nat} {c : Conf Unit W}, fuel ≤ fuel' →
    M.settleG tape fuel' c = .timeout → M.settleG tape fuel c = .timeout
  | 0, _, _, _, _ => rfl
  | fuel + 1, 0, _, h, _ => nomatch h
  | fuel + 1, fuel' + 1, c, h, ht => by
    rw [Machine.settleG] at ht ⊢
    revert ht
    cases M.roundG tape (M.taking c) [] c with
    | ok a c' =>
      show (if _ then _ else _) = _ → (if _ then _ else _) = _
      split
      · exact settle_timeoutG (Nat.le_of_succ_le_succ h)
      · exact id
    | _ => exact id

/-! ## The property -/

/-- C103: if the checker finds a bound for the rounds of anonymous rows, every call of every client
ends, with no more rounds in a row than that. -/
theorem C103_returns (hM : M.RegularG) {S : List (Bool × Spot)} (hS : M.closedG S = true) {k : Nat}
    (hk : M.calmG k S = true) {d : Dep} {ops : List (OpG P)} {s : SM P W} (h : RunToG M sem d ops s)
    {op : OpG P} (hop : OpOkG M op) {fuel : Nat} (hf : k ≤ fuel) :
    stepG M sem fuel op s ≠ .timeout := by
  intro ht
  obtain ⟨_, c, hc, hw, hq⟩ := Machine.reachG_walk hM h
  have he := (C82_undefined (sem := sem) hc hM (C82_reach hM h).1 fuel hop).2.1 ht
  cases op with
  | process ev p =>
    have := Machine.receive_onWalkG (V := False) (Blames.all M sem) fuel
      (Or.inr fun n hn => Machine.within_of_calmG hS hk hf n hn) (ev := ev)
      (by rw [Machine.eventsG_eq hM.laid]; exact hop) p c hw ⟨hc.bound, hq⟩
    have he : M.receiveG sem fuel ev p c = .timeout := he
    rw [he] at this
    exact this
  | setDependency d' => cases he

/-- C103: either there is a bound, or rounds can go on for ever at some spot of the walks. -/
theorem C103_either (M : Machine) {S : List (Bool × Spot)} (hS : M.closedG S = true)
    (hw : ∀ x ∈ S, M.WalkG x.1 x.2) :
    (∃ k, M.calmG k S = true) ↔ ∀ n, M.WalkG true n → ¬ M.SpinsG n := by
  constructor
  · rintro ⟨k, hk⟩ n hn hs
    have := Machine.within_of_calmG hS hk (Nat.le_refl k) n hn
    rw [Machine.endless_of_spinsG hs] at this
    cases this
  · intro h
    have key : ∀ l : List (Bool × Spot), (∀ x ∈ l, x ∈ S) → ∃ k, M.calmG k l = true := by
      intro l
      induction l with
      | nil => intro _; exact ⟨0, rfl⟩
      | cons x l ih =>
        intro hl
        obtain ⟨k, hk⟩ := ih fun y hy => hl y (List.mem_cons_of_mem _ hy)
        obtain ⟨k', hk'⟩ : ∃ k', (!x.1 || M.withinG k' x.2) = true := by
          obtain ⟨b, n⟩ := x
          cases b with
          | false => exact ⟨0, rfl⟩
          | true =>
            by_contra hne
            refine h n (hw _ (hl _ List.mem_cons_self)) (Machine.spins_of_endlessG fun k => ?_)
            cases hh : M.withinG k n with
            | false => rfl
            | true => exact absurd ⟨k, hh⟩ hne
        have up : ∀ {y : Bool × Spot} {i j : Nat}, i ≤ j → (!y.1 || M.withinG i y.2) = true →
            (!y.1 || M.withinG j y.2) = true := by
          intro y i j hij hy
          rw [Bool.or_eq_true] at hy ⊢
          exact hy.imp_right (Machine.within_monoG hij)
        refine ⟨max k k', ?_⟩
        unfold Machine.calmG at hk ⊢
        rw [List.all_cons, Bool.and_eq_true]
        refine ⟨up (Nat.le_max_right _ _) hk', List.all_eq_true.2 fun y hy => ?_⟩
        exact up (Nat.le_max_left _ _) (List.all_eq_true.1 hk y hy)
    exact key S fun _ h => h

/-- C103: where rounds can go on for ever, they do for some client: its call never ends. -/
theorem C103_hangs (hM : M.RegularG) (hd : M.deferring = false ∨ M.orthogonal = false)
    (hC : M.ScopesRealG ∧ (M.orthogonal = true → M.declaredInitials M.root ≠ [])) {n : Spot}
    (h : M.WalkG true n) (hs : M.SpinsG n) :
    ∃ ops s ev, RunToG M endless 0 ops s ∧ OpOkG M (.process ev ()) ∧
      ∀ fuel, stepG M endless fuel (.process ev ()) s = .timeout := by
  obtain ⟨f, k, hf, hw, hk, he⟩ := hs.repeats h
  obtain ⟨v, hv⟩ := Machine.rounds_realiseG (T := streamed) hf k
  obtain ⟨w, hrep⟩ := exists_repeat v
  have turn : ∀ m (c : Conf Unit (Nat → Option Bool)), Lone M (f 0) c → c.world = w →
      M.settleG endless (m * k) c = .timeout := by
    intro m
    induction m with
    | zero => intro c _ _; rw [Nat.zero_mul]; rfl
    | succ m ih =>
      intro c hc hcw
      obtain ⟨c', hl, hw', e⟩ := hv c w hc (by rw [hrep]; exact hcw)
      rw [Nat.succ_mul, e]
      exact ih c' (he ▸ hl) hw'
  obtain ⟨ops, s, c, ev, v0, k0, hr, hc, hev, hgo⟩ :=
    hw.arrives (T := streamed) hM hd (fun _ => none) hC
  have hop : OpOkG M (.process ev ()) := by
    show ev ∈ M.eventIdsG
    rw [← Machine.eventsG_eq hM.laid]; exact hev
  refine ⟨ops, _, ev, hr.world (streamed.feed v0 w), hop, fun fuel => ?_⟩
  have big : stepG M endless (fuel + k0) (.process ev ()) { s with world := streamed.feed v0 w } = .timeout := by
    refine (C82_undefined (reworldG hc _) hM (C82_reach hM hr).1 _ hop).2.2 ?_
    show M.receiveG endless (fuel + k0) ev () _ = _
    obtain ⟨c', hl, hw', e⟩ := hgo w fuel
    rw [e, settle_timeoutG (Nat.le_mul_of_pos_right fuel hk) (turn fuel c' hl hw')]
    rfl
  by_contra hne
  rw [C102_fuel (Nat.le_add_right fuel k0) _ _ hne] at big
  exact hne big

/-- C103: the checker is exact.  There is a bound just if every call of every client ends. -/
theorem C103_ends (hM : M.RegularG) (hd : M.deferring = false ∨ M.orthogonal = false)
    (hC : M.ScopesRealG ∧ (M.orthogonal = true → M.declaredInitials M.root ≠ [])) {m : Nat}
    (hm : M.closedG (M.exploreG m) = true) :
    (∃ k, M.calmG k (M.exploreG m) = true) ↔
    ∀ (P W : Type) (sem : Sem P W) (d : Dep) (ops : List (OpG P)) (s : SM P W), RunToG M sem d ops s →
      ∀ op, OpOkG M op → ∃ fuel, stepG M sem fuel op s ≠ .timeout := by
  constructor
  · rintro ⟨k, hk⟩ P W sem d ops s h op hop
    exact ⟨k, C103_returns hM hm hk h hop (Nat.le_refl k)⟩
  · intro h
    refine (C103_either M hm fun x hx => Machine.explore_walkG m hx).2 fun n hn hs => ?_
    obtain ⟨ops, s, ev, hr, hop, ht⟩ := C103_hangs hM hd hC hn hs
    obtain ⟨fuel, hf⟩ := h Unit _ endless 0 ops s hr (.process ev ()) hop
    exact hf (ht fuel)

/-- C103: if every call of every client ends, one bound on the rounds is good for all of them. -/
theorem C103_uniform (hM : M.RegularG) (hd : M.deferring = false ∨ M.orthogonal = false)
    (hC : M.ScopesRealG ∧ (M.orthogonal = true → M.declaredInitials M.root ≠ []))
    (h : ∀ (P W : Type) (sem : Sem P W) (d : Dep) (ops : List (OpG P)) (s : SM P W), RunToG M sem d ops s →
      ∀ op, OpOkG M op → ∃ fuel, stepG M sem fuel op s ≠ .timeout) :
    ∃ k, ∀ (P W : Type) (sem : Sem P W) (d : Dep) (ops : List (OpG P)) (s : SM P W), RunToG M sem d ops s →
      ∀ op, OpOkG M op → stepG M sem k op s ≠ .timeout := by
  obtain ⟨m, hm⟩ := M.explore_endsG
  obtain ⟨k, hk⟩ := (C103_ends hM hd hC hm).2 h
  exact ⟨k, fun P W sem d ops s hr op hop => C103_returns hM hm hk hr hop (Nat.le_refl k)⟩

namespace Ex

/-- A machine that can be constructed. -/
theorem builtG {M : Machine} (hM : M.RegularG)
    (h : (match constructG (P := Unit) M 0 () with | .ok _ => true | .error _ => false) = true) :
    M.ScopesRealG ∧ (M.orthogonal = true → M.declaredInitials M.root ≠ []) := by
  cases hc : constructG (P := Unit) M 0 () with
  | error e => rw [hc] at h; cases h
  | ok s => exact (C82_construct (P := Unit) hM 0 ()).1.1 ⟨s, hc⟩

theorem demo_regularG : demo.RegularG := Machine.regularG_ofList (by decide +kernel)
theorem wide_regularG : wide.RegularG := Machine.regularG_ofList (by decide +kernel)
theorem seesaw_regularG : seesaw.RegularG := Machine.regularG_ofList (by decide +kernel)
theorem pendulum_regularG : pendulum.RegularG := Machine.regularG_ofList (by decide +kernel)

/-- The demonstration machine is certified by evaluation: nothing undefined happens, and a call takes at most
two rounds of anonymous rows in a row. -/
theorem demo_certifiedG : demo.closedG (demo.exploreG 5) = true ∧ demo.safeG (demo.exploreG 5) = true ∧
    demo.calmG 2 (demo.exploreG 5) = true :=
  ⟨by decide +kernel, by decide +kernel, by decide +kernel⟩

example {P W : Type} (sem : Sem P W) {d : Dep} {ops : List (OpG P)} {s : SM P W} (h : RunToG demo sem d ops s)
    {op : OpG P} (hop : OpOkG demo op) (fuel : Nat) : stepG demo sem (fuel + 2) op s ≠ .timeout :=
  C103_returns demo_regularG demo_certifiedG.1 demo_certifiedG.2.2 h hop (by omega)

/-- The checker finds the machine that reads an uninitialised slot. -/
theorem wide_uncertifiedG : wide.closedG (wide.exploreG 1) = true ∧ wide.safeG (wide.exploreG 1) = false :=
  ⟨by decide +kernel, by decide +kernel⟩

/-- Some client makes the library do something undefined with it. -/
example : ¬ ∀ (P W : Type) (sem : Sem P W) (d : Dep) (ops : List (OpG P)) (s : SM P W),
    RunToG wide sem d ops s → ∀ (op : OpG P) (fuel : Nat) (u : UB), OpOkG wide op →
      stepG wide sem fuel op s = .ub u → u = .callback ∨ u = .nullObject := by
  intro h
  obtain ⟨k, hk, hs⟩ := (C103_exact wide_regularG (Or.inl (by decide +kernel))
    (builtG wide_regularG (by decide +kernel))).2 h
  have := wide_uncertifiedG.2
  unfold Machine.safeG at this
  rw [List.all_eq_false] at this
  obtain ⟨x, hx, hn⟩ := this
  refine hn (List.all_eq_true.2 fun r hr => ?_)
  cases r with
  | ub u => exact absurd hr (Machine.not_undefinedG hk hs (Machine.explore_walkG 1 hx))
  | _ => rfl

theorem seesaw_spinsG : seesaw.WalkG true (seat 2) ∧ seesaw.SpinsG (seat 2) := by
  refine ⟨.ok .start (b := false) (by decide +kernel), fun i => if i % 2 = 0 then seat 2 else seat 3, rfl,
    fun i => ?_⟩
  have h1 : Res.ok true (seat 3) ∈ seesaw.nextG true (seat 2) := by decide +kernel
  have h2 : Res.ok true (seat 2) ∈ seesaw.nextG true (seat 3) := by decide +kernel
  dsimp only
  rcases Nat.mod_two_eq_zero_or_one i with h | h
  · rw [if_pos h, if_neg (by omega)]; exact h1
  · rw [if_neg (by omega), if_pos (by omega)]; exact h2

/-- Some client's call never ends. -/
example : ∃ ops s ev, RunToG seesaw endless 0 ops s ∧ OpOkG seesaw (.process ev ()) ∧
    ∀ fuel, stepG seesaw endless fuel (.process ev ()) s = .timeout :=
  C103_hangs seesaw_regularG (Or.inl (by decide +kernel)) (builtG seesaw_regularG (by decide +kernel))
    seesaw_spinsG.1 seesaw_spinsG.2

/-- Although its anonymous rows are cyclic, this machine never hangs. -/
theorem pendulum_calmG : pendulum.closedG (pendulum.exploreG 2) = true ∧
    pendulum.calmG 2 (pendulum.exploreG 2) = true := ⟨by decide +kernel, by decide +kernel⟩

end Ex

end Hsm

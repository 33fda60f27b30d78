import Verif.Abreast
import Verif.Programs

/-!
# C90: regions side by side go their own ways
-/

namespace Hsm

section
variable {M : Machine} {P W : Type} {sem : Sem P W} {yes : Cb → Bool} {n : Nat}

namespace Machine

theorem march_snoc (e : EventTy) : ∀ (es : List EventTy) (ls : List (Name × StTy)),
    M.march yes ls (es ++ [e]) = ((M.together yes e (M.march yes ls es).1).2.1,
      (M.march yes ls es).2 ++ (M.together yes e (M.march yes ls es).1).2.2) := by
  intro es
  induction es with
  | nil => intro ls; simp [march]
  | cons e' es ih => intro ls; simp [march, ih]

theorem together_places (e : EventTy) (ls : List (Name × StTy)) :
    (M.together yes e ls).2.1 = ls.map fun l => (M.answer yes e l).2.1 := by
  have h1 : ∀ l, (M.answer yes e l).2.1 = (M.tryRows yes l (M.rowsAt e l)).2.1 := by
    intro l
    unfold answer
    split
    · next h => rw [h]; rfl
    · rfl
  unfold together
  split
  · next h =>
    rw [List.map_congr_left (g := id)]
    · simp
    · intro l hl
      unfold answer
      rw [if_pos (h l hl)]; rfl
  · simp only [h1]

theorem together_answer (e : EventTy) (ls : List (Name × StTy)) :
    (M.together yes e ls).1 = ls.any fun l => (M.answer yes e l).1 := by
  have h1 : ∀ l, (M.answer yes e l).1 = (M.tryRows yes l (M.rowsAt e l)).1 := by
    intro l
    unfold answer
    split
    · next h => rw [h]; rfl
    · rfl
  unfold together
  split
  · next h =>
    symm
    rw [List.any_eq_false]
    intro l hl
    unfold answer
    rw [if_pos (h l hl)]; simp
  · simp only [h1]

/-- Each region goes its own way. -/
theorem march_places : ∀ (es : List EventTy) (ls : List (Name × StTy)),
    (M.march yes ls es).1 = ls.map fun l => (M.behave yes l es).1 := by
  intro es
  induction es with
  | nil => intro ls; simp [march, behave]
  | cons e es ih =>
    intro ls
    show (M.march yes (M.together yes e ls).2.1 es).1 = _
    rw [ih, together_places, List.map_map]
    rfl

end Machine

/-- What a region does with an event. -/
theorem steady_region (hM : M.Regular) (hS : M.Scoped) (hA : M.Abreast n) (hy : Steady sem yes) {d : Dep}
    {s : SM P W} {r : Nat} {l : Name × StTy} (ha : At M s r l.1 l.2) (h0 : ∃ q st, At M s 0 q st)
    (hreg : M.orthogonal = true → s.regions = n) (ev : EventTy) (pl : P) :
    ∃ o pl' s', RegionRun M sem [d] r ev pl s o pl' s' ∧ o ≠ .deferred ∧
      (o = .fired ↔ (M.tryRows yes l (M.rowsAt ev l)).1 = true) ∧
      (o = .none ↔ M.rowsAt ev l = []) ∧
      At M s' r (M.tryRows yes l (M.rowsAt ev l)).2.1.1 (M.tryRows yes l (M.rowsAt ev l)).2.1.2 ∧
      (∀ i, i ≠ r → s'.cur[i]? = s.cur[i]?) ∧ s'.regions = s.regions ∧
      s'.trace.map Call.who = s.trace.map Call.who ++ (M.tryRows yes l (M.rowsAt ev l)).2.2 := by
  have hnd := Machine.no_defer_cand hA.deferring ev l.1 l.2
  have hent : ∀ cs, M.cands ev l.1 l.2 = cs →
      M.entries [d] ev l.1 l.2 = cs.filterMap (M.entryOfCand d) := by
    intro cs h; simp [Machine.entries, h]
  have hrow : ∀ c ∈ M.cands ev l.1 l.2, ∃ t, c.row? = some t := by
    intro c hc
    cases c with
    | defer => exact absurd hc hnd
    | row t => exact ⟨t, rfl⟩
    | exit t p => exact ⟨t, rfl⟩
  by_cases hne : M.cands ev l.1 l.2 = []
  · have hra : M.rowsAt ev l = [] := by unfold Machine.rowsAt; rw [hne]; rfl
    rw [hra]
    exact ⟨.none, pl, s, .none ha hne, by simp, by simp [Machine.tryRows], by simp, ha, fun _ _ => rfl, rfl, by
      simp [Machine.tryRows]⟩
  have hra : M.rowsAt ev l ≠ [] := by
    obtain ⟨c, cs, hcs⟩ := List.exists_cons_of_ne_nil hne
    obtain ⟨t, ht⟩ := hrow c (by rw [hcs]; simp)
    unfold Machine.rowsAt
    rw [hcs, List.filterMap_cons_some ht]
    simp
  have hans : M.rowsAt ev l = (M.cands ev l.1 l.2).filterMap Cand.row? := rfl
  rcases tryRows_cases (yes := yes) hA.deferring ev l _ hnd with ⟨hall, htr⟩ |
    ⟨cs1, c, cs2, t, hcs, hr, hpre, hyes, htr⟩
  · rw [← hans] at htr
    rw [htr]
    obtain ⟨tr, pl', w', hf, hw⟩ := hy.falses (M := M) (cur := s.cur) (ev := ev) (d := d) hnd
      (fun c hc t ht => ⟨(hM.cand_loc hc ht).2.imp fun _ h => h.1, hall c hc t ht⟩) pl s.world
    exact ⟨.rejected, pl', s.ran w' tr, .rejected ha hne (by rw [hent _ rfl]; exact hf), by simp, by simp,
      by simp [hra], ha, fun _ _ => rfl, rfl, by simp [SM.ran, hw, hans]⟩
  · rw [← hans] at htr
    rw [htr]
    have hcm : c ∈ M.cands ev l.1 l.2 := by rw [hcs]; simp
    obtain ⟨htm, l', hl, hls⟩ := hM.cand_loc hcm hr
    obtain ⟨tr1, p1, w1, hf, hw1⟩ := hy.falses (M := M) (cur := s.cur) (ev := ev) (d := d) (cs := cs1)
      (fun h => hnd (by rw [hcs]; exact List.mem_append_left _ h))
      (fun c' hc' t' ht' => ⟨(hM.cand_loc (ev := ev) (p := l.1) (st := l.2)
        (by rw [hcs]; exact List.mem_append_left _ hc') ht').2.imp fun _ h => h.1, hpre c' hc' t' ht'⟩) pl s.world
    obtain ⟨e, x, he, hx, hed, hxg, hxs, hxd, hxi, hxp⟩ := entryOfCand_row (M := M) (d := d) hr hl
    have hsel : Selected M [d] ev l.1 l.2 c t d l' x (cs1.filterMap (M.entryOfCand d)) :=
      ⟨hcm, hr, by simp, hl, ⟨e, cs2.filterMap (M.entryOfCand d), by
        rw [hent _ hcs, List.filterMap_append, List.filterMap_cons_some he], he, hx⟩,
        ⟨[], [], cs1, cs2, rfl, hcs, by simp [Machine.entries]⟩, hxg, hxs, hxd, hxi, hxp⟩
    obtain ⟨tr2, p2, w2, hg, hw2⟩ : ∃ tr2 p2 w2, TrueGuard sem s.cur ev x p1 w1 tr2 p2 w2 ∧
        tr2.map Call.who = t.guard.toList := by
      cases htg : t.guard with
      | none => exact ⟨_, _, _, .absent (hxg.trans htg), rfl⟩
      | some g =>
        obtain ⟨p2, w2, hc⟩ := hy.guard g (guardArgs x ev) p1 w1
        exact ⟨_, _, _, .called (hxg.trans htg) (by rw [hc, hyes g htg]), rfl⟩
    have key : ∀ s1, Effect M r t (s.ran w2 (tr1 ++ tr2)) s1 →
        s1.trace = s.trace ++ (tr1 ++ tr2) → s1.regions = s.regions → (∀ i, i ≠ r → s1.cur[i]? = s.cur[i]?) →
        At M s1 r (if t.internal then l else (M.targetLoc t).getD l).1
          (if t.internal then l else (M.targetLoc t).getD l).2 →
        ∃ o pl' s', RegionRun M sem [d] r ev pl s o pl' s' ∧ o ≠ .deferred ∧
          (o = .fired ↔ true = true) ∧ (o = .none ↔ M.rowsAt ev l = []) ∧
          At M s' r (if t.internal then l else (M.targetLoc t).getD l).1
            (if t.internal then l else (M.targetLoc t).getD l).2 ∧
          (∀ i, i ≠ r → s'.cur[i]? = s.cur[i]?) ∧ s'.regions = s.regions ∧
          s'.trace.map Call.who = s.trace.map Call.who ++
            ((cs1.filterMap Cand.row?).filterMap (·.guard) ++
              (t.guard.toList ++ (M.callbacks t).map (·.2))) := by
      intro s1 heff htrace hregs hcur hat
      obtain ⟨tr3, p3, w3, hact, hw3⟩ := hy.actions (cur := s1.cur) (args := cbArgs M c t l' ev d)
        (M.callbacks t) p2 w2
      refine ⟨.fired, p3, s1.ran w3 tr3, .fired ha hsel hf hg heff hact, by simp, by simp, by simp [hra], hat, hcur,
        hregs, ?_⟩
      show (s1.trace ++ tr3).map Call.who = _
      rw [htrace]
      simp [hw1, hw2, hw3, List.append_assoc]
    cases hi : t.internal with
    | true =>
      rw [hi] at key
      exact key (s.ran w2 (tr1 ++ tr2)) (by unfold Effect; rw [hi]; rfl) rfl rfl (fun _ _ => rfl) ha
    | false =>
      rw [hi] at key
      have htf := Explained.row_mem (mem := fun _ _ _ => True) (f := ⟨0, [], [], 0⟩) hcm hr hi
      have hnh : ∀ o q, t.target ≠ .ps o (.history q) := by
        intro o q hq
        have := Machine.historic_of htf hq
        rw [hA.historic] at this; cases this
      have hlen : r < s.cur.length := by
        have := ha.2.2
        rw [List.getElem?_eq_some_iff] at this
        exact this.1
      let sa : SM P W := s.ran w2 (tr1 ++ tr2)
      let s1 : SM P W := { sa with
        cur := s.cur.set r (some (M.comb l'.1 l'.2)),
        log := s.log ++ [⟨r, s.cur, s.cur.set r (some (M.comb l'.1 l'.2)), sa.trace.length⟩] }
      have hat : At M s1 r l'.1 l'.2 := by
        refine ⟨hS.targets t htm l' hl, hls, ?_⟩
        show (s.cur.set r (some (M.comb l'.1 l'.2)))[r]? = _
        simp [List.getElem?_set, hlen]
      have hoth : ∀ i, i ≠ r → s1.cur[i]? = s.cur[i]? := by
        intro i hi
        show (s.cur.set r (some (M.comb l'.1 l'.2)))[i]? = _
        rw [List.getElem?_set_ne (fun h => hi h.symm)]
      have hregs : (M.orthogonal = false ∧ s1.regions = sa.regions) ∨
          (M.orthogonal = true ∧ ∃ p st, At M s1 0 p st ∧ s1.regions = (M.declaredInitials p).length) := by
        cases ho : M.orthogonal with
        | false => exact Or.inl ⟨rfl, rfl⟩
        | true =>
          refine Or.inr ⟨rfl, ?_⟩
          by_cases hr0 : r = 0
          · subst hr0
            exact ⟨l'.1, l'.2, hat, (hreg ho).trans (hA.regions _ hat.1).symm⟩
          · obtain ⟨q, st, hq⟩ := h0
            exact ⟨q, st, ⟨hq.1, hq.2.1, (hoth 0 (fun h => hr0 h.symm)).trans hq.2.2⟩,
              (hreg ho).trans (hA.regions _ hq.1).symm⟩
      have hmv : Moves M r t sa s1 :=
        ⟨hlen, ⟨_, rfl, fun o q hq => absurd hq (hnh o q), fun _ => ⟨l', hl, rfl⟩⟩,
          Or.inl ⟨hA.historic, rfl⟩, rfl, hregs, rfl, rfl, rfl, rfl, rfl, rfl, rfl⟩
      refine key s1 (by unfold Effect; rw [if_neg (by rw [hi]; simp)]; exact hmv) rfl rfl hoth ?_
      simp only [Bool.false_eq_true, if_false, hl, Option.getD_some]
      exact hat

theorem steady_loop (hM : M.Regular) (hS : M.Scoped) (hA : M.Abreast n) (hy : Steady sem yes) {d : Dep}
    (ev : EventTy) (loc : Nat → Name × StTy) : ∀ (rs : List Nat), rs.Nodup → ∀ (s : SM P W) (pl : P),
    (∀ r ∈ rs, At M s r (loc r).1 (loc r).2) → (∃ q st, At M s 0 q st) →
    (M.orthogonal = true → s.regions = n) →
    ∃ os pl' s', LoopRun M sem [d] ev rs pl s os pl' s' ∧ RegionOut.deferred ∉ os ∧
      (RegionOut.fired ∈ os ↔ ∃ r ∈ rs, (M.tryRows yes (loc r) (M.rowsAt ev (loc r))).1 = true) ∧
      ((∀ o ∈ os, o = RegionOut.none) ↔ ∀ r ∈ rs, M.rowsAt ev (loc r) = []) ∧
      (∀ r ∈ rs, At M s' r (M.tryRows yes (loc r) (M.rowsAt ev (loc r))).2.1.1
        (M.tryRows yes (loc r) (M.rowsAt ev (loc r))).2.1.2) ∧
      (∀ i, i ∉ rs → s'.cur[i]? = s.cur[i]?) ∧ (∃ q st, At M s' 0 q st) ∧ s'.regions = s.regions ∧
      s'.trace.map Call.who = s.trace.map Call.who ++
        rs.flatMap fun r => (M.tryRows yes (loc r) (M.rowsAt ev (loc r))).2.2 := by
  intro rs
  induction rs with
  | nil =>
    intro _ s pl _ h0 _
    exact ⟨[], pl, s, .nil _ _, by simp, by simp, by simp, by simp, fun _ _ => rfl, h0, rfl, by simp⟩
  | cons r rs ih =>
    intro hnd s pl hat h0 hreg
    obtain ⟨hr, hnd⟩ := List.nodup_cons.1 hnd
    obtain ⟨o, p1, s1, hrun, hod, hof, hon, ha, hoth, hregs, htr⟩ :=
      steady_region hM hS hA hy (d := d) (hat r List.mem_cons_self) h0 hreg ev pl
    have hkeep : ∀ i q st, i ≠ r → At M s i q st → At M s1 i q st := by
      intro i q st hi h
      exact ⟨h.1, h.2.1, (hoth i hi).trans h.2.2⟩
    obtain ⟨os, p2, s2, hloop, hdos, hfos, hnos, hats, hoths, h0', hregs', htrs⟩ := ih hnd s1 p1
      (fun i hi => hkeep i _ _ (fun h => hr (h ▸ hi)) (hat i (List.mem_cons_of_mem _ hi)))
      (by
        by_cases h : (0 : Nat) = r
        · subst h; exact ⟨_, _, ha⟩
        · obtain ⟨q, st, hq⟩ := h0; exact ⟨q, st, hkeep 0 q st h hq⟩)
      (fun h => hregs.trans (hreg h))
    refine ⟨o :: os, p2, s2, .cons hrun hod hloop, ?_, ?_, ?_, ?_, ?_, h0', hregs'.trans hregs, ?_⟩
    · rw [List.mem_cons]
      rintro (h | h)
      · exact hod h.symm
      · exact hdos h
    · rw [List.mem_cons, hfos]
      constructor
      · rintro (h | ⟨i, hi, h⟩)
        · exact ⟨r, List.mem_cons_self, hof.1 h.symm⟩
        · exact ⟨i, List.mem_cons_of_mem _ hi, h⟩
      · rintro ⟨i, hi, h⟩
        rcases List.mem_cons.1 hi with rfl | hi
        · exact Or.inl (hof.2 h).symm
        · exact Or.inr ⟨i, hi, h⟩
    · rw [List.forall_mem_cons, List.forall_mem_cons, hon, hnos]
    · intro i hi
      rcases List.mem_cons.1 hi with rfl | hi
      · exact ⟨ha.1, ha.2.1, (hoths _ hr).trans ha.2.2⟩
      · exact hats i hi
    · intro i hi
      rw [List.mem_cons, not_or] at hi
      rw [hoths i hi.2, hoth i hi.1]
    · rw [htrs, htr, List.flatMap_cons, List.append_assoc]

/-- The regions are where the list says. -/
structure Lined (M : Machine) (n : Nat) (ls : List (Name × StTy)) (s : SM P W) : Prop where
  length : ls.length = n
  at_ : ∀ r l, ls[r]? = some l → At M s r l.1 l.2
  regions : M.orthogonal = true → s.regions = n

theorem Machine.Abreast.one (hA : M.Abreast n) (hM : M.Regular) (hS : M.Scoped) :
    0 < n ∧ (M.orthogonal = false → n = 1) := by
  have hr : M.root ∈ M.composites := hM.root_mem
  have h1 := hA.regions _ hr
  have h2 : 0 < n := by
    rw [← h1]
    exact List.length_pos_iff.2 hS.rootInit
  refine ⟨h2, fun ho => ?_⟩
  unfold Machine.orthogonal at ho
  have := of_decide_eq_false ho
  have h3 : ¬ 1 < (M.declaredInitials M.root).length := fun h => this ⟨_, hr, h⟩
  omega

theorem Lined.active {ls : List (Name × StTy)} {s : SM P W} (h : Lined M n ls s) (hA : M.Abreast n)
    (hM : M.Regular) (hS : M.Scoped) : activeRegions M s = n := by
  unfold activeRegions
  split
  · next ho => exact h.regions ho
  · next ho => exact ((hA.one hM hS).2 (by simpa using ho)).symm

theorem steady_event (hM : M.Regular) (hS : M.Scoped) (hA : M.Abreast n) (hy : Steady sem yes) {d : Dep}
    {s : SM P W} {ls : List (Name × StTy)} (hp : Lined M n ls s) (ev : EventTy) (pl : P) :
    ∃ s', EventRun M sem [d] d ev pl s (M.together yes ev ls).1 s' ∧
      Lined M n (M.together yes ev ls).2.1 s' ∧
      s'.trace.map Call.who = s.trace.map Call.who ++ (M.together yes ev ls).2.2 := by
  obtain ⟨hn, -⟩ := hA.one hM hS
  let loc : Nat → Name × StTy := fun r => (ls[r]?).getD (M.root, .st M.root)
  have hls : (List.range n).map loc = ls := by
    apply List.ext_getElem?
    intro i
    rw [List.getElem?_map]
    by_cases hi : i < n
    · rw [List.getElem?_range hi]
      have : i < ls.length := hp.length ▸ hi
      simp [loc, List.getElem?_eq_getElem this]
    · rw [List.getElem?_eq_none (by simpa using hi), List.getElem?_eq_none (by rw [hp.length]; omega)]
      rfl
  have hlat : ∀ r ∈ List.range n, At M s r (loc r).1 (loc r).2 := by
    intro r hr
    have : r < ls.length := by rw [hp.length]; exact List.mem_range.1 hr
    apply hp.at_
    simp [loc, List.getElem?_eq_getElem this]
  have h0 : ∃ q st, At M s 0 q st := ⟨_, _, hlat 0 (List.mem_range.2 hn)⟩
  obtain ⟨os, pl', s1, hloop, hd, hf, hnone, hat, hoth, ⟨q0, st0, h0'⟩, hregs, htr⟩ :=
    steady_loop hM hS hA hy (d := d) ev loc (List.range n) List.nodup_range s pl hlat h0 hp.regions
  have hmem : ∀ Q : Name × StTy → Prop, (∀ r ∈ List.range n, Q (loc r)) ↔ ∀ l ∈ ls, Q l := by
    intro Q
    conv_rhs => rw [← hls]
    simp
  have hmap : ∀ {α : Type} (f : Name × StTy → List α), ((List.range n).flatMap fun r => f (loc r)) = ls.flatMap f := by
    intro α f
    conv_rhs => rw [← hls]
    rw [List.flatMap_map]
  rw [← hp.active hA hM hS] at hloop
  rw [hmem (fun l => M.rowsAt ev l = [])] at hnone
  rw [hmap (fun l => (M.tryRows yes l (M.rowsAt ev l)).2.2)] at htr
  have hplace : ∀ s' : SM P W, s'.cur = s1.cur → s'.regions = s1.regions →
      Lined M n (ls.map fun l => (M.tryRows yes l (M.rowsAt ev l)).2.1) s' := by
    intro s' hc hr
    refine ⟨by simp [hp.length], ?_, fun h => by rw [hr, hregs]; exact hp.regions h⟩
    intro r l hl
    rw [List.getElem?_map, Option.map_eq_some_iff] at hl
    obtain ⟨l0, hl0, rfl⟩ := hl
    have hr : r < n := by rw [← hp.length]; exact (List.getElem?_eq_some_iff.1 hl0).1
    have := hat r (List.mem_range.2 hr)
    have hloc : loc r = l0 := by simp [loc, hl0]
    rw [hloc] at this
    exact ⟨this.1, this.2.1, by rw [hc]; exact this.2.2⟩
  by_cases hall : ∀ l ∈ ls, M.rowsAt ev l = []
  · have ht : M.together yes ev ls = (false, ls, (M.decl M.root).handler.toList) := by
      unfold Machine.together; rw [if_pos hall]
    have hid : (ls.map fun l => (M.tryRows yes l (M.rowsAt ev l)).2.1) = ls := by
      rw [List.map_congr_left (g := id)]
      · simp
      · intro l hl; rw [hall l hl]; rfl
    have hfm : (ls.flatMap fun l => (M.tryRows yes l (M.rowsAt ev l)).2.2) = [] := by
      rw [List.flatMap_eq_nil_iff]
      intro l hl; rw [hall l hl]; rfl
    rw [hid] at hplace
    rw [hfm, List.append_nil] at htr
    rw [ht]
    have hos := hnone.2 hall
    have hturn : Turn M sem [d] ev pl s os pl' s1 s1 := .quiet hloop (by
      rintro ⟨-, h⟩
      cases hos _ h)
    cases hh : (M.decl M.root).handler with
    | none => exact ⟨s1, .ignored hturn hos hh, hplace s1 rfl rfl, by simp [htr]⟩
    | some h =>
      obtain ⟨p', w', hc⟩ := hy.handler h ev st0 d pl' s1.world
      exact ⟨_, .unexpected hturn hos hh h0' hc, hplace _ rfl rfl, by simp [SM.ran, Call.who, htr]⟩
  · have ht : M.together yes ev ls = (ls.any fun l => (M.tryRows yes l (M.rowsAt ev l)).1,
        ls.map fun l => (M.tryRows yes l (M.rowsAt ev l)).2.1,
        ls.flatMap fun l => (M.tryRows yes l (M.rowsAt ev l)).2.2) := by
      unfold Machine.together; rw [if_neg hall]
    rw [ht]
    have hfl : RegionOut.fired ∈ os ↔ (ls.any fun l => (M.tryRows yes l (M.rowsAt ev l)).1) = true := by
      rw [hf, List.any_eq_true]
      have := hmem (fun l => ¬ (M.tryRows yes l (M.rowsAt ev l)).1 = true)
      constructor
      · rintro ⟨r, hr, h⟩
        by_contra hc
        exact this.2 (fun l hl h => hc ⟨l, hl, h⟩) r hr h
      · rintro ⟨l, hl, h⟩
        by_contra hc
        exact this.1 (fun r hr h => hc ⟨r, hr, h⟩) l hl h
    by_cases hre : RegionOut.fired ∈ os
    · have hR : Reacted os := ⟨hd, hre⟩
      refine ⟨s1, ?_, hplace s1 rfl rfl, htr⟩
      dsimp only
      rw [hfl.1 hre]
      exact .handled (.react hloop hR (by unfold Settles; rw [hA.anonymous]; rfl)) hR (Or.inl hA.deferring)
    · have hR : ¬ Reacted os := fun h => hre h.2
      refine ⟨s1, ?_, hplace s1 rfl rfl, htr⟩
      dsimp only
      rw [Bool.eq_false_iff.2 (fun h => hre (hfl.2 h))]
      refine .unhandled (.quiet hloop hR) hR ?_
      by_contra hc
      exact hall (hnone.1 (fun o ho => by
        by_contra h
        exact hc ⟨o, ho, h⟩))

/-! ## C90 -/

theorem march_run (hM : M.Regular) (hS : M.Scoped) (hA : M.Abreast n) (hp : Populated M sem)
    (hy : Steady sem yes) {d : Dep} {evs : List (EventTy × P)} {s : SM P W} (h : RunTo M sem d (sends evs) s) :
    Lined M n (M.march yes M.starts (evs.map (·.1))).1 s ∧
      s.trace.map Call.who = (M.march yes M.starts (evs.map (·.1))).2 := by
  generalize ho : sends evs = ops at h
  induction h generalizing evs with
  | init h =>
    obtain ⟨h1, _, _, h2, _, _, h3⟩ := C46_initial hM h
    have : evs = [] := by simpa [sends] using ho
    subst this
    have hr : M.root ∈ M.composites := hM.root_mem
    refine ⟨⟨by simp [Machine.march, Machine.starts, hA.regions _ hr], ?_, ?_⟩, by rw [h2]; rfl⟩
    · intro r l hl
      simp only [List.map_nil, Machine.march, Machine.starts, List.getElem?_map, Option.map_eq_some_iff] at hl
      obtain ⟨i, hi, rfl⟩ := hl
      exact h1 r i hi
    · intro ho
      unfold activeRegions at h3
      rw [if_pos ho, if_pos ho] at h3
      exact h3.trans (hA.regions _ hr)
  | @ok s s' ops op fuel b hr hop h ih =>
    obtain ⟨evs', ev, pl, rfl, hops, rfl⟩ := sends_snoc ho.symm
    obtain ⟨ha, htr⟩ := ih hops.symm
    obtain ⟨s'', hrun, hat, htrace⟩ := steady_event hM hS hA hy (d := d) ha ev pl
    have hev := hop.event
    have hrun0 := processEvent_ok hM hev (hr.ready hM) h
    rw [← depsOf_sends d evs', ← hops] at hrun
    obtain ⟨_, rfl⟩ := (C49_unique hM hp hr hev pl).1 _ _ _ _ hrun0 hrun
    simp only [List.map_append, List.map_cons, List.map_nil, Machine.march_snoc]
    exact ⟨hat, by rw [htrace, htr]⟩
  | @throw s s' ops op fuel x hr hop h ih =>
    obtain ⟨evs', ev, pl, rfl, hops, rfl⟩ := sends_snoc ho.symm
    obtain ⟨ha, htr⟩ := ih hops.symm
    obtain ⟨s'', hrun, _, _⟩ := steady_event hM hS hA hy (d := d) ha ev pl
    have hev := hop.event
    rw [← depsOf_sends d evs', ← hops] at hrun
    rcases processEvent_throw hM hev (hr.ready hM) h with ⟨k, _, hk⟩ | ⟨_, ⟨c, hc, hge⟩, os, pl', ht, hn⟩
    · exact absurd hk ((C49_unique hM hp hr hev pl).2.2 _ _ _ _ hrun)
    · obtain ⟨h0, -⟩ := hA.one hM hS
      have hl : 0 < (M.march yes M.starts (evs'.map (·.1))).1.length := by rw [ha.length]; exact h0
      have ha0 := ha.at_ 0 _ (List.getElem?_eq_getElem hl)
      rw [ht.same_of_none hn, ha0.2.2] at hc
      cases hc
      exact absurd (hM.comb_lt.2 ⟨ha0.1, ha0.2.1⟩) (by omega)
  | world hr w ih =>
    obtain ⟨h1, h2⟩ := ih ho
    exact ⟨⟨h1.length, h1.at_, h1.regions⟩, h2⟩

/-- C90: each region is where the automaton is that was started in its own initial state and got the same events,
whatever the other regions do. -/
theorem C90_apart (hM : M.Regular) (hS : M.Scoped) (hA : M.Abreast n) (hp : Populated M sem)
    (hy : Steady sem yes) {d : Dep} {evs : List (EventTy × P)} {s : SM P W} (h : RunTo M sem d (sends evs) s)
    {r : Nat} {i : Name} (hi : (M.declaredInitials M.root)[r]? = some i) :
    At M s r (M.behave yes (M.root, .st i) (evs.map (·.1))).1.1
      (M.behave yes (M.root, .st i) (evs.map (·.1))).1.2 := by
  refine (march_run hM hS hA hp hy h).1.at_ r (M.behave yes (M.root, .st i) (evs.map (·.1))).1 ?_
  rw [Machine.march_places]
  simp [Machine.starts, List.getElem?_map, hi]

/-- C90: the callbacks called so far are those the regions call, for each event those of one region after those
of the other. -/
theorem C90_calls (hM : M.Regular) (hS : M.Scoped) (hA : M.Abreast n) (hp : Populated M sem)
    (hy : Steady sem yes) {d : Dep} {evs : List (EventTy × P)} {s : SM P W} (h : RunTo M sem d (sends evs) s) :
    s.trace.map Call.who = (M.march yes M.starts (evs.map (·.1))).2 :=
  (march_run hM hS hA hp hy h).2

/-- C90: and the machine takes the next event exactly if one of the automata does. -/
theorem C90_answer (hM : M.Regular) (hS : M.Scoped) (hA : M.Abreast n) (hp : Populated M sem)
    (hy : Steady sem yes) {d : Dep} {evs : List (EventTy × P)} {s : SM P W} (h : RunTo M sem d (sends evs) s)
    {ev : EventTy} (hev : ev ∈ M.events) (pl : P) :
    ∃ s' m, RunTo M sem d (sends (evs ++ [(ev, pl)])) s' ∧ ∀ fuel, m ≤ fuel →
      processEvent M sem fuel ev pl s =
        .ok ((M.declaredInitials M.root).any fun i =>
          (M.answer yes ev (M.behave yes (M.root, .st i) (evs.map (·.1))).1).1) s' := by
  obtain ⟨ha, _⟩ := march_run hM hS hA hp hy h
  obtain ⟨s', hrun, _⟩ := steady_event hM hS hA hy (d := d) ha ev pl
  rw [Machine.together_answer, Machine.march_places, Machine.starts, List.map_map, List.any_map] at hrun
  rw [← depsOf_sends d evs] at hrun
  obtain ⟨m, hm⟩ := (C49_returns hM hp h hev pl _ _).1 hrun
  refine ⟨s', m, ?_, hm⟩
  have := RunTo.ok (op := .process ev pl) (fuel := m) h (opOk_event hev) (hm m (Nat.le_refl m))
  simpa [sends] using this

/-- C90: every sequence of events of the machine has such a run. -/
theorem C90_total (hM : M.Regular) (hS : M.Scoped) (hA : M.Abreast n) (hp : Populated M sem)
    (hy : Steady sem yes) (d : Dep) (w : W) (evs : List (EventTy × P))
    (hev : ∀ x ∈ evs, x.1 ∈ M.events) : ∃ s, RunTo M sem d (sends evs) s := by
  suffices ∀ rs : List (EventTy × P), (∀ x ∈ rs, x.1 ∈ M.events) →
      ∃ s, RunTo M sem d (sends rs.reverse) s by
    have := this evs.reverse (fun x hx => hev x (List.mem_reverse.1 hx))
    rwa [List.reverse_reverse] at this
  clear hev
  intro rs
  induction rs with
  | nil =>
    intro _
    obtain ⟨s, hs⟩ := (C06_construct (P := P) hM d w).1.2
      ⟨(Machine.scopesReal_iff hM).2 ⟨hS.src, hS.comp⟩, fun _ => hS.rootInit⟩
    exact ⟨s, .init hs⟩
  | cons x rs ih =>
    intro hev
    obtain ⟨s, hs⟩ := ih (fun y hy => hev y (List.mem_cons_of_mem _ hy))
    obtain ⟨s', _, h, _⟩ := C90_answer hM hS hA hp hy hs (hev x List.mem_cons_self) x.2
    exact ⟨s', by rw [List.reverse_cons]; exact h⟩

end

/-! ## Examples -/

namespace Ex

/-- Two regions, `1`/`2`/composite 5 and `3`/`4`; the composite has two regions as well. -/
def tandem : Machine := Machine.ofList
  [ { table := some
        [ row (ini 1) (ev 0) (some 100) (some 1) (.st 2),
          row (ini 3) (ev 0) none (some 2) (.st 4),
          row (.st 2) (ev 1) none none (.st 5),
          row (.st 4) (ev 1) (some 101) (some 3) (.st 3),
          row (.st 5) (ev 2) none (some 4) (.st 1) ]
      handler := some 50 },
    { }, { }, { }, { },
    { table := some
        [ row (ini 6) (ev 0) none (some 5) (.st 7),
          row (ini 8) (ev 0) none none (.st 9) ] } ] [1]

theorem tandem_regular : tandem.Regular := Machine.regular_ofList (by decide +kernel)
theorem tandem_scoped : tandem.Scoped := Machine.scoped_of_check (by decide +kernel)
theorem tandem_abreast : tandem.Abreast 2 :=
  ⟨by decide +kernel, by decide +kernel, by decide +kernel, by decide +kernel⟩

/-- Guard 101 says no, all others say yes. -/
theorem tandem_steady : Steady (sem fun g => g != 101) fun g => g != 101 :=
  ⟨fun g args p w => ⟨_, _, rfl⟩, fun a args p w => ⟨_, _, rfl⟩, fun h e st d p w => ⟨_, _, rfl⟩⟩

/-- The hypotheses of C90 are met.  Event 2 is first answered by the handler.  Then region 0 goes through 2 into
the composite and there to 7, while region 1 goes to 4 and stays, its guard saying no. -/
example : ∃ s, RunTo tandem (sem fun g => g != 101) 7 (sends [(ev 2, 0), (ev 0, 0), (ev 1, 0), (ev 0, 0)]) s ∧
    At tandem s 0 5 (.st 7) ∧ At tandem s 1 0 (.st 4) ∧
    s.trace.map Call.who = [50, 100, 1, 2, 101, 5] := by
  have hp : Populated tandem (sem fun g => g != 101) := Programs.populated_ofList (by decide +kernel) _
  obtain ⟨s, hs⟩ := C90_total tandem_regular tandem_scoped tandem_abreast hp tandem_steady 7 []
    [(ev 2, 0), (ev 0, 0), (ev 1, 0), (ev 0, 0)] (by decide +kernel)
  have h0 := C90_apart tandem_regular tandem_scoped tandem_abreast hp tandem_steady hs (r := 0) (i := 1)
    (by decide +kernel)
  have h1 := C90_apart tandem_regular tandem_scoped tandem_abreast hp tandem_steady hs (r := 1) (i := 3)
    (by decide +kernel)
  have hc := C90_calls tandem_regular tandem_scoped tandem_abreast hp tandem_steady hs
  refine ⟨s, hs, ?_, ?_, hc.trans (by decide +kernel)⟩
  · rw [show (tandem.behave (fun g => g != 101) (tandem.root, StTy.st 1)
      ([(ev 2, (0 : Nat)), (ev 0, 0), (ev 1, 0), (ev 0, 0)].map (·.1))).1 = (5, .st 7) by decide +kernel] at h0
    exact h0
  · rw [show (tandem.behave (fun g => g != 101) (tandem.root, StTy.st 3)
      ([(ev 2, (0 : Nat)), (ev 0, 0), (ev 1, 0), (ev 0, 0)].map (·.1))).1 = (0, .st 4) by decide +kernel] at h1
    exact h1

/-- State 1 of region 0 defers the event region 1 waits for. -/
def withheld : Machine := Machine.ofList
  [ { table := some
        [ row (ini 1) (ev 1) none none (.st 2), row (ini 3) (ev 0) none none (.st 4) ] },
    { defer := some [ev 0] } ] [1]

/-- Without anonymous rows and history, with two regions everywhere, but with a deferred event a region does not
go its own way. -/
example : withheld.anonymous = false ∧ withheld.historic = false ∧
    (∀ p ∈ withheld.composites, (withheld.declaredInitials p).length = 2) ∧
    (withheld.behave (fun _ => true) (withheld.root, .st 3) [ev 0]).1 = (0, .st 4) ∧
    ∃ s, RunTo withheld (sem fun _ => true) 7 (sends [(ev 0, 0)]) s ∧
      s.cur[1]? = some (some (withheld.comb 0 (.st 3))) ∧ withheld.comb 0 (.st 3) ≠ withheld.comb 0 (.st 4) := by
  refine ⟨by decide +kernel, by decide +kernel, by decide +kernel, by decide +kernel, ?_⟩
  obtain ⟨s, hs, h⟩ := exists_run (M := withheld) (sm := sem fun _ => true) (fuel := 20) (d := 7) (w := [])
    (ops := sends [(ev 0, 0)]) (f := fun s => decide (s.cur[1]? = some (some (withheld.comb 0 (.st 3)))))
    (by decide +kernel)
  exact ⟨s, hs, of_decide_eq_true h, by decide +kernel⟩

/-- Region 0 enters a composite (5) with one region. -/
def cramped : Machine := Machine.ofList
  [ { table := some
        [ row (ini 1) (ev 1) none none (.st 5), row (ini 3) (ev 0) none none (.st 4) ] },
    { }, { }, { }, { },
    { table := some [ row (ini 6) (ev 2) none none (.st 6) ] } ] [1]

/-- Nor does it if composites have different numbers of regions: region 1 no longer gets events. -/
example : cramped.anonymous = false ∧ cramped.historic = false ∧ cramped.deferring = false ∧
    (cramped.behave (fun _ => true) (cramped.root, .st 3) [ev 1, ev 0]).1 = (0, .st 4) ∧
    ∃ s, RunTo cramped (sem fun _ => true) 7 (sends [(ev 1, 0), (ev 0, 0)]) s ∧
      s.cur[1]? = some (some (cramped.comb 0 (.st 3))) ∧ cramped.comb 0 (.st 3) ≠ cramped.comb 0 (.st 4) := by
  refine ⟨by decide +kernel, by decide +kernel, by decide +kernel, by decide +kernel, ?_⟩
  obtain ⟨s, hs, h⟩ := exists_run (M := cramped) (sm := sem fun _ => true) (fuel := 20) (d := 7) (w := [])
    (ops := sends [(ev 1, 0), (ev 0, 0)]) (f := fun s => decide (s.cur[1]? = some (some (cramped.comb 0 (.st 3)))))
    (by decide +kernel)
  exact ⟨s, hs, of_decide_eq_true h, by decide +kernel⟩

end Ex
end Hsm

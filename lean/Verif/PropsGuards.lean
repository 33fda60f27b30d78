import Verif.PropsTrace
import Verif.PropsStatic
import Mathlib.Data.List.Nodup

/-!
# How often the guard of a row is called (C48)

A composite led into by `k` rows in force is flattened `k` times, and so its rows are tried
`k` times.  Where every composite is led into by at most one row, every row is tried once.
-/

namespace Hsm
namespace Machine
variable {M : Machine}

/-- Rows are declared once, no composite is a source in its own table, and at most one row in
force leads into each composite. -/
structure EnteredOnce (M : Machine) : Prop where
  rows : ∀ p, M.InForce p → (M.rows p).Nodup
  self : ∀ p r, M.InForce p → r ∈ M.rows p → r.source ≠ .st p
  once : ∀ p₁ r₁ p₂ r₂ q, M.InForce p₁ → M.InForce p₂ → r₁ ∈ M.rows p₁ → r₂ ∈ M.rows p₂ →
    M.Enters r₁.target q → M.Enters r₂.target q → p₁ = p₂ ∧ r₁ = r₂

theorem Nested.rank_le (hr : M.Ranked) {p q : Name} (h : M.Nested p q) : M.rank q ≤ M.rank p := by
  induction h with
  | refl => exact Nat.le_refl _
  | sub _ hrr he ih => exact Nat.le_trans (Nat.le_of_lt (hr _ _ _ hrr (subMachine_iff.2 he))) ih

/-- Two composites around the same composite are nested in one another. -/
theorem EnteredOnce.linear (ho : M.EnteredOnce) {q₁ q₂ x : Name} (h₁ : M.InForce q₁)
    (h₂ : M.InForce q₂) (n₁ : M.Nested q₁ x) (n₂ : M.Nested q₂ x) :
    M.Nested q₁ q₂ ∨ M.Nested q₂ q₁ := by
  induction n₁ with
  | refl => exact Or.inr n₂
  | @sub a b r ha hr he ih =>
    cases n₂ with
    | refl => exact Or.inl (.sub ha hr he)
    | @sub a' _ r' ha' hr' he' =>
      obtain ⟨rfl, _⟩ := ho.once a r a' r' b (Nested.trans h₁ ha) (Nested.trans h₂ ha') hr hr' he he'
      exact ih ha'

theorem EnteredOnce.flatten_nodup (ho : M.EnteredOnce) (hr : M.Ranked) :
    ∀ n p, M.rank p < n → M.InForce p → (M.flatten p).Nodup := by
  intro n
  induction n with
  | zero => intro p h; exact absurd h (Nat.not_lt_zero _)
  | succ n ih =>
    intro p hp hin
    rw [flatten_eq hr, List.nodup_flatMap]
    constructor
    · intro r hrr
      cases hs : M.subMachine r.target with
      | none => simp
      | some q =>
        have he := subMachine_iff.1 hs
        have hrk := hr p r q hrr hs
        simp only [List.nodup_cons]
        refine ⟨?_, ih q (by omega) (.sub hin hrr he)⟩
        intro hm
        obtain ⟨p', r', hn, _, hx⟩ := (mem_flatten_iff hr _ _).1 hm
        have : p = p' := congrArg XRow.parent hx
        subst this
        have := Nested.rank_le hr hn
        omega
    · apply List.Nodup.pairwise_of_forall_ne (ho.rows p hin)
      intro r₁ h₁ r₂ h₂ hne t ht₁ ht₂
      -- rows of the composites below are of lower rank than `p`
      have low : ∀ r ∈ M.rows p, ∀ t ∈ (match M.subMachine r.target with
          | some q => M.flatten q | none => []), ∃ q x r', M.Enters r.target q ∧ M.Nested q x ∧
            r' ∈ M.rows x ∧ t = ext x r' := by
        intro r hrr t ht
        cases hs : M.subMachine r.target with
        | none => rw [hs] at ht; simp at ht
        | some q =>
          rw [hs] at ht
          obtain ⟨x, r', hn, hr', hx⟩ := (mem_flatten_iff hr _ _).1 ht
          exact ⟨q, x, r', subMachine_iff.1 hs, hn, hr', hx⟩
      have notp : ∀ r ∈ M.rows p, ∀ q x, M.Enters r.target q → M.Nested q x → x ≠ p := by
        rintro r hrr q x he hn rfl
        have := Nested.rank_le hr hn
        have := hr _ _ _ hrr (subMachine_iff.2 he)
        omega
      rcases List.mem_cons.1 ht₁ with rfl | ht₁
      · rcases List.mem_cons.1 ht₂ with hx | ht₂
        · apply hne
          cases r₁; cases r₂
          simp only [ext, XRow.mk.injEq] at hx
          simp only [Row.mk.injEq]
          tauto
        · obtain ⟨q, x, r', he, hn, _, hx⟩ := low r₂ h₂ _ ht₂
          exact notp r₂ h₂ q x he hn (congrArg XRow.parent hx).symm
      · obtain ⟨q₁, x₁, r₁', he₁, hn₁, _, hx₁⟩ := low r₁ h₁ _ ht₁
        rcases List.mem_cons.1 ht₂ with rfl | ht₂
        · exact notp r₁ h₁ q₁ x₁ he₁ hn₁ (congrArg XRow.parent hx₁).symm
        · obtain ⟨q₂, x₂, r₂', he₂, hn₂, _, hx₂⟩ := low r₂ h₂ _ ht₂
          have : x₁ = x₂ := congrArg XRow.parent (hx₁.symm.trans hx₂)
          subst this
          have hq : q₁ ≠ q₂ := by
            rintro rfl
            exact hne (ho.once p r₁ p r₂ q₁ hin hin h₁ h₂ he₁ he₂).2
          have f₁ : M.InForce q₁ := .sub hin h₁ he₁
          have f₂ : M.InForce q₂ := .sub hin h₂ he₂
          -- the inner of two nested ones is entered from inside the outer one
          have up : ∀ q q', M.InForce q → M.Nested q q' → q ≠ q' → ∀ r ∈ M.rows p,
              M.Enters r.target q' → M.Nested q p := by
            intro q q' hq hn hne r hrr he
            cases hn with
            | refl => exact absurd rfl hne
            | @sub a _ r' ha hr' he' =>
              obtain ⟨rfl, _⟩ := ho.once a r' p r q' (Nested.trans hq ha) hin hr' hrr he' he
              exact ha
          rcases ho.linear f₁ f₂ hn₁ hn₂ with h | h
          · exact notp r₁ h₁ q₁ p he₁ (up q₁ q₂ f₁ h hq r₂ h₂ he₂) rfl
          · exact notp r₂ h₂ q₂ p he₂ (up q₂ q₁ f₂ h (Ne.symm hq) r₁ h₁ he₁) rfl

theorem EnteredOnce.flat_nodup (ho : M.EnteredOnce) (hr : M.Ranked) : M.flat.Nodup :=
  ho.flatten_nodup hr _ _ (Nat.lt_succ_self _) .refl

theorem EnteredOnce.no_both (ho : M.EnteredOnce) (hr : M.Ranked) {t : XRow} (ht : t ∈ M.flat)
    (p : Name) (s : StTy) : M.extCands p s t = [] ∨ M.extCands p s t = [.row t] ∨
      M.extCands p s t = [.exit t p] := by
  unfold extCands
  split
  · rename_i h
    split
    · rename_i h2
      exfalso
      obtain ⟨q, r, hq, hrr, rfl⟩ := (mem_flat_iff hr).1 ht
      have h1 : r.source = .st p := h.1
      have h2 : sourceLoc q r.source = (p, s) := h2
      rw [h1] at h2
      simp only [sourceLoc, Prod.mk.injEq] at h2
      exact ho.self q r hq hrr (by rw [h1, h2.1])
    · simp
  · split <;> simp

theorem EnteredOnce.cands_nodup (ho : M.EnteredOnce) (hM : M.Regular) (e : EventTy) (p : Name)
    (s : StTy) : ((M.cands e p s).filterMap Cand.row?).Nodup := by
  have hsub : ∀ (l : List XRow) (f : XRow → List Cand), (∀ t ∈ l, (f t).filterMap Cand.row? = [] ∨
      (f t).filterMap Cand.row? = [t]) → ((l.flatMap f).filterMap Cand.row?).Sublist l := by
    intro l f h
    induction l with
    | nil => simp
    | cons a l ih =>
      have := ih fun t ht => h t (by simp [ht])
      rw [List.flatMap_cons, List.filterMap_append]
      rcases h a (by simp) with h | h
      · rw [h]; exact this.cons a
      · rw [h]; exact this.cons_cons a
  have h1 := hsub (M.flat.reverse.filter (fun t => t.event = e)) (M.extCands p s) (by
    intro t ht
    have ht : t ∈ M.flat := by
      have := (List.mem_filter.1 ht).1
      simpa using this
    rcases ho.no_both hM.ranked ht p s with h | h | h <;> simp [h, Cand.row?])
  have h2 := hsub (M.iflat.reverse.filter (fun t => t.event = e)) (intCands p s) (by
    intro t ht
    unfold intCands
    split <;> simp [Cand.row?])
  rw [cands_def]
  rw [List.filterMap_append, List.filterMap_append]
  have h0 : (List.replicate ((M.flat.map (M.deferCount e p s)).sum) Cand.defer).filterMap
      Cand.row? = [] := by
    rw [List.filterMap_eq_nil_iff]
    intro c hc
    rw [(List.mem_replicate.1 hc).2]; rfl
  rw [h0, List.nil_append, List.nodup_append]
  refine ⟨?_, ?_, ?_⟩
  · exact h1.nodup ((List.nodup_reverse.2 (ho.flat_nodup hM.ranked)).filter _)
  · exact h2.nodup ((List.nodup_reverse.2 (nodup_uniq _)).filter _)
  · rintro a ha b hb rfl
    have ha := (List.mem_filter.1 (h1.subset ha)).1
    have hb := (List.mem_filter.1 (h2.subset hb)).1
    have ha := flat_internal hM.ranked (by simpa using ha)
    have hb := iflat_internal (by simpa using hb)
    rw [ha] at hb; cases hb

end Machine

section
variable {P W : Type} {M : Machine} {sem : Sem P W}

/-- `c` is a call of the guard of row `t`. -/
def IsGuardOf (t : XRow) (c : Call P) : Prop :=
  ∃ g args q b cur, t.guard = some g ∧ c = .guard g args q b cur

/-- The guards called in region `r` are those of the rows `ts`, one after the other. -/
def Consulted (s s' : SM P W) (ts : List XRow) : Prop :=
  ∃ gs as, s'.trace = s.trace ++ gs ++ as ∧ List.Forall₂ IsGuardOf ts gs ∧
    ∀ c ∈ as, c.isAction = true

theorem FalseRun.consulted (hM : M.Regular) {cur : List (Option Nat)} {ev : EventTy} {p : Name}
    {st : StTy} {d : Dep} {es post : List Entry} (hes : M.entries [d] ev p st = es ++ post)
    {pl pl' : P} {w w' : W} {tr : List (Call P)} (h : FalseRun sem cur ev es pl w tr pl' w') :
    ∃ cs cs', M.cands ev p st = cs ++ cs' ∧ List.Forall₂ IsGuardOf (cs.filterMap Cand.row?) tr ∧
      post = cs'.filterMap (M.entryOfCand d) := by
  replace hes : (M.cands ev p st).filterMap (M.entryOfCand d) = es ++ post := by
    rw [← hes]; simp [Machine.entries]
  obtain ⟨cs, cs', hc, rfl, rfl⟩ := List.filterMap_eq_append_iff.1 hes
  refine ⟨cs, cs', hc, ?_, rfl⟩
  have := h.refused hM (d := d) (cs := cs) (pn := p) (st := st) (fun c h => by rw [hc]; simp [h])
  clear h hc hes
  induction this with
  | nil => exact .nil
  | cons hx _ ih =>
    obtain ⟨t, g, l, q, ht, hg, _, rfl⟩ := hx
    rw [List.filterMap_cons_some ht]
    exact .cons ⟨g, _, q, _, _, hg, rfl⟩ ih

theorem Selected.consulted (hM : M.Regular) {s : SM P W} {ev : EventTy} {p : Name} {st : StTy}
    {d d' : Dep} {cd : Cand} {t : XRow} {l : Name × StTy} {x : Exec} {es : List Entry}
    (hs : Selected M [d] ev p st cd t d' l x es) {pl pl' : P} {w : W} {tr gs : List (Call P)}
    (h : FalseRun sem s.cur ev es pl s.world tr pl' w)
    (hg : (t.guard = none ∧ gs = []) ∨ ∃ c, gs = [c] ∧ IsGuardOf t c) :
    ∃ ts, ts.Sublist ((M.cands ev p st).filterMap Cand.row?) ∧ List.Forall₂ IsGuardOf ts (tr ++ gs) := by
  obtain ⟨e, post, hes, hen, hx⟩ := hs.entries
  obtain ⟨cs, cs', hc, hf, hpost⟩ := h.consulted hM hes
  rw [hc, List.filterMap_append]
  rcases hg with ⟨_, rfl⟩ | ⟨c, rfl, hgc⟩
  · exact ⟨_, List.sublist_append_left _ _, by simpa using hf⟩
  · -- the selected candidate is among the rest
    have hd : d' = d := List.mem_singleton.1 hs.dep
    subst hd
    have hmem : ∃ c1, c1 ∈ cs' ∧ M.entryOfCand d' c1 = some e := by
      have : e ∈ cs'.filterMap (M.entryOfCand d') := by rw [← hpost]; simp
      obtain ⟨c1, h1, h2⟩ := List.mem_filterMap.1 this
      exact ⟨c1, h1, h2⟩
    obtain ⟨c1, hc1, hen1⟩ := hmem
    rcases Machine.entryOfCand_cases hen1 with ⟨_, _, h, _⟩ |
      ⟨t1, l1, x1, hct, hl, _, _, _, _, hx', hi, _, hgd, _⟩
    · rw [h] at hx; cases hx
    rw [hx] at hx'; cases hx'
    have hrow : c1.row? = some t1 := by rcases hct with rfl | ⟨q, rfl⟩ <;> rfl
    have hm : t1 ∈ cs'.filterMap Cand.row? := List.mem_filterMap.2 ⟨c1, hc1, hrow⟩
    refine ⟨cs.filterMap Cand.row? ++ [t1],
      (List.append_sublist_append_left _).2 (List.singleton_sublist.2 hm), ?_⟩
    refine List.rel_append hf ?_
    refine .cons ?_ .nil
    obtain ⟨g, args, q, b, cur, h1, h2⟩ := hgc
    exact ⟨g, args, q, b, cur, by rw [← hgd, hs.guard, h1], h2⟩

theorem RegionRun.consulted (hM : M.Regular) {d : Dep} {r : Nat} {ev : EventTy} {pl pl' : P}
    {s s' : SM P W} {o : RegionOut} (h : RegionRun M sem [d] r ev pl s o pl' s') :
    ∃ p st ts, At M s r p st ∧ ts.Sublist ((M.cands ev p st).filterMap Cand.row?) ∧
      Consulted s s' ts := by
  cases h with
  | none ha => exact ⟨_, _, [], ha, List.nil_sublist _, [], [], by simp, .nil, by simp⟩
  | deferred ha => exact ⟨_, _, [], ha, List.nil_sublist _, [], [], by simp, .nil, by simp⟩
  | rejected ha hne hf =>
    obtain ⟨cs, cs', hc, hf', _⟩ := hf.consulted hM (List.append_nil _).symm
    exact ⟨_, _, _, ha, by rw [hc, List.filterMap_append]; exact List.sublist_append_left _ _,
      _, [], by simp [SM.ran], hf', by simp⟩
  | @fired _ _ _ t _ _ x _ _ _ _ tr1 tr2 tr3 _ _ _ s1 ha hs hf hg he hr =>
    obtain ⟨ts, h1, h2⟩ := hs.consulted hM (gs := tr2) hf (by
      cases hg with
      | absent h => exact Or.inl ⟨by rw [← hs.guard]; exact h, rfl⟩
      | called h hc => exact Or.inr ⟨_, rfl, _, _, _, _, _, by rw [← hs.guard]; exact h, rfl⟩)
    refine ⟨_, _, ts, ha, h1, _, tr3, ?_, h2, hr.actions⟩
    show s1.trace ++ tr3 = _
    rw [he.trace_eq]; rfl

theorem RegionThrow.consulted (hM : M.Regular) {d : Dep} {r : Nat} {ev : EventTy} {pl : P}
    {s s' : SM P W} {k : Nat} (h : RegionThrow M sem [d] r ev pl s k s') :
    ∃ p st ts, At M s r p st ∧ ts.Sublist ((M.cands ev p st).filterMap Cand.row?) ∧
      Consulted s s' ts := by
  cases h with
  | @guard _ _ _ _ _ _ x _ g p1 _ tr _ _ _ ha hs hf hg hc =>
    obtain ⟨ts, h1, h2⟩ := hs.consulted hM (gs := [.guard g (guardArgs x ev) p1 none s.cur]) hf
      (Or.inr ⟨_, rfl, _, _, _, _, _, hg, rfl⟩)
    exact ⟨_, _, ts, ha, h1, _, [], by simp [SM.ran], h2, by simp⟩
  | @action _ _ _ t _ _ x _ _ _ tr1 tr2 tr3 _ _ _ s1 _ ha hs hf hg he hr =>
    obtain ⟨ts, h1, h2⟩ := hs.consulted hM (gs := tr2) hf (by
      cases hg with
      | absent h => exact Or.inl ⟨by rw [← hs.guard]; exact h, rfl⟩
      | called h hc => exact Or.inr ⟨_, rfl, _, _, _, _, _, by rw [← hs.guard]; exact h, rfl⟩)
    refine ⟨_, _, ts, ha, h1, _, tr3, ?_, h2, hr.actions⟩
    show s1.trace ++ tr3 = _
    rw [he.trace_eq]; rfl

/-- C48, what holds: if rows are declared once, at most one row in force leads into each
composite and `set_dependency` was not called, then handling an event in a region calls
guards of pairwise different rows. -/
theorem C48_partial (hM : M.Regular) (ho : M.EnteredOnce) {d : Dep} {ops : List (Op P)}
    (hops : NoDep ops) {s : SM P W} (hrun : RunTo M sem d ops s) {r : Nat} {ev : EventTy}
    {pl : P} {s' : SM P W} (h : (∃ o pl', regionStep M sem r ev pl s = .ok (o, pl') s') ∨
      ∃ x, regionStep M sem r ev pl s = .throw x s') :
    ∃ ts : List XRow, ts.Nodup ∧ (∀ t ∈ ts, t ∈ M.extRows ++ M.intRows ∧ t.event = ev) ∧
      Consulted s s' ts := by
  have hg := hrun.good hM
  rw [depsOf_noDep hops] at hg
  have key : ∃ p st ts, At M s r p st ∧ ts.Sublist ((M.cands ev p st).filterMap Cand.row?) ∧
      Consulted s s' ts := by
    rcases h with ⟨o, pl', h⟩ | ⟨x, h⟩
    · exact (regionStep_ok hM hg h).consulted hM
    · obtain ⟨k, _, h⟩ := regionStep_throw hM hg h
      exact h.consulted hM
  obtain ⟨p, st, ts, _, hs, hc⟩ := key
  refine ⟨ts, hs.nodup (ho.cands_nodup hM ev p st), ?_, hc⟩
  intro t ht
  obtain ⟨c, hc, hrow⟩ := List.mem_filterMap.1 (hs.subset ht)
  rcases Machine.cand_row hc with rfl | ⟨t', ht', he, rfl | rfl⟩
  · cases hrow
  · cases hrow; exact ⟨(by rw [Machine.extRows_eq, Machine.intRows_eq]; exact ht'), he⟩
  · cases hrow; exact ⟨(by rw [Machine.extRows_eq, Machine.intRows_eq]; exact ht'), he⟩

/-- The full claim C48: handling an event in a region calls the guards of pairwise
different rows. -/
def C48_claim : Prop :=
  ∀ (M : Machine) (sem : Sem Nat (List Nat)) (d : Dep) (ops : List (Op Nat)) (s s' : SM Nat (List Nat))
    (r : Nat) (ev : EventTy) (pl pl' : Nat) (o : RegionOut), M.Regular → M.Scoped →
    NoDep ops → RunTo M sem d ops s → regionStep M sem r ev pl s = .ok (o, pl') s' →
    ∃ ts : List XRow, ts.Nodup ∧ (∀ t ∈ ts, t ∈ M.extRows ++ M.intRows) ∧ Consulted s s' ts

/-- The demo machine has one row with guard 101, and three rows leading into its composite:
event 2 calls guard 101 three times. -/
theorem C48_refuted : ¬ C48_claim := by
  intro hall
  have hrun : (Ex.run Ex.demo (Ex.sem fun _ => false) 5 7 [] [.process (Ex.ev 0) 1]).any (fun s =>
      match regionStep Ex.demo (Ex.sem fun _ => false) 0 (Ex.ev 2) 4 s with
      | .ok _ s' => (s'.trace.drop s.trace.length).map Call.answer ==
          [some (101, some false), some (101, some false), some (101, some false)]
      | _ => false) = true := by decide +kernel
  obtain ⟨s, hr, hs⟩ := Ex.exists_run _ _ hrun
  split at hs
  · rename_i op s' hp
    obtain ⟨o, pl'⟩ := op
    simp only [beq_iff_eq] at hs
    obtain ⟨ts, hnd, hmem, gs, as, htr, hf, has⟩ := hall _ _ 7 _ s s' 0 (Ex.ev 2) 4 pl' o
      Ex.demo_regular Ex.demo_scoped (by intro op hop d; rw [List.mem_singleton.1 hop]; simp) hr hp
    rw [htr, List.append_assoc, List.drop_left] at hs
    -- the calls are all guards, so there are three rows with guard 101
    have hl := congrArg List.length hs
    simp only [List.length_map, List.length_append, List.length_cons, List.length_nil] at hl
    have hasn : as = [] := by
      cases as with
      | nil => rfl
      | cons c as =>
        have h1 : c.answer ∈ (gs ++ c :: as).map Call.answer := List.mem_map.2 ⟨c, by simp, rfl⟩
        rw [hs] at h1
        have h2 := has c (by simp)
        cases c <;> simp [Call.answer, Call.isAction] at h1 h2
    subst hasn
    have h101 : ∀ t ∈ ts, t.guard = some 101 := by
      have : ∀ c ∈ gs, c.answer = some (101, some false) := by
        intro c hc
        have h1 : c.answer ∈ (gs ++ []).map Call.answer := List.mem_map.2 ⟨c, by simp [hc], rfl⟩
        rw [hs] at h1
        simpa using h1
      clear hs hl hmem hnd htr
      induction hf with
      | nil => intro t ht; cases ht
      | cons hx _ ih =>
        intro t ht
        rcases List.mem_cons.1 ht with rfl | ht
        · obtain ⟨g, args, q, b, cur, hg, rfl⟩ := hx
          have := this _ List.mem_cons_self
          simp only [Call.answer, Option.some.injEq, Prod.mk.injEq] at this
          rw [hg, this.1]
        · exact ih (fun c hc => this c (by simp [hc])) t ht
    have honly : ∀ t ∈ Ex.demo.extRows ++ Ex.demo.intRows, t.guard = some 101 →
        t = (⟨Ex.Comp, Ex.ini Ex.CA, Ex.ev 2, some 101, some 6, .st Ex.CB, false⟩ : XRow) := by
      decide +kernel
    have hlen := hf.length_eq
    simp only [List.length_nil, Nat.add_zero] at hl
    match ts, hnd, hlen with
    | [], _, h => simp at h; omega
    | [_], _, h => simp at h; omega
    | a :: b :: _, hnd, _ =>
      have ha := honly a (hmem a (by simp)) (h101 a (by simp))
      have hb := honly b (hmem b (by simp)) (h101 b (by simp))
      rw [ha, hb] at hnd
      simp at hnd
  · cases hs

end

/-! ## The hypotheses are met -/

/-- Evaluates `EnteredOnce`. -/
def Machine.enteredOnceB (M : Machine) : Bool :=
  M.composites.all (fun p => decide (M.rows p).Nodup &&
      (M.rows p).all fun r => decide (r.source ≠ .st p))
    && M.flat.all fun t₁ => M.flat.all fun t₂ =>
      decide (M.subMachine t₁.target = none ∨ M.subMachine t₁.target ≠ M.subMachine t₂.target ∨ t₁ = t₂)

theorem Machine.enteredOnce_of_check {M : Machine} (hM : M.Regular) (h : M.enteredOnceB = true) :
    M.EnteredOnce := by
  unfold enteredOnceB at h
  simp only [Bool.and_eq_true, List.all_eq_true, decide_eq_true_eq] at h
  obtain ⟨h1, h2⟩ := h
  have hp : ∀ p, M.InForce p → M.rows p ≠ [] → p ∈ M.composites := fun p h1 h2 =>
    (mem_parents_iff hM.ranked).2 ⟨h1, h2⟩
  refine ⟨?_, ?_, ?_⟩
  · intro p hin
    cases hr : M.rows p with
    | nil => simp
    | cons r rs => rw [← hr]; exact (h1 p (hp p hin (by simp [hr]))).1
  · intro p r hin hr
    exact (h1 p (hp p hin (by rintro h; rw [h] at hr; cases hr))).2 r hr
  · intro p₁ r₁ p₂ r₂ q i₁ i₂ hr₁ hr₂ e₁ e₂
    have m₁ := (mem_flat_iff hM.ranked).2 ⟨p₁, r₁, i₁, hr₁, rfl⟩
    have m₂ := (mem_flat_iff hM.ranked).2 ⟨p₂, r₂, i₂, hr₂, rfl⟩
    have s₁ : M.subMachine (ext p₁ r₁).target = some q := subMachine_iff.2 e₁
    have s₂ : M.subMachine (ext p₂ r₂).target = some q := subMachine_iff.2 e₂
    rcases h2 _ m₁ _ m₂ with h | h | h
    · rw [s₁] at h; cases h
    · rw [s₁, s₂] at h; exact absurd rfl h
    · cases r₁; cases r₂
      simp only [ext, XRow.mk.injEq] at h
      simp only [Row.mk.injEq]
      tauto

namespace Ex

/-- A composite led into by one row, with a guarded row inside and two outside. -/
def onceDecls : List Decl :=
  [ { table := some
        [ row (ini 1) (ev 0) (some 100) none (.st 2),
          row (.st 2) (ev 2) (some 101) none (.st 1),
          row (.st 2) (ev 2) (some 102) none (.st 1) ] },
    { },
    { table := some [ row (ini 3) (ev 2) (some 103) none (.st 4) ] },
    { }, { } ]

def once : Machine := Machine.ofList onceDecls [1]

theorem once_regular : once.Regular := Machine.regular_ofList (by decide +kernel)
theorem once_entered : once.EnteredOnce := Machine.enteredOnce_of_check once_regular (by decide +kernel)

/-- In the composite event 2 asks the guards of three rows, each once. -/
example : (run once (sem fun g => g == 100) 5 7 [] [.process (ev 0) 1, .process (ev 2) 1]).any
    (fun s => s.world == [100, 102, 101, 103]) = true := by
  decide +kernel

end Ex
end Hsm

import Verif.PropsHist
import Verif.PropsEvent
import Mathlib.Data.List.Forall2

/-!
# Every callback invocation and every move is accounted for (C41, C27, C28)

The trace of a machine lists all callback invocations of its life, with the locations of the
regions at that time; the log lists all moves, with their place in the trace.
-/

namespace Hsm
section
variable {P W : Type} {M : Machine} {sem : Sem P W} {deps : List Dep}

/-! ## Specification vocabulary -/

/-- With the regions at `cur`, candidate `cd` for event `ev` applies in region `r`; it is row
`t`, with destination `l` (where history rows lead at first), given dependency `d`. -/
structure RowAt (M : Machine) (deps : List Dep) (cur : List (Option Nat)) (r : Nat) (ev : EventTy)
    (cd : Cand) (t : XRow) (d : Dep) (l : Name × StTy) : Prop where
  place : ∃ p st, p ∈ M.composites ∧ st ∈ M.states ∧ cur[r]? = some (some (M.comb p st)) ∧
    cd ∈ M.cands ev p st
  row : cd.row? = some t
  dep : d ∈ deps
  loc : M.targetLoc t = some l

/-- What the guard of a row is called with. -/
def rowGuardArgs (cd : Cand) (t : XRow) (l : Name × StTy) (ev : EventTy) (d : Dep) : Args :=
  { event := ev, src := cd.src, dst := if t.internal then cd.src else l.2, byPtr := false, dep := d }

/-- The row has no guard and nothing was called, or its guard was called and said yes. -/
def SaidYes (t : XRow) (args : Args) (cur : List (Option Nat)) (gs : List (Call P)) : Prop :=
  (t.guard = none ∧ gs = []) ∨
    ∃ g q, t.guard = some g ∧ gs = [.guard g args q (some true) cur]

/-- Firing row `t` in region `r` with the regions at `cur` puts them at `cur'`; `mem` says
where history rows lead. -/
def Leaves (M : Machine) (mem : Name → Nat → Nat → Prop) (t : XRow) (r : Nat)
    (cur cur' : List (Option Nat)) : Prop :=
  if t.internal then cur' = cur
  else ∃ c, cur' = cur.set r (some c) ∧
    (∀ o q, t.target = .ps o (.history q) → mem q r c) ∧
    ((∀ o q, t.target ≠ .ps o (.history q)) → ∃ l, M.targetLoc t = some l ∧ c = M.comb l.1 l.2)

/-- The callbacks `cs` were called in order, each once, none threw. -/
def CalledAll (args : Args) (cur : List (Option Nat)) (cs : List (Phase × Cb))
    (tr : List (Call P)) : Prop :=
  ∃ ps : List P, ps.length = cs.length ∧
    tr = (List.zip cs ps).map fun x => Call.action x.1.1 x.1.2 args x.2 false cur

/-- The callbacks `cs` were called in order up to one that threw. -/
def CalledSome (args : Args) (cur : List (Option Nat)) (cs : List (Phase × Cb))
    (tr : List (Call P)) : Prop :=
  ∃ pre ph a post tr' q, cs = pre ++ (ph, a) :: post ∧ CalledAll args cur pre tr' ∧
    tr = tr' ++ [.action ph a args q true cur]

/-- Call `c`, made after the calls `pre`, is justified:
* a guard is that of a row applicable in some region, with the arguments of this row;
* an action is one of the callbacks of a row that was applicable in some region, whose
  guard, if any, was called just before and said yes, which has then moved that region (this
  is the move logged), and whose preceding callbacks have all been called since;
* a handler is that of the root, and gets the object of the state region 0 is in and the
  dependency `d0`. -/
inductive Justified (M : Machine) (deps : List Dep) (d0 : Dep) (log : List Firing)
    (pre : List (Call P)) : Call P → Prop
  | guard {cur : List (Option Nat)} {r : Nat} {ev : EventTy} {cd : Cand} {t : XRow} {d : Dep}
      {l : Name × StTy} {g : Cb} {q : P} {res : Option Bool}
      (hr : RowAt M deps cur r ev cd t d l) (hg : t.guard = some g) :
      Justified M deps d0 log pre (.guard g (rowGuardArgs cd t l ev d) q res cur)
  | action {before cur : List (Option Nat)} {r : Nat} {ev : EventTy} {cd : Cand} {t : XRow}
      {d : Dep} {l : Name × StTy} {ph : Phase} {a : Cb} {cs1 cs2 : List (Phase × Cb)}
      {pre0 gs as : List (Call P)} {q : P} {b : Bool}
      (hr : RowAt M deps before r ev cd t d l)
      (hl : Leaves M (fun _ _ _ => True) t r before cur)
      (hm : t.internal = false → (⟨r, before, cur, (pre0 ++ gs).length⟩ : Firing) ∈ log)
      (hc : M.callbacks t = cs1 ++ (ph, a) :: cs2)
      (hp : pre = pre0 ++ gs ++ as)
      (hy : SaidYes t (rowGuardArgs cd t l ev d) before gs)
      (ha : CalledAll (cbArgs M cd t l ev d) cur cs1 as) :
      Justified M deps d0 log pre (.action ph a (cbArgs M cd t l ev d) q b cur)
  | handler {cur : List (Option Nat)} {e : EventTy} {h : Cb} {p : Name} {st : StTy} {q : P}
      {b : Bool} (hh : (M.decl M.root).handler = some h) (hp : p ∈ M.composites)
      (hst : st ∈ M.states) (hc : cur[0]? = some (some (M.comb p st))) :
      Justified M deps d0 log pre (.handler h e st d0 q b cur)

/-- The full account of a move in the trace: it is that of an external row applicable where
the region was; just before it the guard of the row, if any, said yes; the region was put
where the row leads; just after it the callbacks of the row were called in order, all of
them unless one threw, and before any later move. -/
def Accounted (M : Machine) (deps : List Dep) (mem : Name → Nat → Nat → Prop)
    (trace : List (Call P)) (later : List Firing) (f : Firing) : Prop :=
  ∃ ev cd t d l pre gs as post, RowAt M deps f.before f.region ev cd t d l ∧
    t.internal = false ∧ trace = pre ++ gs ++ as ++ post ∧ f.calls = (pre ++ gs).length ∧
    SaidYes t (rowGuardArgs cd t l ev d) f.before gs ∧
    Leaves M mem t f.region f.before f.after ∧
    (CalledAll (cbArgs M cd t l ev d) f.after (M.callbacks t) as ∨
     CalledSome (cbArgs M cd t l ev d) f.after (M.callbacks t) as) ∧
    ∀ f' ∈ later, (pre ++ gs ++ as).length ≤ f'.calls

/-! ## Proofs -/

theorem RowAt.mono {deps' : List Dep} {cur : List (Option Nat)} {r : Nat} {ev : EventTy}
    {cd : Cand} {t : XRow} {d : Dep} {l : Name × StTy} (h : RowAt M deps cur r ev cd t d l)
    (hs : ∀ d ∈ deps, d ∈ deps') : RowAt M deps' cur r ev cd t d l :=
  ⟨h.place, h.row, hs _ h.dep, h.loc⟩

theorem Justified.mono {deps' : List Dep} {d0 : Dep} {log log' : List Firing}
    {pre : List (Call P)} {c : Call P} (h : Justified M deps d0 log pre c)
    (hs : ∀ d ∈ deps, d ∈ deps') (hl : ∀ f ∈ log, f ∈ log') : Justified M deps' d0 log' pre c := by
  cases h with
  | guard hr hg => exact .guard (hr.mono hs) hg
  | action hr hlv hm hc hp hy ha =>
    exact .action (hr.mono hs) hlv (fun h => hl _ (hm h)) hc hp hy ha
  | handler hh hp hst hc => exact .handler hh hp hst hc

theorem Accounted.mono {deps' : List Dep} {mem : Name → Nat → Nat → Prop}
    {trace more : List (Call P)} {later : List Firing} {f : Firing}
    (h : Accounted M deps mem trace later f)
    (hs : ∀ d ∈ deps, d ∈ deps') : Accounted M deps' mem (trace ++ more) later f := by
  obtain ⟨ev, cd, t, d, l, pre, gs, as, post, h1, h2, h3, h4, h5, h6, h7⟩ := h
  exact ⟨ev, cd, t, d, l, pre, gs, as, post ++ more, h1.mono hs, h2, by rw [h3]; simp, h4, h5, h6, h7⟩

/-- All calls in `tr`, made after `pre`, are justified. -/
def AllJust (M : Machine) (deps : List Dep) (d0 : Dep) (log : List Firing)
    (pre tr : List (Call P)) : Prop :=
  ∀ l1 c l2, tr = l1 ++ c :: l2 → Justified M deps d0 log (pre ++ l1) c

theorem Accounted.later {mem : Name → Nat → Nat → Prop} {trace : List (Call P)}
    {later : List Firing} {f f' : Firing} (h : Accounted M deps mem trace later f)
    (hf : trace.length ≤ f'.calls) : Accounted M deps mem trace (later ++ [f']) f := by
  obtain ⟨ev, cd, t, d, l, pre, gs, as, post, h1, h2, h3, h4, h5, h6, h7, h8⟩ := h
  refine ⟨ev, cd, t, d, l, pre, gs, as, post, h1, h2, h3, h4, h5, h6, h7, ?_⟩
  intro f'' hf''
  rcases List.mem_append.1 hf'' with hf'' | hf''
  · exact h8 f'' hf''
  · rw [List.mem_singleton.1 hf'']
    rw [h3] at hf
    simp only [List.length_append] at hf ⊢
    omega

theorem AllJust.mono {d0 : Dep} {log log' : List Firing} {pre tr : List (Call P)}
    (h : AllJust M deps d0 log pre tr) (hl : ∀ f ∈ log, f ∈ log') :
    AllJust M deps d0 log' pre tr :=
  fun l1 c l2 he => (h l1 c l2 he).mono (fun _ h => h) hl

theorem AllJust.nil {d0 : Dep} {log : List Firing} {pre : List (Call P)} : AllJust M deps d0 log pre [] := by
  intro l1 c l2 h
  simp at h

theorem AllJust.append {d0 : Dep} {log : List Firing} {pre tr1 tr2 : List (Call P)} (h1 : AllJust M deps d0 log pre tr1)
    (h2 : AllJust M deps d0 log (pre ++ tr1) tr2) : AllJust M deps d0 log pre (tr1 ++ tr2) := by
  intro l1 c l2 he
  rcases List.append_eq_append_iff.1 he with ⟨m, rfl, hm⟩ | ⟨m, rfl, hm⟩
  · have := h2 m c l2 hm
    rwa [List.append_assoc] at this
  · cases m with
    | nil =>
      simp only [List.append_nil] at h2 ⊢
      have := h2 [] c l2 (by simpa using hm.symm)
      simpa using this
    | cons x xs =>
      simp only [List.cons_append, List.cons.injEq] at hm
      obtain ⟨rfl, _⟩ := hm
      exact h1 l1 c xs rfl

theorem AllJust.cons {d0 : Dep} {log : List Firing} {pre tr : List (Call P)} {c : Call P}
    (h1 : Justified M deps d0 log pre c) (h2 : AllJust M deps d0 log (pre ++ [c]) tr) :
    AllJust M deps d0 log pre (c :: tr) := by
  have : AllJust M deps d0 log pre [c] := by
    intro l1 c' l2 he
    cases l1 with
    | nil => simp only [List.nil_append, List.cons.injEq] at he; rw [← he.1]; simpa using h1
    | cons x xs => simp at he
  exact this.append (tr2 := tr) h2

theorem RowAt.of_entry {cur : List (Option Nat)} {r : Nat} {ev : EventTy} {p : Name} {st : StTy}
    (hp : p ∈ M.composites) (hst : st ∈ M.states) (hc : cur[r]? = some (some (M.comb p st)))
    {e : Entry} (he : e ∈ M.entries deps ev p st) {x : Exec} (hx : e.tr = some x) :
    ∃ cd t d l, RowAt M deps cur r ev cd t d l ∧ x.guard = t.guard ∧
      guardArgs x ev = rowGuardArgs cd t l ev d := by
  obtain ⟨d, hd, cd, hcd, hen⟩ := Machine.mem_entries.1 he
  rcases Machine.entryOfCand_cases hen with ⟨_, _, h, _⟩ |
    ⟨t, l, x', hct, hl, _, _, _, _, hx', hi, _, hg, hdst, hdep, hs1, hs2⟩
  · rw [h] at hx; cases hx
  rw [hx] at hx'; cases hx'
  have hsrc : x.src = cd.src := by
    rcases hct with rfl | ⟨q, rfl⟩
    · exact hs1 rfl
    · exact hs2 q rfl
  refine ⟨cd, t, d, l, ⟨⟨p, st, hp, hst, hc, hcd⟩, ?_, hd, hl⟩, hg, ?_⟩
  · rcases hct with rfl | ⟨q, rfl⟩ <;> rfl
  · unfold guardArgs rowGuardArgs
    rw [hsrc, hi, hdst, hdep]

theorem FalseRun.just {cur : List (Option Nat)} {r : Nat} {ev : EventTy} {p : Name} {st : StTy}
    (hp : p ∈ M.composites) (hst : st ∈ M.states) (hc : cur[r]? = some (some (M.comb p st)))
    {d0 : Dep} {log : List Firing} {es : List Entry} {pl pl' : P} {w w' : W} {tr : List (Call P)}
    (h : FalseRun sem cur ev es pl w tr pl' w') (hes : ∀ e ∈ es, e ∈ M.entries deps ev p st)
    (pre : List (Call P)) : AllJust M deps d0 log pre tr := by
  induction h generalizing pre with
  | nil => exact AllJust.nil
  | cons hd ht hg hcall hr ih =>
    refine AllJust.cons ?_ (ih (fun e he => hes e (by simp [he])) _)
    obtain ⟨cd, t, d, l, hra, hgt, hargs⟩ := RowAt.of_entry hp hst hc (hes _ (by simp)) ht
    rw [hargs]
    exact .guard hra (by rw [← hgt, hg])

theorem Selected.args {ev : EventTy} {p : Name} {st : StTy} {cd : Cand} {t : XRow} {d : Dep}
    {l : Name × StTy} {x : Exec} {pre : List Entry} (h : Selected M deps ev p st cd t d l x pre) :
    guardArgs x ev = rowGuardArgs cd t l ev d := by
  unfold guardArgs rowGuardArgs
  rw [h.src, h.internal, h.dst, h.xdep]

theorem Selected.pre_mem {ev : EventTy} {p : Name} {st : StTy} {cd : Cand} {t : XRow} {d : Dep}
    {l : Name × StTy} {x : Exec} {pre : List Entry} (h : Selected M deps ev p st cd t d l x pre) :
    ∀ e ∈ pre, e ∈ M.entries deps ev p st := by
  intro e he
  obtain ⟨e', post, hes, _⟩ := h.entries
  rw [hes]; simp [he]

theorem Selected.rowAt {cur : List (Option Nat)} {r : Nat} {ev : EventTy} {p : Name} {st : StTy}
    {cd : Cand} {t : XRow} {d : Dep}
    {l : Name × StTy} {x : Exec} {pre : List Entry} (h : Selected M deps ev p st cd t d l x pre)
    (hp : p ∈ M.composites) (hst : st ∈ M.states) (hc : cur[r]? = some (some (M.comb p st))) :
    RowAt M deps cur r ev cd t d l :=
  ⟨⟨p, st, hp, hst, hc, h.mem⟩, h.row, h.dep, h.loc⟩

theorem TrueGuard.yes {cur : List (Option Nat)} {ev : EventTy} {p : Name} {st : StTy} {cd : Cand}
    {t : XRow} {d : Dep} {l : Name × StTy} {x : Exec} {pre : List Entry}
    (h : Selected M deps ev p st cd t d l x pre) {p1 p2 : P} {w1 w2 : W} {tr : List (Call P)}
    (hg : TrueGuard sem cur ev x p1 w1 tr p2 w2) : SaidYes t (rowGuardArgs cd t l ev d) cur tr := by
  cases hg with
  | absent h' => exact Or.inl ⟨by rw [← h.guard]; exact h', rfl⟩
  | called h' hc =>
    rw [h.args]
    exact Or.inr ⟨_, _, by rw [← h.guard]; exact h', rfl⟩

theorem SaidYes.just {log : List Firing} {cur : List (Option Nat)} {r : Nat} {ev : EventTy} {cd : Cand} {t : XRow}
    {d d0 : Dep} {l : Name × StTy} (hr : RowAt M deps cur r ev cd t d l) {gs : List (Call P)}
    (h : SaidYes t (rowGuardArgs cd t l ev d) cur gs) (pre : List (Call P)) :
    AllJust M deps d0 log pre gs := by
  rcases h with ⟨_, rfl⟩ | ⟨g, q, hg, rfl⟩
  · exact AllJust.nil
  · exact AllJust.cons (.guard hr hg) AllJust.nil

theorem CalledAll.nil {args : Args} {cur : List (Option Nat)} :
    CalledAll (P := P) args cur [] [] := ⟨[], rfl, rfl⟩

theorem CalledAll.snoc {args : Args} {cur : List (Option Nat)} {cs : List (Phase × Cb)}
    {tr : List (Call P)} (h : CalledAll args cur cs tr) (ph : Phase) (a : Cb) (q : P) :
    CalledAll args cur (cs ++ [(ph, a)]) (tr ++ [.action ph a args q false cur]) := by
  obtain ⟨ps, hl, rfl⟩ := h
  refine ⟨ps ++ [q], by simp [hl], ?_⟩
  rw [List.zip_append hl.symm]
  simp

section
variable {before cur : List (Option Nat)} {r : Nat} {ev : EventTy} {cd : Cand} {t : XRow}
  {d d0 : Dep} {l : Name × StTy} {pre gs : List (Call P)} {log : List Firing}

theorem ActRun.just (hr : RowAt M deps before r ev cd t d l)
    (hl : Leaves M (fun _ _ _ => True) t r before cur)
    (hm : t.internal = false → (⟨r, before, cur, (pre ++ gs).length⟩ : Firing) ∈ log)
    (hy : SaidYes t (rowGuardArgs cd t l ev d) before gs)
    {cs : List (Phase × Cb)} {p p' : P} {w w' : W} {tr : List (Call P)}
    (h : ActRun sem cur (cbArgs M cd t l ev d) cs p w tr p' w') :
    ∀ {cs1 : List (Phase × Cb)} {as : List (Call P)}, M.callbacks t = cs1 ++ cs →
      CalledAll (cbArgs M cd t l ev d) cur cs1 as →
      AllJust M deps d0 log (pre ++ gs ++ as) tr ∧
        CalledAll (cbArgs M cd t l ev d) cur (M.callbacks t) (as ++ tr) := by
  induction h with
  | nil =>
    intro cs1 as hc ha
    refine ⟨AllJust.nil, ?_⟩
    rw [hc]; simpa using ha
  | @cons ph a cs p p1 p2 w w1 w2 tr hcall hrun ih =>
    intro cs1 as hc ha
    have ha' := ha.snoc ph a p
    obtain ⟨h1, h2⟩ := ih (cs1 := cs1 ++ [(ph, a)]) (by rw [hc]; simp) ha'
    refine ⟨AllJust.cons (.action hr hl hm hc rfl hy ha) ?_, ?_⟩
    · rw [List.append_assoc]; exact h1
    · rw [List.append_assoc] at h2; exact h2

theorem ActThrow.just (hr : RowAt M deps before r ev cd t d l)
    (hl : Leaves M (fun _ _ _ => True) t r before cur)
    (hm : t.internal = false → (⟨r, before, cur, (pre ++ gs).length⟩ : Firing) ∈ log)
    (hy : SaidYes t (rowGuardArgs cd t l ev d) before gs)
    {cs : List (Phase × Cb)} {p : P} {w w' : W} {tr : List (Call P)} {k : Nat}
    (h : ActThrow sem cur (cbArgs M cd t l ev d) cs p w tr k w') :
    ∀ {cs1 : List (Phase × Cb)} {as : List (Call P)}, M.callbacks t = cs1 ++ cs →
      CalledAll (cbArgs M cd t l ev d) cur cs1 as →
      AllJust M deps d0 log (pre ++ gs ++ as) tr ∧
        CalledSome (cbArgs M cd t l ev d) cur (M.callbacks t) (as ++ tr) := by
  induction h with
  | @here ph a cs p p1 w w1 n hcall =>
    intro cs1 as hc ha
    exact ⟨AllJust.cons (.action hr hl hm hc rfl hy ha) AllJust.nil,
      cs1, ph, a, cs, as, p, hc, ha, rfl⟩
  | @later ph a cs p p1 w w1 w2 n tr hcall hrun ih =>
    intro cs1 as hc ha
    have ha' := ha.snoc ph a p
    obtain ⟨h1, h2⟩ := ih (cs1 := cs1 ++ [(ph, a)]) (by rw [hc]; simp) ha'
    refine ⟨AllJust.cons (.action hr hl hm hc rfl hy ha) ?_, ?_⟩
    · rw [List.append_assoc]; exact h1
    · rw [List.append_assoc] at h2; exact h2

end

/-- Everything that happened so far is accounted for. -/
structure Story (M : Machine) (deps : List Dep) (d0 : Dep) (s : SM P W) : Prop where
  ok : LogOk M s
  calls : AllJust M deps d0 s.log [] s.trace
  order : s.log.Pairwise (fun f f' => f.calls ≤ f'.calls)
  moves : ∀ l1 f l2, s.log = l1 ++ f :: l2 → Accounted M deps (Memo M (l1 ++ [f])) s.trace l2 f

theorem Story.ran {d0 : Dep} {s : SM P W} (h : Story M deps d0 s) {w : W} {tr : List (Call P)}
    (htr : AllJust M deps d0 s.log s.trace tr) : Story M deps d0 (s.ran w tr) := by
  refine ⟨⟨h.ok.memory, h.ok.moves, h.ok.len, h.ok.lens⟩, h.calls.append (by simpa using htr),
    h.order, ?_⟩
  intro l1 f l2 hl
  exact (h.moves l1 f l2 hl).mono fun _ h => h

theorem Effect.leaves {r : Nat} {t : XRow} {s s' : SM P W} (h : Effect M r t s s') :
    Leaves M (fun _ _ _ => True) t r s.cur s'.cur := by
  unfold Effect at h
  unfold Leaves
  split at h
  · rename_i hi; rw [if_pos hi, h]
  · rename_i hi
    rw [if_neg hi]
    obtain ⟨c, h1, _, h3⟩ := h.dest
    exact ⟨c, h1, fun _ _ _ => trivial, h3⟩

theorem Effect.trace_eq {r : Nat} {t : XRow} {s s' : SM P W} (h : Effect M r t s s') :
    s'.trace = s.trace := by
  unfold Effect at h
  split at h
  · rw [h]
  · exact h.trace

theorem Effect.log_sub {r : Nat} {t : XRow} {s s' : SM P W} (h : Effect M r t s s') :
    (∀ f ∈ s.log, f ∈ s'.log) ∧
      (t.internal = false → (⟨r, s.cur, s'.cur, s.trace.length⟩ : Firing) ∈ s'.log) := by
  unfold Effect at h
  split at h
  · rename_i hi
    subst h
    exact ⟨fun _ h => h, fun h => by rw [hi] at h; cases h⟩
  · rw [h.log]
    exact ⟨fun f hf => by simp [hf], fun _ => by simp⟩

/-- The story after a row was fired and its callbacks ran. -/
theorem Story.fired (hM : M.Regular) {d0 : Dep} {s s1 : SM P W} (h : Story M deps d0 s) {r : Nat}
    {ev : EventTy} {p : Name} {st : StTy} {cd : Cand} {t : XRow} {d : Dep} {l : Name × StTy}
    {x : Exec} {pre : List Entry} (ha : At M s r p st)
    (hs : Selected M deps ev p st cd t d l x pre) {w w' : W} {tr1 tr2 tr3 : List (Call P)}
    (h1 : AllJust M deps d0 s.log s.trace tr1)
    (hy : SaidYes t (rowGuardArgs cd t l ev d) s.cur tr2)
    (he : Effect M r t (s.ran w (tr1 ++ tr2)) s1)
    (h3 : AllJust M deps d0 s1.log (s.trace ++ tr1 ++ tr2) tr3)
    (hc : CalledAll (cbArgs M cd t l ev d) s1.cur (M.callbacks t) tr3 ∨
      CalledSome (cbArgs M cd t l ev d) s1.cur (M.callbacks t) tr3) :
    Story M deps d0 (s1.ran w' tr3) := by
  have hra : RowAt M deps s.cur r ev cd t d l := hs.rowAt ha.1 ha.2.1 ha.2.2
  have h2 := hy.just (d0 := d0) (log := s.log) hra (s.trace ++ tr1)
  have h0 : Story M deps d0 (s.ran w (tr1 ++ tr2)) := h.ran (h1.append h2)
  have hcalls : AllJust M deps d0 s1.log [] (s1.ran w' tr3).trace := by
    have : (s1.ran w' tr3).trace = (s.trace ++ (tr1 ++ tr2)) ++ tr3 := by
      show s1.trace ++ tr3 = _
      rw [he.trace_eq]; rfl
    rw [this]
    refine AllJust.append (h0.calls.mono he.log_sub.1) ?_
    simpa using h3
  have hlv := he.leaves
  have htr := he.trace_eq
  unfold Effect at he
  split at he
  · subst he
    refine ⟨⟨h0.ok.memory, h0.ok.moves, h0.ok.len, h0.ok.lens⟩, hcalls, h0.order, ?_⟩
    intro l1 f l2 hl
    exact (h0.moves l1 f l2 hl).mono fun _ h => h
  · rename_i hi
    have hok := he.logOk hM h0.ok (p := p) (st := st) (ev := ev) (cd := cd) ha hs.mem hs.row
      (by simpa using hi)
    refine ⟨⟨hok.memory, hok.moves, hok.len, hok.lens⟩, hcalls, ?_, ?_⟩
    · show s1.log.Pairwise _
      rw [he.log, List.pairwise_append]
      refine ⟨h0.order, by simp, ?_⟩
      intro f hf f' hf'
      rw [List.mem_singleton.1 hf']
      obtain ⟨l1, l2, hl⟩ := List.append_of_mem hf
      obtain ⟨_, _, _, _, _, pre, gs, as, post, _, _, htr, hcl, _⟩ := h0.moves l1 f l2 hl
      show f.calls ≤ (s.ran w (tr1 ++ tr2)).trace.length
      rw [hcl, htr]
      simp only [List.length_append]
      omega
    intro l1 f l2 hl
    have hl : s1.log = l1 ++ f :: l2 := hl
    have htr' : (s1.ran w' tr3).trace = s.trace ++ (tr1 ++ tr2) ++ tr3 := by
      show s1.trace ++ tr3 = _
      rw [htr]; rfl
    rw [he.log] at hl
    rcases List.eq_nil_or_concat l2 with rfl | ⟨l', y, rfl⟩
    · obtain ⟨rfl, he'⟩ := List.append_inj' hl rfl
      cases he'
      refine ⟨ev, cd, t, d, l, s.trace ++ tr1, tr2, tr3, [], hra, by simpa using hi, ?_, ?_, hy, ?_, hc,
        by simp⟩
      · rw [htr']; simp
      · show (s.trace ++ (tr1 ++ tr2)).length = _
        simp
      · unfold Leaves
        rw [if_neg hi]
        obtain ⟨c, hcur, hh, hn⟩ := he.dest
        refine ⟨c, hcur, ?_, hn⟩
        intro o q hq
        have htf : t ∈ M.flat := Explained.row_mem (mem := fun _ _ _ => True)
          (f := ⟨0, [], [], 0⟩) hs.mem hs.row (by simpa using hi)
        have := (hok.memory (Machine.historic_of htf hq) q
          (Machine.history_target hM htf hq).1 r c).1 (hh o q hq)
        rw [he.log] at this
        exact this
    · rw [List.concat_eq_append, show l1 ++ f :: (l' ++ [y]) = (l1 ++ f :: l') ++ [y] by simp] at hl
      obtain ⟨hl', hy'⟩ := List.append_inj' hl rfl
      have := h0.moves l1 f l' hl'
      rw [htr']
      rw [List.concat_eq_append, ← hy']
      exact (this.later (Nat.le_refl _)).mono fun _ h => h

theorem Lift.story (hM : M.Regular) (d0 : Dep) :
    Lift M sem deps (fun s s' : SM P W => Story M deps d0 s → Story M deps d0 s') where
  refl := fun _ h => h
  trans := fun _ _ _ h1 h2 h => h2 (h1 h)
  region := by
    intro r ev pl s o pl' s' h ho hs
    cases h with
    | none => exact hs
    | rejected ha _ hf =>
      exact hs.ran (hf.just ha.1 ha.2.1 ha.2.2 (fun _ h => h) _)
    | deferred => exact absurd rfl ho
    | fired ha hsel hf hg he hr =>
      have hra := hsel.rowAt ha.1 ha.2.1 ha.2.2
      have hy := hg.yes hsel
      obtain ⟨h1, h2⟩ := hr.just (d0 := d0) (pre := s.trace ++ _) hra he.leaves
        (fun hi => by have := he.log_sub.2 hi; simpa [SM.ran] using this) hy (cs1 := [])
        (as := []) rfl CalledAll.nil
      exact hs.fired hM ha hsel (hf.just ha.1 ha.2.1 ha.2.2 hsel.pre_mem _) hy he
        (by simpa using h1) (Or.inl (by simpa using h2))
  throw := by
    intro r ev pl s k s' h hs
    cases h with
    | guard ha hsel hf hg hc =>
      refine hs.ran (AllJust.append (hf.just ha.1 ha.2.1 ha.2.2 hsel.pre_mem _)
        (AllJust.cons ?_ AllJust.nil))
      rw [hsel.args]
      exact .guard (hsel.rowAt ha.1 ha.2.1 ha.2.2) hg
    | action ha hsel hf hg he hr =>
      have hra := hsel.rowAt ha.1 ha.2.1 ha.2.2
      have hy := hg.yes hsel
      obtain ⟨h1, h2⟩ := hr.just (d0 := d0) (pre := s.trace ++ _) hra he.leaves
        (fun hi => by have := he.log_sub.2 hi; simpa [SM.ran] using this) hy (cs1 := [])
        (as := []) rfl CalledAll.nil
      exact hs.fired hM ha hsel (hf.just ha.1 ha.2.1 ha.2.2 hsel.pre_mem _) hy he
        (by simpa using h1) (Or.inr (by simpa using h2))

theorem Story.same {d0 : Dep} {s s' : SM P W} (h : Story M deps d0 s) (h1 : s'.cur = s.cur)
    (h2 : s'.hist = s.hist) (h3 : s'.log = s.log) (h4 : s'.trace = s.trace) :
    Story M deps d0 s' := by
  refine ⟨⟨?_, by rw [h3]; exact h.ok.moves, by rw [h1]; exact h.ok.len,
    by rw [h3]; exact h.ok.lens⟩, by rw [h4, h3]; exact h.calls, by rw [h3]; exact h.order, by rw [h3, h4]; exact h.moves⟩
  intro hh p hp r c
  unfold Remembers
  rw [h2, h3]
  exact h.ok.memory hh p hp r c

theorem Story.event (hM : M.Regular) {d0 : Dep} {ev : EventTy} {pl : P} {s s' : SM P W} {b : Bool}
    (h : EventRun M sem deps d0 ev pl s b s') (hs : Story M deps d0 s) : Story M deps d0 s' := by
  have L := Lift.story (sem := sem) (deps := deps) (P := P) (W := W) hM d0
  have D : ∀ (s : SM P W) (ev : EventTy) (pl : P), Story M deps d0 s →
      Story M deps d0 { s with queue := s.queue ++ [(ev, pl)] } :=
    fun s _ _ h => h.same rfl rfl rfl rfl
  cases h with
  | ignored ht hn hh => exact L.turn_defer D ht hs
  | unexpected ht hn hh ha hc =>
    exact (L.turn_defer D ht hs).ran (AllJust.cons (.handler hh ha.1 ha.2.1 ha.2.2) AllJust.nil)
  | unhandled ht hr hn => exact L.turn_defer D ht hs
  | handled ht hr hq => exact L.turn_defer D ht hs
  | @replayed os os' pl' rp rp' s1 s2 s3 s4 re q ht hr hd hq ht' =>
    exact L.turn_defer D ht' ((L.turn_defer D ht hs).same rfl rfl rfl rfl)

theorem Story.eventThrow (hM : M.Regular) {d0 : Dep} {ev : EventTy} {pl : P} {s s' : SM P W}
    {k : Nat} (h : EventThrow M sem deps d0 ev pl s k s') (hs : Story M deps d0 s) :
    Story M deps d0 s' := by
  have L := Lift.story (sem := sem) (deps := deps) (P := P) (W := W) hM d0
  have D : ∀ (s : SM P W) (ev : EventTy) (pl : P), Story M deps d0 s →
      Story M deps d0 { s with queue := s.queue ++ [(ev, pl)] } :=
    fun s _ _ h => h.same rfl rfl rfl rfl
  cases h with
  | main ht => exact L.turnThrow ht hs
  | handler ht hn hh ha hc =>
    exact (L.turn_defer D ht hs).ran (AllJust.cons (.handler hh ha.1 ha.2.1 ha.2.2) AllJust.nil)
  | replay ht hr hd hq ht' =>
    exact L.turnThrow ht' ((L.turn_defer D ht hs).same rfl rfl rfl rfl)

theorem Story.mono {deps' : List Dep} {d0 : Dep} {s : SM P W} (h : Story M deps d0 s)
    (hs : ∀ d ∈ deps, d ∈ deps') : Story M deps' d0 s := by
  refine ⟨h.ok, ?_, h.order, ?_⟩
  · intro l1 c l2 he
    exact (h.calls l1 c l2 he).mono hs fun _ h => h
  · intro l1 f l2 he
    have := (h.moves l1 f l2 he).mono (more := []) hs
    simpa using this

theorem RunTo.story (hM : M.Regular) {d : Dep} {ops : List (Op P)} {s : SM P W}
    (h : RunTo M sem d ops s) : Story M (depsOf d ops) d s := by
  refine RunTo.rel hM (I := fun ops s => Story M (depsOf d ops) d s) ?_ ?_ ?_ ?_ ?_ ?_ ?_ h
  · intro w s h
    obtain ⟨_, _, _, _, _, _, _, _, ht, hl⟩ := construct_ok h
    refine ⟨(RunTo.init (sem := sem) h).logOk hM, by rw [ht]; exact AllJust.nil, by rw [hl]; exact .nil, ?_⟩
    intro l1 f l2 he
    rw [hl] at he
    simp at he
  · intro ops s ev pl b s' _ hs _ h
    rw [depsOf_process]
    exact hs.event hM h
  · intro ops s ev pl k s' _ hs _ h
    rw [depsOf_process]
    exact hs.eventThrow hM h
  · intro ops s op _ hs _ hn
    have : depsOf d (ops ++ [op]) = depsOf d ops := by
      cases op with
      | process => exact depsOf_process ..
      | set => exact depsOf_set ..
      | setDependency d' => exact absurd rfl (hn d')
    rw [this]
    exact hs
  · intro ops s r p st _ hs _ _ _
    rw [depsOf_set]
    exact ⟨⟨hs.ok.memory, hs.ok.moves, by simp [hs.ok.len], hs.ok.lens⟩, hs.calls, hs.order, hs.moves⟩
  · intro ops s d' T _ hs _
    rw [depsOf_dep]
    exact (hs.mono fun d h => List.mem_cons_of_mem _ h).same rfl rfl rfl rfl
  · intro ops s w hs
    exact hs.same rfl rfl rfl rfl

/-! ## C41 -/

/-- C41: in every history every callback invocation is justified by a declared row or the
handler of the root (see `Justified`). -/
theorem C41_calls (hM : M.Regular) {d : Dep} {ops : List (Op P)} {s : SM P W}
    (h : RunTo M sem d ops s) {pre post : List (Call P)} {c : Call P}
    (hc : s.trace = pre ++ c :: post) : Justified M (depsOf d ops) d s.log pre c :=
  (h.story hM).calls pre c post hc

/-- C41, moves: in every history every move is accounted for (see `Accounted`); where history
rows lead is said by the preceding moves. -/
theorem C41_moves (hM : M.Regular) {d : Dep} {ops : List (Op P)} {s : SM P W}
    (h : RunTo M sem d ops s) {l1 l2 : List Firing} {f : Firing} (hl : s.log = l1 ++ f :: l2) :
    Accounted M (depsOf d ops) (Memo M (l1 ++ [f])) s.trace l2 f :=
  (h.story hM).moves l1 f l2 hl


/-- The demo machine is driven from `Idle` to `Busy` and back: guard 100 says yes, action 2,
entry 20; exit 21, action 3.  The moves are after 1 and after 4 calls. -/
example : (Ex.run Ex.demo (Ex.sem fun _ => true) 5 7 []
    [.process (Ex.ev 0) 1, .process (Ex.ev 1) 2]).any (fun s =>
      s.world == [100, 2, 20, 21, 3] && s.trace.length == 5 &&
      s.log.map (fun f => (f.region, f.calls)) == [(0, 1), (0, 3)]) = true := by
  decide +kernel

/-- C41, order: moves are logged in the order of their place in the trace. -/
theorem C41_order (hM : M.Regular) {d : Dep} {ops : List (Op P)} {s : SM P W}
    (h : RunTo M sem d ops s) : s.log.Pairwise (fun f f' => f.calls ≤ f'.calls) :=
  (h.story hM).order

/-! ## C27 and C28: which dependency callbacks get -/

/-- The dependency a callback was called with. -/
def Call.dep : Call P → Dep
  | .guard _ a _ _ _ => a.dep
  | .action _ _ a _ _ _ => a.dep
  | .handler _ _ _ d _ _ _ => d

/-- The locations of the regions when a callback was called. -/
def Call.cur : Call P → List (Option Nat)
  | .guard _ _ _ _ cur => cur
  | .action _ _ _ _ _ cur => cur
  | .handler _ _ _ _ _ _ cur => cur

/-- `c` is the call of the guard of candidate `cd` for `ev` with dependency `d` which said no. -/
def SaidNo (M : Machine) (d : Dep) (ev : EventTy) (cur : List (Option Nat)) (cd : Cand)
    (c : Call P) : Prop :=
  ∃ t g l q, cd.row? = some t ∧ t.guard = some g ∧ M.targetLoc t = some l ∧
    c = .guard g (rowGuardArgs cd t l ev d) q (some false) cur

/-- Call `c`, made after `pre`, concerns a row applicable at a location of some region, and
`pre` ends with the guards of all rows applicable there called with dependency `d` and saying
no, followed by further guards and then actions only. -/
def AfterRefusal (M : Machine) (d : Dep) (pre : List (Call P)) (c : Call P) : Prop :=
  ∃ (before : List (Option Nat)) (r : Nat) (p : Name) (st : StTy) (ev : EventTy) (cd : Cand)
    (t : XRow) (l : Name × StTy) (d' : Dep) (pre0 no gs as : List (Call P)),
    p ∈ M.composites ∧ st ∈ M.states ∧ before[r]? = some (some (M.comb p st)) ∧
    cd ∈ M.cands ev p st ∧ cd.row? = some t ∧ M.targetLoc t = some l ∧
    ((∃ g q b, t.guard = some g ∧ c = .guard g (rowGuardArgs cd t l ev d') q b before) ∨
     (∃ ph a q b cur, (ph, a) ∈ M.callbacks t ∧ c = .action ph a (cbArgs M cd t l ev d') q b cur)) ∧
    pre = pre0 ++ no ++ gs ++ as ∧ List.Forall₂ (SaidNo M d ev before) (M.cands ev p st) no ∧
    (∀ x ∈ gs, x.isGuard = true ∧ x.cur = before) ∧ (∀ x ∈ as, x.isAction = true)

/-- Guards and actions made after `pre` get dependency `d`, or all rows were refused with it. -/
def Prefers (M : Machine) (d : Dep) (pre : List (Call P)) (c : Call P) : Prop :=
  c.isHandler = true ∨ c.dep = d ∨ AfterRefusal M d pre c

theorem AfterRefusal.more {d : Dep} {pre : List (Call P)} {c : Call P}
    (h : AfterRefusal M d pre c) (m : List (Call P)) : AfterRefusal M d (m ++ pre) c := by
  obtain ⟨before, r, p, st, ev, cd, t, l, d', pre0, no, gs, as, h1, h2, h3, h4, h5, h6, h7, h8, h9⟩ := h
  exact ⟨before, r, p, st, ev, cd, t, l, d', m ++ pre0, no, gs, as, h1, h2, h3, h4, h5, h6, h7,
    by rw [h8]; simp, h9⟩

theorem Prefers.more {d : Dep} {pre : List (Call P)} {c : Call P}
    (h : Prefers M d pre c) (m : List (Call P)) : Prefers M d (m ++ pre) c :=
  h.imp_right fun h => h.imp_right fun h => h.more m

theorem FalseRun.split {cur : List (Option Nat)} {ev : EventTy} {es1 es2 : List Entry} {p p' : P}
    {w w' : W} {tr : List (Call P)} (h : FalseRun sem cur ev (es1 ++ es2) p w tr p' w') :
    ∃ tr1 tr2 p1 w1, tr = tr1 ++ tr2 ∧ FalseRun sem cur ev es1 p w tr1 p1 w1 ∧
      FalseRun sem cur ev es2 p1 w1 tr2 p' w' := by
  induction es1 generalizing p w tr with
  | nil => exact ⟨[], tr, p, w, rfl, .nil _ _, h⟩
  | cons e es1 ih =>
    cases h with
    | cons hd ht hg hc hr =>
      obtain ⟨tr1, tr2, p1, w1, rfl, h1, h2⟩ := ih hr
      exact ⟨_ :: tr1, tr2, p1, w1, rfl, .cons hd ht hg hc h1, h2⟩

theorem FalseRun.split_trace {cur : List (Option Nat)} {ev : EventTy} {es : List Entry} {p p' : P}
    {w w' : W} {tr tr1 tr2 : List (Call P)} {c : Call P}
    (h : FalseRun sem cur ev es p w tr p' w') (ht : tr = tr1 ++ c :: tr2) :
    ∃ es1 e es2 x g q p1 w1, es = es1 ++ e :: es2 ∧ FalseRun sem cur ev es1 p w tr1 p1 w1 ∧
      e.tr = some x ∧ x.guard = some g ∧ c = .guard g (guardArgs x ev) q (some false) cur := by
  induction h generalizing tr1 with
  | nil => simp at ht
  | @cons e es x g p p1 p2 w w1 w2 tr hd htr hg hc hr ih =>
    cases tr1 with
    | nil =>
      simp only [List.nil_append, List.cons.injEq] at ht
      exact ⟨[], e, es, x, g, p, p, w, rfl, .nil _ _, htr, hg, ht.1.symm⟩
    | cons y tr1 =>
      simp only [List.cons_append, List.cons.injEq] at ht
      obtain ⟨es1, e', es2, x', g', q, p1', w1', rfl, h1, h2, h3, h4⟩ := ih ht.2
      exact ⟨e :: es1, e', es2, x', g', q, p1', w1', rfl, by rw [← ht.1]; exact .cons hd htr hg hc h1,
        h2, h3, h4⟩

theorem FalseRun.refused (hM : M.Regular) {cur : List (Option Nat)} {ev : EventTy} {pn : Name}
    {st : StTy} {d : Dep} {cs : List Cand} (hcs : ∀ c ∈ cs, c ∈ M.cands ev pn st) {p p' : P}
    {w w' : W} {tr : List (Call P)}
    (h : FalseRun sem cur ev (cs.filterMap (M.entryOfCand d)) p w tr p' w') :
    List.Forall₂ (SaidNo M d ev cur) cs tr := by
  induction cs generalizing p w tr with
  | nil => cases h; exact .nil
  | cons c cs ih =>
    have hen : ∃ en, M.entryOfCand d c = some en := by
      rcases Machine.cand_row (hcs c (by simp)) with rfl | ⟨t, ht, _, rfl | rfl⟩
      · exact ⟨_, rfl⟩
      · obtain ⟨l, hl⟩ := hM.targetLoc_some ht
        simp [Machine.entryOfCand, hl]
      · obtain ⟨l, hl⟩ := hM.targetLoc_some ht
        simp [Machine.entryOfCand, hl]
    obtain ⟨en, hen⟩ := hen
    rw [List.filterMap_cons_some hen] at h
    cases h with
    | @cons _ _ x g _ p1 _ _ w1 _ tr hd htr hg hc hr =>
      refine .cons ?_ (ih (fun c hc => hcs c (by simp [hc])) hr)
      rcases Machine.entryOfCand_cases hen with ⟨_, _, h, _⟩ |
        ⟨t, l, x', hct, hl, _, _, _, _, hx', hi, _, hgd, hdst, hdep, hs1, hs2⟩
      · rw [h] at htr; cases htr
      rw [htr] at hx'; cases hx'
      have hsrc : x.src = c.src := by
        rcases hct with rfl | ⟨q, rfl⟩
        · exact hs1 rfl
        · exact hs2 q rfl
      refine ⟨t, g, l, p, ?_, by rw [← hgd, hg], hl, ?_⟩
      · rcases hct with rfl | ⟨q, rfl⟩ <;> rfl
      · unfold guardArgs rowGuardArgs
        rw [hsrc, hi, hdst, hdep]

theorem prefix_of_not_mem {α : Type} {a b es1 es2 : List α} {e : α}
    (h : a ++ b = es1 ++ e :: es2) (hn : e ∉ a) : ∃ m, es1 = a ++ m := by
  rcases List.append_eq_append_iff.1 h with ⟨m, hm, _⟩ | ⟨m, hm, h2⟩
  · exact ⟨m, hm⟩
  · cases m with
    | nil => exact ⟨[], by simp [hm]⟩
    | cons x xs =>
      simp only [List.cons_append, List.cons.injEq] at h2
      exact absurd (by rw [hm, h2.1]; simp) hn

/-- The refusals behind a call with an outdated dependency. -/
theorem refusal (hM : M.Regular) {r : Nat} {ev : EventTy} {p : Name} {st : StTy} {d d' : Dep}
    {ds : List Dep} {s : SM P W} {pre post : List Entry} {e : Entry} {x : Exec}
    {pl pl' : P} {w : W} {tr : List (Call P)} (ha : At M s r p st)
    (hes : M.entries (d :: ds) ev p st = pre ++ e :: post) (hx : e.tr = some x) (hd : x.dep = d')
    (hne : d' ≠ d)
    (hf : FalseRun sem s.cur ev pre pl s.world tr pl' w) {cd : Cand} {t : XRow} {l : Name × StTy}
    (hcd : cd ∈ M.cands ev p st) (hrow : cd.row? = some t) (hl : M.targetLoc t = some l)
    {gs as : List (Call P)} {c : Call P} (hg : ∀ y ∈ gs, y.isGuard = true ∧ y.cur = s.cur)
    (has : ∀ y ∈ as, y.isAction = true)
    (hc : (∃ g q b, t.guard = some g ∧ c = .guard g (rowGuardArgs cd t l ev d') q b s.cur) ∨
     (∃ ph a q b cur, (ph, a) ∈ M.callbacks t ∧ c = .action ph a (cbArgs M cd t l ev d') q b cur)) :
    AfterRefusal M d (tr ++ gs ++ as) c := by
  have he : e ∉ (M.cands ev p st).filterMap (M.entryOfCand d) := by
    intro hm
    obtain ⟨c', _, hen⟩ := List.mem_filterMap.1 hm
    rcases Machine.entryOfCand_cases hen with ⟨_, _, h, _⟩ |
      ⟨t, l, x', hct, hl, _, _, _, _, hx', hi, _, hgd, hdst, hdep, hs1, hs2⟩
    · rw [h] at hx; cases hx
    · rw [hx] at hx'; cases hx'
      exact hne (hd ▸ hdep)
  have hes' : (M.cands ev p st).filterMap (M.entryOfCand d) ++ M.entries ds ev p st
      = pre ++ e :: post := by
    rw [← hes]
    simp [Machine.entries]
  obtain ⟨m, rfl⟩ := prefix_of_not_mem hes' he
  obtain ⟨tr1, tr2, p1, w1, rfl, h1, h2⟩ := hf.split
  refine ⟨s.cur, r, p, st, ev, cd, t, l, d', [], tr1, tr2 ++ gs, as, ha.1, ha.2.1, ha.2.2, hcd, hrow, hl,
    hc, by simp, h1.refused hM (fun _ h => h), ?_, has⟩
  intro y hy
  rcases List.mem_append.1 hy with hy | hy
  · refine ⟨h2.guards y hy, ?_⟩
    obtain ⟨y1, y2, hyy⟩ := List.append_of_mem hy
    obtain ⟨_, _, _, _, _, _, _, _, _, _, _, _, rfl⟩ := h2.split_trace hyy
    rfl
  · exact hg y hy

/-- What one region, one event adds to the trace when `d` is the latest dependency. -/
def PrefersAll (M : Machine) (d : Dep) (s s' : SM P W) : Prop :=
  ∃ tr, s'.trace = s.trace ++ tr ∧
    ∀ pre c post, tr = pre ++ c :: post → Prefers M d pre c

theorem FalseRun.prefers (hM : M.Regular) {r : Nat} {ev : EventTy} {p : Name} {st : StTy} {d : Dep}
    {ds : List Dep} {s : SM P W} {es post : List Entry} {pl pl' : P} {w : W} {tr : List (Call P)}
    (ha : At M s r p st) (hes : M.entries (d :: ds) ev p st = es ++ post)
    (hf : FalseRun sem s.cur ev es pl s.world tr pl' w) :
    ∀ pre c rest, tr = pre ++ c :: rest → Prefers M d pre c := by
  intro pre c rest htr
  obtain ⟨es1, e, es2, x, g, q, p1, w1, rfl, h1, hx, hg, rfl⟩ := hf.split_trace htr
  by_cases hd : x.dep = d
  · exact Or.inr (Or.inl hd)
  · right; right
    have hes' : M.entries (d :: ds) ev p st = es1 ++ e :: (es2 ++ post) := by rw [hes]; simp
    have hmem : e ∈ M.entries (d :: ds) ev p st := by rw [hes']; simp
    obtain ⟨d', hd', cd, hcd, hen⟩ := Machine.mem_entries.1 hmem
    rcases Machine.entryOfCand_cases hen with ⟨_, _, h, _⟩ |
      ⟨t, l, x', hct, hl, _, _, _, _, hx', hi, _, hgd, hdst, hdep, hs1, hs2⟩
    · rw [h] at hx; cases hx
    rw [hx] at hx'; cases hx'
    have hsrc : x.src = cd.src := by
      rcases hct with rfl | ⟨q, rfl⟩
      · exact hs1 rfl
      · exact hs2 q rfl
    have hrow : cd.row? = some t := by rcases hct with rfl | ⟨q, rfl⟩ <;> rfl
    have := refusal hM ha hes' hx rfl hd h1 hcd hrow hl (gs := []) (as := [])
      (c := .guard g (guardArgs x ev) q (some false) s.cur) (by simp) (by simp)
      (Or.inl ⟨g, q, some false, by rw [← hgd, hg], by
        unfold guardArgs rowGuardArgs; rw [hsrc, hi, hdst]⟩)
    simpa using this

theorem prefers_append {d : Dep} {tr1 tr2 : List (Call P)}
    (h1 : ∀ pre c post, tr1 = pre ++ c :: post → Prefers M d pre c)
    (h2 : ∀ pre c post, tr2 = pre ++ c :: post → Prefers M d (tr1 ++ pre) c) :
    ∀ pre c post, tr1 ++ tr2 = pre ++ c :: post → Prefers M d pre c := by
  intro l1 c l2 he
  rcases List.append_eq_append_iff.1 he with ⟨m, rfl, hm⟩ | ⟨m, rfl, hm⟩
  · exact h2 m c l2 hm
  · cases m with
    | nil =>
      have := h2 [] c l2 (by simpa using hm.symm)
      simpa using this
    | cons x xs =>
      simp only [List.cons_append, List.cons.injEq] at hm
      obtain ⟨rfl, _⟩ := hm
      exact h1 l1 c xs rfl

theorem prefers_acts {d : Dep} {tr1 tr2 tr3 : List (Call P)} {args : Args} {cs : List (Phase × Cb)}
    {cur : List (Option Nat)}
    (hact : ∀ c ∈ tr3, ∃ ph a q b, c = .action ph a args q b cur ∧ (ph, a) ∈ cs)
    (h12 : ∀ pre c post, tr1 ++ tr2 = pre ++ c :: post → Prefers M d pre c)
    (h3 : args.dep = d ∨ ∀ as : List (Call P), (∀ y ∈ as, y.isAction = true) → ∀ ph a q b,
      (ph, a) ∈ cs → AfterRefusal M d (tr1 ++ tr2 ++ as) (.action ph a args q b cur)) :
    ∀ pre c post, (tr1 ++ tr2) ++ tr3 = pre ++ c :: post → Prefers M d pre c := by
  refine prefers_append h12 ?_
  intro pre c post he
  right
  obtain ⟨ph, a, q, b, rfl, hm⟩ := hact c (by rw [he]; simp)
  rcases h3 with h3 | h3
  · exact Or.inl h3
  · refine Or.inr (h3 pre ?_ ph a q b hm)
    intro y hy
    obtain ⟨_, _, _, _, rfl, _⟩ := hact y (by rw [he]; simp [hy])
    rfl

theorem ActThrow.shape {cur : List (Option Nat)} {args : Args} {cs : List (Phase × Cb)} {p : P}
    {w w' : W} {k : Nat} {tr : List (Call P)} (h : ActThrow sem cur args cs p w tr k w') :
    ∀ c ∈ tr, ∃ ph a q b, c = .action ph a args q b cur ∧ (ph, a) ∈ cs := by
  induction h with
  | here hc =>
    intro c hc
    rw [List.mem_singleton.1 hc]
    exact ⟨_, _, _, _, rfl, by simp⟩
  | later hc hr ih =>
    intro c hc
    rcases List.mem_cons.1 hc with rfl | hc
    · exact ⟨_, _, _, _, rfl, by simp⟩
    · obtain ⟨ph, a, q, b, h1, h2⟩ := ih c hc
      exact ⟨ph, a, q, b, h1, by simp [h2]⟩

theorem Selected.prefers_guard (hM : M.Regular) {r : Nat} {ev : EventTy} {p : Name} {st : StTy}
    {d d' : Dep} {ds : List Dep} {cd : Cand} {t : XRow} {l : Name × StTy} {x : Exec}
    {es : List Entry} {s : SM P W} {pl pl' : P} {w : W} {tr1 : List (Call P)}
    (ha : At M s r p st) (hs : Selected M (d :: ds) ev p st cd t d' l x es)
    (hf : FalseRun sem s.cur ev es pl s.world tr1 pl' w) {g : Cb} (hg : t.guard = some g) (q : P)
    (b : Option Bool) :
    ∀ pre c post, tr1 ++ [.guard g (guardArgs x ev) q b s.cur] = pre ++ c :: post →
      Prefers M d pre c := by
  obtain ⟨e, post, hes, hen, hx⟩ := hs.entries
  refine prefers_append (hf.prefers hM ha hes) ?_
  intro pre c post' he
  cases pre with
  | cons y ys => simp at he
  | nil =>
    simp only [List.nil_append, List.cons.injEq] at he
    rw [← he.1]
    right
    by_cases hd : x.dep = d
    · exact Or.inl hd
    · right
      have := refusal hM ha hes hx hs.xdep (by rw [← hs.xdep]; exact hd) hf hs.mem hs.row hs.loc
        (gs := []) (as := []) (c := .guard g (guardArgs x ev) q b s.cur) (by simp) (by simp)
        (Or.inl ⟨g, q, b, hg, by rw [hs.args]⟩)
      simpa using this

theorem Selected.prefers_acts (hM : M.Regular) {r : Nat} {ev : EventTy} {p : Name} {st : StTy}
    {d d' : Dep} {ds : List Dep} {cd : Cand} {t : XRow} {l : Name × StTy} {x : Exec}
    {es : List Entry} {s : SM P W} {pl p1 p2 : P} {w1 w2 : W} {tr1 tr2 tr3 : List (Call P)}
    (ha : At M s r p st) (hs : Selected M (d :: ds) ev p st cd t d' l x es)
    (hf : FalseRun sem s.cur ev es pl s.world tr1 p1 w1)
    (hg : TrueGuard sem s.cur ev x p1 w1 tr2 p2 w2) {cur : List (Option Nat)}
    (hact : ∀ c ∈ tr3, ∃ ph a q b, c = .action ph a (cbArgs M cd t l ev d') q b cur ∧
      (ph, a) ∈ M.callbacks t) :
    ∀ pre c post, (tr1 ++ tr2) ++ tr3 = pre ++ c :: post → Prefers M d pre c := by
  obtain ⟨e, post, hes, hen, hx⟩ := hs.entries
  refine Hsm.prefers_acts hact ?_ ?_
  · cases hg with
    | absent h => simpa using hf.prefers hM ha hes
    | called h hc => exact hs.prefers_guard hM ha hf (by rw [← hs.guard]; exact h) _ _
  · by_cases hd : d' = d
    · left; exact hd
    · right
      intro as has ph a q b hm
      refine refusal hM ha hes hx hs.xdep hd hf hs.mem hs.row hs.loc ?_ has
        (Or.inr ⟨ph, a, q, b, cur, hm, rfl⟩)
      intro y hy
      cases hg with
      | absent h => cases hy
      | called h hc => rw [List.mem_singleton.1 hy]; exact ⟨rfl, rfl⟩

theorem Lift.prefers (hM : M.Regular) {d : Dep} {ds : List Dep} :
    Lift M sem (d :: ds) (PrefersAll (P := P) (W := W) M d) where
  refl := fun _ => ⟨[], by simp, fun _ _ _ h => by simp at h⟩
  trans := by
    rintro s1 s2 s3 ⟨t1, h1, h2⟩ ⟨t2, h3, h4⟩
    refine ⟨t1 ++ t2, by rw [h3, h1]; simp, prefers_append h2 ?_⟩
    intro pre c post he
    exact (h4 pre c post he).more t1
  region := by
    intro r ev pl s o pl' s' h ho
    cases h with
    | none => exact ⟨[], by simp, fun _ _ _ h => by simp at h⟩
    | rejected ha _ hf => exact ⟨_, rfl, hf.prefers hM ha (List.append_nil _).symm⟩
    | deferred => exact absurd rfl ho
    | @fired _ _ _ _ _ _ _ _ _ _ _ tr1 tr2 tr3 _ _ _ s1 ha hsel hf hg he hr =>
      refine ⟨(tr1 ++ tr2) ++ tr3, ?_, hsel.prefers_acts hM ha hf hg (cur := s1.cur) ?_⟩
      · show s1.trace ++ tr3 = _
        rw [he.trace_eq]
        show s.trace ++ _ ++ tr3 = _
        simp
      · intro c hc
        obtain ⟨ph, a, q, h1, h2⟩ := hr.shape c hc
        exact ⟨ph, a, q, false, h1, h2⟩
  throw := by
    intro r ev pl s k s' h
    cases h with
    | guard ha hsel hf hg hc => exact ⟨_, rfl, hsel.prefers_guard hM ha hf hg _ _⟩
    | @action _ _ _ _ _ _ _ _ _ _ tr1 tr2 tr3 _ _ _ s1 _ ha hsel hf hg he hr =>
      refine ⟨(tr1 ++ tr2) ++ tr3, ?_, hsel.prefers_acts hM ha hf hg hr.shape⟩
      show s1.trace ++ tr3 = _
      rw [he.trace_eq]
      show s.trace ++ _ ++ tr3 = _
      simp

/-- Calls that are not `set_dependency`. -/
def NoDep (ops : List (Op P)) : Prop := ∀ op ∈ ops, ∀ d, op ≠ .setDependency d

theorem depsOf_noDep {d : Dep} {ops : List (Op P)} (h : NoDep ops) : depsOf d ops = [d] := by
  induction ops with
  | nil => rfl
  | cons op ops ih =>
    have := ih fun o ho => h o (by simp [ho])
    unfold depsOf at this ⊢
    cases op with
    | setDependency d' => exact absurd rfl (h _ (by simp) d')
    | _ => simpa using this

theorem depsOf_last {d d' : Dep} {ops1 ops2 : List (Op P)} (h : NoDep ops2) :
    depsOf d (ops1 ++ .setDependency d' :: ops2) = d' :: depsOf d ops1 := by
  have := depsOf_noDep (d := 0) h
  unfold depsOf at this ⊢
  have h2 := List.append_inj_left' (t₁ := [0]) (t₂ := [0]) (s₂ := []) this rfl
  simpa using h2

/-- C27, what holds: after `set_dependency(d')`, while processing an event, every guard and
action gets `d'`, except where all rows applicable at the location had a guard and all these
guards were just called with `d'` and said no.  (The handler gets the dependency of the
constructor, see `C41_calls`; the full claim is refuted in `C27_refuted`.) -/
theorem C27_partial (hM : M.Regular) {d d' : Dep} {ops1 ops2 : List (Op P)} (h2 : NoDep ops2)
    {s : SM P W} (hrun : RunTo M sem d (ops1 ++ .setDependency d' :: ops2) s) {ev : EventTy}
    (hev : ev ∈ M.events) {pl : P} {fuel : Nat} {s' : SM P W}
    (h : (∃ b, processEvent M sem fuel ev pl s = .ok b s') ∨
      ∃ x, processEvent M sem fuel ev pl s = .throw x s') :
    ∃ tr, s'.trace = s.trace ++ tr ∧ ∀ pre c post, tr = pre ++ c :: post →
      c.isHandler = true ∨ c.dep = d' ∨ AfterRefusal M d' pre c := by
  have hready := hrun.ready hM
  rw [depsOf_last h2] at hready
  have L := Lift.prefers (sem := sem) (P := P) (W := W) hM (d := d') (ds := depsOf d ops1)
  have D : ∀ (s : SM P W) (ev : EventTy) (pl : P),
      PrefersAll M d' s { s with queue := s.queue ++ [(ev, pl)] } :=
    fun _ _ _ => ⟨[], by simp, fun _ _ _ h => by simp at h⟩
  have pop : ∀ (s : SM P W) re rp q, s.queue = (re, rp) :: q → PrefersAll M d' s { s with queue := q } :=
    fun _ _ _ _ _ => ⟨[], by simp, fun _ _ _ h => by simp at h⟩
  have hand : ∀ (s : SM P W) h e st d pl b w,
      PrefersAll M d' s (s.ran w [.handler h e st d pl b s.cur]) := by
    intro s h e st d pl b w
    refine ⟨_, rfl, ?_⟩
    intro pre c post he
    cases pre with
    | cons y ys => simp at he
    | nil =>
      simp only [List.nil_append, List.cons.injEq] at he
      rw [← he.1]; exact Or.inl rfl
  rcases h with ⟨b, h⟩ | ⟨x, h⟩
  · exact L.event D pop hand (processEvent_ok hM hev hready h)
  · rcases processEvent_throw hM hev hready h with ⟨k, _, he⟩ | ⟨_, _, os, pl', ht, hn⟩
    · exact L.eventThrow D pop hand he
    · exact L.turn_defer D ht

/-- Outdated dependencies are only used at locations all of whose rows for the event have
guards, and never first. -/
theorem AfterRefusal.guarded {d : Dep} {pre : List (Call P)} {c : Call P}
    (h : AfterRefusal M d pre c) : ∃ p st ev, p ∈ M.composites ∧ st ∈ M.states ∧
      (∀ cd ∈ M.cands ev p st, ∃ t, cd.row? = some t ∧ t.guard ≠ none) ∧ pre ≠ [] := by
  obtain ⟨before, r, p, st, ev, cd, t, l, d', pre0, no, gs, as, h1, h2, h3, h4, h5, h6, h7, h8, h9,
    _⟩ := h
  refine ⟨p, st, ev, h1, h2, ?_, ?_⟩
  · intro cd hcd
    clear h8 h4
    revert hcd h9
    generalize M.cands ev p st = cs
    intro h9
    induction h9 with
    | nil => intro h; cases h
    | cons hx _ ih =>
      intro hcd
      rcases List.mem_cons.1 hcd with rfl | hcd
      · obtain ⟨t, g, l, q, ht, hg, _⟩ := hx
        exact ⟨t, ht, by simp [hg]⟩
      · exact ih hcd
  · rintro rfl
    have : no = [] := by simp_all
    subst this
    cases hcs : M.cands ev p st with
    | nil => rw [hcs] at h4; cases h4
    | cons => rw [hcs] at h9; cases h9

/-- C28: without `set_dependency` every callback gets the constructor's dependency. -/
theorem C28_constant (hM : M.Regular) {d : Dep} {ops : List (Op P)} (hops : NoDep ops) {s : SM P W}
    (h : RunTo M sem d ops s) : ∀ c ∈ s.trace, c.dep = d := by
  intro c hc
  obtain ⟨pre, post, hpp⟩ := List.append_of_mem hc
  have := C41_calls hM h hpp
  rw [depsOf_noDep hops] at this
  cases this with
  | guard hr hg => exact List.mem_singleton.1 hr.dep
  | action hr _ _ _ _ _ _ => exact List.mem_singleton.1 hr.dep
  | handler => rfl

/-- C28, after `set_dependency`: the first guard or action of the next event gets the new
dependency. -/
theorem C28_first (hM : M.Regular) {d d' : Dep} {ops1 ops2 : List (Op P)} (h2 : NoDep ops2)
    {s : SM P W} (hrun : RunTo M sem d (ops1 ++ .setDependency d' :: ops2) s) {ev : EventTy}
    (hev : ev ∈ M.events) {pl : P} {fuel : Nat} {s' : SM P W}
    (h : (∃ b, processEvent M sem fuel ev pl s = .ok b s') ∨
      ∃ x, processEvent M sem fuel ev pl s = .throw x s') {c : Call P} {post : List (Call P)}
    (hc : s'.trace = s.trace ++ c :: post) : c.isHandler = true ∨ c.dep = d' := by
  obtain ⟨tr, htr, hall⟩ := C27_partial hM h2 hrun hev h
  rw [hc] at htr
  have := hall [] c post (List.append_cancel_left htr).symm
  rcases this with h | h | h
  · exact Or.inl h
  · exact Or.inr h
  · exact absurd rfl (h.guarded.choose_spec.choose_spec.choose_spec.2.2.2)

/-- C28, at every location: the first callback called in a region gets the new dependency. -/
theorem C28_region (hM : M.Regular) {d d' : Dep} {ops1 ops2 : List (Op P)} (h2 : NoDep ops2)
    {s s' : SM P W} (hm : Moment M sem d (ops1 ++ .setDependency d' :: ops2) s) {r : Nat}
    {ev : EventTy} {pl pl' : P} {o : RegionOut} (h : Handles M sem r ev pl s o pl' s')
    {c : Call P} {post : List (Call P)}
    (hc : s'.trace = s.trace ++ c :: post) : c.isHandler = true ∨ c.dep = d' := by
  have h := h.run hM hm
  rw [depsOf_last h2] at h
  have ho : o ≠ .deferred := by
    rintro rfl
    cases h with
    | deferred => simp at hc
  obtain ⟨tr, htr, hall⟩ := (Lift.prefers hM).region _ _ _ _ _ _ _ h ho
  rw [hc] at htr
  have := hall [] c post (List.append_cancel_left htr).symm
  rcases this with h | h | h
  · exact Or.inl h
  · exact Or.inr h
  · exact absurd rfl (h.guarded.choose_spec.choose_spec.choose_spec.2.2.2)

end

/-- The full claim C27. -/
def C27_claim : Prop :=
  ∀ (M : Machine) (sem : Sem Nat (List Nat)) (d d' : Dep) (ops : List (Op Nat)) (ev : EventTy)
    (pl fuel : Nat) (s s' : SM Nat (List Nat)) (b : Bool), M.Regular → M.Scoped →
    RunTo M sem d (ops ++ [.setDependency d']) s → ev ∈ M.events →
    processEvent M sem fuel ev pl s = .ok b s' →
    ∀ tr, s'.trace = s.trace ++ tr → ∀ c ∈ tr, c.dep = d'

/-- C27 fails for the unexpected-event handler, which keeps the constructor's dependency
(`fill_unexpected_event_handler_tables` is only called by the constructor), and for guards:
the rows built with the previous dependency stay in the dispatch table behind the new ones. -/
theorem C27_refuted : ¬ C27_claim ∧
    (∃ (s s' : SM Nat (List Nat)), RunTo Ex.demo (Ex.sem fun _ => true) 7 [.setDependency 9] s ∧
      processEvent Ex.demo (Ex.sem fun _ => true) 5 (Ex.ev 1) 4 s = .ok false s' ∧
      s'.trace = [.handler 50 (Ex.ev 1) (.st Ex.Idle) 7 4 false s.cur]) ∧
    (∃ (s s' : SM Nat (List Nat)) (pre : List (Call Nat)) (args : Args),
      RunTo Ex.demo (Ex.sem fun _ => false) 7 [.process (Ex.ev 0) 1, .setDependency 9] s ∧
      processEvent Ex.demo (Ex.sem fun _ => false) 5 (Ex.ev 2) 4 s = .ok false s' ∧
      s'.trace = s.trace ++ pre ++ [.guard 101 args 4 (some false) s.cur] ∧ args.dep = 7) := by
  have h1 : ∃ (s s' : SM Nat (List Nat)),
      RunTo Ex.demo (Ex.sem fun _ => true) 7 [.setDependency 9] s ∧
      processEvent Ex.demo (Ex.sem fun _ => true) 5 (Ex.ev 1) 4 s = .ok false s' ∧
      s.trace = [] ∧ s'.trace = [.handler 50 (Ex.ev 1) (.st Ex.Idle) 7 4 false s.cur] := by
    have hrun : (Ex.run Ex.demo (Ex.sem fun _ => true) 5 7 [] [.setDependency 9]).any (fun s =>
        s.trace == [] && match processEvent Ex.demo (Ex.sem fun _ => true) 5 (Ex.ev 1) 4 s with
        | .ok b s' => b == false &&
          s'.trace == [.handler 50 (Ex.ev 1) (.st Ex.Idle) 7 4 false s.cur]
        | _ => false) = true := by decide +kernel
    obtain ⟨s, hr, hs⟩ := Ex.exists_run _ _ hrun
    simp only [Bool.and_eq_true, beq_iff_eq] at hs
    obtain ⟨hs0, hs⟩ := hs
    split at hs
    · rename_i b s' hp
      simp only [Bool.and_eq_true, beq_iff_eq] at hs
      obtain ⟨rfl, hs⟩ := hs
      exact ⟨s, s', hr, hp, hs0, hs⟩
    · cases hs
  refine ⟨?_, ?_, ?_⟩
  · intro hall
    obtain ⟨s, s', hr, hp, h0, ht⟩ := h1
    have := hall _ _ 7 9 [] (Ex.ev 1) 4 5 s s' false Ex.demo_regular Ex.demo_scoped hr
      (by decide +kernel) hp _ (by rw [h0, ht]; rfl) _ (List.mem_singleton.2 rfl)
    exact absurd (show (7 : Nat) = 9 from this) (by decide)
  · obtain ⟨s, s', hr, hp, _, ht⟩ := h1
    exact ⟨s, s', hr, hp, ht⟩
  · have hrun : (Ex.run Ex.demo (Ex.sem fun _ => false) 5 7 []
        [.process (Ex.ev 0) 1, .setDependency 9]).any (fun s =>
        match processEvent Ex.demo (Ex.sem fun _ => false) 5 (Ex.ev 2) 4 s with
        | .ok b s' => b == false && match s'.trace.getLast? with
          | some (.guard 101 args 4 (some false) cur) =>
            args.dep == 7 && cur == s.cur && s'.trace.dropLast == s.trace ++ s'.trace.dropLast.drop s.trace.length
          | _ => false
        | _ => false) = true := by decide +kernel
    obtain ⟨s, hr, hs⟩ := Ex.exists_run _ _ hrun
    split at hs
    · rename_i b s' hp
      simp only [Bool.and_eq_true, beq_iff_eq] at hs
      obtain ⟨rfl, hs⟩ := hs
      split at hs
      · rename_i args cur hl
        simp only [Bool.and_eq_true, beq_iff_eq] at hs
        obtain ⟨⟨h1, rfl⟩, h3⟩ := hs
        refine ⟨s, s', s'.trace.dropLast.drop s.trace.length, args, hr, hp, ?_, h1⟩
        rw [← h3]
        exact (List.dropLast_append_getLast? _ hl).symm
      · cases hs
    · cases hs

/-- After `set_dependency(9)` in `Comp`, event 2: guard 101 is asked with 9 (once for each of
the three times `Comp` is entered by a row), then with 7. -/
example : (Ex.run Ex.demo (Ex.sem fun _ => false) 5 7 []
    [.process (Ex.ev 0) 1, .setDependency 9, .process (Ex.ev 2) 2]).any (fun s =>
      s.trace.map Call.dep == [7, 7, 7, 7, 9, 9, 9, 7, 7, 7]) = true := by
  decide +kernel

end Hsm

import Verif.PropsParts

/-!
# C137: calls of independent programs commute

Two parts of a larger program that have no machine and no variable in common: the order of a call of the one and a
call of the other does not matter.
-/

namespace Hsm

/-! ## Specification -/

/-- A call was answered `y` and left `h`. -/
def Res.Gives {σ : Type} (r : Res σ Bool) (y : Reply) (h : σ) : Prop :=
  r = (match y with | .ret b => .ok b h | .threw x => .throw x h)

/-- The calls of the list, one after the other, were answered as it says and left `h'`. -/
def Answers {ι P σ : Type} (call : ι → Op P → σ → Res σ Bool) : List (ι × Op P × Reply) → σ → σ → Prop
  | [], h, h' => h' = h
  | x :: xs, h, h' => ∃ t, (call x.1 x.2.1 h).Gives x.2.2 t ∧ Answers call xs t h'

/-- What is about machines of the one program. -/
def ofLeft {ι₁ ι₂ A : Type} (l : List ((ι₁ ⊕ ι₂) × A)) : List (ι₁ × A) :=
  l.filterMap fun x => match x.1 with | .inl i => some (i, x.2) | .inr _ => none

/-- What is about machines of the other. -/
def ofRight {ι₁ ι₂ A : Type} (l : List ((ι₁ ⊕ ι₂) × A)) : List (ι₂ × A) :=
  l.filterMap fun x => match x.1 with | .inl _ => none | .inr j => some (j, x.2)

/-- The machines and the variables are the same. -/
def Hub.Same {ι P W : Type} (h h' : Hub ι P W) : Prop := h'.user = h.user ∧ h'.parts = h.parts

/-- The variables `V` and `W` are different ones. -/
structure Share.Apart {V W W' : Type} (k : Share V W') (l : Share W W') : Prop where
  get_left : ∀ v w, k.get (l.put v w) = k.get v
  get_right : ∀ v w, l.get (k.put v w) = l.get v
  put : ∀ v w x, l.put (k.put v w) x = k.put (l.put v x) w

/-! ## Proofs -/

theorem Res.Gives.ok_or {σ : Type} {r : Res σ Bool} {y : Reply} {h : σ} (hr : r.Gives y h) :
    (∃ b, y = .ret b ∧ r = .ok b h) ∨ ∃ x, y = .threw x ∧ r = .throw x h := by
  cases y with
  | ret b => exact .inl ⟨b, rfl, hr⟩
  | threw x => exact .inr ⟨x, rfl, hr⟩

theorem Res.Rel.gives {σ τ : Type} {R : σ → τ → Prop} {q : Res σ Bool} {r : Res τ Bool} (hc : q.Rel Eq R r)
    {y : Reply} {h : τ} (hr : r.Gives y h) : ∃ g, q.Gives y g ∧ R g h := by
  rcases hr.ok_or with ⟨b, rfl, rfl⟩ | ⟨x, rfl, rfl⟩ <;> cases q
  · obtain ⟨rfl, h2⟩ := hc; exact ⟨_, rfl, h2⟩
  · exact hc.elim
  · exact hc.elim
  · exact hc.elim
  · exact hc.elim
  · obtain ⟨rfl, h2⟩ := hc; exact ⟨_, rfl, h2⟩
  · exact hc.elim
  · exact hc.elim

theorem Res.Rel.gives' {σ τ : Type} {R : σ → τ → Prop} {q : Res σ Bool} {r : Res τ Bool} (hc : q.Rel Eq R r)
    {y : Reply} {g : σ} (hq : q.Gives y g) : ∃ h, r.Gives y h ∧ R g h := by
  rcases hq.ok_or with ⟨b, rfl, rfl⟩ | ⟨x, rfl, rfl⟩ <;> cases r
  · obtain ⟨rfl, h2⟩ := hc; exact ⟨_, rfl, h2⟩
  · exact hc.elim
  · exact hc.elim
  · exact hc.elim
  · exact hc.elim
  · obtain ⟨rfl, h2⟩ := hc; exact ⟨_, rfl, h2⟩
  · exact hc.elim
  · exact hc.elim

section
variable {ι₁ ι₂ ι' P W₁ W₂ W' : Type} {e₁ : ι₁ → ι'} {e₂ : ι₂ → ι'} {k₁ : Share W₁ W'} {k₂ : Share W₂ W'}

theorem Hub.Part.apart (hd : ∀ i j, e₁ i ≠ e₂ j) (hk : k₁.Apart k₂) {h h' : Hub ι' P W'} {g : Hub ι₁ P W₁}
    (hg : Hub.Part e₁ k₁ h g h') : Hub.Part e₂ k₂ h' (h.own e₂ k₂) h' := by
  refine ⟨?_, fun j => hg.others _ fun i hi => hd i j hi.symm, fun _ _ => rfl⟩
  show h'.user = k₂.put h'.user (k₂.get h.user)
  have : k₂.get h.user = k₂.get h'.user := by rw [hg.user, hk.get_right]
  rw [this, k₂.put_get]

theorem Share.Apart.symm (hk : k₁.Apart k₂) : k₂.Apart k₁ :=
  ⟨hk.get_right, hk.get_left, fun v w x => (hk.put v x w).symm⟩

open Classical in
/-- The two orders end in the same. -/
theorem Hub.Part.diamond (hd : ∀ i j, e₁ i ≠ e₂ j) (hk : k₁.Apart k₂) {h h1 h2 h12 h21 : Hub ι' P W'}
    {g₁ : Hub ι₁ P W₁} {g₂ : Hub ι₂ P W₂} (p1 : Hub.Part e₁ k₁ h g₁ h1) (p12 : Hub.Part e₂ k₂ h1 g₂ h12)
    (p2 : Hub.Part e₂ k₂ h g₂ h2) (p21 : Hub.Part e₁ k₁ h2 g₁ h21) : h12.Same h21 := by
  refine ⟨by rw [p21.user, p2.user, p12.user, p1.user, hk.put], funext fun l => ?_⟩
  by_cases h₁ : ∃ i, l = e₁ i
  · obtain ⟨i, rfl⟩ := h₁
    rw [p21.parts, p12.others _ (hd i), p1.parts]
  · have n₁ : ∀ i, l ≠ e₁ i := fun i hi => h₁ ⟨i, hi⟩
    rw [p21.others _ n₁]
    by_cases h₂ : ∃ j, l = e₂ j
    · obtain ⟨j, rfl⟩ := h₂
      rw [p2.parts, p12.parts]
    · have n₂ : ∀ j, l ≠ e₂ j := fun j hj => h₂ ⟨j, hj⟩
      rw [p2.others _ n₂, p12.others _ n₂, p1.others _ n₁]

variable [DecidableEq ι₁] [DecidableEq ι₂] [DecidableEq ι'] {Ms₁ : ι₁ → Machine} {sem₁ : SemS ι₁ P W₁}
  {Ms₂ : ι₂ → Machine} {sem₂ : SemS ι₂ P W₂} {Ms' : ι' → Machine} {sem' : SemS ι' P W'}

/-- C137: a call of a machine of the one part and then a call of a machine of the other are answered as in the other
order, and leave the same. -/
theorem C137_commute (hp₁ : IsPart e₁ k₁ Ms₁ sem₁ Ms' sem') (hp₂ : IsPart e₂ k₂ Ms₂ sem₂ Ms' sem')
    (hd : ∀ i j, e₁ i ≠ e₂ j) (hk : k₁.Apart k₂) (fuel n : Nat) {i : ι₁} {j : ι₂} {op op' : Op P} {y y' : Reply}
    {h h12 : Hub ι' P W'}
    (hr : Answers (stepS Ms' sem' fuel n) [(e₁ i, op, y), (e₂ j, op', y')] h h12) :
    ∃ h21, Answers (stepS Ms' sem' fuel n) [(e₂ j, op', y'), (e₁ i, op, y)] h h21 ∧ h12.Same h21 := by
  obtain ⟨h1, hs1, _, hs2, rfl⟩ := hr
  obtain ⟨g₁, hg1, p1⟩ := (C136_step hp₁ fuel n i op (Hub.own_part h)).gives hs1
  obtain ⟨g₂, hg2, p12⟩ := (C136_step hp₂ fuel n j op' (p1.apart hd hk)).gives hs2
  obtain ⟨h2, hs2', p2⟩ := (C136_step hp₂ fuel n j op' (Hub.own_part h)).gives' hg2
  obtain ⟨h21, hs1', p21⟩ := (C136_step hp₁ fuel n i op
    (p2.apart (fun i j => (hd j i).symm) hk.symm)).gives' hg1
  exact ⟨h21, ⟨h2, hs2', h21, hs1', rfl⟩, p1.diamond hd hk p12 p2 p21⟩

/-- C137 for gen/hsm.h. -/
theorem C137_commuteG (hp₁ : IsPart e₁ k₁ Ms₁ sem₁ Ms' sem') (hp₂ : IsPart e₂ k₂ Ms₂ sem₂ Ms' sem')
    (hd : ∀ i j, e₁ i ≠ e₂ j) (hk : k₁.Apart k₂) (fuel n : Nat) {i : ι₁} {j : ι₂} {op op' : Op P} {y y' : Reply}
    {h h12 : Hub ι' P W'}
    (hr : Answers (stepGS Ms' sem' fuel n) [(e₁ i, op, y), (e₂ j, op', y')] h h12) :
    ∃ h21, Answers (stepGS Ms' sem' fuel n) [(e₂ j, op', y'), (e₁ i, op, y)] h h21 ∧ h12.Same h21 := by
  obtain ⟨h1, hs1, _, hs2, rfl⟩ := hr
  obtain ⟨g₁, hg1, p1⟩ := (C136_stepG hp₁ fuel n i op (Hub.own_part h)).gives hs1
  obtain ⟨g₂, hg2, p12⟩ := (C136_stepG hp₂ fuel n j op' (p1.apart hd hk)).gives hs2
  obtain ⟨h2, hs2', p2⟩ := (C136_stepG hp₂ fuel n j op' (Hub.own_part h)).gives' hg2
  obtain ⟨h21, hs1', p21⟩ := (C136_stepG hp₁ fuel n i op
    (p2.apart (fun i j => (hd j i).symm) hk.symm)).gives' hg1
  exact ⟨h21, ⟨h2, hs2', h21, hs1', rfl⟩, p1.diamond hd hk p12 p2 p21⟩

end

/-! ## Any interleaving -/

theorem Share.fst_apart (V W : Type) : (Share.fst V W).Apart (Share.snd V W) :=
  ⟨fun _ _ => rfl, fun _ _ => rfl, fun _ _ _ => rfl⟩

section
variable {ι₁ ι₂ P W₁ W₂ : Type}

/-- `h` consists of `f` and `g`. -/
structure Hub.Both (f : Hub ι₁ P W₁) (g : Hub ι₂ P W₂) (h : Hub (ι₁ ⊕ ι₂) P (W₁ × W₂)) : Prop where
  left : Hub.Part Sum.inl (Share.fst W₁ W₂) h f h
  right : Hub.Part Sum.inr (Share.snd W₁ W₂) h g h

theorem Hub.Both.same {f : Hub ι₁ P W₁} {g : Hub ι₂ P W₂} {h h' : Hub (ι₁ ⊕ ι₂) P (W₁ × W₂)} (hb : Hub.Both f g h)
    (hb' : Hub.Both f g h') : h.Same h' := by
  refine ⟨Prod.ext (hb'.left.get.trans hb.left.get.symm) (hb'.right.get.trans hb.right.get.symm), funext fun l => ?_⟩
  cases l with
  | inl i => rw [hb'.left.parts, hb.left.parts]
  | inr j => rw [hb'.right.parts, hb.right.parts]

theorem Hub.own_both (h : Hub (ι₁ ⊕ ι₂) P (W₁ × W₂)) :
    Hub.Both (h.own Sum.inl (Share.fst W₁ W₂)) (h.own Sum.inr (Share.snd W₁ W₂)) h :=
  ⟨Hub.own_part h, Hub.own_part h⟩

/-- The calls `c` are calls `c₁` and `c₂` side by side. -/
structure SideBySide (c₁ : ι₁ → Op P → Hub ι₁ P W₁ → Res (Hub ι₁ P W₁) Bool)
    (c₂ : ι₂ → Op P → Hub ι₂ P W₂ → Res (Hub ι₂ P W₂) Bool)
    (c : ι₁ ⊕ ι₂ → Op P → Hub (ι₁ ⊕ ι₂) P (W₁ × W₂) → Res (Hub (ι₁ ⊕ ι₂) P (W₁ × W₂)) Bool) : Prop where
  left : ∀ i op {f g h}, Hub.Both f g h → (c₁ i op f).Rel Eq (fun f' h' => Hub.Both f' g h') (c (.inl i) op h)
  right : ∀ j op {f g h}, Hub.Both f g h → (c₂ j op g).Rel Eq (fun g' h' => Hub.Both f g' h') (c (.inr j) op h)

variable {c₁ : ι₁ → Op P → Hub ι₁ P W₁ → Res (Hub ι₁ P W₁) Bool}
  {c₂ : ι₂ → Op P → Hub ι₂ P W₂ → Res (Hub ι₂ P W₂) Bool}
  {c : ι₁ ⊕ ι₂ → Op P → Hub (ι₁ ⊕ ι₂) P (W₁ × W₂) → Res (Hub (ι₁ ⊕ ι₂) P (W₁ × W₂)) Bool}

theorem SideBySide.split (hc : SideBySide c₁ c₂ c) : ∀ {log : List ((ι₁ ⊕ ι₂) × Op P × Reply)}
    {h h' : Hub (ι₁ ⊕ ι₂) P (W₁ × W₂)} {f : Hub ι₁ P W₁} {g : Hub ι₂ P W₂}, Hub.Both f g h → Answers c log h h' →
    ∃ f' g', Answers c₁ (ofLeft log) f f' ∧ Answers c₂ (ofRight log) g g' ∧ Hub.Both f' g' h' := by
  intro log
  induction log with
  | nil => rintro h _ f g hb rfl; exact ⟨f, g, rfl, rfl, hb⟩
  | cons x log ih =>
    obtain ⟨i | j, op, y⟩ := x <;> rintro h h' f g hb ⟨t, hs, hr⟩
    · obtain ⟨f', h1, h2⟩ := (hc.left i op hb).gives hs
      obtain ⟨f'', g'', h3, h4, h5⟩ := ih h2 hr
      exact ⟨f'', g'', ⟨f', h1, h3⟩, h4, h5⟩
    · obtain ⟨g', h1, h2⟩ := (hc.right j op hb).gives hs
      obtain ⟨f'', g'', h3, h4, h5⟩ := ih h2 hr
      exact ⟨f'', g'', h3, ⟨g', h1, h4⟩, h5⟩

theorem SideBySide.join (hc : SideBySide c₁ c₂ c) : ∀ {log : List ((ι₁ ⊕ ι₂) × Op P × Reply)}
    {h : Hub (ι₁ ⊕ ι₂) P (W₁ × W₂)} {f f' : Hub ι₁ P W₁} {g g' : Hub ι₂ P W₂}, Hub.Both f g h →
    Answers c₁ (ofLeft log) f f' → Answers c₂ (ofRight log) g g' → ∃ h', Answers c log h h' ∧ Hub.Both f' g' h' := by
  intro log
  induction log with
  | nil => rintro h f _ g _ hb rfl rfl; exact ⟨h, rfl, hb⟩
  | cons x log ih =>
    obtain ⟨i | j, op, y⟩ := x <;> intro h f f' g g' hb h1 h2
    · obtain ⟨t, hs, h1⟩ := h1
      obtain ⟨u, h3, h4⟩ := (hc.left i op hb).gives' hs
      obtain ⟨h', h5, h6⟩ := ih h4 h1 h2
      exact ⟨h', ⟨u, h3, h5⟩, h6⟩
    · obtain ⟨t, hs, h2⟩ := h2
      obtain ⟨u, h3, h4⟩ := (hc.right j op hb).gives' hs
      obtain ⟨h', h5, h6⟩ := ih h4 h1 h2
      exact ⟨h', ⟨u, h3, h5⟩, h6⟩

theorem SideBySide.order (hc : SideBySide c₁ c₂ c) {log log' : List ((ι₁ ⊕ ι₂) × Op P × Reply)}
    (hl : ofLeft log' = ofLeft log) (hr : ofRight log' = ofRight log) {h h' : Hub (ι₁ ⊕ ι₂) P (W₁ × W₂)}
    (ha : Answers c log h h') : ∃ h'', Answers c log' h h'' ∧ h'.Same h'' := by
  obtain ⟨f', g', h1, h2, h3⟩ := hc.split h.own_both ha
  obtain ⟨h'', h4, h5⟩ := hc.join (log := log') h.own_both (by rw [hl]; exact h1) (by rw [hr]; exact h2)
  exact ⟨h'', h4, h3.same h5⟩

/-- Everything that can be answered by `c` from `f` can be answered by `c'` from `f'`. -/
def NoWorse {ι P σ σ' : Type} (c : ι → Op P → σ → Res σ Bool) (f : σ) (c' : ι → Op P → σ' → Res σ' Bool)
    (f' : σ') : Prop :=
  ∀ log t, Answers c log f t → ∃ t', Answers c' log f' t'

theorem NoWorse.of_rel {ι P σ σ' : Type} {c : ι → Op P → σ → Res σ Bool} {c' : ι → Op P → σ' → Res σ' Bool}
    {R : σ → σ' → Prop} (hc : ∀ i op {g h}, R g h → (c i op g).Rel Eq R (c' i op h)) {g : σ} {h : σ'} (hg : R g h) :
    NoWorse c g c' h := by
  intro log
  induction log generalizing g h with
  | nil => intro _ _; exact ⟨h, rfl⟩
  | cons x log ih =>
    rintro t ⟨u, h1, h2⟩
    obtain ⟨v, h3, h4⟩ := (hc x.1 x.2.1 hg).gives' h1
    obtain ⟨t', h5⟩ := ih h4 t h2
    exact ⟨t', v, h3, h5⟩

theorem SideBySide.replace {V₁ : Type} (hc : SideBySide c₁ c₂ c)
    {c₁' : ι₁ → Op P → Hub ι₁ P V₁ → Res (Hub ι₁ P V₁) Bool}
    {c' : ι₁ ⊕ ι₂ → Op P → Hub (ι₁ ⊕ ι₂) P (V₁ × W₂) → Res (Hub (ι₁ ⊕ ι₂) P (V₁ × W₂)) Bool}
    (hc' : SideBySide c₁' c₂ c') {h : Hub (ι₁ ⊕ ι₂) P (W₁ × W₂)} {h₀ : Hub (ι₁ ⊕ ι₂) P (V₁ × W₂)}
    (hn : NoWorse c₁ (h.own Sum.inl (Share.fst W₁ W₂)) c₁' (h₀.own Sum.inl (Share.fst V₁ W₂)))
    (hr : h₀.own Sum.inr (Share.snd V₁ W₂) = h.own Sum.inr (Share.snd W₁ W₂)) : NoWorse c h c' h₀ := by
  intro log t ha
  obtain ⟨f', g', h1, h2, -⟩ := hc.split h.own_both ha
  obtain ⟨f'', h3⟩ := hn _ _ h1
  obtain ⟨t', h4, -⟩ := hc'.join (log := log) h₀.own_both h3 (by rw [hr]; exact h2)
  exact ⟨t', h4⟩

variable [DecidableEq ι₁] [DecidableEq ι₂] {Ms₁ : ι₁ → Machine} {Ms₂ : ι₂ → Machine}
  {a : SemS ι₁ P W₁} {b : SemS ι₂ P W₂}

theorem beside_calls (fuel n : Nat) : SideBySide (stepS Ms₁ a fuel n) (stepS Ms₂ b fuel n)
    (stepS (Sum.elim Ms₁ Ms₂) (a.beside b) fuel n) where
  left i op f g h hb := by
    have h1 := (SemS.beside_left (Ms₁ := Ms₁) (Ms₂ := Ms₂) (a := a) (b := b)).own (fuel := fuel) (n := n) (i := i)
      (op := op) hb.left
    have h2 := (SemS.beside_left (Ms₁ := Ms₁) (Ms₂ := Ms₂) (a := a) (b := b)).apart (e := Sum.inr)
        (k := Share.snd W₁ W₂) (fun _ _ h => nomatch h) (fun _ _ => rfl) (fuel := fuel) (n := n) (j := i) (op := op) hb.right
    revert h1 h2
    cases stepS Ms₁ a fuel n i op f <;> cases stepS (Sum.elim Ms₁ Ms₂) (a.beside b) fuel n (.inl i) op h <;>
      intro h1 h2 <;> first | exact h1.elim | exact h1 | exact ⟨h1.1, h1.2, h2⟩
  right i op f g h hb := by
    have h1 := (SemS.beside_right (Ms₁ := Ms₁) (Ms₂ := Ms₂) (a := a) (b := b)).own (fuel := fuel) (n := n) (i := i)
      (op := op) hb.right
    have h2 := (SemS.beside_right (Ms₁ := Ms₁) (Ms₂ := Ms₂) (a := a) (b := b)).apart (e := Sum.inl)
        (k := Share.fst W₁ W₂) (fun _ _ h => nomatch h) (fun _ _ => rfl) (fuel := fuel) (n := n) (j := i) (op := op) hb.left
    revert h1 h2
    cases stepS Ms₂ b fuel n i op g <;> cases stepS (Sum.elim Ms₁ Ms₂) (a.beside b) fuel n (.inr i) op h <;>
      intro h1 h2 <;> first | exact h1.elim | exact h1 | exact ⟨h1.1, h2, h1.2⟩

/-- C137: of two programs side by side, calls answered in one order are answered the same in every order that keeps
the order in each program, and leave the same. -/
theorem C137_order (fuel n : Nat) {log log' : List ((ι₁ ⊕ ι₂) × Op P × Reply)} (hl : ofLeft log' = ofLeft log)
    (hr : ofRight log' = ofRight log) {h h' : Hub (ι₁ ⊕ ι₂) P (W₁ × W₂)}
    (ha : Answers (stepS (Sum.elim Ms₁ Ms₂) (a.beside b) fuel n) log h h') :
    ∃ h'', Answers (stepS (Sum.elim Ms₁ Ms₂) (a.beside b) fuel n) log' h h'' ∧ h'.Same h'' :=
  (beside_calls fuel n).order hl hr ha

/-- C137: of two programs side by side one is replaced by another with the same calls.  If every sequence of calls
it answers is answered the same by the other, this holds of the two programs together. -/
theorem C137_replace (fuel n : Nat) {V₁ : Type} {Ms₁' : ι₁ → Machine} {a' : SemS ι₁ P V₁}
    {h : Hub (ι₁ ⊕ ι₂) P (W₁ × W₂)} {h₀ : Hub (ι₁ ⊕ ι₂) P (V₁ × W₂)}
    (hn : NoWorse (stepS Ms₁ a fuel n) (h.own Sum.inl (Share.fst W₁ W₂)) (stepS Ms₁' a' fuel n)
      (h₀.own Sum.inl (Share.fst V₁ W₂)))
    (hr : h₀.own Sum.inr (Share.snd V₁ W₂) = h.own Sum.inr (Share.snd W₁ W₂)) :
    NoWorse (stepS (Sum.elim Ms₁ Ms₂) (a.beside b) fuel n) h
      (stepS (Sum.elim Ms₁' Ms₂) (a'.beside b) fuel n) h₀ :=
  (beside_calls fuel n).replace (beside_calls fuel n) hn hr

theorem beside_callsG (fuel n : Nat) : SideBySide (stepGS Ms₁ a fuel n) (stepGS Ms₂ b fuel n)
    (stepGS (Sum.elim Ms₁ Ms₂) (a.beside b) fuel n) where
  left i op f g h hb := by
    have h1 := (SemS.beside_left (Ms₁ := Ms₁) (Ms₂ := Ms₂) (a := a) (b := b)).ownG (fuel := fuel) (n := n) (i := i)
      (op := op) hb.left
    have h2 := (SemS.beside_left (Ms₁ := Ms₁) (Ms₂ := Ms₂) (a := a) (b := b)).apartG (e := Sum.inr)
        (k := Share.snd W₁ W₂) (fun _ _ h => nomatch h) (fun _ _ => rfl) (fuel := fuel) (n := n) (j := i) (op := op) hb.right
    revert h1 h2
    cases stepGS Ms₁ a fuel n i op f <;> cases stepGS (Sum.elim Ms₁ Ms₂) (a.beside b) fuel n (.inl i) op h <;>
      intro h1 h2 <;> first | exact h1.elim | exact h1 | exact ⟨h1.1, h1.2, h2⟩
  right i op f g h hb := by
    have h1 := (SemS.beside_right (Ms₁ := Ms₁) (Ms₂ := Ms₂) (a := a) (b := b)).ownG (fuel := fuel) (n := n) (i := i)
      (op := op) hb.right
    have h2 := (SemS.beside_right (Ms₁ := Ms₁) (Ms₂ := Ms₂) (a := a) (b := b)).apartG (e := Sum.inl)
        (k := Share.fst W₁ W₂) (fun _ _ h => nomatch h) (fun _ _ => rfl) (fuel := fuel) (n := n) (j := i) (op := op) hb.left
    revert h1 h2
    cases stepGS Ms₂ b fuel n i op g <;> cases stepGS (Sum.elim Ms₁ Ms₂) (a.beside b) fuel n (.inr i) op h <;>
      intro h1 h2 <;> first | exact h1.elim | exact h1 | exact ⟨h1.1, h2, h1.2⟩

/-- C137 for gen/hsm.h: of two programs side by side, calls answered in one order are answered the same in every order that keeps
the order in each program, and leave the same. -/
theorem C137_orderG (fuel n : Nat) {log log' : List ((ι₁ ⊕ ι₂) × Op P × Reply)} (hl : ofLeft log' = ofLeft log)
    (hr : ofRight log' = ofRight log) {h h' : Hub (ι₁ ⊕ ι₂) P (W₁ × W₂)}
    (ha : Answers (stepGS (Sum.elim Ms₁ Ms₂) (a.beside b) fuel n) log h h') :
    ∃ h'', Answers (stepGS (Sum.elim Ms₁ Ms₂) (a.beside b) fuel n) log' h h'' ∧ h'.Same h'' :=
  (beside_callsG fuel n).order hl hr ha

/-- C137 for gen/hsm.h: of two programs side by side one is replaced by another with the same calls.  If every sequence of calls
it answers is answered the same by the other, this holds of the two programs together. -/
theorem C137_replaceG (fuel n : Nat) {V₁ : Type} {Ms₁' : ι₁ → Machine} {a' : SemS ι₁ P V₁}
    {h : Hub (ι₁ ⊕ ι₂) P (W₁ × W₂)} {h₀ : Hub (ι₁ ⊕ ι₂) P (V₁ × W₂)}
    (hn : NoWorse (stepGS Ms₁ a fuel n) (h.own Sum.inl (Share.fst W₁ W₂)) (stepGS Ms₁' a' fuel n)
      (h₀.own Sum.inl (Share.fst V₁ W₂)))
    (hr : h₀.own Sum.inr (Share.snd V₁ W₂) = h.own Sum.inr (Share.snd W₁ W₂)) :
    NoWorse (stepGS (Sum.elim Ms₁ Ms₂) (a.beside b) fuel n) h
      (stepGS (Sum.elim Ms₁' Ms₂) (a'.beside b) fuel n) h₀ :=
  (beside_callsG fuel n).replace (beside_callsG fuel n) hn hr

end

/-! ## Examples -/

namespace Ex

/-- Makes the calls of the list, if they are answered as it says. -/
def check {ι P σ : Type} (call : ι → Op P → σ → Res σ Bool) : List (ι × Op P × Reply) → σ → Option σ
  | [], h => some h
  | x :: xs, h =>
    match call x.1 x.2.1 h with
    | .ok b t => if x.2.2 = .ret b then check call xs t else none
    | .throw e t => if x.2.2 = .threw e then check call xs t else none
    | _ => none

theorem exists_answers {ι P σ : Type} {call : ι → Op P → σ → Res σ Bool} {f : σ → Bool} :
    ∀ {log : List (ι × Op P × Reply)} {h : σ}, (check call log h).any f = true →
      ∃ h', Answers call log h h' ∧ f h' = true := by
  intro log
  induction log with
  | nil => intro h hf; exact ⟨h, rfl, hf⟩
  | cons x log ih =>
    obtain ⟨i, op, y⟩ := x
    intro h hf
    unfold check at hf
    split at hf
    · rename_i b t hs
      split at hf
      · rename_i he
        obtain ⟨h', h1, h2⟩ := ih hf
        cases he
        exact ⟨h', ⟨t, hs, h1⟩, h2⟩
      · cases hf
    · rename_i b t hs
      split at hf
      · rename_i he
        obtain ⟨h', h1, h2⟩ := ih hf
        cases he
        exact ⟨h', ⟨t, hs, h1⟩, h2⟩
      · cases hf
    · cases hf

def hopNew : SM Nat Unit := (construct (P := Nat) hop 7 ()).toOption.get (by decide +kernel)

def hopNewG : SM Nat Unit := (constructG (P := Nat) hop 7 ()).toOption.get (by decide +kernel)

/-- Event 0 for the first pair, event 2 and event 1 for the second machine of the second pair.
Under gen/hsm.h nobody says that event 2 was not expected. -/
def mingled (b : Bool) : List ((Bool ⊕ Bool) × Op Nat × Reply) :=
  [(.inl false, .process (ev 0) 1, .ret true), (.inr true, .process (ev 2) 1, .ret b),
    (.inr true, .process (ev 1) 1, .ret true)]

/-- The second pair first. -/
def mingled' (b : Bool) : List ((Bool ⊕ Bool) × Op Nat × Reply) :=
  [(.inr true, .process (ev 2) 1, .ret b), (.inr true, .process (ev 1) 1, .ret true),
    (.inl false, .process (ev 0) 1, .ret true)]

/-- C137 applies: the answers and what is left are the same. -/
example : ∃ h h' : Hub (Bool ⊕ Bool) Nat (List Nat × List Nat),
    Answers (stepS (Sum.elim twins twins) quartet 5 5) (mingled false) ⟨([], [5]), fun _ => hopNew, none⟩ h ∧
    Answers (stepS (Sum.elim twins twins) quartet 5 5) (mingled' false) ⟨([], [5]), fun _ => hopNew, none⟩ h' ∧
    h'.user = ([100, 1, 2, 3, 20], [5, 2]) ∧ h'.parts = h.parts := by
  obtain ⟨h, hr, hu⟩ := exists_answers (call := stepS (Sum.elim twins twins) quartet 5 5) (log := mingled false)
    (h := ⟨([], [5]), fun _ => hopNew, none⟩)
    (f := fun h => decide (h.user = ([100, 1, 2, 3, 20], [5, 2]))) (by decide +kernel)
  have hu := of_decide_eq_true hu
  obtain ⟨h', hr', h1, h2⟩ := C137_order (log := mingled false) (log' := mingled' false) 5 5 rfl rfl hr
  exact ⟨h, h', hr, hr', h1.trans hu, h2⟩

/-- C137 applies under gen/hsm.h. -/
example : ∃ h h' : Hub (Bool ⊕ Bool) Nat (List Nat × List Nat),
    Answers (stepGS (Sum.elim twins twins) quartet 5 5) (mingled true) ⟨([], [5]), fun _ => hopNewG, none⟩ h ∧
    Answers (stepGS (Sum.elim twins twins) quartet 5 5) (mingled' true) ⟨([], [5]), fun _ => hopNewG, none⟩ h' ∧
    h'.user = ([100, 1, 2, 3, 20], [5, 2]) ∧ h'.parts = h.parts := by
  obtain ⟨h, hr, hu⟩ := exists_answers (call := stepGS (Sum.elim twins twins) quartet 5 5) (log := mingled true)
    (h := ⟨([], [5]), fun _ => hopNewG, none⟩)
    (f := fun h => decide (h.user = ([100, 1, 2, 3, 20], [5, 2]))) (by decide +kernel)
  have hu := of_decide_eq_true hu
  obtain ⟨h', hr', h1, h2⟩ := C137_orderG (log := mingled true) (log' := mingled' true) 5 5 rfl rfl hr
  exact ⟨h, h', hr, hr', h1.trans hu, h2⟩

/-- C137_commute applies to the two pairs: neither order is special. -/
example (fuel n : Nat) {i j : Bool} {op op' : Op Nat} {y y' : Reply}
    {h h12 : Hub (Bool ⊕ Bool) Nat (List Nat × List Nat)}
    (hr : Answers (stepS (Sum.elim twins twins) quartet fuel n) [(.inl i, op, y), (.inr j, op', y')] h h12) :
    ∃ h21, Answers (stepS (Sum.elim twins twins) quartet fuel n) [(.inr j, op', y'), (.inl i, op, y)] h h21 ∧
      h12.Same h21 :=
  C137_commute SemS.beside_left SemS.beside_right (fun _ _ h => nomatch h) (Share.fst_apart _ _) fuel n hr

/-- Two machines whose callbacks have a counter they do not use. -/
def spare : SemS Bool Nat (List Nat × Nat) where
  guard i g a p v := ((semS true quietS pingPong).guard i g a p v.1).embed id (Share.fst _ _) v
  action i c a p v := ((semS true quietS pingPong).action i c a p v.1).embed id (Share.fst _ _) v
  handler i c e st d p v := ((semS true quietS pingPong).handler i c e st d p v.1).embed id (Share.fst _ _) v
  alive i st v := (semS true quietS pingPong).alive i st v.1
  nonePayload i := (semS true quietS pingPong).nonePayload i

theorem spare_part : IsPart id (Share.fst (List Nat) Nat) twins (semS true quietS pingPong) twins spare :=
  ⟨fun _ _ h => h, fun _ => rfl, fun _ _ _ _ _ => rfl, fun _ _ _ _ _ => rfl, fun _ _ _ _ _ _ _ => rfl,
    fun _ _ _ => rfl, fun _ => rfl⟩

/-- C137_replace applies: with `spare` in the place of the first pair, all calls are answered the same. -/
example (fuel n : Nat) (m : Bool → SM Nat Unit) (w : List Nat) : NoWorse (stepS (Sum.elim twins twins) quartet fuel n)
    ⟨([], w), Sum.elim m m, none⟩
    (stepS (Sum.elim twins twins) (spare.beside (semS true quietS pingPong)) fuel n)
    ⟨(([], 3), w), Sum.elim m m, none⟩ := by
  refine C137_replace fuel n (NoWorse.of_rel (R := Hub.Part id (Share.fst (List Nat) Nat) ⟨([], 3), m, none⟩)
    (fun i op {g h} hg => C136_step spare_part fuel n i op hg) ⟨rfl, fun _ => rfl, fun _ _ => rfl⟩) rfl

/-- Guards hold as long as nothing was done. -/
def early : SemS Bool Nat (List Nat) where
  guard _ _ _ p w := .ret w.isEmpty p w
  action _ a _ p w := .ret () p (w ++ [a])
  handler _ h _ _ _ p w := .ret () p (w ++ [h])
  alive _ _ _ := true
  nonePayload _ := 0

/-- One machine with these callbacks by itself. -/
def earlyOne : SemS Unit Nat (List Nat) where
  guard _ _ _ p w := .ret w.isEmpty p w
  action _ a _ p w := .ret () p (w ++ [a])
  handler _ h _ _ _ p w := .ret () p (w ++ [h])
  alive _ _ _ := true
  nonePayload _ := 0

theorem early_part (i : Bool) : IsPart (fun _ => i) (Share.all (List Nat)) (fun _ => hop) earlyOne twins early :=
  ⟨fun _ _ _ => rfl, fun _ => rfl, fun _ _ _ _ _ => rfl, fun _ _ _ _ _ => rfl, fun _ _ _ _ _ _ _ => rfl,
    fun _ _ _ => rfl, fun _ => rfl⟩

end Ex

/-- C137 is about parts with different variables: parts with no machine in common that share variables can answer
differently in the other order. -/
theorem C137_refuted_shared : ∃ (Ms : Bool → Machine) (sem : SemS Bool Nat (List Nat))
    (sem₁ : SemS Unit Nat (List Nat)) (op : Op Nat) (h h' : Hub Bool Nat (List Nat)),
    (∀ i, IsPart (fun _ => i) (Share.all (List Nat)) (fun _ => Ms i) sem₁ Ms sem) ∧
    Answers (stepS Ms sem 5 5) [(false, op, .ret true), (true, op, .ret false)] h h' ∧
    ∀ h'', ¬ Answers (stepS Ms sem 5 5) [(true, op, .ret false), (false, op, .ret true)] h h'' := by
  obtain ⟨h', hr, -⟩ := Ex.exists_answers (call := stepS Ex.twins Ex.early 5 5)
    (log := [(false, .process (Ex.ev 0) 1, .ret true), (true, .process (Ex.ev 0) 1, .ret false)])
    (h := ⟨[], fun _ => Ex.hopNew, none⟩) (f := fun _ => true) (by decide +kernel)
  obtain ⟨t, hr', -⟩ := Ex.exists_answers (call := stepS Ex.twins Ex.early 5 5)
    (log := [(true, .process (Ex.ev 0) 1, .ret true)]) (h := ⟨[], fun _ => Ex.hopNew, none⟩) (f := fun _ => true)
    (by decide +kernel)
  refine ⟨_, _, _, _, _, h', Ex.early_part, hr, ?_⟩
  rintro h'' ⟨u, h1, -⟩
  obtain ⟨u', h2, -⟩ := hr'
  exact absurd (Res.ok.inj (h1.symm.trans h2)).1 (by decide)

end Hsm

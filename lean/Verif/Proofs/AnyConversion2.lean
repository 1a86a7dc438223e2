import Verif.Proofs.AnyConversion

/-! Without a panic, the conversion is that of `Spec/Conversion.lean`. -/

namespace LatexAst.Ast2
open Ast1 (Opened Matched)

/-- The outcome of a conversion without a panic. -/
inductive Plain : Ending → Outcome → Prop
  | ok {cs} : Plain (.ok cs) (.ok cs)
  | error {e} : Plain (.error (.err e)) (.error e)

theorem plain_or (r : Ending) : (∃ o, Plain r o) ∨ r = .error .panic ∨ r = .error .fuel := by
  cases r with
  | ok cs => exact .inl ⟨_, .ok⟩
  | error f => cases f with
    | err e => exact .inl ⟨_, .error⟩
    | panic => exact .inr (.inl rfl)
    | fuel => exact .inr (.inr rfl)

theorem plain_toRes {r : Ending} {o : Outcome} : Plain r o ↔ r = Outcome.toRes o := by
  constructor
  · intro h; cases h <;> rfl
  · intro h; subst h; cases o
    · exact .error
    · exact .ok

/-- What the items of a conversion without a panic are. -/
theorem items_plain {items : List ((Str × Ast1.Scope) × Ending)} {o : Except Error (List (Str × Scope))}
    (hm : ∀ x ∈ items, ∃ o', Converts x.1.2.chunks o')
    (hp : ∀ x ∈ items, ∀ o', Plain x.2 o' → Converts x.1.2.chunks o')
    (h : argEnding items = Outcome.toRes o) :
    ∃ items' : List ((Str × Ast1.Scope) × Outcome), items'.map (·.1) = items.map (·.1) ∧ (∀ x ∈ items', Converts x.1.2.chunks x.2) ∧
      argOutcome items' = o := by
  induction items generalizing o with
  | nil =>
    refine ⟨[], rfl, by simp, ?_⟩
    cases o <;> simp [argEnding, Outcome.toRes] at h
    subst h; rfl
  | cons x r ih =>
    obtain ⟨⟨p, ⟨inner, sv⟩⟩, i⟩ := x
    have hm' := fun x hx => hm x (List.mem_cons_of_mem _ hx)
    have hp' := fun x hx => hp x (List.mem_cons_of_mem _ hx)
    have h0 := hp _ (List.mem_cons_self ..)
    cases i with
    | error f =>
      obtain ⟨items', h1, h2⟩ := items_total (args := r.map (·.1)) (by
        intro x hx
        obtain ⟨y, hy, rfl⟩ := List.mem_map.1 hx
        exact hm' y hy)
      simp only [argEnding] at h
      cases o with
      | ok a => simp [Outcome.toRes] at h
      | error e =>
        simp [Outcome.toRes] at h
        subst h
        refine ⟨((p, .mk inner sv), .error e) :: items', by simp [h1], ?_, rfl⟩
        intro x hx
        rcases List.mem_cons.1 hx with rfl | hx
        · exact h0 _ .error
        · exact h2 x hx
    | ok a =>
      simp only [argEnding] at h
      cases hr : argEnding r with
      | error f =>
        rw [hr] at h
        cases o with
        | ok b => simp [Outcome.toRes] at h
        | error e =>
          simp [Outcome.toRes] at h
          subst h
          obtain ⟨items', h1, h2, h3⟩ := ih (o := .error e) hm' hp' (by rw [hr]; rfl)
          refine ⟨((p, .mk inner sv), .ok a) :: items', by simp [h1], ?_, by simp [argOutcome, h3]⟩
          intro x hx
          rcases List.mem_cons.1 hx with rfl | hx
          · exact h0 _ .ok
          · exact h2 x hx
      | ok args =>
        rw [hr] at h
        cases o with
        | error e => simp [Outcome.toRes] at h
        | ok b =>
          simp [Outcome.toRes] at h
          subst h
          obtain ⟨items', h1, h2, h3⟩ := ih (o := .ok args) hm' hp' (by rw [hr]; rfl)
          refine ⟨((p, .mk inner sv), .ok a) :: items', by simp [h1], ?_, by simp [argOutcome, h3]⟩
          intro x hx
          rcases List.mem_cons.1 hx with rfl | hx
          · exact h0 _ .ok
          · exact h2 x hx

theorem Meets.plain {cs r} (h : Meets cs r) : ∀ o, Plain r o → Converts cs o := by
  induction h with
  | nil => intro o h; cases h; exact .nil
  | @text l t cs r _ ih =>
    intro o h
    cases r with
    | ok a => cases h; exact .text (o := .ok a) (ih _ .ok)
    | error f => cases h; exact .text (o := .error _) (ih _ .error)
  | @scope l inner sv cs i r _ _ ih1 ih2 =>
    intro o h
    cases i with
    | error f =>
      simp only [scopeEnding] at h
      cases f with
      | err e =>
        cases h
        obtain ⟨o', ho'⟩ := converts_total cs
        exact .scope (i := .error e) (ih1 _ .error) ho'
      | panic => cases h
      | fuel => cases h
    | ok a =>
      simp only [scopeEnding] at h
      cases r with
      | ok b => cases h; exact .scope (i := .ok a) (o := .ok b) (ih1 _ .ok) (ih2 _ .ok)
      | error f => cases h; exact .scope (i := .ok a) (o := .error _) (ih1 _ .ok) (ih2 _ .error)
  | @command l label cs r items h1 h2 _ _ ih1 ih2 =>
    intro o h
    have hm : ∀ x ∈ items, ∃ o', Converts x.1.2.chunks o' := fun x _ => converts_total _
    cases ha : argEnding items with
    | error f =>
      simp only [commandEnding, ha] at h
      cases h with
      | @error e =>
        obtain ⟨items', g1, g2, g3⟩ := items_plain (o := .error e) hm ih1 ha
        obtain ⟨o', ho'⟩ := converts_total cs
        have := Converts.command (l := l) h1 h2 g2 ho'
        rw [g1, commandOutcome, g3] at this
        exact this
    | ok a =>
      obtain ⟨items', g1, g2, g3⟩ := items_plain (o := .ok a) hm ih1 ha
      simp only [commandEnding, ha] at h
      cases r with
      | ok b =>
        cases h
        have := Converts.command (l := l) h1 h2 g2 (ih2 _ .ok)
        rw [g1, commandOutcome, g3] at this
        exact this
      | error f =>
        cases h
        have := Converts.command (l := l) h1 h2 g2 (ih2 _ .error)
        rw [g1, commandOutcome, g3] at this
        exact this
  | @environment l p lab body l' pe cs i r items hmb hk _ _ _ ih1 ih2 ih3 =>
    intro o h
    have hm : ∀ x ∈ items, ∃ o', Converts x.1.2.chunks o' := fun x _ => converts_total _
    cases ha : argEnding items with
    | error f =>
      simp only [environmentEnding, ha] at h
      cases h with
      | @error e =>
        obtain ⟨items', g1, g2, g3⟩ := items_plain (o := .error e) hm ih1 ha
        obtain ⟨o', ho'⟩ := converts_total cs
        obtain ⟨o2, ho2⟩ := converts_total (body.map (renumber (endOfBegin l ((p, .mk lab .curly) :: items'.map (·.1)))))
        have := Converts.environment (l := l) (p := p) (l' := l') (pe := pe) hmb g2 ho2 ho'
        rw [g1, environmentOutcome, g3] at this
        exact this
    | ok a =>
      obtain ⟨items', g1, g2, g3⟩ := items_plain (o := .ok a) hm ih1 ha
      simp only [environmentEnding, ha] at h
      rw [← g1] at ih2
      cases i with
      | error f =>
        cases f with
        | err e =>
          cases h
          obtain ⟨o', ho'⟩ := converts_total cs
          have := Converts.environment (l := l) (p := p) (l' := l') (pe := pe) hmb g2 (ih2 _ .error) ho'
          simp only [g1, environmentOutcome, g3] at this
          exact this
        | panic => cases h
        | fuel => cases h
      | ok c =>
        simp only [] at h
        cases r with
        | ok b =>
          cases h
          have := Converts.environment (l := l) (p := p) (l' := l') (pe := pe) hmb g2 (ih2 _ .ok) (ih3 _ .ok)
          simp only [g1, environmentOutcome, g3] at this
          exact this
        | error f =>
          cases h
          have := Converts.environment (l := l) (p := p) (l' := l') (pe := pe) hmb g2 (ih2 _ .ok) (ih3 _ .error)
          simp only [g1, environmentOutcome, g3] at this
          exact this
  | above => intro o h; cases h
  | bad hb => intro o h; cases h; exact .bad hb
  | badInside ho hk hb => intro o h; cases h; exact .badInside ho hb
  | unclosed ho hk => intro o h; cases h; exact .unclosed ho

/-- There is no other failure than an error or a panic. -/
theorem Meets.no_fuel {cs r} (h : Meets cs r) : r ≠ .error .fuel := by
  have := tryFrom_fuel cs
  rwa [h.sound] at this

theorem tryFrom_converts {d e} (h : tryFrom d = .ok e) : Converts d (.ok e) := ((meets_iff _ _).1 h).plain _ .ok

theorem tryFrom_converts_error {d e} (h : tryFrom d = .error (.err e)) : Converts d (.error e) := ((meets_iff _ _).1 h).plain _ .error

/-- The rule gives what the conversion gives, unless that panics. -/
theorem Converts.or_panics {d o} (h : Converts d o) (hu : ∀ o', Converts d o' → o' = o) : tryFrom d = Outcome.toRes o ∨ tryFrom d = .error .panic := by
  cases hr : tryFrom d with
  | ok e => rw [← hu _ (tryFrom_converts hr)]; exact .inl rfl
  | error f =>
    cases f with
    | err e => rw [← hu _ (tryFrom_converts_error hr)]; exact .inl rfl
    | panic => exact .inr rfl
    | fuel => exact absurd hr (tryFrom_fuel d)

end LatexAst.Ast2

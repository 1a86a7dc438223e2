import Verif.Spec.Paste
import Verif.Proofs.Retext1

/-!
# Joining documents
-/

namespace LatexAst.Ast1
open Spec

/-- Every level is printable. -/
def Good (d : List Chunk) : Prop := ∀ lv, Level d lv → Printable lv

theorem survives_good {d : Document} : Survives d ↔ Good d := by
  constructor
  · intro h
    obtain ⟨d0, h1, h2⟩ := h.canonical
    have hr : Retexted Replaces d0 d :=
      retexted_both (S := fun t t' => t' = t) (by rintro t t1 t2 rfl rfl; exact replaces_refl _) h1 (retexted_refl (R := fun t t' => t' = t) (fun _ => rfl) d)
    exact printable_retexted hr fun lv hl => (h2 lv hl).1
  · intro h
    exact ⟨_, printable_parse h, same_renum _ _ _⟩

theorem good_iff {d : List Chunk} : Good d ↔ Printable d ∧ (∀ l inner sv, .mk l (.scope (.mk inner sv)) ∈ d → Good inner) ∧
    ∀ l label args prec inner sv, .mk l (.command (.mk label args)) ∈ d → (prec, Scope.mk inner sv) ∈ args → Good inner := by
  constructor
  · intro h
    exact ⟨h d .top, fun l inner sv hm lv hl => h lv ((Level.scope .top hm).trans hl),
      fun l label args prec inner sv hm ha lv hl => h lv ((Level.arg .top hm ha).trans hl)⟩
  · rintro ⟨h1, h2, h3⟩ lv hl
    have : lv = d ∨ (∃ l inner sv, .mk l (.scope (.mk inner sv)) ∈ d ∧ Level inner lv) ∨
        ∃ l label args prec inner sv, .mk l (.command (.mk label args)) ∈ d ∧ (prec, Scope.mk inner sv) ∈ args ∧ Level inner lv := by
      induction hl with
      | top => exact .inl rfl
      | scope hl hm ih =>
        rcases ih with rfl | ⟨l, i, sv, h4, h5⟩ | ⟨l, label, args, prec, i, sv, h4, h5, h6⟩
        · exact .inr (.inl ⟨_, _, _, hm, .top⟩)
        · exact .inr (.inl ⟨_, _, _, h4, .scope h5 hm⟩)
        · exact .inr (.inr ⟨_, _, _, _, _, _, h4, h5, .scope h6 hm⟩)
      | arg hl hm ha ih =>
        rcases ih with rfl | ⟨l, i, sv, h4, h5⟩ | ⟨l, label, args, prec, i, sv, h4, h5, h6⟩
        · exact .inr (.inr ⟨_, _, _, _, _, _, hm, ha, .top⟩)
        · exact .inr (.inl ⟨_, _, _, h4, .arg h5 hm ha⟩)
        · exact .inr (.inr ⟨_, _, _, _, _, _, h4, h5, .arg h6 hm ha⟩)
    rcases this with rfl | ⟨l, i, sv, h4, h5⟩ | ⟨l, label, args, prec, i, sv, h4, h5, h6⟩
    · exact h1
    · exact h2 _ _ _ h4 lv h5
    · exact h3 _ _ _ _ _ _ h4 h5 lv h6

/-- What is printed last after printing the chunks. -/
noncomputable def After.run (a : After) (cs : List Chunk) : After := cs.foldl (fun a c => a.next c.variant) a

theorem fitting_append {A a b} : Fitting A (a ++ b) ↔ Fitting A a ∧ Fitting (A.run a) b := by
  induction a generalizing A with
  | nil => simp [Fitting, After.run]
  | cons c a ih =>
    obtain ⟨l, v⟩ := c
    simp only [List.cons_append, Fitting, ih, and_assoc]
    rfl

theorem after_run_append {A : After} {a b} : A.run (a ++ b) = (A.run a).run b := by simp [After.run]

theorem after_run_snoc {A : After} {a l v} : A.run (a ++ [.mk l v]) = (A.run a).next v := by simp [After.run, Chunk.variant]

/-- Letter names, for canonical nodes. -/
theorem letterName_iff {label args} (h : NodeCanon (.command (.mk label args))) :
    LetterName label ↔ ∃ x r, label = x :: r ∧ isAsciiAlphabetic x = true := by
  constructor
  · rintro ⟨c, r, h1, h2, _⟩; exact ⟨c, r, h1, h2⟩
  · rintro ⟨x, r, rfl, hx⟩
    rcases h with ⟨h, _⟩ | ⟨c, h1, h2, _⟩
    · exact h
    · injection h1 with h1 _; subst h1; rw [hx] at h2; cases h2

/-- The state after chunks whose last is a letter command, and only then. -/
theorem run_endLetter {a : List Chunk} (hc : ∀ l v, .mk l v ∈ a → NodeCanon v) :
    (After.plain.run a = .bare ↔ ∃ i l x r, a = i ++ [.mk l (.command (.mk (x :: r) []))] ∧ isAsciiAlphabetic x = true) ∧
    (After.plain.run a = .withArgs ↔ ∃ i l x r args, a = i ++ [.mk l (.command (.mk (x :: r) args))] ∧ isAsciiAlphabetic x = true ∧ args ≠ []) := by
  rcases List.eq_nil_or_concat a with rfl | ⟨i, ⟨l, v⟩, rfl⟩
  · constructor <;> constructor
    · intro h; cases h
    · rintro ⟨i, _, _, _, h, _⟩; simp at h
    · intro h; cases h
    · rintro ⟨i, _, _, _, _, h, _⟩; simp at h
  · rw [List.concat_eq_append, after_run_snoc]
    have hv := hc l v (by simp)
    cases v with
    | text t =>
      have : ∀ A : After, A.next (.text t) = .blank ∨ A.next (.text t) = .text := by
        intro A; simp only [After.next]; split <;> simp
      constructor <;> constructor
      · intro h; rcases this (After.plain.run i) with h' | h' <;> rw [h'] at h <;> cases h
      · rintro ⟨_, _, _, _, h, _⟩; have := List.append_inj_right' h rfl; simp at this
      · intro h; rcases this (After.plain.run i) with h' | h' <;> rw [h'] at h <;> cases h
      · rintro ⟨_, _, _, _, _, h, _⟩; have := List.append_inj_right' h rfl; simp at this
    | scope s =>
      constructor <;> constructor
      · intro h; simp [After.next] at h
      · rintro ⟨_, _, _, _, h, _⟩; have := List.append_inj_right' h rfl; simp at this
      · intro h; simp [After.next] at h
      · rintro ⟨_, _, _, _, _, h, _⟩; have := List.append_inj_right' h rfl; simp at this
    | command cm =>
      obtain ⟨label, args⟩ := cm
      have hl := letterName_iff hv
      simp only [After.next]
      constructor <;> constructor
      · intro h
        split at h
        · rename_i h1
          obtain ⟨x, r, rfl, hx⟩ := hl.1 h1
          split at h
          · rename_i h2; subst h2; exact ⟨i, l, x, r, rfl, hx⟩
          · cases h
        · cases h
      · rintro ⟨_, _, x, r, h, hx⟩
        have := List.append_inj_right' h rfl
        simp at this
        obtain ⟨_, rfl, rfl⟩ := this
        rw [if_pos (hl.2 ⟨x, r, rfl, hx⟩), if_pos rfl]
      · intro h
        split at h
        · rename_i h1
          obtain ⟨x, r, rfl, hx⟩ := hl.1 h1
          split at h
          · cases h
          · rename_i h2; exact ⟨i, l, x, r, args, rfl, hx, h2⟩
        · cases h
      · rintro ⟨_, _, x, r, args', h, hx, ha⟩
        have := List.append_inj_right' h rfl
        simp at this
        obtain ⟨_, rfl, rfl⟩ := this
        rw [if_pos (hl.2 ⟨x, r, rfl, hx⟩), if_neg ha]

theorem run_endCommand {a : List Chunk} (hc : ∀ l v, .mk l v ∈ a → NodeCanon v) :
    (After.plain.run a = .bare ∨ After.plain.run a = .withArgs) ↔ EndsWithLetterCommand a := by
  obtain ⟨h1, h2⟩ := run_endLetter hc
  rw [h1, h2]
  constructor
  · rintro (⟨i, l, x, r, h, hx⟩ | ⟨i, l, x, r, args, h, hx, _⟩)
    · exact ⟨i, l, x, r, [], h, hx⟩
    · exact ⟨i, l, x, r, args, h, hx⟩
  · rintro ⟨i, l, x, r, args, h, hx⟩
    by_cases ha : args = []
    · subst ha; exact .inl ⟨i, l, x, r, h, hx⟩
    · exact .inr ⟨i, l, x, r, args, h, hx, ha⟩

theorem run_endText {i : List Chunk} {l t} (hc : ∀ l v, .mk l v ∈ i → NodeCanon v) :
    (After.plain.run (i ++ [.mk l (.text t)]) = .blank ∧ EndsWithLetterCommand i ∧ Blank t) ∨
    (After.plain.run (i ++ [.mk l (.text t)]) = .text ∧ ¬ (EndsWithLetterCommand i ∧ Blank t)) := by
  rw [after_run_snoc, ← run_endCommand hc]
  simp only [After.next]
  split
  · rename_i h; exact .inl ⟨rfl, h⟩
  · rename_i h; exact .inr ⟨rfl, h⟩

/-- The chunk is not a scope or a command that would be taken for an argument. -/
def Apart (v : ChunkVariant) : Prop :=
  (∀ sc, v ≠ .scope sc) ∧ ∀ y args, v = .command (.mk [y] args) → isWhitespace y = false ∧ y ∉ ['{', '[', '(']

theorem fits_apart {A : After} {v : ChunkVariant} (hA : A = .bare ∨ A = .withArgs ∨ A = .blank) (hv : NodeCanon v) (ht : ∀ t, v ≠ .text t) :
    Fits A v ↔ Apart v := by
  cases v with
  | text t => exact absurd rfl (ht t)
  | scope s =>
    constructor
    · intro h; rcases hA with rfl | rfl | rfl <;> simp [Fits] at h
    · intro h; exact absurd rfl (h.1 s)
  | command c =>
    obtain ⟨label, args⟩ := c
    have hl := letterName_iff hv
    have : Fits A (.command (.mk label args)) ↔ LetterName label ∨ ∀ c ∈ label, SymbolAfterCommand c := by
      rcases hA with rfl | rfl | rfl <;> simp [Fits]
    rw [this]
    constructor
    · rintro (h | h)
      · obtain ⟨x, r, rfl, hx, hr⟩ := h
        refine ⟨(fun _ h => by cases h), fun y args' h => ?_⟩
        injection h with h; injection h with h1 h2; injection h1 with h1 h3
        subst h1
        exact ⟨alpha_not_ws hx, by intro hm; simp at hm; rcases hm with rfl | rfl | rfl <;> simp [isAsciiAlphabetic] at hx⟩
      · refine ⟨(fun _ h => by cases h), fun y args' h' => ?_⟩
        injection h' with h'; injection h' with h1 h2
        subst h1
        exact h y (by simp)
    · intro h
      rcases hv with ⟨h1, _⟩ | ⟨c, rfl, _, _⟩
      · exact .inl h1
      · refine .inr fun c' hc' => ?_
        rw [List.mem_singleton] at hc'; subst hc'
        exact h.2 _ _ rfl

theorem apart_text {t} : Apart (.text t) := ⟨(fun _ h => by cases h), fun _ _ h => by cases h⟩

theorem fits_text {v : ChunkVariant} (ht : ∀ t, v ≠ .text t) : Fits .text v := by
  cases v with
  | text t => exact absurd rfl (ht t)
  | scope s => exact .inr rfl
  | command c => obtain ⟨label, args⟩ := c; exact .inr (.inr (.inl rfl))

theorem fits_plain {v : ChunkVariant} : Fits .plain v := by
  cases v with
  | text t => trivial
  | scope s => exact .inl rfl
  | command c => obtain ⟨label, args⟩ := c; exact .inr (.inl rfl)

theorem next_of_not_text {A B : After} {v : ChunkVariant} (ht : ∀ t, v ≠ .text t) : A.next v = B.next v := by
  cases v with
  | text t => exact absurd rfl (ht t)
  | scope s => rfl
  | command c => obtain ⟨label, args⟩ := c; rfl

theorem next_text_cases (A : After) (t : Str) :
    (A.next (.text t) = .blank ∧ (A = .bare ∨ A = .withArgs) ∧ Blank t) ∨ (A.next (.text t) = .text ∧ ¬ ((A = .bare ∨ A = .withArgs) ∧ Blank t)) := by
  simp only [After.next]
  split
  · rename_i h; exact .inl ⟨rfl, h⟩
  · rename_i h; exact .inr ⟨rfl, h⟩

/-- When a sequence that can be printed on its own can be printed after something. -/
theorem fitting_from {A : After} {b : List Chunk} (hc : ∀ l v, .mk l v ∈ b → NodeCanon v) (hb : Fitting .plain b) :
    Fitting A b ↔
      ((A = .text ∨ A = .blank) → ∀ l t r, b ≠ .mk l (.text t) :: r) ∧
      (A = .bare → ∀ l t r, b = .mk l (.text t) :: r → ∃ y z, t = y :: z ∧ isWhitespace y = true) ∧
      (A = .withArgs → ∀ l t r, b = .mk l (.text t) :: r → ∀ y z, t = y :: z → y ∉ ['}', ']', ')']) ∧
      ((A = .bare ∨ A = .withArgs ∨ A = .blank) → ∀ l v r, b = .mk l v :: r → Apart v) ∧
      ((A = .bare ∨ A = .withArgs) → ∀ l t l' v r, b = .mk l (.text t) :: .mk l' v :: r → Blank t → Apart v) := by
  match b with
  | [] => simp [Fitting]
  | .mk l v :: r =>
    by_cases ht : ∃ t, v = .text t
    · obtain ⟨t, rfl⟩ := ht
      have hp : After.plain.next (.text t) = .text := by simp [After.next]
      simp only [Fitting, hp] at hb
      have hr : Fitting (A.next (.text t)) r ↔ ((A = .bare ∨ A = .withArgs) → ∀ l' v r', r = .mk l' v :: r' → Blank t → Apart v) := by
        rcases next_text_cases A t with ⟨h1, h2, h3⟩ | ⟨h1, h2⟩
        · rw [h1]
          match r with
          | [] => simp [Fitting]
          | .mk l' v :: r' =>
            have hnt : ∀ t', v ≠ .text t' := by
              rintro t' rfl; exact hb.2.1
            simp only [Fitting] at hb ⊢
            rw [fits_apart (.inr (.inr rfl)) (hc l' v (by simp)) hnt, next_of_not_text (A := .blank) (B := .text) hnt]
            constructor
            · rintro ⟨h4, _⟩ _ l'' v'' r'' he _
              injection he with he _; injection he with _ he; subst he; exact h4
            · intro h; exact ⟨h h2 l' v r' rfl h3, hb.2.2⟩
        · rw [h1]
          constructor
          · rintro _ hA l' v r' _ hbl; exact absurd ⟨hA, hbl⟩ h2
          · intro _; exact hb.2
      simp only [Fitting, hr]
      constructor
      · rintro ⟨h1, h2⟩
        refine ⟨?_, ?_, ?_, ?_, ?_⟩
        · rintro (rfl | rfl) <;> exact absurd h1 (by simp [Fits])
        · rintro rfl l' t' r' he
          injection he with he _; injection he with _ he; injection he with he; subst he; exact h1
        · rintro rfl l' t' r' he
          injection he with he _; injection he with _ he; injection he with he; subst he; exact h1
        · rintro _ l' v' r' he
          injection he with he _; injection he with _ he; subst he; exact apart_text
        · intro hA l1 t1 l2 v2 r2 he hbl
          injection he with he h3; injection he with _ he; injection he with he; subst he
          exact h2 hA l2 v2 r2 h3 hbl
      · rintro ⟨h1, h2, h3, h4, h5⟩
        refine ⟨?_, fun hA l' v r' he hbl => h5 hA l t l' v r' (by rw [he]) hbl⟩
        cases A with
        | plain => trivial
        | text => exact absurd rfl (h1 (.inl rfl) l t r)
        | blank => exact absurd rfl (h1 (.inr rfl) l t r)
        | bare => exact h2 rfl l t r rfl
        | withArgs => exact h3 rfl l t r rfl
    · have hnt : ∀ t, v ≠ .text t := fun t h => ht ⟨t, h⟩
      simp only [Fitting] at hb ⊢
      rw [next_of_not_text (A := A) (B := .plain) hnt]
      constructor
      · rintro ⟨h1, _⟩
        refine ⟨?_, ?_, ?_, ?_, ?_⟩
        · rintro _ l' t' r' he; injection he with he _; injection he with _ he; exact hnt _ he
        · rintro _ l' t' r' he; injection he with he _; injection he with _ he; exact absurd he (hnt _)
        · rintro _ l' t' r' he; injection he with he _; injection he with _ he; exact absurd he (hnt _)
        · rintro hA l' v' r' he
          injection he with he _; injection he with _ he; subst he
          exact (fits_apart hA (hc l v (by simp)) hnt).1 h1
        · intro _ l1 t1 l2 v2 r2 he _; injection he with he _; injection he with _ he; exact absurd he (hnt _)
      · rintro ⟨h1, h2, h3, h4, h5⟩
        refine ⟨?_, hb.2⟩
        cases A with
        | plain => exact fits_plain
        | text => exact fits_text hnt
        | blank => exact (fits_apart (.inr (.inr rfl)) (hc l v (by simp)) hnt).2 (h4 (.inr (.inr rfl)) l v r rfl)
        | bare => exact (fits_apart (.inl rfl) (hc l v (by simp)) hnt).2 (h4 (.inl rfl) l v r rfl)
        | withArgs => exact (fits_apart (.inr (.inl rfl)) (hc l v (by simp)) hnt).2 (h4 (.inr (.inl rfl)) l v r rfl)

/-- What can be printed after something can be printed on its own. -/
theorem fitting_plain {A : After} {b : List Chunk} (hc : ∀ l v, .mk l v ∈ b → NodeCanon v) (h : Fitting A b) : Fitting .plain b := by
  match b with
  | [] => trivial
  | .mk l v :: r =>
    refine ⟨fits_plain, ?_⟩
    have h2 := h.2
    by_cases ht : ∃ t, v = .text t
    · obtain ⟨t, rfl⟩ := ht
      have hp : After.plain.next (.text t) = .text := by simp [After.next]
      rw [hp]
      rcases next_text_cases A t with ⟨h1, _, _⟩ | ⟨h1, _⟩
      · rw [h1] at h2
        match r with
        | [] => trivial
        | .mk l' v :: r' =>
          have hnt : ∀ t', v ≠ .text t' := by
            rintro t' rfl; exact h2.1
          refine ⟨fits_text hnt, ?_⟩
          rw [next_of_not_text (A := .text) (B := .blank) hnt]; exact h2.2
      · rw [h1] at h2; exact h2
    · have hnt : ∀ t, v ≠ .text t := fun t h => ht ⟨t, h⟩
      rw [next_of_not_text (A := .plain) (B := A) hnt]; exact h2

/-- The last chunk decides. -/
theorem run_joins {a b : List Chunk} (ha : ∀ l v, .mk l v ∈ a → NodeCanon v) (hb : ∀ l v, .mk l v ∈ b → NodeCanon v) (hf : Fitting .plain b) :
    Fitting (After.plain.run a) b ↔ Joins a b := by
  rw [fitting_from hb hf]
  have hL := run_endLetter ha
  have hC := run_endCommand ha
  have hT : (After.plain.run a = .text ∨ After.plain.run a = .blank) ↔ ∃ i l t, a = i ++ [.mk l (.text t)] := by
    constructor
    · intro h
      rcases List.eq_nil_or_concat a with rfl | ⟨i, ⟨l, v⟩, rfl⟩
      · rcases h with h | h <;> cases h
      · by_cases hv : ∃ t, v = .text t
        · obtain ⟨t, rfl⟩ := hv; exact ⟨i, l, t, by simp⟩
        · rw [List.concat_eq_append, after_run_snoc] at h
          cases v with
          | text t => exact absurd ⟨t, rfl⟩ hv
          | scope s => rcases h with h | h <;> cases h
          | command c =>
            obtain ⟨label, args⟩ := c
            simp only [After.next] at h
            split at h
            · split at h <;> rcases h with h | h <;> cases h
            · rcases h with h | h <;> cases h
    · rintro ⟨i, l, t, rfl⟩
      rw [after_run_snoc]
      rcases next_text_cases (After.plain.run i) t with ⟨h, _⟩ | ⟨h, _⟩
      · exact .inr h
      · exact .inl h
  have hB : After.plain.run a = .blank ↔ ∃ i l t, a = i ++ [.mk l (.text t)] ∧ EndsWithLetterCommand i ∧ Blank t := by
    constructor
    · intro h
      obtain ⟨i, l, t, rfl⟩ := hT.1 (.inr h)
      rcases run_endText (l := l) (t := t) (i := i) (fun l' v' h' => ha l' v' (List.mem_append_left _ h')) with ⟨_, h2⟩ | ⟨h1, _⟩
      · exact ⟨i, l, t, rfl, h2⟩
      · rw [h] at h1; cases h1
    · rintro ⟨i, l, t, rfl, h1, h2⟩
      rcases run_endText (l := l) (t := t) (i := i) (fun l' v' h' => ha l' v' (List.mem_append_left _ h')) with ⟨h, _⟩ | ⟨_, h⟩
      · exact h
      · exact absurd ⟨h1, h2⟩ h
  constructor
  · rintro ⟨h1, h2, h3, h4, h5⟩
    refine ⟨?_, ?_, ?_⟩
    · intro i l t l' t' r he; exact h1 (hT.2 ⟨i, l, t, he⟩) l' t' r
    · intro i l x name args l' t r he hx hb'
      constructor
      · rintro rfl; exact h2 (hL.1.2 ⟨i, l, x, name, he, hx⟩) l' t r hb'
      · intro hn; exact h3 (hL.2.2 ⟨i, l, x, name, args, he, hx, hn⟩) l' t r hb'
    · rintro i w w' l v r rfl he hi hw
      show Apart v
      rcases hw with hw | ⟨l0, t0, hw, hbl⟩
      · obtain ⟨rfl, rfl⟩ := List.append_eq_nil_iff.1 hw
        rw [List.append_nil] at *
        refine h4 ?_ l v r he
        rcases hC.2 hi with h | h <;> simp [h]
      · rcases List.append_eq_singleton_iff.1 hw with ⟨rfl, rfl⟩ | ⟨rfl, rfl⟩
        · rw [List.append_nil] at *
          exact h5 (hC.2 hi) l0 t0 l v r he hbl
        · exact h4 (.inr (.inr (hB.2 ⟨i, l0, t0, rfl, hi, hbl⟩))) l v r he
  · rintro ⟨h1, h2, h3⟩
    refine ⟨?_, ?_, ?_, ?_, ?_⟩
    · intro h l t r; obtain ⟨i, l', t', he⟩ := hT.1 h; exact h1 i l' t' l t r he
    · intro h l t r hb'; obtain ⟨i, l', x, name, he, hx⟩ := hL.1.1 h
      exact (h2 i l' x name [] l t r he hx hb').1 rfl
    · intro h l t r hb'; obtain ⟨i, l', x, name, args, he, hx, hn⟩ := hL.2.1 h
      exact (h2 i l' x name args l t r he hx hb').2 hn
    · intro h l v r hb'
      have : EndsWithLetterCommand a ∨ After.plain.run a = .blank := by
        rcases h with h | h | h
        · exact .inl (hC.1 (.inl h))
        · exact .inl (hC.1 (.inr h))
        · exact .inr h
      rcases this with h | h
      · exact h3 a [] [] l v r (by simp) hb' h (.inl rfl)
      · obtain ⟨i, l0, t0, he, hi, hbl⟩ := hB.1 h
        exact h3 i _ [] l v r he hb' hi (.inr ⟨l0, t0, rfl, hbl⟩)
    · intro h l t l' v r hb' hbl
      exact h3 a [] [.mk l (.text t)] l' v r (by simp) hb' (hC.1 h) (.inr ⟨l, t, rfl, hbl⟩)

theorem printable_append {a b : List Chunk} : Printable (a ++ b) ↔ Printable a ∧ Printable b ∧ Joins a b := by
  constructor
  · rintro ⟨h1, h2⟩
    have ha : ∀ l v, .mk l v ∈ a → NodeCanon v := fun l v h => h2 l v (List.mem_append_left _ h)
    have hb : ∀ l v, .mk l v ∈ b → NodeCanon v := fun l v h => h2 l v (List.mem_append_right _ h)
    rw [fitting_append] at h1
    have hf := fitting_plain hb h1.2
    exact ⟨⟨h1.1, ha⟩, ⟨hf, hb⟩, (run_joins ha hb hf).1 h1.2⟩
  · rintro ⟨⟨h1, h2⟩, ⟨h3, h4⟩, h5⟩
    refine ⟨fitting_append.2 ⟨h1, (run_joins h2 h4 h3).2 h5⟩, fun l v h => ?_⟩
    rcases List.mem_append.1 h with h | h
    · exact h2 l v h
    · exact h4 l v h

theorem good_append {a b : List Chunk} : Good (a ++ b) ↔ Good a ∧ Good b ∧ Joins a b := by
  rw [good_iff, good_iff (d := a), good_iff (d := b), printable_append]
  simp only [List.mem_append]
  constructor
  · rintro ⟨⟨h1, h2, h3⟩, h4, h5⟩
    exact ⟨⟨h1, fun l i sv h => h4 l i sv (.inl h), fun l la ar p i sv h => h5 l la ar p i sv (.inl h)⟩,
      ⟨h2, fun l i sv h => h4 l i sv (.inr h), fun l la ar p i sv h => h5 l la ar p i sv (.inr h)⟩, h3⟩
  · rintro ⟨⟨h1, h2, h3⟩, ⟨h4, h5, h6⟩, h7⟩
    exact ⟨⟨h1, h4, h7⟩, fun l i sv h => h.elim (h2 l i sv) (h5 l i sv), fun l la ar p i sv h => h.elim (h3 l la ar p i sv) (h6 l la ar p i sv)⟩

end LatexAst.Ast1

import Verif.Proofs.Document3
import Verif.Spec.Valid

/-!
# `\documentclass` options
-/

namespace LatexAst.Ast3
open Spec

theorem splitComma_spec (s : Str) : splitComma s ≠ [] ∧ [','].intercalate (splitComma s) = s ∧
    ∀ p ∈ splitComma s, ',' ∉ p := by
  induction s with
  | nil => simp [splitComma, List.intercalate]
  | cons c s ih =>
    obtain ⟨h1, h2, h3⟩ := ih
    unfold splitComma
    by_cases hc : c = ','
    · rw [if_pos hc]
      subst hc
      cases hs : splitComma s with
      | nil => exact absurd hs h1
      | cons p ps =>
        rw [hs] at h2 h3
        refine ⟨by simp, ?_, ?_⟩
        · rw [← h2]; simp [List.intercalate, List.intersperse]
        · intro q hq
          rcases List.mem_cons.1 hq with rfl | hq
          · simp
          · exact h3 q hq
    · rw [if_neg hc]
      cases hs : splitComma s with
      | nil => exact absurd hs h1
      | cons p ps =>
        rw [hs] at h2 h3
        refine ⟨by simp, ?_, ?_⟩
        · cases ps with
          | nil => simp [List.intercalate] at h2 ⊢; exact h2
          | cons q qs => simp [List.intercalate, List.intersperse] at h2 ⊢; exact h2
        · intro q hq
          rcases List.mem_cons.1 hq with rfl | hq
          · have := h3 p (by simp)
            simp [this, Ne.symm hc]
          · exact h3 q (by simp [hq])

/-- The cutting at commas is unique. -/
theorem splitComma_unique {ps : List Str} (h : ps ≠ []) (hc : ∀ p ∈ ps, ',' ∉ p) :
    splitComma ([','].intercalate ps) = ps := by
  have plain : ∀ p : Str, ',' ∉ p → splitComma p = [p] := by
    intro p
    induction p with
    | nil => intro _; rfl
    | cons c p ih =>
      intro h
      simp only [List.mem_cons, not_or] at h
      simp [splitComma, Ne.symm h.1, ih h.2]
  have cons : ∀ p r : Str, ',' ∉ p → splitComma (p ++ ',' :: r) = p :: splitComma r := by
    intro p r
    induction p with
    | nil => intro _; simp [splitComma]
    | cons c p ih =>
      intro h
      simp only [List.mem_cons, not_or] at h
      simp [splitComma, Ne.symm h.1, ih h.2]
  induction ps with
  | nil => exact absurd rfl h
  | cons p ps ih =>
    cases ps with
    | nil => simp [List.intercalate, plain p (hc p (by simp))]
    | cons q qs =>
      have := ih (by simp) (fun p hp => hc p (by simp [hp]))
      rw [show [','].intercalate (p :: q :: qs) = p ++ ',' :: [','].intercalate (q :: qs) by
        simp [List.intercalate, List.intersperse]]
      rw [cons p _ (hc p (by simp)), this]

/-- The string does not end in whitespace. -/
def NoTrailingBlank (s : Str) : Prop := ∀ a c, s = a ++ [c] → isWhitespace c = false

theorem noTrailing_nil : NoTrailingBlank [] := by intro a c h; simp at h

theorem noTrailing_snoc {s : Str} {c : Char} (h : isWhitespace c = false) : NoTrailingBlank (s ++ [c]) := by
  intro a d h'
  have := List.append_inj' h' rfl
  simp at this
  rw [← this.2]; exact h

theorem optRun_blank (w : Str) (hw : Blank w) : ∀ p a b, optRun w ⟨p, a, b, .prec⟩ = ⟨p, a, b ++ w, .prec⟩ := by
  induction w with
  | nil => intro p a b; simp [optRun]
  | cons c w ih =>
    intro p a b
    have h1 : isWhitespace c = true := hw c (by simp)
    rw [optRun, optStep]
    simp only [h1, if_true]
    rw [ih fun c hc => hw c (by simp [hc])]
    simp

theorem optRun_append (a b : Str) (s : OptState) : optRun (a ++ b) s = optRun b (optRun a s) := by
  induction a generalizing s with
  | nil => rfl
  | cons c a ih => exact ih _

/-- After the first character that is not blank. -/
structure AfterFirst (w done : Str) (s : OptState) : Prop where
  prec : s.prec = w
  all : s.arg ++ s.buffer = done
  blank : Blank s.buffer
  trim : NoTrailingBlank s.arg
  mode : (s.mode = .arg ∧ s.buffer = []) ∨ s.mode = .potentialPost

theorem optStep_after {w done s} (h : AfterFirst w done s) (c : Char) : AfterFirst w (done ++ [c]) (optStep s c) := by
  obtain ⟨pr, ar, bu, mo⟩ := s
  obtain ⟨h1, h2, h3, h4, h5⟩ := h
  simp only at h1 h2 h3 h4 h5
  rcases h5 with ⟨rfl, rfl⟩ | rfl
  · by_cases hc : isWhitespace c = true
    · simp only [optStep, hc, Bool.true_eq_false, if_false]
      refine ⟨h1, by simp [← h2], ?_, h4, .inr rfl⟩
      intro x hx; simp at hx; subst hx; exact hc
    · have hc : isWhitespace c = false := by simpa using hc
      simp only [optStep, hc, if_true]
      exact ⟨h1, by simp [← h2], h3, noTrailing_snoc hc, .inl ⟨rfl, rfl⟩⟩
  · by_cases hc : isWhitespace c = true
    · simp only [optStep, hc, if_true]
      refine ⟨h1, by simp [← h2], ?_, h4, .inr rfl⟩
      intro x hx; simp at hx
      rcases hx with hx | rfl
      · exact h3 x hx
      · exact hc
    · have hc : isWhitespace c = false := by simpa using hc
      simp only [optStep, hc, Bool.false_eq_true, if_false]
      exact ⟨h1, by simp [← h2], by intro x hx; simp at hx, noTrailing_snoc hc, .inl ⟨rfl, rfl⟩⟩

theorem optRun_after {w done s} (h : AfterFirst w done s) (r : Str) : AfterFirst w (done ++ r) (optRun r s) := by
  induction r generalizing done s with
  | nil => simpa [optRun] using h
  | cons c r ih =>
    have := ih (optStep_after h c)
    simpa [optRun] using this

theorem optRun_dark {w r : Str} {c : Char} (hw : Blank w) (hc : isWhitespace c = false) :
    AfterFirst w r (optRun (w ++ c :: r) ⟨[], [], [], .prec⟩) := by
  rw [optRun_append, optRun_blank w hw, optRun, optStep]
  simp only [hc, Bool.false_eq_true, if_false]
  have := optRun_after (w := w) (done := []) (s := ⟨[] ++ ([] ++ w), [], [], .arg⟩)
    ⟨by simp, rfl, by intro x hx; simp at hx, noTrailing_nil, .inl ⟨rfl, rfl⟩⟩ r
  simpa using this

theorem splitOnceEq_none {s : Str} (h : '=' ∉ s) : splitOnceEq s = none := by
  induction s with
  | nil => rfl
  | cons c s ih =>
    simp only [List.mem_cons, not_or] at h
    simp [splitOnceEq, Ne.symm h.1, ih h.2]

theorem splitOnceEq_some {k v : Str} (h : '=' ∉ k) : splitOnceEq (k ++ '=' :: v) = some (k, v) := by
  induction k with
  | nil => simp [splitOnceEq]
  | cons c k ih =>
    simp only [List.mem_cons, not_or] at h
    simp [splitOnceEq, Ne.symm h.1, ih h.2]

theorem optKey_spec (k : Str) : ∀ key buf, Blank buf → NoTrailingBlank key →
    (optKey k (key, buf)).1 ++ (optKey k (key, buf)).2 = key ++ buf ++ k ∧ Blank (optKey k (key, buf)).2 ∧
      NoTrailingBlank (optKey k (key, buf)).1 := by
  induction k with
  | nil => intro key buf hb hn; simp [optKey, hb, hn]
  | cons c k ih =>
    intro key buf hb hn
    rw [optKey]
    by_cases hc : isWhitespace c = true
    · rw [if_pos hc]
      have := ih key (buf ++ [c]) (by intro x hx; simp at hx; exact hx.elim (hb x) (fun h => h ▸ hc)) hn
      simpa using this
    · rw [if_neg hc]
      have hc : isWhitespace c = false := by simpa using hc
      have := ih (key ++ buf ++ [c]) [] (by intro x hx; simp at hx) (noTrailing_snoc hc)
      simpa using this

theorem optVal_spec (k : Str) : ∀ post val, optVal k (false, post, val) =
    (false, post ++ k.filter isWhitespace, val ++ k.filter fun c => !isWhitespace c) := by
  induction k with
  | nil => intro post val; simp [optVal]
  | cons c k ih =>
    intro post val
    rw [optVal]
    by_cases hc : isWhitespace c = true
    · rw [if_pos ⟨hc, rfl⟩, ih]; simp [hc]
    · rw [if_neg (by simp [hc])]
      simp only [Bool.false_eq_true, if_false]
      rw [ih]; simp [hc]

theorem parseOption_blank {w : Str} (hw : Blank w) : parseOption w = ([], [], none, w) := by
  unfold parseOption
  rw [optRun_blank w hw]
  rfl

/-- An option `w c a b` with blanks `w`, `b`. -/
theorem parseOption_dark {w a b : Str} {c : Char} (hw : Blank w) (hc : isWhitespace c = false) (hb : Blank b)
    (ha : NoTrailingBlank a) :
    ('=' ∉ a → parseOption (w ++ c :: (a ++ b)) = (w, a, none, b)) ∧
    (∀ k e v, a = k ++ e ++ '=' :: v → '=' ∉ k ++ e → Blank e → NoTrailingBlank k →
      parseOption (w ++ c :: (a ++ b)) =
        (w, k, some (e, (k ++ e).filter isWhitespace, (k ++ e).filter fun c => !isWhitespace c), b)) := by
  have uniq : ∀ {x y x' y' : Str}, x ++ y = x' ++ y' → Blank y → Blank y' → NoTrailingBlank x → NoTrailingBlank x' →
      x = x' ∧ y = y' := by
    intro x y x' y' h hy hy' hx hx'
    rcases List.append_eq_append_iff.1 h with ⟨m, h1, h2⟩ | ⟨m, h1, h2⟩
    · rcases List.eq_nil_or_concat m with rfl | ⟨m, d, rfl⟩
      · simp at h1 h2; exact ⟨h1.symm, h2⟩
      · have e1 := hx' (x ++ m) d (by rw [h1]; simp)
        have e2 := hy d (by rw [h2]; simp)
        rw [e1] at e2; cases e2
    · rcases List.eq_nil_or_concat m with rfl | ⟨m, d, rfl⟩
      · simp at h1 h2; exact ⟨h1, h2.symm⟩
      · have e1 := hx (x' ++ m) d (by rw [h1]; simp)
        have e2 := hy' d (by rw [h2]; simp)
        rw [e1] at e2; cases e2
  have hA := optRun_dark (r := a ++ b) hw hc
  rcases hs : optRun (w ++ c :: (a ++ b)) ⟨[], [], [], .prec⟩ with ⟨pr, ar, bu, mo⟩
  rw [hs] at hA
  obtain ⟨h1, h2, h3, h4, _⟩ := hA
  simp only at h1 h2 h3 h4
  obtain ⟨rfl, rfl⟩ := uniq h2 h3 hb h4 ha
  subst h1
  constructor
  · intro he
    unfold parseOption
    rw [hs]
    simp only [splitOnceEq_none he]
  · intro k e v hk hke heb hkt
    unfold parseOption
    rw [hs]
    simp only [hk, splitOnceEq_some hke]
    obtain ⟨g1, g2, g3⟩ := optKey_spec (k ++ e) [] [] (by intro x hx; simp at hx) noTrailing_nil
    obtain ⟨i1, i2⟩ := uniq (by simpa using g1) g2 heb g3 hkt
    rw [optVal_spec, i1, i2]
    simp

/-- Every option is of one of these forms. -/
theorem option_cases (o : Str) : Blank o ∨ ∃ w c a b, o = w ++ c :: (a ++ b) ∧ Blank w ∧ isWhitespace c = false ∧
    Blank b ∧ NoTrailingBlank a := by
  have trim : ∀ r : Str, ∃ a b, r = a ++ b ∧ Blank b ∧ NoTrailingBlank a := by
    intro r
    have := optKey_spec r [] [] (by intro x hx; simp at hx) noTrailing_nil
    exact ⟨_, _, by simpa using this.1.symm, this.2⟩
  induction o with
  | nil => exact .inl (by intro x hx; simp at hx)
  | cons d o ih =>
    by_cases hd : isWhitespace d = true
    · rcases ih with h | ⟨w, c, a, b, rfl, hw, hc, hb, ha⟩
      · left; intro x hx; simp at hx; exact hx.elim (fun h => h ▸ hd) (h x)
      · refine .inr ⟨d :: w, c, a, b, by simp, ?_, hc, hb, ha⟩
        intro x hx; simp at hx; exact hx.elim (fun h => h ▸ hd) (hw x)
    · obtain ⟨a, b, rfl, hb, ha⟩ := trim o
      exact .inr ⟨[], d, a, b, rfl, by intro x hx; simp at hx, by simpa using hd, hb, ha⟩

end LatexAst.Ast3

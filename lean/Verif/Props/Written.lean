import Verif.Proofs.Written
import Verif.Model.Fidelity
import Verif.Model.Eq2

/-!
# C71: print/parse round trip of stage-2 documents, exactly

`Canonical` is in `Spec/Written.lean`; `Ast1.Verbatim` in `Spec/Verbatim.lean`.
-/

namespace LatexAst.Ast2

/-- C71: a stage-2 document, however it was made, is read back from its printed form if and only if it is canonical. -/
theorem C71 (e : Document) : fromStr (displayChunks e) = .ok e ↔ Canonical e := by
  rw [canonical_iff]
  constructor
  · intro h
    obtain ⟨d, hd, ht⟩ := fromStr_parts h
    have hp := hd
    rw [display_tryFrom ht] at hd
    exact ⟨d, (Ast1.C03_exact d).1 hd, ((C53_parsed _ d hp).1 e).1 h⟩
  · rintro ⟨d, hd, hc⟩
    have hp := Ast1.C03 d hd
    have h := ((C53_parsed _ d hp).1 e).2 hc
    obtain ⟨d', hd', ht⟩ := fromStr_parts h
    rw [hp] at hd'
    cases hd'
    rw [display_tryFrom ht]
    exact h

/-- C71: hence printing is injective on canonical documents. -/
theorem C71_injective (e f : Document) (he : Canonical e) (hf : Canonical f) (h : displayChunks e = displayChunks f) : e = f := by
  have h1 := (C71 e).2 he
  rw [h, (C71 f).2 hf] at h1
  injection h1 with h1
  exact h1.symm

/-- C71: a canonical document, written out, prints the same and is what stage 1 reads. -/
theorem C71_written (e : Document) (he : Canonical e) :
    Ast1.fromStr (displayChunks e) = .ok (writtenOut e) ∧ Ast1.displayChunks (writtenOut e) = displayChunks e ∧
    tryFrom (writtenOut e) = .ok e := by
  have h := (C71 e).2 he
  obtain ⟨d, hd, ht⟩ := fromStr_parts h
  have hp := hd
  have hdd := display_tryFrom ht
  rw [hdd] at hd
  have hc := (Ast1.C03_exact d).1 hd
  have hcv := ((C53_parsed _ d hp).1 e).1 h
  obtain ⟨h1, _, _⟩ := from_converts hcv 1 (Nat.le_refl _) (wn_of_canonical hc) (subC_of_canonical hc) e rfl
  rw [h1]
  exact ⟨hp, hdd.symm, ht⟩

/-- C71 for parsed documents: what stage 2 reads is read back from its printed form if no free scope lies inside a curly
argument and no text of a free scope contains `}`. -/
theorem C71_parsed (s : Str) (d : Ast1.Document) (e : Document) (hd : Ast1.fromStr s = .ok d) (he : fromStr s = .ok e)
    (h1 : Ast1.NoScopeInCurlyArgument d) (h2 : Ast1.NoCloserInScope d) : fromStr (displayChunks e) = .ok e := by
  obtain ⟨d', hd', ht⟩ := fromStr_parts he
  rw [hd] at hd'
  cases hd'
  have := (Ast1.C14_exact_partial s d hd).2 ⟨h1, h2⟩
  rw [display_tryFrom ht]
  simp only [fromStr, this]
  exact ht

/-- C71, from the source: what stage 2 accepts is printed back with nothing removed if and only if it is `Verbatim`. -/
theorem C71_source (s : Str) (e : Document) (he : fromStr s = .ok e) : displayChunks e = s ↔ Ast1.Verbatim s := by
  obtain ⟨d, hd, ht⟩ := fromStr_parts he
  rw [display_tryFrom ht]
  exact Ast1.C01_same_partial s d hd

/-- The hypothesis of C71 is met by nested environments with arguments. -/
theorem C71_example : Canonical Fidelity.basicAst2 := (C71 _).1 (by decide +kernel)

/-- A label that contains a command with an argument, an environment inside an argument, and a `\begin` that spans three
lines (so that its environment is on line 3). -/
def writtenExample : Document :=
  [.mk 3 (.environment (.mk chars!"a\\b[c]"
    [(chars!"\n", .mk [.mk 1 (.environment (.mk chars!"x" [] [.mk 1 (.text chars!"t\n")] [] []))] .square)]
    [.mk 1 (.text chars!"u\nv"), .mk 2 (.environment (.mk chars!"y" [] [] chars!" " []))] [] chars!"  ")),
   .mk 4 (.text chars!"\nw")]

theorem C71_example2 : Canonical writtenExample ∧ displayChunks writtenExample =
    chars!"\\begin{a\\b[c]}\n[\\begin{x}t\n\\end{x}]u\nv\\begin {y}\\end{y}\\end  {a\\b[c]}\nw" :=
  ⟨(C71 _).1 (by decide +kernel), by decide +kernel⟩

/-- Not canonical: an environment on line 1 whose `\begin` spans two lines; a `\begin` command; an unreadable label. -/
example : ¬ Canonical [.mk 1 (.environment (.mk chars!"a" [] [] chars!"\n" []))] := fun h =>
  absurd ((C71 _).2 h) (by decide +kernel)
example : ¬ Canonical [.mk 1 (.command (.mk chars!"begin" [([], .mk [.mk 1 (.text chars!"a")] .curly)]))] := fun h =>
  (h.noDelimiters _ _ (.here (List.mem_singleton.2 rfl))).1 rfl
example : ¬ Canonical [.mk 1 (.environment (.mk chars!"{" [] [] [] []))] := fun h => by
  obtain ⟨lab, h1, _⟩ := h.labels _ _ _ _ _ (.here (List.mem_singleton.2 rfl))
  have : Ast1.fromStr chars!"{" ≠ .ok lab := by
    intro h
    have h2 : (Ast1.fromStr chars!"{").isOk = false := by decide +kernel
    rw [h] at h2
    cases h2
  exact this h1

/-- Without the hypotheses of `C71_parsed` the printed form may be read differently: `\foo{[b]}` in an environment. -/
theorem C71_unconditional_false : ∃ s e e', fromStr s = .ok e ∧ fromStr (displayChunks e) = .ok e' ∧ e' ≠ e :=
  ⟨chars!"\\begin{a}\\foo{[b]}\\end{a}",
    [.mk 1 (.environment (.mk chars!"a" [] [.mk 1 (.command (.mk chars!"foo"
      [([], .mk [.mk 1 (.scope (.mk [.mk 1 (.text chars!"b")] .curly))] .curly)]))] [] []))],
    [.mk 1 (.environment (.mk chars!"a" [] [.mk 1 (.command (.mk chars!"foo"
      [([], .mk [.mk 1 (.text chars!"b")] .curly)]))] [] []))],
    by decide +kernel, by decide +kernel, by decide +kernel⟩

end LatexAst.Ast2

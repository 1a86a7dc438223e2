import Verif.Proofs.Cost1b
import Verif.Props.Depth

/-!
# How long parsing takes (C68)

`fromStrN` is `ast1::Document::from_str` with a counter of its calls, the recursive ones included, and of the
iterations of their loops over the characters (`Model/Cost1.lean`).
-/

namespace LatexAst.Ast1
open Spec

/-- The counting parser is the parser. -/
theorem C68_answer (s : Str) : (fromStrN s).1 = fromStr s := parseFuelN_fst _ _

/-- C68: reading a source that is accepted takes, for every level of the document read from it, at most as many
steps as the source has characters, plus one. -/
theorem C68 (s : Str) (d : Document) (h : fromStr s = .ok d) (n : Nat) (hd : NestedAtMost n d) :
    (fromStrN s).2 ≤ (n + 1) * (s.length + 1) := by
  have h1 := (C67 s d h n).1 hd
  rw [← parseFuelN_fromStrN (n := n + 1) (by rw [h1]; simp)]
  exact parseFuelN_steps _ _

/-- C68, every source, accepted or not: the opening brackets bound the levels. -/
theorem C68_bound (s : Str) : (fromStrN s).2 ≤ (openings s + 1) * (s.length + 1) := by
  have h1 := C67_bound s _ (Nat.le_refl _)
  have h2 : fromStr s ≠ .error .fuel := (fromStr_total s).2
  rw [← parseFuelN_fromStrN (n := openings s + 1) (by rw [h1]; exact h2)]
  exact parseFuelN_steps _ _

/-- C68: an accepted source has been read to its end. -/
theorem C68_least (s : Str) (d : Document) (h : fromStr s = .ok d) : s.length + 1 ≤ (fromStrN s).2 := by
  have key : ∀ rec : Str → Counted (List Chunk), ∀ (cs : Str) st st', (runN rec cs st).1 = .ok st' → cs.length ≤ (runN rec cs st).2 := by
    intro rec cs
    induction cs with
    | nil => intro st st' _; exact Nat.zero_le _
    | cons c cs ih =>
      intro st st' hr
      simp only [runN] at hr ⊢
      cases hs : stepN rec st c with
      | mk r k =>
        rw [hs] at hr
        cases r with
        | error f => cases hr
        | ok s1 =>
          simp only [Counted.andThen] at hr ⊢
          have := ih _ _ hr
          simp only [List.length_cons]
          omega
  rw [← C68_answer] at h
  simp only [fromStrN, parseFuelN] at h ⊢
  cases hs : runN (parseFuelN s.length) s State.init with
  | mk r k =>
    rw [hs] at h
    cases r with
    | error f => cases h
    | ok s1 =>
      have := key _ _ _ s1 (by rw [hs])
      rw [hs] at this
      simp only [Counted.andThen] at this ⊢
      omega

/-- C68: without an opening bracket the time is exactly linear. -/
theorem C68_flat (s : Str) (d : Document) (h : fromStr s = .ok d) (ho : openings s = 0) :
    (fromStrN s).2 = s.length + 1 := by
  have h1 := C68_bound s
  have h2 := C68_least s d h
  rw [ho] at h1
  omega

theorem runN_opens (rec : Str → Counted (List Chunk)) (j : Nat) (rest a : Str) (chunks ln bl d) :
    runN rec (List.replicate j '{' ++ rest) ⟨chunks, ln, false, false, bl, .scope a .curly (d + 1)⟩ =
      ((runN rec rest ⟨chunks, ln, false, false, bl, .scope (a ++ List.replicate j '{') .curly (d + 1 + j)⟩).1,
        j + (runN rec rest ⟨chunks, ln, false, false, bl, .scope (a ++ List.replicate j '{') .curly (d + 1 + j)⟩).2) := by
  induction j generalizing a d with
  | zero => simp
  | succ j ih =>
    rw [List.replicate_succ, List.cons_append]
    simp only [runN]
    have hs : stepN rec ⟨chunks, ln, false, false, bl, .scope a .curly (d + 1)⟩ '{' =
        free (.ok ⟨chunks, ln, false, false, bl, .scope (a ++ ['{']) .curly (d + 2)⟩) := by
      simp [stepN, stepBufferN, stepScopeN, ScopeVariant.opening, Buffer.push, Buffer.pushStr, free, Counted.andThen]
    rw [hs]
    simp only [free, Counted.andThen]
    rw [show d + 2 = (d + 1) + 1 from rfl, ih]
    have e : d + 1 + 1 + j = d + 1 + (j + 1) := by omega
    rw [e]
    simp only [List.append_assoc, List.singleton_append, ← List.replicate_succ]
    refine Prod.ext rfl ?_
    simp only
    omega

theorem runN_closes (rec : Str → Counted (List Chunk)) (j : Nat) (rest a : Str) (chunks ln bl d) :
    runN rec (List.replicate j '}' ++ rest) ⟨chunks, ln, false, false, bl, .scope a .curly (d + 1 + j)⟩ =
      ((runN rec rest ⟨chunks, ln, false, false, bl, .scope (a ++ List.replicate j '}') .curly (d + 1)⟩).1,
        j + (runN rec rest ⟨chunks, ln, false, false, bl, .scope (a ++ List.replicate j '}') .curly (d + 1)⟩).2) := by
  induction j generalizing a with
  | zero => simp
  | succ j ih =>
    rw [List.replicate_succ, List.cons_append]
    simp only [runN]
    have hs : stepN rec ⟨chunks, ln, false, false, bl, .scope a .curly (d + 1 + (j + 1))⟩ '}' =
        free (.ok ⟨chunks, ln, false, false, bl, .scope (a ++ ['}']) .curly (d + 1 + j)⟩) := by
      have h0 : checkedSub (d + 1 + (j + 1)) 1 = .ok (d + 1 + j) := checkedSub_ok (by omega)
      simp [stepN, stepBufferN, stepScopeN, ScopeVariant.opening, ScopeVariant.closing, Buffer.push, Buffer.pushStr, free,
        Counted.andThen, h0]
    rw [hs]
    simp only [free, Counted.andThen]
    rw [ih]
    simp only [List.append_assoc, List.singleton_append, ← List.replicate_succ]
    refine Prod.ext rfl ?_
    simp only
    omega

/-- C68: the time is not linear in general: `n` braces in each other take the square of `n + 1` steps. -/
theorem C68_deep (n : Nat) : (fromStrN (nest n)).2 = (n + 1) * (n + 1) := by
  have key : ∀ n m, n < m → (parseFuelN m (nest n)).2 = (n + 1) * (n + 1) := by
    intro n
    induction n with
    | zero => intro m hm; obtain ⟨m, rfl⟩ : ∃ k, m = k + 1 := ⟨m - 1, by omega⟩; rfl
    | succ n ih =>
      intro m hm
      obtain ⟨m, rfl⟩ : ∃ k, m = k + 1 := ⟨m - 1, by omega⟩
      have h1 := ih m (by omega)
      have h2 : (parseFuelN m (nest n)).1 = .ok (nested n) := by
        rw [parseFuelN_fst, parseFuel_open m (nest n) ?_]
        · exact (C51 _ (nest_clean n) _).2 (nest_reads n)
        · show openings (nest n) < m
          have : openings (nest n) = n := by
            simp [openings, nest, List.countP_append, List.countP_replicate]
          omega
      cases hr : parseFuelN m (nest n) with
      | mk r k =>
        rw [hr] at h1 h2
        simp only at h1 h2
        subst h1 h2
        rw [parseFuelN, nest_succ]
        have hs : stepN (parseFuelN m) State.init '{' = free (.ok ⟨[], 1, false, false, 1, .scope [] .curly 1⟩) := by
          simp [stepN, stepBufferN, stepTextN, State.init, ScopeVariant.fromOpening, free, Counted.andThen, flushMN, flushN, Buffer.newScope]
        have he : stepN (parseFuelN m) ⟨[], 1, false, false, 1, .scope (nest n) .curly 1⟩ '}' =
            (.ok ⟨[.mk 1 (.scope (.mk (nested n) .curly))], 1, false, false, 1, .text []⟩, (n + 1) * (n + 1)) := by
          simp [stepN, stepBufferN, stepScopeN, ScopeVariant.opening, ScopeVariant.closing, free, Counted.andThen, flushMN,
            flushN, checkedSub, hr, Buffer.newText]
        simp only [runN]
        rw [hs]
        simp only [free, Counted.andThen]
        rw [nest, List.append_assoc]
        have e1 := runN_opens (parseFuelN m) n (List.replicate n '}' ++ ['}']) [] [] 1 1 0
        have e2 := runN_closes (parseFuelN m) n ['}'] (List.replicate n '{') [] 1 1 0
        rw [List.nil_append] at e1
        rw [e1, e2, ← nest]
        simp only [runN]
        rw [show 0 + 1 = 1 from rfl, he]
        simp [Counted.andThen, free, finishN, flushMN, flushN]
        grind
  exact key n _ (by simp [nest]; omega)

/-- Non-vacuity: three levels and twelve characters; a source that is rejected early; the square. -/
example : (fromStrN chars!"\\foo[a{b}] c").2 = 20 ∧ (fromStrN chars!"\\foo[}]{a}}b c").2 = 12 ∧
    (fromStrN (nest 3)).2 = 16 := by decide +kernel

end LatexAst.Ast1

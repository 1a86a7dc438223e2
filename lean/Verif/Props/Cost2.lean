import Verif.Proofs.Cost2
import Verif.Props.Cost
import Verif.Props.Size
import Verif.Props.Environments
import Verif.Model.Eq2

/-!
# How long the stage-2 conversion takes (C68)

`tryFromN` is the conversion of a stage-1 document with a counter (`Model/Cost2.lean`): it counts calls, the recursive
ones included, iterations over chunks, and what is read of the arguments of `\begin` and `\end`.
-/

namespace LatexAst.Ast1
open Spec

/-- A parsed document has no more opening brackets than its source. -/
theorem openings_display {s d} (h : fromStr s = .ok d) : openings (displayChunks d) ≤ openings s := by
  have h1 := (C01_partial s d h).1
  have key : ∀ t : Str, openings t = (t.map anyBracket).countP (fun c => c == anyBracket '{') := by
    intro t
    induction t with
    | nil => rfl
    | cons c t ih =>
      simp only [openings, List.map_cons, List.countP_cons] at ih ⊢
      rw [ih]
      congr 1
      by_cases h1 : c = '{'
      · subst h1; rfl
      by_cases h2 : c = '['
      · subst h2; rfl
      by_cases h3 : c = '('
      · subst h3; rfl
      have : anyBracket c ≠ anyBracket '{' := by
        unfold anyBracket; grind
      simp [h1, h2, h3, this]
  rw [key, key s]
  exact h1.countP_le

end LatexAst.Ast1

namespace LatexAst.Ast2
open Spec

/-- The counting conversion is the conversion. -/
theorem C68_answer (d : Ast1.Document) : (tryFromN d).1 = tryFrom d := convFuelN_fst _ _

/-- The counting parser is the parser. -/
theorem C68_answer_source (s : Str) : (fromStrN s).1 = fromStr s := by
  simp only [fromStrN, andThen_fst, Ast1.C68_answer, fromStr]
  cases Ast1.fromStr s with
  | error f => rfl
  | ok d => exact C68_answer d

/-- C68, stage 2: forming the environments of a document that is accepted takes, for every level of the result, at most
as many steps as the document has nodes and printed characters, plus one. -/
theorem C68 (d : Ast1.Document) (e : Document) (h : tryFrom d = .ok e) (n : Nat) (hd : NestedAtMost n e) :
    (tryFromN d).2 ≤ (n + 1) * (Ast1.nodes d + (Ast1.displayChunks d).length + 1) := by
  have h1 := (C67 d e h n).1 hd
  rw [← convFuelN_tryFromN (n := n + 1) (by rw [h1]; simp)]
  exact convFuelN_steps _ _

/-- C68, stage 2, every document, accepted or not: the opening brackets bound the levels. -/
theorem C68_bound (d : Ast1.Document) : (tryFromN d).2 ≤
    (openings (Ast1.displayChunks d) + 1) * (Ast1.nodes d + (Ast1.displayChunks d).length + 1) := by
  have h1 := C67_bound d _ (Nat.le_refl _)
  have h2 : tryFrom d ≠ .error .fuel := (C28_tryFrom d).1
  rw [← convFuelN_tryFromN (n := openings (Ast1.displayChunks d) + 1) (by rw [h1]; exact h2)]
  exact convFuelN_steps _ _

/-- C68, from the source to stage 2, for every source. -/
theorem C68_source (s : Str) : (fromStrN s).2 ≤ (openings s + 1) * (3 * s.length + 2) := by
  have h1 := Ast1.C68_bound s
  have ha := Ast1.C68_answer s
  have h4 : (openings s + 1) * (3 * s.length + 2) = (openings s + 1) * (s.length + 1) + (openings s + 1) * (2 * s.length + 1) := by
    rw [← Nat.mul_add]; congr 1; omega
  simp only [fromStrN]
  cases hs : Ast1.fromStrN s with
  | mk r k =>
    rw [hs] at h1 ha
    cases r with
    | error f =>
      simp only [Counted.andThen] at h1 ⊢
      rw [h4]; omega
    | ok d =>
      have hd : Ast1.fromStr s = .ok d := ha.symm
      have h2 := C68_bound d
      have h3 := Ast1.openings_display hd
      have h5 := Ast1.C74 s d hd
      have h6 := (Ast1.C01_partial s d hd).1.length_le
      simp only [List.length_map] at h6
      have h7 : (openings (Ast1.displayChunks d) + 1) * (Ast1.nodes d + (Ast1.displayChunks d).length + 1) ≤
          (openings s + 1) * (2 * s.length + 1) := Nat.mul_le_mul (by omega) (by omega)
      simp only [Counted.andThen] at h1 ⊢
      rw [h4]
      omega

/-- `\begin{a}` and `\end{a}`. -/
def delim (label : Str) : Ast1.Chunk := .mk 1 (.command (.mk label [([], .mk [.mk 1 (.text chars!"a")] .curly)]))

/-- `n` environments in each other. -/
def envs (n : Nat) : List Ast1.Chunk := List.replicate n (delim chars!"begin") ++ List.replicate n (delim chars!"end")

theorem runN_begins (rec : List Ast1.Chunk → Counted (List Chunk)) (j : Nat) (rest : List Ast1.Chunk) (cs st args pb b) :
    runN rec (List.replicate j (delim chars!"begin") ++ rest) ⟨cs, [.mk 1 (.text chars!"a")] :: st, 1, args, b, pb⟩ =
      ((runN rec rest ⟨cs, [.mk 1 (.text chars!"a")] :: (st ++ List.replicate j [.mk 1 (.text chars!"a")]), 1, args, b ++ List.replicate j (delim chars!"begin"), pb⟩).1,
        6 * j + (runN rec rest ⟨cs, [.mk 1 (.text chars!"a")] :: (st ++ List.replicate j [.mk 1 (.text chars!"a")]), 1, args, b ++ List.replicate j (delim chars!"begin"), pb⟩).2) := by
  induction j generalizing st b with
  | zero => simp
  | succ j ih =>
    rw [List.replicate_succ, List.cons_append]
    simp only [runN]
    have hs : stepN rec ⟨cs, [.mk 1 (.text chars!"a")] :: st, 1, args, b, pb⟩ (delim chars!"begin") =
        free (.ok ⟨cs, [.mk 1 (.text chars!"a")] :: (st ++ [[.mk 1 (.text chars!"a")]]), 1, args, b ++ [delim chars!"begin"], pb⟩) := by
      simp [stepN, delim, Ast1.Command.label, Ast1.Command.arguments, Ast1.Scope.variant, stepBegin, State.pushBuffer, checkedSub,
        Ast1.Scope.chunks]
    rw [hs]
    simp only [free, Counted.andThen]
    rw [ih]
    simp only [List.append_assoc, List.singleton_append, ← List.replicate_succ]
    refine Prod.ext rfl ?_
    have hi : iteration (delim chars!"begin") = 6 := rfl
    simp only [hi]
    omega

theorem runN_ends (rec : List Ast1.Chunk → Counted (List Chunk)) (j : Nat) (rest : List Ast1.Chunk) (cs args pb b) :
    runN rec (List.replicate j (delim chars!"end") ++ rest) ⟨cs, List.replicate (j + 1) [.mk 1 (.text chars!"a")], 1, args, b, pb⟩ =
      ((runN rec rest ⟨cs, [[.mk 1 (.text chars!"a")]], 1, args, b ++ List.replicate j (delim chars!"end"), pb⟩).1,
        6 * j + (runN rec rest ⟨cs, [[.mk 1 (.text chars!"a")]], 1, args, b ++ List.replicate j (delim chars!"end"), pb⟩).2) := by
  induction j generalizing b with
  | zero => simp
  | succ j ih =>
    rw [List.replicate_succ, List.cons_append]
    simp only [runN]
    have hs : stepN rec ⟨cs, List.replicate (j + 1 + 1) [.mk 1 (.text chars!"a")], 1, args, b, pb⟩ (delim chars!"end") =
        free (.ok ⟨cs, List.replicate (j + 1) [.mk 1 (.text chars!"a")], 1, args, b ++ [delim chars!"end"], pb⟩) := by
      have h1 : topIs (List.replicate (j + 1 + 1) [Ast1.Chunk.mk 1 (.text chars!"a")]) [.mk 1 (.text chars!"a")] = true := by
        rw [List.replicate_succ']
        simp only [topIs, List.getLast?_concat]
        decide +kernel
      have h2 : (List.replicate (j + 1 + 1) [Ast1.Chunk.mk 1 (.text chars!"a")]).dropLast = List.replicate (j + 1) [.mk 1 (.text chars!"a")] := by
        rw [List.replicate_succ']; simp
      simp [stepN, delim, Ast1.Command.label, Ast1.Command.arguments, Ast1.Scope.variant, stepEndN, State.pushBuffer, checkedSub,
        Ast1.Scope.chunks, h1, h2]
    rw [hs]
    simp only [free, Counted.andThen]
    rw [ih]
    simp only [List.append_assoc, List.singleton_append, ← List.replicate_succ]
    refine Prod.ext rfl ?_
    have hi : iteration (delim chars!"end") = 6 := rfl
    simp only [hi]
    omega

theorem sizeChunks_envs (n : Nat) : n ≤ sizeChunks (envs n) := by
  have h : ∀ (c : Ast1.Chunk) n cs, n ≤ sizeChunks (List.replicate n c ++ cs) := by
    intro c n cs
    induction n with
    | zero => exact Nat.zero_le _
    | succ n ih =>
      rw [List.replicate_succ, List.cons_append, sizeChunks]
      obtain ⟨l, v⟩ := c
      rw [sizeChunk]
      omega
  exact h _ _ _

/-- C68, stage 2: the time is not linear in general: `n` environments in each other, which have `4 n` nodes and `17 n`
characters, take more than `6 n²` steps. -/
theorem C68_deep (n : Nat) : (tryFromN (envs n)).2 = (n + 1) * (6 * n + 1) := by
  have key : ∀ n m, n < m → ∃ out, convFuelN m (envs n) = (.ok out, (n + 1) * (6 * n + 1)) := by
    intro n
    induction n with
    | zero => intro m hm; obtain ⟨m, rfl⟩ : ∃ k, m = k + 1 := ⟨m - 1, by omega⟩; exact ⟨[], rfl⟩
    | succ n ih =>
      intro m hm
      obtain ⟨m, rfl⟩ : ∃ k, m = k + 1 := ⟨m - 1, by omega⟩
      obtain ⟨out, hr⟩ := ih m (by omega)
      have hs : stepN (convFuelN m) State.init (delim chars!"begin") =
          free (.ok ⟨[], [[.mk 1 (.text chars!"a")]], 1, [], [], []⟩) := by rfl
      have he : stepN (convFuelN m) ⟨[], [[.mk 1 (.text chars!"a")]], 1, [], envs n, []⟩ (delim chars!"end") =
          (.ok ⟨[.mk 1 (.environment (.mk chars!"a" [] out [] []))], [], 1, [], [], []⟩, (n + 1) * (6 * n + 1)) := by
        have h1 : topIs [[Ast1.Chunk.mk 1 (.text chars!"a")]] [.mk 1 (.text chars!"a")] = true := by decide +kernel
        simp [stepN, delim, Ast1.Command.label, Ast1.Command.arguments, Ast1.Scope.variant, stepEndN, h1, Ast1.Scope.chunks,
          convArgsN, free, Counted.andThen, addLineN, hr, addLine, Ast1.displayChunks, Ast1.Chunk.display, Ast1.ChunkVariant.display]
      have e1 := runN_begins (convFuelN m) n (List.replicate n (delim chars!"end") ++ [delim chars!"end"]) [] [] [] [] []
      have e2 := runN_ends (convFuelN m) n [delim chars!"end"] [] [] [] (List.replicate n (delim chars!"begin"))
      simp only [List.nil_append, ← List.replicate_succ] at e1
      have e3 : envs (n + 1) = delim chars!"begin" :: (List.replicate n (delim chars!"begin") ++ (List.replicate n (delim chars!"end") ++ [delim chars!"end"])) := by
        simp only [envs, List.replicate_succ (n := n) (a := delim chars!"begin"), List.replicate_succ' (n := n) (a := delim chars!"end"), List.cons_append]
      refine ⟨[.mk 1 (.environment (.mk chars!"a" [] out [] []))], ?_⟩
      rw [convFuelN, e3]
      simp only [runN]
      rw [hs]
      simp only [free, Counted.andThen]
      rw [e1, e2]
      simp only [runN]
      rw [show List.replicate n (delim chars!"begin") ++ List.replicate n (delim chars!"end") = envs n from rfl, he]
      have hi : iteration (delim chars!"end") = 6 := rfl
      have hi' : iteration (delim chars!"begin") = 6 := rfl
      simp only [Counted.andThen, free, finish, hi, hi']
      refine Prod.ext rfl ?_
      grind
  have h2 := sizeChunks_envs n
  obtain ⟨out, h⟩ := key n (sizeChunks (envs n) + 1) (by omega)
  rw [tryFromN, h]

/-- Such documents are read from sources. -/
example : Ast1.fromStr chars!"\\begin{a}\\begin{a}\\end{a}\\end{a}" = .ok (envs 2) ∧
    (fromStrN chars!"\\begin{a}\\begin{a}\\end{a}\\end{a}").2 = 80 := by decide +kernel

end LatexAst.Ast2

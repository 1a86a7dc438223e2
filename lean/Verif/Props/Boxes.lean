import Verif.Proofs.Conversion2
import Verif.Props.NestedLeast

/-!
# Stage 2 can nest as deep as one likes (C125)
-/

namespace LatexAst.Ast2
open Spec

/-- `\begin{a}`, as read. -/
def opener : Ast1.Chunk := .mk 1 (.command (.mk chars!"begin" [([], .mk [.mk 1 (.text chars!"a")] .curly)]))

/-- `\end{a}`, as read. -/
def closer : Ast1.Chunk := .mk 1 (.command (.mk chars!"end" [([], .mk [.mk 1 (.text chars!"a")] .curly)]))

/-- `n` times `\begin{a}`, then `n` times `\end{a}`. -/
def boxes (n : Nat) : List Ast1.Chunk := List.replicate n opener ++ List.replicate n closer

/-- `n` environments in each other. -/
def boxed : Nat → List Chunk
  | 0 => []
  | n + 1 => [.mk 1 (.environment (.mk chars!"a" [] (boxed n) [] []))]

theorem boxes_succ (n : Nat) : boxes (n + 1) = opener :: (boxes n ++ [closer]) := by
  rw [boxes, List.replicate_succ, List.replicate_succ' (n := n), boxes]
  simp

theorem boxes_mem {n c} (h : c ∈ boxes n) : c = opener ∨ c = closer := by
  rcases List.mem_append.1 h with h | h
  · exact .inl (List.eq_of_mem_replicate h)
  · exact .inr (List.eq_of_mem_replicate h)

theorem boxes_matched (n : Nat) : Ast1.Matched (boxes n) := by
  induction n with
  | zero => exact .nil
  | succ n ih => rw [boxes_succ]; exact .env (lab := [.mk 1 (.text chars!"a")]) ⟨_, _, rfl⟩ ih ⟨_, rfl⟩ .nil

theorem boxes_converts (n : Nat) : Converts (boxes n) (.ok (boxed n)) := by
  induction n with
  | zero => exact .nil
  | succ n ih =>
    rw [boxes_succ]
    have hr : (boxes n).map (renumber 1) = boxes n := by
      conv => rhs; rw [← List.map_id (boxes n)]
      refine List.map_congr_left fun c hc => ?_
      rcases boxes_mem hc with rfl | rfl <;> rfl
    exact Converts.environment (l := 1) (p := []) (lab := [.mk 1 (.text chars!"a")]) (l' := 1) (pe := []) (items := []) (cs := []) (o := .ok [])
      (boxes_matched n) (fun _ h => nomatch h) (by rw [show endOfBegin 1 _ = 1 from rfl, hr]; exact ih) .nil

theorem boxed_level (n : Nat) : LevelAt (boxed n) n [] := by
  induction n with
  | zero => exact .top
  | succ n ih => exact levelAt_child (.envContent (.head _)) ih

theorem boxes_numbered (n : Nat) : Ast1.NumberedInOrder (boxes n) := by
  have top : ∀ lv, Ast1.Checked (boxes n) lv → lv = boxes n := by
    intro lv h
    induction h with
    | top => rfl
    | scope _ hm ih => subst ih; rcases boxes_mem hm with h | h <;> simp [opener, closer] at h
    | arg _ hm h1 h2 _ ih =>
      subst ih
      rcases boxes_mem hm with h | h
      · simp [opener] at h; exact absurd h.2.1 h1
      · simp [closer] at h; exact absurd h.2.1 h2
    | beginArg _ hm ha ih =>
      subst ih
      rcases boxes_mem hm with h | h
      · simp [opener] at h; obtain ⟨_, _, rfl⟩ := h; cases ha
      · simp [closer] at h
  intro lv hlv pre l args mid c post h
  cases top lv hlv
  have h1 : Ast1.Chunk.mk l (.command (.mk chars!"begin" args)) = opener := by
    rcases boxes_mem (n := n) (c := .mk l (.command (.mk chars!"begin" args))) (by rw [h]; simp) with h | h
    · exact h
    · simp [closer] at h
  have h2 : c.lineNo = 1 := by
    rcases boxes_mem (n := n) (c := c) (by rw [h]; simp) with h | h <;> subst h <;> rfl
  simp [opener] at h1
  obtain ⟨rfl, rfl⟩ := h1
  rw [h2]
  decide

theorem boxes_shallow (n : Nat) : Ast1.NestedAtMost 1 (boxes n) := by
  intro k lv hl
  have key : ∀ k lv, Ast1.LevelAt (boxes n) k lv → (k = 0 ∧ lv = boxes n) ∨ (k = 1 ∧ lv = [.mk 1 (.text chars!"a")]) := by
    intro k lv hl
    induction hl with
    | top => exact .inl ⟨rfl, rfl⟩
    | scope _ hm ih =>
      rcases ih with ⟨_, rfl⟩ | ⟨_, rfl⟩
      · rcases boxes_mem hm with h | h <;> simp [opener, closer] at h
      · simp at hm
    | arg _ hm ha ih =>
      rcases ih with ⟨rfl, rfl⟩ | ⟨_, rfl⟩
      · refine .inr ⟨rfl, ?_⟩
        rcases boxes_mem hm with h | h <;> simp [opener, closer] at h <;> obtain ⟨_, _, rfl⟩ := h <;> simp at ha <;> exact ha.2.1
      · simp at hm
  rcases key k lv hl with ⟨rfl, _⟩ | ⟨rfl, _⟩ <;> omega

/-- C125: there is no bound for stage 2 as C123 is for stage 3: for every `n` there is a stage-1 document nested one deep (with
lines in order) that converts to a document nested `n` deep, and needs more than `n` nested calls. -/
theorem C125 (n : Nat) : ∃ d e, Ast1.NestedAtMost 1 d ∧ Ast1.NumberedInOrder d ∧ tryFrom d = .ok e ∧
    (∀ m, NestedAtMost m e → n ≤ m) ∧ (0 < n → convFuel n d = .error .fuel) := by
  have h : tryFrom (boxes n) = .ok (boxed n) := (converts_iff (boxes_numbered n) (.ok _)).1 (boxes_converts n)
  refine ⟨boxes n, boxed n, boxes_shallow n, boxes_numbered n, h, fun m hm => hm _ _ (boxed_level n), fun hn => ?_⟩
  obtain ⟨m, rfl⟩ : ∃ m, n = m + 1 := ⟨n - 1, by omega⟩
  refine (C67 _ _ h m).2 fun hm => ?_
  have := hm _ _ (boxed_level (m + 1))
  omega

/-- So no function of the depth of a stage-1 document bounds the depth of what it converts to. -/
theorem C125_unbounded : ¬ ∃ f : Nat → Nat, ∀ d e n, tryFrom d = .ok e → Ast1.NestedAtMost n d → NestedAtMost (f n) e := by
  rintro ⟨f, hf⟩
  obtain ⟨d, e, h1, _, h2, h3, _⟩ := C125 (f 1 + 1)
  have := h3 _ (hf d e 1 h2 h1)
  omega

/-- These documents are read from sources, for instance with `n = 2`: `\begin{a}\begin{a}\end{a}\end{a}`. -/
theorem C125_source : Ast1.fromStr chars!"\\begin{a}\\begin{a}\\end{a}\\end{a}" = .ok (boxes 2) := by decide +kernel

end LatexAst.Ast2

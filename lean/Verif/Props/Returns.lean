import Verif.Props.BackRule
import Verif.Model.Eq2

/-!
# C83: exactly when the conversion from stage 2 to stage 1 returns
-/

namespace LatexAst.Ast2

/-- `lv` is one of the chunk sequences of `e`, at any depth; the conversion counts its lines from line `k` of the sequence
around it: `k` is 0, except in environments. -/
inductive CountedFrom (e : List Chunk) : Nat → List Chunk → Prop
  | top : CountedFrom e 0 e
  | scope {k lv l inner sv} : CountedFrom e k lv → .mk l (.scope (.mk inner sv)) ∈ lv → CountedFrom e 0 inner
  | argument {k lv l label args p inner sv} : CountedFrom e k lv → .mk l (.command (.mk label args)) ∈ lv →
      (p, .mk inner sv) ∈ args → CountedFrom e 0 inner
  | environmentArgument {k lv l label args content pb pe p inner sv} : CountedFrom e k lv →
      .mk l (.environment (.mk label args content pb pe)) ∈ lv → (p, .mk inner sv) ∈ args → CountedFrom e 0 inner
  | content {k lv l label args content pb pe} : CountedFrom e k lv →
      .mk l (.environment (.mk label args content pb pe)) ∈ lv → CountedFrom e (l + k - 1) content

mutual
def FineV (line : Nat) : ChunkVariant → Prop
  | .text _ => True
  | .scope sc => FineS sc
  | .command (.mk _ args) => FineA args
  | .environment (.mk label args content _ _) =>
    (∃ lab, Ast1.fromStr label = .ok lab) ∧ FineA args ∧ (content ≠ [] → 1 ≤ line) ∧ FineC (line - 1) content
def FineS : Scope → Prop
  | .mk chunks _ => FineC 0 chunks
def FineC (k : Nat) : List Chunk → Prop
  | [] => True
  | .mk l v :: cs => FineV (l + k) v ∧ FineC k cs
def FineA : List (Str × Scope) → Prop
  | [] => True
  | (_, sc) :: r => FineS sc ∧ FineA r
end

mutual
theorem fineV_iff (line : Nat) : ∀ v, FineV line v ↔ ∃ xs, intoVariant line v = .ok xs
  | .text _ => by simp [FineV, intoVariant]
  | .scope sc => by
    rw [FineV, fineS_iff sc, intoVariant]
    cases intoScope sc <;> simp
  | .command (.mk label args) => by
    rw [FineV, fineA_iff args, intoVariant, intoCommand]
    cases intoArgs args <;> simp
  | .environment (.mk label args content pb pe) => by
    rw [FineV, fineA_iff args, fineC_iff (line - 1) content, intoVariant, intoEnvironment]
    cases h1 : Ast1.fromStr label with
    | error f => cases f <;> simp [panicked]
    | ok lab =>
      cases h2 : intoArgs args with
      | error f => simp
      | ok args' =>
        by_cases h3 : content.isEmpty = false ∧ line = 0
        · simp only [if_pos h3]
          have : content ≠ [] := by intro h; simp [h] at h3
          simp [panicked, this]
          omega
        · simp only [if_neg h3]
          have : content ≠ [] → 1 ≤ line := by
            intro h
            have : content.isEmpty = false := by cases content <;> simp at h ⊢
            simp [this] at h3; omega
          cases h4 : intoChunks (line - 1) content with
          | error f => simp
          | ok c => simp; exact this
theorem fineS_iff : ∀ sc, FineS sc ↔ ∃ x, intoScope sc = .ok x
  | .mk chunks v => by
    rw [FineS, fineC_iff 0 chunks, intoScope]
    cases intoChunks 0 chunks <;> simp
theorem fineC_iff (k : Nat) : ∀ cs, FineC k cs ↔ ∃ xs, intoChunks k cs = .ok xs
  | [] => by simp [FineC, intoChunks]
  | .mk l v :: cs => by
    rw [FineC, fineV_iff (l + k) v, fineC_iff k cs, intoChunks]
    cases intoVariant (l + k) v <;> cases intoChunks k cs <;> simp
theorem fineA_iff : ∀ args, FineA args ↔ ∃ xs, intoArgs args = .ok xs
  | [] => by simp [FineA, intoArgs]
  | (p, sc) :: r => by
    rw [FineA, fineS_iff sc, fineA_iff r, intoArgs]
    cases intoScope sc <;> cases intoArgs r <;> simp
end

theorem fineC_mem {k cs} (h : FineC k cs) {l v} (hm : .mk l v ∈ cs) : FineV (l + k) v := by
  induction cs with
  | nil => cases hm
  | cons c cs ih =>
    obtain ⟨l', v'⟩ := c
    rw [FineC] at h
    rcases List.mem_cons.1 hm with h1 | h1
    · cases h1; exact h.1
    · exact ih h.2 h1

theorem fineA_mem {args} (h : FineA args) {p inner sv} (hm : (p, Scope.mk inner sv) ∈ args) : FineC 0 inner := by
  induction args with
  | nil => cases hm
  | cons c cs ih =>
    obtain ⟨p', sc⟩ := c
    rw [FineA] at h
    rcases List.mem_cons.1 hm with h1 | h1
    · cases h1; exact h.1
    · exact ih h.2 h1

theorem CountedFrom.fine {e k lv} (h : CountedFrom e k lv) (he : FineC 0 e) : FineC k lv := by
  induction h with
  | top => exact he
  | scope _ hm ih => exact fineC_mem ih hm
  | argument _ hm hp ih => exact fineA_mem (fineC_mem ih hm) hp
  | environmentArgument _ hm hp ih => exact fineA_mem (fineC_mem ih hm).2.1 hp
  | content _ hm ih => exact (fineC_mem ih hm).2.2.2

/-- What is required of an environment. -/
def EnvFine (k : Nat) (c : Chunk) : Prop := ∀ l label args content pb pe, c = .mk l (.environment (.mk label args content pb pe)) →
  (∃ lab, Ast1.fromStr label = .ok lab) ∧ (content ≠ [] → 1 ≤ l + k)

mutual
theorem fineV_of (e : List Chunk) (H : ∀ k lv, CountedFrom e k lv → ∀ c ∈ lv, EnvFine k c) (k : Nat) (lv) (hl : CountedFrom e k lv) (l : Nat) :
    ∀ v, .mk l v ∈ lv → FineV (l + k) v
  | .text _, _ => trivial
  | .scope (.mk inner sv), hm => fineC_of e H 0 inner (.scope hl hm) inner fun _ h => h
  | .command (.mk label args), hm => fineA_of e H args fun _ _ _ hp => .argument hl hm hp
  | .environment (.mk label args content pb pe), hm =>
    have h := H k lv hl _ hm l label args content pb pe rfl
    ⟨h.1, fineA_of e H args fun _ _ _ hp => .environmentArgument hl hm hp, h.2,
      fineC_of e H (l + k - 1) content (.content hl hm) content fun _ h => h⟩
theorem fineC_of (e : List Chunk) (H : ∀ k lv, CountedFrom e k lv → ∀ c ∈ lv, EnvFine k c) (k : Nat) (lv) (hl : CountedFrom e k lv) :
    ∀ cs : List Chunk, (∀ c ∈ cs, c ∈ lv) → FineC k cs
  | [], _ => trivial
  | .mk l v :: cs, hm => ⟨fineV_of e H k lv hl l v (hm _ (.head _)), fineC_of e H k lv hl cs fun c hc => hm c (.tail _ hc)⟩
theorem fineA_of (e : List Chunk) (H : ∀ k lv, CountedFrom e k lv → ∀ c ∈ lv, EnvFine k c) :
    ∀ args : List (Str × Scope), (∀ p inner sv, (p, .mk inner sv) ∈ args → CountedFrom e 0 inner) → FineA args
  | [], _ => trivial
  | (p, .mk inner sv) :: r, hm =>
    ⟨fineC_of e H 0 inner (hm _ _ _ (.head _)) inner fun _ h => h, fineA_of e H r fun p i s h => hm p i s (.tail _ h)⟩
end

/-- C83, when the conversion to stage 1 returns, exactly: if and only if the label of every environment is accepted by
stage 1, and no environment that is not empty is on line 0, counted from the environments around it. -/
theorem C83_returns (e : Document) :
    (∃ d, toAst1 e = .ok d) ↔ ∀ k lv l label args content pb pe, CountedFrom e k lv →
      .mk l (.environment (.mk label args content pb pe)) ∈ lv →
      (∃ lab, Ast1.fromStr label = .ok lab) ∧ (content ≠ [] → 1 ≤ l + k) := by
  have h1 : (∃ d, toAst1 e = .ok d) ↔ FineC 0 e := by
    rw [fineC_iff]
    constructor
    · rintro ⟨d, h⟩
      obtain ⟨xs, h, -⟩ := (C60 e d).1 h
      exact ⟨xs, unfolds_into h⟩
    · rintro ⟨xs, h⟩
      exact ⟨_, toAst1_eq h⟩
  rw [h1]
  constructor
  · intro hf k lv l label args content pb pe hl hm
    have := fineC_mem (hl.fine hf) hm
    exact ⟨this.1, this.2.2.1⟩
  · intro H
    exact fineC_of e (fun k lv hl c hc l label args content pb pe he => H k lv l label args content pb pe hl (he ▸ hc))
      0 e .top e fun _ h => h

/-- C83: otherwise it panics. -/
theorem C83_panics (e : Document) : toAst1 e = .error .panic ↔ ¬ ∃ d, toAst1 e = .ok d := by
  rw [C60_panics]
  constructor
  · rintro h ⟨d, hd⟩
    obtain ⟨xs, hx, -⟩ := (C60 e d).1 hd
    exact h ⟨xs, hx⟩
  · rintro h ⟨xs, hx⟩
    exact h ⟨_, (C60 e _).2 ⟨xs, hx, rfl⟩⟩

/-- An environment on line 0 in one on line 2 is fine, in one on line 1 it is not; an empty one may be on line 0. -/
theorem C83_returns_example :
    (∃ d, toAst1 [.mk 2 (.environment (.mk chars!"a" [] [.mk 0 (.environment (.mk chars!"b" [] [.mk 1 (.text chars!"x")] [] []))] [] []))] = .ok d) ∧
    toAst1 [.mk 1 (.environment (.mk chars!"a" [] [.mk 0 (.environment (.mk chars!"b" [] [.mk 1 (.text chars!"x")] [] []))] [] []))] = .error .panic ∧
    (∃ d, toAst1 [.mk 0 (.environment (.mk chars!"a" [] [] [] []))] = .ok d) := by
  have key : ∀ e : Document, (toAst1 e).isOk = true → ∃ d, toAst1 e = .ok d := by
    intro e h
    cases h1 : toAst1 e with
    | error => rw [h1] at h; cases h
    | ok d => exact ⟨d, rfl⟩
  exact ⟨key _ (by decide +kernel), by decide +kernel, key _ (by decide +kernel)⟩

end LatexAst.Ast2

import Verif.Spec.FirstFault
import Verif.Proofs.Valid

/-! # Validation reports the first fault -/

namespace LatexAst
open Ast1 (checkSanitised isSpecial)
open Ast2 (checkLabel)

theorem checkSanitised_error_iff (s : Str) (e : InternalError) : checkSanitised s = .error e ↔
    ∃ c, Spec.FirstSpecial s c ∧ e = .unsanitisedCharInString c := by
  constructor
  · intro h
    obtain ⟨a, c, b, h1, h2, h3, h4⟩ := checkSanitised_error h
    exact ⟨c, ⟨a, b, h1, h3, h2⟩, h4⟩
  · rintro ⟨c, ⟨a, b, rfl, ha, hc⟩, rfl⟩
    induction a with
    | nil => simp [checkSanitised, (isSpecial_iff c).2 hc]
    | cons x a ih =>
      have hx : isSpecial x = false := by
        have := ha x (by simp)
        rw [← isSpecial_iff] at this
        simpa using this
      simp only [List.cons_append, checkSanitised, hx, Bool.false_eq_true, if_false]
      exact ih fun y hy => ha y (by simp [hy])

theorem checkLabel_error_iff (l : Str) (e : InternalError) : checkLabel l = .error e ↔
    (l = chars!"begin" ∧ e = .beginCommand) ∨ (l = chars!"end" ∧ e = .endCommand) ∨
    (Spec.utf8Length l ≠ 1 ∧ ∃ c, Spec.FirstSpecial l c ∧ e = .unsanitisedCharInString c) := by
  have hb : Spec.utf8Length l = byteLen l := rfl
  have nb : ∀ c, ¬ Spec.FirstSpecial chars!"begin" c := by
    intro c h
    have := (checkSanitised_error_iff _ _).2 ⟨c, h, rfl⟩
    rw [show checkSanitised chars!"begin" = .ok () by decide] at this
    cases this
  have ne : ∀ c, ¬ Spec.FirstSpecial chars!"end" c := by
    intro c h
    have := (checkSanitised_error_iff _ _).2 ⟨c, h, rfl⟩
    rw [show checkSanitised chars!"end" = .ok () by decide] at this
    cases this
  rw [hb]
  simp only [checkLabel]
  by_cases h1 : l = chars!"begin"
  · subst h1; simp [nb]; exact eq_comm
  by_cases h2 : l = chars!"end"
  · subst h2; simp [ne]; exact eq_comm
  by_cases h3 : byteLen l = 1
  · simp [h1, h2, h3]
  · simp [h1, h2, h3, checkSanitised_error_iff]

namespace Ast1
/-- The check of a node itself. -/
def ownCheck : ChunkVariant → Except InternalError Unit
  | .text s => checkSanitised s
  | .command (.mk label _) => if byteLen label ≠ 1 then checkSanitised label else .ok ()
  | .scope _ => .ok ()

/-- The first error. -/
def firstErr : List ChunkVariant → Except InternalError Unit
  | [] => .ok ()
  | v :: r =>
    match ownCheck v with
    | .error e => .error e
    | .ok () => firstErr r

theorem firstErr_append (a b : List ChunkVariant) : firstErr (a ++ b) =
    match firstErr a with
    | .error e => .error e
    | .ok () => firstErr b := by
  induction a with
  | nil => simp [firstErr]
  | cons v a ih =>
    simp only [List.cons_append, firstErr, ih]
    rcases ownCheck v with e | u <;> simp

mutual
theorem Chunk.first : ∀ c : Chunk, c.validate = firstErr c.nodeList
  | .mk _ (.text s) => by
    simp only [Chunk.validate, ChunkVariant.validate, Chunk.nodeList, firstErr, ownCheck]
    rcases checkSanitised s with e | u <;> rfl
  | .mk _ (.command (.mk l a)) => by
    simp only [Chunk.validate, ChunkVariant.validate, Chunk.nodeList, firstErr, ownCheck, Command.validate, Command.nodeList,
      validateArgs_first a]
    split <;> simp_all
  | .mk _ (.scope (.mk cs v)) => by
    simp only [Chunk.validate, ChunkVariant.validate, Chunk.nodeList, firstErr, ownCheck, Scope.validate, Scope.nodeList,
      validateChunks_first cs]
theorem Scope.first : ∀ s : Scope, s.validate = firstErr s.nodeList
  | .mk cs _ => by simp only [Scope.validate, Scope.nodeList, validateChunks_first cs]
theorem validateChunks_first : ∀ cs : List Chunk, validateChunks cs = firstErr (nodeList cs)
  | [] => by simp only [validateChunks, nodeList, firstErr]
  | c :: cs => by
    simp only [validateChunks, nodeList, firstErr_append, Chunk.first c, validateChunks_first cs]
    rcases firstErr c.nodeList with e | u <;> rfl
theorem validateArgs_first : ∀ a : List (Str × Scope), validateArgs a = firstErr (nodeListArgs a)
  | [] => by simp only [validateArgs, nodeListArgs, firstErr]
  | (_, s) :: r => by
    simp only [validateArgs, nodeListArgs, firstErr_append, Scope.first s, validateArgs_first r]
    rcases firstErr s.nodeList with e | u <;> rfl
end

theorem ownCheck_ok (v : ChunkVariant) : ownCheck v = .ok () ↔ NodeOk v := by
  cases v with
  | text s => rw [ownCheck, checkSanitised_ok_iff]; rfl
  | command c =>
    obtain ⟨l, a⟩ := c
    have hb : Spec.utf8Length l = byteLen l := rfl
    simp only [ownCheck, NodeOk, hb]
    by_cases h : byteLen l = 1
    · simp [h]
    · simp [h, checkSanitised_ok_iff]
  | scope s => simp [ownCheck, NodeOk]

theorem ownCheck_error (v : ChunkVariant) (e : InternalError) : ownCheck v = .error e ↔ OwnFault v e := by
  constructor
  · intro h
    cases v with
    | text s =>
      obtain ⟨c, hc, rfl⟩ := (checkSanitised_error_iff s e).1 h
      exact .text hc
    | command c =>
      obtain ⟨l, a⟩ := c
      simp only [ownCheck] at h
      by_cases hl : byteLen l = 1
      · simp [hl] at h
      · simp only [ne_eq, hl, not_false_eq_true, if_true] at h
        obtain ⟨c, hc, rfl⟩ := (checkSanitised_error_iff l e).1 h
        exact .label hl hc
    | scope s => cases h
  · intro h
    cases h with
    | text hc => exact (checkSanitised_error_iff _ _).2 ⟨_, hc, rfl⟩
    | @label l a c hl hc =>
      have hb : byteLen l ≠ 1 := hl
      simp only [ownCheck, ne_eq, hb, not_false_eq_true, if_true]
      exact (checkSanitised_error_iff _ _).2 ⟨_, hc, rfl⟩

theorem firstErr_error (l : List ChunkVariant) (e : InternalError) : firstErr l = .error e ↔
    ∃ a v b, l = a ++ v :: b ∧ (∀ w ∈ a, NodeOk w) ∧ OwnFault v e := by
  induction l with
  | nil => simp [firstErr]
  | cons v r ih =>
    simp only [firstErr]
    rcases hv : ownCheck v with e' | u
    · simp only [Except.error.injEq]
      constructor
      · rintro rfl; exact ⟨[], v, r, rfl, by simp, (ownCheck_error v _).1 hv⟩
      · rintro ⟨a, w, b, h1, h2, h3⟩
        cases a with
        | nil =>
          simp at h1
          obtain ⟨rfl, rfl⟩ := h1
          rw [(ownCheck_error _ _).2 h3] at hv
          cases hv; rfl
        | cons x a =>
          simp at h1
          have := (ownCheck_ok v).2 (h2 v (by simp [h1.1]))
          rw [this] at hv; cases hv
    · simp only [ih]
      constructor
      · rintro ⟨a, w, b, rfl, h2, h3⟩
        refine ⟨v :: a, w, b, rfl, ?_, h3⟩
        intro x hx
        rcases List.mem_cons.1 hx with rfl | hx
        · exact (ownCheck_ok _).1 hv
        · exact h2 x hx
      · rintro ⟨a, w, b, h1, h2, h3⟩
        cases a with
        | nil =>
          simp at h1
          obtain ⟨rfl, rfl⟩ := h1
          rw [(ownCheck_error _ _).2 h3] at hv
          cases hv
        | cons x a =>
          simp at h1
          exact ⟨a, w, b, h1.2, fun y hy => h2 y (by simp [hy]), h3⟩

theorem validateChunks_error (cs : List Chunk) (e : InternalError) : validateChunks cs = .error e ↔ FirstFault cs e := by
  rw [validateChunks_first, firstErr_error]; rfl

theorem Chunk.validate_error (c : Chunk) (e : InternalError) : c.validate = .error e ↔ FirstFault [c] e := by
  rw [Chunk.first, firstErr_error]; simp [FirstFault, Ast1.nodeList]

theorem validateFrom_error (n : Nat) (d : List Chunk) (e : InternalError) :
    Document.validateFrom n d = .error e ↔ ∃ pre c post, d = pre ++ c :: post ∧ (NumberedFrom n pre ∧ ∀ v, Within pre v → NodeOk v) ∧
    ((c.lineNo ≠ n + (displayChunks pre).count '\n' ∧
        e = .incorrectChunkLineNumber (n + (displayChunks pre).count '\n') c.lineNo) ∨
     (c.lineNo = n + (displayChunks pre).count '\n' ∧ FirstFault [c] e)) := by
  induction d generalizing n with
  | nil => simp [Document.validateFrom]
  | cons c cs ih =>
    have hl : c.lines - 1 = c.display.count '\n' := by
      rw [Chunk.lines_eq, newlines_eq_count]; simp
    simp only [Document.validateFrom]
    constructor
    · intro h
      by_cases hn : c.lineNo = n
      · simp only [hn, ne_eq, not_true_eq_false, if_false] at h
        rcases hv : c.validate with e' | u
        · rw [hv] at h
          cases h
          exact ⟨[], c, cs, rfl, ⟨numberedFrom_nil n, fun v hw => by cases hw <;> simp_all⟩,
            .inr ⟨by simpa [displayChunks] using hn, (Chunk.validate_error c e).1 hv⟩⟩
        · rw [hv] at h
          obtain ⟨pre, c', post, rfl, ⟨h1, h2⟩, h3⟩ := (ih _).1 h
          refine ⟨c :: pre, c', post, rfl, ⟨(numberedFrom_cons n c pre).2 ⟨hn, h1⟩, ?_⟩, ?_⟩
          · refine (allChunks_iff _).1 ⟨(Chunk.validate_iff c).1 hv, (allChunks_iff _).2 h2⟩
          · rw [displayChunks_cons, List.count_append, ← Nat.add_assoc, ← hl]; exact h3
      · simp only [hn, ne_eq, not_false_eq_true, if_true, Except.error.injEq] at h
        exact ⟨[], c, cs, rfl, ⟨numberedFrom_nil n, fun v hw => by cases hw <;> simp_all⟩,
          .inl ⟨by simpa [displayChunks] using hn, by simp [displayChunks, h]⟩⟩
    · rintro ⟨pre, c', post, hd, ⟨h1, h2⟩, h3⟩
      cases pre with
      | nil =>
        simp at hd
        obtain ⟨rfl, rfl⟩ := hd
        simp only [displayChunks, List.count_nil, Nat.add_zero] at h3
        rcases h3 with ⟨h4, rfl⟩ | ⟨h4, h5⟩
        · simp [h4]
        · simp [h4, (Chunk.validate_error _ e).2 h5]
      | cons x pre =>
        simp only [List.cons_append, List.cons.injEq] at hd
        obtain ⟨rfl, rfl⟩ := hd
        rw [numberedFrom_cons] at h1
        have h2' := (allChunks_iff _).2 h2
        have hv := (Chunk.validate_iff c).2 h2'.1
        simp only [h1.1, ne_eq, not_true_eq_false, if_false, hv]
        refine (ih _).2 ⟨pre, c', post, rfl, ⟨h1.2, (allChunks_iff _).1 h2'.2⟩, ?_⟩
        rw [displayChunks_cons, List.count_append, ← Nat.add_assoc, ← hl] at h3; exact h3

mutual
theorem Chunk.nodeList_all (P : ChunkVariant → Prop) : ∀ c : Chunk, c.All P ↔ ∀ v ∈ c.nodeList, P v
  | .mk _ (.text s) => by simp [Chunk.All, ChunkVariant.All, Chunk.nodeList]
  | .mk _ (.command (.mk l a)) => by
    simp [Chunk.All, ChunkVariant.All, Chunk.nodeList, Command.All, Command.nodeList, nodeListArgs_all P a]
  | .mk _ (.scope (.mk cs v)) => by
    simp [Chunk.All, ChunkVariant.All, Chunk.nodeList, Scope.All, Scope.nodeList, nodeList_all P cs]
theorem nodeList_all (P : ChunkVariant → Prop) : ∀ cs : List Chunk, AllChunks P cs ↔ ∀ v ∈ nodeList cs, P v
  | [] => by simp [AllChunks, nodeList]
  | c :: cs => by simp [AllChunks, nodeList, Chunk.nodeList_all P c, nodeList_all P cs, or_imp, forall_and]
theorem nodeListArgs_all (P : ChunkVariant → Prop) : ∀ a : List (Str × Scope), AllArgs P a ↔ ∀ v ∈ nodeListArgs a, P v
  | [] => by simp [AllArgs, nodeListArgs]
  | (_, .mk cs _) :: r => by
    simp [AllArgs, nodeListArgs, Scope.All, Scope.nodeList, nodeList_all P cs, nodeListArgs_all P r, or_imp, forall_and]
end

/-- `nodeList` lists exactly the nodes. -/
theorem nodeList_within (d : List Chunk) (v : ChunkVariant) : v ∈ nodeList d ↔ Within d v := by
  constructor
  · intro h
    have := (nodeList_all (fun v => Within d v) d).1 ((allChunks_iff d).2 fun v hv => hv)
    exact this v h
  · intro h
    have := (allChunks_iff d).1 ((nodeList_all (fun v => v ∈ nodeList d) d).2 fun v hv => hv)
    exact this v h

end Ast1

namespace Ast2
/-- The check of a node itself. -/
def ownCheck : ChunkVariant → Except InternalError Unit
  | .text s => checkSanitised s
  | .command (.mk label _) => checkLabel label
  | .scope _ => .ok ()
  | .environment (.mk label _ _ _ _) => checkSanitised label

/-- The first error. -/
def firstErr : List ChunkVariant → Except InternalError Unit
  | [] => .ok ()
  | v :: r =>
    match ownCheck v with
    | .error e => .error e
    | .ok () => firstErr r

theorem firstErr_append (a b : List ChunkVariant) : firstErr (a ++ b) =
    match firstErr a with
    | .error e => .error e
    | .ok () => firstErr b := by
  induction a with
  | nil => simp [firstErr]
  | cons v a ih =>
    simp only [List.cons_append, firstErr, ih]
    rcases ownCheck v with e | u <;> simp

mutual
theorem Chunk.first : ∀ c : Chunk, c.validate = firstErr c.nodeList
  | .mk _ (.text s) => by
    simp only [Chunk.validate, ChunkVariant.validate, Chunk.nodeList, firstErr, ownCheck]
    rcases checkSanitised s with e | u <;> rfl
  | .mk _ (.command (.mk l a)) => by
    simp only [Chunk.validate, ChunkVariant.validate, Chunk.nodeList, firstErr, ownCheck, Command.validate, Command.nodeList,
      validateArgs_first a]
    split <;> simp_all
  | .mk _ (.scope (.mk cs v)) => by
    simp only [Chunk.validate, ChunkVariant.validate, Chunk.nodeList, firstErr, ownCheck, Scope.validate, Scope.nodeList,
      validateChunks_first cs]
  | .mk _ (.environment (.mk l a c x y)) => by
    simp only [Chunk.validate, ChunkVariant.validate, Chunk.nodeList, firstErr, ownCheck, Environment.validate, Environment.nodeList,
      validateArgs_first a, validateChunks_first c, firstErr_append]
    rcases checkSanitised l with e | u
    · rfl
    · rcases firstErr (nodeListArgs a) with e | u <;> rfl
theorem Scope.first : ∀ s : Scope, s.validate = firstErr s.nodeList
  | .mk cs _ => by simp only [Scope.validate, Scope.nodeList, validateChunks_first cs]
theorem validateChunks_first : ∀ cs : List Chunk, validateChunks cs = firstErr (nodeList cs)
  | [] => by simp only [validateChunks, nodeList, firstErr]
  | c :: cs => by
    simp only [validateChunks, nodeList, firstErr_append, Chunk.first c, validateChunks_first cs]
    rcases firstErr c.nodeList with e | u <;> rfl
theorem validateArgs_first : ∀ a : List (Str × Scope), validateArgs a = firstErr (nodeListArgs a)
  | [] => by simp only [validateArgs, nodeListArgs, firstErr]
  | (_, s) :: r => by
    simp only [validateArgs, nodeListArgs, firstErr_append, Scope.first s, validateArgs_first r]
    rcases firstErr s.nodeList with e | u <;> rfl
end

theorem ownCheck_ok (v : ChunkVariant) : ownCheck v = .ok () ↔ NodeOk v := by
  cases v with
  | text s => rw [ownCheck, checkSanitised_ok_iff]; rfl
  | command c => obtain ⟨l, a⟩ := c; rw [ownCheck, checkLabel_ok_iff]; rfl
  | scope s => simp [ownCheck, NodeOk]
  | environment e => obtain ⟨l, a, c, x, y⟩ := e; rw [ownCheck, checkSanitised_ok_iff]; rfl

theorem ownCheck_error (v : ChunkVariant) (e : InternalError) : ownCheck v = .error e ↔ OwnFault v e := by
  constructor
  · intro h
    cases v with
    | text s =>
      obtain ⟨c, hc, rfl⟩ := (checkSanitised_error_iff s e).1 h
      exact .text hc
    | command c =>
      obtain ⟨l, a⟩ := c
      rcases (checkLabel_error_iff l e).1 h with ⟨rfl, rfl⟩ | ⟨rfl, rfl⟩ | ⟨hl, c, hc, rfl⟩
      · exact .begin_
      · exact .end_
      · exact .label hl hc
    | scope s => cases h
    | environment x =>
      obtain ⟨l, a, c, x, y⟩ := x
      obtain ⟨c, hc, rfl⟩ := (checkSanitised_error_iff l e).1 h
      exact .environment hc
  · intro h
    cases h with
    | text hc => exact (checkSanitised_error_iff _ _).2 ⟨_, hc, rfl⟩
    | begin_ => rfl
    | end_ => rfl
    | label hl hc => exact (checkLabel_error_iff _ _).2 (.inr (.inr ⟨hl, _, hc, rfl⟩))
    | environment hc => exact (checkSanitised_error_iff _ _).2 ⟨_, hc, rfl⟩

theorem firstErr_error (l : List ChunkVariant) (e : InternalError) : firstErr l = .error e ↔
    ∃ a v b, l = a ++ v :: b ∧ (∀ w ∈ a, NodeOk w) ∧ OwnFault v e := by
  induction l with
  | nil => simp [firstErr]
  | cons v r ih =>
    simp only [firstErr]
    rcases hv : ownCheck v with e' | u
    · simp only [Except.error.injEq]
      constructor
      · rintro rfl; exact ⟨[], v, r, rfl, by simp, (ownCheck_error v _).1 hv⟩
      · rintro ⟨a, w, b, h1, h2, h3⟩
        cases a with
        | nil =>
          simp at h1
          obtain ⟨rfl, rfl⟩ := h1
          rw [(ownCheck_error _ _).2 h3] at hv
          cases hv; rfl
        | cons x a =>
          simp at h1
          have := (ownCheck_ok v).2 (h2 v (by simp [h1.1]))
          rw [this] at hv; cases hv
    · simp only [ih]
      constructor
      · rintro ⟨a, w, b, rfl, h2, h3⟩
        refine ⟨v :: a, w, b, rfl, ?_, h3⟩
        intro x hx
        rcases List.mem_cons.1 hx with rfl | hx
        · exact (ownCheck_ok _).1 hv
        · exact h2 x hx
      · rintro ⟨a, w, b, h1, h2, h3⟩
        cases a with
        | nil =>
          simp at h1
          obtain ⟨rfl, rfl⟩ := h1
          rw [(ownCheck_error _ _).2 h3] at hv
          cases hv
        | cons x a =>
          simp at h1
          exact ⟨a, w, b, h1.2, fun y hy => h2 y (by simp [hy]), h3⟩

theorem validateChunks_error (cs : List Chunk) (e : InternalError) : validateChunks cs = .error e ↔ FirstFault cs e := by
  rw [validateChunks_first, firstErr_error]; rfl

theorem Chunk.validate_error (c : Chunk) (e : InternalError) : c.validate = .error e ↔ FirstFault [c] e := by
  rw [Chunk.first, firstErr_error]; simp [FirstFault, Ast2.nodeList]

theorem validateFrom_error (n : Nat) (d : List Chunk) (e : InternalError) :
    Document.validateFrom n d = .error e ↔ ∃ pre c post, d = pre ++ c :: post ∧ (NumberedFrom n pre ∧ ∀ v, Within pre v → NodeOk v) ∧
    ((c.lineNo ≠ n + (displayChunks pre).count '\n' ∧
        e = .incorrectChunkLineNumber (n + (displayChunks pre).count '\n') c.lineNo) ∨
     (c.lineNo = n + (displayChunks pre).count '\n' ∧ FirstFault [c] e)) := by
  induction d generalizing n with
  | nil => simp [Document.validateFrom]
  | cons c cs ih =>
    have hl : c.lines - 1 = c.display.count '\n' := by
      rw [Chunk.lines_eq, newlines_eq_count]; simp
    simp only [Document.validateFrom]
    constructor
    · intro h
      by_cases hn : c.lineNo = n
      · simp only [hn, ne_eq, not_true_eq_false, if_false] at h
        rcases hv : c.validate with e' | u
        · rw [hv] at h
          cases h
          exact ⟨[], c, cs, rfl, ⟨numberedFrom_nil n, fun v hw => by cases hw <;> simp_all⟩,
            .inr ⟨by simpa [displayChunks] using hn, (Chunk.validate_error c e).1 hv⟩⟩
        · rw [hv] at h
          obtain ⟨pre, c', post, rfl, ⟨h1, h2⟩, h3⟩ := (ih _).1 h
          refine ⟨c :: pre, c', post, rfl, ⟨(numberedFrom_cons n c pre).2 ⟨hn, h1⟩, ?_⟩, ?_⟩
          · refine (allChunks_iff _).1 ⟨(Chunk.validate_iff c).1 hv, (allChunks_iff _).2 h2⟩
          · rw [displayChunks_cons, List.count_append, ← Nat.add_assoc, ← hl]; exact h3
      · simp only [hn, ne_eq, not_false_eq_true, if_true, Except.error.injEq] at h
        exact ⟨[], c, cs, rfl, ⟨numberedFrom_nil n, fun v hw => by cases hw <;> simp_all⟩,
          .inl ⟨by simpa [displayChunks] using hn, by simp [displayChunks, h]⟩⟩
    · rintro ⟨pre, c', post, hd, ⟨h1, h2⟩, h3⟩
      cases pre with
      | nil =>
        simp at hd
        obtain ⟨rfl, rfl⟩ := hd
        simp only [displayChunks, List.count_nil, Nat.add_zero] at h3
        rcases h3 with ⟨h4, rfl⟩ | ⟨h4, h5⟩
        · simp [h4]
        · simp [h4, (Chunk.validate_error _ e).2 h5]
      | cons x pre =>
        simp only [List.cons_append, List.cons.injEq] at hd
        obtain ⟨rfl, rfl⟩ := hd
        rw [numberedFrom_cons] at h1
        have h2' := (allChunks_iff _).2 h2
        have hv := (Chunk.validate_iff c).2 h2'.1
        simp only [h1.1, ne_eq, not_true_eq_false, if_false, hv]
        refine (ih _).2 ⟨pre, c', post, rfl, ⟨h1.2, (allChunks_iff _).1 h2'.2⟩, ?_⟩
        rw [displayChunks_cons, List.count_append, ← Nat.add_assoc, ← hl] at h3; exact h3

mutual
theorem Chunk.nodeList_all (P : ChunkVariant → Prop) : ∀ c : Chunk, c.All P ↔ ∀ v ∈ c.nodeList, P v
  | .mk _ (.text s) => by simp [Chunk.All, ChunkVariant.All, Chunk.nodeList]
  | .mk _ (.command (.mk l a)) => by
    simp [Chunk.All, ChunkVariant.All, Chunk.nodeList, Command.All, Command.nodeList, nodeListArgs_all P a]
  | .mk _ (.scope (.mk cs v)) => by
    simp [Chunk.All, ChunkVariant.All, Chunk.nodeList, Scope.All, Scope.nodeList, nodeList_all P cs]
  | .mk _ (.environment (.mk l a c x y)) => by
    simp [Chunk.All, ChunkVariant.All, Chunk.nodeList, Environment.All, Environment.nodeList, nodeList_all P c, nodeListArgs_all P a,
      or_imp, forall_and]
theorem nodeList_all (P : ChunkVariant → Prop) : ∀ cs : List Chunk, AllChunks P cs ↔ ∀ v ∈ nodeList cs, P v
  | [] => by simp [AllChunks, nodeList]
  | c :: cs => by simp [AllChunks, nodeList, Chunk.nodeList_all P c, nodeList_all P cs, or_imp, forall_and]
theorem nodeListArgs_all (P : ChunkVariant → Prop) : ∀ a : List (Str × Scope), AllArgs P a ↔ ∀ v ∈ nodeListArgs a, P v
  | [] => by simp [AllArgs, nodeListArgs]
  | (_, .mk cs _) :: r => by
    simp [AllArgs, nodeListArgs, Scope.All, Scope.nodeList, nodeList_all P cs, nodeListArgs_all P r, or_imp, forall_and]
end

/-- `nodeList` lists exactly the nodes. -/
theorem nodeList_within (d : List Chunk) (v : ChunkVariant) : v ∈ nodeList d ↔ Within d v := by
  constructor
  · intro h
    have := (nodeList_all (fun v => Within d v) d).1 ((allChunks_iff d).2 fun v hv => hv)
    exact this v h
  · intro h
    have := (allChunks_iff d).1 ((nodeList_all (fun v => v ∈ nodeList d) d).2 fun v hv => hv)
    exact this v h

end Ast2

namespace Ast3
theorem gap_prefix {a b : Str} (h : Spec.ParagraphGap a) : Spec.ParagraphGap (a ++ b) := by
  obtain ⟨x, w, y, rfl, hw⟩ := h
  exact ⟨x, w, y ++ b, by simp, hw⟩

theorem gap_tail_nl {s : Str} (h : ¬ Spec.ParagraphGap ('\n' :: s)) : ¬ Spec.ParagraphGap s := fun hs => h (gap_cons hs)

theorem checkText_split (consec : Bool) (a b : Str) (h : checkText consec a = .ok ()) :
    ∃ consec', checkText consec (a ++ b) = checkText consec' b ∧
      ∀ b', checkText consec (a ++ b') = checkText consec' b' := by
  induction a generalizing consec with
  | nil => exact ⟨consec, rfl, fun _ => rfl⟩
  | cons c a ih =>
    simp only [checkText, List.cons_append] at h ⊢
    by_cases h1 : isSpecial c = true
    · simp [h1] at h
    · simp only [h1, if_false] at h ⊢
      by_cases h2 : c = '\n'
      · subst h2
        cases consec with
        | true => simp at h
        | false => simp at h; obtain ⟨k, hk⟩ := ih true h; exact ⟨k, by simpa using hk⟩
      · simp only [h2, if_false] at h ⊢
        by_cases h3 : isWhitespace c = true
        · simp only [h3, if_true] at h ⊢; exact ih _ h
        · simp only [h3] at h ⊢; exact ih _ h

theorem checkText_ok_false (s : Str) : checkText false s = .ok () ↔ Spec.Sanitised s ∧ ¬ Spec.ParagraphGap s := by
  rw [checkText_ok_iff]; simp

theorem checkText_special {a b : Str} {c : Char} (h1 : Spec.Sanitised a) (h2 : ¬ Spec.ParagraphGap a) (hc : Spec.Special c) :
    checkText false (a ++ c :: b) = .error (.unsanitisedCharInString c) := by
  obtain ⟨k, hk, _⟩ := checkText_split false a (c :: b) ((checkText_ok_false a).2 ⟨h1, h2⟩)
  rw [hk]; simp [checkText, (isSpecial_iff c).2 hc]

theorem checkText_gap {a b : Str} (h1 : Spec.Sanitised a) (h2 : ¬ Spec.ParagraphGap a) (hg : Spec.ParagraphGap (a ++ ['\n'])) :
    checkText false (a ++ '\n' :: b) = .error .unbrokenParagraph := by
  obtain ⟨k, hk, hk'⟩ := checkText_split false a ('\n' :: b) ((checkText_ok_false a).2 ⟨h1, h2⟩)
  have hn : isSpecial '\n' = false := by decide
  have : checkText false (a ++ ['\n']) ≠ .ok () := by
    rw [ne_eq, checkText_ok_false]; simp [hg]
  rw [hk'] at this
  rw [hk]
  cases k with
  | true => simp [checkText, hn]
  | false => simp [checkText, hn] at this

theorem checkText_error {s : Str} {e : InternalError} (h : checkText false s = .error e) :
    ∃ a c b, s = a ++ c :: b ∧ Spec.Sanitised a ∧ ¬ Spec.ParagraphGap a ∧
      ((Spec.Special c ∧ e = .unsanitisedCharInString c) ∨
       (c = '\n' ∧ Spec.ParagraphGap (a ++ ['\n']) ∧ e = .unbrokenParagraph)) := by
  -- the longest accepted prefix
  have key : ∀ (b a : Str), checkText false a = .ok () → checkText false (a ++ b) = .error e →
      ∃ a' c b', a ++ b = a' ++ c :: b' ∧ checkText false a' = .ok () ∧ checkText false (a' ++ [c]) ≠ .ok () := by
    intro b
    induction b with
    | nil => intro a h1 h2; simp [h1] at h2
    | cons c b ih =>
      intro a h1 h2
      by_cases hc : checkText false (a ++ [c]) = .ok ()
      · obtain ⟨a', c', b', h3, h4⟩ := ih (a ++ [c]) hc (by simpa using h2)
        exact ⟨a', c', b', by simpa using h3, h4⟩
      · exact ⟨a, c, b, rfl, h1, hc⟩
  obtain ⟨a, c, b, hs, h1, h2⟩ := key s [] rfl (by simpa using h)
  simp only [List.nil_append] at hs
  subst hs
  obtain ⟨h3, h4⟩ := (checkText_ok_false a).1 h1
  obtain ⟨k, hk, hk'⟩ := checkText_split false a (c :: b) h1
  rw [hk'] at h2
  rw [hk] at h
  refine ⟨a, c, b, rfl, h3, h4, ?_⟩
  by_cases hc : isSpecial c = true
  · simp only [checkText, hc, if_true, Except.error.injEq] at h
    exact .inl ⟨(isSpecial_iff c).1 hc, h.symm⟩
  · by_cases hn : c = '\n'
    · subst hn
      cases k with
      | false => simp [checkText, hc] at h2
      | true =>
        simp only [checkText, hc, if_false, if_true, Except.error.injEq] at h
        refine .inr ⟨rfl, ?_, by simpa using h.symm⟩
        have : checkText false (a ++ ['\n']) ≠ .ok () := by rw [hk']; exact h2
        rw [ne_eq, checkText_ok_false] at this
        by_cases hg : Spec.ParagraphGap (a ++ ['\n'])
        · exact hg
        · refine absurd ⟨?_, hg⟩ this
          intro x hx
          rcases List.mem_append.1 hx with hx | hx
          · exact h3 x hx
          · simp only [List.mem_singleton] at hx; subst hx
            rw [← isSpecial_iff]; exact hc
    · by_cases hw : isWhitespace c = true <;> simp [checkText, hc, hn, hw] at h2

theorem checkBreak_notBlank {n : Nat} {s : Str} (h : ¬ Spec.Blank s) : checkBreak n s = .error .paragraphBreakNonwhitespace := by
  induction s generalizing n with
  | nil => simp [Spec.Blank] at h
  | cons c s ih =>
    simp only [checkBreak]
    by_cases hc : isWhitespace c = true
    · have : ¬ Spec.Blank s := by
        intro hs; apply h; intro x hx
        rcases List.mem_cons.1 hx with rfl | hx
        · exact hc
        · exact hs x hx
      simp [hc, ih this]
    · simp [hc]

theorem checkBreak_tooShort {n : Nat} {s : Str} (h : Spec.Blank s) (hn : n + s.count '\n' < 2) :
    checkBreak n s = .error .paragraphBreakTooShort := by
  induction s generalizing n with
  | nil => simp at hn; simp [checkBreak, hn]
  | cons c s ih =>
    have hc := h c (by simp)
    have hs : Spec.Blank s := fun x hx => h x (by simp [hx])
    simp only [checkBreak, hc]
    by_cases h2 : c = '\n'
    · subst h2; simp only [List.count_cons_self] at hn; simp [ih hs (n := n + 1) (by omega)]
    · rw [List.count_cons_of_ne h2] at hn; simp [h2, ih hs hn]

theorem checkBreak_error {s : Str} {e : InternalError} (h : checkBreak 0 s = .error e) :
    (¬ Spec.Blank s ∧ e = .paragraphBreakNonwhitespace) ∨
    (Spec.Blank s ∧ 0 + s.count '\n' < 2 ∧ e = .paragraphBreakTooShort) := by
  by_cases hb : Spec.Blank s
  · by_cases hc : s.count '\n' < 2
    · rw [checkBreak_tooShort hb (by simpa using hc)] at h
      cases h; exact .inr ⟨hb, by simpa using hc, rfl⟩
    · have := (checkBreak_ok_iff 0 s).2 ⟨hb, by omega⟩
      rw [this] at h; cases h
  · rw [checkBreak_notBlank hb] at h
    cases h; exact .inl ⟨hb, rfl⟩
end Ast3

namespace Ast3
/-- The check of a node itself. -/
def ownCheck : ChunkVariant → Except InternalError Unit
  | .text s => checkText false s
  | .paragraphBreak s => checkBreak 0 s
  | .command (.mk label _) => checkLabel label
  | .scope _ => .ok ()
  | .environment (.mk label _ _ _ _) => checkSanitised label
  | .mathsBlock _ => .ok ()

/-- The first error. -/
def firstErr : List ChunkVariant → Except InternalError Unit
  | [] => .ok ()
  | v :: r =>
    match ownCheck v with
    | .error e => .error e
    | .ok () => firstErr r

theorem firstErr_append (a b : List ChunkVariant) : firstErr (a ++ b) =
    match firstErr a with
    | .error e => .error e
    | .ok () => firstErr b := by
  induction a with
  | nil => simp [firstErr]
  | cons v a ih =>
    simp only [List.cons_append, firstErr, ih]
    rcases ownCheck v with e | u <;> simp

mutual
theorem Chunk.first : ∀ c : Chunk, c.validate = firstErr c.nodeList
  | .mk _ (.text s) => by
    simp only [Chunk.validate, ChunkVariant.validate, Chunk.nodeList, firstErr, ownCheck]
    rcases checkText false s with e | u <;> rfl
  | .mk _ (.paragraphBreak s) => by
    simp only [Chunk.validate, ChunkVariant.validate, Chunk.nodeList, firstErr, ownCheck]
    rcases checkBreak 0 s with e | u <;> rfl
  | .mk _ (.command (.mk l a)) => by
    simp only [Chunk.validate, ChunkVariant.validate, Chunk.nodeList, firstErr, ownCheck, Command.validate, Command.nodeList,
      validateArgs_first a]
    split <;> simp_all
  | .mk _ (.scope (.mk cs v)) => by
    simp only [Chunk.validate, ChunkVariant.validate, Chunk.nodeList, firstErr, ownCheck, Scope.validate, Scope.nodeList,
      validateChunks_first cs]
  | .mk _ (.environment (.mk l a c x y)) => by
    simp only [Chunk.validate, ChunkVariant.validate, Chunk.nodeList, firstErr, ownCheck, Environment.validate, Environment.nodeList,
      validateArgs_first a, validateChunks_first c, firstErr_append]
    rcases checkSanitised l with e | u
    · rfl
    · rcases firstErr (nodeListArgs a) with e | u <;> rfl
  | .mk _ (.mathsBlock (.mk v t c)) => by
    simp only [Chunk.validate, ChunkVariant.validate, Chunk.nodeList, firstErr, ownCheck, MathsBlock.validate, MathsBlock.nodeList,
      validateChunks_first c]
theorem Scope.first : ∀ s : Scope, s.validate = firstErr s.nodeList
  | .mk cs _ => by simp only [Scope.validate, Scope.nodeList, validateChunks_first cs]
theorem validateChunks_first : ∀ cs : List Chunk, validateChunks cs = firstErr (nodeList cs)
  | [] => by simp only [validateChunks, nodeList, firstErr]
  | c :: cs => by
    simp only [validateChunks, nodeList, firstErr_append, Chunk.first c, validateChunks_first cs]
    rcases firstErr c.nodeList with e | u <;> rfl
theorem validateArgs_first : ∀ a : List (Str × Scope), validateArgs a = firstErr (nodeListArgs a)
  | [] => by simp only [validateArgs, nodeListArgs, firstErr]
  | (_, s) :: r => by
    simp only [validateArgs, nodeListArgs, firstErr_append, Scope.first s, validateArgs_first r]
    rcases firstErr s.nodeList with e | u <;> rfl
end

theorem ownCheck_ok (v : ChunkVariant) : ownCheck v = .ok () ↔ NodeOk v := by
  cases v with
  | text s => rw [ownCheck, checkText_ok_iff]; simp [NodeOk]
  | paragraphBreak s => rw [ownCheck, checkBreak_ok_iff]; simp [NodeOk]
  | mathsBlock m => simp [ownCheck, NodeOk]
  | command c => obtain ⟨l, a⟩ := c; rw [ownCheck, checkLabel_ok_iff]; rfl
  | scope s => simp [ownCheck, NodeOk]
  | environment e => obtain ⟨l, a, c, x, y⟩ := e; rw [ownCheck, checkSanitised_ok_iff]; rfl

theorem ownCheck_error (v : ChunkVariant) (e : InternalError) : ownCheck v = .error e ↔ OwnFault v e := by
  constructor
  · intro h
    cases v with
    | text s =>
      obtain ⟨a, c, b, rfl, h1, h2, h3⟩ := checkText_error h
      rcases h3 with ⟨hc, rfl⟩ | ⟨rfl, hg, rfl⟩
      · exact .special h1 h2 hc
      · exact .gap h1 h2 hg
    | paragraphBreak s =>
      rcases checkBreak_error h with ⟨hb, rfl⟩ | ⟨hb, hc, rfl⟩
      · exact .notBlank hb
      · exact .tooShort hb (by simpa using hc)
    | mathsBlock m => cases h
    | command c =>
      obtain ⟨l, a⟩ := c
      rcases (checkLabel_error_iff l e).1 h with ⟨rfl, rfl⟩ | ⟨rfl, rfl⟩ | ⟨hl, c, hc, rfl⟩
      · exact .begin_
      · exact .end_
      · exact .label hl hc
    | scope s => cases h
    | environment x =>
      obtain ⟨l, a, c, x, y⟩ := x
      obtain ⟨c, hc, rfl⟩ := (checkSanitised_error_iff l e).1 h
      exact .environment hc
  · intro h
    cases h with
    | special h1 h2 hc => exact checkText_special h1 h2 hc
    | gap h1 h2 hg => exact checkText_gap h1 h2 hg
    | notBlank hb => exact checkBreak_notBlank hb
    | tooShort hb hc => exact checkBreak_tooShort hb (by simpa using hc)
    | begin_ => rfl
    | end_ => rfl
    | label hl hc => exact (checkLabel_error_iff _ _).2 (.inr (.inr ⟨hl, _, hc, rfl⟩))
    | environment hc => exact (checkSanitised_error_iff _ _).2 ⟨_, hc, rfl⟩

theorem firstErr_error (l : List ChunkVariant) (e : InternalError) : firstErr l = .error e ↔
    ∃ a v b, l = a ++ v :: b ∧ (∀ w ∈ a, NodeOk w) ∧ OwnFault v e := by
  induction l with
  | nil => simp [firstErr]
  | cons v r ih =>
    simp only [firstErr]
    rcases hv : ownCheck v with e' | u
    · simp only [Except.error.injEq]
      constructor
      · rintro rfl; exact ⟨[], v, r, rfl, by simp, (ownCheck_error v _).1 hv⟩
      · rintro ⟨a, w, b, h1, h2, h3⟩
        cases a with
        | nil =>
          simp at h1
          obtain ⟨rfl, rfl⟩ := h1
          rw [(ownCheck_error _ _).2 h3] at hv
          cases hv; rfl
        | cons x a =>
          simp at h1
          have := (ownCheck_ok v).2 (h2 v (by simp [h1.1]))
          rw [this] at hv; cases hv
    · simp only [ih]
      constructor
      · rintro ⟨a, w, b, rfl, h2, h3⟩
        refine ⟨v :: a, w, b, rfl, ?_, h3⟩
        intro x hx
        rcases List.mem_cons.1 hx with rfl | hx
        · exact (ownCheck_ok _).1 hv
        · exact h2 x hx
      · rintro ⟨a, w, b, h1, h2, h3⟩
        cases a with
        | nil =>
          simp at h1
          obtain ⟨rfl, rfl⟩ := h1
          rw [(ownCheck_error _ _).2 h3] at hv
          cases hv
        | cons x a =>
          simp at h1
          exact ⟨a, w, b, h1.2, fun y hy => h2 y (by simp [hy]), h3⟩

theorem validateChunks_error (cs : List Chunk) (e : InternalError) : validateChunks cs = .error e ↔ FirstFault cs e := by
  rw [validateChunks_first, firstErr_error]; rfl

theorem Chunk.validate_error (c : Chunk) (e : InternalError) : c.validate = .error e ↔ FirstFault [c] e := by
  rw [Chunk.first, firstErr_error]; simp [FirstFault, Ast3.nodeList]

theorem validateFrom_error (n : Nat) (d : List Chunk) (e : InternalError) :
    validateFrom n d = .error e ↔ ∃ pre c post, d = pre ++ c :: post ∧ (NumberedFrom n pre ∧ ∀ v, Within pre v → NodeOk v) ∧
    ((c.lineNo ≠ n + (displayChunks pre).count '\n' ∧
        e = .incorrectChunkLineNumber (n + (displayChunks pre).count '\n') c.lineNo) ∨
     (c.lineNo = n + (displayChunks pre).count '\n' ∧ FirstFault [c] e)) := by
  induction d generalizing n with
  | nil => simp [validateFrom]
  | cons c cs ih =>
    have hl : c.lines - 1 = c.display.count '\n' := by
      rw [Chunk.lines_eq, newlines_eq_count]; simp
    simp only [validateFrom]
    constructor
    · intro h
      by_cases hn : c.lineNo = n
      · simp only [hn, ne_eq, not_true_eq_false, if_false] at h
        rcases hv : c.validate with e' | u
        · rw [hv] at h
          cases h
          exact ⟨[], c, cs, rfl, ⟨numberedFrom_nil n, fun v hw => by cases hw <;> simp_all⟩,
            .inr ⟨by simpa [displayChunks] using hn, (Chunk.validate_error c e).1 hv⟩⟩
        · rw [hv] at h
          obtain ⟨pre, c', post, rfl, ⟨h1, h2⟩, h3⟩ := (ih _).1 h
          refine ⟨c :: pre, c', post, rfl, ⟨(numberedFrom_cons n c pre).2 ⟨hn, h1⟩, ?_⟩, ?_⟩
          · refine (allChunks_iff _).1 ⟨(Chunk.validate_iff c).1 hv, (allChunks_iff _).2 h2⟩
          · rw [displayChunks_cons, List.count_append, ← Nat.add_assoc, ← hl]; exact h3
      · simp only [hn, ne_eq, not_false_eq_true, if_true, Except.error.injEq] at h
        exact ⟨[], c, cs, rfl, ⟨numberedFrom_nil n, fun v hw => by cases hw <;> simp_all⟩,
          .inl ⟨by simpa [displayChunks] using hn, by simp [displayChunks, h]⟩⟩
    · rintro ⟨pre, c', post, hd, ⟨h1, h2⟩, h3⟩
      cases pre with
      | nil =>
        simp at hd
        obtain ⟨rfl, rfl⟩ := hd
        simp only [displayChunks, List.count_nil, Nat.add_zero] at h3
        rcases h3 with ⟨h4, rfl⟩ | ⟨h4, h5⟩
        · simp [h4]
        · simp [h4, (Chunk.validate_error _ e).2 h5]
      | cons x pre =>
        simp only [List.cons_append, List.cons.injEq] at hd
        obtain ⟨rfl, rfl⟩ := hd
        rw [numberedFrom_cons] at h1
        have h2' := (allChunks_iff _).2 h2
        have hv := (Chunk.validate_iff c).2 h2'.1
        simp only [h1.1, ne_eq, not_true_eq_false, if_false, hv]
        refine (ih _).2 ⟨pre, c', post, rfl, ⟨h1.2, (allChunks_iff _).1 h2'.2⟩, ?_⟩
        rw [displayChunks_cons, List.count_append, ← Nat.add_assoc, ← hl] at h3; exact h3

mutual
theorem Chunk.nodeList_all (P : ChunkVariant → Prop) : ∀ c : Chunk, c.All P ↔ ∀ v ∈ c.nodeList, P v
  | .mk _ (.text s) => by simp [Chunk.All, ChunkVariant.All, Chunk.nodeList]
  | .mk _ (.paragraphBreak s) => by simp [Chunk.All, ChunkVariant.All, Chunk.nodeList]
  | .mk _ (.command (.mk l a)) => by
    simp [Chunk.All, ChunkVariant.All, Chunk.nodeList, Command.All, Command.nodeList, nodeListArgs_all P a]
  | .mk _ (.scope (.mk cs v)) => by
    simp [Chunk.All, ChunkVariant.All, Chunk.nodeList, Scope.All, Scope.nodeList, nodeList_all P cs]
  | .mk _ (.environment (.mk l a c x y)) => by
    simp [Chunk.All, ChunkVariant.All, Chunk.nodeList, Environment.All, Environment.nodeList, nodeList_all P c, nodeListArgs_all P a,
      or_imp, forall_and]
  | .mk _ (.mathsBlock (.mk v t c)) => by
    simp [Chunk.All, ChunkVariant.All, Chunk.nodeList, MathsBlock.All, MathsBlock.nodeList, nodeList_all P c]
theorem nodeList_all (P : ChunkVariant → Prop) : ∀ cs : List Chunk, AllChunks P cs ↔ ∀ v ∈ nodeList cs, P v
  | [] => by simp [AllChunks, nodeList]
  | c :: cs => by simp [AllChunks, nodeList, Chunk.nodeList_all P c, nodeList_all P cs, or_imp, forall_and]
theorem nodeListArgs_all (P : ChunkVariant → Prop) : ∀ a : List (Str × Scope), AllArgs P a ↔ ∀ v ∈ nodeListArgs a, P v
  | [] => by simp [AllArgs, nodeListArgs]
  | (_, .mk cs _) :: r => by
    simp [AllArgs, nodeListArgs, Scope.All, Scope.nodeList, nodeList_all P cs, nodeListArgs_all P r, or_imp, forall_and]
end

/-- `nodeList` lists exactly the nodes. -/
theorem nodeList_within (d : List Chunk) (v : ChunkVariant) : v ∈ nodeList d ↔ Within d v := by
  constructor
  · intro h
    have := (nodeList_all (fun v => Within d v) d).1 ((allChunks_iff d).2 fun v hv => hv)
    exact this v h
  · intro h
    have := (allChunks_iff d).1 ((nodeList_all (fun v => v ∈ nodeList d) d).2 fun v hv => hv)
    exact this v h

end Ast3

end LatexAst

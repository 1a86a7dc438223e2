import Verif.Proofs.ForthBack2
import Verif.Props.Sharp
import Verif.Spec.ForthBack
import Verif.Model.Eq2

/-!
# C114: going to stage 1 and back to stage 2; and C53 for every document

`Spec/Atoms.lean` defines `Alike` (the same, apart from line numbers and from how texts are cut up).
-/

namespace LatexAst.Ast2
open Ast1 (Opened Matched Checked)

/-! ### C53 for every document -/

/-- C53 for every stage-1 document, however it is numbered: what the conversion gives, panics included, is what the rule gives. -/
theorem C53_any (d : Ast1.Document) (r : Res Document) : tryFrom d = r ↔ Meets d r := meets_iff d r

/-- C53: and it agrees with the rule for documents numbered in order, whenever it does not panic. -/
theorem C53_any_plain (d : Ast1.Document) (h : tryFrom d ≠ .error .panic) :
    (∀ e, tryFrom d = .ok e → Converts d (.ok e)) ∧ (∀ x, tryFrom d = .error (.err x) → Converts d (.error x)) :=
  ⟨fun _ he => tryFrom_converts he, fun _ he => tryFrom_converts_error he⟩

/-- A text above the `\begin` of its environment. -/
theorem C53_any_example : Meets [.mk 3 (.command (.mk chars!"begin" [([], .mk [.mk 1 (.text chars!"a")] .curly)])), .mk 2 (.text chars!"x"),
      .mk 4 (.command (.mk chars!"end" [([], .mk [.mk 1 (.text chars!"a")] .curly)]))] (.error .panic) ∧
    tryFrom [.mk 3 (.command (.mk chars!"begin" [([], .mk [.mk 1 (.text chars!"a")] .curly)])), .mk 2 (.text chars!"x"),
      .mk 4 (.command (.mk chars!"end" [([], .mk [.mk 1 (.text chars!"a")] .curly)]))] = .error .panic := by
  have h : Meets [.mk 3 (.command (.mk chars!"begin" [([], .mk [.mk 1 (.text chars!"a")] .curly)])), .mk 2 (.text chars!"x"),
      .mk 4 (.command (.mk chars!"end" [([], .mk [.mk 1 (.text chars!"a")] .curly)]))] (.error .panic) :=
    .above (body := []) (.other .nil (by rintro ⟨_, _, h, _⟩; cases h)) (by simp [NotAbove]) (by decide)
  exact ⟨h, (C53_any _ _).2 h⟩

/-! ### C114 -/

mutual
/-- No `\begin` or `\end` in it. -/
def Atom.Free : Atom → Prop
  | .char _ => True
  | .scope _ inner => FreeAtoms inner
  | .command label args => (label ≠ chars!"begin" ∧ label ≠ chars!"end") ∧ FreeArgs args
  | .environment _ args content _ _ => FreeArgs args ∧ FreeAtoms content
/-- See above. -/
def AtomArg.Free : AtomArg → Prop
  | .mk _ _ inner => FreeAtoms inner
/-- See above. -/
def FreeAtoms : List Atom → Prop
  | [] => True
  | a :: r => a.Free ∧ FreeAtoms r
/-- See above. -/
def FreeArgs : List AtomArg → Prop
  | [] => True
  | a :: r => a.Free ∧ FreeArgs r
end

theorem freeAtoms_append (a b : List Atom) : FreeAtoms (a ++ b) ↔ FreeAtoms a ∧ FreeAtoms b := by
  induction a with
  | nil => simp [FreeAtoms]
  | cons x a ih => simp [FreeAtoms, ih, and_assoc]

theorem freeAtoms_chars (t : Str) : FreeAtoms (t.map .char) := by
  induction t with
  | nil => simp [FreeAtoms]
  | cons x a ih => simp [FreeAtoms, ih, Atom.Free]

mutual
theorem freeV : ∀ v : ChunkVariant, FreeAtoms v.atoms ↔ v.All NotDelim
  | .text t => by simp [ChunkVariant.atoms, freeAtoms_chars, ChunkVariant.All, NotDelim]
  | .scope (.mk inner sv) => by
    simp [ChunkVariant.atoms, Scope.atoms, ChunkVariant.All, NotDelim, FreeAtoms, Atom.Free, freeC inner, Scope.All]
  | .command (.mk label args) => by
    simp [ChunkVariant.atoms, Command.atom, ChunkVariant.All, NotDelim, FreeAtoms, Atom.Free, freeA args, Command.All]
  | .environment (.mk label args content pb pe) => by
    simp [ChunkVariant.atoms, Environment.atom, ChunkVariant.All, NotDelim, FreeAtoms, Atom.Free, freeA args, freeC content, Environment.All]
theorem freeA : ∀ args : List (Str × Scope), FreeArgs (argAtoms args) ↔ AllArgs NotDelim args
  | [] => by simp [argAtoms, FreeArgs, AllArgs]
  | (p, .mk inner sv) :: r => by
    simp [argAtoms, FreeArgs, AllArgs, freeA r, AtomArg.Free, Scope.atoms, freeC inner, Scope.All]
theorem freeC : ∀ cs : List Chunk, FreeAtoms (atoms cs) ↔ AllChunks NotDelim cs
  | [] => by simp [atoms, FreeAtoms, AllChunks]
  | .mk l v :: cs => by simp [atoms, freeAtoms_append, AllChunks, freeV v, freeC cs, Chunk.All]
end

theorem noBeginOrEnd_iff (e : Document) : NoBeginOrEnd e ↔ AllChunks NotDelim e := by
  rw [allChunks_iff]
  constructor
  · intro h v hv
    cases v with
    | command c => obtain ⟨label, args⟩ := c; exact h _ _ hv
    | text | scope | environment => trivial
  · intro h label args hw
    exact h _ hw

theorem labelsReadable_iff (e : Document) : LabelsReadable e ↔ AllChunks LabelV e := by
  rw [allChunks_iff]
  constructor
  · intro h v hv
    cases v with
    | environment c => obtain ⟨label, args, content, pb, pe⟩ := c; exact h _ _ _ _ _ hv
    | text | scope | command => trivial
  · intro h label args content pb pe hw
    exact h _ hw

/-- C114: a stage-2 document that is converted to stage 1 and back comes back the same, apart from line numbers and from how its texts are
cut up, if and only if it has no `\begin` or `\end` command, and the labels of its environments are readable. -/
theorem C114 (e : Document) (d : Ast1.Document) (e' : Document) (h : toAst1 e = .ok d) (h' : tryFrom d = .ok e') :
    Alike e' e ↔ NoBeginOrEnd e ∧ LabelsReadable e := by
  constructor
  · intro ha
    constructor
    · rw [noBeginOrEnd_iff, ← freeC, ← ha, freeC]
      exact notDelim_tryFrom h'
    · exact (C83 e d h).1 (by rw [← display_tryFrom h']; exact ha.display)
  · rintro ⟨h1, h2⟩
    obtain ⟨xs, hx, rfl⟩ := (C60 e d).1 h
    obtain ⟨_, r, hr, hc⟩ := (hx.comes ((noBeginOrEnd_iff e).1 h1) xs rfl).2
    have := hr.sound
    rw [h'] at this
    subst this
    rcases hc with hc | ⟨e2, hc, hc'⟩
    · cases hc
    · cases hc
      exact hc' ((labelsReadable_iff e).1 h2)

/-- C114: the second conversion never reports an error, if there is no `\begin` or `\end` command: it returns a document, or panics. -/
theorem C114_no_error (e : Document) (d : Ast1.Document) (h : toAst1 e = .ok d) (hn : NoBeginOrEnd e) :
    (∃ e', tryFrom d = .ok e') ∨ tryFrom d = .error .panic := by
  obtain ⟨xs, hx, rfl⟩ := (C60 e d).1 h
  obtain ⟨_, r, hr, hc⟩ := (hx.comes ((noBeginOrEnd_iff e).1 hn) xs rfl).2
  rw [hr.sound]
  rcases hc with hc | ⟨e2, hc, _⟩
  · exact .inr hc
  · exact .inl ⟨e2, hc⟩

theorem display_withInner {items : List ((Str × Ast1.Scope) × List Ast1.Chunk)}
    (h : ∀ x ∈ items, Ast1.displayChunks x.2 = Ast1.displayChunks x.1.2.chunks) :
    Ast1.displayArgs (Ast1.withInner items) = Ast1.displayArgs (items.map (·.1)) := by
  induction items with
  | nil => rfl
  | cons x items ih =>
    obtain ⟨⟨p, ⟨cs, sv⟩⟩, ds⟩ := x
    have h1 : Ast1.displayChunks ds = Ast1.displayChunks cs := h _ (.head _)
    have h2 := ih fun y hy => h y (.tail _ hy)
    simp only [Ast1.withInner, List.map_cons, Ast1.displayArgs, h2, Ast1.Scope.display, Ast1.Scope.variant, h1]

theorem display_displaced {d d'} (h : Ast1.Displaced d d') : Ast1.displayChunks d' = Ast1.displayChunks d := by
  induction h with
  | nil => rfl
  | text _ ih => simp only [Ast1.displayChunks, ih]
  | scope _ _ ih1 ih2 => simp only [Ast1.displayChunks, Ast1.Chunk.display, Ast1.ChunkVariant.display, Ast1.Scope.display, ih1, ih2]
  | command _ _ _ _ ih1 ih2 =>
    simp only [Ast1.displayChunks, Ast1.Chunk.display, Ast1.ChunkVariant.display, Ast1.Command.display, display_withInner ih1, ih2]
  | environment _ _ _ _ _ ih1 ih2 ih3 =>
    simp only [Ast1.displayChunks, Ast1.displayChunks_append, Ast1.Chunk.display, Ast1.ChunkVariant.display, Ast1.Command.display,
      Ast1.displayArgs, display_withInner ih1, ih2, ih3]

/-- C114 for parsed documents: what comes back is alike, or there is a panic; and it is the same, line numbers included, if no `\begin`
has a line break in its arguments. -/
theorem C114_parsed (s : Str) (e : Document) (h : fromStr s = .ok e) :
    ∃ d', toAst1 e = .ok d' ∧ ((∃ e', tryFrom d' = .ok e' ∧ Alike e' e) ∨ tryFrom d' = .error .panic) ∧
      ((∀ d lv l args, Ast1.fromStr s = .ok d → Checked d lv → .mk l (.command (.mk chars!"begin" args)) ∈ lv → '\n' ∉ Ast1.displayArgs args) →
        tryFrom d' = .ok e) := by
  obtain ⟨d, hd, ht⟩ := fromStr_parts h
  obtain ⟨d', hd', hdis⟩ := C82 s d e hd ht
  refine ⟨d', hd', ?_, fun hn => ?_⟩
  · have hn : NoBeginOrEnd e := fun label args hw => C22 d e ht label args hw
    have hl : LabelsReadable e := (C83 e d' hd').1 (by rw [display_tryFrom ht]; exact display_displaced hdis)
    rcases C114_no_error e d' hd' hn with ⟨e', he'⟩ | hp
    · exact .inl ⟨e', he', (C114 e d' e' hd' he').2 ⟨hn, hl⟩⟩
    · exact .inr hp
  · have := (C82_same s d e hd ht).2 fun lv l args hl hm => hn d lv l args hd hl hm
    rw [hd'] at this
    cases this
    exact ht

/-- A document with adjacent texts and an environment in an argument. -/
def forthExample : Document :=
  [.mk 1 (.text chars!"a\n"), .mk 2 (.text chars!"b"),
   .mk 2 (.environment (.mk chars!"x" [] [.mk 1 (.text chars!"u\n"), .mk 2 (.text chars!"v"),
     .mk 2 (.command (.mk chars!"c" [([], .mk [.mk 1 (.environment (.mk chars!"y" [] [.mk 1 (.text chars!"w")] [] []))] .square)]))] [] []))]

/-- It comes back alike, its adjacent texts put together. -/
theorem C114_example : ∃ d e', toAst1 forthExample = .ok d ∧ tryFrom d = .ok e' ∧ Alike e' forthExample ∧ e' ≠ forthExample ∧ NoBeginOrEnd forthExample := by
  have h : (match toAst1 forthExample with
      | .ok d => (match tryFrom d with
        | .ok e' => !beqChunks e' forthExample
        | _ => false)
      | _ => false) = true := by decide +kernel
  have h1 : ∀ l, (l = chars!"x" ∨ l = chars!"y") → ReadableLabel l := by
    rintro l (rfl | rfl)
    · exact ⟨[.mk 1 (.text chars!"x")], by decide +kernel, by decide +kernel⟩
    · exact ⟨[.mk 1 (.text chars!"y")], by decide +kernel, by decide +kernel⟩
  have hn : NoBeginOrEnd forthExample := by
    rw [noBeginOrEnd_iff]
    simp [forthExample, AllChunks, Chunk.All, ChunkVariant.All, NotDelim, Command.All, AllArgs, Scope.All, Environment.All]
  have hl : LabelsReadable forthExample := by
    rw [labelsReadable_iff]
    simp [forthExample, AllChunks, Chunk.All, ChunkVariant.All, LabelV, Command.All, AllArgs, Scope.All, Environment.All, h1]
  split at h
  · rename_i d hd
    split at h
    · rename_i e' he'
      refine ⟨d, e', hd, he', (C114 _ _ _ hd he').2 ⟨hn, hl⟩, ?_, hn⟩
      rintro rfl
      rw [(beqChunks_iff _ _).2 rfl] at h
      cases h
    · cases h
  · cases h

/-- Neither condition can be dropped: a `\begin` command becomes an environment with the `\end` command, and a label with a comment loses it. -/
theorem C114_needed :
    (∃ e d e', toAst1 e = .ok d ∧ tryFrom d = .ok e' ∧ LabelsReadable e ∧ ¬ Alike e' e) ∧
    (∃ e d e', toAst1 e = .ok d ∧ tryFrom d = .ok e' ∧ NoBeginOrEnd e ∧ ¬ Alike e' e) := by
  constructor
  · refine ⟨[.mk 1 (.command (.mk chars!"begin" [([], .mk [.mk 1 (.text chars!"a")] .curly)])), .mk 1 (.command (.mk chars!"end" [([], .mk [.mk 1 (.text chars!"a")] .curly)]))], _, _,
      show _ = Except.ok [.mk 1 (.command (.mk chars!"begin" [([], .mk [.mk 1 (.text chars!"a")] .curly)])), .mk 1 (.command (.mk chars!"end" [([], .mk [.mk 1 (.text chars!"a")] .curly)]))] by decide +kernel,
      show _ = Except.ok [.mk 1 (.environment (.mk chars!"a" [] [] [] []))] by decide +kernel, ?_, ?_⟩
    · rw [labelsReadable_iff]
      simp [AllChunks, Chunk.All, ChunkVariant.All, LabelV, Command.All, AllArgs, Scope.All]
    · simp [Alike, atoms, ChunkVariant.atoms, Environment.atom, Command.atom]
  · refine ⟨[.mk 1 (.environment (.mk chars!"a%b" [] [] [] []))], _, _,
      show _ = Except.ok [.mk 1 (.command (.mk chars!"begin" [([], .mk [.mk 1 (.text chars!"a")] .curly)])), .mk 1 (.command (.mk chars!"end" [([], .mk [.mk 1 (.text chars!"a")] .curly)]))] by decide +kernel,
      show _ = Except.ok [.mk 1 (.environment (.mk chars!"a" [] [] [] []))] by decide +kernel, ?_, ?_⟩
    · rw [noBeginOrEnd_iff]
      simp [AllChunks, Chunk.All, ChunkVariant.All, NotDelim, AllArgs, Environment.All]
    · simp [Alike, atoms, ChunkVariant.atoms, Environment.atom]

/-- Otherwise there is a panic even for parsed documents: there and back the `\begin` has moved down, below what is in the environment. -/
theorem C114_panic : ∃ s e d, fromStr s = .ok e ∧ toAst1 e = .ok d ∧ tryFrom d = .error .panic := by
  have h : (match fromStr chars!"\\begin{a}\n[x]y\\end{a}" with
      | .ok e => (match toAst1 e with
        | .ok d => (match tryFrom d with
          | .error .panic => true
          | _ => false)
        | _ => false)
      | _ => false) = true := by decide +kernel
  split at h
  · rename_i e he
    split at h
    · rename_i d hd
      split at h
      · rename_i hp
        exact ⟨_, e, d, he, hd, hp⟩
      · cases h
    · cases h
  · cases h

end LatexAst.Ast2

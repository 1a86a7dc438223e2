import Verif.Proofs.Nesting
import Verif.Proofs.Tree
import Verif.Props.Parsing

/-! Display, labels and line numbers across the stage-2 conversion. -/

namespace LatexAst.Ast2
open LatexAst.Ast1 (Opened Matched Checked Child)
open Spec

theorem displayArgs_rel {a b} (h : ArgsRel (fun a b => displayChunks b = Ast1.displayChunks a) a b) :
    displayArgs b = Ast1.displayArgs a := by
  induction h with
  | nil => rfl
  | cons h1 _ ih => simp [displayArgs, Ast1.displayArgs, Scope.display, Ast1.Scope.display, h1, ih]

theorem display_rebase (k : Nat) (a : List Ast1.Chunk) :
    Ast1.displayChunks (a.map (rebase1 k)) = Ast1.displayChunks a := by
  induction a with
  | nil => rfl
  | cons c a ih => obtain ⟨l, v⟩ := c; simp [Ast1.displayChunks, ih, rebase1, Ast1.Chunk.display]

theorem display_shape {d e} (h : Shape (fun a b => displayChunks b = Ast1.displayChunks a) d e) :
    displayChunks e = Ast1.displayChunks d := by
  induction h with
  | nil => rfl
  | text _ ih => simp [displayChunks_cons, Ast1.displayChunks_cons, ih, Chunk.display, ChunkVariant.display, Ast1.Chunk.display, Ast1.ChunkVariant.display]
  | scope _ h ih => simp [displayChunks_cons, Ast1.displayChunks_cons, ih, Chunk.display, ChunkVariant.display, Ast1.Chunk.display, Ast1.ChunkVariant.display, Scope.display, Ast1.Scope.display, h]
  | command _ _ _ h ih => simp [displayChunks_cons, Ast1.displayChunks_cons, ih, Chunk.display, ChunkVariant.display, Ast1.Chunk.display, Ast1.ChunkVariant.display, Command.display, Ast1.Command.display, displayArgs_rel h]
  | env _ h1 _ _ h4 ih =>
    rw [display_rebase] at h4
    simp [displayChunks_cons, Ast1.displayChunks_cons, ih, Chunk.display, ChunkVariant.display, Ast1.Chunk.display, Ast1.ChunkVariant.display, Command.display, Ast1.Command.display, displayArgs_rel h1, Environment.display, h4, Ast1.displayArgs, Ast1.Scope.display, ScopeVariant.opening, ScopeVariant.closing]

theorem display_tryFrom {d e} (h : tryFrom d = .ok e) : displayChunks e = Ast1.displayChunks d :=
  conv_induction (P := fun d e => displayChunks e = Ast1.displayChunks d) (fun _ _ => display_shape) h

/-! ### no delimiters -/

def NotDelim : ChunkVariant → Prop
  | .command (.mk label _) => label ≠ chars!"begin" ∧ label ≠ chars!"end"
  | _ => True

theorem notDelim_args {a b} (h : ArgsRel (fun _ b => AllChunks NotDelim b) a b) : AllArgs NotDelim b := by
  induction h with
  | nil => trivial
  | cons h1 _ ih => exact ⟨h1, ih⟩

theorem notDelim_shape {d e} (h : Shape (fun _ b => AllChunks NotDelim b) d e) : AllChunks NotDelim e := by
  induction h with
  | nil => trivial
  | text _ ih => rw [allChunks_append]; exact ⟨ih, trivial, trivial⟩
  | scope _ h ih => rw [allChunks_append]; exact ⟨ih, ⟨trivial, h⟩, trivial⟩
  | command _ h1 h2 h ih => rw [allChunks_append]; exact ⟨ih, ⟨⟨h1, h2⟩, notDelim_args h⟩, trivial⟩
  | env _ h1 _ _ h4 ih => rw [allChunks_append]; exact ⟨ih, ⟨trivial, notDelim_args h1, h4⟩, trivial⟩

theorem notDelim_tryFrom {d e} (h : tryFrom d = .ok e) : AllChunks NotDelim e :=
  conv_induction (P := fun _ e => AllChunks NotDelim e) (fun _ _ => notDelim_shape) h

end LatexAst.Ast2

namespace LatexAst.Ast1
open Spec

/-- Line numbers of one sequence, as far as the conversion cares. -/
def Sane (lv : List Chunk) : Prop :=
  ∀ pre c post, lv = pre ++ c :: post →
    1 + newlines (displayChunks pre) ≤ c.lineNo ∧
    c.lineNo ≤ 1 + newlines (displayChunks pre) + newlines c.display ∧
    ((∀ t, c.variant ≠ .text t) → (∀ args, c.variant ≠ .command (.mk ['\n'] args)) →
      c.lineNo = 1 + newlines (displayChunks pre))

def SaneAll (d : List Chunk) : Prop := ∀ lv, Checked d lv → Sane lv

theorem sane_parsed {s d} (h : fromStr s = .ok d) : SaneAll d := by
  intro lv hl pre c post he
  obtain ⟨h1, h2, h3⟩ := C06_partial s d h lv hl.level pre post c he
  simp only [newlines_eq_count]
  by_cases hc : ∃ args, c.variant = .command (.mk ['\n'] args)
  · have := h1 hc
    obtain ⟨args, hv⟩ := hc
    refine ⟨by omega, ?_, fun _ h => absurd hv (h args)⟩
    obtain ⟨l, v⟩ := c
    simp only [Chunk.variant] at hv
    subst hv
    simp only [Chunk.display, ChunkVariant.display, Command.display]
    simp [List.count_cons] at this ⊢
    omega
  · by_cases ht : ∃ t, c.variant = .text t ∧ post = [] ∧ Blank t ∧ EndsWithLetterCommand pre
    · obtain ⟨t, hv, hp, hb, hlc⟩ := ht
      have := h2 t hv hp hb hlc
      refine ⟨by omega, ?_, fun h => absurd hv (h t)⟩
      obtain ⟨l, v⟩ := c
      simp only [Chunk.variant] at hv
      subst hv
      simp only [Chunk.display, ChunkVariant.display]
      omega
    · have := h3 hc ht
      refine ⟨by omega, by omega, fun _ _ => this⟩

theorem Sane.begin_exact {lv pre l args post} (h : Sane lv)
    (he : lv = pre ++ .mk l (.command (.mk chars!"begin" args)) :: post) :
    l = 1 + newlines (displayChunks pre) :=
  (h _ _ _ he).2.2 (by simp [Chunk.variant]) (by simp [Chunk.variant])

theorem sane_numbered {d} (h : SaneAll d) : NumberedInOrder d := by
  intro lv hl pre l args mid c post he
  have h1 := (h lv hl).begin_exact he
  have h2 := (h lv hl (pre ++ .mk l (.command (.mk chars!"begin" args)) :: mid) c post (by simp [he])).1
  rw [displayChunks_append, displayChunks_cons, newlines_append, newlines_append] at h2
  have h3 : newlines (Chunk.mk l (.command (.mk chars!"begin" args))).display = (displayArgs args).count '\n' := by
    simp [Chunk.display, ChunkVariant.display, Command.display, newlines_eq_count, List.count_cons]
  rw [h3] at h2
  omega

theorem saneAll_child {d inner} (h : SaneAll d) (hc : Child d inner) : SaneAll inner :=
  fun lv hl => h lv (Checked.trans (.child .top hc) hl)

end LatexAst.Ast1

namespace LatexAst.Ast2
open LatexAst.Ast1 (Opened Matched Checked Child Sane SaneAll)

theorem display_beginC (l p lab args) : newlines (beginC l p lab args).display =
    argNewlines ((p, .mk lab .curly) :: args) := by
  rw [argNewlines_eq]
  simp [beginC, Ast1.Chunk.display, Ast1.ChunkVariant.display, Ast1.Command.display, newlines_cons]

theorem sane_body {d0 body rest : List Ast1.Chunk} {l p lab args}
    (h : Ast1.SaneAll (d0 ++ beginC l p lab args :: (body ++ rest))) :
    Ast1.SaneAll (body.map (rebase1 (startL l p lab args))) := by
  intro lv hl
  rcases hl.head with rfl | ⟨inner, hc, hl⟩
  · intro pre c post he
    obtain ⟨pre', ⟨l', v'⟩, post', rfl, rfl, h1, rfl⟩ := map_eq_append_cons he
    subst h1
    have hb := (h _ .top).begin_exact rfl
    have := h _ .top (d0 ++ beginC l p lab args :: pre') (.mk l' v') (post' ++ rest) (by simp)
    simp only [Ast1.displayChunks_append, Ast1.displayChunks_cons, newlines_append, display_beginC] at this
    simp only [display_rebase]
    simp only [rebase1, Ast1.Chunk.lineNo, Ast1.Chunk.variant, Ast1.Chunk.display, startL] at *
    refine ⟨by omega, by omega, fun h1 h2 => ?_⟩
    have := this.2.2 h1 h2
    omega
  · refine h lv (Checked.trans (.child .top ((child_rebase hc).mono ?_)) hl)
    intro c hc; simp [hc]

end LatexAst.Ast2

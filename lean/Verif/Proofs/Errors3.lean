import Verif.Proofs.MathsNear
import Verif.Props.Documents
import Verif.Props.Environments

/-! Lines of stage-3 errors, and levels of parsed documents. -/

namespace LatexAst.Ast2
open Spec

theorem display_mem {cs : List Chunk} {c} (h : c ∈ cs) : c.display.Sublist (displayChunks cs) := by
  induction cs with
  | nil => simp at h
  | cons x cs ih =>
    simp only [displayChunks]
    rcases List.mem_cons.1 h with rfl | h
    · exact List.sublist_append_left _ _
    · exact (ih h).trans (List.sublist_append_right _ _)

theorem displayArgs_mem {args : List (Str × Scope)} {p inner sv} (h : (p, Scope.mk inner sv) ∈ args) :
    (displayChunks inner).Sublist (displayArgs args) := by
  induction args with
  | nil => simp at h
  | cons x r ih =>
    obtain ⟨q, s⟩ := x
    simp only [displayArgs]
    rcases List.mem_cons.1 h with h | h
    · cases h
      simp only [Scope.display]
      exact (((List.sublist_append_left _ _).cons _).trans (List.sublist_append_left _ _)).trans (List.sublist_append_right _ _)
    · exact ((ih h).trans (List.sublist_append_right _ _)).trans (List.sublist_append_right _ _)

theorem display_child {cs inner : List Chunk} (h : Child2 cs inner) : (displayChunks inner).Sublist (displayChunks cs) := by
  cases h with
  | scope hm =>
    refine List.Sublist.trans ?_ (display_mem hm)
    simp only [Chunk.display, ChunkVariant.display, Scope.display]
    exact (List.sublist_append_left _ _).cons _
  | arg hm ha =>
    refine List.Sublist.trans ?_ (display_mem hm)
    simp only [Chunk.display, ChunkVariant.display, Command.display]
    exact ((displayArgs_mem ha).trans (List.sublist_append_right _ _)).cons _
  | envArg hm ha =>
    refine List.Sublist.trans (displayArgs_mem ha) (List.Sublist.trans ?_ (display_mem hm))
    simp only [Chunk.display, ChunkVariant.display, Environment.display]
    refine List.Sublist.trans ?_ (List.sublist_append_right _ _)
    refine List.Sublist.trans ?_ (List.sublist_append_right _ _)
    refine List.Sublist.cons _ ?_
    refine List.Sublist.trans ?_ (List.sublist_append_right _ _)
    exact (List.sublist_append_left _ _).cons _
  | envContent hm =>
    refine List.Sublist.trans ?_ (display_mem hm)
    simp only [Chunk.display, ChunkVariant.display, Environment.display]
    refine List.Sublist.trans ?_ (List.sublist_append_right _ _)
    refine List.Sublist.trans ?_ (List.sublist_append_right _ _)
    refine List.Sublist.cons _ ?_
    refine List.Sublist.trans ?_ (List.sublist_append_right _ _)
    refine List.Sublist.cons _ ?_
    refine List.Sublist.trans ?_ (List.sublist_append_right _ _)
    exact List.sublist_append_left _ _

theorem display_level {cs lv : List Chunk} (h : Level cs lv) : (displayChunks lv).Sublist (displayChunks cs) := by
  induction h with
  | top => exact List.Sublist.refl _
  | scope _ hm ih => exact (display_child (.scope hm)).trans ih
  | arg _ hm ha ih => exact (display_child (.arg hm ha)).trans ih
  | envArg _ hm ha ih => exact (display_child (.envArg hm ha)).trans ih
  | envContent _ hm ih => exact (display_child (.envContent hm)).trans ih

/-- Lines of the chunks of a parsed document. -/
theorem level_lines {s e} (h : fromStr s = .ok e) {lv} (hl : Level e lv) {c} (hc : c ∈ lv) : 1 ≤ c.lineNo ∧ c.lineNo ≤ lineCount s := by
  have h0 := h
  unfold fromStr at h
  cases hd : Ast1.fromStr s with
  | error f => rw [hd] at h; cases h
  | ok d =>
    rw [hd] at h
    have hs := sane2_tryFrom h (Ast1.sane_parsed hd) lv hl
    obtain ⟨pre, post, he⟩ := List.append_of_mem hc
    obtain ⟨h1, h2, _⟩ := hs pre c post he
    refine ⟨by omega, ?_⟩
    have h3 : newlines (displayChunks lv) ≤ newlines (displayChunks e) := by
      rw [newlines_eq_count, newlines_eq_count]; exact (display_level hl).count_le _
    have h4 : newlines (displayChunks e) = newlines s := by
      rw [C21 d e h]; exact Ast1.newlines_fromStr hd
    have h5 : newlines (displayChunks lv) = newlines (displayChunks pre) + (newlines c.display + newlines (displayChunks post)) := by
      rw [he, displayChunks_append]; simp [displayChunks]
    rw [lineCount, ← newlines_eq_count]
    omega

theorem positive_parsed {s e} (h : fromStr s = .ok e) : Ast3.Positive2 e := fun _ hl _ hc => (level_lines h hl hc).1

/-- The characters of a parsed document occur in the source. -/
theorem dollar_parsed {s e} (h : fromStr s = .ok e) {lv l t} (hl : Level e lv) (hm : .mk l (.text t) ∈ lv) (hd : '$' ∈ t) : '$' ∈ s := by
  obtain ⟨d, h1, h2⟩ := C21_source s e h
  have h3 : '$' ∈ displayChunks e := (display_level hl).subset ((display_mem hm).subset (by simpa [Chunk.display, ChunkVariant.display] using hd))
  rw [h2] at h3
  have h4 := (Ast1.C01_partial s d h1).1.subset (List.mem_map_of_mem (f := anyBracket) h3)
  obtain ⟨c, hc, he⟩ := List.mem_map.1 h4
  have : c = '$' := by
    unfold anyBracket at he
    split at he
    · simp at he
    · split at he
      · simp at he
      · simpa using he
  exact this ▸ hc

end LatexAst.Ast2

namespace LatexAst.Ast3
open Spec

/-- Rejections are on the line of a chunk that is not text. -/
theorem rejected_line {cs x} (h : Rejected cs x) : ∃ lv, Ast2.Level cs lv ∧ ∃ c ∈ lv, c.lineNo = x.line := by
  have lift : ∀ {cs inner : List Ast2.Chunk}, Ast2.Child2 cs inner → (∃ lv, Ast2.Level inner lv ∧ ∃ c ∈ lv, c.lineNo = x.line) →
      ∃ lv, Ast2.Level cs lv ∧ ∃ c ∈ lv, c.lineNo = x.line := by
    rintro cs inner hc ⟨lv, h1, h2⟩
    exact ⟨lv, Ast2.Level.trans (Ast2.Level.child .top hc) h1, h2⟩
  have sub : ∀ {cs inner : List Ast2.Chunk}, (∀ c ∈ inner, c ∈ cs) → (∃ lv, Ast2.Level inner lv ∧ ∃ c ∈ lv, c.lineNo = x.line) →
      ∃ lv, Ast2.Level cs lv ∧ ∃ c ∈ lv, c.lineNo = x.line := by
    rintro cs inner hs ⟨lv, h1, c, h2, h3⟩
    rcases h1.head with rfl | ⟨i, hc, hl⟩
    · exact ⟨cs, .top, c, hs c h2, h3⟩
    · exact ⟨lv, Ast2.Level.trans (Ast2.Level.child .top (hc.mono hs)) hl, c, h2, h3⟩
  induction h with
  | unexpected => exact ⟨_, .top, _, List.mem_append_right _ (.head _), rfl⟩
  | unclosed => exact ⟨_, .top, _, List.mem_append_right _ (.head _), rfl⟩
  | brackets _ hi _ ih =>
    refine sub ?_ (ih lift sub)
    intro c hc
    have := inside_mem hi c hc
    simp [this]
  | scope _ _ ih => exact lift (.scope (List.mem_append_right _ (.head _))) (ih lift sub)
  | arg _ _ _ _ ih => exact lift (.arg (List.mem_append_right _ (.head _)) (List.mem_append_right _ (.head _))) (ih lift sub)
  | envArg _ _ _ ih => exact lift (.envArg (List.mem_append_right _ (.head _)) (List.mem_append_right _ (.head _))) (ih lift sub)
  | envContent _ _ _ ih => exact lift (.envContent (List.mem_append_right _ (.head _))) (ih lift sub)

/-- Converting documents whose texts close their dollars. -/
theorem converting_closed (P : Nat → Prop) : Converting
    (fun cs => DollarsClosed cs ∧ Positive2 cs ∧ ∀ lv, Ast2.Level cs lv → ∀ c ∈ lv, P c.lineNo)
    MathsPositive (fun f => ∃ x, f = .err x ∧ P x.line) := by
  refine ⟨positive_nil, ?_, ?_, ?_⟩
  · rintro a b ⟨h1, h2, h3⟩ hs
    have hs : ∀ c ∈ a, c ∈ b := fun c hc => hs.subset hc
    refine ⟨closed_mono h1 hs, h2.mono hs, ?_⟩
    intro lv hl c hc
    rcases hl.head with rfl | ⟨i, hci, hl⟩
    · exact h3 b .top c (hs c hc)
    · exact h3 lv (Ast2.Level.trans (Ast2.Level.child .top (hci.mono hs)) hl) c hc
  · rintro a inner ⟨h1, h2, h3⟩ hc
    exact ⟨closed_child h1 hc, (Ast2.everywhere_iff.1 h2).2 _ hc, fun lv hl => h3 lv (Ast2.Level.trans (Ast2.Level.child .top hc) hl)⟩
  · rintro cs ⟨h1, h2, h3⟩
    rcases closed_total _ cs (Nat.le_refl _) h1 h2 with ⟨o, ho⟩ | ⟨x, hx⟩
    · rw [mathsFromChunks_converts ho]; exact paragraphs_positive (converts_positive ho h1 h2)
    · rw [mathsFromChunks_rejected hx]
      obtain ⟨lv, hl, c, hc, he⟩ := rejected_line hx
      exact ⟨x, rfl, he ▸ h3 lv hl c hc⟩

/-- Converting documents without formulas that go on for too long. -/
theorem converting_near : Converting NearAll (fun _ => True) (fun f => f ≠ .panic) := by
  refine ⟨trivial, nearAll_sublist, nearAll_child, ?_⟩
  · intro cs h
    have := near_no_panic h
    have h2 := mathsFromChunks_no_fuel cs
    cases hr : mathsFromChunks cs with
    | ok _ => trivial
    | error f => exact fun hf => this (hf ▸ hr)

theorem tryFrom_no_fuel (e) : tryFrom e ≠ .error .fuel := by
  have hc : Converting (fun _ => True) (fun _ => True) (fun f => f ≠ .fuel) := by
    refine ⟨trivial, fun _ _ => trivial, fun _ _ => trivial, ?_⟩
    intro cs _
    have := mathsFromChunks_no_fuel cs
    cases hr : mathsFromChunks cs with
    | ok _ => trivial
    | error f => exact fun hf => this (hf ▸ hr)
  have := post_tryFrom hc (e := e) trivial
  intro h
  rw [h] at this
  rcases this with h | ⟨_, _, _, h, _⟩
  · exact absurd rfl h
  · cases h

end LatexAst.Ast3

namespace LatexAst.Ast2

theorem level_within {d lv : List Chunk} {l v} (h : Level d lv) (hm : Chunk.mk l v ∈ lv) : Within d v := by
  have : ∀ v, Within lv v → Within d v := by
    clear hm
    induction h with
    | top => exact fun _ h => h
    | scope _ hm ih => exact fun v hv => ih v (.scope hm hv)
    | arg _ hm hm' ih => exact fun v hv => ih v (.arg hm hm' hv)
    | envArg _ hm hm' ih => exact fun v hv => ih v (.envArg hm hm' hv)
    | envContent _ hm ih => exact fun v hv => ih v (.envContent hm hv)
  exact this v (.here hm)

theorem within_level {d : List Chunk} {v} (h : Within d v) : ∃ lv l, Level d lv ∧ Chunk.mk l v ∈ lv := by
  have hw : ∀ {cs : List Chunk} {v}, Within cs v → Level d cs →
      ∃ lv l, Level d lv ∧ Chunk.mk l v ∈ lv := by
    intro cs v hwv
    induction hwv with
    | here hm => intro hl; exact ⟨_, _, hl, hm⟩
    | scope hm _ ih => intro hl; exact ih (.scope hl hm)
    | arg hm hm' _ ih => intro hl; exact ih (.arg hl hm hm')
    | envArg hm hm' _ ih => intro hl; exact ih (.envArg hl hm hm')
    | envContent hm _ ih => intro hl; exact ih (.envContent hl hm)
  exact hw h .top

end LatexAst.Ast2

import Verif.Proofs.MathsText
import Verif.Proofs.Paragraph
import Verif.Spec.Document

/-!
# Sequences whose texts close their dollars
-/

namespace LatexAst.Ast3

theorem closed_child {cs inner} (h : DollarsClosed cs) (hc : Ast2.Child2 cs inner) : DollarsClosed inner := by
  intro t ht
  cases hc with
  | scope h1 => exact h t (.scope h1 ht)
  | arg h1 h2 => exact h t (.arg h1 h2 ht)
  | envArg h1 h2 => exact h t (.envArg h1 h2 ht)
  | envContent h1 => exact h t (.envContent h1 ht)

theorem closed_mono {cs cs'} (h : DollarsClosed cs') (hs : ∀ c ∈ cs, c ∈ cs') : DollarsClosed cs := fun t ht => h t (ht.mono hs)

theorem openDollar_dollar {t : Str} (h : OpenDollar t) : '$' ∈ t := by
  cases h <;> simp

theorem closed_of_free {cs} (h : DollarFree cs) : DollarsClosed cs := fun t ht ho => h t ht (openDollar_dollar ho)

/-- Every chunk, at any depth, has a positive line number. -/
def Positive2 (cs : List Ast2.Chunk) : Prop := Ast2.Everywhere (fun c => 1 ≤ c.lineNo) cs

/-- As `dollarFree_total`, but texts may contain dollar maths. -/
theorem closed_total : ∀ n cs, sizeChunks cs ≤ n → DollarsClosed cs → Positive2 cs →
    (∃ out, Converts false cs out) ∨ ∃ e, Rejected cs e := by
  intro n
  induction n with
  | zero =>
    intro cs hn hd _
    cases cs with
    | nil => exact .inl ⟨_, .nil⟩
    | cons c cs => obtain ⟨l, v⟩ := c; simp [sizeChunks, sizeChunk] at hn
  | succ n ih =>
    intro cs hn hd hp
    cases cs with
    | nil => exact .inl ⟨_, .nil⟩
    | cons c rest =>
      have hrest : sizeChunks rest ≤ n := by
        obtain ⟨l, v⟩ := c; simp [sizeChunks, sizeChunk] at hn; omega
      have hdr : DollarsClosed rest := closed_mono hd (by intro c hc; simp [hc])
      have hpr : Positive2 rest := hp.mono (by intro c hc; simp [hc])
      have hsub : ∀ inner, Ast2.Child2 (c :: rest) inner → (∃ out, Converts false inner out) ∨ ∃ e, Rejected inner e := by
        intro inner hc
        exact ih inner (by have := child_size hc; omega) (closed_child hd hc) ((Ast2.everywhere_iff.1 hp).2 _ hc)
      have cont : ∀ x, Converts false [c] x →
          (∃ out, Converts false (c :: rest) out) ∨ ∃ e, Rejected (c :: rest) e := by
        intro x h2
        rcases ih rest hrest hdr hpr with ⟨out, ho⟩ | ⟨e, he⟩
        · exact .inl ⟨_, converts_append h2 ho⟩
        · exact .inr ⟨e, rejected_prefix h2 he⟩
      have hl1 : 1 ≤ c.lineNo := (Ast2.everywhere_iff.1 hp).1 c (by simp)
      obtain ⟨l, v⟩ := c
      cases v with
      | text t =>
        have ht : ¬ OpenDollar t := hd t (.here (.head _))
        rcases text_total t.length t l (Nat.le_refl _) hl1 with ⟨x, hx⟩ | h
        · exact cont x hx
        · exact absurd h ht
      | scope sc =>
        obtain ⟨inner, sv⟩ := sc
        rcases hsub inner (.scope (.head _)) with ⟨x, hx⟩ | ⟨e, he⟩
        · exact cont [.mk l (.scope (.mk (paragraphs x) sv))] (.scope hx .nil)
        · exact .inr ⟨e, .scope .nil he⟩
      | environment env =>
        obtain ⟨label, args, body, pb, pe⟩ := env
        rcases args_total (fun p inner sv hm => hsub inner (.envArg (.head _) hm)) with ⟨contents, h1, h2⟩ | ⟨b, p, inner, sv, a, e, rfl, h2, h3⟩
        · rcases hsub body (.envContent (.head _)) with ⟨x, hx⟩ | ⟨e, he⟩
          · exact cont _ (.environment h1 h2 hx .nil)
          · refine .inr ⟨e, .envContent .nil ?_ he⟩
            intro q c v hm
            obtain ⟨x, hx⟩ := zip_mem_left h1 hm
            exact ⟨x, h2 _ _ _ _ hx⟩
        · exact .inr ⟨e, .envArg .nil h2 h3⟩
      | command cmd =>
        obtain ⟨label, args⟩ := cmd
        by_cases hl : IsDelimiter label
        · obtain ⟨k, rfl | rfl⟩ := isMathsLabel_iff'.2 hl
          · rcases split_inside k _ rest (Nat.le_refl _) with ⟨body, inner, l', args', post, rfl, hi⟩ | hu
            · have hin : sizeChunks inner ≤ n := by
                have := inside_size hi
                simp [sizeChunks_append] at hrest; omega
              rcases ih inner hin (closed_mono hdr (by intro c hc; simp [inside_mem hi c hc]))
                  (hpr.mono (by intro c hc; simp [inside_mem hi c hc])) with ⟨x, hx⟩ | ⟨e, he⟩
              · rcases ih post (by simp [sizeChunks_append, sizeChunks] at hrest; omega)
                  (closed_mono hdr (by intro c hc; simp [hc])) (hpr.mono (by intro c hc; simp [hc])) with ⟨y, hy⟩ | ⟨e, he⟩
                · exact .inl ⟨_, .brackets hi (by simp) hx hy⟩
                · have := rejected_prefix (.brackets (l := l) (args := args) (l' := l') (args' := args') hi (by simp) hx .nil) he
                  exact .inr ⟨e, by simpa using this⟩
              · exact .inr ⟨e, .brackets .nil hi he⟩
            · exact .inr ⟨_, .unclosed .nil hu⟩
          · exact .inr ⟨_, .unexpected .nil⟩
        · rcases args_total (fun p inner sv hm => hsub inner (.arg (.head _) hm)) with ⟨contents, h1, h2⟩ | ⟨b, p, inner, sv, a, e, rfl, h2, h3⟩
          · exact cont _ (.command hl h1 h2 .nil)
          · exact .inr ⟨e, .arg .nil hl h2 h3⟩

/-! ### Line numbers of the result -/

/-- Sequences directly nested in a stage-3 sequence. -/
inductive Child3 (cs : List Chunk) : List Chunk → Prop
  | scope {l inner sv} : Chunk.mk l (.scope (.mk inner sv)) ∈ cs → Child3 cs inner
  | arg {l label args prec inner sv} :
      Chunk.mk l (.command (.mk label args)) ∈ cs → (prec, Scope.mk inner sv) ∈ args → Child3 cs inner
  | envArg {l label args content pb pe prec inner sv} :
      Chunk.mk l (.environment (.mk label args content pb pe)) ∈ cs → (prec, Scope.mk inner sv) ∈ args →
      Child3 cs inner
  | envContent {l label args content pb pe} :
      Chunk.mk l (.environment (.mk label args content pb pe)) ∈ cs → Child3 cs content
  | maths {l v t content} : Chunk.mk l (.mathsBlock (.mk v t content)) ∈ cs → Child3 cs content

theorem Level.child {d cs inner} (h : Level d cs) (hc : Child3 cs inner) : Level d inner := by
  cases hc with
  | scope hm => exact .scope h hm
  | arg hm ha => exact .arg h hm ha
  | envArg hm ha => exact .envArg h hm ha
  | envContent hm => exact .envContent h hm
  | maths hm => exact .maths h hm

theorem Level.head {d lv} (h : Level d lv) : lv = d ∨ ∃ inner, Child3 d inner ∧ Level inner lv := by
  have key : ∀ lv, ∀ inner, Child3 lv inner →
      (lv = d ∨ ∃ i, Child3 d i ∧ Level i lv) → ∃ i, Child3 d i ∧ Level i inner := by
    rintro lv inner hc (rfl | ⟨i, h1, h2⟩)
    · exact ⟨inner, hc, .top⟩
    · exact ⟨i, h1, h2.child hc⟩
  induction h with
  | top => exact .inl rfl
  | scope _ hm ih => exact .inr (key _ _ (.scope hm) ih)
  | arg _ hm ha ih => exact .inr (key _ _ (.arg hm ha) ih)
  | envArg _ hm ha ih => exact .inr (key _ _ (.envArg hm ha) ih)
  | envContent _ hm ih => exact .inr (key _ _ (.envContent hm) ih)
  | maths _ hm ih => exact .inr (key _ _ (.maths hm) ih)

theorem Level.under {d inner lv} (hc : Child3 d inner) (h : Level inner lv) : Level d lv := by
  induction h with
  | top => exact Level.child .top hc
  | scope _ hm ih => exact .scope ih hm
  | arg _ hm ha ih => exact .arg ih hm ha
  | envArg _ hm ha ih => exact .envArg ih hm ha
  | envContent _ hm ih => exact .envContent ih hm
  | maths _ hm ih => exact .maths ih hm

theorem positive_iff {cs} : MathsPositive cs ↔ (∀ l m, .mk l (.mathsBlock m) ∈ cs → 1 ≤ l) ∧ ∀ inner, Child3 cs inner → MathsPositive inner := by
  constructor
  · intro h
    exact ⟨h cs .top, fun inner hc lv hl => h lv (hl.under hc)⟩
  · rintro ⟨h1, h2⟩ lv hl
    rcases hl.head with rfl | ⟨inner, hc, hl⟩
    · exact h1
    · exact h2 inner hc lv hl

theorem Child3.mono {a b inner} (h : Child3 a inner) (hs : ∀ c ∈ a, c ∈ b ∨ ∃ t, c.variant = .text t ∨ c.variant = .paragraphBreak t) : Child3 b inner := by
  cases h with
  | scope hm => exact .scope ((hs _ hm).resolve_right (by simp [Chunk.variant]))
  | arg hm ha => exact .arg ((hs _ hm).resolve_right (by simp [Chunk.variant])) ha
  | envArg hm ha => exact .envArg ((hs _ hm).resolve_right (by simp [Chunk.variant])) ha
  | envContent hm => exact .envContent ((hs _ hm).resolve_right (by simp [Chunk.variant]))
  | maths hm => exact .maths ((hs _ hm).resolve_right (by simp [Chunk.variant]))

theorem MathsPositive.mono {a b} (h : MathsPositive b)
    (hs : ∀ c ∈ a, c ∈ b ∨ ∃ t, c.variant = .text t ∨ c.variant = .paragraphBreak t) : MathsPositive a := by
  obtain ⟨h1, h2⟩ := positive_iff.1 h
  refine positive_iff.2 ⟨?_, fun inner hc => h2 _ (hc.mono hs)⟩
  intro l m hm
  exact h1 l m ((hs _ hm).resolve_right (by simp [Chunk.variant]))

theorem paragraphs_positive {cs} (h : MathsPositive cs) : MathsPositive (paragraphs cs) := by
  refine h.mono ?_
  intro c hc
  obtain ⟨c0, h1, h2⟩ := paragraphs_mem hc
  rcases paragraphChunk_mem h2 with ⟨rfl, _⟩ | ⟨_, _, _, ⟨l', t', rfl, _⟩ | ⟨l', b, rfl, _⟩⟩
  · exact .inl h1
  · exact .inr ⟨t', .inl rfl⟩
  · exact .inr ⟨b, .inr rfl⟩

theorem positive_nil : MathsPositive [] := by
  refine positive_iff.2 ⟨by simp, ?_⟩
  intro inner hc
  cases hc with
  | scope h => simp at h
  | arg h => simp at h
  | envArg h => simp at h
  | envContent h => simp at h
  | maths h => simp at h

theorem positive_append {a b} (ha : MathsPositive a) (hb : MathsPositive b) : MathsPositive (a ++ b) := by
  obtain ⟨h1, h2⟩ := positive_iff.1 ha
  obtain ⟨g1, g2⟩ := positive_iff.1 hb
  refine positive_iff.2 ⟨?_, ?_⟩
  · intro l m hm
    rcases List.mem_append.1 hm with hm | hm
    · exact h1 l m hm
    · exact g1 l m hm
  · intro inner hc
    cases hc with
    | scope hm => exact (List.mem_append.1 hm).elim (fun h => h2 _ (.scope h)) (fun h => g2 _ (.scope h))
    | arg hm ha => exact (List.mem_append.1 hm).elim (fun h => h2 _ (.arg h ha)) (fun h => g2 _ (.arg h ha))
    | envArg hm ha => exact (List.mem_append.1 hm).elim (fun h => h2 _ (.envArg h ha)) (fun h => g2 _ (.envArg h ha))
    | envContent hm => exact (List.mem_append.1 hm).elim (fun h => h2 _ (.envContent h)) (fun h => g2 _ (.envContent h))
    | maths hm => exact (List.mem_append.1 hm).elim (fun h => h2 _ (.maths h)) (fun h => g2 _ (.maths h))

theorem positive_texts {cs : List Chunk} (h : ∀ c ∈ cs, ∃ t, c.variant = .text t ∨ c.variant = .paragraphBreak t) : MathsPositive cs :=
  positive_nil.mono fun c hc => .inr (h c hc)

theorem positive_textIf (l t) : MathsPositive (textIf l t) := by
  refine positive_texts ?_
  intro c hc
  unfold textIf at hc
  split at hc
  · simp at hc
  · simp at hc; subst hc; exact ⟨t, .inl rfl⟩

theorem positive_maths {l v t content} (hl : 1 ≤ l) (h : MathsPositive content) : MathsPositive [.mk l (.mathsBlock (.mk v t content))] := by
  refine positive_iff.2 ⟨by intro l' m hm; simp at hm; omega, ?_⟩
  intro inner hc
  cases hc with
  | scope h => simp at h
  | arg h => simp at h
  | envArg h => simp at h
  | envContent h => simp at h
  | maths hm => simp at hm; obtain ⟨rfl, rfl, rfl, rfl⟩ := hm; exact h

theorem positive_scope {l sv content} (h : MathsPositive content) : MathsPositive [.mk l (.scope (.mk content sv))] := by
  refine positive_iff.2 ⟨by intro l' m hm; simp at hm, ?_⟩
  intro inner hc
  cases hc with
  | scope hm => simp at hm; obtain ⟨rfl, rfl, rfl⟩ := hm; exact h
  | arg h => simp at h
  | envArg h => simp at h
  | envContent h => simp at h
  | maths hm => simp at hm

theorem positive_command {l label args} (h : ∀ p inner sv, (p, Scope.mk inner sv) ∈ args → MathsPositive inner) :
    MathsPositive [.mk l (.command (.mk label args))] := by
  refine positive_iff.2 ⟨by intro l' m hm; simp at hm, ?_⟩
  intro inner hc
  cases hc with
  | arg hm ha => simp at hm; obtain ⟨rfl, rfl, rfl⟩ := hm; exact h _ _ _ ha
  | scope h => simp at h
  | envArg h => simp at h
  | envContent h => simp at h
  | maths hm => simp at hm

theorem positive_environment {l label args content pb pe} (h : ∀ p inner sv, (p, Scope.mk inner sv) ∈ args → MathsPositive inner)
    (hc : MathsPositive content) : MathsPositive [.mk l (.environment (.mk label args content pb pe))] := by
  refine positive_iff.2 ⟨by intro l' m hm; simp at hm, ?_⟩
  intro inner hc
  cases hc with
  | envArg hm ha => simp at hm; obtain ⟨rfl, rfl, rfl, rfl, rfl, rfl⟩ := hm; exact h _ _ _ ha
  | envContent hm => simp at hm; obtain ⟨rfl, rfl, rfl, rfl, rfl, rfl⟩ := hm; exact hc
  | scope hm => simp at hm
  | arg hm => simp at hm
  | maths hm => simp at hm

theorem withContents_mem {args : List (Str × Ast2.Scope)} {contents : List (List Chunk)} {p inner sv}
    (h : (p, Scope.mk inner sv) ∈ withContents args contents) :
    ∃ inner0 content, ((p, Ast2.Scope.mk inner0 sv), content) ∈ args.zip contents ∧ inner = paragraphs content := by
  induction args generalizing contents with
  | nil => simp [withContents] at h
  | cons x r ih =>
    obtain ⟨q, i0, v⟩ := x
    cases contents with
    | nil => simp [withContents] at h
    | cons c cs =>
      simp [withContents] at h
      rcases h with ⟨rfl, rfl, rfl⟩ | h
      · exact ⟨i0, c, by simp, rfl⟩
      · obtain ⟨a, b, h1, h2⟩ := ih h
        exact ⟨a, b, by simp [h1], h2⟩

/-- The maths blocks that come out of closed texts and bracket maths are on positive lines. -/
theorem converts_positive {strict cs out} (h : Converts strict cs out) : DollarsClosed cs → Positive2 cs → MathsPositive out := by
  have tl : ∀ {c : Ast2.Chunk} {cs}, DollarsClosed (c :: cs) → DollarsClosed cs := fun h => closed_mono h (by intro c hc; simp [hc])
  have sl : ∀ {c : Ast2.Chunk} {cs}, Positive2 (c :: cs) → Positive2 cs := fun h => h.mono (by intro c hc; simp [hc])
  have seg : ∀ {l l' v t p y t' rest content} {out : List Chunk}, 1 ≤ l → 1 ≤ l' → (OpenDollar t' → OpenDollar t) →
      DollarsClosed (.mk l (.text t) :: rest) → Positive2 (.mk l (.text t) :: rest) →
      MathsPositive (paragraphs content) →
      (DollarsClosed (.mk l' (.text t') :: rest) → Positive2 (.mk l' (.text t') :: rest) → MathsPositive out) →
      MathsPositive (textIf l p ++ .mk (l + y) (.mathsBlock (.mk .dollars v (paragraphs content))) :: out) := by
    intro l l' v t p y t' rest content out hl hl' ht hd hp hm hout
    refine positive_append (positive_textIf _ _) ?_
    refine positive_append (a := [_]) (positive_maths (by omega) hm) (hout ?_ ?_)
    · intro t'' hw
      cases hw with
      | here hm =>
        rcases List.mem_cons.1 hm with h | h
        · cases h; exact fun ho => hd t (.here (.head _)) (ht ho)
        · exact hd _ (.here (.tail _ h))
      | scope hm hw => exact hd _ (.scope (List.mem_cons_of_mem _ ((List.mem_cons.1 hm).resolve_left (by simp))) hw)
      | arg hm ha hw => exact hd _ (.arg (List.mem_cons_of_mem _ ((List.mem_cons.1 hm).resolve_left (by simp))) ha hw)
      | envArg hm ha hw => exact hd _ (.envArg (List.mem_cons_of_mem _ ((List.mem_cons.1 hm).resolve_left (by simp))) ha hw)
      | envContent hm hw => exact hd _ (.envContent (List.mem_cons_of_mem _ ((List.mem_cons.1 hm).resolve_left (by simp))) hw)
    · exact Ast2.everywhere_append (a := [_]) (Ast2.everywhere_text hl') (sl hp)
  have pt : ∀ x : Str, MathsPositive (paragraphs [.mk 1 (.text x)]) := fun x =>
    paragraphs_positive (positive_texts (by intro c hc; simp at hc; subst hc; exact ⟨x, .inl rfl⟩))
  induction h with
  | nil => intro _ _; exact positive_nil
  | text ht _ ih => intro hd hs; exact positive_append (positive_textIf _ _) (ih (tl hd) (sl hs))
  | @inline l p x r rest out h1 h2 h3 h4 _ ih =>
    intro hd hp
    exact seg h4 (by omega) (OpenDollar.inline h1 h2 h3) hd hp (pt x) ih
  | @display l p x r rest out h1 h2 h4 _ ih =>
    intro hd hp
    exact seg h4 (by omega) (OpenDollar.display h1 h2) hd hp (paragraphs_positive (positive_textIf 1 x)) ih
  | @sloppy l p x y r rest out _ h1 h2 h3 hy h4 _ ih =>
    intro hd hp
    exact seg h4 (by omega) (OpenDollar.sloppy h1 h2 h3 hy) hd hp (pt (x ++ y)) ih
  | inlineSpan h1 =>
    intro hd
    exact absurd (OpenDollar.single (x := []) h1 (by simp)) (hd _ (.here (.head _)))
  | displaySpan h1 =>
    intro hd
    exact absurd (OpenDollar.double (x := []) h1 (by simp)) (hd _ (.here (.head _)))
  | @brackets k l args body inner l' args' rest content out hi _ _ _ ih1 ih2 =>
    intro hd hp
    refine positive_append (a := [_]) (positive_maths ((Ast2.everywhere_iff.1 hp).1 _ (.head _)) (paragraphs_positive (ih1 ?_ ?_))) (ih2 ?_ ?_)
    · exact closed_mono hd (by intro c hc; simp [inside_mem hi c hc])
    · exact hp.mono (by intro c hc; simp [inside_mem hi c hc])
    · exact closed_mono hd (by intro c hc; simp [hc])
    · exact hp.mono (by intro c hc; simp [hc])
  | scope _ _ ih1 ih2 =>
    intro hd hp
    exact positive_append (a := [_]) (positive_scope (paragraphs_positive (ih1 (closed_child hd (.scope (.head _))) ((Ast2.everywhere_iff.1 hp).2 _ (.scope (.head _)))))) (ih2 (tl hd) (sl hp))
  | command hl hlen _ _ ih1 ih2 =>
    intro hd hp
    refine positive_append (a := [_]) (positive_command ?_) (ih2 (tl hd) (sl hp))
    intro p inner sv hm
    obtain ⟨i0, content, h1, rfl⟩ := withContents_mem hm
    have := (List.of_mem_zip h1).1
    exact paragraphs_positive (ih1 p i0 sv content h1 (closed_child hd (.arg (.head _) this)) ((Ast2.everywhere_iff.1 hp).2 _ (.arg (.head _) this)))
  | environment hlen _ _ _ ih1 ih2 ih3 =>
    intro hd hp
    refine positive_append (a := [_]) (positive_environment ?_ (paragraphs_positive (ih2 (closed_child hd (.envContent (.head _))) ((Ast2.everywhere_iff.1 hp).2 _ (.envContent (.head _)))))) (ih3 (tl hd) (sl hp))
    intro p inner sv hm
    obtain ⟨i0, content, h1, rfl⟩ := withContents_mem hm
    have := (List.of_mem_zip h1).1
    exact paragraphs_positive (ih1 p i0 sv content h1 (closed_child hd (.envArg (.head _) this)) ((Ast2.everywhere_iff.1 hp).2 _ (.envArg (.head _) this)))

theorem closed_positive {cs out} (h : mathsFromChunks cs = .ok out) (hd : DollarsClosed cs) (hp : Positive2 cs) : MathsPositive out := by
  rcases closed_total _ cs (Nat.le_refl _) hd hp with ⟨o, ho⟩ | ⟨e, he⟩
  · rw [mathsFromChunks_converts ho] at h
    cases h
    exact paragraphs_positive (converts_positive ho hd hp)
  · rw [mathsFromChunks_rejected he] at h; cases h

theorem closed_no_panic {cs} (hd : DollarsClosed cs) (hp : Positive2 cs) : mathsFromChunks cs ≠ .error .panic := by
  rcases closed_total _ cs (Nat.le_refl _) hd hp with ⟨o, ho⟩ | ⟨e, he⟩
  · rw [mathsFromChunks_converts ho]; simp
  · rw [mathsFromChunks_rejected he]; simp

end LatexAst.Ast3

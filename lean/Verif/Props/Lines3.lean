import Verif.Proofs.Lines3
import Verif.Props.ParagraphRule
import Verif.Props.Validates
import Verif.Props.PrintsBack3
import Verif.Spec.Lines
import Verif.Model.Eq3

/-!
# C107: exact line numbers of stage 3
-/

namespace LatexAst.Ast3
open Spec

theorem cut_nonempty {b vs} (h : Cut b vs) : ∀ v ∈ vs, v.display ≠ [] := by
  induction h with
  | nil => simp
  | last h => simp [ChunkVariant.display, h.1]
  | text h _ _ hb _ ih =>
    obtain ⟨⟨_, rfl⟩, _⟩ := hb
    simpa [ChunkVariant.display, h.1] using ih
  | «break» hb _ ih =>
    obtain ⟨⟨_, rfl⟩, _⟩ := hb
    simpa [ChunkVariant.display] using ih

theorem stand_pieces {n pieces} (h : PiecesFrom n pieces) : ∀ {cs pre l x y post}, (∀ c ∈ pieces, c.display ≠ []) → n = l + x.count '\n' →
    cs = pre ++ .mk l (.text (x ++ (displayChunks pieces ++ y))) :: post → AllStand cs (Ast2.displayChunks pre ++ x) pieces := by
  induction h with
  | nil => intros; trivial
  | @text n t r _ ih =>
    intro cs pre l x y post hn he hc
    subst he
    have ht : t ≠ [] := by simpa [Chunk.display, ChunkVariant.display] using hn _ (.head _)
    refine ⟨.text (y := displayChunks r ++ y) (post := post) (by
      rw [hc]; simp [displayChunks, Chunk.display, ChunkVariant.display]) ht, ?_⟩
    have := ih (cs := cs) (pre := pre) (l := l) (x := x ++ t) (y := y) (post := post) (fun c hm => hn c (.tail _ hm)) (by simp [Nat.add_assoc])
      (by rw [hc]; simp [displayChunks, Chunk.display, ChunkVariant.display])
    simpa [Chunk.display, ChunkVariant.display] using this
  | @«break» n t r _ ih =>
    intro cs pre l x y post hn he hc
    subst he
    have ht : t ≠ [] := by simpa [Chunk.display, ChunkVariant.display] using hn _ (.head _)
    refine ⟨.break (y := displayChunks r ++ y) (post := post) (by
      rw [hc]; simp [displayChunks, Chunk.display, ChunkVariant.display]) ht, ?_⟩
    have := ih (cs := cs) (pre := pre) (l := l) (x := x ++ t) (y := y) (post := post) (fun c hm => hn c (.tail _ hm)) (by simp [Nat.add_assoc])
      (by rw [hc]; simp [displayChunks, Chunk.display, ChunkVariant.display])
    simpa [Chunk.display, ChunkVariant.display] using this

theorem AllStand.split {out out'} (hs : Split out out') : ∀ {cs a}, AllStand cs a out → AllStand cs a out' := by
  induction hs with
  | nil => intros; trivial
  | @text n t o pieces o' h1 h2 h3 _ ih =>
    intro cs a h
    obtain ⟨h4, h5⟩ := h
    rw [allStand_append]
    refine ⟨?_, ih (by simpa [Chunk.display, ChunkVariant.display, h2] using h5)⟩
    cases h4 with
    | node _ hb => rename_i v _ _; cases v <;> rename_i z <;> cases z <;> simp [TurnsInto] at hb
    | @text pre l x _ y post hc ht =>
      refine stand_pieces h3 (y := y) (post := post) (fun c hm => ?_) rfl (by rw [h2]; exact hc)
      have := cut_nonempty h1 c.variant (List.mem_map.2 ⟨c, hm, rfl⟩)
      cases c; exact this
  | other h1 _ ih => exact fun h => ⟨h.1, ih h.2⟩

/-- C107: where the text is kept, every chunk of the result of `MathsBlock::from_chunks` has the line it should have. -/
theorem C107 (cs : List Ast2.Chunk) (out : List Chunk) (h : mathsFromChunks cs = .ok out) (hk : displayChunks out = Ast2.displayChunks cs)
    (pre post : List Chunk) (c : Chunk) (he : out = pre ++ c :: post) : Stands cs (displayChunks pre) c := by
  have hk := (mathsFromChunks_keeps h).1 hk
  obtain ⟨o, ho, ho'⟩ := yields_iff.1 h
  cases o with
  | error f => simp [inParagraphs] at ho'
  | ok o =>
    simp only [inParagraphs, Except.ok.injEq] at ho'
    have := allStand_split ((hk.stand 0 o ho).split ((C56 o out).1 ho'.symm)) he
    simpa using this

/-! ### the line is determined by the place -/

theorem place_unique {pre pre' post post' : List Ast2.Chunk} {c c' : Ast2.Chunk} {x x' : Str} (h : pre ++ c :: post = pre' ++ c' :: post')
    (hd : Ast2.displayChunks pre ++ x = Ast2.displayChunks pre' ++ x') (hx : x.length < c.display.length) (hx' : x'.length < c'.display.length) :
    pre = pre' ∧ c = c' ∧ x = x' := by
  have key : ∀ {p p' q q' : List Ast2.Chunk} {d d' : Ast2.Chunk} {z z' : Str} (u : List Ast2.Chunk), p' = p ++ u → d :: q = u ++ d' :: q' →
      Ast2.displayChunks p ++ z = Ast2.displayChunks p' ++ z' → z.length < d.display.length → u = [] := by
    intro p p' q q' d d' z z' u h1 h2 h3 h4
    cases u with
    | nil => rfl
    | cons d0 u =>
      simp only [List.cons_append, List.cons.injEq] at h2
      obtain ⟨rfl, _⟩ := h2
      subst h1
      have := congrArg List.length h3
      simp [Ast2.displayChunks] at this
      omega
  rcases List.append_eq_append_iff.1 h with ⟨u, h1, h2⟩ | ⟨u, h1, h2⟩
  · have := key u h1 h2 hd hx
    subst this
    simp only [List.append_nil, List.nil_append, List.cons.injEq] at h1 h2
    subst h1
    exact ⟨rfl, h2.1, List.append_cancel_left hd⟩
  · have := key u h1 h2 hd.symm hx'
    subst this
    simp only [List.append_nil, List.nil_append, List.cons.injEq] at h1 h2
    subst h1
    exact ⟨rfl, h2.1.symm, List.append_cancel_left hd⟩

theorem turnsInto_display {v w} (h : TurnsInto v w) : 0 < v.display.length := by
  cases v with
  | text => simp [TurnsInto] at h
  | scope s => obtain ⟨i, sv⟩ := s; cases sv <;> simp [Ast2.ChunkVariant.display, Ast2.Scope.display, ScopeVariant.opening]
  | command c => obtain ⟨l, a⟩ := c; simp [Ast2.ChunkVariant.display, Ast2.Command.display]
  | environment e => obtain ⟨l, a, c, p, q⟩ := e; simp [Ast2.ChunkVariant.display, Ast2.Environment.display]

theorem dollars_display (k content) : ∃ r, (ChunkVariant.mathsBlock (.mk .dollars k content)).display = r ++ ['$'] ∧ r ≠ [] := by
  cases k
  · exact ⟨'$' :: displayChunks content, by simp [ChunkVariant.display, MathsBlock.display, delimiters]⟩
  · exact ⟨'$' :: '$' :: (displayChunks content ++ ['$']), by simp [ChunkVariant.display, MathsBlock.display, delimiters]⟩

/-- C107: the place in the printed chunks determines the line, so `Stands` admits no other. -/
theorem C107_unique (cs : List Ast2.Chunk) (at' : Str) (l l' : Nat) (v : ChunkVariant) (h : Stands cs at' (.mk l v)) (h' : Stands cs at' (.mk l' v)) :
    l = l' := by
  have tl : ∀ (n : Nat) (t : Str), (Ast2.Chunk.mk n (.text t)).display = t := fun n t => by simp [Ast2.Chunk.display, Ast2.ChunkVariant.display]
  have hlen : ∀ {t : Str}, t ≠ [] → 0 < t.length := fun h => List.length_pos_iff.2 h
  -- a formula inside one text is not one across texts
  have mixed : ∀ {pre pre' : List Ast2.Chunk} {m m' : Nat} {x x' y y' : Str} {post post' : List Ast2.Chunk} {k content},
      cs = pre ++ .mk m (.text (x ++ ((ChunkVariant.mathsBlock (.mk .dollars k content)).display ++ y))) :: post →
      cs = pre' ++ .mk m' (.text (x' ++ '$' :: y')) :: post' →
      (Ast2.displayChunks pre ++ x).length < (Ast2.displayChunks pre').length →
      Ast2.displayChunks pre ++ x ++ (ChunkVariant.mathsBlock (.mk .dollars k content)).display = Ast2.displayChunks pre' ++ (x' ++ ['$']) → False := by
    intro pre pre' m m' x x' y y' post post' k content h1 h2 h3 h4
    obtain ⟨r, hr, _⟩ := dollars_display k content
    rw [hr] at h1 h4
    have h5 : Ast2.displayChunks pre ++ (x ++ r) = Ast2.displayChunks pre' ++ x' := by
      refine List.append_cancel_right (bs := ['$']) ?_
      simpa using h4
    obtain ⟨rfl, _, _⟩ := place_unique (h1.symm.trans h2) h5 (by simp [tl]) (by simp [tl])
    simp at h3
    omega
  generalize hc : Chunk.mk l v = c at h
  generalize hc' : Chunk.mk l' v = c' at h'
  cases h with
  | @node pre m u post w h1 h2 =>
    injection hc with e1 e2; subst e1 e2
    have := turnsInto_display h2
    generalize ha : Ast2.displayChunks pre = a at h'
    cases h' with
    | @node pre' m' u' post' w' h1' h2' =>
      injection hc' with e1 e2; subst e1 e2
      obtain ⟨_, hh, _⟩ := place_unique (x := []) (x' := []) (h1.symm.trans h1') (by simp [ha]) (by simpa [Ast2.Chunk.display] using this)
        (by simpa [Ast2.Chunk.display] using turnsInto_display h2')
      injection hh
    | text => injection hc' with e1 e2; subst e2; cases u <;> rename_i z <;> cases z <;> simp [TurnsInto] at h2
    | «break» => injection hc' with e1 e2; subst e2; cases u <;> rename_i z <;> cases z <;> simp [TurnsInto] at h2
    | formula => injection hc' with e1 e2; subst e2; cases u <;> rename_i z <;> cases z <;> simp [TurnsInto] at h2
    | across => injection hc' with e1 e2; subst e2; cases u <;> rename_i z <;> cases z <;> simp [TurnsInto] at h2
  | @text pre m x t y post h1 h2 =>
    injection hc with e1 e2; subst e1 e2
    generalize ha : Ast2.displayChunks pre ++ x = a at h'
    cases h' with
    | @text pre' m' x' t' y' post' h1' h2' =>
      injection hc' with e1 e2; subst e1; injection e2 with e2; subst e2
      obtain ⟨_, hh, rfl⟩ := place_unique (h1.symm.trans h1') ha (by simp [tl]; have := hlen h2; omega) (by simp [tl]; have := hlen h2; omega)
      injection hh with hh; rw [hh]
    | node _ hb => injection hc' with e1 e2; subst e2; rename_i u _ _; cases u <;> rename_i z <;> cases z <;> simp [TurnsInto] at hb
    | _ => injection hc' with e1 e2; cases e2
  | @«break» pre m x t y post h1 h2 =>
    injection hc with e1 e2; subst e1 e2
    generalize ha : Ast2.displayChunks pre ++ x = a at h'
    cases h' with
    | @«break» pre' m' x' t' y' post' h1' h2' =>
      injection hc' with e1 e2; subst e1; injection e2 with e2; subst e2
      obtain ⟨_, hh, rfl⟩ := place_unique (h1.symm.trans h1') ha (by simp [tl]; have := hlen h2; omega) (by simp [tl]; have := hlen h2; omega)
      injection hh with hh; rw [hh]
    | node _ hb => injection hc' with e1 e2; subst e2; rename_i u _ _; cases u <;> rename_i z <;> cases z <;> simp [TurnsInto] at hb
    | _ => injection hc' with e1 e2; cases e2
  | @formula pre m x y post k content h1 =>
    injection hc with e1 e2; subst e1 e2
    generalize ha : Ast2.displayChunks pre ++ x = a at h'
    cases h' with
    | @formula pre' m' x' y' post' k' content' h1' =>
      injection hc' with e1 e2; subst e1; injection e2 with e2; injection e2 with _ e2 e3; subst e2 e3
      obtain ⟨r, hr, _⟩ := dollars_display k content
      obtain ⟨_, hh, rfl⟩ := place_unique (h1.symm.trans h1') ha (by simp [tl, hr]; omega) (by simp [tl, hr]; omega)
      injection hh with hh; rw [hh]
    | @across pre' m' x' y' post' _ k' content' h1' h2' h3' =>
      injection hc' with e1 e2; subst e1; injection e2 with e2; injection e2 with _ e2 e3; subst e2 e3
      rw [← ha] at h2' h3'
      exact (mixed h1 h1' h2' h3').elim
    | node _ hb => injection hc' with e1 e2; subst e2; rename_i u _ _; cases u <;> rename_i z <;> cases z <;> simp [TurnsInto] at hb
    | _ => injection hc' with e1 e2; cases e2
  | @across pre m x y post _ k content h1 h2 h3 =>
    injection hc with e1 e2; subst e1 e2
    cases h' with
    | @formula pre' m' x' y' post' k' content' h1' =>
      injection hc' with e1 e2; subst e1; injection e2 with e2; injection e2 with _ e2 e3; subst e2 e3
      exact (mixed h1' h1 h2 h3).elim
    | @across pre' m' x' y' post' _ k' content' h1' h2' h3' =>
      injection hc' with e1 e2; subst e1; injection e2 with e2; injection e2 with _ e2 e3; subst e2 e3
      rw [h3] at h3'
      have h5 : Ast2.displayChunks pre ++ x = Ast2.displayChunks pre' ++ x' := by
        refine List.append_cancel_right (bs := ['$']) ?_
        simpa using h3'
      obtain ⟨_, hh, _⟩ := place_unique (h1.symm.trans h1') h5 (by simp [tl]) (by simp [tl])
      injection hh
    | node _ hb => injection hc' with e1 e2; subst e2; rename_i u _ _; cases u <;> rename_i z <;> cases z <;> simp [TurnsInto] at hb
    | _ => injection hc' with e1 e2; cases e2

/-! ### parsed sources -/

/-- C107, from the source: let a part of a sequence of chunks of a parsed stage-2 document (the document, or the content of a scope,
argument or environment) be converted with its text kept. Then every chunk that is not a dollar formula has the line on which it begins in the
whole sequence, plus its `delay`; a dollar formula has the line on which it begins, if it is inside one text, and otherwise the line on which
the text begins in which it is closed. (Not covered: blanks that end the sequence, after a letter command or environment, see C84.) -/
theorem C107_parsed (s : Str) (e : Ast2.Document) (hs : Ast2.fromStr s = .ok e) (inEnv : Bool) (a part b : List Ast2.Chunk)
    (hl : Ast2.Sequence e inEnv (a ++ (part ++ b))) (out : List Chunk) (h : mathsFromChunks part = .ok out) (hk : displayChunks out = Ast2.displayChunks part)
    (pre post : List Chunk) (c : Chunk) (he : out = pre ++ c :: post)
    (hf : inEnv = true ∨ ¬ Blank (displayChunks (c :: post) ++ Ast2.displayChunks b) ∨ ¬ FinalBlank (a ++ (part ++ b))) :
    ((∀ k content, c.variant ≠ .mathsBlock (.mk .dollars k content)) →
      c.lineNo = 1 + (Ast2.displayChunks a ++ displayChunks pre).count '\n' + delay c.variant) ∧
    (∀ k content, c.variant = .mathsBlock (.mk .dollars k content) →
      (∃ pre' l x y post', part = pre' ++ .mk l (.text (x ++ (c.display ++ y))) :: post' ∧ displayChunks pre = Ast2.displayChunks pre' ++ x ∧
        c.lineNo = 1 + (Ast2.displayChunks a ++ displayChunks pre).count '\n') ∨
      (∃ pre' l x y post', part = pre' ++ .mk l (.text (x ++ '$' :: y)) :: post' ∧
        (displayChunks pre).length < (Ast2.displayChunks pre').length ∧ displayChunks pre ++ c.display = Ast2.displayChunks pre' ++ (x ++ ['$']) ∧
        c.lineNo = 1 + (Ast2.displayChunks a ++ Ast2.displayChunks pre').count '\n')) := by
  have hst := C107 part out h hk pre post c he
  -- the lines of the stage-2 chunks
  have hrest : displayChunks pre ++ displayChunks (c :: post) = Ast2.displayChunks part := by rw [← hk, he]; simp
  have ht : ∀ {p l t q x}, part = p ++ .mk l (.text t) :: q → (Blank t → displayChunks pre = Ast2.displayChunks p ++ x) → l = 1 + (Ast2.displayChunks a ++ Ast2.displayChunks p).count '\n' := by
    intro p l t q x hp hx0
    have hsplit : a ++ (part ++ b) = (a ++ p) ++ .mk l (.text t) :: (q ++ b) := by rw [hp]; simp
    obtain ⟨_, _, g3, g4⟩ := Ast2.C84_exact s e hs inEnv _ hl _ _ _ hsplit
    by_cases hx : inEnv = false ∧ q ++ b = [] ∧ Blank t ∧ Ast2.EndsWithCommand (a ++ p)
    · obtain ⟨x1, x2, x3, x4⟩ := hx
      have := g3 t rfl x1 x2 x3 x4
      have hn : '\n' ∉ t := by
        intro hn
        rcases hf with hf | hf | hf
        · rw [x1] at hf; cases hf
        · obtain ⟨rfl, rfl⟩ := List.append_eq_nil_iff.1 x2
          have h1 := hx0 x3
          rw [h1, hp] at hrest
          simp only [Ast2.displayChunks_append, List.append_assoc, List.append_cancel_left_eq] at hrest
          simp only [Ast2.displayChunks, Ast2.Chunk.display, Ast2.ChunkVariant.display, List.append_nil] at hrest hf
          exact hf fun y hy => x3 y (by rw [← hrest]; exact List.mem_append_right _ hy)
        · exact hf ⟨a ++ p, l, t, by rw [hsplit, x2], x3, x4, hn⟩
      rw [List.count_eq_zero_of_not_mem hn] at this
      simpa [Ast2.Chunk.lineNo] using this
    · have := g4 (by rintro ⟨_, h⟩; cases h) (by rintro ⟨_, h⟩; cases h) (by rintro ⟨t', h, h'⟩; cases h; exact hx h')
      simpa [Ast2.Chunk.lineNo] using this
  have hdollar : ∀ {t : Str}, '$' ∈ t → ¬ Blank t := fun hm hb => absurd (hb _ hm) (by decide)
  have hD : ∀ (k content), '$' ∈ (ChunkVariant.mathsBlock (.mk .dollars k content)).display := by
    intro k content; obtain ⟨r, hr, _⟩ := dollars_display k content; simp [hr]
  clear hrest
  generalize hpre : displayChunks pre = at' at hst ht ⊢
  cases hst with
  | @node p l v q w h1 h2 =>
    have hsplit : a ++ (part ++ b) = (a ++ p) ++ .mk l v :: (q ++ b) := by rw [h1]; simp
    obtain ⟨g1, g2, -, g4⟩ := Ast2.C84_exact s e hs inEnv _ hl _ _ _ hsplit
    refine ⟨fun _ => ?_, ?_⟩
    · simp only [Ast2.Chunk.variant, Ast2.Chunk.lineNo, Chunk.variant, Chunk.lineNo, Ast2.displayChunks_append] at g1 g2 g4 ⊢
      cases v with
      | text t => simp [TurnsInto] at h2
      | scope sc =>
        have := g4 (by simp) (by simp) (by simp)
        obtain ⟨i, sv⟩ := sc
        cases w with
        | scope => exact this
        | command z | environment z | mathsBlock z => cases z; simp [TurnsInto] at h2
        | text | paragraphBreak => simp [TurnsInto] at h2
      | command cm =>
        obtain ⟨label, args⟩ := cm
        cases w with
        | command cm' =>
          obtain ⟨label', args'⟩ := cm'
          simp only [TurnsInto] at h2
          subst h2
          by_cases hlab : label' = ['\n']
          · subst hlab; simpa [delay] using g1 ⟨args, rfl⟩
          · simpa [delay, hlab] using g4 (by simp [hlab]) (by simp) (by simp)
        | mathsBlock z =>
          obtain ⟨mv, k, content⟩ := z
          cases mv with
          | dollars => simp [TurnsInto] at h2
          | brackets =>
            simp only [TurnsInto] at h2
            subst h2
            simpa [delay] using g4 (by cases k <;> simp [openLabel]) (by simp) (by simp)
        | scope z | environment z => cases z; simp [TurnsInto] at h2
        | text | paragraphBreak => simp [TurnsInto] at h2
      | environment en =>
        obtain ⟨label, args, content, pb, pe⟩ := en
        cases w with
        | environment en' =>
          obtain ⟨label', args', content', pb', pe'⟩ := en'
          simp only [TurnsInto] at h2
          obtain ⟨rfl, h3, rfl, rfl⟩ := h2
          simp only [delay, h3]
          exact g2 _ _ _ _ _ rfl
        | scope z | command z | mathsBlock z => cases z; simp [TurnsInto] at h2
        | text | paragraphBreak => simp [TurnsInto] at h2
    · intro k content hc
      simp only [Chunk.variant] at hc
      subst hc
      clear g1 g2 g4
      match v, h2 with
      | .text _, h2 | .scope (.mk ..), h2 | .command (.mk ..), h2 | .environment (.mk ..), h2 => simp [TurnsInto] at h2
  | @text p l x t y q h1 h2 =>
    have := ht h1 fun _ => rfl
    refine ⟨fun _ => ?_, fun k content hc => by cases hc⟩
    simp [Chunk.lineNo, Chunk.variant, delay, this, Nat.add_assoc]
  | @«break» p l x t y q h1 h2 =>
    have := ht h1 fun _ => rfl
    refine ⟨fun _ => ?_, fun k content hc => by cases hc⟩
    simp [Chunk.lineNo, Chunk.variant, delay, this, Nat.add_assoc]
  | @formula p l x y q k content h1 =>
    have := ht (x := x) h1 fun hb => absurd hb (hdollar (by simp [hD]))
    refine ⟨fun hc => absurd rfl (hc k content), fun _ _ _ => .inl ⟨p, l, x, y, q, h1, rfl, ?_⟩⟩
    simp [Chunk.lineNo, this, Nat.add_assoc]
  | @across p l x y q _ k content h1 h2 h3 =>
    have := ht (x := x) h1 fun hb => absurd hb (hdollar (by simp))
    refine ⟨fun hc => absurd rfl (hc k content), fun _ _ _ => .inr ⟨p, l, x, y, q, h1, h2, h3, ?_⟩⟩
    simp only [Chunk.lineNo, this]

/-- C107, for sources that stage 3 prints back: `line_no()` of a chunk in the preamble, in the body or after the body (and not in the blanks
that end the source) that is not a dollar formula is the line on which it begins, plus its `delay`; in the body, lines are counted from where the
body begins. -/
theorem C107_source (s : Str) (f : Document) (h : fromStr s = .ok f) (hd : f.display = s) (pre post : List Chunk) (c : Chunk)
    (hc : ∀ k content, c.variant ≠ .mathsBlock (.mk .dollars k content)) :
    (f.preamable = pre ++ c :: post → c.lineNo = 1 + (displayChunks pre).count '\n' + delay c.variant) ∧
    (f.body = pre ++ c :: post → c.lineNo = 1 + (displayChunks pre).count '\n' + delay c.variant) ∧
    (f.trailing = pre ++ c :: post → ¬ Blank (displayChunks (c :: post)) →
      c.lineNo = 1 + (({ f with trailing := [] } : Document).display ++ displayChunks pre).count '\n' + delay c.variant) := by
  obtain ⟨_, e, he, pre2, post2, l, args, content, pb, rfl, hpre, hpost, k1, k2, k3, k4⟩ := (C35_verbatim_partial s f h).1 hd
  have ht : tryFrom (pre2 ++ .mk l (.environment (.mk chars!"document" args content pb pb)) :: post2) = .ok f := by
    unfold fromStr at h; rw [he] at h; exact h
  obtain ⟨pre', args', content', post', h1, h2, h3, h4, hf⟩ := sections_body ht hpre hpost
  have d1 := (mathsFromChunks_keeps h1).2 k1
  have d2 := (tryArgs_keeps h2).2.2 k2
  have d3 := (mathsFromChunks_keeps h3).2 k3
  have d4 := (mathsFromChunks_keeps h4).2 k4
  refine ⟨fun hs => ?_, fun hs => ?_, fun hs hb => ?_⟩
  · rw [hf] at hs
    have := (C107_parsed s _ he false [] pre2 (.mk l (.environment (.mk chars!"document" args content pb pb)) :: post2) .top pre' h1 d1 pre post c hs
      (.inr (.inl fun hb => absurd (hb '\\' (by simp [Ast2.displayChunks, Ast2.Chunk.display, Ast2.ChunkVariant.display, Ast2.Environment.display])) (by decide)))).1 hc
    simpa [Ast2.displayChunks] using this
  · rw [hf] at hs
    have := (C107_parsed s _ he true [] content [] (by
      simpa using Ast2.Sequence.envContent (label := chars!"document") (args := args) (pb := pb) (pe := pb) (l := l) .top (List.mem_append_right _ (.head _)))
      content' h3 d3 pre post c hs (.inl rfl)).1 hc
    simpa [Ast2.displayChunks] using this
  · have hs' := hs
    rw [hf] at hs'
    have := (C107_parsed s _ he false (pre2 ++ [.mk l (.environment (.mk chars!"document" args content pb pb))]) post2 [] (by
      simpa using Ast2.Sequence.top) post' h4 d4 pre post c hs' (.inr (.inl (by simpa [Ast2.displayChunks] using hb)))).1 hc
    have hdd : ({ f with trailing := [] } : Document).display =
        Ast2.displayChunks (pre2 ++ [.mk l (.environment (.mk chars!"document" args content pb pb))]) := by
      rw [display_document, hf]
      simp [displayChunks, d1, d2, d3, Ast2.displayChunks, Ast2.Chunk.display, Ast2.ChunkVariant.display, Ast2.Environment.display]
    rw [hdd]
    exact this

/-- A source with a long paragraph break (numbered 4 instead of 1), a formula inside a text and one across texts (numbered 3 instead of 2). -/
def linesExample : Str := chars!"a\n\n\n\nb $x\ny$\n\\begin\n{document}t\n\\(u\\)$\\foo{\n}z$ w\\end\n{document}\n\n\\b c"

/-- The hypotheses are met, and the delays occur. -/
theorem C107_example : ∃ f, fromStr linesExample = .ok f ∧ f.display = linesExample ∧
    f.preamable.map (fun c => (c.lineNo, c.display)) =
      [(1, chars!"a"), (4, chars!"\n\n\n\n"), (5, chars!"b "), (5, chars!"$x\ny$"), (6, chars!"\n")] ∧
    f.body.map (fun c => (c.lineNo, c.display)) =
      [(1, chars!"t\n"), (2, chars!"\\(u\\)"), (3, chars!"$\\foo{\n}z$"), (3, chars!" w")] ∧
    f.trailing.map (fun c => (c.lineNo, c.display)) = [(11, chars!"\n\n"), (13, chars!"\\b"), (13, chars!" c")] := by
  have h : (match fromStr linesExample with
      | .ok f => decide (f.display = linesExample ∧
        f.preamable.map (fun c => (c.lineNo, c.display)) =
          [(1, chars!"a"), (4, chars!"\n\n\n\n"), (5, chars!"b "), (5, chars!"$x\ny$"), (6, chars!"\n")] ∧
        f.body.map (fun c => (c.lineNo, c.display)) =
          [(1, chars!"t\n"), (2, chars!"\\(u\\)"), (3, chars!"$\\foo{\n}z$"), (3, chars!" w")] ∧
        f.trailing.map (fun c => (c.lineNo, c.display)) = [(11, chars!"\n\n"), (13, chars!"\\b"), (13, chars!" c")])
      | .error _ => false) = true := by decide +kernel
  split at h
  · rename_i f hf
    exact ⟨f, hf, of_decide_eq_true h⟩
  · cases h

end LatexAst.Ast3

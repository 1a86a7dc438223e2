import Verif.Spec.Lines3
import Verif.Proofs.KeepsText
import Verif.Props.Paragraphs

/-!
# Lines of stage-3 chunks
-/

namespace LatexAst.Ast3
open Spec

/-- Every chunk of `out` stands where it should, the first after `a`. -/
def AllStand (cs : List Ast2.Chunk) : Str → List Chunk → Prop
  | _, [] => True
  | a, c :: out => Stands cs a c ∧ AllStand cs (a ++ c.display) out

theorem allStand_append {cs a o1 o2} : AllStand cs a (o1 ++ o2) ↔ AllStand cs a o1 ∧ AllStand cs (a ++ displayChunks o1) o2 := by
  induction o1 generalizing a with
  | nil => simp [AllStand, displayChunks]
  | cons c o1 ih => simp [AllStand, ih, displayChunks, and_assoc]

theorem allStand_split {cs a out} (h : AllStand cs a out) {pre c post} (he : out = pre ++ c :: post) :
    Stands cs (a ++ displayChunks pre) c := by
  subst he
  exact (allStand_append.1 h).2.1

theorem Stands.prepend {cs at' c} (h : Stands cs at' c) (p0 : List Ast2.Chunk) :
    Stands (p0 ++ cs) (Ast2.displayChunks p0 ++ at') c := by
  cases h with
  | @node pre l v post w h1 h2 =>
    rw [← Ast2.displayChunks_append]
    exact .node (post := post) (by rw [h1, List.append_assoc]) h2
  | @text pre l x t y post h1 h2 =>
    rw [← List.append_assoc, ← Ast2.displayChunks_append]
    exact .text (y := y) (post := post) (by rw [h1, List.append_assoc]) h2
  | @«break» pre l x t y post h1 h2 =>
    rw [← List.append_assoc, ← Ast2.displayChunks_append]
    exact .break (y := y) (post := post) (by rw [h1, List.append_assoc]) h2
  | @formula pre l x y post k content h1 =>
    rw [← List.append_assoc, ← Ast2.displayChunks_append]
    exact .formula (y := y) (post := post) (by rw [h1, List.append_assoc])
  | @across pre l x y post _ k content h1 h2 h3 =>
    refine .across (pre := p0 ++ pre) (x := x) (y := y) (post := post) (by rw [h1, List.append_assoc]) ?_ ?_
    · simp; omega
    · simp only [List.append_assoc, Ast2.displayChunks_append, h3]

theorem AllStand.prepend {cs a out} (h : AllStand cs a out) (p0 : List Ast2.Chunk) :
    AllStand (p0 ++ cs) (Ast2.displayChunks p0 ++ a) out := by
  induction out generalizing a with
  | nil => trivial
  | cons c out ih =>
    refine ⟨h.1.prepend p0, ?_⟩
    rw [List.append_assoc]
    exact ih h.2

/-- The rest of a text is part of the text. -/
theorem Stands.resume {l : Nat} {u r : Str} {rest at' c} (h : Stands (.mk (l + u.count '\n') (.text r) :: rest) at' c) :
    Stands (.mk l (.text (u ++ r)) :: rest) (u ++ at') c := by
  have hd : ∀ (n : Nat) (t : Str) (cs : List Ast2.Chunk), Ast2.displayChunks (.mk n (.text t) :: cs) = t ++ Ast2.displayChunks cs := by
    intro n t cs; simp [Ast2.displayChunks, Ast2.Chunk.display, Ast2.ChunkVariant.display]
  cases h with
  | @node pre l' v post w h1 h2 =>
    cases pre with
    | nil =>
      simp only [List.nil_append, List.cons.injEq] at h1
      obtain ⟨h1, rfl⟩ := h1
      injection h1 with h3 h4
      subst h3 h4
      simp [TurnsInto] at h2
    | cons c0 pre =>
      simp only [List.cons_append, List.cons.injEq] at h1
      obtain ⟨rfl, rfl⟩ := h1
      have := Stands.node (cs := .mk l (.text (u ++ r)) :: (pre ++ .mk l' v :: post)) (pre := .mk l (.text (u ++ r)) :: pre) rfl h2
      simpa [hd] using this
  | @text pre l' x t y post h1 h2 =>
    cases pre with
    | nil =>
      simp only [List.nil_append, List.cons.injEq] at h1
      obtain ⟨h1, rfl⟩ := h1
      injection h1 with h3 h4
      injection h4 with h4
      subst h3 h4
      have := Stands.text (cs := .mk l (.text (u ++ (x ++ (t ++ y)))) :: rest) (pre := []) (x := u ++ x) (t := t) (y := y) (l := l) (post := rest) (by simp) h2
      simpa [Ast2.displayChunks, Nat.add_assoc] using this
    | cons c0 pre =>
      simp only [List.cons_append, List.cons.injEq] at h1
      obtain ⟨rfl, rfl⟩ := h1
      have := Stands.text (cs := .mk l (.text (u ++ r)) :: (pre ++ .mk l' (.text (x ++ (t ++ y))) :: post)) (pre := .mk l (.text (u ++ r)) :: pre) (y := y) (post := post) rfl h2
      simpa [hd] using this
  | @«break» pre l' x t y post h1 h2 =>
    cases pre with
    | nil =>
      simp only [List.nil_append, List.cons.injEq] at h1
      obtain ⟨h1, rfl⟩ := h1
      injection h1 with h3 h4
      injection h4 with h4
      subst h3 h4
      have := Stands.break (cs := .mk l (.text (u ++ (x ++ (t ++ y)))) :: rest) (pre := []) (x := u ++ x) (b := t) (y := y) (l := l) (post := rest) (by simp) h2
      simpa [Ast2.displayChunks, Nat.add_assoc] using this
    | cons c0 pre =>
      simp only [List.cons_append, List.cons.injEq] at h1
      obtain ⟨rfl, rfl⟩ := h1
      have := Stands.break (cs := .mk l (.text (u ++ r)) :: (pre ++ .mk l' (.text (x ++ (t ++ y))) :: post)) (pre := .mk l (.text (u ++ r)) :: pre) (y := y) (post := post) rfl h2
      simpa [hd] using this
  | @formula pre l' x y post k content h1 =>
    cases pre with
    | nil =>
      simp only [List.nil_append, List.cons.injEq] at h1
      obtain ⟨h1, rfl⟩ := h1
      injection h1 with h3 h4
      injection h4 with h4
      subst h3 h4
      have := Stands.formula (cs := .mk l (.text (u ++ (x ++ ((ChunkVariant.mathsBlock (.mk .dollars k content)).display ++ y)))) :: rest) (pre := []) (x := u ++ x) (y := y) (l := l) (post := rest) (k := k) (content := content) (by simp)
      simpa [Ast2.displayChunks, Nat.add_assoc] using this
    | cons c0 pre =>
      simp only [List.cons_append, List.cons.injEq] at h1
      obtain ⟨rfl, rfl⟩ := h1
      have := Stands.formula (cs := .mk l (.text (u ++ r)) :: (pre ++ .mk l' (.text (x ++ ((ChunkVariant.mathsBlock (.mk .dollars k content)).display ++ y))) :: post)) (pre := .mk l (.text (u ++ r)) :: pre) (y := y) (post := post) rfl
      simpa [hd] using this
  | @across pre l' x y post _ k content h1 h2 h3 =>
    cases pre with
    | nil => simp [Ast2.displayChunks] at h2
    | cons c0 pre =>
      simp only [List.cons_append, List.cons.injEq] at h1
      obtain ⟨rfl, rfl⟩ := h1
      rw [hd] at h2 h3
      refine .across (pre := .mk l (.text (u ++ r)) :: pre) (x := x) (y := y) (post := post) rfl ?_ ?_
      · rw [hd]; simp at h2 ⊢; omega
      · rw [hd, List.append_assoc, h3]; simp

theorem AllStand.resume {l : Nat} {u r : Str} {rest a out} (h : AllStand (.mk (l + u.count '\n') (.text r) :: rest) a out) :
    AllStand (.mk l (.text (u ++ r)) :: rest) (u ++ a) out := by
  induction out generalizing a with
  | nil => trivial
  | cons c out ih =>
    refine ⟨h.1.resume, ?_⟩
    rw [List.append_assoc]
    exact ih h.2

theorem allStand_textIf {l t} (cs : List Ast2.Chunk) (y : Str) : AllStand (.mk l (.text (t ++ y)) :: cs) [] (textIf l t) := by
  unfold textIf
  split
  · trivial
  · rename_i h
    refine ⟨?_, trivial⟩
    simpa [Ast2.displayChunks] using Stands.text (cs := .mk l (.text (t ++ y)) :: cs) (pre := []) (x := []) (t := t) (y := y) (l := l) (post := cs) (by simp) h

/-! ### formulas -/

theorem toDollar_reach {p lost kept p'} (h : ToDollar p lost kept p') (hl : lost = []) :
    (∃ x, p.text = x ++ '$' :: p'.text ∧ p'.rest = p.rest ∧ p'.line = p.line ∧ p'.pending = p.pending ++ x) ∨
    (p.text = [] ∧ ∃ pre, p.rest = pre ++ .mk p'.line (.text (p'.pending ++ '$' :: p'.text)) :: p'.rest) := by
  induction h with
  | @here l q x r rest _ => exact .inl ⟨x, rfl, rfl, rfl, rfl⟩
  | @later l q x ms l' t rest lost kept p _ _ _ ih =>
    obtain ⟨h1, h2⟩ := List.append_eq_nil_iff.1 hl
    obtain ⟨_, h4⟩ := List.append_eq_nil_iff.1 (textIf_nil h1)
    refine .inr ⟨h4, ?_⟩
    rcases ih h2 with ⟨y, g1, g2, g3, g4⟩ | ⟨_, pre, g2⟩
    · simp only [List.nil_append] at g1 g2 g3 g4
      exact ⟨ms, by rw [g1, g2, g3, g4]⟩
    · simp only at g2
      exact ⟨ms ++ .mk l' (.text t) :: pre, by simp [g2]⟩

/-- The place `p` is right after `v` in a text: that with the rest `r`, on line `l`, or a later one. -/
def PlacedAt (l : Nat) (r : Str) (cs : List Ast2.Chunk) (p : Place) (v : Str) : Prop :=
  v.count '\n' = p.pending.count '\n' ∧
  ((r = v ++ p.text ∧ p.rest = cs ∧ p.line = l) ∨ ∃ pre, cs = pre ++ .mk p.line (.text (v ++ p.text)) :: p.rest)

theorem PlacedAt.step {l r cs p v kept p'} (h : PlacedAt l r cs p v) (hd : ToDollar p [] kept p') : ∃ v', PlacedAt l r cs p' (v' ++ ['$']) := by
  obtain ⟨h0, h⟩ := h
  rcases toDollar_reach hd rfl with ⟨x, g1, g2, g3, g4⟩ | ⟨g1, pre2, g2⟩
  · refine ⟨v ++ x, by simp [g4, h0, List.count_cons], ?_⟩
    rcases h with ⟨h1, h2, h3⟩ | ⟨pre, h1⟩
    · exact .inl ⟨by rw [h1, g1]; simp, by rw [g2, h2], by rw [g3, h3]⟩
    · exact .inr ⟨pre, by rw [h1, g1, g2, g3]; simp⟩
  · refine ⟨p'.pending, by simp [List.count_cons], .inr ?_⟩
    rcases h with ⟨h1, h2, h3⟩ | ⟨pre, h1⟩
    · exact ⟨pre2, by rw [← h2, g2]; simp⟩
    · exact ⟨pre ++ .mk p.line (.text (v ++ p.text)) :: pre2, by rw [h1, g2]; simp⟩

theorem stand_formula {l : Nat} {q r : Str} {cs : List Ast2.Chunk} {p : Place} {v : Str} {k content} {o : List Chunk}
    (h : PlacedAt (l + q.count '\n') r cs p (v ++ ['$']))
    (hd : '$' :: (r ++ Ast2.displayChunks cs) =
      (ChunkVariant.mathsBlock (.mk .dollars k content)).display ++ (p.text ++ Ast2.displayChunks p.rest))
    (ho : AllStand (.mk (p.line + p.pending.count '\n') (.text p.text) :: p.rest) [] o) :
    AllStand (.mk l (.text (q ++ '$' :: r)) :: cs) [] (textIf l q ++ .mk p.line (.mathsBlock (.mk .dollars k content)) :: o) := by
  rw [allStand_append]
  refine ⟨allStand_textIf cs _, ?_⟩
  rw [display_textIf, List.nil_append]
  obtain ⟨h0, ⟨rfl, rfl, h3⟩ | ⟨pre, rfl⟩⟩ := h
  · have hD : (ChunkVariant.mathsBlock (.mk .dollars k content)).display = '$' :: (v ++ ['$']) := by
      have : ('$' :: (v ++ ['$'])) ++ (p.text ++ Ast2.displayChunks p.rest) =
        (ChunkVariant.mathsBlock (.mk .dollars k content)).display ++ (p.text ++ Ast2.displayChunks p.rest) := by
          rw [← hd]; simp
      exact (List.append_cancel_right this).symm
    constructor
    · rw [h3]
      have := Stands.formula (cs := .mk l (.text (q ++ '$' :: (v ++ ['$'] ++ p.text))) :: p.rest) (pre := []) (l := l) (x := q) (y := p.text)
        (post := p.rest) (k := k) (content := content) (by rw [hD]; simp)
      simpa [Ast2.displayChunks] using this
    · have := AllStand.resume (l := l) (u := q ++ '$' :: (v ++ ['$'])) (r := p.text) (rest := p.rest) (a := []) (out := o) (by
        rw [h3, ← h0] at ho
        simpa [List.count_cons, Nat.add_assoc] using ho)
      simpa [Chunk.display, hD] using this
  · have hD : '$' :: (r ++ Ast2.displayChunks pre) ++ (v ++ ['$']) = (ChunkVariant.mathsBlock (.mk .dollars k content)).display := by
      refine List.append_cancel_right (bs := p.text ++ Ast2.displayChunks p.rest) ?_
      rw [← hd]
      simp [Ast2.displayChunks, Ast2.Chunk.display, Ast2.ChunkVariant.display]
    constructor
    · refine .across (pre := .mk l (.text (q ++ '$' :: r)) :: pre) (x := v) (y := p.text) (post := p.rest) (by simp) ?_ ?_
      · simp [Ast2.displayChunks, Ast2.Chunk.display, Ast2.ChunkVariant.display]
      · rw [← hD]
        simp [Ast2.displayChunks, Ast2.Chunk.display, Ast2.ChunkVariant.display]
    · have := (AllStand.resume (l := p.line) (u := v ++ ['$']) (r := p.text) (rest := p.rest) (a := []) (out := o) (by
        rw [← h0] at ho; exact ho)).prepend (.mk l (.text (q ++ '$' :: r)) :: pre)
      simp only [Chunk.display]
      rw [← hD]
      simpa [Ast2.displayChunks, Ast2.Chunk.display, Ast2.ChunkVariant.display] using this

theorem stand_node {l v w} {cs : List Ast2.Chunk} {o : List Chunk} (hb : TurnsInto v w) (hd : w.display = v.display)
    (ho : AllStand cs [] o) : AllStand (.mk l v :: cs) [] (.mk l w :: o) := by
  refine ⟨?_, ?_⟩
  · simpa [Ast2.displayChunks] using Stands.node (cs := .mk l v :: cs) (pre := []) (post := cs) rfl hb
  · have := ho.prepend [.mk l v]
    simpa [Ast2.displayChunks, Ast2.Chunk.display, Chunk.display, hd] using this

theorem KeepsText.stand {cs} (h : KeepsText cs) : ∀ b out, Yields b cs (.ok out) → AllStand cs [] out := by
  induction h with
  | nil =>
    intro b out h
    have := yields_unique h .nil
    simp at this
    subst this
    trivial
  | @text l t cs ht _ ih =>
    intro b out h
    obtain ⟨o, ho⟩ := yields_total b cs
    have := yields_unique h (.text ht ho)
    cases o with
    | error f => simp [before] at this
    | ok o =>
      simp only [before, Except.ok.injEq] at this
      subst this
      rw [allStand_append]
      have h1 := allStand_textIf (l := l) (t := t) cs []
      have h2 := (ih b o ho).prepend [.mk l (.text t)]
      rw [List.append_nil] at h1
      exact ⟨h1, by simpa [display_textIf, Ast2.displayChunks, Ast2.Chunk.display, Ast2.ChunkVariant.display] using h2⟩
  | @inline l q r cs kept p hq hd hk hk1 hk2 ih1 ih2 =>
    intro b out h
    by_cases hc : Countable p.line (kept ++ textIf2 p.line p.pending)
    · obtain ⟨i, hi⟩ := yields_total 0 ((kept ++ textIf2 p.line p.pending).map (countFrom p.line))
      obtain ⟨o, ho⟩ := yields_total b (.mk (p.line + p.pending.count '\n') (.text p.text) :: p.rest)
      have := yields_unique h (.formula hq (.inline hd hk) hc hi ho)
      cases i with
      | error f => simp [blockOutcome] at this
      | ok i =>
        cases o with
        | error f => simp [blockOutcome, before] at this
        | ok o =>
          simp only [blockOutcome, before, Except.ok.injEq] at this
          subst this
          have h1 := hk1.same 0 i hi
          have h3 := toDollar_disp hd rfl
          rw [display_countFrom] at h1
          simp only [List.nil_append] at h3
          obtain ⟨v, hv⟩ := PlacedAt.step (l := l + q.count '\n') (r := r) (cs := cs) (v := []) ⟨rfl, .inl ⟨rfl, rfl, rfl⟩⟩ hd
          have := stand_formula (k := .inline) (content := paragraphs i) hv (by
            simp [ChunkVariant.display, MathsBlock.display, display_paragraphs, delimiters, h1, h3, display_textIf2]) (ih2 b o ho)
          simpa using this
    · cases yields_unique h (.uncountable hq (.inline hd hk) hc)
  | @display l q r cs p₁ kept p₂ p₃ hq hd1 hp1 hd2 hd3 hp3 hk1 hk2 ih1 ih2 =>
    intro b out h
    have hf : Formula ⟨l + q.count '\n', [], r, cs⟩ [] .outline (kept ++ textIf2 p₃.line p₃.pending) p₃ := by
      simpa using Formula.display hd1 hp1 hd2 hd3
    by_cases hc : Countable p₃.line (kept ++ textIf2 p₃.line p₃.pending)
    · obtain ⟨i, hi⟩ := yields_total 0 ((kept ++ textIf2 p₃.line p₃.pending).map (countFrom p₃.line))
      obtain ⟨o, ho⟩ := yields_total b (.mk (p₃.line + p₃.pending.count '\n') (.text p₃.text) :: p₃.rest)
      have := yields_unique h (.formula hq hf hc hi ho)
      cases i with
      | error f => simp [blockOutcome] at this
      | ok i =>
        cases o with
        | error f => simp [blockOutcome, before] at this
        | ok o =>
          simp only [blockOutcome, before, Except.ok.injEq] at this
          subst this
          have h1 := hk1.same 0 i hi
          have h3 := toDollar_disp hd1 rfl
          have h4 := toDollar_disp hd2 rfl
          have h5 := toDollar_disp hd3 rfl
          rw [display_countFrom] at h1
          simp only [Ast2.displayChunks, List.nil_append, hp1, hp3, List.append_cancel_left_eq] at h3 h4 h5
          obtain ⟨v, hv⟩ := PlacedAt.step (l := l + q.count '\n') (r := r) (cs := cs) (v := []) ⟨rfl, .inl ⟨rfl, rfl, rfl⟩⟩ hd1
          obtain ⟨v, hv⟩ := hv.step hd2
          obtain ⟨v, hv⟩ := hv.step hd3
          have := stand_formula (k := .outline) (content := paragraphs i) hv (by
            simp [ChunkVariant.display, MathsBlock.display, display_paragraphs, delimiters, h1, h3, h4, h5, display_textIf2, hp3]) (ih2 b o ho)
          simpa using this
    · cases yields_unique h (.uncountable hq hf hc)
  | @brackets k l body l' cs hb hk _ _ ih2 =>
    intro b out h
    obtain ⟨i, hi⟩ := yields_total 0 body
    obtain ⟨o, ho⟩ := yields_total l cs
    have := yields_unique h (.brackets (notOfKind_inside hb) hi ho)
    cases i with
    | error f => simp [blockOutcome] at this
    | ok i =>
      cases o with
      | error f => simp [blockOutcome, before] at this
      | ok o =>
        simp only [blockOutcome, before, Except.ok.injEq] at this
        subst this
        have h1 := hk.same 0 i hi
        refine ⟨?_, ?_⟩
        · simpa [Ast2.displayChunks] using Stands.node (cs := .mk l (.command (.mk (openLabel k) [])) :: (body ++ .mk l' (.command (.mk (closeLabel k) [])) :: cs))
            (pre := []) (v := .command (.mk (openLabel k) [])) (w := .mathsBlock (.mk .brackets k (paragraphs i))) rfl rfl
        · have := (ih2 l o ho).prepend (.mk l (.command (.mk (openLabel k) [])) :: (body ++ [.mk l' (.command (.mk (closeLabel k) []))]))
          simpa [Chunk.display, ChunkVariant.display, MathsBlock.display, display_paragraphs,
            Ast2.displayChunks, Ast2.Chunk.display, Ast2.ChunkVariant.display, Ast2.Command.display, delims_bracket,
            Ast2.displayArgs, h1] using this
  | @scope l inner sv cs hk _ _ ih2 =>
    intro b out h
    obtain ⟨i, hi⟩ := yields_total 0 inner
    obtain ⟨o, ho⟩ := yields_total b cs
    have := yields_unique h (.scope hi ho)
    cases i with
    | error f => simp [scopeOutcome] at this
    | ok i =>
      cases o with
      | error f => simp [scopeOutcome, before] at this
      | ok o =>
        simp only [scopeOutcome, before, Except.ok.injEq] at this
        subst this
        exact stand_node (by simp [TurnsInto]) (by
          simp [ChunkVariant.display, Scope.display, display_paragraphs, Ast2.ChunkVariant.display, Ast2.Scope.display, hk.same 0 i hi])
          (ih2 b o ho)
  | @command l label args cs hd hk _ _ ih2 =>
    intro b out h
    obtain ⟨items, rfl, hi⟩ := yield_items (args := args) fun x _ => yields_total 0 x.2.chunks
    obtain ⟨o, ho⟩ := yields_total b cs
    have := yields_unique h (.command hd hi ho)
    cases ha : argOutcome items with
    | error f => simp [commandOutcome, ha] at this
    | ok args =>
      cases o with
      | error f => simp [commandOutcome, ha, before] at this
      | ok o =>
        simp only [commandOutcome, ha, before, Except.ok.injEq] at this
        subst this
        have h1 := args_same ha fun x hx out ho => (hk x.1 (List.mem_map.2 ⟨x, hx, rfl⟩)).same 0 out (ho ▸ hi x hx)
        exact stand_node (by simp [TurnsInto]) (by
          simp [ChunkVariant.display, Command.display, Ast2.ChunkVariant.display, Ast2.Command.display, h1]) (ih2 b o ho)
  | @environment l label args body pb pe cs hk hk2 _ _ _ ih3 =>
    intro b out h
    obtain ⟨items, rfl, hi⟩ := yield_items (args := args) fun x _ => yields_total 0 x.2.chunks
    obtain ⟨i, hi'⟩ := yields_total 0 body
    obtain ⟨o, ho⟩ := yields_total b cs
    have := yields_unique h (.environment hi hi' ho)
    cases ha : argOutcome items with
    | error f => simp [environmentOutcome, ha] at this
    | ok args =>
      cases i with
      | error f => simp [environmentOutcome, ha] at this
      | ok i =>
        cases o with
        | error f => simp [environmentOutcome, ha, before] at this
        | ok o =>
          simp only [environmentOutcome, ha, before, Except.ok.injEq] at this
          subst this
          have h1 := args_same ha fun x hx out ho => (hk x.1 (List.mem_map.2 ⟨x, hx, rfl⟩)).same 0 out (ho ▸ hi x hx)
          exact stand_node (by simp [TurnsInto, h1]) (by
            simp [ChunkVariant.display, Environment.display, display_paragraphs, Ast2.ChunkVariant.display, Ast2.Environment.display, h1,
              hk2.same 0 i hi']) (ih3 b o ho)

end LatexAst.Ast3

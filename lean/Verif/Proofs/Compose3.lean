import Verif.Spec.Moved
import Verif.Props.MathsRule

namespace LatexAst.Ast3

/-! ### appending -/

/-- The place with more chunks at the end. -/
def Place.app (p : Place) (c : List Ast2.Chunk) : Place := ⟨p.line, p.pending, p.text, p.rest ++ c⟩

theorem ToDollar.app {p lost kept p'} (h : ToDollar p lost kept p') (c) : ToDollar (p.app c) lost kept (p'.app c) := by
  induction h with
  | here h => exact .here h
  | @later l q x ms l' t rest lost kept p h1 h2 h3 ih =>
    have := ToDollar.later (l := l) (q := q) h1 h2 ih
    simpa [Place.app] using this

theorem Formula.app {p lost type content p'} (h : Formula p lost type content p') (c) :
    Formula (p.app c) lost type content (p'.app c) := by
  cases h with
  | inline h1 h2 => exact .inline (h1.app c) h2
  | display h1 h2 h3 h4 => exact .display (h1.app c) h2 (h3.app c) (h4.app c)

theorem lastBracket_append (b x y) : lastBracket b (x ++ y) = lastBracket (lastBracket b x) y := by
  induction x generalizing b with
  | nil => rfl
  | cons c x ih =>
    obtain ⟨l, v⟩ := c
    cases v with
    | mathsBlock m =>
      obtain ⟨v, t, content⟩ := m
      cases v <;> simp only [List.cons_append, lastBracket, ih]
    | text | paragraphBreak | command | scope | environment => simp only [List.cons_append, lastBracket, ih]

theorem lastBracket_none {x : List Chunk} (b) (h : ∀ l t content, .mk l (.mathsBlock (.mk .brackets t content)) ∉ x) :
    lastBracket b x = b := by
  induction x generalizing b with
  | nil => rfl
  | cons c x ih =>
    have hx := ih b (fun l t content hm => h l t content (List.mem_cons_of_mem _ hm))
    obtain ⟨l, v⟩ := c
    cases v with
    | mathsBlock m =>
      obtain ⟨v, t, content⟩ := m
      cases v with
      | brackets => exact absurd (List.mem_cons_self ..) (h l t content)
      | dollars => simpa only [lastBracket] using hx
    | text | paragraphBreak | command | scope | environment => simpa only [lastBracket] using hx

theorem textIf_text {l t c} (h : c ∈ textIf l t) : ∃ l t, c = .mk l (.text t) := by
  unfold textIf at h
  split at h
  · cases h
  · exact ⟨l, t, List.mem_singleton.1 h⟩

theorem ToDollar.lost_text {p lost kept p'} (h : ToDollar p lost kept p') : ∀ c ∈ lost, ∃ l t, c = .mk l (.text t) := by
  induction h with
  | here => intro c hc; cases hc
  | later _ _ _ ih =>
    intro c hc
    rcases List.mem_append.1 hc with hc | hc
    · exact textIf_text hc
    · exact ih c hc

theorem Formula.lost_text {p lost type content p'} (h : Formula p lost type content p') : ∀ c ∈ lost, ∃ l t, c = .mk l (.text t) := by
  cases h with
  | inline h1 h2 => exact h1.lost_text
  | display h1 h2 h3 h4 =>
    intro c hc
    rcases List.mem_append.1 hc with hc | hc
    · rcases List.mem_append.1 hc with hc | hc
      · exact h1.lost_text c hc
      · exact h3.lost_text c hc
    · exact h4.lost_text c hc

theorem lastBracket_texts {x : List Chunk} (b) (h : ∀ c ∈ x, ∃ l t, c = .mk l (.text t)) : lastBracket b x = b :=
  lastBracket_none b fun l t content hm => by obtain ⟨_, _, h⟩ := h _ hm; cases h

theorem before_ok {a o x} (h : before a o = .ok x) : ∃ y, o = .ok y ∧ x = a ++ y := by
  cases o with
  | ok y => cases h; exact ⟨y, rfl, rfl⟩
  | error => cases h

theorem yields_append {b a o} (h : Yields b a o) : ∀ x, o = .ok x → ∀ c oc, Yields (lastBracket b x) c oc →
    Yields b (a ++ c) (before x oc) := by
  induction h with
  | nil =>
    intro x hx c oc hc
    cases hx
    cases oc <;> exact hc
  | text h1 _ ih =>
    intro x hx c oc hc
    obtain ⟨y, rfl, rfl⟩ := before_ok hx
    rw [lastBracket_append, lastBracket_texts _ (fun c hc => textIf_text hc)] at hc
    rw [← before_before]
    exact .text h1 (ih y rfl c oc hc)
  | @formula b l q r cs lost type content p i o h1 h2 h3 h4 _ _ ih =>
    intro x hx c oc hc
    cases i with
    | error => cases hx
    | ok i =>
      obtain ⟨y, rfl, rfl⟩ := before_ok hx
      rw [lastBracket_append, lastBracket_append, lastBracket_texts b (x := textIf l q ++ lost)] at hc
      · rw [← before_before]
        exact .formula (i := .ok i) (p := p.app c) h1 (h2.app c) h3 h4 (ih y rfl c oc hc)
      · intro c hc
        rcases List.mem_append.1 hc with hc | hc
        · exact textIf_text hc
        · exact h2.lost_text c hc
  | uncountable => intro x hx; cases hx
  | unfinished => intro x hx; cases hx
  | @brackets b k l args body inner l' args' cs i o h1 h2 _ _ ih =>
    intro x hx c oc hc
    cases i with
    | error => cases hx
    | ok i =>
      obtain ⟨y, rfl, rfl⟩ := before_ok hx
      rw [← before_before]
      simp only [List.cons_append, List.append_assoc]
      exact .brackets (i := .ok i) h1 h2 (ih y rfl c oc hc)
  | unclosed => intro x hx; cases hx
  | unexpected => intro x hx; cases hx
  | @scope b l inner sv cs i o h1 _ _ ih =>
    intro x hx c oc hc
    cases i with
    | error => cases hx
    | ok i =>
      obtain ⟨y, rfl, rfl⟩ := before_ok hx
      rw [← before_before]
      exact .scope (i := .ok i) h1 (ih y rfl c oc hc)
  | @command b l label cs o items h1 h2 _ _ ih =>
    intro x hx c oc hc
    simp only [commandOutcome] at hx
    cases ha : argOutcome items with
    | error => rw [ha] at hx; cases hx
    | ok args =>
      rw [ha] at hx
      obtain ⟨y, rfl, rfl⟩ := before_ok hx
      have := Yields.command (l := l) h1 h2 (ih y rfl c oc hc)
      simp only [commandOutcome, ha, before_before] at this
      exact this
  | @environment b l label body pb pe cs i o items h1 h2 _ _ _ ih =>
    intro x hx c oc hc
    simp only [environmentOutcome] at hx
    cases ha : argOutcome items with
    | error => rw [ha] at hx; cases hx
    | ok args =>
      rw [ha] at hx
      cases i with
      | error => cases hx
      | ok i =>
        obtain ⟨y, rfl, rfl⟩ := before_ok hx
        have := Yields.environment (l := l) (label := label) (pb := pb) (pe := pe) h1 h2 (ih y rfl c oc hc)
        simp only [environmentOutcome, ha, before_before] at this
        exact this

/-- Only the line of an unclosed formula depends on what comes before. -/
inductive SameBut (b b' : Nat) : Outcome → Outcome → Prop
  | same {o} : SameBut b b' o o
  | unclosed : SameBut b b' (.error (.err ⟨b, .unclosedMaths⟩)) (.error (.err ⟨b', .unclosedMaths⟩))

theorem SameBut.before {b b' o o'} (h : SameBut b b' o o') (x) : SameBut b b' (before x o) (before x o') := by
  cases h with
  | same => exact .same
  | unclosed => exact .unclosed

theorem yields_start {b cs o} (h : Yields b cs o) : ∀ b', ∃ o', Yields b' cs o' ∧ SameBut b b' o o' := by
  induction h with
  | nil => intro b'; exact ⟨_, .nil, .same⟩
  | text h1 _ ih =>
    intro b'
    obtain ⟨o', h, hs⟩ := ih b'
    exact ⟨_, .text h1 h, hs.before _⟩
  | @formula b l q r cs lost type content p i o h1 h2 h3 h4 _ _ ih =>
    intro b'
    obtain ⟨o', h, hs⟩ := ih b'
    refine ⟨_, .formula h1 h2 h3 h4 h, ?_⟩
    cases i with
    | error => exact .same
    | ok => exact hs.before _
  | uncountable h1 h2 h3 => intro b'; exact ⟨_, .uncountable h1 h2 h3, .same⟩
  | unfinished h1 h2 => intro b'; exact ⟨_, .unfinished h1 h2, .unclosed⟩
  | brackets h1 h2 h3 => intro b'; exact ⟨_, .brackets h1 h2 h3, .same⟩
  | unclosed h => intro b'; exact ⟨_, .unclosed h, .same⟩
  | unexpected => intro b'; exact ⟨_, .unexpected, .same⟩
  | @scope b l inner sv cs i o h1 _ _ ih =>
    intro b'
    obtain ⟨o', h, hs⟩ := ih b'
    refine ⟨_, .scope h1 h, ?_⟩
    cases i with
    | error => exact .same
    | ok => exact hs.before _
  | @command b l label cs o items h1 h2 _ _ ih =>
    intro b'
    obtain ⟨o', h, hs⟩ := ih b'
    refine ⟨_, .command h1 h2 h, ?_⟩
    unfold commandOutcome
    cases argOutcome items with
    | error => exact .same
    | ok => exact hs.before _
  | @environment b l label body pb pe cs i o items h1 h2 _ _ _ ih =>
    intro b'
    obtain ⟨o', h, hs⟩ := ih b'
    refine ⟨_, .environment h1 h2 h, ?_⟩
    unfold environmentOutcome
    cases argOutcome items with
    | error => exact .same
    | ok =>
      cases i with
      | error => exact .same
      | ok => exact hs.before _

/-! ### further down -/

theorem moved_append (k : Nat) (a b : List Chunk) : moved k (a ++ b) = moved k a ++ moved k b := by
  induction a with
  | nil => simp [moved]
  | cons c a ih => simp [moved, ih]

/-- The state of the paragraph loop, further down. -/
def ParState.down (k : Nat) (s : ParState) : ParState :=
  ⟨moved k s.out, s.lineNo + k, s.textBuffer, s.textBufferLine + k, s.buffer, s.bufferLine + k, s.consec⟩

theorem moved_ite (k : Nat) (p : Prop) [Decidable p] (a b : List Chunk) :
    moved k (if p then a else b) = if p then moved k a else moved k b := by split <;> rfl

theorem down_ite (k : Nat) (p : Prop) [Decidable p] (a b : ParState) :
    (if p then a else b).down k = if p then a.down k else b.down k := by split <;> rfl

theorem add_ite (k : Nat) (p : Prop) [Decidable p] (a b : Nat) :
    (if p then a else b) + k = if p then a + k else b + k := by split <;> rfl

theorem parStep_down (k : Nat) (s : ParState) (c : Char) : parStep (s.down k) c = (parStep s c).down k := by
  unfold parStep
  simp only [down_ite]
  simp only [ParState.down, moved_ite, moved_append, moved, Chunk.moved, ChunkVariant.moved, add_ite, Nat.add_right_comm _ 1 k]
  rfl

theorem parRun_down (k : Nat) (t : Str) : ∀ s : ParState, parRun t (s.down k) = (parRun t s).down k := by
  induction t with
  | nil => intro s; rfl
  | cons c t ih => intro s; rw [parRun, parRun, parStep_down, ih]

theorem parFinish_down (k : Nat) (s : ParState) : parFinish (s.down k) = moved k (parFinish s) := by
  unfold parFinish
  simp only [ParState.down, moved_ite, moved_append, moved, Chunk.moved, ChunkVariant.moved]
  rfl

theorem paragraphs_moved (k : Nat) (cs : List Chunk) : paragraphs (moved k cs) = moved k (paragraphs cs) := by
  induction cs with
  | nil => rfl
  | cons c cs ih =>
    rw [moved, paragraphs, paragraphs, ih, moved_append]
    congr 1
    obtain ⟨l, v⟩ := c
    cases v with
    | text t =>
      simp only [Chunk.moved, ChunkVariant.moved, paragraphChunk]
      rw [← parFinish_down, ← parRun_down]
      rfl
    | _ => simp [Chunk.moved, ChunkVariant.moved, paragraphChunk, moved]

theorem textIf_moved (k l : Nat) (t : Str) : moved k (textIf l t) = textIf (l + k) t := by
  unfold textIf
  split <;> simp [moved, Chunk.moved, ChunkVariant.moved]

theorem textIf2_shift (k l : Nat) (t : Str) : (textIf2 l t).map (Ast2.Chunk.shift k) = textIf2 (l + k) t := by
  unfold textIf2
  split <;> simp [Ast2.Chunk.shift]

/-- The place, further down. -/
def Place.down (k : Nat) (p : Place) : Place := ⟨p.line + k, p.pending, p.text, p.rest.map (Ast2.Chunk.shift k)⟩

theorem notText_shift {k : Nat} {m : Ast2.Chunk} (h : NotText m) : NotText (m.shift k) := by
  obtain ⟨l, v⟩ := m
  exact h

theorem ToDollar.down {p lost kept p'} (h : ToDollar p lost kept p') (k : Nat) :
    ToDollar (p.down k) (moved k lost) (kept.map (Ast2.Chunk.shift k)) (p'.down k) := by
  induction h with
  | here h => exact .here h
  | @later l q x ms l' t rest lost kept p h1 h2 h3 ih =>
    have := ToDollar.later (l := l + k) (q := q) (ms := ms.map (Ast2.Chunk.shift k)) h1 (by
      intro m hm
      obtain ⟨m', h, rfl⟩ := List.mem_map.1 hm
      exact notText_shift (h2 m' h)) ih
    simpa [Place.down, moved_append, textIf_moved, Ast2.Chunk.shift] using this

theorem Formula.down {p lost type content p'} (h : Formula p lost type content p') (k : Nat) :
    Formula (p.down k) (moved k lost) type (content.map (Ast2.Chunk.shift k)) (p'.down k) := by
  cases h with
  | inline h1 h2 =>
    have := Formula.inline (h1.down k) (h2.imp (by simp) id)
    simpa [Place.down, textIf2_shift] using this
  | display h1 h2 h3 h4 =>
    have := Formula.display (h1.down k) h2 (h3.down k) (h4.down k)
    simpa [Place.down, textIf2_shift, moved_append] using this

theorem Countable.down {line content} (h : Countable line content) (k : Nat) :
    Countable (line + k) (content.map (Ast2.Chunk.shift k)) ∧
    (content.map (Ast2.Chunk.shift k)).map (countFrom (line + k)) = content.map (countFrom line) := by
  rcases h with rfl | ⟨h1, h2⟩
  · exact ⟨.inl rfl, rfl⟩
  · refine ⟨.inr ⟨by omega, ?_⟩, ?_⟩
    · intro c hc
      obtain ⟨c', h, rfl⟩ := List.mem_map.1 hc
      have := h2 c' h
      obtain ⟨l, v⟩ := c'
      simp only [Ast2.Chunk.shift, Ast2.Chunk.lineNo] at *
      omega
    · rw [List.map_map]
      apply List.map_congr_left
      intro c hc
      obtain ⟨l, v⟩ := c
      simp only [Function.comp, Ast2.Chunk.shift, countFrom, Ast2.Chunk.mk.injEq, and_true]
      omega

theorem notOfKind_shift {k : Nat} {t} {c : Ast2.Chunk} (h : NotOfKind t c) : NotOfKind t (c.shift k) := by
  obtain ⟨l, v⟩ := c
  exact h

theorem Inside.down {t body inner} (h : Inside t body inner) (k : Nat) :
    Inside t (body.map (Ast2.Chunk.shift k)) (inner.map (Ast2.Chunk.shift k)) := by
  induction h with
  | nil => exact .nil
  | other h1 _ ih => exact .other (notOfKind_shift h1) ih
  | nested _ _ ih1 ih2 => simpa [Ast2.Chunk.shift] using Inside.nested ih1 ih2

theorem yields_down {b cs o} (h : Yields b cs o) (k : Nat) : ∀ x, o = .ok x → ∀ b',
    Yields b' (cs.map (Ast2.Chunk.shift k)) (.ok (moved k x)) := by
  induction h with
  | nil => intro x hx b'; cases hx; exact .nil
  | @text b l t cs o h1 _ ih =>
    intro x hx b'
    obtain ⟨y, rfl, rfl⟩ := before_ok hx
    have := Yields.text (l := l + k) h1 (ih y rfl b')
    simpa [before, moved_append, textIf_moved, Ast2.Chunk.shift] using this
  | @formula b l q r cs lost type content p i o h1 h2 h3 h4 _ _ ih =>
    intro x hx b'
    cases i with
    | error => cases hx
    | ok i =>
      obtain ⟨y, rfl, rfl⟩ := before_ok hx
      have hc := h3.down k
      have h2' := h2.down k
      have := Yields.formula (b := b') (l := l + k) (q := q) (r := r) (cs := cs.map (Ast2.Chunk.shift k)) (i := .ok i)
        (o := .ok (moved k y)) (type := type) (lost := moved k lost) (p := p.down k) h1
        (by simpa [Place.down, Nat.add_right_comm] using h2') hc.1
        (by simp only [Place.down]; rw [hc.2]; exact h4)
        (by have := ih y rfl b'; simpa [Place.down, Ast2.Chunk.shift, Nat.add_right_comm] using this)
      simpa [blockOutcome, before, moved_append, moved, Chunk.moved, ChunkVariant.moved, MathsBlock.moved, textIf_moved,
        Place.down, Ast2.Chunk.shift] using this
  | uncountable => intro x hx; cases hx
  | unfinished => intro x hx; cases hx
  | @brackets b t l args body inner l' args' cs i o h1 h2 _ ih1 ih =>
    intro x hx b'
    cases i with
    | error => cases hx
    | ok i =>
      obtain ⟨y, rfl, rfl⟩ := before_ok hx
      have := Yields.brackets (b := b') (l := l + k) (args := args) (l' := l' + k) (args' := args') (h1.down k) (ih1 i rfl 0) (ih y rfl (l + k))
      simpa [blockOutcome, before, moved_append, moved, Chunk.moved, ChunkVariant.moved, MathsBlock.moved, paragraphs_moved,
        Ast2.Chunk.shift] using this
  | unclosed => intro x hx; cases hx
  | unexpected => intro x hx; cases hx
  | @scope b l inner sv cs i o h1 _ _ ih =>
    intro x hx b'
    cases i with
    | error => cases hx
    | ok i =>
      obtain ⟨y, rfl, rfl⟩ := before_ok hx
      have := Yields.scope (l := l + k) (sv := sv) h1 (ih y rfl b')
      simpa [scopeOutcome, before, moved, Chunk.moved, ChunkVariant.moved, Ast2.Chunk.shift] using this
  | @command b l label cs o items h1 h2 _ _ ih =>
    intro x hx b'
    simp only [commandOutcome] at hx
    cases ha : argOutcome items with
    | error => rw [ha] at hx; cases hx
    | ok args =>
      rw [ha] at hx
      obtain ⟨y, rfl, rfl⟩ := before_ok hx
      have := Yields.command (l := l + k) h1 h2 (ih y rfl b')
      simpa [commandOutcome, ha, before, moved, Chunk.moved, ChunkVariant.moved, Ast2.Chunk.shift] using this
  | @environment b l label body pb pe cs i o items h1 h2 _ _ _ ih =>
    intro x hx b'
    simp only [environmentOutcome] at hx
    cases ha : argOutcome items with
    | error => rw [ha] at hx; cases hx
    | ok args =>
      rw [ha] at hx
      cases i with
      | error => cases hx
      | ok i =>
        obtain ⟨y, rfl, rfl⟩ := before_ok hx
        have := Yields.environment (l := l + k) (label := label) (pb := pb) (pe := pe) h1 h2 (ih y rfl b')
        simpa [environmentOutcome, ha, before, moved, Chunk.moved, ChunkVariant.moved, Ast2.Chunk.shift] using this

end LatexAst.Ast3

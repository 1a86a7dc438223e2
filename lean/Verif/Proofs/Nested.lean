import Verif.Spec.Nested
import Verif.Proofs.MathsRule
import Verif.Proofs.Again3c

/-!
# No formula is directly within one with the same mark
-/

namespace LatexAst.Ast3

theorem fresh_append (u) (a b : List Chunk) : fresh u (a ++ b) ↔ fresh u a ∧ fresh u b := by
  induction a with
  | nil => simp [fresh]
  | cons c a ih => obtain ⟨l, v⟩ := c; simp [fresh, ih, and_assoc]

theorem fresh_textual {u} {cs : List Chunk} (h : ∀ c ∈ cs, ∃ l, (∃ t, c = .mk l (.text t)) ∨ ∃ t, c = .mk l (.paragraphBreak t)) :
    fresh u cs := by
  induction cs with
  | nil => simp [fresh]
  | cons c cs ih =>
    have := ih fun c hc => h c (.tail _ hc)
    obtain ⟨l, ⟨t, rfl⟩ | ⟨t, rfl⟩⟩ := h _ (.head _) <;> simp [fresh, ChunkVariant.fresh, this]

theorem fresh_textIf {u l t} : fresh u (textIf l t) := by
  unfold textIf
  split <;> simp [fresh, ChunkVariant.fresh]

theorem fresh_paragraphs (u) (cs : List Chunk) : fresh u (paragraphs cs) ↔ fresh u cs := by
  induction cs with
  | nil => exact Iff.rfl
  | cons c cs ih =>
    have key : fresh u (paragraphChunk c) ↔ fresh u [c] := by
      by_cases ht : ∃ l t, c = .mk l (.text t)
      · obtain ⟨l, t, rfl⟩ := ht
        have hp : ∀ c ∈ paragraphChunk (.mk l (.text t)), ∃ l, (∃ t, c = .mk l (.text t)) ∨ ∃ t, c = .mk l (.paragraphBreak t) := by
          intro c hc
          rcases paragraphChunk_mem hc with ⟨rfl, h3⟩ | ⟨_, _, _, ⟨l', t', he, _⟩ | ⟨l', b, he, _⟩⟩
          · exact absurd rfl (h3 t)
          · exact ⟨l', .inl ⟨t', he⟩⟩
          · exact ⟨l', .inr ⟨b, he⟩⟩
        simp [fresh_textual hp, fresh, ChunkVariant.fresh]
      · obtain ⟨l, v⟩ := c
        have : paragraphChunk (.mk l v) = [.mk l v] := by
          cases v with
          | text t => exact absurd ⟨l, t, rfl⟩ ht
          | _ => rfl
        rw [this]
    rw [paragraphs, fresh_append, key, ih]
    obtain ⟨l, v⟩ := c
    simp [fresh]

/-- The chunk does not have a mark at its own level. -/
def Lacks : MathsMark → Ast2.ChunkVariant → Prop
  | .dollar, v => ∀ t, v = .text t → '$' ∉ t
  | .round, v => NotOfKind .inline (.mk 0 v)
  | .square, v => NotOfKind .outline (.mk 0 v)

/-- None of the chunks has one of the marks at its own level. -/
def LacksAll (u : List MathsMark) (cs : List Ast2.Chunk) : Prop := ∀ d ∈ u, ∀ c ∈ cs, Lacks d c.variant

theorem LacksAll.sub {u cs ds} (h : LacksAll u cs) (hs : ∀ c ∈ ds, c ∈ cs) : LacksAll u ds := fun d hd c hc => h d hd c (hs c hc)

theorem lacks_text {d l t} (h : '$' ∉ t) : Lacks d (Ast2.Chunk.mk l (.text t)).variant := by
  cases d with
  | dollar => rintro _ ⟨⟩; exact h
  | _ => intro args; exact ⟨nofun, nofun⟩

theorem lacks_notText {m : Ast2.Chunk} (h : NotText m) : Lacks .dollar m.variant := fun t ht => absurd ht (h t)

theorem lacks_mark {k v} : Lacks (markFor .brackets k) v ↔ NotOfKind k (.mk 0 v) := by cases k <;> exact Iff.rfl

theorem toDollar_lacks {p lost kept p'} (h : ToDollar p lost kept p') :
    (∀ c ∈ kept, c ∈ p.rest ∧ NotText c) ∧ (∀ c ∈ p'.rest, c ∈ p.rest) ∧ ('$' ∉ p.pending → '$' ∉ p'.pending) ∧ ∀ u, fresh u lost := by
  induction h with
  | here hx => exact ⟨nofun, fun _ h => h, fun h => by simp [h, hx], fun u => by simp [fresh]⟩
  | @later l q x ms l' t rest lost kept p hx hm _ ih =>
    obtain ⟨i1, i2, i3, i4⟩ := ih
    refine ⟨?_, ?_, fun _ => i3 (by simp), fun u => (fresh_append _ _ _).2 ⟨fresh_textIf, i4 u⟩⟩
    · intro c hc
      rcases List.mem_append.1 hc with hc | hc
      · exact ⟨by simp [hc], hm c hc⟩
      · exact ⟨by have := (i1 c hc).1; simp only at this; simp [this], (i1 c hc).2⟩
    · intro c hc
      have := i2 c hc
      simp only at this
      simp [this]

theorem formula_lacks {p lost type content p'} (h : Formula p lost type content p') (hp : p.pending = []) :
    (∀ c ∈ content, Lacks .dollar c.variant ∧ (c ∈ p.rest ∨ ∃ l t, c = .mk l (.text t) ∧ '$' ∉ t)) ∧
      (∀ c ∈ p'.rest, c ∈ p.rest) ∧ ∀ u, fresh u lost := by
  have ht : ∀ {l t c}, '$' ∉ t → c ∈ textIf2 l t → Lacks .dollar c.variant ∧ (c ∈ p.rest ∨ ∃ l t, c = .mk l (.text t) ∧ '$' ∉ t) := by
    intro l t c h hc
    unfold textIf2 at hc
    split at hc
    · cases hc
    · cases List.mem_singleton.1 hc
      exact ⟨lacks_text (l := l) h, .inr ⟨_, _, rfl, h⟩⟩
  cases h with
  | inline h1 _ =>
    obtain ⟨a1, a2, a3, a4⟩ := toDollar_lacks h1
    refine ⟨?_, a2, a4⟩
    intro c hc
    rcases List.mem_append.1 hc with hc | hc
    · exact ⟨lacks_notText (a1 c hc).2, .inl (a1 c hc).1⟩
    · exact ht (a3 (by simp [hp])) hc
  | display h1 h2 h3 h4 =>
    obtain ⟨a1, a2, a3, a4⟩ := toDollar_lacks h1
    obtain ⟨b1, b2, b3, b4⟩ := toDollar_lacks h3
    obtain ⟨c1, c2, c3, c4⟩ := toDollar_lacks h4
    refine ⟨?_, fun c hc => a2 c (b2 c (c2 c hc)), fun u => by simp [fresh_append, a4 u, b4 u, c4 u]⟩
    intro c hc
    rcases List.mem_append.1 hc with hc | hc
    · rcases List.mem_append.1 hc with hc | hc
      · exact ⟨lacks_notText (b1 c hc).2, .inl (a2 _ (b1 c hc).1)⟩
      · exact ⟨lacks_notText (c1 c hc).2, .inl (a2 _ (b2 _ (c1 c hc).1))⟩
    · exact ht (c3 (b3 (by simp [h2]))) hc

theorem inside_lacks {k body inner} (h : Inside k body inner) : ∀ c ∈ inner, c ∈ body ∧ NotOfKind k c := by
  induction h with
  | nil => exact nofun
  | other hn _ ih =>
    intro c hc
    rcases List.mem_cons.1 hc with rfl | hc
    · exact ⟨.head _, hn⟩
    · exact ⟨.tail _ (ih c hc).1, (ih c hc).2⟩
  | nested _ _ ih1 ih2 =>
    intro c hc
    rcases List.mem_append.1 hc with hc | hc
    · exact ⟨by simp [(ih1 c hc).1], (ih1 c hc).2⟩
    · exact ⟨by simp [(ih2 c hc).1], (ih2 c hc).2⟩

theorem fresh_args {items : List ((Str × Ast2.Scope) × Outcome)} {args} (h : argOutcome items = .ok args)
    (ih : ∀ x ∈ items, ∀ out, x.2 = .ok out → ∀ u, LacksAll u x.1.2.chunks → fresh u out) : freshArgs args := by
  induction items generalizing args with
  | nil => simp [argOutcome] at h; subst h; simp [freshArgs]
  | cons x r ihr =>
    obtain ⟨⟨p, ⟨inner, sv⟩⟩, o⟩ := x
    cases o with
    | error f => simp [argOutcome] at h
    | ok out =>
      cases ha : argOutcome r with
      | error f => simp [argOutcome, ha] at h
      | ok args' =>
        simp [argOutcome, ha] at h
        subst h
        have h1 := ihr ha fun y hy => ih y (.tail _ hy)
        have h2 := ih _ (.head _) out rfl [] nofun
        simp [freshArgs, Scope.fresh, fresh_paragraphs, h1, h2]

theorem Yields.fresh {b cs o} (h : Yields b cs o) : ∀ out, o = .ok out → ∀ u, LacksAll u cs → fresh u out := by
  induction h with
  | nil => rintro _ ⟨⟩ u _; simp [Ast3.fresh]
  | text _ _ ih =>
    intro out h u hu
    obtain ⟨o', rfl, rfl⟩ := before_ok h
    exact (fresh_append _ _ _).2 ⟨fresh_textIf, ih _ rfl u (hu.sub fun c hc => .tail _ hc)⟩
  | @formula b l q r cs lost type content p i o hq hf _ _ _ ih1 ih2 =>
    intro out h u hu
    cases i with
    | error f => simp [blockOutcome] at h
    | ok i =>
      obtain ⟨o', rfl, rfl⟩ := before_ok h
      obtain ⟨a1, a2, a3⟩ := formula_lacks hf rfl
      have hd : MathsMark.dollar ∉ u := fun hd => absurd (hu _ hd _ (.head _) _ rfl) (by simp)
      have hsub : ∀ c ∈ p.rest, c ∈ Ast2.Chunk.mk l (.text (q ++ '$' :: r)) :: cs := fun c hc => .tail _ (a2 c hc)
      have g1 := ih1 _ rfl (.dollar :: u) (by
        intro d hd' c hc
        obtain ⟨c', hc', rfl⟩ := List.mem_map.1 hc
        have hv : (countFrom p.line c').variant = c'.variant := by cases c'; rfl
        rw [hv]
        obtain ⟨e1, e2⟩ := a1 c' hc'
        rcases List.mem_cons.1 hd' with rfl | hd'
        · exact e1
        · rcases e2 with e2 | ⟨l, t, rfl, e2⟩
          · exact hu d hd' _ (.tail _ e2)
          · exact lacks_text (l := l) e2)
      have g2 := ih2 _ rfl u (by
        intro d hd' c hc
        rcases List.mem_cons.1 hc with rfl | hc
        · cases d with
          | dollar => exact absurd hd' hd
          | _ => intro args; exact ⟨nofun, nofun⟩
        · exact hu d hd' c (hsub c hc))
      simp only [fresh_append, fresh_textIf, a3, Ast3.fresh, ChunkVariant.fresh, MathsBlock.fresh, fresh_paragraphs, true_and, and_true]
      exact ⟨⟨by cases type <;> exact hd, by cases type <;> exact g1⟩, g2⟩
  | uncountable => intro out h; cases h
  | unfinished => intro out h; cases h
  | @brackets b k l args body inner l' args' cs i o hin _ _ ih1 ih2 =>
    intro out h u hu
    cases i with
    | error f => simp [blockOutcome] at h
    | ok i =>
      obtain ⟨o', rfl, rfl⟩ := before_ok h
      have hm := inside_lacks hin
      have hk : markFor .brackets k ∉ u := fun hk => (lacks_mark.1 (hu _ hk _ (.head _)) args).1 rfl
      have g1 := ih1 _ rfl (markFor .brackets k :: u) (by
        intro d hd c hc
        rcases List.mem_cons.1 hd with rfl | hd
        · exact lacks_mark.2 fun a => (hm c hc).2 a
        · exact hu d hd c (by simp [(hm c hc).1]))
      have g2 := ih2 _ rfl u (hu.sub fun c hc => by simp [hc])
      simp only [fresh_append, Ast3.fresh, ChunkVariant.fresh, MathsBlock.fresh, fresh_paragraphs, true_and, and_true, List.nil_append]
      exact ⟨⟨hk, g1⟩, g2⟩
  | unclosed => intro out h; cases h
  | unexpected => intro out h; cases h
  | @scope b l inner sv cs i o _ _ ih1 ih2 =>
    intro out h u hu
    cases i with
    | error f => simp [scopeOutcome] at h
    | ok i =>
      simp only [scopeOutcome] at h
      obtain ⟨o', rfl, rfl⟩ := before_ok h
      have g1 := ih1 _ rfl [] nofun
      have g2 := ih2 _ rfl u (hu.sub fun c hc => .tail _ hc)
      simp [Ast3.fresh, ChunkVariant.fresh, Scope.fresh, fresh_paragraphs, g1, g2]
  | @command b l label cs o items hl _ _ ih1 ih2 =>
    intro out h u hu
    cases ha : argOutcome items with
    | error f => simp [commandOutcome, ha] at h
    | ok args =>
      simp only [commandOutcome, ha] at h
      obtain ⟨o', rfl, rfl⟩ := before_ok h
      have g1 := fresh_args ha ih1
      have g2 := ih2 _ rfl u (hu.sub fun c hc => .tail _ hc)
      simp [Ast3.fresh, ChunkVariant.fresh, Command.fresh, g1, g2]
  | @environment b l label body pb pe cs i o items _ _ _ ih1 ih2 ih3 =>
    intro out h u hu
    cases ha : argOutcome items with
    | error f => simp [environmentOutcome, ha] at h
    | ok args =>
      cases i with
      | error f => simp [environmentOutcome, ha] at h
      | ok i =>
        simp only [environmentOutcome, ha] at h
        obtain ⟨o', rfl, rfl⟩ := before_ok h
        have g1 := fresh_args ha ih1
        have g2 := ih2 _ rfl [] nofun
        have g3 := ih3 _ rfl u (hu.sub fun c hc => .tail _ hc)
        simp [Ast3.fresh, ChunkVariant.fresh, Environment.fresh, fresh_paragraphs, g1, g2, g3]

theorem maths_fresh {cs out} (h : mathsFromChunks cs = .ok out) : fresh [] out := by
  obtain ⟨o, h1, h2⟩ := yields_iff.1 h
  cases o with
  | error f => cases h2
  | ok raw =>
    cases h2
    exact (fresh_paragraphs _ _).2 (h1.fresh _ rfl [] nofun)

theorem directDepth_append (a b : List Chunk) : directDepth (a ++ b) = max (directDepth a) (directDepth b) := by
  induction a with
  | nil => simp [directDepth]
  | cons c a ih => obtain ⟨l, v⟩ := c; simp only [List.cons_append, directDepth, ih]; omega

theorem marks_count (u : List MathsMark) : u.length = u.count .round + u.count .square + u.count .dollar := by
  induction u with
  | nil => rfl
  | cons m u ih => cases m <;> simp [List.count_cons] <;> omega

theorem marks_once {u : List MathsMark} (hu : u.Nodup) (m : MathsMark) : u.count m ≤ 1 := by
  induction u with
  | nil => simp
  | cons x u ih =>
    obtain ⟨h1, h2⟩ := List.nodup_cons.1 hu
    rw [List.count_cons]
    split
    · rename_i h
      cases eq_of_beq h
      rw [List.count_eq_zero.2 h1]
      omega
    · exact ih h2

/-- There are three marks. -/
theorem marks_three {u : List MathsMark} (hu : u.Nodup) : u.length ≤ 3 := by
  have := marks_once hu .round
  have := marks_once hu .square
  have := marks_once hu .dollar
  rw [marks_count]
  omega

theorem marks_left {m : MathsMark} {u : List MathsMark} (h : m ∉ u) (hu : u.Nodup) : (m :: u).Nodup ∧ u.length + 1 ≤ 3 :=
  have h1 : (m :: u).Nodup := List.nodup_cons.2 ⟨h, hu⟩
  ⟨h1, marks_three h1⟩

mutual
theorem fresh_depth : ∀ (cs : List Chunk) (u : List MathsMark), u.Nodup → fresh u cs → directDepth cs + u.length ≤ max 3 u.length
  | [], u, _, _ => by simp only [directDepth]; omega
  | .mk l v :: r, u, hu, h => by
    have h1 := fresh_depth r u hu h.2
    have h2 := fresh_depthV v u hu h.1
    simp only [directDepth]
    omega
theorem fresh_depthV : ∀ (v : ChunkVariant) (u : List MathsMark), u.Nodup → v.fresh u → v.directDepth + u.length ≤ max 3 u.length
  | .mathsBlock m, u, hu, h => by simpa only [ChunkVariant.directDepth] using fresh_depthM m u hu h
  | .text _, u, _, _ => by simp only [ChunkVariant.directDepth]; omega
  | .paragraphBreak _, u, _, _ => by simp only [ChunkVariant.directDepth]; omega
  | .command _, u, _, _ => by simp only [ChunkVariant.directDepth]; omega
  | .scope _, u, _, _ => by simp only [ChunkVariant.directDepth]; omega
  | .environment _, u, _, _ => by simp only [ChunkVariant.directDepth]; omega
theorem fresh_depthM : ∀ (m : MathsBlock) (u : List MathsMark), u.Nodup → m.fresh u → m.directDepth + u.length ≤ max 3 u.length
  | .mk v t cs, u, hu, h => by
    obtain ⟨h1, h2⟩ := h
    obtain ⟨h3, h4⟩ := marks_left h1 hu
    have := fresh_depth cs _ h3 h2
    simp only [List.length_cons, MathsBlock.directDepth] at this ⊢
    omega
end

mutual
theorem fresh_shallow : ∀ (cs : List Chunk) (u : List MathsMark), u.Nodup → fresh u cs → shallow 3 cs
  | [], _, _, _ => by simp [shallow]
  | .mk l v :: r, u, hu, h => by
    refine ⟨?_, fresh_shallowV v u hu h.1, fresh_shallow r u hu h.2⟩
    have := fresh_depthV v u hu h.1
    have h3 := marks_three hu
    simp only [directDepth]
    omega
theorem fresh_shallowV : ∀ (v : ChunkVariant) (u : List MathsMark), u.Nodup → v.fresh u → v.shallow 3
  | .mathsBlock m, u, hu, h => fresh_shallowM m u hu h
  | .text _, u, _, _ => by simp [ChunkVariant.shallow]
  | .paragraphBreak _, u, _, _ => by simp [ChunkVariant.shallow]
  | .command (.mk _ args), u, _, h => fresh_shallowA args h
  | .scope (.mk cs _), u, _, h => fresh_shallow cs [] .nil h
  | .environment (.mk _ args cs _ _), u, _, h => ⟨fresh_shallowA args h.1, fresh_shallow cs [] .nil h.2⟩
theorem fresh_shallowM : ∀ (m : MathsBlock) (u : List MathsMark), u.Nodup → m.fresh u → m.shallow 3
  | .mk _ _ cs, _, hu, h => fresh_shallow cs _ (marks_left h.1 hu).1 h.2
theorem fresh_shallowA : ∀ (args : List (Str × Scope)), freshArgs args → shallowArgs 3 args
  | [], _ => by simp [shallowArgs]
  | (_, .mk cs _) :: r, h => ⟨fresh_shallow cs [] .nil h.1, fresh_shallowA r h.2⟩
end

end LatexAst.Ast3

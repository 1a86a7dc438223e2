import Verif.Proofs.NestedDepth
import Verif.Spec.PlainDelims
import Verif.Proofs.Document3Facts

/-!
# Stage 3 does not nest less than stage 2
-/

namespace LatexAst.Ast2

theorem Part.plain {ds cs} (h : Part ds cs) (hp : PlainDelims cs) : PlainDelims ds := by
  intro k lv hl l label args hm hd
  cases k with
  | zero =>
    cases hl
    rcases h _ hm with ⟨t, ht⟩ | ⟨⟨l', v⟩, hc', hv⟩
    · simp [Chunk.variant] at ht
    · simp only [Chunk.variant] at hv
      subst hv
      exact hp 0 _ .top _ _ _ hc' hd
  | succ k =>
    obtain ⟨i, h1, h2⟩ := levelAt_head hl
    obtain ⟨c, hc, h3⟩ := child2_one h2
    rcases h c hc with ⟨t, ht⟩ | ⟨c', hc', hv⟩
    · exact (child2_text (h3 [.mk 0 (.text t)] ⟨_, .head _, by rw [ht]; rfl⟩)).elim
    · exact hp _ _ (levelAt_child (h3 cs ⟨c', hc', hv⟩) h1) _ _ _ hm hd

theorem PlainDelims.child {cs i} (hp : PlainDelims cs) (h : Child2 cs i) : PlainDelims i :=
  fun _ _ hl => hp _ _ (levelAt_child h hl)

end LatexAst.Ast2

namespace LatexAst.Ast3

/-- There is something at level `k` or below. -/
def Reaches (out : List Chunk) (k : Nat) : Prop := ∃ k' lv, k ≤ k' ∧ LevelAt out k' lv

theorem reaches_zero {out} : Reaches out 0 := ⟨0, out, Nat.le_refl _, .top⟩

theorem reaches_child {out i k} (h : Child3 out i) (hr : Reaches i k) : Reaches out (k + 1) := by
  obtain ⟨k', lv, h1, h2⟩ := hr
  exact ⟨k' + 1, lv, by omega, levelAt_child h h2⟩

theorem Reaches.mono {out k j} (h : Reaches out k) (hj : j ≤ k) : Reaches out j := by
  obtain ⟨k', lv, h1, h2⟩ := h
  exact ⟨k', lv, by omega, h2⟩

theorem reaches_succ {out k} (h : Reaches out (k + 1)) : ∃ i, Child3 out i ∧ Reaches i k := by
  obtain ⟨k', lv, h1, h2⟩ := h
  cases k' with
  | zero => omega
  | succ k' =>
    obtain ⟨i, h3, h4⟩ := levelAt_head h2
    exact ⟨i, h4, k', lv, by omega, h3⟩

theorem Reaches.sub {a b k} (h : Reaches a k) (hs : ∀ c ∈ a, c ∈ b) : Reaches b k := by
  cases k with
  | zero => exact reaches_zero
  | succ k => obtain ⟨i, h1, h2⟩ := reaches_succ h; exact reaches_child (child3_sub h1 hs) h2

theorem Reaches.paragraphs {a k} (h : Reaches a k) : Reaches (paragraphs a) k := by
  cases k with
  | zero => exact reaches_zero
  | succ k => obtain ⟨i, h1, h2⟩ := reaches_succ h; exact reaches_child (child3_paragraphs.2 h1) h2

theorem toDollar_all {p lost kept p'} (h : ToDollar p lost kept p') : ∀ c ∈ p.rest, (∃ t, c.variant = .text t) ∨ c ∈ kept ∨ c ∈ p'.rest := by
  induction h with
  | here => exact fun c hc => .inr (.inr hc)
  | later _ _ _ ih =>
    intro c hc
    rcases List.mem_append.1 hc with hc | hc
    · exact .inr (.inl (List.mem_append_left _ hc))
    · rcases List.mem_cons.1 hc with rfl | hc
      · exact .inl ⟨_, rfl⟩
      · rcases ih c hc with h | h | h
        · exact .inl h
        · exact .inr (.inl (List.mem_append_right _ h))
        · exact .inr (.inr h)

theorem formula_all {p lost type content p'} (h : Formula p lost type content p') :
    ∀ c ∈ p.rest, (∃ t, c.variant = .text t) ∨ c ∈ content ∨ c ∈ p'.rest := by
  cases h with
  | inline h1 _ =>
    intro c hc
    rcases toDollar_all h1 c hc with h | h | h
    · exact .inl h
    · exact .inr (.inl (List.mem_append_left _ h))
    · exact .inr (.inr h)
  | display h1 h2 h3 h4 =>
    intro c hc
    rcases toDollar_all h1 c hc with h | h | h
    · exact .inl h
    · cases h
    rcases toDollar_all h3 c h with h | h | h
    · exact .inl h
    · exact .inr (.inl (by simp [h]))
    rcases toDollar_all h4 c h with h | h | h
    · exact .inl h
    · exact .inr (.inl (by simp [h]))
    · exact .inr (.inr h)

theorem inside_all {k body inner} (h : Inside k body inner) :
    ∀ c ∈ body, c ∈ inner ∨ ∃ label args, IsDelimiter label ∧ c.variant = .command (.mk label args) := by
  induction h with
  | nil => exact nofun
  | other _ _ ih =>
    intro c hc
    rcases List.mem_cons.1 hc with rfl | hc
    · exact .inl (.head _)
    · exact (ih c hc).imp (.tail _ ·) id
  | nested _ _ ih1 ih2 =>
    intro c hc
    rcases List.mem_cons.1 hc with rfl | hc
    · exact .inr ⟨_, _, by cases k <;> simp [IsDelimiter, openLabel], rfl⟩
    · rcases List.mem_append.1 hc with hc | hc
      · exact (ih1 c hc).imp (List.mem_append_left _ ·) id
      · rcases List.mem_cons.1 hc with rfl | hc
        · exact .inr ⟨_, _, by cases k <;> simp [IsDelimiter, closeLabel], rfl⟩
        · exact (ih2 c hc).imp (List.mem_append_right _ ·) id

theorem argOutcome_all {items : List ((Str × Ast2.Scope) × Outcome)} {args} (h : argOutcome items = .ok args) :
    ∀ x ∈ items, ∃ out, x.2 = .ok out ∧ (x.1.1, Scope.mk (paragraphs out) x.1.2.variant) ∈ args := by
  induction items generalizing args with
  | nil => exact nofun
  | cons x r ih =>
    obtain ⟨⟨p, sc⟩, o⟩ := x
    cases o with
    | error f => simp [argOutcome] at h
    | ok out =>
      cases ha : argOutcome r with
      | error f => simp [argOutcome, ha] at h
      | ok args' =>
        simp [argOutcome, ha] at h
        subst h
        intro x hx
        rcases List.mem_cons.1 hx with rfl | hx
        · exact ⟨out, rfl, .head _⟩
        · obtain ⟨out', h1, h2⟩ := ih ha x hx
          exact ⟨out', h1, .tail _ h2⟩

/-- Whatever level there is in the chunks, there is in the result. -/
def Deepens (cs : List Ast2.Chunk) (out : List Chunk) : Prop :=
  Ast2.PlainDelims cs → ∀ k lv, Ast2.LevelAt cs k lv → Reaches out k

/-- It is enough to look at one chunk. -/
theorem deepens_of {cs out} (h : Ast2.PlainDelims cs → ∀ c ∈ cs, ∀ i, Ast2.Child2 [c] i → ∀ k lv, Ast2.LevelAt i k lv → Reaches out (k + 1)) :
    Deepens cs out := by
  intro hp k lv hl
  cases k with
  | zero => exact reaches_zero
  | succ k =>
    obtain ⟨i, h1, h2⟩ := Ast2.levelAt_head hl
    obtain ⟨c, hc, h3⟩ := Ast2.child2_one h2
    exact h hp c hc i (h3 [c] ⟨c, .head _, rfl⟩) k lv h1

theorem Deepens.at {cs out} (h : Deepens cs out) (hp : Ast2.PlainDelims cs) {c c' : Ast2.Chunk} {i} (hi : Ast2.Child2 [c] i) (hc : c' ∈ cs) (hv : c'.variant = c.variant)
    {k lv} (hl : Ast2.LevelAt i k lv) : Reaches out (k + 1) := by
  obtain ⟨d, hd, h3⟩ := Ast2.child2_one hi
  cases List.mem_singleton.1 hd
  exact h hp _ _ (Ast2.levelAt_child (h3 cs ⟨c', hc, hv⟩) hl)

theorem child2_variant {c c' : Ast2.Chunk} {i} (hi : Ast2.Child2 [c] i) (hv : c'.variant = c.variant) : Ast2.Child2 [c'] i := by
  obtain ⟨d, hd, h3⟩ := Ast2.child2_one hi
  cases List.mem_singleton.1 hd
  exact h3 _ ⟨c', .head _, hv⟩

theorem no_child {cs : List Ast2.Chunk} {c : Ast2.Chunk} {i} (hp : Ast2.PlainDelims cs) (hc : c ∈ cs) {label args} (hd : IsDelimiter label)
    (hv : c.variant = .command (.mk label args)) : ¬ Ast2.Child2 [c] i := by
  obtain ⟨l, v⟩ := c
  simp only [Ast2.Chunk.variant] at hv
  subst hv
  have := hp 0 _ .top _ _ _ hc hd
  subst this
  intro h
  cases h with
  | scope hm => simp at hm
  | arg hm ha => simp at hm; grind
  | envArg hm _ => simp at hm
  | envContent hm => simp at hm

theorem Yields.deepens {b cs o} (h : Yields b cs o) : ∀ out, o = .ok out → Deepens cs out := by
  induction h with
  | nil => rintro _ ⟨⟩; exact deepens_of fun _ c hc => nomatch hc
  | text _ _ ih =>
    intro out h
    obtain ⟨o', rfl, rfl⟩ := before_ok h
    refine deepens_of fun hp c hc i hi k lv hl => ?_
    rcases List.mem_cons.1 hc with rfl | hc
    · exact (Ast2.child2_text hi).elim
    · exact ((ih _ rfl).at ((Ast2.Part.of_sub fun c hc => .tail _ hc).plain hp) hi hc rfl hl).sub (by simp +contextual)
  | @formula b l q r cs lost type content p i o hq hf _ _ _ ih1 ih2 =>
    intro out h
    cases i with
    | error f => simp [blockOutcome] at h
    | ok i =>
      obtain ⟨o', rfl, rfl⟩ := before_ok h
      obtain ⟨a1, a2, _⟩ := formula_lacks hf rfl
      have hv : ∀ c, (countFrom p.line c).variant = c.variant := fun c => by cases c; rfl
      refine deepens_of fun hp c hc j hj k lv hl => ?_
      rcases List.mem_cons.1 hc with rfl | hc
      · exact (Ast2.child2_text hj).elim
      rcases formula_all hf c hc with ⟨t, ht⟩ | h | h
      · obtain ⟨l, v⟩ := c
        simp only [Ast2.Chunk.variant] at ht
        subst ht
        exact (Ast2.child2_text hj).elim
      · have hp1 : Ast2.Part (content.map (countFrom p.line)) (Ast2.Chunk.mk l (.text (q ++ '$' :: r)) :: cs) := by
          intro c hc
          obtain ⟨c', hc', rfl⟩ := List.mem_map.1 hc
          rw [hv]
          rcases (a1 c' hc').2 with e2 | ⟨l, t, rfl, e2⟩
          · exact .inr ⟨c', .tail _ e2, rfl⟩
          · exact .inl ⟨t, rfl⟩
        have := ((ih1 _ rfl).at (hp1.plain hp) hj (List.mem_map.2 ⟨c, h, rfl⟩) (hv c) hl).paragraphs
        exact (reaches_child (.maths (l := p.line) (v := .dollars) (t := type) (content := paragraphs i) (by simp)) this).mono (by omega)
      · have hp2 : Ast2.Part (.mk (p.line + p.pending.count '\n') (.text p.text) :: p.rest) (Ast2.Chunk.mk l (.text (q ++ '$' :: r)) :: cs) := by
          intro c hc
          rcases List.mem_cons.1 hc with rfl | hc
          · exact .inl ⟨_, rfl⟩
          · exact .inr ⟨c, .tail _ (a2 c hc), rfl⟩
        exact ((ih2 _ rfl).at (hp2.plain hp) hj (.tail _ h) rfl hl).sub (by simp +contextual)
  | uncountable => intro out h; cases h
  | unfinished => intro out h; cases h
  | @brackets b k l args body inner l' args' cs i o hin _ _ ih1 ih2 =>
    intro out h
    cases i with
    | error f => simp [blockOutcome] at h
    | ok i =>
      obtain ⟨o', rfl, rfl⟩ := before_ok h
      have hm := inside_lacks hin
      refine deepens_of fun hp c hc j hj n lv hl => ?_
      have hc0 := hc
      rcases List.mem_cons.1 hc with rfl | hc
      · exact (no_child hp hc0 (by cases k <;> simp [IsDelimiter, openLabel]) rfl hj).elim
      rcases List.mem_append.1 hc with hc | hc
      · rcases inside_all hin c hc with h | ⟨label, args, hd, hv⟩
        · have := ((ih1 _ rfl).at ((Ast2.Part.of_sub fun c hc => by simp [(hm c hc).1]).plain hp) hj h rfl hl).paragraphs
          exact (reaches_child (.maths (l := l) (v := .brackets) (t := k) (content := paragraphs i) (by simp)) this).mono (by omega)
        · exact (no_child hp hc0 hd hv hj).elim
      rcases List.mem_cons.1 hc with rfl | hc
      · exact (no_child hp hc0 (by cases k <;> simp [IsDelimiter, closeLabel]) rfl hj).elim
      · exact ((ih2 _ rfl).at ((Ast2.Part.of_sub fun c hc => by simp [hc]).plain hp) hj hc rfl hl).sub (by simp +contextual)
  | unclosed => intro out h; cases h
  | unexpected => intro out h; cases h
  | @scope b l inner sv cs i o _ _ ih1 ih2 =>
    intro out h
    cases i with
    | error f => simp [scopeOutcome] at h
    | ok i =>
      simp only [scopeOutcome] at h
      obtain ⟨o', rfl, rfl⟩ := before_ok h
      refine deepens_of fun hp c hc j hj k lv hl => ?_
      rcases List.mem_cons.1 hc with rfl | hc
      · cases hj with
        | scope hm =>
          simp at hm
          obtain ⟨_, rfl, _⟩ := hm
          exact reaches_child (.scope (.head _)) (((ih1 _ rfl) (hp.child (.scope (.head _))) k lv hl).paragraphs)
        | arg hm _ => simp at hm
        | envArg hm _ => simp at hm
        | envContent hm => simp at hm
      · exact ((ih2 _ rfl).at ((Ast2.Part.of_sub fun c hc => .tail _ hc).plain hp) hj hc rfl hl).sub (by simp +contextual)
  | @command b l label cs o items hlab _ _ ih1 ih2 =>
    intro out h
    cases ha : argOutcome items with
    | error f => simp [commandOutcome, ha] at h
    | ok args =>
      simp only [commandOutcome, ha] at h
      obtain ⟨o', rfl, rfl⟩ := before_ok h
      refine deepens_of fun hp c hc j hj k lv hl => ?_
      rcases List.mem_cons.1 hc with rfl | hc
      · have key : ∃ p sv, (p, Ast2.Scope.mk j sv) ∈ items.map (·.1) := by
          cases hj with
          | arg hm hx => simp at hm; obtain ⟨_, _, rfl⟩ := hm; exact ⟨_, _, hx⟩
          | scope hm => simp at hm
          | envArg hm _ => simp at hm
          | envContent hm => simp at hm
        obtain ⟨p, sv, hx⟩ := key
        obtain ⟨x, hx', he⟩ := List.mem_map.1 hx
        obtain ⟨out, h1, h2⟩ := argOutcome_all ha x hx'
        have hpj := hp.child (.arg (.head _) hx)
        have hj' : x.1.2.chunks = j := by rw [he]; rfl
        have := ih1 x hx' out h1 (hj' ▸ hpj) k lv (hj' ▸ hl)
        exact reaches_child (.arg (.head _) h2) this.paragraphs
      · exact ((ih2 _ rfl).at ((Ast2.Part.of_sub fun c hc => .tail _ hc).plain hp) hj hc rfl hl).sub (by simp +contextual)
  | @environment b l label body pb pe cs i o items _ _ _ ih1 ih2 ih3 =>
    intro out h
    cases ha : argOutcome items with
    | error f => simp [environmentOutcome, ha] at h
    | ok args =>
      cases i with
      | error f => simp [environmentOutcome, ha] at h
      | ok i =>
        simp only [environmentOutcome, ha] at h
        obtain ⟨o', rfl, rfl⟩ := before_ok h
        refine deepens_of fun hp c hc j hj k lv hl => ?_
        rcases List.mem_cons.1 hc with rfl | hc
        · have key : (∃ p sv, (p, Ast2.Scope.mk j sv) ∈ items.map (·.1)) ∨ j = body := by
            cases hj with
            | envArg hm hx => simp at hm; obtain ⟨_, _, rfl, _⟩ := hm; exact .inl ⟨_, _, hx⟩
            | envContent hm => simp at hm; exact .inr hm.2.2.2.1
            | scope hm => simp at hm
            | arg hm _ => simp at hm
          rcases key with ⟨p, sv, hx⟩ | rfl
          · obtain ⟨x, hx', he⟩ := List.mem_map.1 hx
            obtain ⟨out, h1, h2⟩ := argOutcome_all ha x hx'
            have hpj := hp.child (.envArg (.head _) hx)
            have hj' : x.1.2.chunks = j := by rw [he]; rfl
            have := ih1 x hx' out h1 (hj' ▸ hpj) k lv (hj' ▸ hl)
            exact reaches_child (.envArg (.head _) h2) this.paragraphs
          · exact reaches_child (.envContent (.head _)) ((ih2 _ rfl) (hp.child (.envContent (.head _))) k lv hl).paragraphs
        · exact ((ih3 _ rfl).at ((Ast2.Part.of_sub fun c hc => .tail _ hc).plain hp) hj hc rfl hl).sub (by simp +contextual)

theorem maths_deepens {cs out} (h : mathsFromChunks cs = .ok out) (hp : Ast2.PlainDelims cs) {n} (hn : NestedAtMost n out) : Ast2.NestedAtMost n cs := by
  obtain ⟨o, h1, h2⟩ := yields_iff.1 h
  cases o with
  | error f => cases h2
  | ok raw =>
    cases h2
    intro k lv hl
    obtain ⟨k', lv', h3, h4⟩ := (h1.deepens _ rfl hp k lv hl).paragraphs
    have := hn k' lv' h4
    omega

end LatexAst.Ast3

namespace LatexAst.Ast2

theorem allArgs_mem {P args p s} (h : AllArgs P args) (hm : (p, s) ∈ args) : s.All P := by
  induction args with
  | nil => cases hm
  | cons x r ih =>
    obtain ⟨p', s'⟩ := x
    rcases List.mem_cons.1 hm with he | hm
    · cases he; exact h.1
    · exact ih h.2 hm

theorem allChunks_child {P cs i} (h : AllChunks P cs) (hi : Child2 cs i) : AllChunks P i := by
  have h' := (allChunks_iff_forall cs).1 h
  cases hi with
  | scope hm => exact (h' _ hm).2
  | arg hm ha => exact allArgs_mem (h' _ hm).2 ha
  | envArg hm ha => exact allArgs_mem (h' _ hm).2.1 ha
  | envContent hm => exact (h' _ hm).2.2

theorem plain_of_all {cs} (h : AllChunks Ast3.BareDelims cs) : PlainDelims cs := by
  intro k
  induction k generalizing cs with
  | zero =>
    intro lv hl l label args hm hd
    cases hl
    exact ((allChunks_iff_forall _).1 h _ hm).1 label args rfl (Ast3.isMathsLabel_iff'.2 hd)
  | succ k ih =>
    intro lv hl
    obtain ⟨i, h1, h2⟩ := levelAt_head hl
    exact ih (allChunks_child h h2) lv h1

end LatexAst.Ast2

import Verif.Proofs.Nested
import Verif.Proofs.Depth3
import Verif.Spec.Depth

/-!
# How much deeper stage 3 nests than stage 2
-/

namespace LatexAst.Ast2

theorem child2_one {d i} (h : Child2 d i) : ∃ c ∈ d, ∀ e : List Chunk, (∃ c' ∈ e, c'.variant = c.variant) → Child2 e i := by
  cases h with
  | scope hm => exact ⟨_, hm, fun e ⟨c', h1, h2⟩ => by obtain ⟨l, v⟩ := c'; simp only [Chunk.variant] at h2; subst h2; exact .scope h1⟩
  | arg hm ha => exact ⟨_, hm, fun e ⟨c', h1, h2⟩ => by obtain ⟨l, v⟩ := c'; simp only [Chunk.variant] at h2; subst h2; exact .arg h1 ha⟩
  | envArg hm ha => exact ⟨_, hm, fun e ⟨c', h1, h2⟩ => by obtain ⟨l, v⟩ := c'; simp only [Chunk.variant] at h2; subst h2; exact .envArg h1 ha⟩
  | envContent hm => exact ⟨_, hm, fun e ⟨c', h1, h2⟩ => by obtain ⟨l, v⟩ := c'; simp only [Chunk.variant] at h2; subst h2; exact .envContent h1⟩

theorem child2_text {l t} {i} (h : Child2 [.mk l (.text t)] i) : False := by
  cases h with
  | scope hm => simp at hm
  | arg hm _ => simp at hm
  | envArg hm _ => simp at hm
  | envContent hm => simp at hm

/-- Up to line numbers and texts, what is in one sequence is in the other. -/
def Part (ds cs : List Chunk) : Prop := ∀ c ∈ ds, (∃ t, c.variant = .text t) ∨ ∃ c' ∈ cs, c'.variant = c.variant

theorem Part.nested {ds cs n} (h : Part ds cs) (hn : NestedAtMost n cs) : NestedAtMost n ds := by
  intro k lv hl
  cases k with
  | zero => omega
  | succ k =>
    obtain ⟨i, h1, h2⟩ := levelAt_head hl
    obtain ⟨c, hc, h3⟩ := child2_one h2
    rcases h c hc with ⟨t, ht⟩ | ⟨c', hc', hv⟩
    · exact (child2_text (h3 [.mk 0 (.text t)] ⟨_, .head _, by rw [ht]; rfl⟩)).elim
    · exact hn _ _ (levelAt_child (h3 cs ⟨c', hc', hv⟩) h1)

theorem Part.of_sub {ds cs : List Chunk} (h : ∀ c ∈ ds, c ∈ cs) : Part ds cs := fun c hc => .inr ⟨c, h c hc, rfl⟩

theorem nested_child {n cs i} (hn : NestedAtMost n cs) (h : Child2 cs i) : ∃ m, n = m + 1 ∧ NestedAtMost m i := by
  have h1 := hn _ _ (levelAt_child h .top)
  cases n with
  | zero => omega
  | succ m =>
    refine ⟨m, rfl, fun k lv hl => ?_⟩
    have := hn _ _ (levelAt_child h hl)
    omega

end LatexAst.Ast2

namespace LatexAst.Ast3

theorem child3_one {d i} (h : Child3 d i) : ∃ c ∈ d, Child3 [c] i := by
  cases h with
  | scope hm => exact ⟨_, hm, .scope (.head _)⟩
  | arg hm ha => exact ⟨_, hm, .arg (.head _) ha⟩
  | envArg hm ha => exact ⟨_, hm, .envArg (.head _) ha⟩
  | envContent hm => exact ⟨_, hm, .envContent (.head _)⟩
  | maths hm => exact ⟨_, hm, .maths (.head _)⟩

theorem child3_textual {c : Chunk} {i} (h : ∃ l, (∃ t, c = .mk l (.text t)) ∨ ∃ t, c = .mk l (.paragraphBreak t)) : ¬ Child3 [c] i := by
  obtain ⟨l, ⟨t, rfl⟩ | ⟨t, rfl⟩⟩ := h <;> (intro h; cases h with
    | scope hm => simp at hm
    | arg hm _ => simp at hm
    | envArg hm _ => simp at hm
    | envContent hm => simp at hm
    | maths hm => simp at hm)

theorem child3_maths {l va ty inner j} (h : Child3 [.mk l (.mathsBlock (.mk va ty inner))] j) : j = inner := by
  cases h with
  | scope hm => simp at hm
  | arg hm _ => simp at hm
  | envArg hm _ => simp at hm
  | envContent hm => simp at hm
  | maths hm => simp at hm; grind

theorem child3_scope {l inner sv j} (h : Child3 [.mk l (.scope (.mk inner sv))] j) : j = inner := by
  cases h with
  | scope hm => simp at hm; grind
  | arg hm _ => simp at hm
  | envArg hm _ => simp at hm
  | envContent hm => simp at hm
  | maths hm => simp at hm

theorem child3_append {a b i} (h : Child3 (a ++ b) i) : Child3 a i ∨ Child3 b i := by
  obtain ⟨c, hc, h1⟩ := child3_one h
  rcases List.mem_append.1 hc with hc | hc
  · exact .inl (child3_sub h1 fun d hd => List.mem_singleton.1 hd ▸ hc)
  · exact .inr (child3_sub h1 fun d hd => List.mem_singleton.1 hd ▸ hc)

theorem child3_textIf {l t i} : ¬ Child3 (textIf l t) i := by
  intro h
  obtain ⟨c, hc, h1⟩ := child3_one h
  unfold textIf at hc
  split at hc
  · cases hc
  · exact child3_textual ⟨l, .inl ⟨t, List.mem_singleton.1 hc⟩⟩ h1

theorem DepthLt.mono {n m cs} (h : DepthLt n cs) (hm : n ≤ m) : DepthLt m cs := fun k lv hl => Nat.lt_of_lt_of_le (h k lv hl) hm

/-- No more than four times as deep, less if formulas are around. -/
def Bounded (cs : List Ast2.Chunk) (out : List Chunk) : Prop := ∀ (u : List MathsMark) (n : Nat), u.Nodup → LacksAll u cs →
  Ast2.NestedAtMost n cs → DepthLt (4 * n + 4 - u.length) out

theorem bounded_of {cs out} (h : ∀ (u : List MathsMark) (n : Nat), u.Nodup → u.length ≤ 3 → LacksAll u cs → Ast2.NestedAtMost n cs →
    ∀ i, Child3 out i → DepthLt (4 * n + 3 - u.length) i) : Bounded cs out := by
  intro u n hu hl hn
  have h3 := marks_three hu
  have h4 : 4 * n + 4 - u.length = (4 * n + 3 - u.length) + 1 := by omega
  rw [h4]
  exact depthLt_succ.2 (h u n hu h3 hl hn)

theorem Bounded.child {cs out} (h : Bounded cs out) {u : List MathsMark} {n} (hu : u.Nodup) (hl : LacksAll u cs) (hn : Ast2.NestedAtMost n cs)
    {i} (hi : Child3 out i) : DepthLt (4 * n + 3 - u.length) i := by
  have h3 := marks_three hu
  have h4 : 4 * n + 4 - u.length = (4 * n + 3 - u.length) + 1 := by omega
  have := h u n hu hl hn
  rw [h4] at this
  exact depthLt_succ.1 this i hi

/-- A scope, argument or environment: whatever is around, its content starts afresh. -/
theorem Bounded.fresh {cs inner out} (h : Bounded inner out) {n} (hn : Ast2.NestedAtMost n cs) (hc : Ast2.Child2 cs inner) {k} (hk : k ≤ 3) :
    DepthLt (4 * n + 3 - k) (paragraphs out) := by
  obtain ⟨m, rfl, hm⟩ := Ast2.nested_child hn hc
  exact depthLt_paragraphs.2 ((h [] m .nil nofun hm).mono (by simp only [List.length_nil]; omega))

theorem child3_args {items : List ((Str × Ast2.Scope) × Outcome)} {args} (h : argOutcome items = .ok args) {p inner sv}
    (hm : (p, Scope.mk inner sv) ∈ args) : ∃ x ∈ items, ∃ out, x.2 = .ok out ∧ inner = paragraphs out := by
  induction items generalizing args with
  | nil => simp [argOutcome] at h; subst h; cases hm
  | cons x r ihr =>
    obtain ⟨⟨p, ⟨inner, sv⟩⟩, o⟩ := x
    cases o with
    | error f => simp [argOutcome] at h
    | ok out =>
      cases ha : argOutcome r with
      | error f => simp [argOutcome, ha] at h
      | ok args' =>
        simp [argOutcome, ha] at h
        subst h
        rcases List.mem_cons.1 hm with he | hm
        · cases he
          exact ⟨_, .head _, out, rfl, rfl⟩
        · obtain ⟨x, hx, h1⟩ := ihr ha hm
          exact ⟨x, .tail _ hx, h1⟩

theorem toDollar_childless {p lost kept p'} (h : ToDollar p lost kept p') (i) : ¬ Child3 lost i := by
  induction h with
  | here => intro h; obtain ⟨c, hc, _⟩ := child3_one h; cases hc
  | later _ _ _ ih => intro h; exact (child3_append h).elim child3_textIf ih

theorem formula_childless {p lost type content p'} (h : Formula p lost type content p') (i) : ¬ Child3 lost i := by
  cases h with
  | inline h1 _ => exact toDollar_childless h1 i
  | display h1 h2 h3 h4 =>
    intro h
    rcases child3_append h with h | h
    · exact (child3_append h).elim (toDollar_childless h1 i) (toDollar_childless h3 i)
    · exact toDollar_childless h4 i h

theorem Yields.bounded {b cs o} (h : Yields b cs o) : ∀ out, o = .ok out → Bounded cs out := by
  induction h with
  | nil => rintro _ ⟨⟩; exact bounded_of fun _ _ _ _ _ _ i hi => by obtain ⟨c, hc, _⟩ := child3_one hi; cases hc
  | text _ _ ih =>
    intro out h
    obtain ⟨o', rfl, rfl⟩ := before_ok h
    refine bounded_of fun u n hu h3 hl hn i hi => ?_
    rcases child3_append hi with hi | hi
    · exact (child3_textIf hi).elim
    · exact (ih _ rfl).child hu (hl.sub fun c hc => .tail _ hc) ((Ast2.Part.of_sub fun c hc => .tail _ hc).nested hn) hi
  | @formula b l q r cs lost type content p i o hq hf _ _ _ ih1 ih2 =>
    intro out h
    cases i with
    | error f => simp [blockOutcome] at h
    | ok i =>
      obtain ⟨o', rfl, rfl⟩ := before_ok h
      obtain ⟨a1, a2, _⟩ := formula_lacks hf rfl
      have hlost : ∀ i, ¬ Child3 lost i := formula_childless hf
      refine bounded_of fun u n hu h3 hl hn j hj => ?_
      have hd : MathsMark.dollar ∉ u := fun hd => absurd (hl _ hd _ (.head _) _ rfl) (by simp)
      have hsub : ∀ c ∈ p.rest, c ∈ Ast2.Chunk.mk l (.text (q ++ '$' :: r)) :: cs := fun c hc => .tail _ (a2 c hc)
      have hv : ∀ c, (countFrom p.line c).variant = c.variant := fun c => by cases c; rfl
      have hu' : LacksAll (.dollar :: u) (content.map (countFrom p.line)) := by
        intro d hd' c hc
        obtain ⟨c', hc', rfl⟩ := List.mem_map.1 hc
        rw [hv]
        obtain ⟨e1, e2⟩ := a1 c' hc'
        rcases List.mem_cons.1 hd' with rfl | hd'
        · exact e1
        · rcases e2 with e2 | ⟨l, t, rfl, e2⟩
          · exact hl d hd' _ (.tail _ e2)
          · exact lacks_text (l := l) e2
      have hr' : LacksAll u (.mk (p.line + p.pending.count '\n') (.text p.text) :: p.rest) := by
        intro d hd' c hc
        rcases List.mem_cons.1 hc with rfl | hc
        · cases d with
          | dollar => exact absurd hd' hd
          | _ => intro args; exact ⟨nofun, nofun⟩
        · exact hl d hd' c (hsub c hc)
      have hp1 : Ast2.Part (content.map (countFrom p.line)) (Ast2.Chunk.mk l (.text (q ++ '$' :: r)) :: cs) := by
        intro c hc
        obtain ⟨c', hc', rfl⟩ := List.mem_map.1 hc
        rw [hv]
        rcases (a1 c' hc').2 with e2 | ⟨l, t, rfl, e2⟩
        · exact .inr ⟨c', .tail _ e2, rfl⟩
        · exact .inl ⟨t, rfl⟩
      have hp2 : Ast2.Part (.mk (p.line + p.pending.count '\n') (.text p.text) :: p.rest) (Ast2.Chunk.mk l (.text (q ++ '$' :: r)) :: cs) := by
        intro c hc
        rcases List.mem_cons.1 hc with rfl | hc
        · exact .inl ⟨_, rfl⟩
        · exact .inr ⟨c, hsub c hc, rfl⟩
      rcases child3_append hj with hj | hj
      · rcases child3_append hj with hj | hj
        · rcases child3_append hj with hj | hj
          · exact (child3_textIf hj).elim
          · exact (hlost _ hj).elim
        · have : j = paragraphs i := by exact child3_maths hj
          subst this
          have := ih1 _ rfl _ n (marks_left hd hu).1 hu' (hp1.nested hn)
          refine depthLt_paragraphs.2 (this.mono ?_)
          simp only [List.length_cons]
          omega
      · exact (ih2 _ rfl).child hu hr' (hp2.nested hn) hj
  | uncountable => intro out h; cases h
  | unfinished => intro out h; cases h
  | @brackets b k l args body inner l' args' cs i o hin _ _ ih1 ih2 =>
    intro out h
    cases i with
    | error f => simp [blockOutcome] at h
    | ok i =>
      obtain ⟨o', rfl, rfl⟩ := before_ok h
      have hm := inside_lacks hin
      refine bounded_of fun u n hu h3 hl hn j hj => ?_
      have hk : markFor .brackets k ∉ u := fun hk => (lacks_mark.1 (hl _ hk _ (.head _)) args).1 rfl
      have hu' : LacksAll (markFor .brackets k :: u) inner := by
        intro d hd c hc
        rcases List.mem_cons.1 hd with rfl | hd
        · exact lacks_mark.2 fun a => (hm c hc).2 a
        · exact hl d hd c (by simp [(hm c hc).1])
      rcases child3_append hj with hj | hj
      · have : j = paragraphs i := by exact child3_maths hj
        subst this
        have := ih1 _ rfl _ n (marks_left hk hu).1 hu' ((Ast2.Part.of_sub fun c hc => by simp [(hm c hc).1]).nested hn)
        refine depthLt_paragraphs.2 (this.mono ?_)
        simp only [List.length_cons]
        omega
      · exact (ih2 _ rfl).child hu (hl.sub fun c hc => by simp [hc]) ((Ast2.Part.of_sub fun c hc => by simp [hc]).nested hn) hj
  | unclosed => intro out h; cases h
  | unexpected => intro out h; cases h
  | @scope b l inner sv cs i o _ _ ih1 ih2 =>
    intro out h
    cases i with
    | error f => simp [scopeOutcome] at h
    | ok i =>
      simp only [scopeOutcome] at h
      obtain ⟨o', rfl, rfl⟩ := before_ok h
      refine bounded_of fun u n hu h3 hl hn j hj => ?_
      rcases child3_append hj with hj | hj
      · have : j = paragraphs i := by exact child3_scope hj
        subst this
        exact (ih1 _ rfl).fresh hn (.scope (.head _)) h3
      · exact (ih2 _ rfl).child hu (hl.sub fun c hc => .tail _ hc) ((Ast2.Part.of_sub fun c hc => .tail _ hc).nested hn) hj
  | @command b l label cs o items hlab _ _ ih1 ih2 =>
    intro out h
    cases ha : argOutcome items with
    | error f => simp [commandOutcome, ha] at h
    | ok args =>
      simp only [commandOutcome, ha] at h
      obtain ⟨o', rfl, rfl⟩ := before_ok h
      refine bounded_of fun u n hu h3 hl hn j hj => ?_
      rcases child3_append hj with hj | hj
      · have key : ∃ p sv, (p, Scope.mk j sv) ∈ args := by
          cases hj with
          | arg hm ha' => simp at hm; obtain ⟨_, _, rfl⟩ := hm; exact ⟨_, _, ha'⟩
          | scope hm => simp at hm
          | envArg hm _ => simp at hm
          | envContent hm => simp at hm
          | maths hm => simp at hm
        obtain ⟨p, sv, hm⟩ := key
        obtain ⟨x, hx, out, ho, rfl⟩ := child3_args ha hm
        refine (ih1 x hx out ho).fresh hn ?_ h3
        obtain ⟨⟨p, ⟨inner, sv⟩⟩, o⟩ := x
        exact .arg (.head _) (List.mem_map.2 ⟨_, hx, rfl⟩)
      · exact (ih2 _ rfl).child hu (hl.sub fun c hc => .tail _ hc) ((Ast2.Part.of_sub fun c hc => .tail _ hc).nested hn) hj
  | @environment b l label body pb pe cs i o items _ _ _ ih1 ih2 ih3 =>
    intro out h
    cases ha : argOutcome items with
    | error f => simp [environmentOutcome, ha] at h
    | ok args =>
      cases i with
      | error f => simp [environmentOutcome, ha] at h
      | ok i =>
        simp only [environmentOutcome, ha] at h
        obtain ⟨o', rfl, rfl⟩ := before_ok h
        refine bounded_of fun u n hu h3 hl hn j hj => ?_
        rcases child3_append hj with hj | hj
        · have key : (∃ p sv, (p, Scope.mk j sv) ∈ args) ∨ j = paragraphs i := by
            cases hj with
            | envArg hm ha' => simp at hm; obtain ⟨_, _, rfl, _⟩ := hm; exact .inl ⟨_, _, ha'⟩
            | envContent hm => simp at hm; exact .inr hm.2.2.2.1
            | scope hm => simp at hm
            | arg hm _ => simp at hm
            | maths hm => simp at hm
          rcases key with ⟨p, sv, hm⟩ | rfl
          · obtain ⟨x, hx, out, ho, rfl⟩ := child3_args ha hm
            refine (ih1 x hx out ho).fresh hn ?_ h3
            obtain ⟨⟨p, ⟨inner, sv⟩⟩, o⟩ := x
            exact .envArg (.head _) (List.mem_map.2 ⟨_, hx, rfl⟩)
          · exact (ih2 _ rfl).fresh hn (.envContent (.head _)) h3
        · exact (ih3 _ rfl).child hu (hl.sub fun c hc => .tail _ hc) ((Ast2.Part.of_sub fun c hc => .tail _ hc).nested hn) hj

theorem maths_bounded {cs out} (h : mathsFromChunks cs = .ok out) {n} (hn : Ast2.NestedAtMost n cs) : NestedAtMost (4 * n + 3) out := by
  obtain ⟨o, h1, h2⟩ := yields_iff.1 h
  cases o with
  | error f => cases h2
  | ok raw =>
    cases h2
    intro k lv hl
    have := depthLt_paragraphs.2 (h1.bounded _ rfl [] n .nil nofun hn) k lv hl
    simp only [List.length_nil] at this
    omega

end LatexAst.Ast3

import Verif.Proofs.AnyConversion2
import Verif.Proofs.Written
import Verif.Proofs.Atoms1
import Verif.Proofs.Join
import Verif.Proofs.MathsNodes

/-! Going to stage 1 and back to stage 2. -/

namespace LatexAst.Ast2
open Ast1 (Opened Matched)

/-- A panic, or what is alike. -/
def Comes (e : List Chunk) (r : Ending) : Prop := r = .error .panic ∨ ∃ e', r = .ok e' ∧ (AllChunks LabelV e → atoms e' = atoms e)

def ComesFrom (e : List Chunk) (d : List Ast1.Chunk) : Prop := Matched d ∧ ∃ r, Meets d r ∧ Comes e r

theorem comesFrom_text {l t e d} (h : ComesFrom e d) (m : Nat) : ComesFrom (.mk l (.text t) :: e) (.mk m (.text t) :: d) := by
  obtain ⟨h1, r, h2, h3⟩ := h
  refine ⟨.other (by rintro ⟨_, _, h, _⟩; cases h) h1, _, .text h2, ?_⟩
  rcases h3 with rfl | ⟨e', rfl, h3⟩
  · exact .inl rfl
  · exact .inr ⟨_, rfl, fun ha => by simp [atoms, h3 ha.2, ChunkVariant.atoms]⟩

theorem comesFrom_joined {l t m' t' e r} (h : ComesFrom e (.mk m' (.text t') :: r)) (m : Nat) :
    ComesFrom (.mk l (.text t) :: e) (.mk m (.text (t ++ t')) :: r) := by
  obtain ⟨h1, o, h2, h3⟩ := h
  have hm : Matched r := by
    cases h1 with
    | other _ h => exact h
    | env h =>
      obtain ⟨_, _, h⟩ := h
      cases h
  refine ⟨.other (by rintro ⟨_, _, h, _⟩; cases h) hm, ?_⟩
  cases h2 with
  | @text _ _ _ o h2 =>
    refine ⟨_, .text h2, ?_⟩
    cases o with
    | error f =>
      rcases h3 with h3 | ⟨e', h3, _⟩
      · exact .inl h3
      · cases h3
    | ok a =>
      rcases h3 with h3 | ⟨e', h3, h4⟩
      · cases h3
      · cases h3
        refine .inr ⟨_, rfl, fun ha => ?_⟩
        have := h4 ha.2
        simp only [atoms, ChunkVariant.atoms] at this ⊢
        rw [← this]
        simp
  | bad hb =>
    cases hb with
    | noLabel h => cases h
    | unexpectedEnd h => cases h
    | tooManyArgs h => cases h

theorem comesFrom_scope {l inner sv e m inner' d} (h : ComesFrom inner inner') (h' : ComesFrom e d) :
    ComesFrom (.mk l (.scope (.mk inner sv)) :: e) (.mk m (.scope (.mk inner' sv)) :: d) := by
  obtain ⟨h1, r, h2, h3⟩ := h
  obtain ⟨h1', r', h2', h3'⟩ := h'
  refine ⟨.other (by rintro ⟨_, _, h, _⟩; cases h) h1', _, .scope h2 h2', ?_⟩
  rcases h3 with rfl | ⟨e1, rfl, h3⟩
  · exact .inl rfl
  · rcases h3' with rfl | ⟨e2, rfl, h3'⟩
    · exact .inl rfl
    · refine .inr ⟨_, rfl, fun ha => ?_⟩
      have a1 : AllChunks LabelV inner := ha.1.2
      simp [atoms, ChunkVariant.atoms, Scope.atoms, Scope.variant, h3 a1, h3' ha.2]

/-- Arguments. -/
def ComesArgs (args : List (Str × Scope)) (r : Res (List (Str × Scope))) : Prop :=
  r = .error .panic ∨ ∃ args', r = .ok args' ∧ (AllArgs LabelV args → argAtoms args' = argAtoms args)

theorem comes_args {items : List ((Str × Scope) × List Ast1.Chunk)} (h : ∀ x ∈ items, ComesFrom x.1.2.chunks x.2) :
    ∃ items' : List ((Str × Ast1.Scope) × Ending), items'.map (·.1) = withInner1 items ∧ (∀ x ∈ items', Meets x.1.2.chunks x.2) ∧
      ComesArgs (items.map (·.1)) (argEnding items') := by
  induction items with
  | nil => exact ⟨[], rfl, by simp, .inr ⟨[], rfl, fun _ => rfl⟩⟩
  | cons x items ih =>
    obtain ⟨items', h1, h2, h3⟩ := ih fun x hx => h x (.tail _ hx)
    obtain ⟨⟨p, ⟨inner, sv⟩⟩, d⟩ := x
    obtain ⟨_, r, hr, hc⟩ := h _ (.head _)
    refine ⟨((p, .mk d sv), r) :: items', by simp [h1, withInner1, Scope.variant], ?_, ?_⟩
    · intro x hx
      rcases List.mem_cons.1 hx with rfl | hx
      · exact hr
      · exact h2 x hx
    · rcases hc with rfl | ⟨e', rfl, hc⟩
      · exact .inl rfl
      · rcases h3 with h3 | ⟨args', h3, h4⟩
        · exact .inl (by simp [argEnding, h3])
        · refine .inr ⟨(p, .mk e' sv) :: args', by simp only [argEnding, h3, Ast1.Scope.variant], fun ha => ?_⟩
          have a1 : AllChunks LabelV inner := ha.1
          have := hc a1
          simp only [Scope.chunks] at this
          simp [argAtoms, Scope.atoms, Scope.variant, Ast1.Scope.variant, this, h4 ha.2]

theorem comesFrom_command {l label e m d} {items : List ((Str × Scope) × List Ast1.Chunk)} (hl : label ≠ chars!"begin" ∧ label ≠ chars!"end")
    (h : ∀ x ∈ items, ComesFrom x.1.2.chunks x.2) (h' : ComesFrom e d) :
    ComesFrom (.mk l (.command (.mk label (items.map (·.1)))) :: e) (.mk m (.command (.mk label (withInner1 items))) :: d) := by
  obtain ⟨items', g1, g2, g3⟩ := comes_args h
  obtain ⟨h1', r', h2', h3'⟩ := h'
  rw [← g1]
  refine ⟨.other ?_ h1', _, .command hl.1 hl.2 g2 h2', ?_⟩
  · rintro ⟨_, _, h, h'⟩
    cases h
    rcases h' with h' | h'
    · exact hl.1 h'
    · exact hl.2 h'
  · rcases g3 with g3 | ⟨args', g3, g4⟩
    · exact .inl (by simp [commandEnding, g3])
    · simp only [commandEnding, g3]
      rcases h3' with rfl | ⟨e2, rfl, h3'⟩
      · exact .inl rfl
      · refine .inr ⟨_, rfl, fun ha => ?_⟩
        have a1 : AllArgs LabelV (items.map (·.1)) := ha.1.2
        simp [atoms, ChunkVariant.atoms, Command.atom, g4 a1, h3' ha.2]

theorem comesFrom_environment {l label lab content pb pe e m m' B d} {items : List ((Str × Scope) × List Ast1.Chunk)}
    (hlab : Ast1.fromStr label = .ok lab) (h : ∀ x ∈ items, ComesFrom x.1.2.chunks x.2)
    (hB : ∀ k, ComesFrom content (B.map (renumber k))) (hM : Matched B) (h' : ComesFrom e d) :
    ComesFrom (.mk l (.environment (.mk label (items.map (·.1)) content pb pe)) :: e)
      (.mk m (.command (.mk chars!"begin" ((pb, .mk lab .curly) :: withInner1 items))) ::
        (B ++ .mk m' (.command (.mk chars!"end" [(pe, .mk lab .curly)])) :: d)) := by
  obtain ⟨items', g1, g2, g3⟩ := comes_args h
  obtain ⟨h1', r', h2', h3'⟩ := h'
  rw [← g1]
  refine ⟨.env (lab := lab) ⟨_, _, rfl⟩ hM ⟨_, rfl⟩ h1', ?_⟩
  rcases from_or (endOfBegin m ((pb, .mk lab .curly) :: items'.map (·.1))) B with hk | ⟨a, c, b, rfl, k1, k2⟩
  · obtain ⟨_, i, hi, hi'⟩ := hB (endOfBegin m ((pb, .mk lab .curly) :: items'.map (·.1)))
    refine ⟨_, .environment hM hk g2 hi h2', ?_⟩
    rcases g3 with g3 | ⟨args', g3, g4⟩
    · exact .inl (by simp [environmentEnding, g3])
    · simp only [environmentEnding, g3]
      rcases hi' with rfl | ⟨e1, rfl, h3⟩
      · exact .inl rfl
      · rcases h3' with rfl | ⟨e2, rfl, h3'⟩
        · exact .inl rfl
        · refine .inr ⟨_, rfl, fun ha => ?_⟩
          have a1 : AllArgs LabelV (items.map (·.1)) := ha.1.2.1
          have a2 : AllChunks LabelV content := ha.1.2.2
          obtain ⟨lab', q1, q2⟩ : ReadableLabel label := ha.1.1
          rw [hlab] at q1
          cases q1
          simp [atoms, ChunkVariant.atoms, Environment.atom, g4 a1, h3 a2, h3' ha.2, q2]
  · refine ⟨.error .panic, ?_, .inl rfl⟩
    obtain ⟨st', h'⟩ := Opened.prefix (a := a ++ [c]) (b := b) (by simpa using hM.opened)
    have := Meets.above (l := m) (p := pb) (lab := lab) (args := items'.map (·.1)) (cs := b ++ .mk m' (.command (.mk chars!"end" [(pe, .mk lab .curly)])) :: d) h' k1 k2
    simpa using this

/-- The same chunks on other lines. -/
def SameVariants (a b : List Ast1.Chunk) : Prop := a.map Ast1.Chunk.variant = b.map Ast1.Chunk.variant

theorem sameVariants_cons {l v b x} (h : SameVariants x (.mk l v :: b)) : ∃ m x', x = .mk m v :: x' ∧ SameVariants x' b := by
  cases x with
  | nil => simp [SameVariants] at h
  | cons c x =>
    obtain ⟨m, w⟩ := c
    simp [SameVariants, Ast1.Chunk.variant] at h
    exact ⟨m, x, by rw [h.1], h.2⟩

theorem sameVariants_append {a b x : List Ast1.Chunk} (h : SameVariants x (a ++ b)) : ∃ a' b', x = a' ++ b' ∧ SameVariants a' a ∧ SameVariants b' b := by
  simp only [SameVariants, List.map_append] at h
  obtain ⟨a', b', rfl, h1, h2⟩ := List.map_eq_append_iff.1 h
  exact ⟨a', b', rfl, h1, h2⟩

theorem sameVariants_renumber {k a b} (h : SameVariants a b) : SameVariants (a.map (renumber k)) b := by
  unfold SameVariants at *
  rw [← h, List.map_map]
  exact List.map_congr_left fun c _ => by cases c; rfl

theorem join_append (a b : List Ast1.Chunk) (c : Ast1.Chunk) (hc : ∀ l t, c ≠ .mk l (.text t)) :
    Ast1.joinTexts (a ++ c :: b) = Ast1.joinTexts a ++ c :: Ast1.joinTexts b := by
  induction a with
  | nil => rw [List.nil_append, Ast1.joinTexts_other _ _ hc]; rfl
  | cons x a ih =>
    by_cases hx : ∃ l t, x = .mk l (.text t)
    · obtain ⟨l, t, rfl⟩ := hx
      simp only [List.cons_append, Ast1.joinTexts, ih]
      cases hj : Ast1.joinTexts a with
      | nil =>
        obtain ⟨n, v⟩ := c
        cases v with
        | text t => exact absurd rfl (hc n t)
        | scope s => rfl
        | command s => rfl
      | cons y r =>
        obtain ⟨n, v⟩ := y
        cases v <;> rfl
    · have hx : ∀ l t, x ≠ .mk l (.text t) := fun l t h => hx ⟨l, t, h⟩
      rw [List.cons_append, Ast1.joinTexts_other _ _ hx, Ast1.joinTexts_other _ _ hx, ih, List.cons_append]

theorem join_renumber (k : Nat) (a : List Ast1.Chunk) : (Ast1.joinTexts a).map (renumber k) = Ast1.joinTexts (a.map (renumber k)) := by
  induction a with
  | nil => rfl
  | cons x a ih =>
    obtain ⟨l, v⟩ := x
    cases v with
    | scope s => simp [Ast1.joinTexts, ih, renumber]
    | command s => simp [Ast1.joinTexts, ih, renumber]
    | text t =>
      simp only [List.map_cons, renumber, Ast1.joinTexts, ← ih]
      cases hj : Ast1.joinTexts a with
      | nil => rfl
      | cons y r =>
        obtain ⟨n, w⟩ := y
        cases w <;> rfl

theorem matched_renumbered {k B} (h : Matched (B.map (renumber k))) : Matched B := by
  generalize hx : B.map (renumber k) = x at h
  induction h generalizing B with
  | nil => cases B <;> simp_all [Matched.nil]
  | @other c rest h1 h2 ih =>
    cases B with
    | nil => simp at hx
    | cons b B =>
      simp at hx
      obtain ⟨rfl, hx⟩ := hx
      exact .other (by obtain ⟨_, _⟩ := b; exact h1) (ih hx)
  | @env b body e rest lab h1 h2 h3 h4 ih1 ih2 =>
    cases B with
    | nil => simp at hx
    | cons c B =>
      simp at hx
      obtain ⟨rfl, hx⟩ := hx
      obtain ⟨a', r', rfl, g1, g2⟩ := List.map_eq_append_iff.1 hx
      cases r' with
      | nil => simp at g2
      | cons z r' =>
        simp at g2
        obtain ⟨rfl, g2⟩ := g2
        exact .env (lab := lab) (by obtain ⟨_, _⟩ := c; exact h1) (ih1 g1) (by obtain ⟨_, _⟩ := z; exact h3) (ih2 g2)

theorem comesFrom_shift {k content d} (h : ComesFrom (content.map (Chunk.shift k)) d) : ComesFrom content d := by
  have hv : content.map Chunk.variant = (content.map (Chunk.shift k)).map Chunk.variant := by
    rw [List.map_map]
    exact List.map_congr_left fun c _ => by cases c; rfl
  obtain ⟨h1, r, h2, h3⟩ := h
  refine ⟨h1, r, h2, ?_⟩
  rcases h3 with h3 | ⟨e', h3, h4⟩
  · exact .inl h3
  · refine .inr ⟨e', h3, fun ha => ?_⟩
    rw [h4 (Ast3.allChunks2_congr hv.symm ha), atoms_shift]

theorem Unfolds.comes {e xs} (h : Unfolds e xs) (hn : AllChunks NotDelim e) :
    ∀ x, SameVariants x xs → ComesFrom e x ∧ ComesFrom e (Ast1.joinTexts x) := by
  induction h with
  | nil =>
    intro x hx
    cases x with
    | nil => exact ⟨⟨.nil, _, .nil, .inr ⟨[], rfl, fun _ => rfl⟩⟩, ⟨.nil, _, .nil, .inr ⟨[], rfl, fun _ => rfl⟩⟩⟩
    | cons c x => simp [SameVariants] at hx
  | @text l t cs ds _ ih =>
    intro x hx
    obtain ⟨m, x', rfl, hx'⟩ := sameVariants_cons hx
    obtain ⟨h1, h2⟩ := ih hn.2 x' hx'
    refine ⟨comesFrom_text h1 m, ?_⟩
    simp only [Ast1.joinTexts]
    split
    · rename_i m' t' r heq
      rw [heq] at h2
      exact comesFrom_joined h2 m
    · exact comesFrom_text h2 m
  | @scope l inner inner' sv cs ds _ _ ih1 ih2 =>
    intro x hx
    obtain ⟨m, x', rfl, hx'⟩ := sameVariants_cons hx
    obtain ⟨h1, h2⟩ := ih2 hn.2 x' hx'
    have := (ih1 hn.1.2 _ rfl).1
    exact ⟨comesFrom_scope this h1, comesFrom_scope this h2⟩
  | @command l label cs ds items _ _ ih1 ih2 =>
    intro x hx
    obtain ⟨m, x', rfl, hx'⟩ := sameVariants_cons hx
    obtain ⟨h1, h2⟩ := ih2 hn.2 x' hx'
    have hi : ∀ x ∈ items, ComesFrom x.1.2.chunks x.2 := fun x hx => by
      have hm := (allArgs_iff_forall _).1 hn.1.2 _ (List.mem_map.2 ⟨x, hx, rfl⟩)
      refine (ih1 x hx ?_ _ rfl).1
      obtain ⟨⟨p, ⟨inner, sv⟩⟩, y⟩ := x
      exact hm
    exact ⟨comesFrom_command hn.1.1 hi h1, comesFrom_command hn.1.1 hi h2⟩
  | @environment l label lab content content' pb pe cs ds k items hlab _ _ _ _ hk ih1 ih2 ih3 =>
    intro x hx
    obtain ⟨m, x', rfl, hx'⟩ := sameVariants_cons hx
    obtain ⟨B, R, rfl, hB, hR⟩ := sameVariants_append hx'
    obtain ⟨m', d, rfl, hd⟩ := sameVariants_cons hR
    obtain ⟨h1, h2⟩ := ih3 hn.2 d hd
    have hi : ∀ x ∈ items, ComesFrom x.1.2.chunks x.2 := fun x hx => by
      have hm := (allArgs_iff_forall _).1 hn.1.2.1 _ (List.mem_map.2 ⟨x, hx, rfl⟩)
      refine (ih1 x hx ?_ _ rfl).1
      obtain ⟨⟨p, ⟨inner, sv⟩⟩, y⟩ := x
      exact hm
    have hv : content.map Chunk.variant = (content.map (Chunk.shift (l - 1))).map Chunk.variant := by
      rw [List.map_map]
      exact List.map_congr_left fun c _ => by cases c; rfl
    have hc : AllChunks NotDelim (content.map (Chunk.shift (l - 1))) := Ast3.allChunks2_congr hv.symm hn.1.2.2
    have b1 : ∀ k, ComesFrom content (B.map (renumber k)) := fun k => comesFrom_shift (ih2 hc _ (sameVariants_renumber hB)).1
    have b2 : ∀ k, ComesFrom content ((Ast1.joinTexts B).map (renumber k)) := fun k => by
      rw [join_renumber]
      exact comesFrom_shift (ih2 hc _ (sameVariants_renumber hB)).2
    refine ⟨comesFrom_environment hlab hi b1 (matched_renumbered (b1 0).1) h1, ?_⟩
    rw [Ast1.joinTexts_other _ _ (by intro l t h; cases h), join_append _ _ _ (by intro l t h; cases h)]
    exact comesFrom_environment hlab hi b2 (matched_renumbered (b2 0).1) h2

end LatexAst.Ast2

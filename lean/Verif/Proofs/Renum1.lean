import Verif.Proofs.Canon1

/-!
# Renumbering, and brackets in a source
-/

namespace LatexAst.Ast1
open Spec

/-! ## Renumbering a document as the parser does -/

mutual
def ChunkVariant.renum : ChunkVariant → ChunkVariant
  | .text s => .text s
  | .command (.mk l args) => .command (.mk l (renumArgs args))
  | .scope (.mk cs sv) => .scope (.mk (renumSeq .none 1 cs) sv)
def renumSeq : Prev → Nat → List Chunk → List Chunk
  | _, _, [] => []
  | p, n, .mk _ v :: cs =>
    .mk (n + offset p (.mk 0 v.renum) cs.isEmpty) v.renum ::
      renumSeq (kind (.mk 0 v.renum)) (n + newlines v.renum.display) cs
def renumArgs : List (Str × Scope) → List (Str × Scope)
  | [] => []
  | (p, .mk cs sv) :: r => (p, .mk (renumSeq .none 1 cs) sv) :: renumArgs r
end

mutual
theorem ChunkVariant.display_renum : ∀ v : ChunkVariant, v.renum.display = v.display
  | .text s => rfl
  | .command (.mk l args) => by
    simp [ChunkVariant.renum, ChunkVariant.display, Command.display, displayArgs_renum args]
  | .scope (.mk cs sv) => by
    simp [ChunkVariant.renum, ChunkVariant.display, Scope.display, display_renumSeq _ _ cs]
theorem display_renumSeq : ∀ (p : Prev) (n : Nat) (cs : List Chunk),
    displayChunks (renumSeq p n cs) = displayChunks cs
  | _, _, [] => rfl
  | p, n, .mk _ v :: cs => by
    simp only [renumSeq, displayChunks_cons, Chunk.display, ChunkVariant.display_renum v,
      display_renumSeq _ _ cs]
theorem displayArgs_renum : ∀ args : List (Str × Scope), displayArgs (renumArgs args) = displayArgs args
  | [] => rfl
  | (p, .mk cs sv) :: r => by
    simp [renumArgs, displayArgs, Scope.display, display_renumSeq _ _ cs, displayArgs_renum r]
end

theorem mem_renumSeq {p n cs l v'} (h : .mk l v' ∈ renumSeq p n cs) :
    ∃ l0 v, .mk l0 v ∈ cs ∧ v' = v.renum := by
  induction cs generalizing p n with
  | nil => simp [renumSeq] at h
  | cons c cs ih =>
    obtain ⟨l0, v⟩ := c
    simp only [renumSeq, List.mem_cons, Chunk.mk.injEq] at h
    rcases h with ⟨_, rfl⟩ | h
    · exact ⟨l0, v, by simp, rfl⟩
    · obtain ⟨l1, w, hm, he⟩ := ih h
      exact ⟨l1, w, by simp [hm], he⟩

theorem mem_renumArgs {args p s'} (h : (p, s') ∈ renumArgs args) :
    ∃ cs sv, (p, Scope.mk cs sv) ∈ args ∧ s' = .mk (renumSeq .none 1 cs) sv := by
  induction args with
  | nil => simp [renumArgs] at h
  | cons c args ih =>
    obtain ⟨q, ⟨cs, sv⟩⟩ := c
    simp only [renumArgs, List.mem_cons, Prod.mk.injEq] at h
    rcases h with ⟨rfl, rfl⟩ | h
    · exact ⟨cs, sv, by simp, rfl⟩
    · obtain ⟨cs', sv', hm, he⟩ := ih h
      exact ⟨cs', sv', by simp [hm], he⟩

theorem renum_scope {v : ChunkVariant} {inner sv} (h : .scope (.mk inner sv) = v.renum) :
    ∃ cs, v = .scope (.mk cs sv) ∧ inner = renumSeq .none 1 cs := by
  cases v with
  | text => simp [ChunkVariant.renum] at h
  | command c => obtain ⟨l, a⟩ := c; simp [ChunkVariant.renum] at h
  | scope s =>
    obtain ⟨cs, sv'⟩ := s
    simp only [ChunkVariant.renum, ChunkVariant.scope.injEq, Scope.mk.injEq] at h
    obtain ⟨rfl, rfl⟩ := h
    exact ⟨cs, rfl, rfl⟩

theorem renum_command {v : ChunkVariant} {l args} (h : .command (.mk l args) = v.renum) :
    ∃ a, v = .command (.mk l a) ∧ args = renumArgs a := by
  cases v with
  | text => simp [ChunkVariant.renum] at h
  | scope c => obtain ⟨l, a⟩ := c; simp [ChunkVariant.renum] at h
  | command s =>
    obtain ⟨l', a⟩ := s
    simp only [ChunkVariant.renum, ChunkVariant.command.injEq, Command.mk.injEq] at h
    obtain ⟨rfl, rfl⟩ := h
    exact ⟨a, rfl, rfl⟩

theorem renum_text {v : ChunkVariant} {t} (h : .text t = v.renum) : v = .text t := by
  cases v with
  | text => simpa [ChunkVariant.renum] using h.symm
  | scope c => obtain ⟨l, a⟩ := c; simp [ChunkVariant.renum] at h
  | command s => obtain ⟨l', a⟩ := s; simp [ChunkVariant.renum] at h

theorem within_renum {cs' v'} (h : Within cs' v') : ∀ p n cs, cs' = renumSeq p n cs →
    ∃ v, Within cs v ∧ v' = v.renum := by
  induction h with
  | here hm =>
    rintro p n cs rfl
    obtain ⟨l0, v, hm0, he⟩ := mem_renumSeq hm
    exact ⟨v, .here hm0, he⟩
  | scope hm _ ih =>
    rintro p n cs rfl
    obtain ⟨l0, v, hm0, he⟩ := mem_renumSeq hm
    obtain ⟨i, rfl, rfl⟩ := renum_scope he
    obtain ⟨v, hv, rfl⟩ := ih _ _ i rfl
    exact ⟨v, .scope hm0 hv, rfl⟩
  | arg hm hm' _ ih =>
    rintro p n cs rfl
    obtain ⟨l0, v, hm0, he⟩ := mem_renumSeq hm
    obtain ⟨a, rfl, rfl⟩ := renum_command he
    obtain ⟨i, sv, hma, he⟩ := mem_renumArgs hm'
    cases he
    obtain ⟨v, hv, rfl⟩ := ih _ _ i rfl
    exact ⟨v, .arg hm0 hma hv, rfl⟩

theorem level_renum {d lv'} (h : Level (renumSeq .none 1 d) lv') :
    ∃ lv, Level d lv ∧ lv' = renumSeq .none 1 lv := by
  induction h with
  | top => exact ⟨d, .top, rfl⟩
  | scope _ hm ih =>
    obtain ⟨lv, hl, rfl⟩ := ih
    obtain ⟨l0, v, hm0, he⟩ := mem_renumSeq hm
    obtain ⟨i, rfl, rfl⟩ := renum_scope he
    exact ⟨i, .scope hl hm0, rfl⟩
  | arg _ hm hm' ih =>
    obtain ⟨lv, hl, rfl⟩ := ih
    obtain ⟨l0, v, hm0, he⟩ := mem_renumSeq hm
    obtain ⟨a, rfl, rfl⟩ := renum_command he
    obtain ⟨i, sv, hma, he⟩ := mem_renumArgs hm'
    cases he
    exact ⟨i, .arg hl hm0 hma, rfl⟩

theorem renumArgs_nil_iff {args} : renumArgs args = [] ↔ args = [] := by
  cases args with
  | nil => simp [renumArgs]
  | cons x r => obtain ⟨p, ⟨cs, sv⟩⟩ := x; simp [renumArgs]

theorem fits_renum {A : After} {v : ChunkVariant} (h : Fits A v) : Fits A v.renum := by
  cases v with
  | text => exact h
  | scope c => obtain ⟨l, a⟩ := c; cases A <;> exact h
  | command s => obtain ⟨l', a⟩ := s; cases A <;> exact h

theorem next_renum (A : After) (v : ChunkVariant) : A.next v.renum = A.next v := by
  cases v with
  | text => rfl
  | scope c => obtain ⟨l, a⟩ := c; rfl
  | command s => obtain ⟨l', a⟩ := s; simp only [After.next, ChunkVariant.renum, renumArgs_nil_iff]

theorem fitting_renum {A cs} (h : Fitting A cs) (p : Prev) (n : Nat) : Fitting A (renumSeq p n cs) := by
  induction cs generalizing A p n with
  | nil => trivial
  | cons c cs ih =>
    obtain ⟨l0, v⟩ := c
    simp only [renumSeq]
    refine ⟨fits_renum h.1, ?_⟩
    rw [next_renum]; exact ih h.2 _ _

theorem noCloser_renum {k cs} (h : NoCloserOf k cs) (p n) : NoCloserOf k (renumSeq p n cs) := by
  intro t ht
  obtain ⟨v, hv, he⟩ := within_renum ht _ _ cs rfl
  rw [renum_text he] at hv
  exact h t hv

theorem noGroup_renum {k cs} (h : NoGroupOf k cs) (p n) : NoGroupOf k (renumSeq p n cs) := by
  refine ⟨fun i sv ht => ?_, fun l args q i sv ht hm => ?_⟩
  · obtain ⟨v, hv, he⟩ := within_renum ht _ _ cs rfl
    obtain ⟨i', rfl, rfl⟩ := renum_scope he
    exact h.1 i' sv hv
  · obtain ⟨v, hv, he⟩ := within_renum ht _ _ cs rfl
    obtain ⟨a, rfl, rfl⟩ := renum_command he
    obtain ⟨i', sv', hma, he⟩ := mem_renumArgs hm
    cases he
    exact h.2 l a q i' sv hv hma

theorem nodeCanon_renum {v : ChunkVariant} (h : NodeCanon v) : NodeCanon v.renum := by
  cases v with
  | text => exact h
  | scope c => obtain ⟨i, sv⟩ := c; exact ⟨h.1, noCloser_renum h.2 _ _⟩
  | command s =>
    obtain ⟨l, a⟩ := s
    rcases h with ⟨hl, ha⟩ | ⟨c, h1, h2, rfl⟩
    · refine .inl ⟨hl, fun p i sv hm => ?_⟩
      obtain ⟨i', sv', hma, he⟩ := mem_renumArgs hm
      cases he
      obtain ⟨h1, h2, h3⟩ := ha p i' sv hma
      exact ⟨h1, noGroup_renum h2 _ _, noCloser_renum h3 _ _⟩
    · exact .inr ⟨c, h1, h2, rfl⟩

theorem offset_line (p : Prev) (l l' : Nat) (v : ChunkVariant) (b : Bool) :
    offset p (.mk l v) b = offset p (.mk l' v) b := by
  cases v with
  | text => rfl
  | scope c => rfl
  | command s => obtain ⟨l, a⟩ := s; rfl

theorem kind_line (l l' : Nat) (v : ChunkVariant) : kind (.mk l v) = kind (.mk l' v) := by
  cases v with
  | text => rfl
  | scope c => rfl
  | command s => obtain ⟨l, a⟩ := s; rfl

theorem renumSeq_isEmpty {p n cs} : (renumSeq p n cs).isEmpty = cs.isEmpty := by
  cases cs with
  | nil => rfl
  | cons c cs => obtain ⟨l, v⟩ := c; rfl

theorem numbered_renum {p n cs} : ∀ pre l v post, renumSeq p n cs = pre ++ .mk l v :: post →
    l = n + newlines (displayChunks pre) + offset ((pre.getLast?.map kind).getD p) (.mk l v) post.isEmpty := by
  induction cs generalizing p n with
  | nil => intro pre l v post h; simp [renumSeq] at h
  | cons c cs ih =>
    obtain ⟨l0, w⟩ := c
    intro pre l v post h
    simp only [renumSeq] at h
    cases pre with
    | nil =>
      simp only [List.nil_append, List.cons.injEq, Chunk.mk.injEq] at h
      obtain ⟨⟨h1, h2⟩, h3⟩ := h
      subst h2
      rw [← h3, renumSeq_isEmpty, offset_line _ l 0]
      simpa [displayChunks_nil, newlines_nil] using h1.symm
    | cons x pre =>
      simp only [List.cons_append, List.cons.injEq] at h
      obtain ⟨rfl, h⟩ := h
      have := ih pre l v post h
      have hk : (pre.getLast?.map kind).getD (kind (.mk 0 w.renum)) =
          (((Chunk.mk (n + offset p (.mk 0 w.renum) cs.isEmpty) w.renum) :: pre).getLast?.map kind).getD p := by
        rw [List.getLast?_cons]
        cases pre.getLast? <;> simp [kind_line 0 (n + offset p (.mk 0 w.renum) cs.isEmpty)]
      rw [← hk, displayChunks_cons, newlines_append]
      simp only [Chunk.display]
      omega

/-- A printable document has a canonical numbering. -/
theorem canonical_renum {d : Document} (h : ∀ lv, Level d lv → Printable lv) :
    Canonical (renumSeq .none 1 d) := by
  intro lv' hl'
  obtain ⟨lv, hl, rfl⟩ := level_renum hl'
  obtain ⟨hf, hn⟩ := h lv hl
  refine ⟨⟨fitting_renum hf _ _, fun l v hm => ?_⟩, ?_⟩
  · obtain ⟨l0, v, hm0, rfl⟩ := mem_renumSeq hm
    exact nodeCanon_renum (hn l0 v hm0)
  · intro pre l v post he
    rw [← newlines_eq_count, lateBy_offset pre l v post]
    exact numbered_renum pre l v post he

/-! ## Brackets -/

theorem self_induction {P : Str → Prop} (nil : P [])
    (esc : ∀ c r, SelfContained r → P r → P ('\\' :: c :: r))
    (char : ∀ c r, c ≠ '%' → c ≠ '\\' → SelfContained r → P r → P (c :: r)) :
    ∀ s, SelfContained s → P s := by
  intro s
  generalize hn : s.length = n
  induction n using Nat.strongRecOn generalizing s with
  | _ n ih =>
    subst hn
    intro hs
    cases s with
    | nil => exact nil
    | cons c r =>
      by_cases h1 : c = '\\'
      · subst h1
        cases r with
        | nil => have := hs.2; simp [NoDangling] at this
        | cons c r =>
          obtain ⟨ha, hb⟩ := hs
          rw [strip_bs] at ha
          simp only [List.cons.injEq, true_and] at ha
          have hb' : NoDangling r := by simpa [NoDangling] using hb
          exact esc c r ⟨ha, hb'⟩ (ih r.length (by simp; omega) r rfl ⟨ha, hb'⟩)
      · by_cases h2 : c = '%'
        · subst h2
          exfalso
          have h := hs.1
          rw [strip_pct] at h
          have hlen : ∀ s : Str, (stripComments s).length ≤ s.length ∧ (skipComment s).length ≤ s.length := by
            intro s
            generalize hn : s.length = n
            induction n using Nat.strongRecOn generalizing s with
            | _ n ih =>
              subst hn
              cases s with
              | nil => simp [stripComments, skipComment]
              | cons c r =>
                have hr := ih r.length (by simp) r rfl
                refine ⟨?_, ?_⟩
                · by_cases h2 : c = '%'
                  · subst h2; rw [strip_pct]; simp; omega
                  · by_cases h1 : c = '\\'
                    · subst h1
                      cases r with
                      | nil => rw [strip_one (by decide)]; simp
                      | cons c r =>
                        have := ih r.length (by simp; omega) r rfl
                        rw [strip_bs]; simp; omega
                    · rw [strip_cons h2 h1]; simp; omega
                · by_cases h1 : c = '\n'
                  · subst h1; rw [skip_nl]; simp; omega
                  · rw [skip_cons h1]; simp; omega
          have := (hlen r).2
          have h3 := congrArg List.length h
          simp at h3; omega
        · obtain ⟨ha, hb⟩ := hs
          rw [strip_cons h2 h1] at ha
          simp only [List.cons.injEq, true_and] at ha
          have hb' : NoDangling r := by
            cases r with
            | nil => simp [NoDangling]
            | cons d r => unfold NoDangling at hb; split at hb <;> simp_all
          exact char c r h2 h1 ⟨ha, hb'⟩ (ih r.length (by simp) r rfl ⟨ha, hb'⟩)

theorem self_clean (s : Str) (h : SelfContained s) : Clean s := by
  refine self_induction (P := Clean) .nil ?_ ?_ s h
  · intro c r _ ih; exact (clean_esc c).append ih
  · intro c r h1 h2 _ ih; exact (clean_char h1 h2).append ih

theorem balanced_char {v : ScopeVariant} {n c r} (h : c ≠ '\\') : Balanced v n (c :: r) ↔
    (if c = v.opening then Balanced v (n + 1) r
    else if c = v.closing then 0 < n ∧ Balanced v (n - 1) r
    else Balanced v n r) := by
  cases r with
  | nil => simp [Balanced]
  | cons d r => rw [Balanced]; intros; simp_all

theorem balanced_esc {v : ScopeVariant} {n c r} : Balanced v n ('\\' :: c :: r) ↔ Balanced v n r := by
  rw [Balanced]

theorem drop_esc {v : ScopeVariant} {c r} : dropBrackets v ('\\' :: c :: r) = '\\' :: c :: dropBrackets v r := by
  rw [dropBrackets]

theorem drop_char {v : ScopeVariant} {c r} (h : c ≠ '\\') : dropBrackets v (c :: r) =
    if c = v.opening ∨ c = v.closing then dropBrackets v r else c :: dropBrackets v r := by
  cases r with
  | nil => simp [dropBrackets]
  | cons d r => rw [dropBrackets]; intros; simp_all

theorem steps_balanced_scope {rec v} (s : Str) (hs : SelfContained s) : ∀ n x bl ln, Balanced v n s →
    Steps rec (lex false false s) (.scope x v (n + 1)) bl ln [] (.scope (x ++ s) v 1) bl (ln + newlines s) := by
  refine self_induction (P := fun s => ∀ n x bl ln, Balanced v n s →
    Steps rec (lex false false s) (.scope x v (n + 1)) bl ln [] (.scope (x ++ s) v 1) bl (ln + newlines s))
    ?_ ?_ ?_ s hs
  · intro n x bl ln h
    have : n = 0 := by simpa [Balanced] using h
    subst this
    simpa [lex, newlines_nil] using Steps.nil
  · intro c r _ ih n x bl ln h
    rw [balanced_esc] at h
    rw [lex_clean_cons_esc]
    have hn : ln + newlines ('\\' :: c :: r) = lnAfter ln (true, c) + newlines r := by
      rw [lnAfter_char, newlines_cons_of_ne (by decide), show c :: r = [c] ++ r from rfl, newlines_append]
      omega
    rw [hn, show x ++ '\\' :: c :: r = (x ++ ['\\', c]) ++ r by simp]
    exact Steps.cons (new := []) (by simp [tstep]) (ih n _ bl _ h)
  · intro c r h1 h2 _ ih n x bl ln h
    rw [balanced_char h2] at h
    rw [lex_char h1 h2]
    have hn : ln + newlines (c :: r) = lnAfter ln (false, c) + newlines r := by
      rw [lnAfter_char, show c :: r = [c] ++ r from rfl, newlines_append]
      omega
    rw [hn, show x ++ c :: r = (x ++ [c]) ++ r by simp]
    by_cases ho : c = v.opening
    · rw [if_pos ho] at h
      exact Steps.cons (new := []) (by simp [tstep, ho]) (ih (n + 1) _ bl _ h)
    · rw [if_neg ho] at h
      by_cases hc : c = v.closing
      · rw [if_pos hc] at h
        obtain ⟨hpos, h⟩ := h
        cases n with
        | zero => omega
        | succ n =>
          have hne := opening_ne_closing v v
          refine Steps.cons (new := []) (b' := .scope (x ++ [c]) v (n + 1)) (bl' := bl) ?_ (ih n _ bl _ h)
          simp [tstep, hc, hne]
      · rw [if_neg hc] at h
        exact Steps.cons (new := []) (by simp [tstep, Ne.symm ho, Ne.symm hc]) (ih n _ bl _ h)

theorem steps_balanced_arg {rec v} (s : Str) (hs : SelfContained s) : ∀ n l sc a p bl ln, Balanced v n s →
    Steps rec (lex false false s) (.command l (sc ++ [(a, v, p)]) (n + 1) []) bl ln []
      (.command l (sc ++ [(a ++ dropBrackets v s, v, p)]) 1 []) bl (ln + newlines s) := by
  refine self_induction (P := fun s => ∀ n l sc a p bl ln, Balanced v n s →
    Steps rec (lex false false s) (.command l (sc ++ [(a, v, p)]) (n + 1) []) bl ln []
      (.command l (sc ++ [(a ++ dropBrackets v s, v, p)]) 1 []) bl (ln + newlines s)) ?_ ?_ ?_ s hs
  · intro n l sc a p bl ln h
    have : n = 0 := by simpa [Balanced] using h
    subst this
    simpa [lex, newlines_nil, dropBrackets] using Steps.nil
  · intro c r _ ih n l sc a p bl ln h
    rw [balanced_esc] at h
    rw [lex_clean_cons_esc, drop_esc]
    have hn : ln + newlines ('\\' :: c :: r) = lnAfter ln (true, c) + newlines r := by
      rw [lnAfter_char, newlines_cons_of_ne (by decide), show c :: r = [c] ++ r from rfl, newlines_append]
      omega
    rw [hn, show a ++ '\\' :: c :: dropBrackets v r = (a ++ ['\\', c]) ++ dropBrackets v r by simp]
    exact Steps.cons (new := []) (by simp [tstep, pushLastContent_snoc]) (ih n l sc _ p bl _ h)
  · intro c r h1 h2 _ ih n l sc a p bl ln h
    rw [balanced_char h2] at h
    rw [lex_char h1 h2, drop_char h2]
    have hn : ln + newlines (c :: r) = lnAfter ln (false, c) + newlines r := by
      rw [lnAfter_char, show c :: r = [c] ++ r from rfl, newlines_append]
      omega
    rw [hn]
    have hne := opening_ne_closing v v
    by_cases ho : c = v.opening
    · rw [if_pos ho] at h
      rw [if_pos (.inl ho)]
      exact Steps.cons (new := []) (by simp [tstep, ho]) (ih (n + 1) l sc a p bl _ h)
    · rw [if_neg ho] at h
      by_cases hc : c = v.closing
      · rw [if_pos hc] at h
        rw [if_pos (.inr hc)]
        obtain ⟨hpos, h⟩ := h
        cases n with
        | zero => omega
        | succ n =>
          refine Steps.cons (new := []) (b' := .command l (sc ++ [(a, v, p)]) (n + 1) []) (bl' := bl) ?_
            (ih n l sc a p bl _ h)
          simp [tstep, hc, hne]
      · rw [if_neg hc] at h
        rw [if_neg (by simp [ho, hc]), show a ++ c :: dropBrackets v r = (a ++ [c]) ++ dropBrackets v r by simp]
        exact Steps.cons (new := []) (by simp [tstep, pushLastContent_snoc, Ne.symm ho, Ne.symm hc])
          (ih n l sc _ p bl _ h)

theorem scope_parse {v : ScopeVariant} {s : Str} {inner} (hs : SelfContained s) (hb : Balanced v 0 s)
    (h : fromStr s = .ok inner) :
    fromStr (v.opening :: (s ++ [v.closing])) = .ok [.mk 1 (.scope (.mk inner .curly))] := by
  rw [fromStr_eq]
  have ho := opening_clean v
  have hcl := closing_clean v
  rw [lex_char ho.1 ho.2, lex_clean_append (self_clean s hs), lex_char hcl.1 hcl.2]
  have hno : newlines [v.opening] = 0 := by cases v <;> rfl
  have hnc : newlines [v.closing] = 0 := by cases v <;> rfl
  have l1 : lnAfter 1 (false, v.opening) = 1 := by rw [lnAfter_char, hno]
  have s1 : Steps fromStr [(false, v.opening)] (.text []) 1 1 [] (.scope [] v 1) 1 1 := by
    have := Steps.one (rec := fromStr) (t := (false, v.opening)) (b := .text []) (bl := 1) (ln := 1)
      (new := []) (b' := .scope [] v 1) (bl' := 1) (by rw [l1]; simp [tstep, fromOpening_some_iff.2 rfl, textC])
    rwa [l1] at this
  have s2 := steps_balanced_scope (rec := fromStr) s hs 0 [] 1 1 hb
  have hne := opening_ne_closing v v
  have s3 := Steps.one (rec := fromStr) (t := (false, v.closing)) (b := .scope ([] ++ s) v 1) (bl := 1)
    (ln := 1 + newlines s) (new := [.mk 1 (.scope (.mk inner .curly))]) (b' := .text [])
    (bl' := lnAfter (1 + newlines s) (false, v.closing)) (by simp [tstep, hne, h])
  have := (s1.append (s2.append s3)).trun [] (cs := []) (by simp [trun, tfinish, textC])
  simpa [lex] using this

theorem arg_parse {v : ScopeVariant} {label s : Str} {inner} (hl : LetterName label) (hs : SelfContained s)
    (hb : Balanced v 0 s) (h : fromStr (dropBrackets v s) = .ok inner) :
    fromStr ('\\' :: (label ++ v.opening :: (s ++ [v.closing]))) =
      .ok [.mk 1 (.command (.mk label [([], .mk inner v)]))] := by
  rw [fromStr_eq]
  obtain ⟨c, r, rfl, ha, hr, hw⟩ := letterName_split hl
  have ho := opening_clean v
  have hcl := closing_clean v
  rw [List.cons_append, lex_clean_cons_esc, lex_clean_append (clean_sanitised hr), lex_char ho.1 ho.2,
    lex_clean_append (self_clean s hs), lex_char hcl.1 hcl.2]
  have hno : newlines [v.opening] = 0 := by cases v <;> rfl
  have l1 : lnAfter 1 (false, v.opening) = 1 := by rw [lnAfter_char, hno]
  have l0 : lnAfter 1 (true, c) = 1 := by
    rw [lnAfter_char, newlines_single, if_neg (alpha_ne_nl ha)]
  have s0 := Steps.one (rec := fromStr) (t := (true, c)) (b := .text []) (bl := 1) (ln := 1)
    (new := []) (b' := .command [c] [] 0 []) (bl' := 1) (by rw [l0]; simp [tstep, textC, startC, startB, ha])
  rw [l0] at s0
  have s1 := steps_label (rec := fromStr) hr hw [c] 1 1
  have s2 : Steps fromStr [(false, v.opening)] (.command ([c] ++ r) [] 0 []) 1 1 []
      (.command ([c] ++ r) ([] ++ [([], v, [])]) 1 []) 1 1 := by
    have := Steps.one (rec := fromStr) (t := (false, v.opening)) (b := .command ([c] ++ r) [] 0 []) (bl := 1)
      (ln := 1) (new := []) (b' := .command ([c] ++ r) ([] ++ [([], v, [])]) 1 []) (bl' := 1)
      (by simp [tstep, fromOpening_some_iff.2 rfl])
    rwa [l1] at this
  have s3 := steps_balanced_arg (rec := fromStr) s hs 0 ([c] ++ r) [] [] [] 1 1 hb
  have hne := opening_ne_closing v v
  have s4 := Steps.one (rec := fromStr) (t := (false, v.closing))
    (b := .command ([c] ++ r) ([] ++ [([] ++ dropBrackets v s, v, [])]) 1 []) (bl := 1)
    (ln := 1 + newlines s) (new := []) (b' := .command ([c] ++ r) ([] ++ [([] ++ dropBrackets v s, v, [])]) 0 [])
    (bl' := 1) (by simp [tstep, hne])
  have := (s0.append (s1.append (s2.append (s3.append s4)))).trun []
    (cs := [.mk 1 (.command (.mk (c :: r) [([], .mk inner v)]))])
    (by simp [trun, tfinish, textC, flushC, evalArgs, h])
  simpa [lex] using this

end LatexAst.Ast1

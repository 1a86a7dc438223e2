import Verif.Proofs.Parse1

/-!
# What stage-1 parsing keeps: filtered characters and lines
-/

namespace LatexAst.Ast1

/-- A test that ignores brackets and backslashes. -/
structure Vis (p : Char → Bool) : Prop where
  bs : p '\\' = false
  op : ∀ v : ScopeVariant, p v.opening = false
  cl : ∀ v : ScopeVariant, p v.closing = false

theorem filter_raw_start {p : Char → Bool} (hp : Vis p) (c : Char) (ln : Nat) :
    (displayChunks (startC c ln)).filter p ++ (startB c).raw.filter p = [c].filter p := by
  unfold startC startB
  split
  · simp [displayChunks_nil, Buffer.raw, rawScopes]
  · simp [displayChunks_cons, displayChunks_nil, Chunk.display, ChunkVariant.display,
      Command.display, displayArgs, Buffer.raw, hp.bs]

theorem display_textC (a : Str) (bl : Nat) : displayChunks (textC a bl) = a := by
  unfold textC; split
  · simp [*, displayChunks_nil]
  · simp [displayChunks_cons, displayChunks_nil, Chunk.display, ChunkVariant.display]

/-! ## Contents are comment-free -/

/-- What the parser keeps of a content: it contains no comment and every backslash escapes. -/
inductive Clean : Str → Prop
  | nil : Clean []
  | esc {a} (c) : Clean a → Clean (a ++ ['\\', c])
  | char {a} (c) : Clean a → c ≠ '%' → c ≠ '\\' → Clean (a ++ [c])

def Buffer.CleanContents (b : Buffer) : Prop := ∀ a ∈ b.contents, Clean a

/-- Valid tokens: an unescaped token is neither `%` nor `\`. -/
def Tok.Ok (t : Tok) : Prop := t.1 = false → t.2 ≠ '%' ∧ t.2 ≠ '\\'

theorem lex_ok (e cm : Bool) (s : Str) : ∀ t ∈ lex e cm s, Tok.Ok t := by
  induction s generalizing e cm with
  | nil => intro t h; simp [lex] at h
  | cons c s ih =>
    unfold lex
    split
    · rename_i h; subst h
      intro t ht
      cases ht with
      | head => intro _; constructor <;> simp
      | tail _ ht => exact ih _ _ t ht
    · split
      · exact ih _ _
      · split
        · exact ih _ _
        · split
          · exact ih _ _
          · intro t ht
            cases ht with
            | head => intro he; simp at he; subst he; simp_all
            | tail _ ht => exact ih _ _ t ht

theorem lex_clean_append {a : Str} (h : Clean a) (b : Str) :
    lex false false (a ++ b) = lex false false a ++ lex false false b := by
  induction h generalizing b with
  | nil => simp [lex]
  | esc c h ih =>
    rw [List.append_assoc, ih, ih ['\\', c], List.append_assoc]
    congr 1
    by_cases hn : c = '\n'
    · simp [lex, hn]
    · simp [lex, hn]
  | char c h h1 h2 ih =>
    rw [List.append_assoc, ih, ih [c], List.append_assoc]
    congr 1
    by_cases hn : c = '\n'
    · simp [lex, hn]
    · simp [lex, hn, h1, h2]

theorem filter_lex_clean {p : Char → Bool} (hp : p '\\' = false) {a : Str} (h : Clean a) :
    ((lex false false a).map (·.2)).filter p = a.filter p := by
  induction h with
  | nil => simp [lex]
  | esc c h ih =>
    rw [lex_clean_append h]
    simp only [List.map_append, List.filter_append, ih]
    congr 1
    by_cases hn : c = '\n' <;> simp [lex, hn, hp, List.filter_cons]
  | char c h h1 h2 ih =>
    rw [lex_clean_append h]
    simp only [List.map_append, List.filter_append, ih]
    congr 1
    by_cases hn : c = '\n' <;> simp [lex, hn, h1, h2]

theorem contents_start (c : Char) : (startB c).contents = [] := by
  unfold startB; split <;> rfl

theorem TStep.clean {rec b bl ln t new b' bl'} (ht : Tok.Ok t) (hb : b.CleanContents)
    (h : TStep rec bl ln b t new b' bl') : b'.CleanContents := by
  unfold Buffer.CleanContents at *
  cases h
  case tEsc => rw [contents_start]; simp
  case cEsc => rw [contents_start]; simp
  all_goals
    simp [Buffer.contents, Tok.Ok] at hb ht ⊢
  case tOpen => exact .nil
  case sEsc => exact .esc _ hb
  case sOpen a v d => exact .char _ hb ht.1 ht.2
  case sClose => exact .char _ hb ht.1 ht.2
  case sChar => exact .char _ hb ht.1 ht.2
  case cOpen =>
    rintro a (⟨_, _, h⟩ | rfl)
    · exact hb _ _ _ h
    · exact .nil
  case cWs => exact hb
  case aEsc =>
    rintro a (⟨_, _, h⟩ | rfl)
    · exact hb _ (.inl ⟨_, _, h⟩)
    · exact .esc _ (hb _ (.inr rfl))
  case aOpen => exact hb
  case aClose => exact hb
  case aChar =>
    rintro a (⟨_, _, h⟩ | rfl)
    · exact hb _ (.inl ⟨_, _, h⟩)
    · exact .char _ (hb _ (.inr rfl)) ht.1 ht.2

theorem filter_args {p : Char → Bool} (hp : Vis p) {rec : Str → Res (List Chunk)}
    (hrec : ∀ a cs, Clean a → rec a = .ok cs → (displayChunks cs).filter p = a.filter p)
    {sc args} (hcl : ∀ a v p, (a, v, p) ∈ sc → Clean a) (h : evalArgs rec sc = .ok args) :
    (displayArgs args).filter p = (rawScopes sc).filter p := by
  induction sc generalizing args with
  | nil => simp only [evalArgs] at h; injection h with h; subst h; simp [displayArgs, rawScopes]
  | cons x sc ih =>
    obtain ⟨a, v, q⟩ := x
    simp only [evalArgs] at h
    rcases hr : rec a with g | cs
    · rw [hr] at h; cases h
    · rw [hr] at h; simp only at h
      rcases he : evalArgs rec sc with g | args'
      · rw [he] at h; cases h
      · rw [he] at h; injection h with h; subst h
        simp [displayArgs, rawScopes, Scope.display, hp.op, hp.cl, hrec _ _ (hcl a v q (by simp)) hr,
          ih (fun a v p hm => hcl a v p (by simp [hm])) he]

/-- One step neither loses nor reorders characters passing the test. -/
theorem TStep.filter {p : Char → Bool} (hp : Vis p) {rec : Str → Res (List Chunk)}
    {b bl ln t new b' bl'}
    (hrec : ∀ a cs, Clean a → rec a = .ok cs → (displayChunks cs).filter p = a.filter p)
    (hb : b.CleanContents) (h : TStep rec bl ln b t new b' bl') :
    (displayChunks new).filter p ++ b'.raw.filter p = b.raw.filter p ++ [t.2].filter p := by
  have hcl : ∀ {l sc d tr}, b = .command l sc d tr → ∀ a v p, (a, v, p) ∈ sc → Clean a := by
    intro l sc d tr he a v p hm
    exact hb a (by subst he; simp only [Buffer.contents, List.mem_map]; exact ⟨_, hm, rfl⟩)
  cases h
  case tEsc a c =>
    simp only [displayChunks_append, List.filter_append, display_textC, List.append_assoc,
      filter_raw_start hp]
    simp only [Buffer.raw, List.filter_append, List.append_assoc]
  case tOpen a v => simp [display_textC, Buffer.raw, hp.op]
  case sEnd a v inner h =>
    simp [displayChunks_cons, displayChunks_nil, Chunk.display, ChunkVariant.display, Scope.display,
      hp.op, hp.cl, hrec _ _ (hb a (by simp [Buffer.contents])) h, Buffer.raw]
  case cEsc l sc tr c args h hw ha =>
    simp only [displayChunks_append, List.filter_append, display_textC, List.append_assoc,
      filter_raw_start hp]
    simp only [Buffer.raw, List.filter_append, List.append_assoc]
    simp [displayChunks_cons, displayChunks_nil, Chunk.display, ChunkVariant.display,
      Command.display, hp.bs, filter_args hp hrec (hcl rfl) ha]
  case cTrail l sc tr c args h hw ht ha =>
    simp [displayChunks_cons, displayChunks_nil, Chunk.display, ChunkVariant.display,
      Command.display, hp.bs, filter_args hp hrec (hcl rfl) ha, Buffer.raw]
  case cNext l sc c args h hw hc hs ha =>
    simp [displayChunks_cons, displayChunks_nil, Chunk.display, ChunkVariant.display,
      Command.display, hp.bs, filter_args hp hrec (hcl rfl) ha, Buffer.raw]
  all_goals
    simp [displayChunks_nil, Buffer.raw, rawScopes_append, rawScopes, hp.op, hp.cl, hp.bs]

theorem TRun.filter {p : Char → Bool} (hp : Vis p) {rec : Str → Res (List Chunk)}
    (hrec : ∀ a cs, Clean a → rec a = .ok cs → (displayChunks cs).filter p = a.filter p)
    {ts b bl ln cs} (hts : ∀ t ∈ ts, Tok.Ok t) (hb : b.CleanContents)
    (h : TRun rec ts b bl ln cs) :
    (displayChunks cs).filter p = b.raw.filter p ++ (ts.map (·.2)).filter p := by
  induction h with
  | nil hi h =>
    cases h with
    | text a => simp [display_textC, Buffer.raw]
    | command l sc tr args ha =>
      simp [displayChunks_append, display_textC, displayChunks_cons, displayChunks_nil, Chunk.display,
        ChunkVariant.display, Command.display, hp.bs, filter_args hp hrec
          (fun a v p hm => hb a (by simp only [Buffer.contents, List.mem_map]; exact ⟨_, hm, rfl⟩)) ha,
        Buffer.raw]
  | cons hi h hr ih =>
    rw [displayChunks_append, List.filter_append, ih (fun t ht => hts t (by simp [ht]))
      (h.clean (hts _ (by simp)) hb), ← List.append_assoc, h.filter hp hrec hb]
    rw [List.append_assoc, ← List.filter_append]; rfl

end LatexAst.Ast1

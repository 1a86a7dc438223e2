import Verif.Proofs.Lex
import Verif.Spec.Source

/-!
# Fuel adequacy, errors and children of the stage-1 parser
-/

namespace LatexAst.Ast1

/-- The contents a buffer may hand to the recursive call. -/
def Buffer.contents : Buffer → List Str
  | .text _ => []
  | .scope a _ _ => [a]
  | .command _ sc _ _ => sc.map (·.1)

/-- Length of a token as source. -/
def Tok.len (t : Tok) : Nat := if t.1 then 2 else 1

def toksLen : List Tok → Nat
  | [] => 0
  | t :: ts => Tok.len t + toksLen ts

/-- Size of the contents of a buffer with their opening brackets. -/
def scLen : List ScopeBuf → Nat
  | [] => 0
  | (a, _, _) :: r => a.length + 1 + scLen r
def Buffer.size : Buffer → Nat
  | .text _ => 0
  | .scope a _ _ => a.length + 1
  | .command _ sc _ _ => scLen sc

theorem scLen_append (a b : List ScopeBuf) : scLen (a ++ b) = scLen a + scLen b := by
  induction a with
  | nil => simp [scLen]
  | cons x a ih => obtain ⟨u, v, w⟩ := x; simp [scLen, ih]; omega

theorem scLen_mem {sc : List ScopeBuf} {a v p} (h : (a, v, p) ∈ sc) : a.length < scLen sc := by
  induction sc with
  | nil => cases h
  | cons x sc ih =>
    obtain ⟨u, v', w⟩ := x
    simp only [scLen]
    cases h with
    | head => omega
    | tail _ h => have := ih h; omega

theorem contents_lt {b : Buffer} {a : Str} (h : a ∈ b.contents) : a.length < b.size := by
  cases b with
  | text a => cases h
  | scope a v d => simp [Buffer.contents] at h; subst h; simp [Buffer.size]
  | command l sc d tr =>
    simp only [Buffer.contents, List.mem_map] at h
    obtain ⟨⟨a', v, p⟩, hm, rfl⟩ := h
    exact scLen_mem hm

theorem lex_len (e cm : Bool) (s : Str) : toksLen (lex e cm s) ≤ s.length + (if e then 1 else 0) := by
  induction s generalizing e cm with
  | nil => simp [lex, toksLen]
  | cons c s ih =>
    unfold lex
    split
    · have := ih false false
      simp [toksLen, Tok.len] at this ⊢
      split <;> omega
    · split
      · have := ih e true
        simp only [List.length_cons]; omega
      · split
        · rename_i h
          have := ih true cm
          simp only [List.length_cons, h.2] at this ⊢; simp at this ⊢; omega
        · split
          · have := ih e cm
            simp only [List.length_cons]; omega
          · have := ih false false
            simp [toksLen, Tok.len] at this ⊢
            split <;> omega

theorem size_start (c : Char) : (startB c).size = 0 := by
  unfold startB; split <;> rfl

theorem TStep.size {rec b bl ln t new b' bl'} (h : TStep rec bl ln b t new b' bl') :
    b'.size ≤ b.size + Tok.len t := by
  cases h
  case tEsc a c => rw [size_start]; omega
  case cEsc a c => rw [size_start]; omega
  all_goals simp [Buffer.size, Tok.len, scLen_append, scLen]
  all_goals first | omega | (split <;> omega)

theorem evalArgs_congr {rec rec' : Str → Res (List Chunk)} {sc : List ScopeBuf}
    (h : ∀ a v p, (a, v, p) ∈ sc → rec a = rec' a) : evalArgs rec sc = evalArgs rec' sc := by
  induction sc with
  | nil => rfl
  | cons x sc ih =>
    obtain ⟨a, v, p⟩ := x
    simp only [evalArgs]
    rw [h a v p (by simp), ih (fun a v p hm => h a v p (by simp [hm]))]

theorem flushC_congr {rec rec' : Str → Res (List Chunk)} {l sc bl}
    (h : ∀ a v p, (a, v, p) ∈ sc → rec a = rec' a) : flushC rec l sc bl = flushC rec' l sc bl := by
  simp only [flushC, evalArgs_congr h]

theorem tstep_congr {rec rec' : Str → Res (List Chunk)} {b bl ln t}
    (h : ∀ a ∈ b.contents, rec a = rec' a) : tstep rec b bl ln t = tstep rec' b bl ln t := by
  rcases b with ⟨a, v, d⟩ | ⟨l, sc, d, tr⟩ | ⟨a⟩
  · simp only [tstep, h a (by simp [Buffer.contents])]
  · have hf : flushC rec l sc bl = flushC rec' l sc bl :=
      flushC_congr fun a v p hm => h a (by simp only [Buffer.contents, List.mem_map]; exact ⟨_, hm, rfl⟩)
    cases d with
    | zero => simp only [tstep, hf]
    | succ d => simp only [tstep]
  · rfl

theorem tfinish_congr {rec rec' : Str → Res (List Chunk)} {b bl ln}
    (h : ∀ a ∈ b.contents, rec a = rec' a) : tfinish rec b bl ln = tfinish rec' b bl ln := by
  rcases b with ⟨a, v, d⟩ | ⟨l, sc, d, tr⟩ | ⟨a⟩
  · rfl
  · have hf : flushC rec l sc bl = flushC rec' l sc bl :=
      flushC_congr fun a v p hm => h a (by simp only [Buffer.contents, List.mem_map]; exact ⟨_, hm, rfl⟩)
    cases d with
    | zero => simp only [tfinish, hf]
    | succ d => simp only [tfinish]
  · rfl

theorem trun_congr {rec rec' : Str → Res (List Chunk)} {L : Nat}
    (h : ∀ a, a.length < L → rec a = rec' a) {ts b bl ln} (hi : Inv b bl ln)
    (hL : b.size + toksLen ts ≤ L) : trun rec ts b bl ln = trun rec' ts b bl ln := by
  induction ts generalizing b bl ln with
  | nil =>
    simp only [trun]
    exact tfinish_congr fun a ha => h a (by have := contents_lt ha; simp [toksLen] at hL; omega)
  | cons t ts ih =>
    simp only [trun]
    rw [tstep_congr fun a ha => h a (by have := contents_lt ha; simp [toksLen] at hL; omega)]
    rcases ht : tstep rec' b bl (lnAfter ln t) t with f | ⟨new, b', bl'⟩
    · rfl
    · have hs := tstep_ok hi.ctl ht
      have := hs.size
      simp only [toksLen] at hL
      simp only
      rw [ih (hs.inv hi) (by omega)]

theorem parseFuel_adequate (n m : Nat) (s : Str) (hn : s.length < n) (hm : s.length < m) :
    parseFuel n s = parseFuel m s := by
  induction n generalizing m s with
  | zero => omega
  | succ n ih =>
    cases m with
    | zero => omega
    | succ m =>
      rw [parseFuel_succ, parseFuel_succ]
      have hl := lex_len false false s
      refine trun_congr (L := s.length) (fun a ha => ih m a (by omega) (by omega)) inv_init ?_
      simp [Buffer.size] at hl ⊢; exact hl

/-- The recursion equation of the stage-1 parser, without fuel. -/
theorem fromStr_eq (s : Str) : fromStr s = trun fromStr (lex false false s) (.text []) 1 1 := by
  unfold fromStr
  rw [parseFuel_succ]
  have hl := lex_len false false s
  refine trun_congr (L := s.length) (fun a ha => ?_) inv_init (by simp [Buffer.size] at hl ⊢; exact hl)
  exact parseFuel_adequate _ _ _ (by omega) (by omega)

/-! ## Errors -/

/-- A failure coming from a recursive call on one of the contents. -/
def FromRec (rec : Str → Res (List Chunk)) (b : Buffer) (bl : Nat) (f : Fail) : Prop :=
  ∃ a g, a ∈ b.contents ∧ rec a = .error g ∧
    addLine (bl - 1) (.error g : Res Unit) = .error f

theorem addLine_error_iff {α β : Type} {k : Nat} {g f : Fail} :
    addLine k (.error g : Res α) = .error f ↔ addLine k (.error g : Res β) = .error f := by
  rcases g with e | _ | _ <;> simp [addLine]

theorem evalArgs_error {rec sc f} (h : evalArgs rec sc = .error f) :
    ∃ a v p, (a, v, p) ∈ sc ∧ rec a = .error f := by
  induction sc with
  | nil => cases h
  | cons x sc ih =>
    obtain ⟨a, v, p⟩ := x
    simp only [evalArgs] at h
    rcases hr : rec a with g | cs
    · rw [hr] at h; injection h with h; subst h; exact ⟨a, v, p, by simp, hr⟩
    · rw [hr] at h; simp only at h
      rcases he : evalArgs rec sc with g | args
      · rw [he] at h; injection h with h; subst h
        obtain ⟨a, v, p, hm, hr⟩ := ih he
        exact ⟨a, v, p, by simp [hm], hr⟩
      · rw [he] at h; cases h

theorem flushC_error {rec l sc d tr bl f} (h : flushC rec l sc bl = .error f) :
    FromRec rec (.command l sc d tr) bl f := by
  simp only [flushC] at h
  rcases he : evalArgs rec sc with g | args
  · rw [he] at h
    obtain ⟨a, v, p, hm, hr⟩ := evalArgs_error he
    exact ⟨a, g, by simp only [Buffer.contents, List.mem_map]; exact ⟨_, hm, rfl⟩, hr,
      addLine_error_iff.1 h⟩
  · rw [he] at h; cases h

theorem tstep_error {rec b bl ln t f} (hb : Buffer.Ctl b) (h : tstep rec b bl ln t = .error f) :
    (∃ v, f = .err ⟨ln, .unexpectedClosing v⟩) ∨ FromRec rec b bl f := by
  obtain ⟨e, c⟩ := t
  rcases b with ⟨a, v, d⟩ | ⟨l, sc, d, tr⟩ | ⟨a⟩
  · simp only [tstep] at h
    right
    split at h
    · cases h
    · split at h
      · cases h
      · split at h
        · split at h
          · rcases hr : rec a with g | inner
            · rw [hr] at h
              exact ⟨a, g, by simp [Buffer.contents], hr, addLine_error_iff.1 h⟩
            · rw [hr] at h; cases h
          · cases h
        · cases h
  · cases d with
    | zero =>
      simp only [tstep] at h
      split at h
      · cases h
      · split at h
        · cases h
        · split at h
          · right
            rcases hf : flushC rec l sc bl with g | cs
            · rw [hf] at h; injection h with h; subst h; exact flushC_error hf
            · rw [hf] at h; cases h
          · split at h
            · right
              rcases hf : flushC rec l sc bl with g | cs
              · rw [hf] at h; injection h with h; subst h; exact flushC_error hf
              · rw [hf] at h; cases h
            · split at h
              · left
                rename_i v _
                simp only [fail] at h; injection h with h
                exact ⟨v, h.symm⟩
              · split at h
                · cases h
                · right
                  rcases hf : flushC rec l sc bl with g | cs
                  · rw [hf] at h; injection h with h; subst h; exact flushC_error hf
                  · rw [hf] at h; cases h
    | succ d =>
      simp only [tstep] at h
      split at h
      · rename_i hg
        have := (hb.2 (by omega)).1
        simp at hg; exact absurd hg this
      · split at h
        · cases h
        · split at h
          · cases h
          · split at h <;> cases h
  · simp only [tstep] at h
    split at h
    · cases h
    · split at h <;> cases h

theorem tfinish_error {rec b bl ln f} (hb : Buffer.Ctl b) (h : tfinish rec b bl ln = .error f) :
    (∃ v d a, b = .scope a v d ∧ f = .err ⟨bl, .unclosedScope v⟩) ∨
    (∃ v l sc d tr, b = .command l sc (d + 1) tr ∧ f = .err ⟨bl, .unclosedArgument v⟩) ∨
    FromRec rec b bl f := by
  rcases b with ⟨a, v, d⟩ | ⟨l, sc, d, tr⟩ | ⟨a⟩
  · simp only [tfinish, fail] at h
    injection h with h
    exact .inl ⟨v, d, a, rfl, h.symm⟩
  · cases d with
    | zero =>
      simp only [tfinish] at h
      right; right
      rcases hf : flushC rec l sc bl with g | cs
      · rw [hf] at h; injection h with h; subst h; exact flushC_error hf
      · rw [hf] at h; cases h
    | succ d =>
      simp only [tfinish] at h
      rcases hg : sc.getLast? with _ | ⟨a, v, p⟩
      · have := (hb.2 (by omega)).1
        simp at hg; exact absurd hg this
      · rw [hg] at h; simp only [fail] at h; injection h with h
        exact .inr (.inl ⟨v, l, sc, d, tr, rfl, h.symm⟩)
  · simp only [tfinish] at h; cases h

/-- Every failure of the parser is an `Err`: no panic, no exhausted fuel. -/
theorem trun_no_panic {rec : Str → Res (List Chunk)} {L : Nat}
    (hrec : ∀ a, a.length < L → rec a ≠ .error .panic ∧ rec a ≠ .error .fuel) {ts b bl ln}
    (hi : Inv b bl ln) (hL : b.size + toksLen ts ≤ L) :
    trun rec ts b bl ln ≠ .error .panic ∧ trun rec ts b bl ln ≠ .error .fuel := by
  have key : ∀ {b : Buffer} {bl f}, b.size ≤ L → FromRec rec b bl f → ∃ e, f = .err e := by
    intro b bl f hb hf
    obtain ⟨a, g, hm, hr, ha⟩ := hf
    have hlt := contents_lt hm
    have := hrec a (by omega)
    rw [hr] at this
    rcases g with e | _ | _
    · simp only [addLine] at ha; injection ha with ha; exact ⟨_, ha.symm⟩
    · exact absurd rfl this.1
    · exact absurd rfl this.2
  have main : ∀ f, trun rec ts b bl ln = .error f → ∃ e, f = .err e := by
    induction ts generalizing b bl ln with
    | nil =>
      intro f h
      simp only [trun] at h
      simp only [toksLen] at hL
      rcases tfinish_error hi.ctl h with ⟨v, d, a, rfl, rfl⟩ | ⟨v, l, sc, d, tr, rfl, rfl⟩ | hf
      · exact ⟨_, rfl⟩
      · exact ⟨_, rfl⟩
      · exact key (by omega) hf
    | cons t ts ih =>
      intro f h
      simp only [trun] at h
      simp only [toksLen] at hL
      rcases ht : tstep rec b bl (lnAfter ln t) t with g | ⟨new, b', bl'⟩
      · rw [ht] at h; injection h with h; subst h
        rcases tstep_error hi.ctl ht with ⟨v, rfl⟩ | hf
        · exact ⟨_, rfl⟩
        · exact key (by omega) hf
      · rw [ht] at h; simp only at h
        have hs := tstep_ok hi.ctl ht
        have := hs.size
        rcases hr : trun rec ts b' bl' (lnAfter ln t) with g | rest
        · rw [hr] at h; injection h with h; subst h
          exact ih (hs.inv hi) (by omega) _ hr
        · rw [hr] at h; cases h
  constructor <;> intro h <;> obtain ⟨e, he⟩ := main _ h <;> cases he

theorem fromStr_total (s : Str) : fromStr s ≠ .error .panic ∧ fromStr s ≠ .error .fuel := by
  generalize hn : s.length = n
  induction n using Nat.strongRecOn generalizing s with
  | _ n ih =>
    rw [fromStr_eq]
    have hl := lex_len false false s
    refine trun_no_panic (L := s.length) (fun a ha => ih a.length (by omega) a rfl) inv_init ?_
    simp [Buffer.size] at hl ⊢; exact hl

/-! ## Children of parsed documents are parsed -/

theorem evalArgs_ok {rec sc args} (h : evalArgs rec sc = .ok args) {p s} (hm : (p, s) ∈ args) :
    ∃ a v cs, (a, v, p) ∈ sc ∧ rec a = .ok cs ∧ s = .mk cs v := by
  induction sc generalizing args with
  | nil => simp only [evalArgs] at h; injection h with h; subst h; cases hm
  | cons x sc ih =>
    obtain ⟨a, v, q⟩ := x
    simp only [evalArgs] at h
    rcases hr : rec a with g | cs
    · rw [hr] at h; cases h
    · rw [hr] at h; simp only at h
      rcases he : evalArgs rec sc with g | args'
      · rw [he] at h; cases h
      · rw [he] at h; injection h with h; subst h
        cases hm with
        | head => exact ⟨a, v, cs, by simp, hr, rfl⟩
        | tail _ hm =>
          obtain ⟨a, v, cs, h1, h2, h3⟩ := ih he hm
          exact ⟨a, v, cs, by simp [h1], h2, h3⟩

/-- The chunk's direct children sequences are results of `rec`, and free scopes are curly. -/
def ChildOk (rec : Str → Res (List Chunk)) (c : Chunk) : Prop :=
  (∀ l inner sv, c = .mk l (.scope (.mk inner sv)) → sv = .curly ∧ ∃ a, rec a = .ok inner) ∧
  (∀ l label args prec inner sv, c = .mk l (.command (.mk label args)) →
    (prec, Scope.mk inner sv) ∈ args → ∃ a, rec a = .ok inner)

theorem childOk_text {rec l s} : ChildOk rec (.mk l (.text s)) :=
  ⟨fun _ _ _ h => by simp at h, fun _ _ _ _ _ _ h => by simp at h⟩

theorem childOk_textC {rec a bl} : ∀ c ∈ textC a bl, ChildOk rec c := by
  intro c hc; unfold textC at hc; split at hc
  · cases hc
  · simp at hc; subst hc; exact childOk_text

theorem childOk_command {rec l label sc args} (h : evalArgs rec sc = .ok args) :
    ChildOk rec (.mk l (.command (.mk label args))) := by
  refine ⟨fun _ _ _ h => by simp at h, fun _ _ _ _ _ _ he hm => ?_⟩
  simp only [Chunk.mk.injEq, ChunkVariant.command.injEq, Command.mk.injEq] at he
  obtain ⟨_, _, rfl⟩ := he
  obtain ⟨a, v, cs, _, h2, h3⟩ := evalArgs_ok h hm
  cases h3; exact ⟨a, h2⟩

theorem childOk_startC {rec c ln} : ∀ x ∈ startC c ln, ChildOk rec x := by
  intro x hx; unfold startC at hx; split at hx
  · cases hx
  · simp at hx; subst hx
    exact childOk_command (sc := []) rfl

theorem TStep.childOk {rec b bl ln t new b' bl'} (h : TStep rec bl ln b t new b' bl') :
    ∀ c ∈ new, ChildOk rec c := by
  cases h
  case tEsc a c =>
    intro x hx; rw [List.mem_append] at hx
    exact hx.elim (childOk_textC x) (childOk_startC x)
  case tOpen => exact childOk_textC
  case sEnd a v inner h =>
    intro x hx; simp at hx; subst hx
    refine ⟨fun _ _ _ he => ?_, fun _ _ _ _ _ _ h => by simp at h⟩
    simp only [Chunk.mk.injEq, ChunkVariant.scope.injEq, Scope.mk.injEq] at he
    obtain ⟨_, rfl, rfl⟩ := he
    exact ⟨rfl, a, h⟩
  case cEsc l sc tr c args h hw ha =>
    intro x hx
    simp only [List.mem_append, List.mem_singleton] at hx
    rcases hx with (rfl | hx) | hx
    · exact childOk_command ha
    · exact childOk_textC x hx
    · exact childOk_startC x hx
  case cTrail l sc tr c args h hw ht ha =>
    intro x hx; simp at hx; subst hx; exact childOk_command ha
  case cNext l sc c args h hw hc hs ha =>
    intro x hx; simp at hx; subst hx; exact childOk_command ha
  all_goals (intro x hx; cases hx)

theorem TRun.childOk {rec ts b bl ln cs} (h : TRun rec ts b bl ln cs) : ∀ c ∈ cs, ChildOk rec c := by
  induction h with
  | nil hi h =>
    cases h with
    | text a => exact childOk_textC
    | command l sc tr args ha =>
      intro x hx
      simp only [List.mem_append, List.mem_singleton] at hx
      rcases hx with rfl | hx
      · exact childOk_command ha
      · exact childOk_textC x hx
  | cons hi h hr ih =>
    intro x hx
    rw [List.mem_append] at hx
    exact hx.elim (h.childOk x) (ih x)

theorem fromStr_run {s d} (h : fromStr s = .ok d) :
    TRun fromStr (lex false false s) (.text []) 1 1 d := by
  rw [fromStr_eq] at h
  exact trun_ok inv_init h

/-- Every level of a parsed document is itself a parse result. -/
theorem level_parsed {s d lv} (h : fromStr s = .ok d) (hl : Level d lv) : ∃ a, fromStr a = .ok lv := by
  induction hl with
  | top => exact ⟨s, h⟩
  | scope _ hm ih =>
    obtain ⟨a, ha⟩ := ih
    exact (((fromStr_run ha).childOk _ hm).1 _ _ _ rfl).2
  | arg _ hm hm' ih =>
    obtain ⟨a, ha⟩ := ih
    exact ((fromStr_run ha).childOk _ hm).2 _ _ _ _ _ _ rfl hm'

end LatexAst.Ast1

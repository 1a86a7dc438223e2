import Verif.Proofs.Lines2
import Verif.Model.Back
import Verif.Proofs.Push

/-! Stage 2 back to stage 1. -/

namespace LatexAst.Ast2
open LatexAst.Ast1 (Opened Matched Checked Child Sane SaneAll)
open Spec

def shift1 (k : Nat) : Ast1.Chunk → Ast1.Chunk
  | .mk l v => .mk (l + k) v

theorem map_shift_zero (d : List Ast1.Chunk) : d.map (shift1 0) = d := by
  induction d with
  | nil => rfl
  | cons c d ih => obtain ⟨l, v⟩ := c; simp [shift1, ih]

theorem intoChunks_append {k : Nat} {a b : List Chunk} {x y} (ha : intoChunks k a = .ok x) (hb : intoChunks k b = .ok y) :
    intoChunks k (a ++ b) = .ok (x ++ y) := by
  induction a generalizing x with
  | nil => simp [intoChunks] at ha; subst ha; simpa using hb
  | cons c a ih =>
    obtain ⟨l, v⟩ := c
    simp only [intoChunks, List.cons_append] at ha ⊢
    cases h1 : intoVariant (l + k) v with
    | error f => simp [h1] at ha
    | ok xs =>
      simp only [h1] at ha ⊢
      cases h2 : intoChunks k a with
      | error f => simp [h2] at ha
      | ok ys =>
        simp only [h2] at ha
        cases ha
        simp [ih h2]

theorem intoChunks_single {k l : Nat} {v xs} (h : intoVariant (l + k) v = .ok xs) : intoChunks k [.mk l v] = .ok xs := by
  simp [intoChunks, h]

theorem argNewlines2_eq (args : List (Str × Scope)) : argNewlines2 args = newlines (displayArgs args) := by
  induction args with
  | nil => rfl
  | cons x r ih => obtain ⟨p, s⟩ := x; simp [argNewlines2, displayArgs, ih]; omega

/-- One sequence: sane lines, one-line `\begin`s, labels that read back. -/
def BackHere (lv : List Ast1.Chunk) : Prop :=
  Sane lv ∧ ∀ l p lab args, beginC l p lab args ∈ lv →
    argNewlines ((p, .mk lab .curly) :: args) = 0 ∧ Ast1.fromStr (Ast1.displayChunks lab) = .ok lab

def BackAll (d : List Ast1.Chunk) : Prop := ∀ lv, Checked d lv → BackHere lv

theorem backAll_child {d inner} (h : BackAll d) (hc : Child d inner) : BackAll inner :=
  fun lv hl => h lv (Checked.trans (.child .top hc) hl)

theorem backAll_sane {d} (h : BackAll d) : SaneAll d := fun lv hl => (h lv hl).1

theorem backAll_prefix {a b} (h : BackAll (a ++ b)) : BackAll a := by
  intro lv hl
  rcases hl.head with rfl | ⟨inner, hc, hl⟩
  · obtain ⟨h1, h2⟩ := h _ .top
    exact ⟨sane_prefix h1, fun l p lab args hm => h2 l p lab args (by simp [hm])⟩
  · exact backAll_child h (hc.mono (by intro c hc; simp [hc])) lv hl

theorem backAll_body {d0 body rest : List Ast1.Chunk} {l p lab args}
    (h : BackAll (d0 ++ beginC l p lab args :: (body ++ rest))) :
    BackAll (body.map (rebase1 (startL l p lab args))) := by
  intro lv hl
  refine ⟨sane_body (backAll_sane h) lv hl, ?_⟩
  rcases hl.head with rfl | ⟨inner, hc, hl⟩
  · intro l' p' lab' args' hm
    obtain ⟨l'', hm⟩ := mem_rebase hm
    exact (h _ .top).2 l'' p' lab' args' (by simp [hm])
  · refine (h lv (Checked.trans (.child .top ((child_rebase hc).mono ?_)) hl)).2
    intro c hc; simp [hc]

theorem back_args {args args'} (h : ArgsRel (fun a b => BackAll a → ∀ k, intoChunks k b = .ok (a.map (shift1 k))) args args')
    (hb : ∀ p inner sv, (p, Ast1.Scope.mk inner sv) ∈ args → BackAll inner) : intoArgs args' = .ok args := by
  induction h with
  | nil => simp [intoArgs]
  | @cons p i i' sv r r' h1 _ ih =>
    have := h1 (hb p i sv (by simp)) 0
    rw [map_shift_zero] at this
    simp only [intoArgs, intoScope, this, ih fun p i s hm => hb p i s (by simp [hm])]

theorem back_shape {d e} (h : Shape (fun a b => tryFrom a = .ok b ∧
      (BackAll a → ∀ k, intoChunks k b = .ok (a.map (shift1 k)))) d e)
    (hb : BackAll d) (k : Nat) : intoChunks k e = .ok (d.map (shift1 k)) := by
  induction h with
  | nil => rfl
  | text _ ih =>
    rw [List.map_append]
    exact intoChunks_append (ih (backAll_prefix hb)) (intoChunks_single (by simp [intoVariant, shift1]))
  | @scope d e l inner inner' sv h hr ih =>
    rw [List.map_append]
    refine intoChunks_append (ih (backAll_prefix hb)) (intoChunks_single ?_)
    have := hr.2 (backAll_child hb child_scope) 0
    rw [map_shift_zero] at this
    simp [intoVariant, shift1, intoScope, this]
  | @command d e l label args args' h h1 h2 h3 ih =>
    rw [List.map_append]
    refine intoChunks_append (ih (backAll_prefix hb)) (intoChunks_single ?_)
    have := back_args (h3.mono fun a b h => h.2) fun p i s hm => backAll_child hb (child_command h1 h2 hm)
    simp [intoVariant, shift1, intoCommand, this]
  | @env d e l p lab args args' body l' p' content h h1 h2 h3 h4 ih =>
    rw [List.map_append]
    refine intoChunks_append (ih (backAll_prefix hb)) (intoChunks_single ?_)
    have hargs := back_args (h1.mono fun a b h => h.2) fun _ i s hm => backAll_child hb (by
      simpa using child_env (pre := d) (l := l) (p := p) (lab := lab) (body := body) (post := [endC l' p' lab]) hm)
    obtain ⟨hs, hlab⟩ := hb _ .top
    obtain ⟨hn, hlab⟩ := hlab l p lab args (by simp)
    have hl : l = 1 + newlines (Ast1.displayChunks d) := hs.begin_exact rfl
    have hl' : l' = 1 + newlines (Ast1.displayChunks (d ++ beginC l p lab args :: body)) :=
      (hs (d ++ beginC l p lab args :: body) (endC l' p' lab) [] (by simp)).2.2 (by simp [Ast1.Chunk.variant]) (by simp [Ast1.Chunk.variant])
    simp only [Ast1.displayChunks_append, Ast1.displayChunks_cons, newlines_append, display_beginC, hn] at hl'
    have hc := h4.2 (backAll_body hb) (l + k - 1)
    have hd := display_tryFrom h4.1
    rw [display_rebase] at hd
    have hbody : (body.map (rebase1 (startL l p lab args))).map (shift1 (l + k - 1)) = body.map (shift1 k) := by
      rw [List.map_map]
      apply List.map_congr_left
      rintro ⟨lc, vc⟩ hm
      have := h3 _ hm
      simp only [startL, hn, Ast1.Chunk.lineNo] at this
      simp only [Function.comp, rebase1, shift1, startL, hn]
      congr 1
      omega
    rw [hbody] at hc
    have hn0 : newlines p + newlines (Ast1.displayChunks lab) + argNewlines args = 0 := by
      rw [← hn]; simp [argNewlines, Ast1.Scope.display]
    have ha : argNewlines2 args' = argNewlines args := by
      rw [argNewlines2_eq, argNewlines_eq, displayArgs_rel (h1.mono fun a b h => display_tryFrom h.1)]
    have hst : startL l p lab args = l := by simp [startL, hn]
    simp only [intoVariant, intoEnvironment, hst, hlab, hargs, hc, hd, ha]
    rw [if_neg (by omega)]
    simp only [List.map_cons, List.map_append, shift1, List.map_nil, List.singleton_append]
    congr 5
    omega

theorem back_tryFrom {d e} (h : tryFrom d = .ok e) (hb : BackAll d) (k : Nat) :
    intoChunks k e = .ok (d.map (shift1 k)) :=
  conv_induction' (P := fun d e => BackAll d → ∀ k, intoChunks k e = .ok (d.map (shift1 k)))
    (fun _ _ h hb k => back_shape h hb k) h hb k

/-! ### the outer loop -/

theorem toAst1Loop_eq {e : List Chunk} {xs} (h : intoChunks 0 e = .ok xs) (out : Ast1.Document) :
    toAst1Loop e out = .ok (xs.foldl Ast1.Document.pushChunkUnchecked out) := by
  induction e generalizing xs out with
  | nil => simp [intoChunks] at h; subst h; rfl
  | cons c e ih =>
    obtain ⟨l, v⟩ := c
    simp only [intoChunks, Nat.add_zero] at h
    simp only [toAst1Loop]
    cases h1 : intoVariant l v with
    | error f => simp [h1] at h
    | ok ys =>
      simp only [h1] at h ⊢
      cases h2 : intoChunks 0 e with
      | error f => simp [h2] at h
      | ok zs =>
        simp only [h2] at h
        cases h
        rw [ih h2]; simp

theorem toAst1_eq {e : List Chunk} {xs} (h : intoChunks 0 e = .ok xs) :
    toAst1 e = .ok (xs.foldl Ast1.Document.pushChunkUnchecked []) := toAst1Loop_eq h []

theorem foldl_push_nomerge (xs : List Ast1.Chunk)
    (h : ∀ pre post l l' t t', xs ≠ pre ++ .mk l (.text t) :: .mk l' (.text t') :: post) :
    xs.foldl Ast1.Document.pushChunkUnchecked [] = xs := by
  suffices ∀ ys a, xs = a ++ ys → ys.foldl Ast1.Document.pushChunkUnchecked a = xs from this xs [] rfl
  intro ys
  induction ys with
  | nil => intro a ha; simp [ha]
  | cons c ys ih =>
    intro a ha
    simp only [List.foldl_cons]
    have : Ast1.Document.pushChunkUnchecked a c = a ++ [c] := by
      obtain ⟨l, v⟩ := c
      cases v with
      | text t =>
        simp only [Ast1.Document.pushChunkUnchecked, Ast1.Chunk.variant]
        split
        · rename_i l' t' hl
          exfalso
          have h1 := eq_dropLast_append hl
          rw [h1] at ha
          exact h a.dropLast ys l' l t' t (by simp [ha])
        · rfl
      | scope s => rfl
      | command c => rfl
    rw [this]
    exact ih _ (by simp [ha])

theorem foldl_push_display (xs a : List Ast1.Chunk) :
    Ast1.displayChunks (xs.foldl Ast1.Document.pushChunkUnchecked a) = Ast1.displayChunks a ++ Ast1.displayChunks xs := by
  induction xs generalizing a with
  | nil => simp
  | cons c xs ih => simp [ih, Ast1.Document.pushChunkUnchecked_display, Ast1.displayChunks_cons]

/-! ### C47 -/

mutual
theorem Chunk.back_asAst2 (k : Nat) : ∀ c : Ast1.Chunk, intoChunks k [c.asAst2] = .ok [shift1 k c]
  | .mk l (.text t) => by simp [Ast1.Chunk.asAst2, Ast1.ChunkVariant.asAst2, intoChunks, intoVariant, shift1]
  | .mk l (.scope (.mk inner sv)) => by
    have := back_chunksAsAst2 0 inner
    rw [map_shift_zero] at this
    simp [Ast1.Chunk.asAst2, Ast1.ChunkVariant.asAst2, Ast1.Scope.asAst2, intoChunks, intoVariant, intoScope, shift1, this]
  | .mk l (.command (.mk label args)) => by
    have := back_argsAsAst2 args
    simp [Ast1.Chunk.asAst2, Ast1.ChunkVariant.asAst2, Ast1.Command.asAst2, intoChunks, intoVariant, intoCommand, shift1, this]
theorem back_chunksAsAst2 (k : Nat) : ∀ cs : List Ast1.Chunk, intoChunks k (Ast1.chunksAsAst2 cs) = .ok (cs.map (shift1 k))
  | [] => rfl
  | c :: cs => by
    have := intoChunks_append (Chunk.back_asAst2 k c) (back_chunksAsAst2 k cs)
    simpa [Ast1.chunksAsAst2] using this
theorem back_argsAsAst2 : ∀ args : List (Str × Ast1.Scope), intoArgs (Ast1.argsAsAst2 args) = .ok args
  | [] => rfl
  | (p, .mk inner sv) :: r => by
    have h1 := back_chunksAsAst2 0 inner
    rw [map_shift_zero] at h1
    have h2 := back_argsAsAst2 r
    simp [Ast1.argsAsAst2, Ast1.Scope.asAst2, intoArgs, intoScope, h1, h2]
end

theorem chunksAsAst2_append (a b : List Ast1.Chunk) :
    Ast1.chunksAsAst2 (a ++ b) = Ast1.chunksAsAst2 a ++ Ast1.chunksAsAst2 b := by
  induction a with
  | nil => rfl
  | cons c a ih => simp [Ast1.chunksAsAst2, ih]

theorem noDelims_child {d inner} (h : Ast1.NoDelimiters d) (hc : Child d inner) : Ast1.NoDelimiters inner := by
  intro label args hw
  cases hc with
  | scope h1 => exact h label args (.scope h1 hw)
  | arg h1 _ _ h4 => exact h label args (.arg h1 h4 hw)
  | beginArg h1 h2 => exact absurd rfl (h _ _ (.here h1)).1

theorem noDelims_level {d lv} (h : Ast1.NoDelimiters d) (hl : Checked d lv) : Ast1.NoDelimiters lv := by
  induction hl with
  | top => exact h
  | scope _ h1 ih => exact noDelims_child ih (.scope h1)
  | arg _ h1 h2 h3 h4 ih => exact noDelims_child ih (.arg h1 h2 h3 h4)
  | beginArg _ h1 h2 ih => exact noDelims_child ih (.beginArg h1 h2)

theorem noDelims_opened {d} (h : Ast1.NoDelimiters d) {pre post} (hd : d = pre ++ post) : Opened pre [] := by
  rcases List.eq_nil_or_concat pre with rfl | ⟨p, c, rfl⟩
  · exact .nil
  · rw [List.concat_eq_append] at hd ⊢
    refine .other (noDelims_opened h (pre := p) (post := c :: post) (by simp [hd])) ?_
    rintro ⟨label, args, hv, hl⟩
    obtain ⟨l, v⟩ := c
    simp only [Ast1.Chunk.variant] at hv
    subst hv
    have := h label args (.here (l := l) (by simp [hd]))
    rcases hl with hl | hl
    · exact this.1 hl
    · exact this.2 hl
termination_by pre.length
decreasing_by simp_all

theorem noDelims_ok {d} (h : Ast1.NoDelimiters d) : ∃ e, tryFrom d = .ok e := by
  cases hr : tryFrom d with
  | ok e => exact ⟨e, rfl⟩
  | error f =>
    exfalso
    cases f with
    | err e =>
      obtain ⟨lv, hl, hm⟩ := error_misnested hr
      exact Misnested.not_opened hm (noDelims_opened (noDelims_level h hl) (post := []) (by simp))
    | panic =>
      refine tryFrom_no_panic ?_ hr
      intro lv hl pre l args mid c post he
      exact absurd rfl (noDelims_level h hl _ _ (.here (l := l) (v := .command (.mk chars!"begin" args)) (by simp [he]))).1
    | fuel => exact tryFrom_fuel d hr

theorem asAst2_args {args args'} (h : ArgsRel (fun a b => Ast1.NoDelimiters a → b = Ast1.chunksAsAst2 a) args args')
    (hb : ∀ p inner sv, (p, Ast1.Scope.mk inner sv) ∈ args → Ast1.NoDelimiters inner) : args' = Ast1.argsAsAst2 args := by
  induction h with
  | nil => rfl
  | @cons p i i' sv r r' h1 _ ih =>
    rw [Ast1.argsAsAst2, ih fun p i s hm => hb p i s (by simp [hm]), h1 (hb p i sv (by simp)), Ast1.Scope.asAst2]

theorem noDelims_eq {d e} (h : tryFrom d = .ok e) (hd : Ast1.NoDelimiters d) : e = Ast1.chunksAsAst2 d := by
  refine conv_induction (P := fun d e => Ast1.NoDelimiters d → e = Ast1.chunksAsAst2 d) ?_ h hd
  intro d e hs hd
  have pre : ∀ {a b}, Ast1.NoDelimiters (a ++ b) → Ast1.NoDelimiters a := fun h label args hw =>
    h label args (hw.mono (by intro c hc; simp [hc]))
  induction hs with
  | nil => rfl
  | text _ ih => rw [chunksAsAst2_append, ← ih (pre hd)]; rfl
  | scope _ hr ih =>
    rw [chunksAsAst2_append, ← ih (pre hd), hr (noDelims_child hd child_scope)]; rfl
  | command _ h1 h2 h3 ih =>
    rw [chunksAsAst2_append, ← ih (pre hd), asAst2_args h3 fun p i s hm => noDelims_child hd (child_command h1 h2 hm)]; rfl
  | @env d e l p lab args args' body l' p' content _ h1 h2 h3 h4 ih =>
    exact absurd rfl (hd _ _ (.here (l := l) (v := .command (.mk chars!"begin" ((p, .mk lab .curly) :: args))) (by simp))).1

/-! ### C27 -/

theorem Level.trans {a b c} (h : Level a b) (h' : Level b c) : Level a c := by
  induction h' with
  | top => exact h
  | scope _ h1 ih => exact .scope ih h1
  | arg _ h1 h2 ih => exact .arg ih h1 h2
  | envArg _ h1 h2 ih => exact .envArg ih h1 h2
  | envContent _ h1 ih => exact .envContent ih h1

/-- The environments of one sequence have positive line numbers and labels that read as themselves. -/
def EnvsOk (lv : List Chunk) : Prop :=
  ∀ l label args content pb pe, .mk l (.environment (.mk label args content pb pe)) ∈ lv →
    1 ≤ l ∧ ∃ cs, Ast1.fromStr label = .ok cs ∧ Ast1.displayChunks cs = label

def EnvsAll (d : List Chunk) : Prop := ∀ lv, Level d lv → EnvsOk lv

theorem envsAll_child {d inner} (h : EnvsAll d) (hc : Child2 d inner) : EnvsAll inner :=
  fun lv hl => h lv (Level.trans (.child .top hc) hl)

theorem Child2.mono {a b inner} (h : Child2 a inner) (hs : ∀ c ∈ a, c ∈ b) : Child2 b inner := by
  cases h with
  | scope h1 => exact .scope (hs _ h1)
  | arg h1 h2 => exact .arg (hs _ h1) h2
  | envArg h1 h2 => exact .envArg (hs _ h1) h2
  | envContent h1 => exact .envContent (hs _ h1)

theorem envsAll_sub {a b} (h : EnvsAll b) (hs : ∀ c ∈ a, c ∈ b) : EnvsAll a := by
  intro lv hl
  rcases hl.head with rfl | ⟨inner, hc, hl⟩
  · exact fun l label args content pb pe hm => h _ .top l label args content pb pe (hs _ hm)
  · exact envsAll_child h (hc.mono hs) lv hl

mutual
theorem Chunk.into_display (k : Nat) : ∀ c : Chunk, EnvsAll [c] →
    ∃ xs, intoVariant (c.lineNo + k) c.variant = .ok xs ∧ Ast1.displayChunks xs = c.display
  | .mk l (.text t), _ => ⟨_, by simp only [Chunk.variant, intoVariant]; rfl, by
      simp [Ast1.displayChunks, Ast1.Chunk.display, Ast1.ChunkVariant.display, Chunk.display, ChunkVariant.display]⟩
  | .mk l (.scope (.mk inner sv)), h => by
    obtain ⟨xs, h1, h2⟩ := into_display 0 inner (envsAll_child h (.scope (List.mem_singleton.2 rfl)))
    refine ⟨_, by simp only [Chunk.variant, intoVariant, intoScope, h1]; rfl, ?_⟩
    simp [Ast1.displayChunks, Ast1.Chunk.display, Ast1.ChunkVariant.display, Chunk.display, ChunkVariant.display, Scope.display, Ast1.Scope.display, h2]
  | .mk l (.command (.mk label args)), h => by
    obtain ⟨xs, h1, h2⟩ := into_args_display args fun p i s hm => envsAll_child h (.arg (List.mem_singleton.2 rfl) hm)
    refine ⟨_, by simp only [Chunk.variant, intoVariant, intoCommand, h1]; rfl, ?_⟩
    simp [Ast1.displayChunks, Ast1.Chunk.display, Ast1.ChunkVariant.display, Chunk.display, ChunkVariant.display, Command.display, Ast1.Command.display, h2]
  | .mk l (.environment (.mk label args content pb pe)), h => by
    obtain ⟨hl, cs, hcs, hlab⟩ := h _ .top l label args content pb pe (List.mem_singleton.2 rfl)
    obtain ⟨as, h1, h2⟩ := into_args_display args fun p i s hm => envsAll_child h (.envArg (List.mem_singleton.2 rfl) hm)
    obtain ⟨ys, h3, h4⟩ := into_display (l + k - 1) content (envsAll_child h (.envContent (List.mem_singleton.2 rfl)))
    refine ⟨_, by
      simp only [Chunk.variant, Chunk.lineNo, intoVariant, intoEnvironment, h1, h3, hcs]
      rw [if_neg (by omega)], ?_⟩
    simp [Ast1.displayChunks, Ast1.Chunk.display, Ast1.ChunkVariant.display, Chunk.display, ChunkVariant.display, Environment.display, Ast1.Command.display, Ast1.displayArgs, Ast1.Scope.display, h2, h4, hlab, ScopeVariant.opening, ScopeVariant.closing]
theorem into_display (k : Nat) : ∀ cs : List Chunk, EnvsAll cs →
    ∃ xs, intoChunks k cs = .ok xs ∧ Ast1.displayChunks xs = displayChunks cs
  | [], _ => ⟨[], rfl, rfl⟩
  | c :: cs, h => by
    obtain ⟨xs, h1, h2⟩ := Chunk.into_display k c (envsAll_sub h (by simp))
    obtain ⟨ys, h3, h4⟩ := into_display k cs (envsAll_sub h (by intro c hc; simp [hc]))
    obtain ⟨l, v⟩ := c
    simp only [Chunk.lineNo, Chunk.variant] at h1
    exact ⟨xs ++ ys, by simp [intoChunks, h1, h3], by simp [displayChunks_cons, h2, h4]⟩
theorem into_args_display : ∀ args : List (Str × Scope),
    (∀ p inner sv, (p, Scope.mk inner sv) ∈ args → EnvsAll inner) →
    ∃ xs, intoArgs args = .ok xs ∧ Ast1.displayArgs xs = displayArgs args
  | [], _ => ⟨[], rfl, rfl⟩
  | (p, .mk inner sv) :: r, h => by
    obtain ⟨xs, h1, h2⟩ := into_display 0 inner (h p inner sv (by simp))
    obtain ⟨ys, h3, h4⟩ := into_args_display r fun p i s hm => h p i s (by simp [hm])
    refine ⟨(p, .mk xs sv) :: ys, by simp [intoArgs, intoScope, h1, h3], ?_⟩
    simp [displayArgs, Ast1.displayArgs, Scope.display, Ast1.Scope.display, h2, h4]
end

end LatexAst.Ast2

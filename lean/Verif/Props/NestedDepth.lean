import Verif.Proofs.NestedDepth
import Verif.Props.Depth
import Verif.Props.Nested

/-!
# How much deeper stage 3 nests than stage 2 (C123)
-/

namespace LatexAst.Ast3
open Spec

/-- C123: what stage 3 makes of chunks nested `n` deep is nested at most `4 * n + 3` deep: between two levels of the
chunks there are at most three formulas, and at most three more are at the bottom. -/
theorem C123 (cs : List Ast2.Chunk) (out : List Chunk) (h : mathsFromChunks cs = .ok out) (n : Nat)
    (hn : Ast2.NestedAtMost n cs) : NestedAtMost (4 * n + 3) out :=
  maths_bounded h hn

/-- So `4 * n + 4` calls nested in each other are enough for every sequence of chunks that is accepted: unlike in C67_bound,
however many dollars there are. -/
theorem C123_calls (cs : List Ast2.Chunk) (out : List Chunk) (h : mathsFromChunks cs = .ok out) (n : Nat)
    (hn : Ast2.NestedAtMost n cs) : mathsFuel (4 * n + 4) cs = .ok out :=
  (C67 cs out h _).1 (C123 cs out h n hn)

theorem tryArgs_mem {args : List (Str × Ast2.Scope)} {args'} (h : tryArgs mathsFromChunks args = .ok args') {p inner sv}
    (hm : (p, Scope.mk inner sv) ∈ args') : ∃ p' cs sv' out, (p', Ast2.Scope.mk cs sv') ∈ args ∧ mathsFromChunks cs = .ok out ∧ inner = paragraphs out := by
  induction args generalizing args' with
  | nil => cases h; cases hm
  | cons x r ih =>
    obtain ⟨p', cs, sv'⟩ := x
    simp only [tryArgs, tryScope] at h
    cases ho : mathsFromChunks cs with
    | error f => simp [ho] at h
    | ok out =>
      cases hr : tryArgs mathsFromChunks r with
      | error f => simp [ho, hr] at h
      | ok args =>
        simp [ho, hr] at h
        subst h
        rcases List.mem_cons.1 hm with he | hm
        · cases he
          exact ⟨_, _, _, _, .head _, ho, rfl⟩
        · obtain ⟨p', cs, sv', out, h1, h2⟩ := ih hr hm
          exact ⟨p', cs, sv', out, .tail _ h1, h2⟩

/-- The parts of a converted environment are nested less. -/
theorem environment_parts {l env l' env'} (h : mathsFromChunks [.mk l (.environment env)] = .ok [.mk l' (.environment env')]) {n}
    (hn : Ast2.NestedAtMost n [.mk l (.environment env)]) {i} (hi : Child3 [.mk l' (.environment env')] i) : NestedAtMost (4 * n - 1) i := by
  have fin : ∀ {cs out}, Ast2.Child2 [.mk l (.environment env)] cs → mathsFromChunks cs = .ok out → NestedAtMost (4 * n - 1) (paragraphs out) := by
    intro cs out hc ho k lv hl
    obtain ⟨m, rfl, hm⟩ := Ast2.nested_child hn hc
    have hd : DepthLt (4 * m + 4) (paragraphs out) := depthLt_paragraphs.2 fun k lv hl => Nat.lt_succ_of_le (C123 _ _ ho m hm k lv hl)
    have := hd k lv hl
    omega
  rw [maths_environment] at h
  obtain ⟨label, args, content, pb, pe⟩ := env
  simp only [tryEnvironment] at h
  cases ha : tryArgs mathsFromChunks args with
  | error f => simp [ha] at h
  | ok args' =>
    cases hc : mathsFromChunks content with
    | error f => simp [ha, hc] at h
    | ok out =>
      simp only [ha, hc, Except.ok.injEq, List.cons.injEq, Chunk.mk.injEq, ChunkVariant.environment.injEq, and_true] at h
      obtain ⟨rfl, rfl⟩ := h
      cases hi with
      | envContent hm => simp at hm; obtain ⟨_, _, _, rfl, _⟩ := hm; exact fin (.envContent (.head _)) hc
      | envArg hm hx =>
        simp at hm
        obtain ⟨_, _, rfl, _⟩ := hm
        obtain ⟨p', cs, sv', out', h1, h2, rfl⟩ := tryArgs_mem ha hx
        exact fin (.envArg (.head _) h1) h2
      | scope hm => simp at hm
      | arg hm _ => simp at hm
      | maths hm => simp at hm

/-- So for every part of whatever is read or converted; the document environment is one of the `n` levels. -/
theorem C123_document (e : Ast2.Document) (f : Document) (h : tryFrom e = .ok f) (n : Nat) (hn : Ast2.NestedAtMost n e) :
    NestedAtMost (4 * n + 3) f.preamable ∧ NestedAtMost (4 * n - 1) f.body ∧ NestedAtMost (4 * n + 3) f.trailing ∧
      ∀ p inner sv, (p, Scope.mk inner sv) ∈ f.bodyArgs → NestedAtMost (4 * n - 1) inner := by
  have sub : ∀ {cs : List Ast2.Chunk}, (∀ c ∈ cs, c ∈ e) → Ast2.NestedAtMost n cs := fun hs => (Ast2.Part.of_sub hs).nested hn
  cases (C57 _ _).1 h with
  | @document fpre fpost fargs fcontent fpb fpe fopts _ _ hpre htr hbd _ =>
    have bd : ∀ {a c l env}, bodiesOf e = a ++ [c] → Becomes [c] (.ok [.mk l (.environment env)]) → ∀ i,
        Child3 [.mk l (.environment env)] i → NestedAtMost (4 * n - 1) i := by
      intro a c l env hb hc i hi
      have hm : c ∈ bodiesOf e := by rw [hb]; simp
      have hm' : c ∈ e ∧ isBody c = true := by simpa [bodiesOf] using hm
      obtain ⟨l', args, content, pb, pe, rfl⟩ := isBody_cases hm'.2
      exact environment_parts (becomes_iff.1 hc) (sub fun d hd => by cases List.mem_singleton.1 hd; exact hm'.1) hi
    refine ⟨C123 _ _ (becomes_iff.1 hpre) _ (sub fun c hc => ?_), ?_, C123 _ _ (becomes_iff.1 htr) _ (sub fun c hc => ?_), ?_⟩
    · exact (List.takeWhile_sublist _).subset hc
    · cases hbd with
      | none hb => intro k lv hl; cases k with
        | zero => omega
        | succ k => obtain ⟨i, h1, h2⟩ := levelAt_head hl; obtain ⟨c, hc, _⟩ := child3_one h2; cases hc
      | last hb hc => exact bd hb hc _ (.envContent (.head _))
    · exact (List.dropWhile_sublist _).subset (List.filter_sublist.subset hc)
    · intro p inner sv hm
      cases hbd with
      | none hb => cases hm
      | last hb hc => exact bd hb hc _ (.envArg (.head _) hm)

/-- `\(\[$a$\]\)`, and with the same formulas in a scope in the innermost formula, and so on: `\(\[${...}$\]\)`. -/
def towers : Nat → List Ast2.Chunk
  | 0 => [.mk 1 (.command (.mk chars!"(" [])), .mk 1 (.command (.mk chars!"[" [])), .mk 1 (.text chars!"$a$"),
      .mk 1 (.command (.mk chars!"]" [])), .mk 1 (.command (.mk chars!")" []))]
  | n + 1 => [.mk 1 (.command (.mk chars!"(" [])), .mk 1 (.command (.mk chars!"[" [])), .mk 1 (.text chars!"$"),
      .mk 1 (.scope (.mk (towers n) .curly)), .mk 1 (.text chars!"$"),
      .mk 1 (.command (.mk chars!"]" [])), .mk 1 (.command (.mk chars!")" []))]

theorem towers_out (n : Nat) : ∃ out, Yields 0 (towers n) (.ok out) ∧ ∃ lv, LevelAt (paragraphs out) (4 * n + 3) lv := by
  have wrap : ∀ {I o}, (∀ k, ∀ c ∈ I, NotOfKind k c) → Yields 0 I (.ok o) →
      Yields 0 (.mk 1 (.command (.mk chars!"(" [])) :: ((.mk 1 (.command (.mk chars!"[" [])) :: (I ++ [.mk 1 (.command (.mk chars!"]" []))])) ++
        [.mk 1 (.command (.mk chars!")" []))])) (.ok [.mk 1 (.mathsBlock (.mk .brackets .inline (paragraphs
          [.mk 1 (.mathsBlock (.mk .brackets .outline (paragraphs o)))])))]) := by
    intro I o hI ho
    have ins : ∀ k (J : List Ast2.Chunk), (∀ c ∈ J, NotOfKind k c) → Inside k J J := by
      intro k J hJ
      induction J with
      | nil => exact .nil
      | cons c J ih => exact .other (hJ c (.head _)) (ih fun d hd => hJ d (.tail _ hd))
    have h1 := Yields.brackets (b := 0) (k := .outline) (l := 1) (args := []) (l' := 1) (args' := []) (ins .outline I (hI _)) ho .nil
    refine Yields.brackets (b := 0) (k := .inline) (l := 1) (args := []) (l' := 1) (args' := []) (ins .inline _ ?_) h1 .nil
    intro c hc
    rcases List.mem_cons.1 hc with rfl | hc
    · simp [NotOfKind, Ast2.Chunk.variant, openLabel, closeLabel]
    · rcases List.mem_append.1 hc with hc | hc
      · exact hI _ c hc
      · cases List.mem_singleton.1 hc
        simp [NotOfKind, Ast2.Chunk.variant, openLabel, closeLabel]
  have deep : ∀ {o k lv}, LevelAt (paragraphs o) k lv → LevelAt (paragraphs [.mk 1 (.mathsBlock (.mk .brackets .inline (paragraphs
          [.mk 1 (.mathsBlock (.mk .brackets .outline (paragraphs o)))])))]) (k + 2) lv := fun h =>
    levelAt_child (.maths (.head _)) (levelAt_child (.maths (.head _)) h)
  induction n with
  | zero =>
    refine ⟨_, wrap (I := [.mk 1 (.text chars!"$a$")]) (o := [.mk 1 (.mathsBlock (.mk .dollars .inline [.mk 1 (.text chars!"a")]))]) ?_ ?_, _,
      deep (levelAt_child (.maths (.head _)) .top)⟩
    · intro k c hc
      cases List.mem_singleton.1 hc
      simp [NotOfKind, Ast2.Chunk.variant, openLabel, closeLabel]
    · have := Yields.formula (b := 0) (l := 1) (q := []) (r := chars!"a$") (cs := []) (by simp)
        (.inline (.here (x := chars!"a") (r := []) (by decide)) (.inr (by simp))) (by simp [Countable, textIf2, Ast2.Chunk.lineNo])
        (.text (t := chars!"a") (l := 1) (by decide) .nil) (.text (by simp) .nil)
      exact this
  | succ n ih =>
    obtain ⟨out, h1, lv, h2⟩ := ih
    refine ⟨_, wrap (I := [.mk 1 (.text chars!"$"), .mk 1 (.scope (.mk (towers n) .curly)), .mk 1 (.text chars!"$")])
      (o := [.mk 1 (.mathsBlock (.mk .dollars .inline [.mk 1 (.scope (.mk (paragraphs out) .curly))]))]) ?_ ?_, _,
      deep (levelAt_child (.maths (.head _)) (levelAt_child (.scope (.head _)) h2))⟩
    · intro k c hc
      rcases hc with _ | ⟨_, _ | ⟨_, _ | ⟨_, hc⟩⟩⟩
      · simp [NotOfKind, Ast2.Chunk.variant, openLabel, closeLabel]
      · simp [NotOfKind, Ast2.Chunk.variant, openLabel, closeLabel]
      · simp [NotOfKind, Ast2.Chunk.variant, openLabel, closeLabel]
      · cases hc
    · have := Yields.formula (b := 0) (l := 1) (q := []) (r := []) (cs := [.mk 1 (.scope (.mk (towers n) .curly)), .mk 1 (.text chars!"$")]) (by simp)
        (.inline (.later (x := []) (ms := [.mk 1 (.scope (.mk (towers n) .curly))]) (l' := 1) (t := chars!"$") (rest := []) (by simp)
          (by simp [NotText, Ast2.Chunk.variant]) (.here (x := []) (r := []) (by simp))) (.inl (by simp)))
        (by simp [Countable, textIf2, Ast2.Chunk.lineNo]) (.scope (l := 1) h1 .nil) (.text (by simp) .nil)
      exact this

theorem towers_nested (n : Nat) : Ast2.NestedAtMost n (towers n) := by
  induction n with
  | zero =>
    intro k lv hl
    cases k with
    | zero => omega
    | succ k =>
      obtain ⟨i, h1, h2⟩ := Ast2.levelAt_head hl
      cases h2 with
      | scope hm => simp [towers] at hm
      | arg hm ha => simp [towers] at hm; grind
      | envArg hm ha => simp [towers] at hm
      | envContent hm => simp [towers] at hm
  | succ n ih =>
    intro k lv hl
    cases k with
    | zero => omega
    | succ k =>
      obtain ⟨i, h1, h2⟩ := Ast2.levelAt_head hl
      have : i = towers n := by
        cases h2 with
        | scope hm => simp [towers] at hm; grind
        | arg hm ha => simp [towers] at hm; grind
        | envArg hm ha => simp [towers] at hm
        | envContent hm => simp [towers] at hm
      subst this
      have := ih k lv h1
      omega

/-- No bound less than `4 * n + 3` will do, for any `n`, and no fewer than `4 * n + 4` nested calls; the hypotheses of C123 and
C123_calls are met, at every depth. -/
theorem C123_exact (n : Nat) : Ast2.NestedAtMost n (towers n) ∧ ∃ out, mathsFromChunks (towers n) = .ok out ∧
    NestedAtMost (4 * n + 3) out ∧ (∀ m, NestedAtMost m out → 4 * n + 3 ≤ m) ∧ mathsFuel (4 * n + 3) (towers n) = .error .fuel := by
  obtain ⟨out, h1, lv, h2⟩ := towers_out n
  have h3 : mathsFromChunks (towers n) = .ok (paragraphs out) := yields_iff.2 ⟨_, h1, rfl⟩
  refine ⟨towers_nested n, _, h3, C123 _ _ h3 n (towers_nested n), fun m hm => hm _ _ h2, ?_⟩
  refine (C67 _ _ h3 (4 * n + 2)).2 fun hn => ?_
  have := hn _ _ h2
  omega

/-- The hypotheses of C123_document are met by a document that is read: `\(\[${\(\[$a$\]\)}$\]\)` is nested one deep when its
environments are formed, and seven deep in the end. -/
theorem C123_source : ((Ast1.fromStr chars!"\\(\\[${\\(\\[$a$\\]\\)}$\\]\\)").toOption.bind (fun d => (Ast2.tryFrom d).toOption)) = some (towers 1) ∧
    (tryFrom (towers 1)).toOption.isSome = true := by
  decide +kernel

end LatexAst.Ast3

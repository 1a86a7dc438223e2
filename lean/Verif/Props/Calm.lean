import Verif.Proofs.Load3g
import Verif.Props.Load3
import Verif.Props.Validates

/-!
# C110: when loading panics
-/

namespace LatexAst.Ast2
open Spec

theorem level_sequence {e lv} (h : Level e lv) : ∃ b, Sequence e b lv := by
  induction h with
  | top => exact ⟨_, .top⟩
  | scope _ hm ih => obtain ⟨b, ih⟩ := ih; exact ⟨_, .scope ih hm⟩
  | arg _ hm ha ih => obtain ⟨b, ih⟩ := ih; exact ⟨_, .arg ih hm ha⟩
  | envArg _ hm ha ih => obtain ⟨b, ih⟩ := ih; exact ⟨_, .envArg ih hm ha⟩
  | envContent _ hm ih => obtain ⟨b, ih⟩ := ih; exact ⟨_, .envContent ih hm⟩

/-- The lines in a parsed document. -/
theorem ruled_parsed {s e} (h : fromStr s = .ok e) {lv} (hl : Level e lv) {pre l v post} (he : lv = pre ++ .mk l v :: post) : Ruled l v post := by
  obtain ⟨b, hs⟩ := level_sequence hl
  refine ⟨fun ⟨t, ht⟩ => (level_lines h hl (c := .mk l v) (by rw [he]; simp)).1, ?_⟩
  intro hv mid l' t post' hp hb
  subst hp
  have h1 := (C84_exact s e h b lv hs (pre ++ .mk l v :: mid) (.mk l' (.text t)) post' (by rw [he]; simp)).2.2.2
    (by rintro ⟨_, h⟩; cases h) (by rintro ⟨_, h⟩; cases h) (by rintro ⟨_, h1, _, _, h2, _⟩; cases h1; exact hb h2)
  have h2 := C84_exact s e h b lv hs pre (.mk l v) _ he
  have h3 : l = 1 + (displayChunks pre).count '\n' + v.late := by
    cases v with
    | text t => exact absurd rfl (hv t)
    | scope sc => exact h2.2.2.2 (by rintro ⟨_, h⟩; cases h) (by rintro ⟨_, h⟩; cases h) (by rintro ⟨_, h, _⟩; cases h)
    | environment x => obtain ⟨label, args, content, pb, pe⟩ := x; exact h2.2.1 label args content pb pe rfl
    | command c =>
      obtain ⟨label, args⟩ := c
      by_cases hlb : label = ['\n']
      · subst hlb; exact h2.1 ⟨args, rfl⟩
      · have := h2.2.2.2 (by rintro ⟨_, h⟩; cases h; exact hlb rfl) (by rintro ⟨_, h⟩; cases h) (by rintro ⟨_, h, _⟩; cases h)
        simpa [ChunkVariant.late, hlb, Chunk.lineNo] using this
  simp only [Chunk.lineNo] at h1
  rw [displayChunks_append, List.count_append] at h1
  omega

theorem level_cons {c cs lv} (h : Level cs lv) : lv = cs ∨ Level (c :: cs) lv := by
  induction h with
  | top => exact .inl rfl
  | scope _ hm ih => rcases ih with rfl | ih; exact .inr (.scope .top (.tail _ hm)); exact .inr (.scope ih hm)
  | arg _ hm ha ih => rcases ih with rfl | ih; exact .inr (.arg .top (.tail _ hm) ha); exact .inr (.arg ih hm ha)
  | envArg _ hm ha ih => rcases ih with rfl | ih; exact .inr (.envArg .top (.tail _ hm) ha); exact .inr (.envArg ih hm ha)
  | envContent _ hm ih => rcases ih with rfl | ih; exact .inr (.envContent .top (.tail _ hm)); exact .inr (.envContent ih hm)

theorem level_within_scope {c lv l inner sv} {cs : List Chunk} (h : Level inner lv) (hc : c = .mk l (.scope (.mk inner sv))) : Level (c :: cs) lv := by
  subst hc
  induction h with
  | top => exact .scope .top (.head _)
  | scope _ hm ih => exact .scope ih hm
  | arg _ hm ha ih => exact .arg ih hm ha
  | envArg _ hm ha ih => exact .envArg ih hm ha
  | envContent _ hm ih => exact .envContent ih hm

/-- Every chunk of every sequence is in order. -/
def AllRuled (cs : List Chunk) : Prop := ∀ lv, Level cs lv → ∀ pre l v post, lv = pre ++ .mk l v :: post → Ruled l v post

theorem AllRuled.tail {c cs} (h : AllRuled (c :: cs)) : AllRuled cs := by
  intro lv hl pre l v post he
  rcases level_cons (c := c) hl with rfl | hl
  · exact h _ .top (c :: pre) l v post (by rw [he]; rfl)
  · exact h lv hl pre l v post he

theorem AllRuled.inner {cs inner} (h : AllRuled cs) (hi : ∀ lv, Level inner lv → Level cs lv) : AllRuled inner :=
  fun lv hl => h lv (hi lv hl)

theorem level_join {cs inner lv} (h : Level cs inner) (hl : Level inner lv) : Level cs lv := by
  induction hl with
  | top => exact h
  | scope _ hm ih => exact .scope ih hm
  | arg _ hm ha ih => exact .arg ih hm ha
  | envArg _ hm ha ih => exact .envArg ih hm ha
  | envContent _ hm ih => exact .envContent ih hm

mutual
theorem lined_variant {cs : List Chunk} (h : AllRuled cs) {l} : ∀ v : ChunkVariant, .mk l v ∈ cs → v.Lined
  | .text _, _ => trivial
  | .scope (.mk inner sv), hm => lined_seq inner (h.inner fun _ hl => level_join (.scope .top hm) hl)
  | .command (.mk label args), hm => lined_args args fun x hx => h.inner fun _ hl => by
      obtain ⟨p, ⟨i, sv⟩⟩ := x
      exact level_join (.arg .top hm hx) hl
  | .environment (.mk label args content pb pe), hm =>
    ⟨lined_args args fun x hx => h.inner fun _ hl => by
      obtain ⟨p, ⟨i, sv⟩⟩ := x
      exact level_join (.envArg .top hm hx) hl, lined_seq content (h.inner fun _ hl => level_join (.envContent .top hm) hl)⟩
theorem lined_args : ∀ args : List (Str × Scope), (∀ x ∈ args, AllRuled x.2.chunks) → LinedArgs args
  | [], _ => trivial
  | (_, .mk inner _) :: r, h => ⟨lined_seq inner (h _ (.head _)), lined_args r fun x hx => h x (.tail _ hx)⟩
theorem lined_seq : ∀ cs : List Chunk, AllRuled cs → LinedSeq cs
  | [], _ => trivial
  | .mk l v :: cs, h => ⟨lined_variant h v (.head _), lined_seq cs h.tail, h _ .top [] l v cs rfl⟩
end

theorem lined_parsed {s e} (h : fromStr s = .ok e) : LinedSeq e := lined_seq e fun _ hl _ _ _ _ he => ruled_parsed h hl he

end LatexAst.Ast2

namespace LatexAst.Ast3
open Spec

theorem maths_calm {out ds} (h : Recognisable out) (hn : Ast2.NeatSeq ds) (hl : Ast2.LinedSeq ds) (he : Ast2.atoms ds = atoms out) :
    (∃ o, mathsFromChunks ds = .ok o) ↔ Calm out := by
  obtain ⟨o, ho⟩ := yields_total 0 ds
  rw [yields_iff.2 ⟨o, ho, rfl⟩, ← h.safe.seq hn hl he ho]
  cases o <;> simp [Goes, inParagraphs]

theorem args_calm {out : List (Str × Scope)} {args : List (Str × Ast2.Scope)} (h : ∀ x ∈ out, Recognisable x.2.chunks)
    (hn : ∀ x ∈ args, Ast2.NeatSeq x.2.chunks) (hl : ∀ x ∈ args, Ast2.LinedSeq x.2.chunks) (he : Ast2.argAtoms args = argAtoms out) :
    (∃ a, tryArgs mathsFromChunks args = .ok a) ↔ ∀ x ∈ out, Calm x.2.chunks := by
  obtain ⟨items, rfl, hi⟩ := yield_items (args := args) fun x _ => yields_total 0 x.2.chunks
  rw [tryArgs_items fun x hx => yields_iff.2 ⟨_, hi x hx, rfl⟩]
  exact Safe.args (fun x hx => (h x hx).safe) (fun x hx => hn x.1 (List.mem_map.2 ⟨x, hx, rfl⟩))
    (fun x hx => hl x.1 (List.mem_map.2 ⟨x, hx, rfl⟩)) he hi

theorem loads_iff {f : Document} (h : Loadable f) : (∃ f', fromStr f.display = .ok f') ↔ f.Calm := by
  obtain ⟨e, he, hse⟩ := h.stage2
  rw [display_spelled h.blanks] at he
  have hlined := Ast2.lined_parsed he
  have hat := (Ast2.same_atoms hse).symm.trans (atoms_document f)
  have hneat := Ast2.same_neat hse (neat_document f)
  obtain ⟨pre, l, v, post, rfl, a1, a2, _, a4⟩ := Ast2.split_node (atoms_environment_node _ _ _ _ _) (show _ = _ ++ _ :: _ from hat)
  obtain ⟨args, content, rfl, a5, a6⟩ := Ast2.environment_of_atom a2
  obtain ⟨n1, n2⟩ := Ast2.neat_append hneat
  have n3 : Ast2.NeatArgs args ∧ Ast2.NeatSeq content := n2.1
  have n4 := n2.2.1
  have l1 := Ast2.lined_prefix hlined
  have l2 := Ast2.lined_suffix hlined
  have l3 : Ast2.LinedArgs args ∧ Ast2.LinedSeq content := l2.1
  have b1 : Ast2.atoms (spelled f.preamable) = Ast2.atoms pre := by rw [atoms_spelled, a1]
  have b4 : Ast2.atoms (spelled f.trailing) = Ast2.atoms post := by rw [atoms_spelled, a4]
  have hb1 := isBody_same b1 fun c hc => h.one c (.inl hc)
  have hb2 := isBody_same b4 fun c hc => h.one c (.inr hc)
  have hrun : fromStr f.display = tryFrom (pre ++ .mk l (.environment (.mk chars!"document" args content f.bodyBeginPrec f.bodyEndPrec)) :: post) := by
    simp only [fromStr, he]
  rw [hrun, tryFrom_body hb1 hb2 (classesOk_same b1 h.classes)]
  unfold Document.Calm
  rw [← maths_calm h.preamble n1 l1 a1, ← args_calm h.bodyArgs ((Ast2.neatArgs_iff _).1 n3.1) ((Ast2.linedArgs_iff _).1 l3.1) a5,
    ← maths_calm h.body n3.2 l3.2 a6, ← maths_calm h.trailing n4 l2.2.1 a4]
  cases tryArgs mathsFromChunks args with
  | error x => simp
  | ok x =>
    cases mathsFromChunks content with
    | error x => simp
    | ok x =>
      cases mathsFromChunks pre with
      | error x => simp
      | ok x =>
        cases mathsFromChunks post with
        | error x => simp
        | ok x => simp

/-- C110: which stage-3 documents survive saving and loading, exactly, without reference to the parser at stage 3: those that are loadable and
whose formulas in dollar signs are calm. -/
theorem C110_exact (f : Document) : Survives f ↔ Loadable f ∧ f.Calm := by
  rw [C110]
  constructor
  · rintro ⟨h1, h2⟩
    refine ⟨h2, (loads_iff h2).1 ?_⟩
    obtain ⟨f', h, _⟩ := (C110 f).2 ⟨h1, h2⟩
    exact ⟨f', h⟩
  · rintro ⟨h1, h2⟩
    obtain ⟨f', h⟩ := (loads_iff h1).2 h2
    refine ⟨?_, h1⟩
    rw [h]; intro h; cases h

/-- C110: loading a document that is loadable panics exactly if one of its formulas in dollar signs is not calm. -/
theorem C110_panics (f : Document) (h : Loadable f) : fromStr f.display = .error .panic ↔ ¬ f.Calm := by
  rw [← loads_iff h]
  constructor
  · rintro h1 ⟨f', h2⟩; rw [h1] at h2; cases h2
  · intro h1
    rcases C110_otherwise f h with ⟨f', h2, _⟩ | h2
    · exact absurd ⟨f', h2⟩ h1
    · exact h2

/-- A document whose body is a formula in dollar signs with this scope in it. -/
def scopeInDollars (c : Chunk) : Document :=
  withBodyOnly [.mk 1 (.mathsBlock (.mk .dollars .inline [.mk 1 (.scope (.mk [c] .curly))]))]

/-- C110: how many newlines a formula in dollar signs may contain: `${` newline `}$` survives, and so does `${a}$` with a text of three lines after the scope, so they are calm;
with two newlines in the scope the document is not calm. -/
theorem C110_exact_example :
    builtByHand.Calm ∧ (scopeInDollars (.mk 1 (.text chars!"\n"))).Calm ∧
    (withBodyOnly [.mk 1 (.mathsBlock (.mk .dollars .inline
      [.mk 1 (.scope (.mk [.mk 1 (.text chars!"a")] .curly)), .mk 1 (.text chars!"b\nc\nd")]))]).Calm ∧
    ¬ (scopeInDollars (.mk 1 (.paragraphBreak chars!"\n\n"))).Calm := by
  refine ⟨((C110_exact _).1 C110_example.1).2, ((C110_exact _).1 ((survives_comesBack _).2 (by decide +kernel))).2,
    ((C110_exact _).1 ((survives_comesBack _).2 (by decide +kernel))).2, fun h => ?_⟩
  have := h.2.2.1 .inline [.mk 1 (.scope (.mk [.mk 1 (.paragraphBreak chars!"\n\n")] .curly))] (.here (.head _))
    [] (.mk 0 (.scope (.mk [.mk 0 (.text chars!"\n\n")] .curly))) [] (by decide +kernel)
  revert this
  decide +kernel

end LatexAst.Ast3

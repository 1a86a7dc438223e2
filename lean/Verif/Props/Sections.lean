import Verif.Props.DocumentRule
import Verif.Props.Documents

/-! # The sections of a document with any number of document environments (C45) -/

namespace LatexAst.Ast3
open Spec

theorem maths_environment_ok {l label args content pb pe env} {l' : Nat}
    (h : mathsFromChunks [.mk l (.environment (.mk label args content pb pe))] = .ok [.mk l' (.environment env)]) :
    ∃ as cs, tryArgs mathsFromChunks args = .ok as ∧ mathsFromChunks content = .ok cs ∧
      env = .mk label as (paragraphs cs) pb pe := by
  rw [mathsFromChunks_eq] at h
  simp only [mathsLevel, runMaths, stepMaths, MState.init, if_true, tryEnvironment] at h
  cases h1 : tryArgs mathsFromChunks args with
  | error f => rw [h1] at h; cases h
  | ok as =>
    rw [h1] at h
    simp only at h
    cases h2 : mathsFromChunks content with
    | error f => rw [h2] at h; cases h
    | ok cs =>
      rw [h2] at h
      simp [finishMaths, paragraphs, paragraphChunk] at h
      exact ⟨as, cs, rfl, rfl, h.2.symm⟩

theorem fixed_paragraphs {cs out} (h : mathsFromChunks cs = .ok out) : paragraphs out = out := by
  rw [mathsFromChunks_eq] at h
  unfold mathsLevel at h
  split at h
  · cases h
  · unfold finishMaths at h
    split at h
    · cases h
    · injection h with h; rw [← h, paragraphs_idem]

theorem tryArgs_each {args : List (Str × Ast2.Scope)} {as} (h2 : tryArgs mathsFromChunks args = .ok as) :
    as.length = args.length ∧ ∀ i (hi : i < args.length) (hi' : i < as.length) p inner sv, args[i] = (p, .mk inner sv) →
      ∃ cs, mathsFromChunks inner = .ok cs ∧ as[i] = (p, .mk cs sv) := by
  have key : Post (tryArgs mathsFromChunks args) (fun r => r.length = args.length ∧
      ∀ i (hi : i < args.length) (hi' : i < r.length) p inner sv, args[i] = (p, .mk inner sv) →
      ∃ cs, mathsFromChunks inner = .ok cs ∧ r[i] = (p, .mk cs sv)) (fun _ => True) := by
    refine post_args (args := args) (Q := fun a r => r.length = a.length ∧
      ∀ i (hi : i < a.length) (hi' : i < r.length) p inner sv, a[i] = (p, .mk inner sv) →
      ∃ cs, mathsFromChunks inner = .ok cs ∧ r[i] = (p, .mk cs sv)) ⟨rfl, by intro i hi; simp at hi⟩ ?_
    intro p inner sv r hm
    cases hr : mathsFromChunks inner with
    | error f => trivial
    | ok out =>
      rintro r' ⟨g1, g2⟩
      refine ⟨by simp [g1], ?_⟩
      intro i hi hi' q inner' sv' he
      cases i with
      | zero =>
        simp at he
        obtain ⟨rfl, rfl, rfl⟩ := he
        exact ⟨out, hr, by simp [mathsFromChunks_split hr]⟩
      | succ i =>
        exact g2 i (by simpa using hi) (by simpa using hi') q inner' sv' (by simpa using he)
  rw [h2] at key
  exact key

/-- C45 for documents with document environments, however many: the preamable is what precedes the first, the body is
the content of the last, whose arguments and blanks are kept, and trailing is everything else that follows the first.
So nothing but the document environments before the last is lost. Missing: those are (`C45_false`). -/
theorem C45_many_partial (pre mid post : List Ast2.Chunk) (l : Nat) (args : List (Str × Ast2.Scope))
    (content : List Ast2.Chunk) (pb pe : Str) (f : Document)
    (h : tryFrom (pre ++ (mid ++ .mk l (.environment (.mk chars!"document" args content pb pe)) :: post)) = .ok f)
    (hpre : ∀ c ∈ pre, isBody c = false) (hmid : ∀ c ∈ mid.head?, isBody c = true) (hpost : ∀ c ∈ post, isBody c = false) :
    mathsFromChunks pre = .ok f.preamable ∧ mathsFromChunks content = .ok f.body ∧
    mathsFromChunks (mid.filter (fun c => !isBody c) ++ post) = .ok f.trailing ∧
    f.bodyBeginPrec = pb ∧ f.bodyEndPrec = pe ∧ f.bodyArgs.length = args.length ∧
    ∀ i (hi : i < args.length) (hi' : i < f.bodyArgs.length) p inner sv, args[i] = (p, .mk inner sv) →
      ∃ cs, mathsFromChunks inner = .ok cs ∧ f.bodyArgs[i] = (p, .mk cs sv) := by
  have hfirst : ∃ c r, mid ++ .mk l (.environment (.mk chars!"document" args content pb pe)) :: post = c :: r ∧ isBody c = true := by
    cases mid with
    | nil => exact ⟨_, _, rfl, rfl⟩
    | cons c r => exact ⟨c, _, rfl, hmid c rfl⟩
  obtain ⟨c, r, hcr, hcb⟩ := hfirst
  have h1 : preambleOf (pre ++ (c :: r)) = pre := by
    rw [preambleOf, List.takeWhile_append_of_pos (by simpa using hpre)]
    simp [hcb]
  have hnb : ∀ x : List Ast2.Chunk, (∀ c ∈ x, isBody c = false) → x.filter (fun c => !isBody c) = x ∧ x.filter isBody = [] := by
    intro x hx
    exact ⟨List.filter_eq_self.2 (by simpa using hx), List.filter_eq_nil_iff.2 (by simpa using hx)⟩
  have hbt : ∀ c, isBody (.mk l (.environment (.mk chars!"document" args content pb pe))) = c → c = true := by
    intro c h; rw [← h]; rfl
  have h2 : trailingOf (pre ++ (c :: r)) = mid.filter (fun c => !isBody c) ++ post := by
    rw [trailingOf, List.dropWhile_append_of_pos (by simpa using hpre), List.dropWhile_cons_of_neg (by simp [hcb]), ← hcr,
      List.filter_append, List.filter_cons_of_neg (by rw [show isBody _ = true from rfl]; simp), (hnb post hpost).1]
  have h3 : bodiesOf (pre ++ (c :: r)) = mid.filter isBody ++ [.mk l (.environment (.mk chars!"document" args content pb pe))] := by
    rw [bodiesOf, List.filter_append, (hnb pre hpre).2, ← hcr, List.filter_append, List.filter_cons_of_pos rfl, (hnb post hpost).2]
    rfl
  rw [hcr] at h
  have hr := (C57 _ _).1 h
  cases hr with
  | document _ _ hp ht hb _ =>
    rw [h1] at hp
    rw [h2] at ht
    cases hb with
    | none hb => rw [h3] at hb; simp at hb
    | last hb hc =>
      rw [h3] at hb
      obtain ⟨_, hb⟩ := List.append_inj' hb rfl
      cases hb
      obtain ⟨as, cs, g1, g2, g3⟩ := maths_environment_ok (becomes_iff.1 hc)
      cases g3
      rw [fixed_paragraphs g2]
      exact ⟨becomes_iff.1 hp, g2, becomes_iff.1 ht, rfl, rfl, tryArgs_each g1⟩

/-- Non-vacuity: three document environments. -/
example : ∃ f, tryFrom ([.mk 1 (.text chars!"p")] ++
      ([.mk 1 (.environment (.mk chars!"document" [] [.mk 1 (.text chars!"a")] [] [])), .mk 1 (.text chars!"q"),
        .mk 1 (.environment (.mk chars!"document" [] [.mk 1 (.text chars!"b")] [] []))] ++
      .mk 1 (.environment (.mk chars!"document" [] [.mk 1 (.text chars!"c$x$")] [] chars!" ")) :: [.mk 1 (.text chars!"r")])) = .ok f ∧
    f.trailing = [.mk 1 (.text chars!"q"), .mk 1 (.text chars!"r")] ∧ f.bodyEndPrec = chars!" " := by
  refine ⟨_, rfl, ?_, ?_⟩ <;> decide +kernel

end LatexAst.Ast3

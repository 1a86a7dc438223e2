import Verif.Props.Slides
import Verif.Props.PrintsBack3

/-!
# What stage 3 does to the text of any document (C117), and exactly when it keeps it (C86)
-/

namespace LatexAst.Ast3
open Spec

/-- Whatever has been read, with however many document environments: the printed document is the text of its sections in
which dollar signs have moved right and backslashed brackets have been dropped. -/
theorem C117_all (s : Str) (e : Ast2.Document) (f : Document) (hs : Ast2.fromStr s = .ok e) (h : fromStr s = .ok f) :
    Slides (sectionsText e) f.display := by
  have h' : tryFrom e = .ok f := by simpa [fromStr, hs] using h
  have hb := Ast2.bareDelims_parsed hs
  rw [Ast2.allChunks_iff_forall] at hb
  have hsub : ∀ cs : List Ast2.Chunk, (∀ c ∈ cs, c ∈ e) → Ast2.AllChunks BareDelims cs := by
    intro cs hcs
    rw [Ast2.allChunks_iff_forall]
    exact fun c hc => hb c (hcs c hc)
  cases (C57 _ _).1 h' with
  | @document fpre fpost fargs fcontent fpb fpe fopts _ _ hpre htr hbd _ =>
    have k1 : Slides (Ast2.displayChunks (preambleOf e)) _ := maths_slides (hsub _ fun c hc => (List.takeWhile_sublist _).subset hc) (becomes_iff.1 hpre)
    have k2 : Slides (Ast2.displayChunks (trailingOf e)) _ := maths_slides (hsub _ fun c hc => (List.dropWhile_sublist _).subset (List.filter_sublist.subset hc)) (becomes_iff.1 htr)
    rw [display_document]
    unfold sectionsText
    cases hbd with
    | none hn =>
      rw [hn]
      refine (Slides.of_eq ?_).trans ((k1.append (k2.front chars!"\\begin{document}\\end{document}")).trans (.of_eq ?_))
      · simp only [List.getLast?_nil, List.append_assoc]
      · simp [displayArgs, displayChunks]
    | @last x c l env hl hc =>
      have hm : c ∈ e ∧ isBody c = true := by
        have : c ∈ bodiesOf e := by rw [hl]; simp
        simpa [bodiesOf] using this
      obtain ⟨l, args, content, pb, pe, rfl⟩ := isBody_iff.1 hm.2
      obtain ⟨args', cs, g1, g2, g3⟩ := maths_environment_ok (becomes_iff.1 hc)
      cases g3
      rw [fixed_paragraphs g2, hl]
      obtain ⟨_, hb2, hb3⟩ := hb _ hm.1
      have k3 := maths_slides hb3 g2
      have k4 : Slides (Ast2.displayArgs args) (displayArgs fargs) := by
        refine displayArgs_rel3 g1 (F := fun x y => Slides y x) .none ?_ ?_
        · intro p sv x y r r' g1 g2
          exact ((((g1.back [sv.closing]).front [sv.opening]).front p).append g2 |> fun h => by simpa using h)
        · intro p inner sv out hm ho
          exact maths_slides ((Ast2.allArgs_iff_forall _).1 hb2 _ hm) ho
      simp only [List.getLast?_append, List.getLast?_singleton, Option.some_or, List.append_assoc]
      exact k1.append (Slides.front (Slides.front (Slides.front (k4.append (k3.append (Slides.front (Slides.front (Slides.front k2 _) _) _))) _) _) _)

/-- C86, for whatever has been read: printing at stage 3 gives the text of stage 2 if and only if there is exactly one document
environment, with the same blanks after its `\begin` and its `\end`, in and around which all maths is kept. -/
theorem C86_kept (s : Str) (e : Ast2.Document) (f : Document) (hs : Ast2.fromStr s = .ok e) (h : fromStr s = .ok f) :
    f.display = Ast2.displayChunks e ↔ KeptByStage3 e := by
  have hf : tryFrom e = .ok f := by simpa [fromStr, hs] using h
  constructor
  case mpr =>
    rintro ⟨pre, post, l, args, content, pb, rfl, g2, g3, hk⟩
    exact (C35_exact_partial pre post l args content pb f hf g2 g3).2 hk
  case mp =>
  intro hd
  have hcount := display_counts hs hf
  rw [hd] at hcount
  have hone : ∃ l args content pb pe, bodiesOf e = [.mk l (.environment (.mk chars!"document" args content pb pe))] ∧ Blank pb ∧ Blank pe := by
    rcases hcount 'd' with ⟨_, h1⟩ | ⟨x, l, args, content, pb, pe, hb, b1, b2, h1⟩
    · have := h1.2 (by decide)
      simp at this
    · have h2 : pb.count 'd' = 0 := List.count_eq_zero.2 fun hm => absurd (b1 _ hm) (by decide)
      have h3 : pe.count 'd' = 0 := List.count_eq_zero.2 fun hm => absurd (b2 _ hm) (by decide)
      have h4 := h1.2 (by decide)
      have h5 : (Ast2.displayChunks x).count 'd' = 0 := by omega
      cases x with
      | nil => exact ⟨l, args, content, pb, pe, hb, b1, b2⟩
      | cons c x =>
        have hc : isBody c = true := by
          have : c ∈ bodiesOf e := by rw [hb]; simp
          exact (List.mem_filter.1 this).2
        obtain ⟨_, _, _, _, _, rfl⟩ := isBody_iff.1 hc
        rw [Ast2.displayChunks, display_body2] at h5
        simp at h5
  obtain ⟨l, args, content, pb, pe, hb, b1, b2⟩ := hone
  obtain ⟨pre, post, rfl, hpre, -, hpost⟩ := List.filter_eq_cons_iff.1 hb
  rw [List.filter_eq_nil_iff] at hpost
  have hpre : ∀ c ∈ pre, isBody c = false := fun c hc => by simpa using hpre c hc
  have hpost : ∀ c ∈ post, isBody c = false := fun c hc => by simpa using hpost c hc
  have hperm : pb.length = pe.length := by
    refine List.Perm.length_eq (List.perm_iff_count.2 fun a => ?_)
    by_cases ha : DelimChar a
    · have hw : isWhitespace a = false := by
        unfold DelimChar at ha
        simp only [List.mem_cons, List.not_mem_nil, or_false] at ha
        rcases ha with rfl | rfl | rfl | rfl | rfl <;> decide
      rw [List.count_eq_zero.2 fun hm => by simpa [hw] using b1 _ hm, List.count_eq_zero.2 fun hm => by simpa [hw] using b2 _ hm]
    · rcases hcount a with ⟨hn, _⟩ | ⟨x, l', args', content', pb', pe', hb', _, _, h1⟩
      · rw [hn] at hb; cases hb
      · rw [hb] at hb'
        obtain ⟨hx, hc⟩ := List.append_inj' (show [] ++ [_] = x ++ [_] from hb') rfl
        subst hx
        cases hc
        have := h1.2 ha
        simp only [Ast2.displayChunks, List.count_nil] at this
        omega
  have hpb : pb = pe := by
    obtain ⟨pre', args', content', post', h1, h2, h3, h4, rfl⟩ := sections_body hf hpre hpost
    have k2 := (tryArgs_keeps h2).1
    have l1 := mathsFromChunks_le h1
    have l3 := mathsFromChunks_le h3
    have l4 := mathsFromChunks_le h4
    rw [display_document, display2_append, Ast2.displayChunks, display_body2] at hd
    simp only [List.append_assoc] at hd
    have e1 := append_eq_of_le hd l1 (by simp; omega)
    have e2 := e1.2
    simp only [List.append_cancel_left_eq] at e2
    have e2 := append_eq_of_le e2 k2 (by simp; omega)
    have e3 := append_eq_of_le e2.2 l3 (by simp; omega)
    have e4 := e3.2
    simp only [List.append_cancel_left_eq] at e4
    exact (List.append_inj e4 hperm).1
  subst hpb
  exact ⟨pre, post, l, args, content, pb, rfl, hpre, hpost, (C35_exact_partial pre post l args content pb f hf hpre hpost).1 hd⟩

end LatexAst.Ast3

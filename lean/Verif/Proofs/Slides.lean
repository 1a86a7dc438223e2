import Verif.Spec.Slides
import Verif.Proofs.Settle
import Verif.Proofs.MathsCount
import Verif.Proofs.KeepsText
import Verif.Proofs.Again3c
import Verif.Proofs.Document3Facts
import Verif.Proofs.DocumentRule

/-!
# Stage 3 only slides dollar signs to the right and drops delimiters
-/

namespace LatexAst.Spec

theorem Slide.front {s t} (h : Slide s t) (a : Str) : Slide (a ++ s) (a ++ t) := by
  cases h with
  | @moved c u x v h => simpa using Slide.moved (u := a ++ u) (x := x) (v := v) h
  | @dropped d u v h => simpa using Slide.dropped (u := a ++ u) (v := v) h

theorem Slide.back {s t} (h : Slide s t) (b : Str) : Slide (s ++ b) (t ++ b) := by
  cases h with
  | @moved c u x v h => simpa using Slide.moved (u := u) (x := x) (v := v ++ b) h
  | @dropped d u v h => simpa using Slide.dropped (u := u) (v := v ++ b) h

theorem Slides.trans {s t r} (h : Slides s t) (h' : Slides t r) : Slides s r := by
  induction h with
  | none => exact h'
  | one h1 _ ih => exact .one h1 (ih h')

theorem Slides.of_eq {s t : Str} (h : s = t) : Slides s t := h ▸ .none

theorem Slides.front {s t} (h : Slides s t) (a : Str) : Slides (a ++ s) (a ++ t) := by
  induction h with
  | none => exact .none
  | one h1 _ ih => exact .one (h1.front a) ih

theorem Slides.back {s t} (h : Slides s t) (b : Str) : Slides (s ++ b) (t ++ b) := by
  induction h with
  | none => exact .none
  | one h1 _ ih => exact .one (h1.back b) ih

theorem Slides.append {s t s' t'} (h : Slides s t) (h' : Slides s' t') : Slides (s ++ s') (t ++ t') :=
  (h.back s').trans (h'.front t)

/-- A text without dollar signs slides out to before a dollar sign. -/
theorem slides_out (w : Str) : ∀ (y v : Str), '$' ∉ y → Slides ('$' :: (w ++ (y ++ v))) (y ++ '$' :: (w ++ v)) := by
  intro y
  induction y with
  | nil => intro v _; exact .none
  | cons c y ih =>
    intro v h
    have hc : c ≠ '$' := by rintro rfl; simp at h
    exact .one (by simpa using Slide.moved (u := []) (x := w) (v := y ++ v) hc) ((ih v (by simp_all)).front [c])

/-- A dollar sign slides to the end of anything. -/
theorem slides_end : ∀ (m v : Str), Slides ('$' :: (m ++ v)) (m ++ '$' :: v) := by
  intro m
  induction m with
  | nil => intro v; exact .none
  | cons c m ih =>
    intro v
    by_cases hc : c = '$'
    · subst hc; exact (ih v).front ['$']
    · exact .one (by simpa using Slide.moved (u := []) (x := []) (v := m ++ v) hc) ((ih v).front [c])

/-! ### how far to the right -/

theorem farness_append (u : Str) : ∀ (n : Nat) (v : Str), farness n (u ++ v) = farness n u + farness (n + u.length) v := by
  induction u with
  | nil => intro n v; simp [farness]
  | cons c u ih => intro n v; simp only [List.cons_append, farness, ih, List.length_cons]; rw [show n + 1 + u.length = n + (u.length + 1) by omega]; omega

theorem farness_mono (v : Str) : ∀ (n : Nat), farness n v ≤ farness (n + 1) v := by
  induction v with
  | nil => intro n; simp [farness]
  | cons c v ih => intro n; have := ih (n + 1); simp only [farness]; split <;> omega

theorem farness_bound (v : Str) : ∀ (n : Nat), farness n v ≤ v.length * (n + v.length) := by
  induction v with
  | nil => intro n; simp [farness]
  | cons c v ih =>
    intro n
    have := ih (n + 1)
    simp only [farness, List.length_cons, Nat.add_mul, Nat.one_mul]
    rw [show n + 1 + v.length = n + (v.length + 1) by omega] at this
    split <;> omega

theorem weight_append (a b : Str) : weight (a ++ b) = weight a + weight b := by
  simp [weight]; omega

theorem Slide.ahead {s t} (h : Slide s t) : Ahead t s := by
  cases h with
  | @moved c u x v h =>
    right
    constructor
    · simp [weight, List.countP_cons]; omega
    · simp only [farness_append, farness, if_neg h, if_pos]
      have := farness_mono x (u.length + 1)
      simp only [List.length_append, List.length_cons, Nat.zero_add] at *
      have e : u.length + 1 + x.length + 1 = u.length + 1 + 1 + x.length := by omega
      rw [e]; omega
  | @dropped d u v h =>
    left
    simp only [weight, List.length_append, List.length_cons, List.countP_append, List.countP_cons]; omega

theorem Ahead.trans {r t s} (h : Ahead r t) (h' : Ahead t s) : Ahead r s := by
  unfold Ahead at *; omega

theorem Slides.ahead {s t} (h : Slides s t) : t = s ∨ Ahead t s := by
  induction h with
  | none => exact .inl rfl
  | one h1 _ ih =>
    rcases ih with rfl | ih
    · exact .inr h1.ahead
    · exact .inr (ih.trans h1.ahead)

end LatexAst.Spec

namespace LatexAst.Ast3
open Spec

/-- What comes from the place on. -/
def ahead (p : Place) : Str := p.pending ++ (p.text ++ Ast2.displayChunks p.rest)

theorem toDollar_slides {p lost kept p'} (h : ToDollar p lost kept p') (hp : '$' ∉ p.pending) : ∀ (w : Str),
    Slides ('$' :: (w ++ ahead p)) (displayChunks lost ++
      '$' :: (w ++ (Ast2.displayChunks kept ++ (p'.pending ++ '$' :: (p'.text ++ Ast2.displayChunks p'.rest))))) := by
  induction h with
  | here hx => intro w; exact .of_eq (by simp [ahead, displayChunks, Ast2.displayChunks])
  | @later l q x ms l' t rest lost kept p hx _ _ ih =>
    intro w
    have h1 := slides_out w (q ++ x) (Ast2.displayChunks ms ++ (t ++ Ast2.displayChunks rest)) (by simp_all)
    have h2 := (ih (by simp) (w ++ Ast2.displayChunks ms)).front (q ++ x)
    refine (Slides.of_eq ?_).trans (h1.trans ((Slides.of_eq ?_).trans (h2.trans (.of_eq ?_))))
    · simp [ahead, Ast2.displayChunks, Ast2.Chunk.display, Ast2.ChunkVariant.display]
    · simp [ahead]
    · simp [display_textIf]

theorem toDollar_slides2 {p lost kept p'} (h : ToDollar p lost kept p') (hp : '$' ∉ p.pending) : ∀ (w : Str),
    Slides ('$' :: (w ++ (p.pending ++ '$' :: (p.text ++ Ast2.displayChunks p.rest)))) (displayChunks lost ++
      '$' :: (w ++ (Ast2.displayChunks kept ++ (p'.pending ++ '$' :: '$' :: (p'.text ++ Ast2.displayChunks p'.rest))))) := by
  induction h with
  | @here l q x r rest hx =>
    intro w
    have h1 := (slides_end x ('$' :: (r ++ Ast2.displayChunks rest))).front ('$' :: (w ++ q))
    refine (Slides.of_eq ?_).trans (h1.trans (.of_eq ?_))
    · simp
    · simp [displayChunks, Ast2.displayChunks]
  | @later l q x ms l' t rest lost kept p hx _ _ ih =>
    intro w
    have h0 := (slides_end x (Ast2.displayChunks ms ++ (t ++ Ast2.displayChunks rest))).front ('$' :: (w ++ q))
    have h1 := slides_out w (q ++ x) ('$' :: (Ast2.displayChunks ms ++ (t ++ Ast2.displayChunks rest))) (by simp_all)
    have h3 := (slides_end (Ast2.displayChunks ms) (t ++ Ast2.displayChunks rest)).front (q ++ x ++ '$' :: w)
    have h2 := (ih (by simp) (w ++ Ast2.displayChunks ms)).front (q ++ x)
    refine (Slides.of_eq ?_).trans (h0.trans ((Slides.of_eq ?_).trans (h1.trans ((Slides.of_eq ?_).trans (h3.trans ((Slides.of_eq ?_).trans (h2.trans (.of_eq ?_))))))))
    · simp [Ast2.displayChunks, Ast2.Chunk.display, Ast2.ChunkVariant.display]
    · simp
    · simp
    · simp
    · simp [display_textIf]

theorem formula_slides {p lost type content p'} (h : Formula p lost type content p') (hp : p.pending = []) :
    Slides ('$' :: (p.text ++ Ast2.displayChunks p.rest)) (displayChunks lost ++ ((delimiters .dollars type).1 ++
      (Ast2.displayChunks content ++ ((delimiters .dollars type).2 ++ (p'.text ++ Ast2.displayChunks p'.rest))))) := by
  cases h with
  | inline h1 h2 =>
    have := toDollar_slides h1 (by simp [hp]) []
    simpa [ahead, hp, delimiters, display_textIf2] using this
  | @display lost1 p1 lost2 kept2 p2 lost3 kept3 _ h1 h2 h3 h4 =>
    have a1 := toDollar_slides h1 (by simp [hp]) []
    have a2 := (toDollar_slides h3 (by simp [h2]) ['$']).front (displayChunks lost1)
    have a3 := (toDollar_slides2 h4 (toDollar_clean h3 (by simp [h2])).1 ('$' :: Ast2.displayChunks kept2)).front
      (displayChunks lost1 ++ displayChunks lost2)
    refine (Slides.of_eq ?_).trans (a1.trans ((Slides.of_eq ?_).trans (a2.trans ((Slides.of_eq ?_).trans (a3.trans (.of_eq ?_))))))
    · simp [ahead, hp]
    · simp [ahead, h2, Ast2.displayChunks]
    · simp
    · simp [delimiters, display_textIf2]

theorem slides_delim (k : MathsType) (v : Str) : Slides ('\\' :: (openLabel k ++ v)) v ∧ Slides ('\\' :: (closeLabel k ++ v)) v := by
  cases k <;> exact ⟨.one (.dropped (u := []) (by simp)) .none, .one (.dropped (u := []) (by simp)) .none⟩

theorem bareDelims_mem {c : Ast2.Chunk} {label args} (h : c.All BareDelims) (hc : c.variant = .command (.mk label args))
    (hl : IsMathsLabel label) : args = [] := by
  obtain ⟨l, v⟩ := c
  simp only [Ast2.Chunk.variant] at hc
  subst hc
  exact h.1 label args rfl hl

theorem inside_slides {k body inner} (h : Inside k body inner) (hb : Ast2.AllChunks BareDelims body) :
    Slides (Ast2.displayChunks body) (Ast2.displayChunks inner) ∧ Ast2.AllChunks BareDelims inner := by
  induction h with
  | nil => exact ⟨.none, hb⟩
  | @other c body inner hn _ ih =>
    obtain ⟨h1, h2⟩ := hb
    obtain ⟨i1, i2⟩ := ih h2
    exact ⟨by simpa [Ast2.displayChunks] using i1.front _, h1, i2⟩
  | @nested l args b1 i1 l' args' b2 i2 _ _ ih1 ih2 =>
    rw [Ast2.allChunks_iff_forall] at hb
    have e1 : args = [] := bareDelims_mem (hb _ (.head _)) rfl ⟨k, .inl rfl⟩
    have e2 : args' = [] := bareDelims_mem (hb (.mk l' (.command (.mk (closeLabel k) args'))) (by simp)) rfl ⟨k, .inr rfl⟩
    subst e1 e2
    obtain ⟨g1, g2⟩ := ih1 ((Ast2.allChunks_iff_forall _).2 fun c hc => hb c (by simp [hc]))
    obtain ⟨g3, g4⟩ := ih2 ((Ast2.allChunks_iff_forall _).2 fun c hc => hb c (by simp [hc]))
    refine ⟨?_, (Ast2.allChunks_append _ _).2 ⟨g2, g4⟩⟩
    refine (Slides.of_eq ?_).trans ((slides_delim k _).1.trans ((g1.append ((slides_delim k _).2.trans g3)).trans (.of_eq ?_)))
    · simp [Ast2.displayChunks, Ast2.Chunk.display, Ast2.ChunkVariant.display, Ast2.Command.display, Ast2.displayArgs]
    · simp

theorem args_slides {items : List ((Str × Ast2.Scope) × Outcome)} {args} (h : argOutcome items = .ok args)
    (ih : ∀ x ∈ items, ∀ out, x.2 = .ok out → Slides (Ast2.displayChunks x.1.2.chunks) (displayChunks out)) :
    Slides (Ast2.displayArgs (items.map (·.1))) (displayArgs args) := by
  induction items generalizing args with
  | nil => simp [argOutcome] at h; subst h; exact .none
  | cons x r ihr =>
    obtain ⟨⟨p, ⟨inner, sv⟩⟩, o⟩ := x
    cases o with
    | error f => simp [argOutcome] at h
    | ok out =>
      cases ha : argOutcome r with
      | error f => simp [argOutcome, ha] at h
      | ok args' =>
        simp [argOutcome, ha] at h
        subst h
        have h1 := ihr ha fun y hy => ih y (.tail _ hy)
        have h2 := ih _ (.head _) out rfl
        have := (((h2.front [sv.opening]).back [sv.closing]).front p).append h1
        simpa [displayArgs, Ast2.displayArgs, Scope.display, Ast2.Scope.display, display_paragraphs, Ast2.Scope.variant,
          Ast2.Scope.chunks] using this

theorem bare_items {items : List ((Str × Ast2.Scope) × Outcome)} (h : Ast2.AllArgs BareDelims (items.map (·.1))) :
    ∀ x ∈ items, Ast2.AllChunks BareDelims x.1.2.chunks := by
  intro x hx
  have := (Ast2.allArgs_iff_forall _).1 h _ (List.mem_map.2 ⟨x, hx, rfl⟩)
  obtain ⟨⟨p, ⟨inner, sv⟩⟩, o⟩ := x
  exact this

theorem Yields.slides {b cs o} (h : Yields b cs o) : Ast2.AllChunks BareDelims cs → ∀ out, o = .ok out →
    Slides (Ast2.displayChunks cs) (displayChunks out) := by
  induction h with
  | nil => rintro _ _ ⟨⟩; exact .none
  | @text b l t cs o _ _ ih =>
    intro hb out h
    obtain ⟨o', rfl, rfl⟩ := before_ok h
    have := (ih hb.2 _ rfl).front t
    simpa [display_textIf, Ast2.displayChunks, Ast2.Chunk.display, Ast2.ChunkVariant.display] using this
  | @formula b l q r cs lost type content p i o hq hf _ _ _ ih1 ih2 =>
    intro hb out h
    cases i with
    | error f => simp [blockOutcome] at h
    | ok i =>
      obtain ⟨o', rfl, rfl⟩ := before_ok h
      obtain ⟨kept, rfl, k1, k2, k3, k4, k5, k6⟩ := formula_parts hf (by simp)
      have hb' := (Ast2.allChunks_iff_forall _).1 hb.2
      have b1 : Ast2.AllChunks BareDelims ((kept ++ textIf2 p.line p.pending).map (countFrom p.line)) := by
        rw [Ast2.allChunks_iff_forall]
        intro c hc
        obtain ⟨c', hc', rfl⟩ := List.mem_map.1 hc
        rcases List.mem_append.1 hc' with hc' | hc'
        · have := hb' _ (k2 c' hc')
          obtain ⟨l, v⟩ := c'
          exact this
        · unfold textIf2 at hc'
          split at hc'
          · cases hc'
          · simp only [List.mem_singleton] at hc'
            subst hc'
            exact (by intro _ _ h; cases h)
      have b2 : Ast2.AllChunks BareDelims (.mk (p.line + p.pending.count '\n') (.text p.text) :: p.rest) :=
        ⟨(by intro _ _ h; cases h), (Ast2.allChunks_iff_forall _).2 fun c hc => hb' c (k3 c hc)⟩
      have h1 := ih1 b1 _ rfl
      have h2 := ih2 b2 _ rfl
      have h3 := (formula_slides hf rfl).front q
      rw [display_countFrom] at h1
      have h4 := ((h1.append (h2.front (delimiters .dollars type).2)).front (q ++ displayChunks lost ++ (delimiters .dollars type).1))
      refine (Slides.of_eq ?_).trans (h3.trans ((Slides.of_eq ?_).trans (h4.trans (.of_eq ?_))))
      · simp [Ast2.displayChunks, Ast2.Chunk.display, Ast2.ChunkVariant.display]
      · simp [Ast2.displayChunks, Ast2.Chunk.display, Ast2.ChunkVariant.display]
      · simp [display_textIf, displayChunks, Chunk.display, ChunkVariant.display, MathsBlock.display, display_paragraphs]
  | uncountable => intro _ out h; cases h
  | unfinished => intro _ out h; cases h
  | @brackets b k l args body inner l' args' cs i o hin _ _ ih1 ih2 =>
    intro hb out h
    cases i with
    | error f => simp [blockOutcome] at h
    | ok i =>
      obtain ⟨o', rfl, rfl⟩ := before_ok h
      have hb' := (Ast2.allChunks_iff_forall _).1 hb
      have e1 : args = [] := bareDelims_mem (hb' _ (.head _)) rfl ⟨k, .inl rfl⟩
      have e2 : args' = [] := bareDelims_mem (hb' (.mk l' (.command (.mk (closeLabel k) args'))) (by simp)) rfl ⟨k, .inr rfl⟩
      subst e1 e2
      obtain ⟨g1, g2⟩ := inside_slides hin ((Ast2.allChunks_iff_forall _).2 fun c hc => hb' c (by simp [hc]))
      have h1 := ih1 g2 _ rfl
      have h2 := ih2 ((Ast2.allChunks_iff_forall _).2 fun c hc => hb' c (by simp [hc])) _ rfl
      have h4 := delims_bracket k
      have h5 := ((g1.trans h1).append (h2.front ('\\' :: closeLabel k))).front ('\\' :: openLabel k)
      refine (Slides.of_eq ?_).trans (h5.trans (.of_eq ?_))
      · simp [Ast2.displayChunks, Ast2.Chunk.display, Ast2.ChunkVariant.display, Ast2.Command.display, Ast2.displayArgs]
      · simp [displayChunks, Chunk.display, ChunkVariant.display, MathsBlock.display, display_paragraphs, h4]
  | unclosed => intro _ out h; cases h
  | unexpected => intro _ out h; cases h
  | @scope b l inner sv cs i o _ _ ih1 ih2 =>
    intro hb out h
    cases i with
    | error f => simp [scopeOutcome] at h
    | ok i =>
      simp only [scopeOutcome] at h
      obtain ⟨o', rfl, rfl⟩ := before_ok h
      have h1 := ih1 hb.1.2 _ rfl
      have h2 := ih2 hb.2 _ rfl
      have h5 := (h1.append (h2.front [sv.closing])).front [sv.opening]
      simpa [displayChunks, Chunk.display, ChunkVariant.display, Scope.display, display_paragraphs,
          Ast2.displayChunks, Ast2.Chunk.display, Ast2.ChunkVariant.display, Ast2.Scope.display] using h5
  | @command b l label cs o items _ _ _ ih1 ih2 =>
    intro hb out h
    cases ha : argOutcome items with
    | error f => simp [commandOutcome, ha] at h
    | ok args =>
      simp only [commandOutcome, ha] at h
      obtain ⟨o', rfl, rfl⟩ := before_ok h
      have hi := bare_items hb.1.2
      have h1 := args_slides ha fun x hx => ih1 x hx (hi x hx)
      have h2 := ih2 hb.2 _ rfl
      have h5 := (h1.append h2).front ('\\' :: label)
      simpa [displayChunks, Chunk.display, ChunkVariant.display, Command.display,
          Ast2.displayChunks, Ast2.Chunk.display, Ast2.ChunkVariant.display, Ast2.Command.display] using h5
  | @environment b l label body pb pe cs i o items _ _ _ ih1 ih2 ih3 =>
    intro hb out h
    cases ha : argOutcome items with
    | error f => simp [environmentOutcome, ha] at h
    | ok args =>
      cases i with
      | error f => simp [environmentOutcome, ha] at h
      | ok i =>
        simp only [environmentOutcome, ha] at h
        obtain ⟨o', rfl, rfl⟩ := before_ok h
        have hi := bare_items hb.1.2.1
        have h1 := args_slides ha fun x hx => ih1 x hx (hi x hx)
        have h2 := ih2 hb.1.2.2 _ rfl
        have h3 := ih3 hb.2 _ rfl
        have h5 := (h1.append (h2.append (h3.front (chars!"\\end" ++ (pe ++ '{' :: (label ++ ['}'])))))).front (chars!"\\begin" ++ (pb ++ '{' :: (label ++ ['}'])))
        simpa [displayChunks, Chunk.display, ChunkVariant.display, Environment.display, display_paragraphs,
          Ast2.displayChunks, Ast2.Chunk.display, Ast2.ChunkVariant.display, Ast2.Environment.display] using h5

theorem maths_slides {cs out} (hb : Ast2.AllChunks BareDelims cs) (h : mathsFromChunks cs = .ok out) :
    Slides (Ast2.displayChunks cs) (displayChunks out) := by
  obtain ⟨o, h1, h2⟩ := yields_iff.1 h
  cases o with
  | error f => cases h2
  | ok raw =>
    cases h2
    rw [display_paragraphs]
    exact h1.slides hb _ rfl

theorem document_slides {e f} (h' : tryFrom e = .ok f) (hb : Ast2.AllChunks BareDelims e)
    {pre post : List Ast2.Chunk} {l args content pb pe}
    (he : e = pre ++ .mk l (.environment (.mk chars!"document" args content pb pe)) :: post)
    (hpre : ∀ c ∈ pre, isBody c = false) (hpost : ∀ c ∈ post, isBody c = false) :
    Slides (Ast2.displayChunks (pre ++ .mk l (.environment (.mk chars!"document" args content pb pb)) :: post)) f.display := by
  subst he
  obtain ⟨pre', args', content', post', h1, h2, h3, h4, rfl⟩ := sections_body h' hpre hpost
  rw [Ast2.allChunks_append] at hb
  obtain ⟨hb1, ⟨_, hb2, hb3⟩, hb4⟩ := hb
  have k1 := maths_slides hb1 h1
  have k2 := maths_slides hb3 h3
  have k3 := maths_slides hb4 h4
  have k4 : Slides (Ast2.displayArgs args) (displayArgs args') := by
    refine displayArgs_rel3 h2 (F := fun x y => Slides y x) .none ?_ ?_
    · intro p sv x y r r' g1 g2
      exact ((((g1.back [sv.closing]).front [sv.opening]).front p).append g2 |> fun h => by simpa using h)
    · intro p inner sv out hm ho
      exact maths_slides ((Ast2.allArgs_iff_forall _).1 hb2 _ hm) ho
  rw [display_document, display2_append, Ast2.displayChunks, display_body2]
  simp only [List.append_assoc]
  exact k1.append (Slides.front (Slides.front (Slides.front (k4.append (k2.append (Slides.front (Slides.front (Slides.front k3 _) _) _))) _) _) _)

end LatexAst.Ast3

import Verif.Spec.Trouble
import Verif.Proofs.DocumentRule

/-!
# The first problem of a stage-3 conversion
-/

namespace LatexAst.Ast3

theorem argSplit {items : List ((Str × Ast2.Scope) × Outcome)} {e : Fail} (h : argOutcome items = .error e) :
    ∃ i1 x i2, items = i1 ++ x :: i2 ∧ x.2 = .error e ∧ ∀ y ∈ i1, ∃ c, y.2 = .ok c := by
  induction items with
  | nil => cases h
  | cons x r ih =>
    obtain ⟨⟨p, sc⟩, o⟩ := x
    cases o with
    | error f =>
      simp only [argOutcome, Except.error.injEq] at h
      subst h
      exact ⟨[], _, r, rfl, rfl, by simp⟩
    | ok c =>
      cases hr : argOutcome r with
      | ok a => simp [argOutcome, hr] at h
      | error f =>
        simp only [argOutcome, hr, Except.error.injEq] at h
        subst h
        obtain ⟨i1, x, i2, rfl, h1, h2⟩ := ih hr
        refine ⟨_ :: i1, x, i2, rfl, h1, ?_⟩
        intro y hy
        rcases List.mem_cons.1 hy with rfl | hy
        · exact ⟨c, rfl⟩
        · exact h2 y hy

theorem argAllOk {items : List ((Str × Ast2.Scope) × Outcome)} {a} (h : argOutcome items = .ok a) :
    ∀ y ∈ items, ∃ c, y.2 = .ok c := by
  induction items generalizing a with
  | nil => simp
  | cons x r ih =>
    obtain ⟨⟨p, sc⟩, o⟩ := x
    cases o with
    | error f => simp [argOutcome] at h
    | ok c =>
      cases hr : argOutcome r with
      | error f => simp [argOutcome, hr] at h
      | ok a' =>
        intro y hy
        rcases List.mem_cons.1 hy with rfl | hy
        · exact ⟨c, rfl⟩
        · exact ih hr y hy

theorem argItemsOk {args : List (Str × Ast2.Scope)} (h : ∀ x ∈ args, Fine x.2.chunks) :
    ∃ items : List ((Str × Ast2.Scope) × Outcome), items.map (·.1) = args ∧
      (∀ x ∈ items, Yields 0 x.1.2.chunks x.2) ∧ ∃ b, argOutcome items = .ok b := by
  induction args with
  | nil => exact ⟨[], rfl, by simp, [], rfl⟩
  | cons x r ih =>
    obtain ⟨items, h1, h2, b, h3⟩ := ih fun y hy => h y (.tail _ hy)
    obtain ⟨c, hc⟩ := h x (.head _)
    obtain ⟨p, sc⟩ := x
    refine ⟨((p, sc), .ok c) :: items, by simp [h1], ?_, (p, .mk (paragraphs c) sc.variant) :: b, by simp [argOutcome, h3]⟩
    intro y hy
    rcases List.mem_cons.1 hy with rfl | hy
    · exact hc
    · exact h2 y hy

theorem argOutcome_split {i1 : List ((Str × Ast2.Scope) × Outcome)} {b x r} (h : argOutcome i1 = .ok b) (e : Fail)
    (hx : x.2 = .error e) : argOutcome (i1 ++ x :: r) = .error e := by
  induction i1 generalizing b with
  | nil => obtain ⟨⟨p, sc⟩, o⟩ := x; simp only at hx; subst hx; simp [argOutcome]
  | cons y i1 ih =>
    obtain ⟨⟨p, sc⟩, o⟩ := y
    cases o with
    | error f => simp [argOutcome] at h
    | ok c =>
      cases hr : argOutcome i1 with
      | error f => simp [argOutcome, hr] at h
      | ok a => simp [argOutcome, ih hr]

theorem argItemsError {a1 a2 : List (Str × Ast2.Scope)} {p inner sv e}
    (h : ∀ x ∈ a1, Fine x.2.chunks) (he : Yields 0 inner (.error e)) :
    ∃ items : List ((Str × Ast2.Scope) × Outcome), items.map (·.1) = a1 ++ (p, .mk inner sv) :: a2 ∧
      (∀ x ∈ items, Yields 0 x.1.2.chunks x.2) ∧ argOutcome items = .error e := by
  obtain ⟨i1, h1, h2, b, h3⟩ := argItemsOk h
  obtain ⟨i2, h4, h5⟩ := yield_items (args := a2) fun x _ => yields_total 0 x.2.chunks
  refine ⟨i1 ++ ((p, .mk inner sv), .error e) :: i2, by simp [h1, h4], ?_, argOutcome_split h3 e rfl⟩
  intro x hx
  rcases List.mem_append.1 hx with hx | hx
  · exact h2 x hx
  · rcases List.mem_cons.1 hx with rfl | hx
    · exact he
    · exact h5 x hx

theorem yields_congr {b cs o o'} (h : Yields b cs o) (e : o = o') : Yields b cs o' := e ▸ h

theorem Passes.error {b cs b' rest f} (h : Passes b cs b' rest) (hr : Yields b' rest (.error f)) :
    Yields b cs (.error f) := by
  induction h with
  | refl => exact hr
  | text h1 _ ih => exact yields_congr (.text h1 (ih hr)) (by simp [before])
  | formula h1 h2 h3 h4 _ ih =>
    obtain ⟨out, h4⟩ := h4
    exact yields_congr (.formula h1 h2 h3 h4 (ih hr)) (by simp [blockOutcome, before])
  | brackets h1 h4 _ ih =>
    obtain ⟨out, h4⟩ := h4
    exact yields_congr (.brackets h1 h4 (ih hr)) (by simp [blockOutcome, before])
  | scope h4 _ ih =>
    obtain ⟨out, h4⟩ := h4
    exact yields_congr (.scope h4 (ih hr)) (by simp [scopeOutcome, before])
  | command h1 h2 _ ih =>
    obtain ⟨items, rfl, h3, a, h4⟩ := argItemsOk h2
    exact yields_congr (.command h1 h3 (ih hr)) (by simp [commandOutcome, h4, before])
  | environment h2 h5 _ ih =>
    obtain ⟨items, rfl, h3, a, h4⟩ := argItemsOk h2
    obtain ⟨out, h5⟩ := h5
    exact yields_congr (.environment h3 h5 (ih hr)) (by simp [environmentOutcome, h4, before])

theorem Enters.error {b rest inner f} (h : Enters rest inner) (hr : Yields 0 inner (.error f)) :
    Yields b rest (.error f) := by
  cases h with
  | formula h1 h2 h3 =>
    obtain ⟨o, ho⟩ := yields_total b _
    exact yields_congr (.formula h1 h2 h3 hr ho) (by simp [blockOutcome])
  | brackets h1 =>
    obtain ⟨o, ho⟩ := yields_total _ _
    exact yields_congr (.brackets h1 hr ho) (by simp [blockOutcome])
  | scope =>
    obtain ⟨o, ho⟩ := yields_total b _
    exact yields_congr (.scope hr ho) (by simp [scopeOutcome])
  | arg h1 h2 =>
    obtain ⟨o, ho⟩ := yields_total b _
    obtain ⟨items, h3, h4, h5⟩ := argItemsError (a2 := _) h2 hr
    rw [← h3]
    exact yields_congr (.command h1 h4 ho) (by simp [commandOutcome, h5])
  | envArg h2 =>
    obtain ⟨o, ho⟩ := yields_total b _
    obtain ⟨i, hi⟩ := yields_total 0 _
    obtain ⟨items, h3, h4, h5⟩ := argItemsError (a2 := _) h2 hr
    rw [← h3]
    exact yields_congr (.environment h4 hi ho) (by simp [environmentOutcome, h5])
  | envContent h2 =>
    obtain ⟨o, ho⟩ := yields_total b _
    obtain ⟨items, h3, h4, a, h5⟩ := argItemsOk h2
    rw [← h3]
    exact yields_congr (.environment h4 hr ho) (by simp [environmentOutcome, h5])

/-- What is at the front of `rest` fails with `f`. -/
inductive Ends3 (b : Nat) (rest : List Ast2.Chunk) : Fail → Prop
  | stuck {e} : Stuck b rest e → Ends3 b rest (.err e)
  | panic : Overflows rest → Ends3 b rest .panic

theorem Ends3.error {b rest f} (h : Ends3 b rest f) : Yields b rest (.error f) := by
  cases h with
  | stuck h =>
    cases h with
    | unfinished h1 h2 => exact .unfinished h1 h2
    | unclosed h1 => exact .unclosed h1
    | unexpected => exact .unexpected
  | panic h =>
    obtain ⟨l, q, r, cs, lost, type, content, p, rfl, h1, h2, h3⟩ := h
    exact .uncountable h1 h2 h3

/-- Where the problem is. -/
def Located (b : Nat) (cs : List Ast2.Chunk) (f : Fail) : Prop :=
  ∃ b' rest, Passes b cs b' rest ∧ (Ends3 b' rest f ∨ ∃ inner fr b'' rest', Enters rest inner ∧ First inner fr ∧
    Passes 0 fr b'' rest' ∧ Ends3 b'' rest' f)

theorem located_here {b rest f} (h : Ends3 b rest f) : Located b rest f := ⟨b, rest, .refl, .inl h⟩

theorem located_inner {b cs inner f} (he : Enters cs inner) (h : Located 0 inner f) : Located b cs f := by
  obtain ⟨b', rest, h1, h2 | ⟨i2, fr, b'', rest', h3, h4, h5, h6⟩⟩ := h
  · exact ⟨b, cs, .refl, .inr ⟨inner, inner, b', rest, he, .here, h1, h2⟩⟩
  · exact ⟨b, cs, .refl, .inr ⟨inner, fr, b'', rest', he, .nested h1 h3 h4, h5, h6⟩⟩

theorem located_pass {b cs b1 cs1 f} (hp : ∀ {b' rest}, Passes b1 cs1 b' rest → Passes b cs b' rest) (h : Located b1 cs1 f) :
    Located b cs f := by
  obtain ⟨b', rest, h1, h2⟩ := h
  exact ⟨b', rest, hp h1, h2⟩

theorem arg_located {items : List ((Str × Ast2.Scope) × Outcome)} {f : Fail}
    (hi : ∀ x ∈ items, Yields 0 x.1.2.chunks x.2) (h : argOutcome items = .error f) :
    ∃ a1 p inner sv a2, items.map (·.1) = a1 ++ (p, .mk inner sv) :: a2 ∧ (∀ x ∈ a1, Fine x.2.chunks) ∧
      ∃ x ∈ items, x.1 = (p, .mk inner sv) ∧ x.2 = .error f := by
  obtain ⟨i1, x, i2, rfl, h1, h2⟩ := argSplit h
  obtain ⟨⟨p, ⟨inner, sv⟩⟩, o⟩ := x
  refine ⟨i1.map (·.1), p, inner, sv, i2.map (·.1), by simp, ?_, _, by simp, rfl, h1⟩
  intro y hy
  obtain ⟨z, hz, rfl⟩ := List.mem_map.1 hy
  obtain ⟨c, hc⟩ := h2 z hz
  exact ⟨c, hc ▸ hi z (by simp [hz])⟩

theorem arg_fine {items : List ((Str × Ast2.Scope) × Outcome)} {a}
    (hi : ∀ x ∈ items, Yields 0 x.1.2.chunks x.2) (h : argOutcome items = .ok a) :
    ∀ x ∈ items.map (·.1), Fine x.2.chunks := by
  intro y hy
  obtain ⟨z, hz, rfl⟩ := List.mem_map.1 hy
  obtain ⟨c, hc⟩ := argAllOk h z hz
  exact ⟨c, hc ▸ hi z hz⟩

theorem before_error {pre : List Chunk} {o : Outcome} {f} (h : before pre o = .error f) : o = .error f := by
  cases o with
  | ok c => simp [before] at h
  | error g => simpa [before] using h

theorem located_of_error {b cs o} (h : Yields b cs o) : ∀ f, o = .error f → Located b cs f := by
  induction h with
  | nil => intro f e; cases e
  | text h1 _ ih => intro f e; exact located_pass (fun hp => .text h1 hp) (ih f (before_error e))
  | @formula b l q r cs lost type content p i o h1 h2 h3 h4 h5 ih1 ih2 =>
    intro f e
    cases i with
    | error g =>
      simp only [blockOutcome, Except.error.injEq] at e
      subst e
      exact located_inner (.formula h1 h2 h3) (ih1 _ rfl)
    | ok c => exact located_pass (fun hp => .formula h1 h2 h3 ⟨c, h4⟩ hp) (ih2 f (before_error e))
  | uncountable h1 h2 h3 =>
    intro f e
    cases e
    exact located_here (.panic ⟨_, _, _, _, _, _, _, _, rfl, h1, h2, h3⟩)
  | unfinished h1 h2 =>
    intro f e
    cases e
    exact located_here (.stuck (.unfinished h1 h2))
  | @brackets b k l args body inner l' args' cs i o h1 h4 h5 ih1 ih2 =>
    intro f e
    cases i with
    | error g =>
      simp only [blockOutcome, Except.error.injEq] at e
      subst e
      exact located_inner (.brackets h1) (ih1 _ rfl)
    | ok c => exact located_pass (fun hp => .brackets h1 ⟨c, h4⟩ hp) (ih2 f (before_error e))
  | unclosed h1 =>
    intro f e
    cases e
    exact located_here (.stuck (.unclosed h1))
  | unexpected =>
    intro f e
    cases e
    exact located_here (.stuck .unexpected)
  | @scope b l inner sv cs i o h4 h5 ih1 ih2 =>
    intro f e
    cases i with
    | error g =>
      simp only [scopeOutcome, Except.error.injEq] at e
      subst e
      exact located_inner .scope (ih1 _ rfl)
    | ok c => exact located_pass (fun hp => .scope ⟨c, h4⟩ hp) (ih2 f (before_error e))
  | @command b l label cs o items h1 h2 h3 ih1 ih2 =>
    intro f e
    cases ha : argOutcome items with
    | error g =>
      simp only [commandOutcome, ha, Except.error.injEq] at e
      subst e
      obtain ⟨a1, p, inner, sv, a2, h4, h5, x, hx, h6, h7⟩ := arg_located h2 ha
      rw [h4]
      refine located_inner (.arg h1 h5) ?_
      have := ih1 x hx _ h7
      simpa [h6, Ast2.Scope.chunks] using this
    | ok a =>
      simp only [commandOutcome, ha] at e
      exact located_pass (fun hp => .command h1 (arg_fine h2 ha) hp) (ih2 f (before_error e))
  | @environment b l label body pb pe cs i o items h1 h2 h3 ih1 ih2 ih3 =>
    intro f e
    cases ha : argOutcome items with
    | error g =>
      simp only [environmentOutcome, ha, Except.error.injEq] at e
      subst e
      obtain ⟨a1, p, inner, sv, a2, h4, h5, x, hx, h6, h7⟩ := arg_located h1 ha
      rw [h4]
      refine located_inner (.envArg h5) ?_
      have := ih1 x hx _ h7
      simpa [h6, Ast2.Scope.chunks] using this
    | ok a =>
      simp only [environmentOutcome, ha] at e
      cases i with
      | error g =>
        simp only [Except.error.injEq] at e
        subst e
        exact located_inner (.envContent (arg_fine h1 ha)) (ih2 _ rfl)
      | ok c => exact located_pass (fun hp => .environment (arg_fine h1 ha) ⟨c, h2⟩ hp) (ih3 f (before_error e))

theorem First.error {cs fr b rest f} (h : First cs fr) (hp : Passes 0 fr b rest) (hr : Yields b rest (.error f)) :
    Yields 0 cs (.error f) := by
  induction h with
  | here => exact hp.error hr
  | nested h1 h2 _ ih => exact h1.error (h2.error (ih hp))

theorem yields_error_iff {cs f} : Yields 0 cs (.error f) ↔
    ∃ fr b rest, First cs fr ∧ Passes 0 fr b rest ∧ Ends3 b rest f := by
  constructor
  · intro h
    obtain ⟨b', rest, h1, h2 | ⟨inner, fr, b'', rest', h2, h3, h4, h5⟩⟩ := located_of_error h f rfl
    · exact ⟨cs, b', rest, .here, h1, h2⟩
    · exact ⟨fr, b'', rest', .nested h1 h2 h3, h4, h5⟩
  · rintro ⟨fr, b, rest, h1, h2, h3⟩
    exact h1.error h2 h3.error

theorem yields_panic_iff {cs} : Yields 0 cs (.error .panic) ↔
    ∃ fr b rest, First cs fr ∧ Passes 0 fr b rest ∧ Overflows rest := by
  rw [yields_error_iff]
  constructor
  · rintro ⟨fr, b, rest, h1, h2, ⟨⟩⟩
    exact ⟨fr, b, rest, h1, h2, ‹_›⟩
  · rintro ⟨fr, b, rest, h1, h2, h3⟩
    exact ⟨fr, b, rest, h1, h2, .panic h3⟩

theorem yields_err_iff {cs x} : Yields 0 cs (.error (.err x)) ↔
    ∃ fr b rest, First cs fr ∧ Passes 0 fr b rest ∧ Stuck b rest x := by
  rw [yields_error_iff]
  constructor
  · rintro ⟨fr, b, rest, h1, h2, h3⟩
    cases h3 with
    | stuck h3 => exact ⟨fr, b, rest, h1, h2, h3⟩
  · rintro ⟨fr, b, rest, h1, h2, h3⟩
    exact ⟨fr, b, rest, h1, h2, .stuck h3⟩

theorem becomes_error {cs f} : Becomes cs (.error f) ↔ Yields 0 cs (.error f) := by
  constructor
  · rintro ⟨o, h, e⟩
    cases o with
    | ok c => simp [inParagraphs] at e
    | error g =>
      simp only [inParagraphs, Except.error.injEq] at e
      exact e ▸ h
  · intro h; exact ⟨_, h, rfl⟩

theorem becomes_fine {cs} : (∃ out, Becomes cs (.ok out)) ↔ Fine cs := by
  constructor
  · rintro ⟨out, o, h, e⟩
    cases o with
    | ok c => exact ⟨c, h⟩
    | error g => simp [inParagraphs] at e
  · rintro ⟨out, h⟩
    exact ⟨_, _, h, rfl⟩

theorem reads_error {e : List Ast2.Chunk} {f} : Reads e (.error f) ↔
    (∃ x, f = .err x ∧ BadClass e x) ∨ ∃ part, Attempted e part ∧ Yields 0 part (.error f) := by
  constructor
  · intro h
    cases h with
    | double h1 h2 h3 => exact .inl ⟨_, rfl, .double h1 h2 h3⟩
    | tooMany h1 h2 h3 h4 => exact .inl ⟨_, rfl, .tooMany h1 h2 h3 h4⟩
    | body h1 h2 h3 h4 => exact .inr ⟨_, .body h1 h2 fun x hx => becomes_fine.1 (h3 x hx), becomes_error.1 h4⟩
    | preamble h1 h2 h3 => exact .inr ⟨_, .preamble h1 fun x hx => becomes_fine.1 (h2 x hx), becomes_error.1 h3⟩
    | trailing h1 h2 h3 h4 =>
      exact .inr ⟨_, .trailing h1 (fun x hx => becomes_fine.1 (h2 x hx)) (becomes_fine.1 ⟨_, h3⟩), becomes_error.1 h4⟩
  · rintro (⟨x, rfl, h⟩ | ⟨part, h, hy⟩)
    · cases h with
      | double h1 h2 h3 => exact .double h1 h2 h3
      | tooMany h1 h2 h3 h4 => exact .tooMany h1 h2 h3 h4
    · cases h with
      | body h1 h2 h3 => exact .body h1 h2 (fun x hx => becomes_fine.2 (h3 x hx)) (becomes_error.2 hy)
      | preamble h1 h2 => exact .preamble h1 (fun x hx => becomes_fine.2 (h2 x hx)) (becomes_error.2 hy)
      | trailing h1 h2 h3 =>
        obtain ⟨pre, h3⟩ := becomes_fine.2 h3
        exact .trailing h1 (fun x hx => becomes_fine.2 (h2 x hx)) h3 (becomes_error.2 hy)

end LatexAst.Ast3
